import Verif.Examples.Common
import Verif.Props.DiffopNet
import Verif.Props.GaussLayers

/-!
# Networks with differential operators which meet the hypotheses of C104
-/

namespace E2

open Mat Real

/-- `c104_cyclic`. -/
example (interp : ℝ → Img → Img) (N : ℕ) (hN : 0 < N) := c104_cyclic interp N hN (exCyc N) (fun n => exCyc_ok N n) fun n => exCyc_pos N n

/-- `c104_so2`. -/
example (interp : ℝ → Img → Img) := c104_so2 interp exSO (fun n => exSO_ok n) fun n => exSO_pos n

/-- `c104_flip`. -/
example (interp : ℝ → Img → Img) (axis : ℝ) := c104_flip interp axis (exCyc 2) (fun n => exCyc_ok 2 n) fun n => exCyc_pos 2 n

/-- `c104_dihedral`. -/
example (interp : ℝ → Img → Img) (N : ℕ) (hN : 0 < N) (axis : ℝ) := c104_dihedral interp N hN axis (exDih N) (fun n => exDih_ok N n) fun n => exDih_pos N n

/-- `c104_dihedral_turns`. -/
example (interp : ℝ → Img → Img) (N : ℕ) (hN : 0 < N) (axis : ℝ) := c104_dihedral_turns interp N hN axis (exDih N) (fun n => exDih_ok N n) fun n => exDih_pos N n

/-- `c104_o2`. -/
example (interp : ℝ → Img → Img) (axis : ℝ) := c104_o2 interp axis exO2 (fun n => exO2_ok n) fun n => exO2_pos n

/-- `c104_o2_turns`. -/
example (interp : ℝ → Img → Img) (axis : ℝ) := c104_o2_turns interp axis exO2 (fun n => exO2_ok n) fun n => exO2_pos n

/-- `c104_flip_wrong`: weights of finite differences exist. -/
example (interp : ℝ → Img → Img) := FDSpec.exists.imp fun _ hfd => c104_flip_wrong (A := Unit) (I := Unit) hfd interp

open Classical in
/-- `c104_network` with a reflection: on `Flip2dOnR2(axis=0)` a network with a derivative of a Gaussian of first order and a norm nonlinearity, the finite
difference version of which is that of `c104_flip_wrong`, commutes with the reflection, for all weights. -/
example (interp : ℝ → Img → Img) (f : ℝ → ℝ) (bias : List ℝ) : ∃ (ext : DiscExt) (smp : Sampler) (M : DiffopModule ℤ ℕ),
    r2diffopInitWith ext false "ga" (some 1) (flip2dDiffops 0) exArgs exFlipRep [0] [1] = some (smp, M) ∧ 0 < (M.exp smp exFlipRep [1]).dimension ∧
    ∀ (w b : List ℝ), w.length = (M.exp smp exFlipRep [1]).dimension → ∀ (x : GTensor ℕ (Pix (Fin 7) 5 → ℝ)), x.ty = [0] → x.data.length = 1 →
      ∃ y : ETensor ℕ (Fin 7), y.n = 3 ∧ ∀ junk : ℕ → (c n : ℕ) → List (Pix (Fin 7) n → ℝ), (∀ k, JunkOk (junk k)) →
        dnetForward exFlipRep junk [(0, (.diffop smp M [0] [1] w b : DLayer ℤ ℕ Unit Unit)), (1, .lib (.norm [1] f 0 bias))] ⟨5, x⟩ = some y ∧
        dnetForward exFlipRep junk [(0, (.diffop smp M [0] [1] w b : DLayer ℤ ℕ Unit Unit)), (1, .lib (.norm [1] f 0 bias))]
            ((⟨5, x⟩ : ETensor ℕ (Fin 7)).act (flipSpace interp 0) exFlipRep 1) = some (y.act (flipSpace interp 0) exFlipRep 1) := by
  let ext : DiscExt := ⟨fun _ _ _ => 0, fun eps a b p => (partialX^[a] (partialY^[b] (gaussRBF eps))) p, fun _ _ _ _ _ => 0⟩
  obtain ⟨smp, M, hM, hdim, -⟩ := c82_flip_layer ext (fun _ _ _ _ => rfl) interp
  refine ⟨ext, smp, M, hM, hdim, fun w b hw x hx hxl => ?_⟩
  obtain ⟨hM', hme⟩ := (c82_method ..).1 hM
  obtain ⟨s, rfl⟩ : ∃ s, smp = gaussSample ext.ga s := by
    rcases hme with ⟨-, h, -⟩ | ⟨h, -⟩ | ⟨s, -, -, h⟩
    · exact absurd h (by simp)
    · exact absurd h (by decide)
    · exact ⟨s, h⟩
  have hs : M.size = 3 := by
    obtain ⟨-, pw, hr, -⟩ := r2diffopInit_spec hM'
    have : exArgs.cfg.resolve = some (3, 1, 0) := rfl
    rw [this] at hr
    exact (congrArg (fun t : Option (ℕ × ℕ × ℕ) => (t.getD 0).1) hr).symm
  have hok : ∀ n, (exFlipRep n).WF ∧ ∀ i ∈ (exFlipRep n).irreps, ∃ k, Cyclic.irrep 2 k = some i := fun n => ⟨(exFlipRep_ok n).1, (exFlipRep_ok n).2.2⟩
  have hpos : ∀ n, 0 < (exFlipRep n).size := fun n => by rw [(exFlipRep_ok n).2.1]; exact one_pos
  obtain ⟨y, h2, -, -, h3, h4⟩ := c104_network (c62_flip (A := Unit) (I := Unit) interp 0 exFlipRep hok hpos) (c104_flip interp 0 exFlipRep hok hpos)
    [((0 : ℕ), (.diffop (gaussSample ext.ga s) M [0] [1] w b : DLayer ℤ ℕ Unit Unit)), (1, .lib (.norm [1] f 0 bias))] (by simp) (by simp)
    (by simp [DLayer.inTy, DLayer.outTy, Layer.inTy]) (n := 5) (m := 3)
    ⟨3, ⟨by simp, by simp, exArgs, hM', ⟨rfl, Or.inr (Or.inl ⟨_, s, fun _ _ _ _ => rfl, rfl⟩)⟩, one_pos, one_pos, hw, trivial, by rw [hs]; rfl, one_dvd _⟩,
      3, ⟨rfl, fun r _ => exFlipRep_orth r⟩, rfl⟩
    ⟨5, x⟩ rfl ⟨by simp [hx], by simp [hx, hxl, typeSize, (exFlipRep_ok 0).2.1]⟩ hx
  exact ⟨y, h2, fun junk hj => ⟨h3 junk hj,
    h4 1 (by simp [flipSpace, Cyclic.grp, Cyclic.isElement, Cyclic.order_eq]) (Or.inr ⟨0, by simp⟩) trivial junk hj⟩⟩

end E2
