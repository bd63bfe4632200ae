import Verif.Props.DiffopTree
import Verif.Examples.DiffopNets

/-!
A `MultipleModule` with a branch which contains an `R2Diffop`.
-/

namespace E2

open Mat Real

/-- On `Flip2dOnR2(axis=0)`: the field with label 0 goes through a derivative of a Gaussian of first order and a norm nonlinearity, the field with label 1 through
an antialiased average pooling; the results are put together again. -/
noncomputable def dtreeNet (smp : Sampler) (M : DiffopModule ℤ ℕ) (w b : List ℝ) (f : ℝ → ℝ) (bias : List ℝ) (sigma : ℝ) : DNetMod ℤ ℕ Unit Unit ℕ :=
  .multi [0, 1] 0 [0, 1]
    (.cons 0 (.seq (.cons 0 (.layer (.diffop smp M [0] [1] w b)) (.cons 1 (.layer (.lib (.norm [1] f 0 bias))) .nil)))
      (.cons 1 (.layer (.lib (.avgPoolAntialiased [1] 1 0 3 sigma))) .nil))

theorem dtreeNet_built {B : Type} [Fintype B] (smp : Sampler) (M : DiffopModule ℤ ℕ) (w b : List ℝ) (f : ℝ → ℝ) (bias : List ℝ) (sigma : ℝ)
    (junk : List ℕ → (c n : ℕ) → List (Pix B n → ℝ)) :
    ∃ N, (dtreeNet smp M w b f bias sigma).build exFlipRep junk = some N ∧ N.inTy = [0, 1] ∧ N.outTy = [1, 1] := by
  simp only [dtreeNet, DNetMod.build, DNetMods.build, Option.bind_some, Option.map_some]
  obtain ⟨M₁, e₁, i₁, o₁⟩ := seqMod_some (fun r => (exFlipRep r).size)
    [(0, (DLayer.diffop smp M [0] [1] w b : DLayer ℤ ℕ Unit Unit).toShapedMod exFlipRep (junk [0, 0])),
      (1, (DLayer.lib (.norm [1] f 0 bias) : DLayer ℤ ℕ Unit Unit).toShapedMod exFlipRep (junk [0, 1]))]
    (by simp) (by simp) (by simp [Fits, DLayer.toShapedMod, DLayer.outTy, DLayer.inTy, Layer.inTy])
  rw [e₁]
  simp only [Option.bind_some]
  obtain ⟨M₂, e₂, i₂, o₂⟩ := multiMod_some (fun r => (exFlipRep r).size) [0, 1] 0 [0, 1]
    [(0, M₁), (1, (DLayer.lib (.avgPoolAntialiased [1] 1 0 3 sigma) : DLayer ℤ ℕ Unit Unit).toShapedMod exFlipRep (junk [1]))] (junk []) (by omega) rfl
    (by intro k; simp) (by
      intro m hm
      simp only [List.mem_cons, List.not_mem_nil, or_false] at hm
      rcases hm with rfl | rfl
      · rw [i₁]; rfl
      · rfl) (by simp [o₁, DLayer.toShapedMod, DLayer.outTy, Layer.outTy])
  exact ⟨M₂, e₂, i₂, by rw [o₂]; simp [o₁, DLayer.toShapedMod, DLayer.outTy, Layer.outTy]⟩

/-- The constructor of `R2Diffop` returns, and the network meets the conditions. -/
theorem dtreeNet_ok (interp : ℝ → Img → Img) (f : ℝ → ℝ) (bias : List ℝ) (sigma : ℝ) : ∃ (ext : DiscExt) (smp : Sampler) (M : DiffopModule ℤ ℕ),
    r2diffopInitWith ext false "ga" (some 1) (flip2dDiffops 0) exArgs exFlipRep [0] [1] = some (smp, M) ∧ 0 < (M.exp smp exFlipRep [1]).dimension ∧
    ∀ (w b : List ℝ), w.length = (M.exp smp exFlipRep [1]).dimension →
      (dtreeNet smp M w b f bias sigma).Ok (flipSpace interp 0) (flip2dDiffops 0) exFlipRep (builtFlip 0 exFlipRep) PlaneMethod 5 3 := by
  let ext : DiscExt := ⟨fun _ _ _ => 0, fun eps a b p => (partialX^[a] (partialY^[b] (gaussRBF eps))) p, fun _ _ _ _ _ => 0⟩
  obtain ⟨smp, M, hM, hdim, -⟩ := c82_flip_layer ext (fun _ _ _ _ => rfl) interp
  refine ⟨ext, smp, M, hM, hdim, fun w b hw => ?_⟩
  obtain ⟨hM', hme⟩ := (c82_method ..).1 hM
  obtain ⟨s, rfl⟩ : ∃ s, smp = gaussSample ext.ga s := by
    rcases hme with ⟨-, h, -⟩ | ⟨h, -⟩ | ⟨s, -, -, h⟩
    · exact absurd h (by simp)
    · exact absurd h (by decide)
    · exact ⟨s, h⟩
  have hs : M.size = 3 := by
    obtain ⟨-, pw, hr, -⟩ := r2diffopInit_spec hM'
    have : exArgs.cfg.resolve = some (3, 1, 0) := rfl
    rw [this] at hr
    exact (congrArg (fun t : Option (ℕ × ℕ × ℕ) => (t.getD 0).1) hr).symm
  simp only [dtreeNet, DNetMod.Ok, DNetMods.OkAll, DNetMods.OkSeq, DNetMods.ShapeOk, DNetMod.ShapeOk, DLayer.ShapeOk, DNetMods.names]
  refine ⟨⟨⟨trivial, trivial, trivial⟩, by simp [Layer.ShapeOk], trivial⟩, ⟨by simp, 3, ⟨by simp, by simp, exArgs, hM',
    ⟨rfl, Or.inr (Or.inl ⟨_, s, fun _ _ _ _ => rfl, rfl⟩)⟩, one_pos, one_pos, hw, trivial, by rw [hs]; rfl, one_dvd _⟩, 3, ⟨rfl, fun r _ => exFlipRep_orth r⟩, rfl⟩, ⟨rfl, ?_⟩, trivial⟩
  simp [Covers]

/-- `c106_network`: the network commutes with the reflection, for all weights and tensors. -/
example (interp : ℝ → Img → Img) (f : ℝ → ℝ) (bias : List ℝ) (sigma : ℝ) : ∃ (ext : DiscExt) (smp : Sampler) (M : DiffopModule ℤ ℕ),
    r2diffopInitWith ext false "ga" (some 1) (flip2dDiffops 0) exArgs exFlipRep [0] [1] = some (smp, M) ∧ 0 < (M.exp smp exFlipRep [1]).dimension ∧
    ∀ (w b : List ℝ), w.length = (M.exp smp exFlipRep [1]).dimension → ∀ (x : GTensor ℕ (Pix (Fin 7) 5 → ℝ)), x.ty = [0, 1] → x.data.length = 2 →
      ∃ y : ETensor ℕ (Fin 7), y.n = 3 ∧ y.x.ty = [1, 1] ∧ ∀ junk : List ℕ → (c n : ℕ) → List (Pix (Fin 7) n → ℝ), (∀ p, JunkOk (junk p)) →
        (dtreeNet smp M w b f bias sigma).forward exFlipRep junk ⟨5, x⟩ = some y ∧
        (dtreeNet smp M w b f bias sigma).forward exFlipRep junk ((⟨5, x⟩ : ETensor ℕ (Fin 7)).act (flipSpace interp 0) exFlipRep 1)
          = some (y.act (flipSpace interp 0) exFlipRep 1) := by
  obtain ⟨ext, smp, M, hM, hdim, hO⟩ := dtreeNet_ok interp f bias sigma
  refine ⟨ext, smp, M, hM, hdim, fun w b hw x hx hxl => ?_⟩
  have hok : ∀ n, (exFlipRep n).WF ∧ ∀ i ∈ (exFlipRep n).irreps, ∃ k, Cyclic.irrep 2 k = some i := fun n => ⟨(exFlipRep_ok n).1, (exFlipRep_ok n).2.2⟩
  have hpos : ∀ n, 0 < (exFlipRep n).size := fun n => by rw [(exFlipRep_ok n).2.1]; exact one_pos
  have hS := c62_flip (A := Unit) (I := Unit) interp 0 exFlipRep hok hpos
  obtain ⟨N, hN, hi, ho⟩ := dtreeNet_built (B := Fin 7) smp M w b f bias sigma fun _ c _ => List.replicate c 0
  obtain ⟨y, h1, -, h3, h4, h5⟩ := c106_network hS (c104_flip interp 0 exFlipRep hok hpos) _ (hO w b hw) _ (fun _ _ _ => List.length_replicate) N hN
    ⟨5, x⟩ rfl ⟨by simp [hx], by simp [hx, hxl, typeSize, (exFlipRep_ok 0).2.1, (exFlipRep_ok 1).2.1]⟩ (by rw [hi]; exact hx)
  exact ⟨y, h1, by rw [h3, ho], fun junk hj => ⟨h4 junk hj,
    h5 1 (by simp [flipSpace, Cyclic.grp, Cyclic.isElement, Cyclic.order_eq]) (Or.inr ⟨0, by simp⟩) trivial junk hj⟩⟩

end E2
