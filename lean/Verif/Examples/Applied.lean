import Verif.Props.InducedO2
import Verif.Props.NetShapes
import Verif.Props.OrthLib
import Verif.Props.RepNames
import Verif.Props.GNorm
import Verif.Props.VectorField
import Verif.Props.Init
import Verif.Props.Pooling
import Verif.Props.Steerable
import Verif.Props.StoredFilters
import Verif.Props.Sequential
import Verif.Props.GaussDiff
import Verif.Props.Diffops
import Verif.Examples.DiffopTree

/-!
Concrete cases for theorems of several properties.
-/

namespace E2

open Mat Real

/-- `c67_quotient`: the quotient representation of `O(2)` by `SO(2)` exists. -/
example (θ : ℝ) : ∃ r, O2.inducedFromIrrep none (-1) (SO2.irrep 0) = some r ∧ r.size = 2 ∧ MEq 2 2 (r.mat (1, θ)) (m2 0 1 1 0) := by
  obtain ⟨r, hr, -⟩ := c67_induced 0
  obtain ⟨h1, -, h2⟩ := c67_quotient r hr θ
  exact ⟨r, hr, h1, h2⟩

/-- `c76_orthogonal`: the direct sum of the regular representation of `DihedralGroup(N)` with itself. -/
example (N : ℕ) (hN : 0 < N) : ∃ r : Repr (ℤ × ℤ), OrthLib (.dih N) (Repr.directsum [r, r]) ∧ Dihedral.regular N = some r ∧
    IsOrthRep (Dihedral.grp N) (Repr.directsum [r, r]).size (Repr.directsum [r, r]).mat := by
  obtain ⟨r, hr, -⟩ := c12_dihedral_regular N hN
  have h : OrthLib (.dih N) (Repr.directsum [r, r]) := .directsum (by simp) fun s hs => by
    simp at hs
    subst hs
    exact .dihRegular hN hr
  exact ⟨r, h, hr, (c76_orthogonal h).2.2⟩

/-- `c39_spaces`: the rotation by 90 degrees of `Rot2dOnR2(4)`. -/
example (interp : ℝ → Img → Img) : ∃ τ : GSym, ∀ (n : ℕ) (v : Pix (Fin 2) n → ℝ) (b : Fin 2) (i j : ℕ), i < n → j < n →
    (rotSpace interp 4).base n 1 (pixImg v b) i j = pixImg (v ∘ Pix.move τ) b i j :=
  c39_spaces (rotSpace interp 4) (rotSpace_grid interp 4 (by omega)) 1 (by simp [rotSpace, Cyclic.grp, Cyclic.isElement, Cyclic.order_eq])
    ⟨1, by simp; ring⟩

/-- `c98_module`, `c98_module_wrong` and `c98_pairs_wrong`: on images with 9 × 9 pixels the shape declared by `PointwiseMaxPool` is the one of the result, those declared by
`PointwiseAvgPool` and `PointwiseAdaptiveAvgPool` are not. -/
example (f : ℝ → ℝ) (x : GTensor ℕ (Pix (Fin 7) 9 → ℝ)) (hx : x.ty = [0, 1]) (hl : x.data.length = 2) (junk : (c n : ℕ) → List (Pix (Fin 7) n → ℝ)) :
    (∃ y, (Layer.maxPool [0, 1] 3 2 0 1 false : Layer ℕ Unit Unit).forward exFlipRep junk ⟨9, x⟩ = some y ∧
      (Layer.maxPool [0, 1] 3 2 0 1 false : Layer ℕ Unit Unit).declared (fun r => (exFlipRep r).size) [.int 7, .int 2, .int 9, .int 9] = some y.dims) ∧
    (∃ y, (Layer.avgPool [0, 1] 3 2 0 false : Layer ℕ Unit Unit).forward exFlipRep junk ⟨9, x⟩ = some y ∧
      (Layer.avgPool [0, 1] 3 2 0 false : Layer ℕ Unit Unit).declared (fun r => (exFlipRep r).size) [.int 7, .int 2, .int 9, .int 9] ≠ some y.dims) ∧
    ∃ y : ETensor ℕ (Fin 7), netForward (A := Unit) (I := Unit) exFlipRep (fun _ : ℕ => junk) [(0, .adaptiveAvgPool [0, 1] 3), (1, .pointwise [0, 1] f)] ⟨9, x⟩ = some y ∧ y.n = 3 ∧
      netDeclared (A := Unit) (I := Unit) (B := Fin 7) exFlipRep (fun _ : ℕ => junk) [(0, .adaptiveAvgPool [0, 1] 3), (1, .pointwise [0, 1] f)] [.int 7, .int 2, .int 9, .int 9] =
        some [.int 7, .int y.x.data.length, .pair 3 3, .pair 3 3] := by
  have hw : x.WF fun r => (exFlipRep r).size := ⟨by simp [hx], by simp [hx, hl, typeSize, (exFlipRep_ok 0).2.1, (exFlipRep_ok 1).2.1]⟩
  have hd : (⟨9, x⟩ : ETensor ℕ (Fin 7)).dims = [.int 7, .int 2, .int 9, .int 9] := by simp [ETensor.dims, hl]; rfl
  refine ⟨?_, ?_, ?_⟩
  · obtain ⟨y, hy⟩ : ∃ y, (Layer.maxPool [0, 1] 3 2 0 1 false : Layer ℕ Unit Unit).forward exFlipRep junk ⟨9, x⟩ = some y := by
      have : poolSize false 9 0 3 2 1 = some 4 := rfl
      simp [Layer.forward, this, pointwiseMaxPool, channelwise, hx, mkGT, hl, typeSize, (exFlipRep_ok 0).2.1, (exFlipRep_ok 1).2.1]
    exact ⟨y, hy, hd ▸ c98_module _ (by simp [Layer.ShapeOk]) (by simp [Layer.outTy]) ⟨9, x⟩ y hw hy⟩
  · obtain ⟨y, hy⟩ : ∃ y, (Layer.avgPool [0, 1] 3 2 0 false : Layer ℕ Unit Unit).forward exFlipRep junk ⟨9, x⟩ = some y := by
      have : poolSize false 9 0 3 2 1 = some 4 := rfl
      simp [Layer.forward, this, pointwiseAvgPool, channelwise, hx, mkGT, hl, typeSize, (exFlipRep_ok 0).2.1, (exFlipRep_ok 1).2.1]
    exact ⟨y, hy, hd ▸ c98_module_wrong _ (Or.inl ⟨_, _, _, _, _, rfl⟩) ⟨9, x⟩ y hw hy⟩
  · obtain ⟨y, h1, h2, h3⟩ := c98_pairs_wrong (A := Unit) (I := Unit) (rep := exFlipRep) [0, 1] (by simp) 3 f (fun _ : ℕ => junk) ⟨9, x⟩ hw hx
    rw [hd] at h3
    exact ⟨y, h1, h2, by simpa using h3⟩

/-- `c91_rotations`: a restriction of a representation of `SO(2)` has the name of no other representation of `CyclicGroup(4)` restricted from groups of rotations. -/
example (e : RExp) (h : e.Of (.cyc 4)) (hr : ∀ p ∈ e.restrictions, p.1 = .so2 ∨ ∃ N, p.1 = .cyc N)
    (hn : (RExp.restrict .so2 (.order 4) (.irrep .so2 0 1)).name = e.name) : e = .restrict .so2 (.order 4) (.irrep .so2 0 1) := by
  refine (c91_rotations _ e (.cyc 4) (.restrict _ _ _ _ (.irrep _ _ _ ?_) ?_) h ?_ hn).symm
  · simp [IrrepOk]
  · simp [LibGroup.sub, SO2.subgroup]
  · intro p hp
    rw [List.mem_append] at hp
    rcases hp with hp | hp
    · simp [RExp.restrictions] at hp
      exact Or.inl (by rw [hp])
    · exact hr p hp

/-- `c37_gnorm`: two regular fields of `CyclicGroup(4)`, the rotation by 90 degrees, and any order of the dictionary and any memory. -/
example (eps : ℝ) (w b : ℕ → ℕ → ℝ) (p : Equiv.Perm (Fin 5)) (training : Bool) (st : NormState (ℕ → ℝ × ℝ)) (x : GTensor Unit (Fin 5 → ℝ)) (hx : x.ty = [(), ()])
    (hl : x.data.length = 8) : ∃ r, Cyclic.regular 4 = some r ∧
    ∃ st' y, gnormBatchNorm (fun _ => r) [(), ()] [()] (some 0.1) eps w b training st (List.replicate 8 0) x = some (st', y) ∧
      gnormBatchNorm (fun _ => r) [(), ()] [()] (some 0.1) eps w b training st (List.replicate 8 1) (x.transform (fun _ => r.size) (fun _ => r.mat 1) p)
        = some (st', y.transform (fun _ => r.size) (fun _ => r.mat 1) p) := by
  obtain ⟨r, h1, h2, h3⟩ := c12_cyclic_regular 4 (by norm_num)
  have hs : r.size = 4 := h2.size.trans (Cyclic.order_eq 4)
  have hok : GNormOk 1 r := c37_gnorm_cyclic 4 (by norm_num) r h2.wf (fun i hi => by
    rw [h3] at hi
    obtain ⟨k, -, hk⟩ := List.mem_filterMap.1 hi
    exact ⟨k, hk⟩) 1 ((Cyclic.isElement_iff 4 1).2 (by norm_num))
  obtain ⟨st', y, e, -, -, e'⟩ := c37_gnorm (fun _ : Unit => r) [(), ()] [()] (by simp) (by simp) (fun _ _ => by omega) (some 0.1) eps w b 1 (fun _ _ => hok) p training st x
    ⟨by simp [hx], by simp [hx, hl, typeSize, hs]⟩ hx (List.replicate 8 0) (List.replicate 8 1) (by simp [hl]) (by simp [hl])
  exact ⟨r, h1, st', y, e, e'⟩

/-- `c60_he_cache`: three calls, with two expansions which are equal for the dictionary. -/
example (z z' z'' : List ℝ) :
    heRun (fun _ _ : Bool => True) (fun _ => 2) (fun _ => [⟨0, 0, 0, 0, none⟩, ⟨1, 1, 1, 1, none⟩]) [] [⟨false, true, 2, z⟩, ⟨true, true, 2, z'⟩, ⟨true, false, 3, z''⟩]
      = ([⟨false, true, 2, z⟩, ⟨true, true, 2, z'⟩, ⟨true, false, 3, z''⟩] : List (HeCall Bool)).map fun c => if c.len = 2 then
        (heVars 2 ([⟨0, 0, 0, 0, none⟩, ⟨1, 1, 1, 1, none⟩] : List (WInfo ℕ))).map fun v => List.zipWith (· * ·) v c.noise else none :=
  c60_he_cache _ (fun _ => 2) _ (fun _ _ _ => rfl) _

/-- `c106_shape`: an `R2Diffop` on images with 5 × 5 pixels. -/
example (interp : ℝ → Img → Img) : ∃ (smp : Sampler) (M : DiffopModule ℤ ℕ), r2diffopInit smp (flip2dDiffops 0) exArgs exFlipRep [0] [1] = some M ∧
    ∀ (w b : List ℝ) (junk : (c n : ℕ) → List (Pix (Fin 7) n → ℝ)) (x : GTensor ℕ (Pix (Fin 7) 5 → ℝ)), x.ty = [0] → x.data.length = 1 → ∀ y,
      (DLayer.diffop smp M [0] [1] w b : DLayer ℤ ℕ Unit Unit).forward exFlipRep junk ⟨5, x⟩ = some y →
      (DLayer.diffop smp M [0] [1] w b : DLayer ℤ ℕ Unit Unit).declared (fun r => (exFlipRep r).size) (ETensor.dims ⟨5, x⟩) = some y.dims := by
  let ext : DiscExt := ⟨fun _ _ _ => 0, fun eps a b p => (partialX^[a] (partialY^[b] (gaussRBF eps))) p, fun _ _ _ _ _ => 0⟩
  obtain ⟨smp, M, hM, -⟩ := c82_flip_layer ext (fun _ _ _ _ => rfl) interp
  obtain ⟨hM', -⟩ := (c82_method ..).1 hM
  exact ⟨smp, M, hM', fun w b junk x hx hl y h => c106_shape hM' w b junk ⟨5, x⟩ y ⟨by simp [hx], by simp [hx, hl, typeSize, (exFlipRep_ok 0).2.1]⟩ h⟩

/-- `c106_flip_wrong`: weights of finite differences exist. -/
example (interp : ℝ → Img → Img) : ∃ fd, FDSpec fd ∧ ∃ M, r2diffopInit (fdSample fd) (flip2dDiffops 0) exArgs exFlipRep [0] [1] = some M := by
  obtain ⟨fd, hfd⟩ := FDSpec.exists
  obtain ⟨M, hM, -⟩ := c106_flip_wrong (A := Unit) (I := Unit) (K := ℕ) hfd interp
  exact ⟨fd, hfd, M, hM⟩

/-- `c35_every_tie_false`: the first of the largest values is taken, and there are two of them. -/
example : ∃ (argmax : List ℝ → ℕ) (g : ℤ) (w : List ℝ), IsArgmax argmax ∧ w.length = 3 ∧
    vectorFieldAt 3 argmax w ≠
      (Real.cos (g * (2 * π / 3)) * (vectorFieldAt 3 argmax [2, 1, 2]).1 - Real.sin (g * (2 * π / 3)) * (vectorFieldAt 3 argmax [2, 1, 2]).2,
       Real.sin (g * (2 * π / 3)) * (vectorFieldAt 3 argmax [2, 1, 2]).1 + Real.cos (g * (2 * π / 3)) * (vectorFieldAt 3 argmax [2, 1, 2]).2) := by
  classical
  obtain ⟨am, ham⟩ := exists_argmax
  let argmax : List ℝ → ℕ := fun v => if ∀ i (hi : i < v.length), v[i] ≤ v[0]?.getD 0 then 0 else am v
  have hfirst : ∀ v : List ℝ, (∀ i (hi : i < v.length), v[i] ≤ v[0]?.getD 0) → argmax v = 0 := fun v h => if_pos h
  have ha : IsArgmax argmax := by
    intro v hv
    by_cases h : ∀ i (hi : i < v.length), v[i] ≤ v[0]?.getD 0
    · have e := hfirst v h
      have h0 : 0 < v.length := List.length_pos_iff.2 hv
      refine ⟨by rw [e]; exact h0, fun i hi => ?_⟩
      have := h i hi
      simpa [e, h0] using this
    · have e : argmax v = am v := if_neg h
      obtain ⟨h1, h2⟩ := ham v hv
      exact ⟨by rw [e]; exact h1, fun i hi => by simpa [e] using h2 i hi⟩
  have h2 : ∀ i (hi : i < ([2, 1, 2] : List ℝ).length), ([2, 1, 2] : List ℝ)[i] ≤ 2 := by
    intro i hi
    simp at hi
    interval_cases i <;> norm_num
  obtain ⟨g, w, hw, -, h⟩ := c35_every_tie_false 3 (by norm_num) ha hfirst [2, 1, 2] rfl 2 (by norm_num) (fun i hi => by simpa using h2 i hi) (by norm_num)
    (by rw [hfirst _ (fun i hi => by simpa using h2 i hi)]; norm_num)
  exact ⟨argmax, g, w, ha, hw, by exact_mod_cast h⟩

/-- `c22_polar_indexing`: any numbers of radial and angular elements. -/
example (R A : ℕ) (radials : List (ℝ → ℝ)) (h : radials.length = R) (ang : Option ℝ → Arr3) : (polarIter id id (List.range R) (List.range A)).length = R * A ∧
    ∀ k < R * A, ∃ a f, polarGet R A (fun k => (List.range R)[k]?) (fun k => (List.range A)[k]?) k = some a ∧ radials[a.idx1]? = some f ∧
      ∀ p, (polarSample radials A ang p).slice k = fun i j => f (radius p) * (ang (angle p)).slice a.idx2 i j := by
  have hr : ∀ n k r, (List.range n)[k]? = some r → id r = k := fun n k r e => by
    obtain ⟨hk, e⟩ := List.getElem?_eq_some_iff.1 e
    simpa using e.symm
  obtain ⟨h1, -, h3⟩ := c22_polar_indexing id id (List.range R) (List.range A) (fun k => (List.range R)[k]?) (fun k => (List.range A)[k]?) (fun _ => rfl) (fun _ => rfl)
    (hr R) (hr A) radials (by simpa using h) ang
  simp only [List.length_range] at h1 h3
  exact ⟨h1, fun k hk => by
    obtain ⟨a, f, e1, -, -, -, e5, e6⟩ := h3 k hk
    exact ⟨a, f, e1, e5, e6⟩⟩

/-- `sqNorm_normalize`: an element of shape 2 × 3, sampled on 9 points, whose entries are all 5. -/
example : sqNorm 2 3 9 (normalizeElem 2 3 9 2 fun _ _ _ => 5) = 2 := by
  have := (sqNorm_normalize (so := 2) (si := 3) (S := 9) (size := 2) (fun _ _ _ => 5) (by norm_num) (by norm_num [sqNorm])).1
  exact_mod_cast this

/-- `c41_forward` and `c41_shape`: two modules, from the type 0 to 1 and from 1 to 2. -/
example : ∃ st : SeqState ℕ ℕ (ℕ × ℕ) ℕ,
    seqNew [(0, ⟨0, 1, fun x => if x.1 = 0 then some (1, x.2 + 3) else none, fun s => some (s + 3)⟩),
      (1, ⟨1, 2, fun x => if x.1 = 1 then some (2, x.2 * 2) else none, fun s => some (s * 2)⟩)] = some st ∧
    (∀ v, seqForward Prod.fst st (0, v) = some (2, (v + 3) * 2)) ∧ ∀ v, seqShape (fun _ _ => true) st v = some ((v + 3) * 2) := by
  let m1 : EMod ℕ (ℕ × ℕ) ℕ := ⟨0, 1, fun x => if x.1 = 0 then some (1, x.2 + 3) else none, fun s => some (s + 3)⟩
  let m2 : EMod ℕ (ℕ × ℕ) ℕ := ⟨1, 2, fun x => if x.1 = 1 then some (2, x.2 * 2) else none, fun s => some (s * 2)⟩
  have w1 : WellTyped Prod.fst m1 := ⟨fun x => by simp [m1], fun x y h => by simp [m1] at h; rw [← h.2]⟩
  have w2 : WellTyped Prod.fst m2 := ⟨fun x => by simp [m2], fun x y h => by simp [m2] at h; rw [← h.2]⟩
  obtain ⟨st, hst, hi⟩ : ∃ st, seqNew [(0, m1), (1, m2)] = some st ∧ st.inTy = some 0 := by
    simp [seqNew, addModules, addModule, m1, m2, dictSet]
  obtain ⟨h1, -⟩ := c41_forward Prod.fst [(0, m1), (1, m2)] (by simp) (by simp) (by
    intro p hp
    simp at hp
    rcases hp with rfl | rfl
    · exact w1
    · exact w2) st hst
  have hf : ∀ v, seqForward Prod.fst st (0, v) = some (2, (v + 3) * 2) := fun v => by
    rw [h1 (0, v) hi.symm]
    simp [compose, m1, m2]
  refine ⟨st, hst, hf, fun v => ?_⟩
  exact c41_shape Prod.fst Prod.snd (fun _ _ => true) [(0, m1), (1, m2)] (by simp) st hst (by
    intro p hp x y h
    simp at hp
    rcases hp with rfl | rfl
    · simp [m1] at h ⊢
      rw [← h.2]
    · simp [m2] at h ⊢
      rw [← h.2]) (0, v) (2, (v + 3) * 2) (hf v) rfl

/-- `c47_tensor` and `c82_steerable`: the powers of the Laplacian are invariant to rotations, and so are the derivatives of a Gaussian given by them. -/
example (std : ℝ) (m : ℕ) {ga : ℝ → ℕ → ℕ → ℝ × ℝ → ℝ} (hga : GaussSpec ga) :
    (tensorCoefs [⟨0, fun _ _ _ => 1⟩] (laplaceProfile m)).length = m + 1 ∧ ∀ D ∈ tensorCoefs [⟨0, fun _ _ _ => 1⟩] (laplaceProfile m),
      KernelConstraint SO2.grp rot 1 1 (SO2.irrep 0).mat (SO2.irrep 0).mat fun p i j => gaussianDerivative ga (D.entry i j) std p := by
  obtain ⟨h1, h2⟩ := c47_tensor (G := SO2.grp) (act := rot) (so := 1) (si := 1) (ρo := (SO2.irrep 0).mat) (ρi := (SO2.irrep 0).mat) radius_rot [⟨0, fun _ _ _ => 1⟩]
    (by
      intro a ha g _ x i hi j hj
      obtain rfl : i = 0 := by omega
      obtain rfl : j = 0 := by omega
      simp only [List.mem_singleton] at ha
      subst ha
      simp [DArr.eval, DArr.entry, HPoly.eval, Mat.mul, SO2.irrep, E2.m1]) m
  exact ⟨by simpa using h1, fun D hD => c82_steerable hga std (fun g _ => orthMap_rot (α := g) fun _ => rfl) (h2 D hD)⟩

end E2
