import Mathlib.MeasureTheory.Measure.Lebesgue.EqHaar
import Mathlib.MeasureTheory.Integral.Bochner.ContinuousLinearMap
import Mathlib.Analysis.Distribution.AEEqOfIntegralContDiff
import Mathlib.LinearAlgebra.Matrix.ToLin
import Mathlib.LinearAlgebra.Matrix.NonsingularInverse
import Verif.Props.PlaneConvSpec
import Verif.Lemmas.PlaneKernel
import Verif.Props.R2ConvInit
import Verif.Props.SteerableComplete

/-!
# C92: the convolutions on the plane with the kernels of a layer

The convolution with a kernel commutes with the translations and the group exactly when the kernel satisfies the kernel constraint; the filters of `R2Conv` are values of such
kernels at the points of the filter.
-/

set_option linter.unusedSectionVars false

namespace E2

open MeasureTheory Mat Real

variable {El F : Type}

/-! ## Matrices -/

theorem corner_mul (n k m : ℕ) (A B : Mat) : (Mat.mul k A B).corner n m = A.corner n k * B.corner k m := by
  ext i j
  rw [Matrix.mul_apply]
  exact Finset.sum_range fun l => A i l * B l j

theorem corner_congr {n m : ℕ} {A B : Mat} : A.corner n m = B.corner n m ↔ MEq n m A B := by
  constructor
  · intro h i hi j hj
    exact congrFun (congrFun h ⟨i, hi⟩) ⟨j, hj⟩
  · intro h
    ext i j
    exact h i i.2 j j.2

theorem corner_one (n : ℕ) : Mat.one.corner n n = 1 := by
  ext i j
  simp [Mat.corner, Mat.one, Matrix.one_apply, Fin.ext_iff]

/-- The matrices of an element and of its inverse are inverse to each other. -/
theorem IsRep.corner_inv {G : Grp El} {n : ℕ} {ρ : El → Mat} (h : IsRep G n ρ) (hG : G.InvOk) {g : El} (hg : G.isEl g) :
    (ρ g).corner n n * (ρ (G.inv g)).corner n n = 1 ∧ (ρ (G.inv g)).corner n n * (ρ g).corner n n = 1 := by
  have h1 : (ρ g).corner n n * (ρ (G.inv g)).corner n n = 1 := by
    rw [← corner_mul, ← corner_one, corner_congr]
    exact h.mul_inv hG g hg
  exact ⟨h1, mul_eq_one_comm.1 h1⟩

/-- The kernel constraint without inverse matrices. -/
theorem constraint_iff {G : Grp El} (hG : G.InvOk) {act : El → ℝ × ℝ → ℝ × ℝ} {so si : ℕ} {ρo ρi : El → Mat} (hi : IsRep G si ρi) {κ : ℝ × ℝ → Mat} :
    KernelConstraint G act so si ρo ρi κ ↔
      ∀ g, G.isEl g → ∀ x, (κ (act g x)).corner so si * (ρi g).corner si si = (ρo g).corner so so * (κ x).corner so si := by
  refine forall_congr' fun g => forall_congr' fun hg => forall_congr' fun x => ?_
  obtain ⟨h1, h2⟩ := hi.corner_inv hG hg
  rw [← corner_congr, corner_mul, corner_mul]
  constructor
  · intro h
    rw [h, Matrix.mul_assoc, h2, Matrix.mul_one]
  · intro h
    rw [← h, Matrix.mul_assoc, h1, Matrix.mul_one]

/-! ## Changes of variables -/

/-- The elements of the group act by linear maps of determinant 1 or -1. -/
def Space.Linear (Sp : Space El) : Prop :=
  ∀ g, Sp.G.isEl g → ∃ a b c d : ℝ, |a * d - b * c| = 1 ∧ ∀ p, Sp.act g p = (a * p.1 + b * p.2, c * p.1 + d * p.2)

instance : Measure.IsAddHaarMeasure (volume : Measure (ℝ × ℝ)) := Measure.prod.instIsAddHaarMeasure _ _

theorem integral_linear {E : Type} [NormedAddCommGroup E] [NormedSpace ℝ E] {a b c d : ℝ} (h : |a * d - b * c| = 1) (φ : ℝ × ℝ → E) :
    ∫ p : ℝ × ℝ, φ (a * p.1 + b * p.2, c * p.1 + d * p.2) = ∫ p, φ p := by
  set L : ℝ × ℝ →ₗ[ℝ] ℝ × ℝ := Matrix.toLin (Module.Basis.finTwoProd ℝ) (Module.Basis.finTwoProd ℝ) !![a, b; c, d] with hL
  have hap : ∀ p, L p = (a * p.1 + b * p.2, c * p.1 + d * p.2) := fun p => Matrix.toLin_finTwoProd_apply _ _ _ _ p
  have hdet : LinearMap.det L = a * d - b * c := by
    rw [hL, LinearMap.det_toLin, Matrix.det_fin_two_of]
  have hne : LinearMap.det L ≠ 0 := by
    rw [hdet]
    intro h0
    rw [h0] at h
    simp at h
  have hmp : MeasurePreserving L volume volume := by
    refine ⟨L.continuous_of_finiteDimensional.measurable, ?_⟩
    rw [Measure.map_linearMap_addHaar_eq_smul_addHaar volume hne, hdet, abs_inv, h]
    simp
  have hemb : MeasurableEmbedding L := by
    have := (LinearEquiv.ofIsUnitDet (f := L) (v := Module.Basis.finTwoProd ℝ) (v' := Module.Basis.finTwoProd ℝ)
      (by rw [LinearMap.det_toMatrix]; exact hne.isUnit)).toContinuousLinearEquiv.toHomeomorph.measurableEmbedding
    exact this
  have := hmp.integral_comp hemb φ
  simpa only [hap] using this

theorem Space.Linear.integral {Sp : Space El} (hl : Sp.Linear) {g : El} (hg : Sp.G.isEl g) {E : Type} [NormedAddCommGroup E] [NormedSpace ℝ E] (φ : ℝ × ℝ → E) :
    ∫ p, φ (Sp.act g p) = ∫ p, φ p := by
  obtain ⟨a, b, c, d, h, hp⟩ := hl g hg
  simp only [hp]
  exact integral_linear h φ

theorem Space.Linear.sub {Sp : Space El} (hl : Sp.Linear) {g : El} (hg : Sp.G.isEl g) (p q : ℝ × ℝ) : Sp.act g (p - q) = Sp.act g p - Sp.act g q := by
  obtain ⟨a, b, c, d, h, hp⟩ := hl g hg
  rw [hp, hp, hp]
  ext <;> simp <;> ring

theorem Space.Linear.zero {Sp : Space El} (hl : Sp.Linear) {g : El} (hg : Sp.G.isEl g) : Sp.act g 0 = 0 := by
  have := hl.sub hg 0 0
  simpa using this

theorem Space.Linear.continuous {Sp : Space El} (hl : Sp.Linear) {g : El} (hg : Sp.G.isEl g) : Continuous (Sp.act g) := by
  obtain ⟨a, b, c, d, h, hp⟩ := hl g hg
  rw [funext hp]
  fun_prop

theorem Space.PlaneAction.right_inv {Sp : Space El} (hp : Sp.PlaneAction) (hG : Sp.G.InvOk) {g : El} (hg : Sp.G.isEl g) (p : ℝ × ℝ) :
    Sp.act g (Sp.act (Sp.G.inv g) p) = p := by
  rw [← hp.op g _ hg (hG g hg).1, (hG g hg).2, hp.one]

theorem Space.PlaneAction.left_inv {Sp : Space El} (hp : Sp.PlaneAction) (hG : Sp.G.InvOk) {g : El} (hg : Sp.G.isEl g) (p : ℝ × ℝ) :
    Sp.act (Sp.G.inv g) (Sp.act g p) = p :=
  hp.inj g hg _ _ (hp.right_inv hG hg _)

/-- The conditions on a space, which hold for the spaces of the library. -/
structure Space.Plane (Sp : Space El) : Prop where
  inv : Sp.G.InvOk
  action : Sp.PlaneAction
  linear : Sp.Linear

/-- Multiplication by an invertible matrix and integration. -/
theorem integral_mulVec {n : ℕ} {A B : Matrix (Fin n) (Fin n) ℝ} (h1 : A * B = 1) (h2 : B * A = 1) (φ : ℝ × ℝ → Fin n → ℝ) :
    ∫ p, A.mulVec (φ p) = A.mulVec (∫ p, φ p) :=
  (Matrix.toLin'OfInv h2 h1).toContinuousLinearEquiv.integral_comp_comm (μ := volume) φ

/-- The convolution of a transformed field, after the change of variables. -/
theorem planeConv_move {Sp : Space El} (h : Sp.Plane) {so si : ℕ} {ρi : El → Mat} {κ : ℝ × ℝ → Mat} {g : El} (hg : Sp.G.isEl g) (t : ℝ × ℝ) (f : PField si) (x : ℝ × ℝ) :
    planeConv so si κ (Sp.move ρi t g f) x =
      ∫ z, ((κ (Sp.act g (z - Sp.act (Sp.G.inv g) (x - t)))).corner so si * (ρi g).corner si si).mulVec (f z) := by
  have e1 : planeConv so si κ (Sp.move ρi t g f) x =
      ∫ y, (fun y => ((κ (y + t - x)).corner so si).mulVec (((ρi g).corner si si).mulVec (f (Sp.act (Sp.G.inv g) y)))) (y - t) := by
    simp only [planeConv, Space.move, sub_add_cancel]
  rw [e1, integral_sub_right_eq_self (μ := volume) (fun y => ((κ (y + t - x)).corner so si).mulVec (((ρi g).corner si si).mulVec (f (Sp.act (Sp.G.inv g) y)))) t,
    ← h.linear.integral hg]
  congr 1
  funext z
  rw [h.action.left_inv h.inv hg, Matrix.mulVec_mulVec, h.linear.sub hg, h.action.right_inv h.inv hg, sub_sub_eq_add_sub]

/-- **C92, sufficiency**: if the kernel satisfies the constraint, then the convolution commutes with all translations and all elements of the group, on all fields. -/
theorem c92_commutes {Sp : Space El} (h : Sp.Plane) {so si : ℕ} {ρo ρi : El → Mat} (ho : IsRep Sp.G so ρo) (hi : IsRep Sp.G si ρi) {κ : ℝ × ℝ → Mat}
    (hκ : KernelConstraint Sp.G Sp.act so si ρo ρi κ) : Sp.ConvCommutes so si ρo ρi κ fun _ => True := by
  intro g hg t f _
  funext x
  rw [planeConv_move h hg]
  simp only [(constraint_iff h.inv hi).1 hκ g hg, ← Matrix.mulVec_mulVec]
  obtain ⟨h1, h2⟩ := ho.corner_inv h.inv hg
  exact integral_mulVec h1 h2 _

/-- **C92, necessity**: if the kernel is continuous and the convolution commutes with the group already on the test functions, then the kernel satisfies the constraint. -/
theorem c92_constraint {Sp : Space El} (h : Sp.Plane) {so si : ℕ} {ρo ρi : El → Mat} (ho : IsRep Sp.G so ρo) (hi : IsRep Sp.G si ρi) {κ : ℝ × ℝ → Mat}
    (hc : KernelContinuous so si κ) (hκ : Sp.ConvCommutes so si ρo ρi κ PField.Test) : KernelConstraint Sp.G Sp.act so si ρo ρi κ := by
  rw [constraint_iff h.inv hi]
  intro g hg
  set D : ℝ × ℝ → Matrix (Fin so) (Fin si) ℝ := fun z => (κ (Sp.act g z)).corner so si * (ρi g).corner si si - (ρo g).corner so so * (κ z).corner so si with hD
  have c1 : Continuous fun z => (κ (Sp.act g z)).corner so si * (ρi g).corner si si := (hc.comp (h.linear.continuous hg)).matrix_mul continuous_const
  have c2 : Continuous fun z => (ρo g).corner so so * (κ z).corner so si := continuous_const.matrix_mul hc
  suffices hz : ∀ o j, (fun z => D z o j) = fun _ => 0 by
    intro x
    rw [← sub_eq_zero]
    ext o j
    exact congrFun (hz o j) x
  intro o j
  have cD : Continuous fun z => D z o j := (c1.sub c2).matrix_elem o j
  refine (Continuous.ae_eq_iff_eq volume cD continuous_const).1 ?_
  refine ae_eq_zero_of_integral_contDiff_smul_eq_zero cD.locallyIntegrable fun φ hφ hs => ?_
  -- the field with `φ` in the channel `j`
  set f : PField si := fun z => φ z • Pi.single j 1 with hf
  have cf : Continuous f := hφ.continuous.smul continuous_const
  have sf : HasCompactSupport f := hs.smul_right
  have e := congrFun (hκ g hg 0 f ⟨cf, sf⟩) 0
  rw [planeConv_move h hg] at e
  have hz : Sp.act (Sp.G.inv g) 0 = 0 := h.linear.zero (h.inv g hg).1
  simp only [Space.move, planeConv, sub_zero, hz] at e
  obtain ⟨h1, h2⟩ := ho.corner_inv h.inv hg
  rw [← integral_mulVec h1 h2] at e
  simp only [Matrix.mulVec_mulVec] at e
  have i1 : Integrable fun z => ((κ (Sp.act g z)).corner so si * (ρi g).corner si si).mulVec (f z) :=
    (c1.matrix_mulVec cf).integrable_of_hasCompactSupport (sf.mono' fun z hz => by
      refine subset_closure ?_
      rw [Function.mem_support] at hz ⊢
      exact fun h0 => hz (by rw [h0, Matrix.mulVec_zero]))
  have i2 : Integrable fun z => ((ρo g).corner so so * (κ z).corner so si).mulVec (f z) :=
    (c2.matrix_mulVec cf).integrable_of_hasCompactSupport (sf.mono' fun z hz => by
      refine subset_closure ?_
      rw [Function.mem_support] at hz ⊢
      exact fun h0 => hz (by rw [h0, Matrix.mulVec_zero]))
  rw [← sub_eq_zero, ← integral_sub i1 i2] at e
  have e' := congrFun e o
  have ev : (∫ z, (((κ (Sp.act g z)).corner so si * (ρi g).corner si si).mulVec (f z) - ((ρo g).corner so so * (κ z).corner so si).mulVec (f z))) o =
      ∫ z, (((κ (Sp.act g z)).corner so si * (ρi g).corner si si).mulVec (f z) - ((ρo g).corner so so * (κ z).corner so si).mulVec (f z)) o :=
    ((ContinuousLinearMap.proj (R := ℝ) (φ := fun _ : Fin so => ℝ) o).integral_comp_comm (i1.sub i2)).symm
  rw [ev] at e'
  rw [← show (0 : Fin so → ℝ) o = 0 from rfl, ← e']
  congr 1
  funext z
  rw [← Matrix.sub_mulVec]
  simp only [hf, Matrix.mulVec_smul, Matrix.mulVec_single_one]
  rfl

/-- **C92**: for continuous kernels, the convolution commutes with the translations and the group exactly when the kernel satisfies the constraint. -/
theorem c92_iff {Sp : Space El} (h : Sp.Plane) {so si : ℕ} {ρo ρi : El → Mat} (ho : IsRep Sp.G so ρo) (hi : IsRep Sp.G si ρi) {κ : ℝ × ℝ → Mat} (hc : KernelContinuous so si κ) :
    Sp.ConvCommutes so si ρo ρi κ PField.Test ↔ KernelConstraint Sp.G Sp.act so si ρo ρi κ :=
  ⟨c92_constraint h ho hi hc, fun hκ g hg t f _ => c92_commutes h ho hi hκ g hg t f trivial⟩

/-- The convolution with a kernel is zero only if the kernel is zero: where it is continuous, its values are determined by the convolution. -/
theorem c92_nonzero {κ : ℝ × ℝ → Mat} (h : KernelRegular κ) {so si : ℕ} {o i : ℕ} (ho : o < so) (hi : i < si) {p : ℝ × ℝ} (hp : radius p ≠ 1e-9) (hne : κ p o i ≠ 0) :
    ∃ f : PField si, f.Test ∧ planeConv so si κ f 0 ≠ 0 := by
  by_contra hcon
  push Not at hcon
  obtain ⟨h1, ⟨C, h2⟩, h3⟩ := h o i
  have hli : LocallyIntegrable (fun z => κ z o i) volume :=
    (locallyIntegrable_const C).mono h1.aestronglyMeasurable (ae_of_all _ fun z => by
      rw [Real.norm_eq_abs, Real.norm_eq_abs]
      exact (h2 z).trans (le_abs_self C))
  have hae : ∀ᵐ z, κ z o i = 0 := by
    refine ae_eq_zero_of_integral_contDiff_smul_eq_zero hli fun φ hφ hs => ?_
    set f : PField si := fun z => φ z • Pi.single ⟨i, hi⟩ 1 with hf
    have ht : f.Test := ⟨hφ.continuous.smul continuous_const, hs.smul_right⟩
    have e := congrFun (hcon f ht) ⟨o, ho⟩
    have ev : planeConv so si κ f 0 ⟨o, ho⟩ = ∫ z, ((κ (z - 0)).corner so si).mulVec (f z) ⟨o, ho⟩ :=
      ((ContinuousLinearMap.proj (R := ℝ) (φ := fun _ : Fin so => ℝ) ⟨o, ho⟩).integral_comp_comm (h.integrable ht 0)).symm
    rw [ev, Pi.zero_apply] at e
    rw [← e]
    congr 1
    funext z
    simp only [hf, Matrix.mulVec_smul, Matrix.mulVec_single_one, sub_zero]
    rfl
  have hev : ∀ᶠ z in nhds p, κ z o i ≠ 0 := (h3 p hp).eventually_ne hne
  obtain ⟨U, hU, hUo, hpU⟩ := mem_nhds_iff.1 hev
  have hpos : 0 < volume U := hUo.measure_pos volume ⟨p, hpU⟩
  have : volume U = 0 := measure_mono_null (fun z hz => hU hz) hae
  exact hpos.ne' this

/-! ## The spaces of the library -/

theorem rot_linear (α : ℝ) : ∃ a b c d : ℝ, |a * d - b * c| = 1 ∧ ∀ p, rot α p = (a * p.1 + b * p.2, c * p.1 + d * p.2) := by
  refine ⟨cos α, -sin α, sin α, cos α, ?_, fun p => ?_⟩
  · rw [show cos α * cos α - -sin α * sin α = 1 by nlinarith [sin_sq_add_cos_sq α], abs_one]
  · rw [rot]
    congr 1
    ring

theorem refl_linear (α : ℝ) : ∃ a b c d : ℝ, |a * d - b * c| = 1 ∧ ∀ p, refl α p = (a * p.1 + b * p.2, c * p.1 + d * p.2) := by
  refine ⟨cos (2 * α), sin (2 * α), sin (2 * α), -cos (2 * α), ?_, fun p => ?_⟩
  · rw [show cos (2 * α) * -cos (2 * α) - sin (2 * α) * sin (2 * α) = -1 by nlinarith [sin_sq_add_cos_sq (2 * α)], abs_neg, abs_one]
  · rw [refl]
    congr 1
    ring

theorem planeAct_linear (axis : ℝ) (g : ℤ × ℝ) : ∃ a b c d : ℝ, |a * d - b * c| = 1 ∧ ∀ p, planeAct axis g p = (a * p.1 + b * p.2, c * p.1 + d * p.2) := by
  by_cases hg : g.1 = 0
  · simp only [planeAct, if_pos hg]
    exact rot_linear _
  · simp only [planeAct, if_neg hg]
    obtain ⟨a, b, c, d, h, hp⟩ := rot_linear g.2
    obtain ⟨a', b', c', d', h', hp'⟩ := refl_linear axis
    refine ⟨a * a' + b * c', a * b' + b * d', c * a' + d * c', c * b' + d * d', ?_, fun p => ?_⟩
    · rw [show (a * a' + b * c') * (c * b' + d * d') - (a * b' + b * d') * (c * a' + d * c') = (a * d - b * c) * (a' * d' - b' * c') by ring, abs_mul, h, h', one_mul]
    · rw [hp', hp, Prod.mk.injEq]
      exact ⟨by ring, by ring⟩

section spaces

variable (interp : ℝ → Img → Img)

theorem trivialSpace_plane : trivialSpace.Plane := by
  refine ⟨Cyclic.invOk (N := 1) (by norm_num), trivialSpace_action, fun g _ => ⟨1, 0, 0, 1, by norm_num, fun p => ?_⟩⟩
  simp [trivialSpace]

theorem rotSpace_plane (N : ℕ) (hN : 0 < N) : (rotSpace interp N).Plane :=
  ⟨Cyclic.invOk hN, rotSpace_action interp N hN, fun _ _ => rot_linear _⟩

theorem so2Space_plane : (so2Space interp).Plane := ⟨SO2.invOk, so2Space_action interp, fun _ _ => rot_linear _⟩

theorem flipSpace_plane (axis : ℝ) : (flipSpace interp axis).Plane := by
  refine ⟨Cyclic.invOk (N := 2) (by norm_num), flipSpace_action interp axis, fun g _ => ?_⟩
  by_cases hg : g = 0
  · refine ⟨1, 0, 0, 1, by norm_num, fun p => ?_⟩
    simp [flipSpace, hg]
  · simp only [flipSpace, if_neg hg]
    exact refl_linear axis

theorem flipRotSpace_plane (N : ℕ) (hN : 0 < N) (axis : ℝ) : (flipRotSpace interp N axis).Plane :=
  ⟨Dihedral.invOk hN, flipRotSpace_action interp N hN axis, fun _ _ => planeAct_linear _ _⟩

theorem o2Space_plane (axis : ℝ) : (o2Space interp axis).Plane := ⟨O2.invOk, o2Space_action interp axis, fun _ _ => planeAct_linear _ _⟩

end spaces

/-! ## The layers -/

theorem buildKernelBasis_regular {G : KernelGen El} {sigma rings : List ℝ} {mf mo : Option ℤ} {rin rout : Repr El} {l : List (BasisAttr El × (ℝ × ℝ → Mat))}
    (h : buildKernelBasis G sigma rings mf mo rin rout = some l) : ∀ b ∈ l, KernelRegular b.2 := by
  classical
  unfold buildKernelBasis at h
  split_ifs at h with h1
  cases hb : G.bas mf mo with
  | none => simp [hb] at h
  | some bas =>
    rw [hb] at h
    obtain ⟨S, hS, rfl⟩ := Option.map_eq_some_iff.1 h
    intro b hb'
    obtain ⟨a, ha, rfl⟩ := List.mem_map.1 hb'
    exact planeKernel_regular _ _ _ _

theorem KernelRegular.inBlock {F A I : Type} [LinearOrder F] [DecidableEq I] {κ : ℝ × ℝ → Mat} (h : KernelRegular κ) (E : Exp F A I) (k : ℕ) :
    KernelRegular fun p => E.inBlock k (κ p) := by
  unfold Exp.inBlock
  cases E.basisInfo[k]? with
  | some info => exact h.place _ _ _ _
  | none => exact fun a b => ⟨measurable_const, ⟨0, fun p => by simp⟩, fun _ _ => continuousAt_const⟩

theorem sum_range_split_groups (n m : ℕ) (f : ℕ → ℝ) : ∑ i ∈ Finset.range (n * m), f i = ∑ k ∈ Finset.range n, ∑ j ∈ Finset.range m, f (k * m + j) := by
  induction n with
  | zero => simp
  | succ n ih => rw [Nat.succ_mul, Finset.sum_range_add, ih, Finset.sum_range_succ]

theorem group_index_lt {groups s q l : ℕ} (hq : q < groups) (hl : l < s) : q * s + l < groups * s := by
  nlinarith

/-- The kernel between all channels for the filters of a layer with groups: zero between channels of different groups. -/
noncomputable def groupKernel (cinG coutG : ℕ) (κ : ℝ × ℝ → Mat) : ℝ × ℝ → Mat := fun p o c => if c / cinG = o / coutG then κ p o (c % cinG) else 0

theorem KernelRegular.group {κ : ℝ × ℝ → Mat} (h : KernelRegular κ) (cinG coutG : ℕ) : KernelRegular (groupKernel cinG coutG κ) := by
  intro a b
  unfold groupKernel
  by_cases hc : b / cinG = a / coutG
  · simp only [if_pos hc]
    exact h _ _
  · simp only [if_neg hc]
    exact ⟨measurable_const, ⟨0, fun p => by simp⟩, fun _ _ => continuousAt_const⟩

/-- The constraint of the filters of a group gives the one between all channels. -/
theorem groupKernel_constraint {G : Grp El} {act : El → ℝ × ℝ → ℝ × ℝ} {groups cinG coutG : ℕ} {Pout Pin Ai Ao : El → Mat} {κ : ℝ × ℝ → Mat}
    (hPin : ∀ g, ∀ q < groups, ∀ q' < groups, ∀ c < cinG, ∀ c' < cinG, Pin g (q * cinG + c) (q' * cinG + c') = if q = q' then Ai g c c' else 0)
    (hPout : ∀ g, ∀ q < groups, ∀ q' < groups, ∀ c < coutG, ∀ c' < coutG, Pout g (q * coutG + c) (q' * coutG + c') = if q = q' then Ao g c c' else 0)
    (h : KernelConstraint G act (groups * coutG) cinG Pout Ai κ) :
    KernelConstraint G act (groups * coutG) (groups * cinG) Pout Pin (groupKernel cinG coutG κ) := by
  intro g hg x o ho c hc
  have hco : 0 < coutG := Nat.pos_of_ne_zero fun h0 => by simp [h0] at ho
  have hci : 0 < cinG := Nat.pos_of_ne_zero fun h0 => by simp [h0] at hc
  have hq : o / coutG < groups := (Nat.div_lt_iff_lt_mul hco).2 ho
  have hq' : c / cinG < groups := (Nat.div_lt_iff_lt_mul hci).2 hc
  have hin : ∀ l < groups * cinG, Pin (G.inv g) l c = if l / cinG = c / cinG then Ai (G.inv g) (l % cinG) (c % cinG) else 0 := by
    intro l hl
    have := hPin (G.inv g) (l / cinG) ((Nat.div_lt_iff_lt_mul hci).2 hl) (c / cinG) hq' (l % cinG) (Nat.mod_lt _ hci) (c % cinG) (Nat.mod_lt _ hci)
    rwa [Nat.div_add_mod', Nat.div_add_mod'] at this
  have hout : ∀ l < groups * coutG, o / coutG ≠ l / coutG → Pout g o l = 0 := by
    intro l hl hne
    have := hPout g (o / coutG) hq (l / coutG) ((Nat.div_lt_iff_lt_mul hco).2 hl) (o % coutG) (Nat.mod_lt _ hco) (l % coutG) (Nat.mod_lt _ hco)
    rwa [Nat.div_add_mod', Nat.div_add_mod', if_neg hne] at this
  -- the sum over the channels in the group of `c`
  have hsum : ∀ T : ℕ → ℝ, ∑ l ∈ Finset.range (groups * cinG), T l * Pin (G.inv g) l c =
      ∑ l ∈ Finset.range cinG, T (c / cinG * cinG + l) * Ai (G.inv g) l (c % cinG) := by
    intro T
    rw [sum_range_split_groups, Finset.sum_eq_single (c / cinG)]
    · refine Finset.sum_congr rfl fun l hl => ?_
      have hl' := Finset.mem_range.1 hl
      have e1 : (c / cinG * cinG + l) / cinG = c / cinG := by
        rw [Nat.add_comm, Nat.add_mul_div_right _ _ hci, Nat.div_eq_of_lt hl', zero_add]
      have e2 : (c / cinG * cinG + l) % cinG = l := by
        rw [Nat.add_comm, Nat.add_mul_mod_self_right, Nat.mod_eq_of_lt hl']
      rw [hin _ (group_index_lt hq' hl'), e1, e2, if_pos rfl]
    · intro q hq2 hne
      refine Finset.sum_eq_zero fun l hl => ?_
      have hl' := Finset.mem_range.1 hl
      have e1 : (q * cinG + l) / cinG = q := by
        rw [Nat.add_comm, Nat.add_mul_div_right _ _ hci, Nat.div_eq_of_lt hl', zero_add]
      rw [hin _ (group_index_lt (Finset.mem_range.1 hq2) hl'), e1, if_neg hne, mul_zero]
    · intro hn
      exact absurd (Finset.mem_range.2 hq') hn
  have hk : ∀ (p : ℝ × ℝ) (l : ℕ), l < cinG → ∀ o', groupKernel cinG coutG κ p o' (c / cinG * cinG + l) = if c / cinG = o' / coutG then κ p o' l else 0 := by
    intro p l hl o'
    have e1 : (c / cinG * cinG + l) / cinG = c / cinG := by
      rw [Nat.add_comm, Nat.add_mul_div_right _ _ hci, Nat.div_eq_of_lt hl, zero_add]
    have e2 : (c / cinG * cinG + l) % cinG = l := by
      rw [Nat.add_comm, Nat.add_mul_mod_self_right, Nat.mod_eq_of_lt hl]
    rw [groupKernel, e1, e2]
  show groupKernel cinG coutG κ (act g x) o c = ∑ l ∈ Finset.range (groups * cinG), _ * Pin (G.inv g) l c
  rw [hsum]
  by_cases hqq : c / cinG = o / coutG
  · rw [groupKernel, if_pos hqq, h g hg x o ho _ (Nat.mod_lt _ hci)]
    refine Finset.sum_congr rfl fun l hl => ?_
    congr 1
    refine Finset.sum_congr rfl fun o' ho' => ?_
    rw [hk x l (Finset.mem_range.1 hl)]
    by_cases e : o / coutG = o' / coutG
    · rw [if_pos (hqq.trans e)]
    · rw [hout o' (Finset.mem_range.1 ho') e, zero_mul, zero_mul]
  · rw [groupKernel, if_neg hqq]
    symm
    refine Finset.sum_eq_zero fun l hl => ?_
    have : Mat.mul (groups * coutG) (Pout g) (groupKernel cinG coutG κ x) o (c / cinG * cinG + l) = 0 := by
      refine Finset.sum_eq_zero fun o' ho' => ?_
      rw [hk x l (Finset.mem_range.1 hl)]
      by_cases e : o / coutG = o' / coutG
      · rw [if_neg (fun h' => hqq (h'.trans e.symm)), mul_zero]
      · rw [hout o' (Finset.mem_range.1 ho') e, zero_mul]
    rw [this, zero_mul]

/-- What the layer is on the plane: its filter consists of the values of a kernel at the points of the filter, and the kernel vanishes between channels of different groups.
This kernel is continuous except on one circle and satisfies the constraint everywhere, and the convolution with it exists for all test functions and commutes with all the
translations and all the elements of the group. -/
def R2ConvOnPlane [LinearOrder F] (Sp : Space El) (G : KernelGen El) (rep : F → Repr El) (inT outT : List F) : Prop :=
  ∀ (a : ConvArgs El) (M : ConvModule El F), r2convInit G a rep inT outT = some M →
    -- rings given by the caller are distinct
    (∀ l, a.rings = some l → l.Nodup) → 0 < a.groups → 0 < a.dilation → ∀ w : List ℝ, w.length = M.dim →
    ∀ cin cout, cin = typeSize (fun m => (rep m).size) inT → cout = typeSize (fun m => (rep m).size) outT →
    ∃ (filter : ℕ → ℕ → ℕ → ℕ → ℝ) (κ : ℝ × ℝ → Mat),
      -- the layer convolves with the filter
      (∀ b n x, M.forward rep inT outT w b n x =
        some (conv2d a.paddingMode n a.padding a.kernelSize a.stride a.dilation (cin / a.groups) (cout / a.groups) filter (outBias rep outT b) x)) ∧
      -- the entry in row `u` and column `v` of the filter is the value of the kernel at the point of this pixel, with the centre of the filter as the origin
      (∀ o < cout, ∀ i < cin / a.groups, ∀ u < a.kernelSize, ∀ v < a.kernelSize, filter o i u v =
        κ (a.dilation * (v - (a.kernelSize - 1) / 2), a.dilation * ((a.kernelSize - 1) / 2 - u)) o (o / (cout / a.groups) * (cin / a.groups) + i)) ∧
      (∀ p, ∀ o < cout, ∀ i < cin, i / (cin / a.groups) ≠ o / (cout / a.groups) → κ p o i = 0) ∧
      KernelRegular κ ∧
      KernelConstraint Sp.G Sp.act cout cin (typeMat rep outT) (typeMat rep inT) κ ∧
      (∀ f : PField cin, f.Test → ∀ x, Integrable fun y => ((κ (y - x)).corner cout cin).mulVec (f y)) ∧
      (Sp.ConvCommutes cout cin (typeMat rep outT) (typeMat rep inT) κ fun _ => True) ∧
      -- it is not zero unless the filter is
      ((∃ o < cout, ∃ i < cin / a.groups, ∃ u < a.kernelSize, ∃ v < a.kernelSize, filter o i u v ≠ 0) → ∃ f : PField cin, f.Test ∧ planeConv cout cin κ f 0 ≠ 0)

/-- The points of a filter are the origin or far from it. -/
theorem radius_point_ne (k d u v : ℕ) : radius ((d : ℝ) * (v - ((k : ℝ) - 1) / 2), (d : ℝ) * (((k : ℝ) - 1) / 2 - u)) ≠ 1e-9 := by
  intro h
  unfold radius at h
  have h2 := congrArg (· ^ 2) h
  simp only at h2
  rw [Real.sq_sqrt (by positivity)] at h2
  set n : ℤ := (d * (2 * v - (k - 1))) ^ 2 + (d * ((k - 1) - 2 * u)) ^ 2 with hn
  have e : (n : ℝ) = 4 * 1e-18 := by
    rw [hn]
    push_cast
    nlinarith
  have h3 : (0 : ℝ) < n := by rw [e]; norm_num
  have h4 : (n : ℝ) < 1 := by rw [e]; norm_num
  have h5 : 0 < n := by exact_mod_cast h3
  have h6 : n < 1 := by exact_mod_cast h4
  omega

theorem gridCoords_point {k d u v : ℕ} (hv : v < k) : gridCoords k d (u * k + v) = (d * (v - ((k : ℝ) - 1) / 2), d * (((k : ℝ) - 1) / 2 - u)) := by
  have h1 : (u * k + v) / k = u := by
    rw [Nat.add_comm, Nat.add_mul_div_right _ _ (by omega), Nat.div_eq_of_lt hv, zero_add]
  have h2 : (u * k + v) % k = v := by
    rw [Nat.add_comm, Nat.add_mul_mod_self_right, Nat.mod_eq_of_lt hv]
  simp only [gridCoords, h1, h2, Prod.mk.injEq]
  exact ⟨by ring, by ring⟩

/-- **C92 for a space whose kernels satisfy the constraint.** -/
theorem c92_layer [LinearOrder F] (Sp : Space El) (hp : Sp.Plane) (G : KernelGen El) (rep : F → Repr El) (inT outT : List F)
    (hG : GenOk Sp G rep inT outT) (hne : inT ≠ [] ∧ outT ≠ []) (hsz : ∀ n ∈ inT ++ outT, 0 < (rep n).size)
    (hrep : ∀ n ∈ inT ++ outT, IsRep Sp.G (rep n).size (rep n).mat) : R2ConvOnPlane Sp G rep inT outT := by
  classical
  intro a M hM hrings hg hd w hw cin cout hcin hcout
  unfold r2convInit at hM
  cases hgr : convGroups a.groups inT outT with
  | none => simp [hgr] at hM
  | some inG =>
    rw [hgr] at hM
    cases hq : computeBasisParams a.kernelSize a.dilation a.cutoff a.rings a.sigma with
    | none => simp [hq] at hM
    | some q =>
      obtain ⟨rings, sigma, fco, maxFreq⟩ := q
      rw [hq] at hM
      dsimp only at hM
      split_ifs at hM with hall hdim
      obtain rfl := Option.some.inj hM
      have hr : rings = basisRings a.kernelSize a.dilation a.rings := by
        unfold computeBasisParams at hq
        dsimp only at hq
        split_ifs at hq
        obtain ⟨F', -, h⟩ := Option.map_eq_some_iff.1 hq
        exact (Prod.ext_iff.1 h).1.symm
      have hnd : rings.Nodup := hr ▸ basisRings_nodup _ _ hd _ hrings
      obtain ⟨hin, outG, hout⟩ := convGroups_spec hgr hg hne.1 hne.2
      have hsub : ∀ n ∈ inG, n ∈ inT := by
        intro n hn
        rw [hin, List.mem_flatten]
        exact ⟨inG, List.mem_replicate.2 ⟨by omega, rfl⟩, hn⟩
      have hinG : inG ≠ [] := by
        rintro rfl
        refine hne.1 ?_
        rw [hin]
        simp
      set cinG := typeSize (fun m => (rep m).size) inG with hcinG
      set coutG := typeSize (fun m => (rep m).size) outG with hcoutG
      have hcin' : cin = a.groups * cinG := by rw [hcin, hin, typeSize_flatten]
      have hcout' : cout = a.groups * coutG := by rw [hcout, hout, typeSize_flatten]
      have hcinD : cin / a.groups = cinG := by rw [hcin', Nat.mul_div_cancel_left _ hg]
      have hcoutD : cout / a.groups = coutG := by rw [hcout', Nat.mul_div_cancel_left _ hg]
      set basis : F → F → List (BasisAttr El × (ℝ × ℝ → Mat)) :=
        fun i o => (buildKernelBasis G sigma rings (some maxFreq) a.maximumOffset (rep i) (rep o)).getD [] with hbasis
      have hi : FilterInput rep inG outT basis attrId := by
        refine ⟨hinG, hne.2, fun n hn => hsz n (List.mem_append_left _ (hsub n hn)), fun n hn => hsz n (List.mem_append_right _ hn), ?_⟩
        intro i hii o ho
        obtain ⟨l, hl⟩ := Option.ne_none_iff_exists'.1 (hall i hii o ho)
        simp only [hbasis, hl, Option.getD_some]
        exact buildKernelBasis_ids hl hnd
      have hK : ∀ i ∈ inG, ∀ o ∈ outT, ∀ b ∈ basis i o, KernelRegular b.2 ∧ KernelConstraint Sp.G Sp.act (rep o).size (rep i).size (rep o).mat (rep i).mat b.2 := by
        intro i hii o ho b hb
        obtain ⟨l, hl⟩ := Option.ne_none_iff_exists'.1 (hall i hii o ho)
        simp only [hbasis, hl, Option.getD_some] at hb
        exact ⟨buildKernelBasis_regular hl b hb, c66_build_kernel_basis Sp G rep inT outT hG sigma rings _ _ i o (hsub i hii) ho l hl b hb⟩
      obtain ⟨f, hf, κ, h1, h2, h3⟩ := filter_kernel Sp.G Sp.act rep inG outT _ _ basis _ _ attrId _ _ hi (fun i hii o ho b hb => (hK i hii o ho b hb).2)
        ((a.cfg fco).exp rep inG outT basis) rfl (fun _ => Exp.pairs_ne_nil hdim) w hw
      set Φ : ℝ × ℝ → Mat := fun p x y => ∑ k ∈ Finset.range ((a.cfg fco).exp rep inG outT basis).dimension,
        w.getD k 0 * ((a.cfg fco).exp rep inG outT basis).inBlock k (κ k p) x y with hΦ
      have hreg : KernelRegular Φ := by
        refine KernelRegular.sum fun k hk => ?_
        obtain ⟨i, hii, o, ho, b, hb, c, hc⟩ := h1 k hk
        rw [hc]
        exact ((hK i hii o ho b hb).1.div c).inBlock _ k
      rw [← hcout, ← hcinG, hcout'] at h2
      have hcon : KernelConstraint Sp.G Sp.act cout cin (typeMat rep outT) (typeMat rep inT) (groupKernel cinG coutG Φ) := by
        rw [hcin', hcout']
        refine groupKernel_constraint (Ai := typeMat rep inG) (Ao := typeMat rep outG) ?_ ?_ h2
        · intro g q hq q' hq' c hc c' hc'
          rw [hin]
          exact typeMat_flatten rep a.groups inG g q q' c c' hq hq' hc hc'
        · intro g q hq q' hq' c hc c' hc'
          rw [hout]
          exact typeMat_flatten rep a.groups outG g q q' c c' hq hq' hc hc'
      have hval : ∀ o < cout, ∀ i < cin / a.groups, ∀ u < a.kernelSize, ∀ v < a.kernelSize, reshapeFilter a.kernelSize f o i u v =
          groupKernel cinG coutG Φ (a.dilation * (v - ((a.kernelSize : ℝ) - 1) / 2), a.dilation * (((a.kernelSize : ℝ) - 1) / 2 - u)) o
            (o / (cout / a.groups) * (cin / a.groups) + i) := by
        intro o ho i hii u hu v hv
        rw [hcinD] at hii ⊢
        rw [hcoutD]
        have := h3 (u * a.kernelSize + v) o (hcout ▸ ho) i hii
        rw [show (a.cfg fco).k = a.kernelSize from rfl, show (a.cfg fco).d = a.dilation from rfl, gridCoords_point hv] at this
        have e1 : (o / coutG * cinG + i) / cinG = o / coutG := by
          rw [Nat.add_comm, Nat.add_mul_div_right _ _ (by omega), Nat.div_eq_of_lt hii, zero_add]
        have e2 : (o / coutG * cinG + i) % cinG = i := by
          rw [Nat.add_comm, Nat.add_mul_mod_self_right, Nat.mod_eq_of_lt hii]
        rw [groupKernel, e1, e2, if_pos rfl]
        exact this
      have hregG := hreg.group cinG coutG
      have r1 : IsRep Sp.G cout (typeMat rep outT) := hcout ▸ typeMat_isRep _ rep outT fun n hn => hrep n (List.mem_append_right _ hn)
      have r2 : IsRep Sp.G cin (typeMat rep inT) := hcin ▸ typeMat_isRep _ rep inT fun n hn => hrep n (List.mem_append_left _ hn)
      refine ⟨reshapeFilter a.kernelSize f, groupKernel cinG coutG Φ, fun b n x => ?_, hval, fun p o ho i hii hne => ?_, hregG, hcon, fun f hf x => hregG.integrable hf x,
        c92_commutes hp r1 r2 hcon, ?_⟩
      · have hgr' : convGroups (a.cfg fco).groups inT outT = some inG := hgr
        simp only [ConvModule.forward, r2conv, hgr', hf, ← hcout, ← hcinG, hcinD]
        rfl
      · rw [hcinD, hcoutD] at hne
        rw [groupKernel, if_neg hne]
      · rintro ⟨o, ho, i, hii, u, hu, v, hv, hfv⟩
        rw [hval o ho i hii u hu v hv] at hfv
        have hb : o / (cout / a.groups) * (cin / a.groups) + i < cin := by
          rw [hcinD] at hii ⊢
          rw [hcoutD, hcin']
          refine group_index_lt ?_ hii
          rw [hcout'] at ho
          exact (Nat.div_lt_iff_lt_mul (Nat.pos_of_ne_zero fun h0 => by simp [h0] at ho)).2 ho
        exact c92_nonzero hregG ho hb (radius_point_ne _ _ _ _) hfv

section layers

variable [LinearOrder F] (interp : ℝ → Img → Img) (inT outT : List F) (hne : inT ≠ [] ∧ outT ≠ [])

include hne

/-- **C92 for `Rot2dOnR2(N)`.** -/
theorem c92_cyclic (N : ℕ) (hN : 0 < N) (rep : F → Repr ℤ) (hsz : ∀ n ∈ inT ++ outT, 0 < (rep n).size)
    (hr : ∀ n ∈ inT ++ outT, (rep n).WF ∧ ∀ i ∈ (rep n).irreps, ∃ k, Cyclic.irrep N k = some i) : R2ConvOnPlane (rotSpace interp N) (rot2dGen N) rep inT outT :=
  c92_layer _ (rotSpace_plane interp N hN) _ rep inT outT (genOk_cyclic interp inT outT N hN rep hr) hne hsz fun n hn => Cyclic.isRep_of hN (hr n hn)

/-- **C92 for `Rot2dOnR2(-1)`.** -/
theorem c92_so2 (rep : F → Repr ℝ) (hsz : ∀ n ∈ inT ++ outT, 0 < (rep n).size)
    (hr : ∀ n ∈ inT ++ outT, (rep n).WF ∧ ∀ i ∈ (rep n).irreps, ∃ k, i = SO2.irrep k) : R2ConvOnPlane (so2Space interp) so2Gen rep inT outT :=
  c92_layer _ (so2Space_plane interp) _ rep inT outT (genOk_so2 interp inT outT rep hr) hne hsz fun n hn => SO2.isRep_of (hr n hn)

/-- **C92 for `Flip2dOnR2(axis)`.** -/
theorem c92_flip (axis : ℝ) (rep : F → Repr ℤ) (hsz : ∀ n ∈ inT ++ outT, 0 < (rep n).size)
    (hr : ∀ n ∈ inT ++ outT, (rep n).WF ∧ ∀ i ∈ (rep n).irreps, ∃ k, Cyclic.irrep 2 k = some i) : R2ConvOnPlane (flipSpace interp axis) (flip2dGen axis) rep inT outT :=
  c92_layer _ (flipSpace_plane interp axis) _ rep inT outT (genOk_flip interp inT outT axis rep hr) hne hsz
    fun n hn => Cyclic.isRep_of (N := 2) (by norm_num) (hr n hn)

/-- **C92 for `FlipRot2dOnR2(N, axis=axis)`.** -/
theorem c92_dihedral (N : ℕ) (hN : 0 < N) (axis : ℝ) (rep : F → Repr (ℤ × ℤ)) (hsz : ∀ n ∈ inT ++ outT, 0 < (rep n).size)
    (hr : ∀ n ∈ inT ++ outT, (rep n).WF ∧ ∀ i ∈ (rep n).irreps, ∃ j k, Dihedral.irrep N j k = some i) :
    R2ConvOnPlane (flipRotSpace interp N axis) (flipRot2dGen N axis) rep inT outT :=
  c92_layer _ (flipRotSpace_plane interp N hN axis) _ rep inT outT (genOk_dihedral interp inT outT N hN axis rep hr) hne hsz fun n hn => Dihedral.isRep_of hN (hr n hn)

/-- **C92 for `FlipRot2dOnR2(-1, axis=axis)`.** -/
theorem c92_o2 (axis : ℝ) (rep : F → Repr (ℤ × ℝ)) (hsz : ∀ n ∈ inT ++ outT, 0 < (rep n).size)
    (hr : ∀ n ∈ inT ++ outT, (rep n).WF ∧ ∀ i ∈ (rep n).irreps, ∃ j k, O2.irrep j k = some i) : R2ConvOnPlane (o2Space interp axis) (o2Gen axis) rep inT outT :=
  c92_layer _ (o2Space_plane interp axis) _ rep inT outT (genOk_o2 interp inT outT axis rep hr) hne hsz fun n hn => O2.isRep_of (hr n hn)

/-- **C92 for `TrivialOnR2()`.** -/
theorem c92_trivial (rep : F → Repr ℤ) (hsz : ∀ n ∈ inT ++ outT, 0 < (rep n).size)
    (hr : ∀ n ∈ inT ++ outT, (rep n).WF ∧ ∀ i ∈ (rep n).irreps, ∃ k, Cyclic.irrep 1 k = some i) : R2ConvOnPlane trivialSpace trivialGen rep inT outT :=
  c92_layer _ trivialSpace_plane _ rep inT outT (genOk_trivial inT outT rep hr) hne hsz fun n hn => Cyclic.isRep_of (N := 1) (by norm_num) (hr n hn)

end layers

/-! ## All equivariant convolutions -/

/-- **C92, completeness for SO(2)**: every convolution on the plane with a continuous kernel which commutes with the translations and the rotations has a kernel which the basis
of the library spans, with coefficients depending on the radius. -/
theorem c92_so2_complete (interp : ℝ → Img → Img) (rin rout : Repr ℝ) (hin : rin.WF) (hout : rout.WF) (hi : ∀ i ∈ rin.irreps, ∃ n, i = SO2.irrep n)
    (ho : ∀ o ∈ rout.irreps, ∃ m, o = SO2.irrep m) :
    ∃ S, steerable contBasis rin rout = some S ∧ S.Independent 0 rout.size rin.size ∧
      ∀ κ, KernelContinuous rout.size rin.size κ → (so2Space interp).ConvCommutes rout.size rin.size rout.mat rin.mat κ PField.Test → S.Spans 0 rout.size rin.size κ := by
  obtain ⟨S, hS, hI, h⟩ := c70_so2 rin rout hin hout hi ho
  exact ⟨S, hS, hI, fun κ hc hκ => h κ (c92_constraint (so2Space_plane interp) (SO2.isRep_of ⟨hout, ho⟩) (SO2.isRep_of ⟨hin, hi⟩) hc hκ)⟩

/-- **C92, completeness for O(2).** -/
theorem c92_o2_complete (interp : ℝ → Img → Img) (axis : ℝ) (rin rout : Repr (ℤ × ℝ)) (hin : rin.WF) (hout : rout.WF)
    (hi : ∀ i ∈ rin.irreps, ∃ j n, O2.irrep j n = some i) (ho : ∀ o ∈ rout.irreps, ∃ j m, O2.irrep j m = some o) :
    ∃ S, steerable flipContBasis rin rout = some S ∧ S.Independent axis rout.size rin.size ∧
      ∀ κ, KernelContinuous rout.size rin.size κ → (o2Space interp axis).ConvCommutes rout.size rin.size rout.mat rin.mat κ PField.Test →
        S.Spans axis rout.size rin.size κ := by
  obtain ⟨S, hS, hI, h⟩ := c70_o2 axis rin rout hin hout hi ho
  exact ⟨S, hS, hI, fun κ hc hκ => h κ (c92_constraint (o2Space_plane interp axis) (O2.isRep_of ⟨hout, ho⟩) (O2.isRep_of ⟨hin, hi⟩) hc hκ)⟩

/-- **C92, completeness for the cyclic groups**, for the kernels of bounded frequency. -/
theorem c92_cyclic_complete (interp : ℝ → Img → Img) (N : ℕ) (hN : 0 < N) (rin rout : Repr ℤ) (hin : rin.WF) (hout : rout.WF)
    (hi : ∀ i ∈ rin.irreps, ∃ n, Cyclic.irrep N n = some i) (ho : ∀ o ∈ rout.irreps, ∃ m, Cyclic.irrep N m = some o) (B : ℕ) :
    ∃ S, steerable (fun i o => rotBasis N i o (some B) none) rin rout = some S ∧ S.Independent 0 rout.size rin.size ∧
      ∀ κ, KernelContinuous rout.size rin.size κ → BandLimited rout.size rin.size B κ →
        (rotSpace interp N).ConvCommutes rout.size rin.size rout.mat rin.mat κ PField.Test → S.Spans 0 rout.size rin.size κ := by
  obtain ⟨S, hS, hI, h⟩ := c70_cyclic N hN rin rout hin hout hi ho B
  exact ⟨S, hS, hI, fun κ hc hb hκ => h κ (c92_constraint (rotSpace_plane interp N hN) (Cyclic.isRep_of hN ⟨hout, ho⟩) (Cyclic.isRep_of hN ⟨hin, hi⟩) hc hκ) hb⟩

/-- **C92, completeness for the reflections.** -/
theorem c92_flip_complete (interp : ℝ → Img → Img) (axis : ℝ) (rin rout : Repr ℤ) (hin : rin.WF) (hout : rout.WF)
    (hi : ∀ i ∈ rin.irreps, ∃ n, Cyclic.irrep 2 n = some i) (ho : ∀ o ∈ rout.irreps, ∃ m, Cyclic.irrep 2 m = some o) (B : ℕ) :
    ∃ S, steerable (fun i o => flipsBasis i o (some B) none) rin rout = some S ∧ S.Independent axis rout.size rin.size ∧
      ∀ κ, KernelContinuous rout.size rin.size κ → BandLimited rout.size rin.size B κ →
        (flipSpace interp axis).ConvCommutes rout.size rin.size rout.mat rin.mat κ PField.Test → S.Spans axis rout.size rin.size κ := by
  obtain ⟨S, hS, hI, h⟩ := c70_flip axis rin rout hin hout hi ho B
  exact ⟨S, hS, hI, fun κ hc hb hκ => h κ (c92_constraint (flipSpace_plane interp axis) (Cyclic.isRep_of (N := 2) (by norm_num) ⟨hout, ho⟩)
    (Cyclic.isRep_of (N := 2) (by norm_num) ⟨hin, hi⟩) hc hκ) hb⟩

/-- **C92, completeness for the dihedral groups.** -/
theorem c92_dihedral_complete (interp : ℝ → Img → Img) (N : ℕ) (hN : 0 < N) (axis : ℝ) (rin rout : Repr (ℤ × ℤ)) (hin : rin.WF) (hout : rout.WF)
    (hi : ∀ i ∈ rin.irreps, ∃ j n, Dihedral.irrep N j n = some i) (ho : ∀ o ∈ rout.irreps, ∃ j m, Dihedral.irrep N j m = some o) (B : ℕ) :
    ∃ S, steerable (fun i o => flipRotBasis N i o (some B) none) rin rout = some S ∧ S.Independent axis rout.size rin.size ∧
      ∀ κ, KernelContinuous rout.size rin.size κ → BandLimited rout.size rin.size B κ →
        (flipRotSpace interp N axis).ConvCommutes rout.size rin.size rout.mat rin.mat κ PField.Test → S.Spans axis rout.size rin.size κ := by
  obtain ⟨S, hS, hI, h⟩ := c70_dihedral N hN axis rin rout hin hout hi ho B
  exact ⟨S, hS, hI, fun κ hc hb hκ => h κ (c92_constraint (flipRotSpace_plane interp N hN axis) (Dihedral.isRep_of hN ⟨hout, ho⟩) (Dihedral.isRep_of hN ⟨hin, hi⟩) hc hκ) hb⟩

/-! ## Examples -/

/-- The hypotheses of `c92_so2` are met by the layers between scalar fields with odd kernel sizes and default arguments. -/
example (interp : ℝ → Img → Img) (m p s d : ℕ) (hd : 0 < d) (w : ℕ → ℝ) :
    ∃ (M : ConvModule ℝ ℕ) (filter : ℕ → ℕ → ℕ → ℕ → ℝ) (κ : ℝ × ℝ → Mat), r2convInit so2Gen (defaultArgs (2 * m + 1) p s d) (fun _ => so2Triv) [0, 0] [0] = some M ∧
      (∀ b n x, M.forward (fun _ => so2Triv) [0, 0] [0] ((List.range M.dim).map w) b n x =
        some (conv2d .zeros n p (2 * m + 1) s d 2 1 filter (outBias (fun _ => so2Triv) [0] b) x)) ∧
      (so2Space interp).ConvCommutes 1 2 (typeMat (fun _ => so2Triv) [0]) (typeMat (fun _ => so2Triv) [0, 0]) κ fun _ => True := by
  obtain ⟨M, hM, -⟩ := c66_odd_sizes (F := ℕ) m p s d [0, 0] [0] (by simp) hd
  obtain ⟨filter, κ, h1, -, -, -, -, -, h2, -⟩ := c92_so2 (F := ℕ) interp [0, 0] [0] (by simp) (fun _ => so2Triv) (fun _ _ => by rw [so2Triv_size]; exact one_pos)
    (fun _ _ => ⟨IsInv.one _, fun i hi => ⟨0, List.mem_singleton.1 hi⟩⟩) _ M hM (by simp [defaultArgs]) one_pos hd ((List.range M.dim).map w) (by simp) 2 1
    (by simp [typeSize, so2Triv_size]) (by simp [typeSize, so2Triv_size])
  rw [show (defaultArgs (2 * m + 1) p s d).groups = 1 from rfl] at h1
  exact ⟨M, filter, κ, hM, h1, h2⟩

/-- A Gaussian kernel satisfies the hypotheses of `c92_iff` and `c92_nonzero`, and commutes with the rotations; a kernel which is not symmetric does not. -/
theorem gaussian_isotropic (interp : ℝ → Img → Img) : KernelContinuous 1 1 (fun p => m1 (exp (-(p.1 ^ 2 + p.2 ^ 2)))) ∧
    (so2Space interp).ConvCommutes 1 1 (fun _ => Mat.one) (fun _ => Mat.one) (fun p => m1 (exp (-(p.1 ^ 2 + p.2 ^ 2)))) fun _ => True := by
  have hrep : IsRep (so2Space interp).G 1 fun _ => Mat.one :=
    ⟨fun _ _ _ _ => rfl, fun a b _ _ i hi j hj => by simp [Mat.mul, Mat.one, eq_comm]; omega⟩
  refine ⟨?_, c92_commutes (so2Space_plane interp) hrep hrep ?_⟩
  · refine continuous_pi fun i => continuous_pi fun j => ?_
    simp only [Mat.corner, m1]
    split_ifs <;> fun_prop
  · intro g _ p
    have e : (rot g p).1 ^ 2 + (rot g p).2 ^ 2 = p.1 ^ 2 + p.2 ^ 2 := by
      simp only [rot]
      nlinarith [sin_sq_add_cos_sq g]
    show MEq 1 1 (m1 (exp (-((rot g p).1 ^ 2 + (rot g p).2 ^ 2)))) _
    rw [e]
    intro i hi j hj
    obtain rfl : i = 0 := by omega
    obtain rfl : j = 0 := by omega
    simp [Mat.mul, Mat.one, m1]

/-- A continuous kernel which is not symmetric: its convolution does not commute with the rotations, already on the test functions. -/
theorem shifted_not_isotropic (interp : ℝ → Img → Img) : ¬ (so2Space interp).ConvCommutes 1 1 (fun _ => Mat.one) (fun _ => Mat.one) (fun p => m1 p.1) PField.Test := by
  have hrep : IsRep (so2Space interp).G 1 fun _ => Mat.one :=
    ⟨fun _ _ _ _ => rfl, fun a b _ _ i hi j hj => by simp [Mat.mul, Mat.one, eq_comm]; omega⟩
  intro h
  have hc : KernelContinuous 1 1 (fun p => m1 p.1) := by
    refine continuous_pi fun i => continuous_pi fun j => ?_
    simp only [Mat.corner, m1]
    split_ifs <;> fun_prop
  have := c92_constraint (so2Space_plane interp) hrep hrep hc h π trivial (1, 0) 0 one_pos 0 one_pos
  simp [Mat.mul, Mat.one, m1, so2Space, rot] at this
  norm_num at this

end E2
