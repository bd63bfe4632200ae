import Mathlib.Analysis.Calculus.FDeriv.Symmetric
import Mathlib.Analysis.Calculus.ContDiff.Operations
import Mathlib.Analysis.SpecialFunctions.ExpDeriv
import Mathlib.Algebra.MvPolynomial.Funext
import Mathlib.Algebra.Algebra.Subalgebra.Lattice
import Mathlib.RingTheory.Adjoin.Basic
import Verif.Lemmas.FiniteDiff
import Verif.Props.GaussSpec
import Verif.Props.DiffopPoly

/-!
# Differential operators with constant coefficients on smooth functions of the plane
-/

namespace E2

open Finset Real
open scoped ContDiff

/-- An identity between homogeneous polynomials of two real variables holds for two commuting elements of an algebra. -/
theorem op_poly {A : Type*} [Ring A] [Algebra ℝ A] (X Y : A) (h : X * Y = Y * X) (n : ℕ) (c e : ℕ → ℝ) (a b a' b' : ℝ)
    (hp : ∀ x y : ℝ, ∑ m ∈ range (n + 1), c m * ((a * x + b * y) ^ (n - m) * (a' * x + b' * y) ^ m) = ∑ m ∈ range (n + 1), e m * (x ^ (n - m) * y ^ m)) :
    ∑ m ∈ range (n + 1), c m • ((a • X + b • Y) ^ (n - m) * (a' • X + b' • Y) ^ m) = ∑ m ∈ range (n + 1), e m • (X ^ (n - m) * Y ^ m) := by
  have hcomm : ∀ s ∈ ({X, Y} : Set A), ∀ t ∈ ({X, Y} : Set A), s * t = t * s := by
    intro s hs t ht
    rcases hs with rfl | rfl <;> rcases ht with rfl | rfl <;> first | rfl | exact h | exact h.symm
  let S := Algebra.adjoin ℝ ({X, Y} : Set A)
  letI : CommRing S := Algebra.adjoinCommRingOfComm ℝ hcomm
  let X' : S := ⟨X, Algebra.subset_adjoin (by simp)⟩
  let Y' : S := ⟨Y, Algebra.subset_adjoin (by simp)⟩
  let P : MvPolynomial (Fin 2) ℝ := ∑ m ∈ range (n + 1), MvPolynomial.C (c m) *
    ((MvPolynomial.C a * MvPolynomial.X 0 + MvPolynomial.C b * MvPolynomial.X 1) ^ (n - m) *
      (MvPolynomial.C a' * MvPolynomial.X 0 + MvPolynomial.C b' * MvPolynomial.X 1) ^ m)
  let Q : MvPolynomial (Fin 2) ℝ := ∑ m ∈ range (n + 1), MvPolynomial.C (e m) * (MvPolynomial.X 0 ^ (n - m) * MvPolynomial.X 1 ^ m)
  have hPQ : P = Q := MvPolynomial.funext fun v => by
    simpa [P, Q] using hp (v 0) (v 1)
  have := congrArg (fun p => ((MvPolynomial.aeval ![X', Y'] p : S) : A)) hPQ
  simpa [P, Q, X', Y', Algebra.smul_def, S] using this

/-- The smooth functions of the plane. -/
def Smooth : Submodule ℝ (ℝ × ℝ → ℝ) where
  carrier := {f | ContDiff ℝ ∞ f}
  add_mem' := by
    intro f g hf hg
    exact ContDiff.add (show ContDiff ℝ ∞ f from hf) (show ContDiff ℝ ∞ g from hg)
  zero_mem' := by
    show ContDiff ℝ ∞ (fun _ : ℝ × ℝ => (0 : ℝ))
    exact contDiff_const
  smul_mem' := by
    intro c f hf
    exact ContDiff.const_smul c (show ContDiff ℝ ∞ f from hf)

theorem Smooth.cd (f : Smooth) : ContDiff ℝ ∞ f.1 := f.2

/-- The derivative in a direction. -/
noncomputable def dirD (v : ℝ × ℝ) : Smooth →ₗ[ℝ] Smooth where
  toFun := fun f => ⟨fun p => fderiv ℝ f.1 p v, ((Smooth.cd f).fderiv_right (m := ∞) (by simp)).clm_apply contDiff_const⟩
  map_add' := fun f g => Subtype.ext <| funext fun p => by
    have hf : DifferentiableAt ℝ f.1 p := ((Smooth.cd f).differentiable (by simp)) p
    have hg : DifferentiableAt ℝ g.1 p := ((Smooth.cd g).differentiable (by simp)) p
    show fderiv ℝ (f.1 + g.1) p v = fderiv ℝ f.1 p v + fderiv ℝ g.1 p v
    rw [fderiv_add hf hg]
    rfl
  map_smul' := fun c f => Subtype.ext <| funext fun p => by
    have hf : DifferentiableAt ℝ f.1 p := ((Smooth.cd f).differentiable (by simp)) p
    show fderiv ℝ (c • f.1) p v = c • fderiv ℝ f.1 p v
    rw [fderiv_const_smul hf]
    rfl

theorem dirD_comm (v w : ℝ × ℝ) : dirD v * dirD w = dirD w * dirD v := by
  refine LinearMap.ext fun f => Subtype.ext <| funext fun p => ?_
  have hd : DifferentiableAt ℝ (fderiv ℝ f.1) p := (((Smooth.cd f).fderiv_right (m := ∞) (by simp)).differentiable (by simp)) p
  have key : ∀ v w : ℝ × ℝ, fderiv ℝ (fun q => fderiv ℝ f.1 q w) p v = fderiv ℝ (fderiv ℝ f.1) p v w := by
    intro v w
    rw [fderiv_clm_apply hd (differentiableAt_const w)]
    simp
  show fderiv ℝ (fun q => fderiv ℝ f.1 q w) p v = fderiv ℝ (fun q => fderiv ℝ f.1 q v) p w
  rw [key, key]
  exact ((Smooth.cd f).contDiffAt.isSymmSndFDerivAt (by simp only [minSmoothness_of_isRCLikeNormedField]; exact WithTop.coe_le_coe.2 le_top)) v w

theorem dirD_lin (a b : ℝ) : dirD (a, b) = a • dirD (1, 0) + b • dirD (0, 1) := by
  refine LinearMap.ext fun f => Subtype.ext <| funext fun p => ?_
  show fderiv ℝ f.1 p (a, b) = a • fderiv ℝ f.1 p (1, 0) + b • fderiv ℝ f.1 p (0, 1)
  rw [← map_smul, ← map_smul, ← map_add]
  simp

/-- The composition with a linear map. -/
def pullS (R : ℝ × ℝ →L[ℝ] ℝ × ℝ) : Smooth →ₗ[ℝ] Smooth where
  toFun := fun f => ⟨fun p => f.1 (R p), (Smooth.cd f).comp R.contDiff⟩
  map_add' := fun _ _ => rfl
  map_smul' := fun _ _ => rfl

theorem pullS_dirD (R : ℝ × ℝ →L[ℝ] ℝ × ℝ) (v : ℝ × ℝ) : pullS R * dirD (R v) = dirD v * pullS R := by
  refine LinearMap.ext fun f => Subtype.ext <| funext fun p => ?_
  have hf : DifferentiableAt ℝ f.1 (R p) := ((Smooth.cd f).differentiable (by simp)) _
  show fderiv ℝ f.1 (R p) (R v) = fderiv ℝ (fun q => f.1 (R q)) p v
  have := fderiv_comp p hf R.differentiableAt
  rw [show (fun q => f.1 (R q)) = f.1 ∘ R from rfl, this]
  simp

/-- The operator of a homogeneous polynomial. -/
noncomputable def polyD (c : HPoly) : Smooth →ₗ[ℝ] Smooth := ∑ m ∈ range (c.deg + 1), c.co m • (dirD (1, 0) ^ (c.deg - m) * dirD (0, 1) ^ m)

/-- A linear map of the plane with the entries of its matrix. -/
noncomputable def lin2 (a b a' b' : ℝ) : ℝ × ℝ →L[ℝ] ℝ × ℝ :=
  (a • ContinuousLinearMap.fst ℝ ℝ ℝ + b • ContinuousLinearMap.snd ℝ ℝ ℝ).prod (a' • ContinuousLinearMap.fst ℝ ℝ ℝ + b' • ContinuousLinearMap.snd ℝ ℝ ℝ)

theorem lin2_apply (a b a' b' : ℝ) (p : ℝ × ℝ) : lin2 a b a' b' p = (a * p.1 + b * p.2, a' * p.1 + b' * p.2) := by
  simp [lin2]

/-- The derivatives of the composition with an orthogonal map: the polynomial is composed with the map. -/
theorem polyD_comp {a b a' b' : ℝ} (h1 : a * a + b * b = 1) (h2 : a' * a' + b' * b' = 1) (h3 : a * a' + b * b' = 0) (F F' : Smooth)
    (hF : ∀ p, F.1 (lin2 a b a' b' p) = F'.1 p) (c e : HPoly) (hde : e.deg = c.deg)
    (hc : ∀ p : ℝ × ℝ, c.eval (lin2 a b a' b' p) = e.eval p) (p : ℝ × ℝ) :
    (polyD c F).1 (lin2 a b a' b' p) = (polyD e F').1 p := by
  have hX : pullS (lin2 a b a' b') * dirD (1, 0) = (a • dirD (1, 0) + b • dirD (0, 1)) * pullS (lin2 a b a' b') := by
    rw [← dirD_lin, ← pullS_dirD, lin2_apply]
    simp only [h1]
    rw [show a' * a + b' * b = 0 by linarith]
  have hY : pullS (lin2 a b a' b') * dirD (0, 1) = (a' • dirD (1, 0) + b' • dirD (0, 1)) * pullS (lin2 a b a' b') := by
    rw [← dirD_lin, ← pullS_dirD, lin2_apply]
    simp only [h2, h3]
  have hpow : ∀ (U W : Smooth →ₗ[ℝ] Smooth), pullS (lin2 a b a' b') * U = W * pullS (lin2 a b a' b') →
      ∀ k, pullS (lin2 a b a' b') * U ^ k = W ^ k * pullS (lin2 a b a' b') := fun U W h k => (SemiconjBy.pow_right h k : _)
  have hFF : pullS (lin2 a b a' b') F = F' := Subtype.ext (funext hF)
  have hop : (pullS (lin2 a b a' b') * polyD c) F = polyD e F' := by
    have : pullS (lin2 a b a' b') * polyD c = polyD e * pullS (lin2 a b a' b') := by
      rw [polyD, polyD, hde, ← op_poly (dirD (1, 0)) (dirD (0, 1)) (dirD_comm _ _) c.deg c.co e.co a b a' b' (by
        intro x y
        have := hc (x, y)
        rw [lin2_apply, HPoly.eval, HPoly.eval, hde] at this
        exact this)]
      rw [Finset.mul_sum, Finset.sum_mul]
      refine Finset.sum_congr rfl fun m _ => ?_
      rw [mul_smul_comm, smul_mul_assoc, ← mul_assoc, hpow _ _ hX, mul_assoc, hpow _ _ hY, mul_assoc]
    rw [this, Module.End.mul_apply, hFF]
  exact congrFun (congrArg Subtype.val hop) p

/-! ### Partial derivatives -/

theorem partialX_smooth (f : Smooth) : partialX f.1 = (dirD (1, 0) f).1 := by
  funext p
  have hf : DifferentiableAt ℝ f.1 p := ((Smooth.cd f).differentiable (by simp)) p
  have h1 : HasDerivAt (fun t : ℝ => (t, p.2)) ((1 : ℝ), (0 : ℝ)) p.1 := (hasDerivAt_id p.1).prodMk (hasDerivAt_const p.1 p.2)
  have := (show HasFDerivAt f.1 (fderiv ℝ f.1 p) (p.1, p.2) from hf.hasFDerivAt).comp_hasDerivAt p.1 h1
  exact this.deriv

theorem partialY_smooth (f : Smooth) : partialY f.1 = (dirD (0, 1) f).1 := by
  funext p
  have hf : DifferentiableAt ℝ f.1 p := ((Smooth.cd f).differentiable (by simp)) p
  have h1 : HasDerivAt (fun t : ℝ => (p.1, t)) ((0 : ℝ), (1 : ℝ)) p.2 := (hasDerivAt_const p.2 p.1).prodMk (hasDerivAt_id p.2)
  have := (show HasFDerivAt f.1 (fderiv ℝ f.1 p) (p.1, p.2) from hf.hasFDerivAt).comp_hasDerivAt p.2 h1
  exact this.deriv

theorem partials_smooth (f : Smooth) (a b : ℕ) : partialX^[a] (partialY^[b] f.1) = ((dirD (1, 0) ^ a * dirD (0, 1) ^ b) f).1 := by
  have hY : ∀ b, partialY^[b] f.1 = ((dirD (0, 1) ^ b) f).1 := by
    intro b
    induction b with
    | zero => rfl
    | succ b ih => rw [Function.iterate_succ_apply', ih, partialY_smooth, pow_succ', Module.End.mul_apply]
  rw [hY]
  induction a with
  | zero => rw [pow_zero, one_mul]; rfl
  | succ a ih => rw [Function.iterate_succ_apply', ih, partialX_smooth, pow_succ', mul_assoc, Module.End.mul_apply]; rfl

theorem polyD_apply (c : HPoly) (f : Smooth) (p : ℝ × ℝ) :
    (polyD c f).1 p = ∑ m ∈ range (c.deg + 1), c.co m * (partialX^[c.deg - m] (partialY^[m] f.1)) p := by
  have : (polyD c f).1 = ∑ m ∈ range (c.deg + 1), c.co m • ((dirD (1, 0) ^ (c.deg - m) * dirD (0, 1) ^ m) f).1 := by
    rw [polyD, LinearMap.sum_apply, Submodule.coe_sum]
    rfl
  rw [this, Finset.sum_apply]
  exact Finset.sum_congr rfl fun m _ => by rw [partials_smooth]; rfl

/-! ### The lists of exponents and coefficients -/

theorem list_range_sum (n : ℕ) (F : ℕ → ℝ) : ((List.range n).map F).sum = ∑ k ∈ range n, F k := by
  induction n with
  | zero => simp
  | succ n ih => rw [List.range_succ, List.map_append, List.sum_append, ih, Finset.sum_range_succ]; simp

theorem nonzero_sum (c : HPoly) (g : ℕ → ℕ → ℝ) :
    (((c.nonzeroCo.zip c.diffs).map fun t => t.1 * g t.2.1 t.2.2).sum) = ∑ m ∈ range (c.deg + 1), c.co m * g (c.deg - m) m := by
  classical
  rw [HPoly.diffs, HPoly.nonzeroCo, List.zip_map', List.map_map, HPoly.nonzero, ← list_range_sum]
  have key : ∀ (l : List ℕ) (g : ℕ → ℝ), (((l.filter fun k => decide (c.co k ≠ 0)).map fun k => c.co k * g k).sum) = (l.map fun k => c.co k * g k).sum := by
    intro l g
    induction l with
    | nil => rfl
    | cons k l ih =>
      by_cases h : c.co k = 0
      · rw [List.filter_cons_of_neg (by simpa using h), List.map_cons, List.sum_cons, ih, h, zero_mul, zero_add]
      · rw [List.filter_cons_of_pos (by simpa using h), List.map_cons, List.map_cons, List.sum_cons, List.sum_cons, ih]
  exact key (List.range (c.deg + 1)) fun k => g (c.deg - k) k

theorem applyDiffs_eq (c : HPoly) (f : ℝ × ℝ → ℝ) (p : ℝ × ℝ) :
    applyDiffs c.diffs c.nonzeroCo f p = ∑ m ∈ range (c.deg + 1), c.co m * (partialX^[c.deg - m] (partialY^[m] f)) p :=
  nonzero_sum c fun a b => (partialX^[a] (partialY^[b] f)) p

theorem applyDiffs_smooth (c : HPoly) (f : Smooth) (p : ℝ × ℝ) : applyDiffs c.diffs c.nonzeroCo f.1 p = (polyD c f).1 p := by
  rw [applyDiffs_eq, polyD_apply]

theorem diffs_nil {c : HPoly} (h : c.diffs = []) (m : ℕ) (hm : m ≤ c.deg) : c.co m = 0 := by
  classical
  rw [HPoly.diffs, List.map_eq_nil_iff, HPoly.nonzero, List.filter_eq_nil_iff] at h
  simpa using h m (List.mem_range.2 (by omega))

/-- An orthogonal linear map of the plane. -/
def OrthMap (f : ℝ × ℝ → ℝ × ℝ) : Prop := ∃ a b a' b' : ℝ, (a * a + b * b = 1 ∧ a' * a' + b' * b' = 1 ∧ a * a' + b * b' = 0) ∧
  (a * a + a' * a' = 1 ∧ b * b + b' * b' = 1 ∧ a * b + a' * b' = 0) ∧ ∀ p, f p = lin2 a b a' b' p

/-! ### The system of RBF-FD -/

theorem PolyLE.smooth {l : Option ℕ} {q : ℝ × ℝ → ℝ} (h : PolyLE l q) : ContDiff ℝ ∞ q := by
  cases l with
  | none => rw [show q = fun _ => 0 from h]; exact contDiff_const
  | some l =>
    obtain ⟨cs, -, rfl⟩ := h
    refine ContDiff.sum fun i _ => ContDiff.sum fun k _ => ?_
    fun_prop

theorem PolyLE.zero (l : Option ℕ) : PolyLE l fun _ => 0 := by
  cases l with
  | none => rfl
  | some l => exact ⟨fun i => ⟨i, fun _ => 0⟩, fun _ => rfl, by funext p; simp [HPoly.eval]⟩

theorem PolyLE.lin {l : Option ℕ} {q r : ℝ × ℝ → ℝ} (hq : PolyLE l q) (hr : PolyLE l r) (a : ℝ) : PolyLE l fun p => a * q p + r p := by
  cases l with
  | none =>
    obtain rfl : q = fun _ => 0 := hq
    obtain rfl : r = fun _ => 0 := hr
    show (fun p : ℝ × ℝ => a * 0 + (0 : ℝ)) = fun _ => 0
    simp
  | some l =>
    obtain ⟨cs, h1, rfl⟩ := hq
    obtain ⟨ds, h2, rfl⟩ := hr
    refine ⟨fun i => ⟨i, fun k => a * (cs i).co k + (ds i).co k⟩, fun _ => rfl, ?_⟩
    funext p
    rw [Finset.mul_sum, ← Finset.sum_add_distrib]
    refine Finset.sum_congr rfl fun i _ => ?_
    simp only [HPoly.eval, h1, h2]
    rw [Finset.mul_sum, ← Finset.sum_add_distrib]
    exact Finset.sum_congr rfl fun k _ => by ring

theorem PolyLE.comp {l : Option ℕ} {q : ℝ × ℝ → ℝ} (hq : PolyLE l q) (a b a' b' : ℝ) : PolyLE l fun p => q (lin2 a b a' b' p) := by
  cases l with
  | none => obtain rfl : q = fun _ => 0 := hq; rfl
  | some l =>
    obtain ⟨cs, h1, rfl⟩ := hq
    refine ⟨fun i => (cs i).transform fun r c => if c = 0 then (if r = 0 then a else b) else (if r = 0 then a' else b'), fun i => h1 i, ?_⟩
    funext p
    refine Finset.sum_congr rfl fun i _ => ?_
    rw [lin2_apply]
    exact ((HPoly.c46_transform (cs i) _ p.1 p.2).2.trans (by simp)).symm

theorem RBFSystem.zero (φ : ℝ × ℝ → ℝ) (l : Option ℕ) (N : ℕ) (pt : ℕ → ℝ × ℝ) : RBFSystem φ l N pt (fun _ => 0) fun _ => 0 :=
  ⟨⟨fun _ => 0, PolyLE.zero l, fun i _ => by simp⟩, fun q _ => by simp⟩

theorem RBFSystem.lin {φ : ℝ × ℝ → ℝ} {l : Option ℕ} {N : ℕ} {pt : ℕ → ℝ × ℝ} {L M : (ℝ × ℝ → ℝ) → ℝ} {w v : ℕ → ℝ}
    (hw : RBFSystem φ l N pt L w) (hv : RBFSystem φ l N pt M v) (a : ℝ) :
    RBFSystem φ l N pt (fun f => a * L f + M f) fun j => a * w j + v j := by
  obtain ⟨⟨μ, h1, h2⟩, h3⟩ := hw
  obtain ⟨⟨ν, k1, k2⟩, k3⟩ := hv
  refine ⟨⟨fun p => a * μ p + ν p, h1.lin k1 a, fun i hi => ?_⟩, fun q hq => ?_⟩
  · dsimp only
    rw [← h2 i hi, ← k2 i hi, mul_add, Finset.mul_sum]
    have : ∑ j ∈ range N, (a * w j + v j) * φ (pt j - pt i) = ∑ j ∈ range N, a * (w j * φ (pt j - pt i)) + ∑ j ∈ range N, v j * φ (pt j - pt i) := by
      rw [← Finset.sum_add_distrib]
      exact Finset.sum_congr rfl fun j _ => by ring
    rw [this]
    ring
  · dsimp only
    rw [← h3 q hq, ← k3 q hq, Finset.mul_sum, ← Finset.sum_add_distrib]
    exact Finset.sum_congr rfl fun j _ => by ring

theorem RBFSystem.sum {ι : Type} {φ : ℝ × ℝ → ℝ} {l : Option ℕ} {N : ℕ} {pt : ℕ → ℝ × ℝ} (s : Finset ι) (L : ι → (ℝ × ℝ → ℝ) → ℝ) (w : ι → ℕ → ℝ) (a : ι → ℝ)
    (h : ∀ i ∈ s, RBFSystem φ l N pt (L i) (w i)) : RBFSystem φ l N pt (fun f => ∑ i ∈ s, a i * L i f) fun j => ∑ i ∈ s, a i * w i j := by
  classical
  induction s using Finset.induction_on with
  | empty => simpa using RBFSystem.zero φ l N pt
  | insert i s hi ih =>
    have := (h i (Finset.mem_insert_self i s)).lin (ih fun j hj => h j (Finset.mem_insert_of_mem hj)) (a i)
    simpa only [Finset.sum_insert hi] using this

/-- The solution for the polynomial composed with an orthogonal map which permutes the points. -/
theorem RBFSystem.comp {a b a' b' : ℝ} (h1 : a * a + b * b = 1) (h2 : a' * a' + b' * b' = 1) (h3 : a * a' + b * b' = 0)
    (h4 : a * a + a' * a' = 1) (h5 : b * b + b' * b' = 1) (h6 : a * b + a' * b' = 0) {φ : ℝ × ℝ → ℝ} (hφ : ContDiff ℝ ∞ φ) (hr : Radial φ)
    {l : Option ℕ} {N : ℕ} {pt : ℕ → ℝ × ℝ} {σ : ℕ → ℕ} (hσ : ∀ j < N, σ j < N) (hinj : ∀ i < N, ∀ j < N, σ i = σ j → i = j)
    (hpt : ∀ j < N, pt (σ j) = lin2 a b a' b' (pt j)) (c e : HPoly) (hde : e.deg = c.deg) (hc : ∀ p : ℝ × ℝ, c.eval (lin2 a b a' b' p) = e.eval p) {w : ℕ → ℝ}
    (h : RBFSystem φ l N pt (fun f => applyDiffs c.diffs c.nonzeroCo f 0) w) :
    RBFSystem φ l N pt (fun f => applyDiffs e.diffs e.nonzeroCo f 0) fun j => w (σ j) := by
  obtain ⟨⟨μ, m1, m2⟩, m3⟩ := h
  dsimp only at m2 m3
  have hre : ∀ F : ℕ → ℝ, ∑ j ∈ range N, F (σ j) = ∑ j ∈ range N, F j := by
    intro F
    refine Finset.sum_nbij σ (fun j hj => Finset.mem_range.2 (hσ j (Finset.mem_range.1 hj))) ?_ ?_ fun _ _ => rfl
    · intro i hi j hj hij
      exact hinj i (Finset.mem_range.1 hi) j (Finset.mem_range.1 hj) hij
    · exact Finset.surjOn_of_injOn_of_card_le σ (fun j hj => Finset.mem_coe.2 (Finset.mem_range.2 (hσ j (Finset.mem_range.1 hj))))
        (fun i hi j hj hij => hinj i (Finset.mem_range.1 hi) j (Finset.mem_range.1 hj) hij) le_rfl
  have hL : ∀ F F' : ℝ × ℝ → ℝ, ContDiff ℝ ∞ F → ContDiff ℝ ∞ F' → (∀ p, F (lin2 a b a' b' p) = F' p) →
      applyDiffs c.diffs c.nonzeroCo F 0 = applyDiffs e.diffs e.nonzeroCo F' 0 := by
    intro F F' hF hF' hFF
    have := polyD_comp h1 h2 h3 ⟨F, hF⟩ ⟨F', hF'⟩ hFF c e hde hc 0
    rw [map_zero] at this
    rw [applyDiffs_smooth c ⟨F, hF⟩, applyDiffs_smooth e ⟨F', hF'⟩, this]
  have hnorm : ∀ p : ℝ × ℝ, φ (lin2 a b a' b' p) = φ p := fun p => hr _ _ (by
    rw [lin2_apply]
    dsimp only
    linear_combination (p.1 ^ 2) * h4 + (p.2 ^ 2) * h5 + (2 * p.1 * p.2) * h6)
  have htr : ∀ v : ℝ × ℝ, ContDiff ℝ ∞ fun x : ℝ × ℝ => φ (x - v) := fun v => hφ.comp (contDiff_id.sub contDiff_const)
  refine ⟨⟨fun p => μ (lin2 a b a' b' p), m1.comp a b a' b', fun i hi => ?_⟩, fun q hq => ?_⟩
  · dsimp only
    rw [← hL (fun x => φ (x - pt (σ i))) (fun x => φ (x - pt i)) (htr _) (htr _) (fun p => by
      rw [hpt i hi, ← map_sub, hnorm]), ← m2 (σ i) (hσ i hi), ← hpt i hi, ← hre fun j => w j * φ (pt j - pt (σ i))]
    congr 1
    refine Finset.sum_congr rfl fun j hj => ?_
    rw [hpt j (Finset.mem_range.1 hj), hpt i hi, ← map_sub, hnorm]
  · have hback : ∀ p, lin2 a a' b b' (lin2 a b a' b' p) = p := by
      intro p
      rw [lin2_apply, lin2_apply]
      refine Prod.ext ?_ ?_ <;> dsimp only
      · linear_combination p.1 * h4 + p.2 * h6
      · linear_combination p.2 * h5 + p.1 * h6
    have hq' := hq.comp a a' b b'
    dsimp only
    rw [← hL (fun p => q (lin2 a a' b b' p)) q hq'.smooth hq.smooth (fun p => by rw [hback]), ← m3 _ hq', ← hre fun j => w j * q (lin2 a a' b b' (pt j))]
    refine Finset.sum_congr rfl fun j hj => ?_
    rw [hpt j (Finset.mem_range.1 hj), hback]

end E2
