import Mathlib.LinearAlgebra.Vandermonde
import Mathlib.LinearAlgebra.Matrix.NonsingularInverse
import Mathlib.Tactic.Ring
import Mathlib.Tactic.Linarith
import Verif.Model.FiniteDiff
import Verif.Props.DiffopPoly
import Verif.Props.ImageSpec

/-!
# Weights of finite differences, and coefficients of polynomials
-/

namespace E2

open Finset Mat Real

/-- The weights `w` of the points `t 0, ..., t (k - 1)` differentiate exactly all polynomials with fewer than `k` coefficients: `n` times at the
origin. -/
def FDWeights (k : ℕ) (t : ℕ → ℝ) (n : ℕ) (w : ℕ → ℝ) : Prop :=
  ∀ m < k, ∑ j ∈ range k, w j * t j ^ m = if m = n then (n.factorial : ℝ) else 0

theorem vander_zero {k : ℕ} {t v : ℕ → ℝ} (ht : ∀ i < k, ∀ j < k, t i = t j → i = j)
    (h : ∀ m < k, ∑ j ∈ range k, v j * t j ^ m = 0) : ∀ j < k, v j = 0 := by
  have := Matrix.eq_zero_of_forall_pow_sum_mul_pow_eq_zero (R := ℝ) (n := k) (f := fun j => t j) (v := fun j => v j)
    (fun i j hij => Fin.ext (ht i i.2 j j.2 hij)) (fun m => by
      rw [Fin.sum_univ_eq_sum_range (fun j => v j * t j ^ (m : ℕ)) k]
      exact h m m.2)
  intro j hj
  exact congrFun this ⟨j, hj⟩

theorem FDWeights.unique {k n : ℕ} {t v w : ℕ → ℝ} (ht : ∀ i < k, ∀ j < k, t i = t j → i = j) (hv : FDWeights k t n v) (hw : FDWeights k t n w) :
    ∀ j < k, v j = w j := by
  have := vander_zero (v := fun j => v j - w j) ht fun m hm => by
    simp only [sub_mul, Finset.sum_sub_distrib, hv m hm, hw m hm, sub_self]
  intro j hj
  linarith [this j hj]

theorem FDWeights.exists {k : ℕ} {t : ℕ → ℝ} (ht : ∀ i < k, ∀ j < k, t i = t j → i = j) (n : ℕ) : ∃ w, FDWeights k t n w := by
  have hdet : IsUnit (Matrix.vandermonde fun j : Fin k => t j) := by
    rw [Matrix.isUnit_iff_isUnit_det, isUnit_iff_ne_zero, Matrix.det_vandermonde_ne_zero_iff]
    exact fun i j hij => Fin.ext (ht i i.2 j j.2 hij)
  obtain ⟨w, hw⟩ := (Matrix.vecMul_surjective_iff_isUnit.2 hdet) fun m => if (m : ℕ) = n then (n.factorial : ℝ) else 0
  refine ⟨fun j => if h : j < k then w ⟨j, h⟩ else 0, fun m hm => ?_⟩
  have := congrFun hw ⟨m, hm⟩
  simp only [Matrix.vecMul, dotProduct, Matrix.vandermonde_apply] at this
  rw [← this, ← Fin.sum_univ_eq_sum_range (fun j => (if h : j < k then w ⟨j, h⟩ else 0) * t j ^ m) k]
  exact Finset.sum_congr rfl fun j _ => by simp

theorem FDWeights.parity {k n : ℕ} {t w : ℕ → ℝ} (ht : ∀ i < k, ∀ j < k, t i = t j → i = j) (hs : ∀ j < k, t (k - 1 - j) = -t j)
    (hw : FDWeights k t n w) : ∀ j < k, w (k - 1 - j) = (-1) ^ n * w j := by
  have h : FDWeights k t n fun j => (-1) ^ n * w (k - 1 - j) := by
    intro m hm
    have h1 : ∑ j ∈ range k, (-1) ^ n * w (k - 1 - j) * t j ^ m = (-1) ^ n * (-1) ^ m * ∑ j ∈ range k, w j * t j ^ m := by
      rw [← Finset.sum_range_reflect (fun j => w j * t j ^ m), Finset.mul_sum]
      refine Finset.sum_congr rfl fun j hj => ?_
      rw [hs j (Finset.mem_range.1 hj), neg_pow (t j)]
      have : ((-1 : ℝ) ^ m) * (-1) ^ m = 1 := by rw [← mul_pow]; simp
      linear_combination (-(-1) ^ n * w (k - 1 - j) * t j ^ m) * this
    rw [h1, hw m hm]
    split_ifs with hmn
    · subst hmn
      rw [← mul_pow]; simp
    · simp
  intro j hj
  have := FDWeights.unique ht hw h j hj
  rw [this, ← _root_.mul_assoc, ← mul_pow]
  simp

/-! ### Coefficients of homogeneous polynomials -/

theorem HPoly.coef_unique {n : ℕ} {c d : ℕ → ℝ}
    (h : ∀ p : ℝ × ℝ, ∑ m ∈ range (n + 1), c m * (p.1 ^ (n - m) * p.2 ^ m) = ∑ m ∈ range (n + 1), d m * (p.1 ^ (n - m) * p.2 ^ m)) :
    ∀ m ≤ n, c m = d m := by
  have key := Matrix.eq_zero_of_forall_index_sum_mul_pow_eq_zero (R := ℝ) (n := n + 1) (f := fun j => ((j : ℕ) : ℝ)) (v := fun m => c m - d m)
    (fun i j hij => Fin.ext (by simpa using hij)) (fun j => by
      rw [Fin.sum_univ_eq_sum_range (fun m => (c m - d m) * ((j : ℕ) : ℝ) ^ m) (n + 1)]
      have := h (1, ((j : ℕ) : ℝ))
      simp only [one_pow, one_mul] at this
      simp only [sub_mul, Finset.sum_sub_distrib, this, sub_self])
  intro m hm
  have := congrFun key ⟨m, by omega⟩
  simp only [Pi.zero_apply] at this
  linarith

/-! ### The axis of the grid -/

/-- The `j`-th point of the axis. -/
noncomputable def axisPt (k d j : ℕ) : ℝ := (j : ℝ) * d - ((d * (k - 1) + 1 : ℝ) / 2 - 0.5)

theorem axisPts_length (k d : ℕ) : (axisPts k d).length = k := by simp [axisPts]

theorem axisPts_get (k d j : ℕ) (hj : j < k) : (axisPts k d).getD j 0 = axisPt k d j := by
  simp [axisPts, axisPt, List.getD, hj]

theorem axisPt_inj {k d : ℕ} (hd : 0 < d) (i j : ℕ) (h : axisPt k d i = axisPt k d j) : i = j := by
  have hd' : (d : ℝ) ≠ 0 := by exact_mod_cast hd.ne'
  have : (i : ℝ) * d = j * d := by unfold axisPt at h; linarith
  exact_mod_cast mul_right_cancel₀ hd' this

theorem axisPt_rev {k d j : ℕ} (hj : j < k) : axisPt k d (k - 1 - j) = -axisPt k d j := by
  have : ((k - 1 - j : ℕ) : ℝ) = k - 1 - j := by rw [Nat.sub_sub, Nat.cast_sub (by omega)]; push_cast; ring
  unfold axisPt
  rw [this]
  ring

theorem gridCoords_axis (k d q : ℕ) : gridCoords k d q = (axisPt k d (q % k), -axisPt k d (q / k)) := by
  simp only [gridCoords, axisPt]
  refine Prod.ext rfl ?_
  simp only
  ring

/-- `axisPts` is what `np.unique` returns for both rows of the array of points: strictly increasing, with the same values. -/
theorem axisPts_unique {k d : ℕ} (hd : 0 < d) :
    (axisPts k d).Pairwise (· < ·) ∧
    (∀ t, t ∈ axisPts k d ↔ ∃ q < k * k, (gridCoords k d q).1 = t) ∧ (∀ t, t ∈ axisPts k d ↔ ∃ q < k * k, (gridCoords k d q).2 = t) := by
  have hd' : (0 : ℝ) < d := by exact_mod_cast hd
  have hm : ∀ t, t ∈ axisPts k d ↔ ∃ j < k, axisPt k d j = t := by
    intro t
    simp [axisPts, axisPt]
  refine ⟨?_, fun t => ?_, fun t => ?_⟩
  · unfold axisPts
    refine List.Pairwise.map _ (R := (· < ·)) (fun a b hab => ?_) List.pairwise_lt_range
    have : (a : ℝ) < b := by exact_mod_cast hab
    have := mul_lt_mul_of_pos_right this hd'
    linarith
  · rw [hm]
    constructor
    · rintro ⟨j, hj, rfl⟩
      refine ⟨j, by nlinarith, ?_⟩
      rw [gridCoords_axis, Nat.mod_eq_of_lt hj]
    · rintro ⟨q, hq, rfl⟩
      exact ⟨q % k, Nat.mod_lt _ (by rcases k with _ | k; · simp at hq
                                     · omega), by rw [gridCoords_axis]⟩
  · rw [hm]
    constructor
    · rintro ⟨j, hj, rfl⟩
      have hk : 0 < k := by omega
      refine ⟨(k - 1 - j) * k, ?_, ?_⟩
      · exact Nat.mul_lt_mul_of_pos_right (by omega) hk
      · rw [gridCoords_axis, Nat.mul_div_cancel _ hk, axisPt_rev hj, neg_neg]
    · rintro ⟨q, hq, rfl⟩
      have hk : q / k < k := Nat.div_lt_of_lt_mul hq
      exact ⟨k - 1 - q / k, by generalize q / k = a at hk ⊢; omega, by rw [gridCoords_axis, axisPt_rev hk]⟩

/-- Reversal of the axis, or not, according to a sign. -/
noncomputable def mir (k : ℕ) (s : ℝ) (j : ℕ) : ℕ := by classical exact if s = 1 then j else k - 1 - j

theorem eq_mir {k d : ℕ} (hd : 0 < d) {s : ℝ} (hs : s = 1 ∨ s = -1) {i j : ℕ} (hj : j < k) (h : axisPt k d i = s * axisPt k d j) : i = mir k s j := by
  unfold mir
  rcases hs with rfl | rfl
  · rw [if_pos rfl]
    exact axisPt_inj hd _ _ (by linarith)
  · rw [if_neg (by norm_num)]
    exact axisPt_inj hd _ _ (by rw [h, axisPt_rev hj]; ring)

end E2
