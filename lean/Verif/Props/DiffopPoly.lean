import Verif.Model.DiffopPoly
import Mathlib.Algebra.BigOperators.Intervals
import Mathlib.Algebra.BigOperators.Ring.Finset
import Mathlib.Data.Nat.Choose.Sum
import Mathlib.Analysis.SpecialFunctions.Trigonometric.Basic
import Mathlib.Analysis.Complex.Trigonometric

/-!
# C46: the arithmetic of the homogeneous polynomials
-/

namespace E2

open Finset

namespace HPoly

theorem sum_extend {n m : ℕ} (h : n ≤ m) (f : ℕ → ℝ) (hf : ∀ k, n ≤ k → f k = 0) : ∑ k ∈ range m, f k = ∑ k ∈ range n, f k :=
  (Finset.sum_subset (Finset.range_mono h) fun k _ hk => hf k (by simpa using hk)).symm

/-- **C46, `multiply_polynomials`.** The array represents the product of the two polynomials, and has the degree of the product. -/
theorem c46_multiply (a b : HPoly) (p : ℝ × ℝ) : (a.mul b).deg = a.deg + b.deg ∧ (a.mul b).eval p = a.eval p * b.eval p := by
  have hd : (a.mul b).deg = a.deg + b.deg := by simp only [mul]; omega
  refine ⟨hd, ?_⟩
  set F : ℕ → ℕ → ℝ := fun l j => if l < a.deg + 1 ∧ j < b.deg + 1 then
    a.co l * (p.1 ^ (a.deg - l) * p.2 ^ l) * (b.co j * (p.1 ^ (b.deg - j) * p.2 ^ j)) else 0 with hF
  have h1 : (a.mul b).eval p = ∑ k ∈ range (a.deg + b.deg + 1), ∑ l ∈ range (k + 1), F l (k - l) := by
    rw [eval, hd]
    refine Finset.sum_congr rfl fun k hk => ?_
    simp only [mul, Finset.sum_mul]
    refine Finset.sum_congr rfl fun l hl => ?_
    rw [Finset.mem_range] at hk hl
    simp only [hF]
    by_cases h : l < a.deg + 1 ∧ k - l < b.deg + 1
    · rw [if_pos h, if_pos h]
      have e1 : a.deg + b.deg - k = (a.deg - l) + (b.deg - (k - l)) := by omega
      have e2 : p.2 ^ k = p.2 ^ l * p.2 ^ (k - l) := by rw [← pow_add]; congr 1; omega
      rw [e1, e2, pow_add]
      ring
    · rw [if_neg h, if_neg h, zero_mul]
  rw [h1, Finset.sum_range_diag_flip]
  rw [sum_extend (n := a.deg + 1) (by omega) (fun l => ∑ k ∈ range (a.deg + b.deg + 1 - l), F l k)
    (fun l hl => Finset.sum_eq_zero fun j _ => by simp only [hF]; rw [if_neg (by omega)])]
  rw [eval, Finset.sum_mul]
  refine Finset.sum_congr rfl fun l hl => ?_
  rw [Finset.mem_range] at hl
  rw [sum_extend (n := b.deg + 1) (by omega) (fun k => F l k) (fun j hj => by simp only [hF]; rw [if_neg (by omega)])]
  rw [eval, Finset.mul_sum]
  refine Finset.sum_congr rfl fun j hj => ?_
  rw [Finset.mem_range] at hj
  simp only [hF]
  rw [if_pos ⟨hl, hj⟩]

/-- **C46, `expand_binomial`.** The array represents `(a x + b y)^e`. -/
theorem c46_binomial (a b : ℝ) (e : ℕ) (p : ℝ × ℝ) : (binomial a b e).eval p = (a * p.1 + b * p.2) ^ e := by
  rw [add_comm, add_pow, eval]
  refine Finset.sum_congr rfl fun k _ => ?_
  simp only [binomial]
  rw [mul_pow, mul_pow]
  ring

/-- **C46, `transform_polynomial`.** The transformed polynomial at a point is the polynomial at the point multiplied by the transposed matrix; the degree does not
change. -/
theorem c46_transform (c : HPoly) (A : Mat) (x y : ℝ) :
    (c.transform A).deg = c.deg ∧ (c.transform A).eval (x, y) = c.eval (A 0 0 * x + A 1 0 * y, A 0 1 * x + A 1 1 * y) := by
  refine ⟨rfl, ?_⟩
  have h : ∀ i ∈ range (c.deg + 1),
      ((binomial (A 0 0) (A 1 0) (c.deg - i)).mul (binomial (A 0 1) (A 1 1) i)).deg = c.deg := by
    intro i hi
    rw [Finset.mem_range] at hi
    rw [(c46_multiply _ _ (0, 0)).1]
    simp only [binomial]
    omega
  rw [eval, eval]
  simp only [transform, Finset.sum_mul]
  rw [Finset.sum_comm]
  refine Finset.sum_congr rfl fun i hi => ?_
  have := (c46_multiply (binomial (A 0 0) (A 1 0) (c.deg - i)) (binomial (A 0 1) (A 1 1) i) (x, y)).2
  rw [c46_binomial, c46_binomial] at this
  dsimp only at this
  rw [← this, eval, h i hi, Finset.mul_sum]
  refine Finset.sum_congr rfl fun k _ => ?_
  ring

theorem pow_I_mul (y : ℝ) (k : ℕ) : ((y : ℂ) * Complex.I) ^ k =
    if k % 2 = 0 then (((-1) ^ (k / 2) * y ^ k : ℝ) : ℂ) else (((-1) ^ (k / 2) * y ^ k : ℝ) : ℂ) * Complex.I := by
  rw [mul_pow]
  have hk := Nat.div_add_mod k 2
  have e : Complex.I ^ k = (-1) ^ (k / 2) * Complex.I ^ (k % 2) := by
    conv_lhs => rw [← hk, pow_add, pow_mul, Complex.I_sq]
  rw [e]
  rcases Nat.mod_two_eq_zero_or_one k with h | h
  · rw [if_pos h, h]; push_cast; ring
  · rw [if_neg (by omega), h]; push_cast; ring

/-- The real and imaginary parts of `(x + i y)^n`, as sums. -/
theorem re_im_pow (x y : ℝ) (n : ℕ) :
    (((x : ℂ) + y * Complex.I) ^ n).re = ∑ k ∈ range (n + 1), (if k % 2 = 0 then (n.choose k : ℝ) * (-1) ^ (k / 2) else 0) * (x ^ (n - k) * y ^ k) ∧
    (((x : ℂ) + y * Complex.I) ^ n).im = ∑ k ∈ range (n + 1), (if k % 2 = 1 then (n.choose k : ℝ) * (-1) ^ (k / 2) else 0) * (x ^ (n - k) * y ^ k) := by
  have hterm : ∀ k, ((y : ℂ) * Complex.I) ^ k * (x : ℂ) ^ (n - k) * (n.choose k : ℂ) =
      if k % 2 = 0 then ((((n.choose k : ℝ) * (-1) ^ (k / 2)) * (x ^ (n - k) * y ^ k) : ℝ) : ℂ)
      else ((((n.choose k : ℝ) * (-1) ^ (k / 2)) * (x ^ (n - k) * y ^ k) : ℝ) : ℂ) * Complex.I := by
    intro k
    rw [pow_I_mul]
    split_ifs <;> push_cast <;> ring
  rw [add_comm, add_pow]
  simp only [hterm, Complex.re_sum, Complex.im_sum]
  constructor <;> refine Finset.sum_congr rfl fun k _ => ?_
  · rcases Nat.mod_two_eq_zero_or_one k with h | h
    · rw [if_pos h, if_pos h, Complex.ofReal_re]
    · rw [if_neg (by omega), if_neg (by omega), Complex.re_ofReal_mul, Complex.I_re]
      ring
  · rcases Nat.mod_two_eq_zero_or_one k with h | h
    · rw [if_pos h, if_neg (by omega), Complex.ofReal_im]
      ring
    · rw [if_neg (by omega), if_pos h, Complex.im_ofReal_mul, Complex.I_im]
      ring

theorem chebyT_eval (n : ℤ) (p : ℝ × ℝ) : (chebyT n).eval p = (((p.1 : ℂ) + p.2 * Complex.I) ^ n.natAbs).re := by
  rw [(re_im_pow _ _ _).1, eval]
  refine Finset.sum_congr rfl fun k _ => ?_
  simp only [chebyT]
  by_cases h : k % 2 = 0
  · rw [if_pos h, if_pos h, show 2 * (k / 2) = k by omega]
  · rw [if_neg h, if_neg h]

theorem chebyU_eval (n : ℤ) (p : ℝ × ℝ) : (chebyU n).eval p = n.sign * (((p.1 : ℂ) + p.2 * Complex.I) ^ n.natAbs).im := by
  rw [(re_im_pow _ _ _).2, eval, Finset.mul_sum]
  refine Finset.sum_congr rfl fun k _ => ?_
  simp only [chebyU]
  by_cases h : k % 2 = 1
  · rw [if_pos h, if_pos h, show 2 * (k / 2) + 1 = k by omega]
    ring
  · rw [if_neg h, if_neg h]
    ring

theorem polar_pow (r t : ℝ) (n : ℕ) : (((r * Real.cos t : ℝ) : ℂ) + ((r * Real.sin t : ℝ) : ℂ) * Complex.I) ^ n =
    ((r ^ n * Real.cos (n * t) : ℝ) : ℂ) + ((r ^ n * Real.sin (n * t) : ℝ) : ℂ) * Complex.I := by
  have h1 : (((r * Real.cos t : ℝ) : ℂ) + ((r * Real.sin t : ℝ) : ℂ) * Complex.I) = r * Complex.exp (t * Complex.I) := by
    rw [Complex.exp_mul_I]; push_cast; ring
  rw [h1, mul_pow, ← Complex.exp_nat_mul, ← mul_assoc, show (n : ℂ) * (t : ℂ) = ((n * t : ℝ) : ℂ) by push_cast; ring, Complex.exp_mul_I]
  push_cast
  ring

/-- **C46, `homogenized_cheby`.** For every integer `n` the two kinds have degree `|n|` and take the values `r^|n| cos(n t)` and `r^|n| sin(n t)` at the point with polar
coordinates `(r, t)`. -/
theorem c46_cheby (n : ℤ) (r t : ℝ) :
    (chebyT n).deg = n.natAbs ∧ (chebyU n).deg = n.natAbs ∧
    (chebyT n).eval (r * Real.cos t, r * Real.sin t) = r ^ n.natAbs * Real.cos (n * t) ∧
    (chebyU n).eval (r * Real.cos t, r * Real.sin t) = r ^ n.natAbs * Real.sin (n * t) := by
  refine ⟨rfl, rfl, ?_, ?_⟩
  · rw [chebyT_eval]
    dsimp only
    rw [polar_pow]
    simp only [Complex.add_re, Complex.ofReal_re, Complex.re_ofReal_mul, Complex.I_re, mul_zero, add_zero]
    congr 1
    obtain ⟨m, rfl | rfl⟩ := n.eq_nat_or_neg
    · simp
    · simp [Real.cos_neg]
  · rw [chebyU_eval]
    dsimp only
    rw [polar_pow]
    simp only [Complex.add_im, Complex.ofReal_im, Complex.im_ofReal_mul, Complex.I_im, mul_one, zero_add]
    obtain ⟨m, rfl | rfl⟩ := n.eq_nat_or_neg
    · rcases Nat.eq_zero_or_pos m with h | h
      · subst h; simp
      · rw [Int.sign_eq_one_of_pos (by exact_mod_cast h)]
        simp
    · rcases Nat.eq_zero_or_pos m with h | h
      · subst h; simp
      · rw [Int.sign_eq_neg_one_of_neg (by omega)]
        simp

/-- **C46, `laplacian_power`.** The array represents `(x² + y²)^k`, with degree `2k`. -/
theorem c46_laplacian (k : ℕ) (p : ℝ × ℝ) : (laplacian k).deg = 2 * k ∧ (laplacian k).eval p = (p.1 ^ 2 + p.2 ^ 2) ^ k := by
  refine ⟨rfl, ?_⟩
  have split : ∀ (m : ℕ) (f : ℕ → ℝ), ∑ j ∈ range (2 * m + 1), (if j % 2 = 0 then f j else 0) = ∑ i ∈ range (m + 1), f (2 * i) := by
    intro m f
    induction m with
    | zero => simp
    | succ m ih =>
      rw [show 2 * (m + 1) + 1 = 2 * m + 1 + 1 + 1 by ring, Finset.sum_range_succ, Finset.sum_range_succ, ih, Finset.sum_range_succ _ (m + 1)]
      rw [if_neg (by omega), if_pos (by omega), show 2 * m + 1 + 1 = 2 * (m + 1) by ring]
      ring
  rw [add_comm, add_pow, eval]
  have := split k fun j => (k.choose (j / 2) : ℝ) * (p.1 ^ (2 * k - j) * p.2 ^ j)
  simp only [laplacian]
  rw [show (∑ j ∈ range (2 * k + 1), (if j % 2 = 0 then (k.choose (j / 2) : ℝ) else 0) * (p.1 ^ (2 * k - j) * p.2 ^ j)) =
    ∑ j ∈ range (2 * k + 1), if j % 2 = 0 then (k.choose (j / 2) : ℝ) * (p.1 ^ (2 * k - j) * p.2 ^ j) else 0 from
    Finset.sum_congr rfl fun j _ => by split_ifs <;> simp, this]
  refine Finset.sum_congr rfl fun i hi => ?_
  rw [show 2 * i / 2 = i by omega, ← pow_mul, ← pow_mul, show 2 * k - 2 * i = 2 * (k - i) by omega]
  ring

/-- The coefficients of `x³ - 3 x y²` and `3 x² y - y³`, and those of `-(3 x² y - y³)` for the frequency `-3`. -/
example : (List.range 4).map (chebyT 3).co = [1, 0, -3, 0] ∧ (List.range 4).map (chebyU 3).co = [0, 3, 0, -1] ∧
    (List.range 4).map (chebyU (-3)).co = [0, -3, 0, 1] ∧ (List.range 5).map (laplacian 2).co = [1, 0, 2, 0, 1] := by
  have h3 : Int.sign 3 = 1 := rfl
  norm_num [List.range_succ, chebyT, chebyU, laplacian, Nat.choose, h3]

/-- A rotation by a right angle turns `x² y` into `y² (-x)`: the transposed matrix is used. -/
example : ((⟨3, fun k => if k = 1 then 1 else 0⟩ : HPoly).transform fun i j => if i = 0 ∧ j = 1 then -1 else if i = 1 ∧ j = 0 then 1 else 0).eval (2, 3) =
    3 ^ 2 * -2 := by
  rw [(c46_transform _ _ _ _).2]
  norm_num [eval, Finset.sum_range_succ]

end HPoly

end E2
