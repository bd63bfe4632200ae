import Mathlib.Analysis.SpecialFunctions.Complex.Circle
import Mathlib.RingTheory.RootsOfUnity.Complex
import Mathlib.Algebra.BigOperators.Intervals
import Mathlib.Tactic.Ring
import Mathlib.Tactic.Linarith
import Mathlib.Tactic.FieldSimp

/-! Sums of cosines over a full period. -/

namespace E2

open Finset Real

theorem exp_int_eq_one (N : ℕ) (hN : 0 < N) (x : ℤ) :
    Complex.exp (((x * (2 * π / N) : ℝ) : ℂ) * Complex.I) = 1 ↔ (N : ℤ) ∣ x := by
  have hN' : (N : ℝ) ≠ 0 := by positivity
  rw [Complex.exp_eq_one_iff]
  constructor
  · rintro ⟨n, hn⟩
    refine ⟨n, ?_⟩
    have hn' : (x * (2 * π / N) : ℝ) = n * (2 * π) := by
      have := congrArg Complex.im hn
      simpa using this
    have : (x : ℝ) = N * n := by
      have hp := Real.pi_pos.ne'
      field_simp at hn'
      linarith
    exact_mod_cast this
  · rintro ⟨n, rfl⟩
    refine ⟨n, ?_⟩
    have : (((N : ℤ) * n : ℤ) : ℝ) * (2 * π / N) = n * (2 * π) := by push_cast; field_simp
    rw [this]
    push_cast
    ring

theorem sum_exp_int (N : ℕ) (hN : 0 < N) (x : ℤ) :
    ∑ k ∈ range N, Complex.exp (((k * x * (2 * π / N) : ℝ) : ℂ) * Complex.I)
      = if (N : ℤ) ∣ x then (N : ℂ) else 0 := by
  set z := Complex.exp (((x * (2 * π / N) : ℝ) : ℂ) * Complex.I) with hz
  have hpow : ∀ k : ℕ, Complex.exp (((k * x * (2 * π / N) : ℝ) : ℂ) * Complex.I) = z ^ k := by
    intro k
    rw [hz, ← Complex.exp_nat_mul]
    congr 1
    push_cast
    ring
  simp only [hpow]
  by_cases h : (N : ℤ) ∣ x
  · rw [if_pos h, show z = 1 from (exp_int_eq_one N hN x).2 h]; simp
  · rw [if_neg h]
    have h1 : z ≠ 1 := fun e => h ((exp_int_eq_one N hN x).1 e)
    rw [geom_sum_eq h1, ← hpow]
    have : Complex.exp (((N * x * (2 * π / N) : ℝ) : ℂ) * Complex.I) = 1 := by
      have hN' : (N : ℝ) ≠ 0 := by positivity
      have := (exp_int_eq_one N hN (N * x)).2 (Dvd.intro _ rfl)
      push_cast at this ⊢
      exact this
    rw [this]; simp

theorem sum_cos_int (N : ℕ) (hN : 0 < N) (x : ℤ) :
    ∑ k ∈ range N, cos (k * x * (2 * π / N)) = if (N : ℤ) ∣ x then (N : ℝ) else 0 := by
  have h := congrArg Complex.re (sum_exp_int N hN x)
  rw [Complex.re_sum] at h
  simp only [Complex.exp_ofReal_mul_I_re] at h
  rw [h]
  split_ifs <;> simp

theorem sum_sin_int (N : ℕ) (hN : 0 < N) (x : ℤ) :
    ∑ k ∈ range N, sin (k * x * (2 * π / N)) = 0 := by
  have h := congrArg Complex.im (sum_exp_int N hN x)
  rw [Complex.im_sum] at h
  simp only [Complex.exp_ofReal_mul_I_im] at h
  rw [h]
  split_ifs <;> simp

/-- The number of complex frequencies in a real irrep of frequency `k` of the cyclic group of order `N`. -/
noncomputable def freqWeight (N k : ℕ) : ℝ := if k = 0 ∨ (N % 2 = 0 ∧ k = N / 2) then 1 else 2

theorem sum_fold (N : ℕ) (hN : 0 < N) (c : ℕ → ℝ) (hc : ∀ k, 0 < k → k < N → c (N - k) = c k) :
    ∑ k ∈ range (N / 2 + 1), freqWeight N k * c k = ∑ k ∈ range N, c k := by
  rcases Nat.even_or_odd' N with ⟨q, hq | hq⟩
  · obtain ⟨p, rfl⟩ : ∃ p, q = p + 1 := ⟨q - 1, by omega⟩
    have e1 : N / 2 = p + 1 := by omega
    rw [e1, show N = (1 + p) + (1 + p) by omega, Finset.sum_range_succ, Finset.sum_range_succ',
      Finset.sum_range_add, Finset.sum_range_add, Finset.sum_range_add]
    have h1 : ∑ k ∈ range p, c (1 + p + (1 + k)) = ∑ k ∈ range p, c (1 + k) := by
      rw [← Finset.sum_range_reflect]
      refine Finset.sum_congr rfl fun k hk => ?_
      have hk := mem_range.1 hk
      rw [← hc (1 + k) (by omega) (by omega)]
      congr 1; omega
    have h2 : ∑ k ∈ range p, freqWeight (1 + p + (1 + p)) (k + 1) * c (k + 1) = 2 * ∑ k ∈ range p, c (1 + k) := by
      rw [Finset.mul_sum]
      refine Finset.sum_congr rfl fun k hk => ?_
      have hk := mem_range.1 hk
      rw [freqWeight, if_neg (by omega), add_comm k 1]
    rw [h1, h2]
    have h3 : freqWeight (1 + p + (1 + p)) 0 = 1 := if_pos (Or.inl rfl)
    have h4 : freqWeight (1 + p + (1 + p)) (p + 1) = 1 := if_pos (Or.inr ⟨by omega, by omega⟩)
    rw [h3, h4]
    simp [add_comm 1 p]
    ring
  · have e1 : N / 2 = q := by omega
    rw [e1, show N = (1 + q) + q by omega, Finset.sum_range_succ', Finset.sum_range_add, Finset.sum_range_add]
    have h1 : ∑ k ∈ range q, c (1 + q + k) = ∑ k ∈ range q, c (1 + k) := by
      rw [← Finset.sum_range_reflect]
      refine Finset.sum_congr rfl fun k hk => ?_
      have hk := mem_range.1 hk
      rw [← hc (1 + k) (by omega) (by omega)]
      congr 1; omega
    have h2 : ∑ k ∈ range q, freqWeight (1 + q + q) (k + 1) * c (k + 1) = 2 * ∑ k ∈ range q, c (1 + k) := by
      rw [Finset.mul_sum]
      refine Finset.sum_congr rfl fun k hk => ?_
      have hk := mem_range.1 hk
      rw [freqWeight, if_neg (by omega), add_comm k 1]
    have h3 : freqWeight (1 + q + q) 0 = 1 := if_pos (Or.inl rfl)
    rw [h1, h2, h3]
    simp
    ring

theorem cos_fold (N : ℕ) (hN : 0 < N) (x : ℤ) (k : ℕ) (hk : k < N) :
    cos ((N - k : ℕ) * x * (2 * π / N)) = cos (k * x * (2 * π / N)) := by
  have hN' : (N : ℝ) ≠ 0 := by positivity
  rw [Nat.cast_sub hk.le, show ((N : ℝ) - k) * x * (2 * π / N) = x * (2 * π) - k * x * (2 * π / N) by
    field_simp, Real.cos_int_mul_two_pi_sub]

/-- The weighted sum over the frequencies of the real irreps. -/
theorem sum_weight_cos (N : ℕ) (hN : 0 < N) (x : ℤ) :
    ∑ k ∈ range (N / 2 + 1), freqWeight N k * cos (k * x * (2 * π / N)) = if (N : ℤ) ∣ x then (N : ℝ) else 0 := by
  rw [sum_fold N hN (fun k => cos (k * x * (2 * π / N))), sum_cos_int N hN]
  intro k _ hk
  exact cos_fold N hN x k hk

end E2
