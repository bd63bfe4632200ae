import Verif.Props.GroupLaws

/-!
# Helper lemmas on the matrices `psi`, `psichi` and on angles
-/

namespace E2

open Finset Mat Real

theorem cos_add_int (x : ℝ) (n : ℤ) : cos (x + n * (2 * π)) = cos x := Real.cos_add_int_mul_two_pi x n
theorem sin_add_int (x : ℝ) (n : ℤ) : sin (x + n * (2 * π)) = sin x := Real.sin_add_int_mul_two_pi x n

/-- Rotation matrices of angles that agree modulo `2π`. -/
theorem psi_congr {θ θ' k k' γ γ' : ℝ} (n : ℤ) (h : k * θ + γ = k' * θ' + γ' + n * (2 * π)) :
    psi θ k γ = psi θ' k' γ' := by
  simp only [psi, h, cos_add_int, sin_add_int]

theorem psichi_congr {θ θ' k k' γ γ' : ℝ} (s : ℤ) (n : ℤ)
    (h : k * θ + γ = k' * θ' + γ' + n * (2 * π)) : psichi θ s k γ = psichi θ' s k' γ' := by
  simp only [psichi, h, cos_add_int, sin_add_int]

theorem psi_mul (θ θ' k γ : ℝ) :
    Mat.mul 2 (psi θ k γ) (psi θ' k 0) = psi (θ + θ') k γ := by
  simp only [psi, m2_mul]
  rw [show k * (θ + θ') + γ = (k * θ + γ) + (k * θ' + 0) by ring, cos_add (k * θ + γ), sin_add (k * θ + γ)]
  congr 1 <;> ring

theorem psi_one (k : ℝ) : MEq 2 2 (psi 0 k 0) Mat.one := by
  have : psi 0 k 0 = m2 1 0 0 1 := by simp [psi]
  rw [this]; exact m2_one

theorem psi_tr (θ k : ℝ) : Mat.tr (psi θ k 0) = psi (-θ) k 0 := by
  simp only [psi, m2_tr]
  rw [show k * -θ + 0 = -(k * θ + 0) by ring, cos_neg, sin_neg, neg_neg]

/-- The product rule of the matrices `psichi` over pairs (flip, angle). -/
theorem psichi_mul (θ θ' k : ℝ) {s s' : ℤ} (hs : s = 0 ∨ s = 1) (hs' : s' = 0 ∨ s' = 1) :
    Mat.mul 2 (psichi θ s k 0) (psichi θ' s' k 0)
      = psichi (θ + (if s ≠ 0 then -1 else 1) * θ') ((s + s') % 2) k 0 := by
  rcases hs with rfl | rfl <;> rcases hs' with rfl | rfl
  · simp only [psichi, m2_mul]
    simp only [ne_eq, not_true_eq_false, if_false, one_mul, add_zero, mul_add, Int.zero_emod, cos_add, sin_add]
    congr 1 <;> ring
  · simp only [psichi, m2_mul]
    norm_num
    rw [mul_add, cos_add, sin_add]
    congr 1 <;> ring
  · simp only [psichi, m2_mul]
    norm_num
    rw [mul_add, mul_neg, cos_add, sin_add, cos_neg, sin_neg]
    congr 1 <;> ring
  · simp only [psichi, m2_mul]
    norm_num
    rw [mul_add, mul_neg, cos_add, sin_add, cos_neg, sin_neg]
    congr 1 <;> ring

theorem psichi_tr (θ k : ℝ) {s : ℤ} (hs : s = 0 ∨ s = 1) :
    Mat.tr (psichi θ s k 0) = psichi (-θ * (if s ≠ 0 then -1 else 1)) s k 0 := by
  rcases hs with rfl | rfl
  · simp [psichi, m2_tr]
  · simp [psichi, m2_tr]

/-- Rotations by multiples of `2π/N`: reducing the integer modulo `N` changes the angle by a
multiple of `2π`. -/
theorem emod_angle (N : ℕ) (hN : 0 < N) (k x : ℤ) :
    ∃ n : ℤ, (k : ℝ) * (((x % (N : ℤ) : ℤ) : ℝ) * (2 * π / N)) =
      k * (x * (2 * π / N)) + n * (2 * π) := by
  refine ⟨-k * (x / (N : ℤ)), ?_⟩
  have hN' : (N : ℝ) ≠ 0 := by positivity
  rw [Int.emod_def]
  push_cast
  field_simp
  ring

theorem cos_half {N k : ℕ} (hN : N % 2 = 0) (hk : k = N / 2) (h0 : 0 < N) (e : ℤ) :
    cos ((k : ℝ) * e * (2 * π / N)) = (-1) ^ e.natAbs := by
  obtain ⟨n, rfl⟩ : ∃ n, N = 2 * n := ⟨N / 2, by omega⟩
  have hk : k = n := by omega
  subst hk
  have hk' : (k : ℝ) ≠ 0 := by
    have : 0 < k := by omega
    positivity
  have : (k : ℝ) * e * (2 * π / ((2 * k : ℕ) : ℝ)) = e * π := by push_cast; field_simp
  rw [this, Real.cos_int_mul_pi]
  obtain ⟨n, rfl | rfl⟩ := Int.eq_nat_or_neg e
  · simp
  · simp only [zpow_neg, zpow_natCast, Int.natAbs_neg, Int.natAbs_natCast, ← inv_pow]; norm_num

theorem neg_one_pow_natAbs_add (a b : ℤ) :
    ((-1 : ℝ)) ^ (a + b).natAbs = (-1) ^ a.natAbs * (-1) ^ b.natAbs := by
  rw [← pow_add]
  rcases Nat.even_or_odd (a + b).natAbs with h | h
  · have : Even (a.natAbs + b.natAbs) := by
      rw [Nat.even_iff] at h ⊢; omega
    rw [h.neg_one_pow, this.neg_one_pow]
  · have : Odd (a.natAbs + b.natAbs) := by
      rw [Nat.odd_iff] at h ⊢; omega
    rw [h.neg_one_pow, this.neg_one_pow]

end E2
