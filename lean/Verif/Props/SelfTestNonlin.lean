import Verif.Props.SelfTest
import Mathlib.Analysis.Complex.Trigonometric
import Mathlib.Analysis.SpecialFunctions.Trigonometric.Basic

/-!
# C81: for layers which are not linear the self tests of SO(2) and O(2) decide nothing

The testing elements are the rotations by multiples of 1/52 of a turn (so2group.py:100-105, o2group.py:122-127), with and without the reflection.  The real
part of the 52nd power of a vector, read as a complex number, is invariant under all of them.
-/

namespace E2

open Finset Real

/-- A layer from a field of frequency 1 to a trivial field, of degree 52 in each fibre. -/
noncomputable def powerLayer (x : Minibatch) : Minibatch := fun b _ i j => ((⟨x b 0 i j, x b 1 i j⟩ : ℂ) ^ 52).re

theorem turn_mul (θ a b : ℝ) : (⟨cos θ * a + -sin θ * b, sin θ * a + cos θ * b⟩ : ℂ) = Complex.exp (θ * Complex.I) * ⟨a, b⟩ := by
  rw [Complex.exp_mul_I]
  apply Complex.ext <;> simp [Complex.cos_ofReal_re, Complex.sin_ofReal_re] <;> ring

theorem turn_pow (θ : ℝ) (z : ℂ) : (Complex.exp (θ * Complex.I) * z) ^ 52 = Complex.exp ((52 * θ : ℝ) * Complex.I) * z ^ 52 := by
  rw [mul_pow, ← Complex.exp_nat_mul]
  congr 2
  push_cast
  ring

theorem turn_test (i : ℕ) (z : ℂ) : (Complex.exp (((i : ℝ) * (2 * π / (52 : ℕ)) : ℝ) * Complex.I) * z) ^ 52 = z ^ 52 := by
  rw [turn_pow]
  have : (52 * ((i : ℝ) * (2 * π / (52 : ℕ))) : ℝ) = i * (2 * π) := by push_cast; ring
  rw [this]
  have h := Complex.exp_int_mul_two_pi_mul_I i
  have e : ((i * (2 * π) : ℝ) : ℂ) * Complex.I = ((i : ℤ) : ℂ) * (2 * π * Complex.I) := by push_cast; ring
  rw [e, h, one_mul]

theorem conj_pow_re (a b : ℝ) : ((⟨a, -b⟩ : ℂ) ^ 52).re = ((⟨a, b⟩ : ℂ) ^ 52).re := by
  have : (⟨a, -b⟩ : ℂ) = (starRingEnd ℂ) ⟨a, b⟩ := by apply Complex.ext <;> simp
  rw [this, ← map_pow, Complex.conj_re]

/-- What the layer does after a rotation of the fibres. -/
theorem powerLayer_turn (θ : ℝ) (x : Minibatch) (b o i j : ℕ) :
    powerLayer (fun b => transformFibers 2 ((SO2.irrep 1).mat θ) (x b)) b o i j = ((Complex.exp (θ * Complex.I) * (⟨x b 0 i j, x b 1 i j⟩ : ℂ)) ^ 52).re := by
  rw [← turn_mul]
  simp [powerLayer, transformFibers, SO2.irrep, psi, m2, Finset.sum_range_succ]

/-- **C81, the negation without linearity.** On a field of frequency 1 the layer passes the self test of SO(2) on every minibatch, with all errors 0, and
does not commute with SO(2). -/
theorem c81_so2_nonlinear_wrong :
    (∀ x, checkEquivariance SO2.testingElements 2 1 (SO2.irrep 1).mat (SO2.irrep 0).mat powerLayer x = some (SO2.testingElements.map fun g => (g, 0))) ∧
    ∃ (θ : ℝ) (x : Minibatch), ¬ BEq 1 (fun b => transformFibers 1 ((SO2.irrep 0).mat θ) (powerLayer x b))
      (powerLayer fun b => transformFibers 2 ((SO2.irrep 1).mat θ) (x b)) := by
  constructor
  · intro x
    refine (check_iff _ _ _ _ _ _ x).2 ((check_iff _ _ _ _ _ _ x).1.2 fun g hg => ?_)
    obtain ⟨i, rfl⟩ := SO2.mem_testing' hg
    intro b _ o ho k _ j _
    obtain rfl : o = 0 := by omega
    rw [powerLayer_turn, turn_test]
    simp [transformFibers, SO2.irrep, m1, powerLayer]
  · refine ⟨π / 52, fun _ o _ _ => if o = 0 then 1 else 0, fun h => ?_⟩
    have := h 0 (by omega) 0 (by omega) 0 (by omega) 0 (by omega)
    rw [powerLayer_turn, turn_pow] at this
    have e : (52 * (π / 52) : ℝ) = π := by ring
    have e1 : (⟨1, 0⟩ : ℂ) = 1 := by apply Complex.ext <;> simp
    rw [e, Complex.exp_pi_mul_I] at this
    norm_num [transformFibers, SO2.irrep, m1, powerLayer, e1] at this

/-- The same for O(2). -/
theorem c81_o2_nonlinear_wrong : ∃ i0 i1 : Irrep (ℤ × ℝ), O2.irrep 0 0 = some i0 ∧ O2.irrep 1 1 = some i1 ∧
    (∀ x, checkEquivariance O2.testingElements 2 1 i1.mat i0.mat powerLayer x = some (O2.testingElements.map fun g => (g, 0))) ∧
    ∃ (θ : ℝ) (x : Minibatch), ¬ BEq 1 (fun b => transformFibers 1 (i0.mat (0, θ)) (powerLayer x b))
      (powerLayer fun b => transformFibers 2 (i1.mat (0, θ)) (x b)) := by
  obtain ⟨i0, h0⟩ : ∃ i, O2.irrep 0 0 = some i := by simp [O2.irrep]
  obtain ⟨i1, h1⟩ : ∃ i, O2.irrep 1 1 = some i := by simp [O2.irrep]
  have m0 : ∀ g, i0.mat g = m1 1 := by
    simp [O2.irrep] at h0; intro g; rw [← h0]
  have m1' : ∀ g, i1.mat g = psichi g.2 g.1 1 0 := by
    simp [O2.irrep] at h1; intro g; rw [← h1]
  refine ⟨i0, i1, h0, h1, fun x => ?_, ?_⟩
  · refine (check_iff _ _ _ _ _ _ x).2 ((check_iff _ _ _ _ _ _ x).1.2 fun g hg => ?_)
    obtain ⟨e, i, rfl⟩ : ∃ (e : ℤ) (i : ℕ), g = (e, (i : ℝ) * (2 * π / (52 : ℕ))) := by
      simp only [O2.testingElements, List.mem_append, List.mem_map] at hg
      rcases hg with ⟨i, -, rfl⟩ | ⟨i, -, rfl⟩
      · exact ⟨0, i, by push_cast; congr 1; ring⟩
      · exact ⟨1, i, by push_cast; congr 1; ring⟩
    intro b _ o ho k _ j _
    obtain rfl : o = 0 := by omega
    have hL : powerLayer (fun b => transformFibers 2 (i1.mat (e, (i : ℝ) * (2 * π / (52 : ℕ)))) (x b)) b 0 k j
        = ((Complex.exp (((i : ℝ) * (2 * π / (52 : ℕ)) : ℝ) * Complex.I) * (⟨x b 0 k j, (if e ≠ 0 then -1 else 1) * x b 1 k j⟩ : ℂ)) ^ 52).re := by
      rw [← turn_mul]
      simp only [powerLayer, transformFibers, m1', psichi, m2, Finset.sum_range_succ, Finset.sum_range_zero]
      congr 2
      by_cases he : e = 0
      · apply Complex.ext <;> simp [he]
      · apply Complex.ext <;> simp [he]
    rw [hL, turn_test]
    have hR : transformFibers 1 (i0.mat (e, (i : ℝ) * (2 * π / (52 : ℕ)))) (powerLayer x b) 0 k j = ((⟨x b 0 k j, x b 1 k j⟩ : ℂ) ^ 52).re := by
      simp [transformFibers, m0, m1, powerLayer]
    show transformFibers 1 (i0.mat (e, (i : ℝ) * (2 * π / (52 : ℕ)))) (powerLayer x b) 0 k j = _
    rw [hR]
    by_cases he : e = 0
    · simp [he]
    · rw [if_pos he, neg_one_mul, conj_pow_re]
  · obtain ⟨θ, x, h⟩ := c81_so2_nonlinear_wrong.2
    refine ⟨θ, x, ?_⟩
    rw [(O2.irrep_rot h0).2.2, (O2.irrep_rot h1).2.2]
    exact h

end E2
