import Verif.Model.Rep
import Mathlib.Analysis.SpecialFunctions.Trigonometric.Basic

/-!
# Groups as data, and the 2x2 matrices of `e2cnn/group/utils.py`
-/

namespace E2

open Finset Mat Real

/-- A group as the library presents it: `is_element`, `identity`, `inverse`, `combine`
(e2cnn/group/group.py:14-131). -/
structure Grp (El : Type) where
  isEl : El → Prop
  one : El
  inv : El → El
  op : El → El → El

/-- A matrix valued map on a group is a representation: identity to identity, product to product. -/
structure IsRep {El : Type} (G : Grp El) (n : ℕ) (ρ : El → Mat) : Prop where
  one : MEq n n (ρ G.one) Mat.one
  mul : ∀ a b, G.isEl a → G.isEl b → MEq n n (ρ (G.op a b)) (Mat.mul n (ρ a) (ρ b))

/-- An orthogonal representation: moreover inverse to transpose. -/
structure IsOrthRep {El : Type} (G : Grp El) (n : ℕ) (ρ : El → Mat) : Prop extends IsRep G n ρ where
  inv : ∀ a, G.isEl a → MEq n n (ρ (G.inv a)) (Mat.tr (ρ a))

/-- A `1 x 1` array. -/
def m1 (a : ℝ) : Mat := fun i j => if i = 0 ∧ j = 0 then a else 0

/-- A `2 x 2` array `[[a, b], [c, d]]`. -/
def m2 (a b c d : ℝ) : Mat
  | 0, 0 => a
  | 0, 1 => b
  | 1, 0 => c
  | 1, 1 => d
  | _, _ => 0

theorem m1_mul (a b : ℝ) : Mat.mul 1 (m1 a) (m1 b) = m1 (a * b) := by
  funext i j
  simp only [Mat.mul, m1, Finset.sum_range_one]
  split_ifs <;> simp_all

theorem m2_mul (a b c d a' b' c' d' : ℝ) :
    Mat.mul 2 (m2 a b c d) (m2 a' b' c' d')
      = m2 (a * a' + b * c') (a * b' + b * d') (c * a' + d * c') (c * b' + d * d') := by
  funext i j
  simp only [Mat.mul, Finset.sum_range_succ, Finset.sum_range_zero, zero_add]
  match i, j with
  | 0, 0 => rfl
  | 0, 1 => rfl
  | 1, 0 => rfl
  | 1, 1 => rfl
  | 0, j + 2 => simp [m2]
  | 1, j + 2 => simp [m2]
  | i + 2, j => simp [m2]

theorem m2_tr (a b c d : ℝ) : Mat.tr (m2 a b c d) = m2 a c b d := by
  funext i j
  match i, j with
  | 0, 0 => rfl
  | 0, 1 => rfl
  | 1, 0 => rfl
  | 1, 1 => rfl
  | 0, j + 2 => rfl
  | 1, j + 2 => rfl
  | i + 2, 0 => rfl
  | i + 2, 1 => rfl
  | i + 2, j + 2 => rfl

theorem m1_tr (a : ℝ) : Mat.tr (m1 a) = m1 a := by
  funext i j; simp [Mat.tr, m1, and_comm]

theorem MEq_m2 {A B : Mat} (h00 : A 0 0 = B 0 0) (h01 : A 0 1 = B 0 1) (h10 : A 1 0 = B 1 0)
    (h11 : A 1 1 = B 1 1) : MEq 2 2 A B := by
  intro i hi j hj
  match i, j, hi, hj with
  | 0, 0, _, _ => exact h00
  | 0, 1, _, _ => exact h01
  | 1, 0, _, _ => exact h10
  | 1, 1, _, _ => exact h11

theorem MEq_m1 {A B : Mat} (h : A 0 0 = B 0 0) : MEq 1 1 A B := by
  intro i hi j hj
  obtain rfl : i = 0 := by omega
  obtain rfl : j = 0 := by omega
  exact h

theorem m2_one : MEq 2 2 (m2 1 0 0 1) Mat.one :=
  MEq_m2 (by simp [m2, Mat.one]) (by simp [m2, Mat.one]) (by simp [m2, Mat.one])
    (by simp [m2, Mat.one])

theorem m1_one : MEq 1 1 (m1 1) Mat.one := MEq_m1 (by simp [m1, Mat.one])

/-- `utils.psi(theta, k, gamma)` (group/utils.py:6-15): rotation matrix of angle `k*theta + gamma`. -/
noncomputable def psi (θ k γ : ℝ) : Mat :=
  m2 (cos (k * θ + γ)) (-sin (k * θ + γ)) (sin (k * θ + γ)) (cos (k * θ + γ))

/-- `utils.chi(s)` (group/utils.py:18-30): reflection matrix if `s` is non-zero, else the identity. -/
noncomputable def chi (s : ℤ) : Mat := m2 1 0 0 (if s ≠ 0 then -1 else 1)

/-- `utils.psichi(theta, s, k, gamma)` (group/utils.py:33-52). -/
noncomputable def psichi (θ : ℝ) (s : ℤ) (k γ : ℝ) : Mat :=
  m2 (cos (k * θ + γ)) (-((if s ≠ 0 then -1 else 1) * sin (k * θ + γ)))
    (sin (k * θ + γ)) ((if s ≠ 0 then -1 else 1) * cos (k * θ + γ))

/-- The documented identity `psichi = psi @ chi`. -/
theorem psichi_eq (θ : ℝ) (s : ℤ) (k γ : ℝ) :
    psichi θ s k γ = Mat.mul 2 (psi θ k γ) (chi s) := by
  rw [psi, chi, m2_mul, psichi]
  congr 1 <;> ring

theorem psichi_zero (θ k γ : ℝ) : psichi θ 0 k γ = psi θ k γ := by
  simp [psichi, psi]

theorem psichi_one (θ k γ : ℝ) : psichi θ 1 k γ =
    m2 (cos (k * θ + γ)) (sin (k * θ + γ)) (sin (k * θ + γ)) (-cos (k * θ + γ)) := by
  simp [psichi]

theorem chi_zero : chi 0 = m2 1 0 0 1 := by simp [chi]
theorem chi_one : chi 1 = m2 1 0 0 (-1) := by simp [chi]

end E2
