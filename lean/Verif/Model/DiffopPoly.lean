import Verif.Model.Mat
import Mathlib.Data.Nat.Choose.Basic
import Mathlib.Data.Int.Basic
import Mathlib.Data.Sign.Defs

/-!
# Homogeneous polynomials in two variables: model of the coefficient arithmetic in `e2cnn/diffops/utils.py`
-/

namespace E2

open Finset

/-- A one dimensional array of `deg + 1` coefficients, of `x^n, x^(n-1) y, ..., y^n` for `n = deg`.  The values of `co` above `deg` are not part of
the array. -/
structure HPoly where
  deg : ℕ
  co : ℕ → ℝ

namespace HPoly

/-- `eval_polys` (diffops/utils.py:377-397), for one polynomial and one point: the code writes the same sum of coefficients times `x^(n-k) y^k`. -/
noncomputable def eval (c : HPoly) (p : ℝ × ℝ) : ℝ := ∑ k ∈ range (c.deg + 1), c.co k * (p.1 ^ (c.deg - k) * p.2 ^ k)

/-- `multiply_polynomials` (diffops/utils.py:204-220): with `n = a.deg + 1` and `m = b.deg + 1` the result has `n + m - 1` entries. -/
def mul (a b : HPoly) : HPoly where
  deg := (a.deg + 1) + (b.deg + 1) - 1 - 1
  co := fun k => ∑ l ∈ range (k + 1), if l < a.deg + 1 ∧ k - l < b.deg + 1 then a.co l * b.co (k - l) else 0

/-- `expand_binomial` (diffops/utils.py:223-227). -/
def binomial (a b : ℝ) (e : ℕ) : HPoly where
  deg := e
  co := fun k => (e.choose k : ℝ) * a ^ (e - k) * b ^ k

/-- `transform_polynomial` (diffops/utils.py:230-256), for one polynomial (the code applies it to the last axis of an array); `transformed` is
accumulated entry by entry. -/
def transform (c : HPoly) (A : Mat) : HPoly where
  deg := c.deg
  co := fun k => ∑ i ∈ range (c.deg + 1), c.co i * ((binomial (A 0 0) (A 1 0) (c.deg - i)).mul (binomial (A 0 1) (A 1 1) i)).co k

/-- `homogenized_cheby(n, "t")` (diffops/utils.py:282-306): the entries of even index are written. -/
def chebyT (n : ℤ) : HPoly where
  deg := n.natAbs
  co := fun j => if j % 2 = 0 then (n.natAbs.choose (2 * (j / 2)) : ℝ) * (-1) ^ (j / 2) else 0

/-- `homogenized_cheby(n, "u")` (diffops/utils.py:282-311): the entries of odd index are written. -/
def chebyU (n : ℤ) : HPoly where
  deg := n.natAbs
  co := fun j => if j % 2 = 1 then (n.sign : ℝ) * (n.natAbs.choose (2 * (j / 2) + 1) : ℝ) * (-1) ^ (j / 2) else 0

/-- Multiplication of an array of coefficients by a number. -/
def smul (r : ℝ) (c : HPoly) : HPoly := ⟨c.deg, fun k => r * c.co k⟩

/-- `laplacian_power` (diffops/utils.py:314-321). -/
def laplacian (k : ℕ) : HPoly where
  deg := 2 * k
  co := fun j => if j % 2 = 0 then (k.choose (j / 2) : ℝ) else 0

end HPoly

end E2
