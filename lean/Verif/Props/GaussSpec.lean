import Mathlib.Analysis.Calculus.Deriv.Basic
import Mathlib.Analysis.Calculus.ContDiff.Defs
import Mathlib.Analysis.SpecialFunctions.Exp
import Verif.Model.GaussDiff

/-!
# What is assumed of the functions of the package `rbf`

Partial derivatives of functions of the plane, the Gaussian, and the linear system which determines the weights of RBF-FD.
-/

namespace E2

open Finset Real
open scoped ContDiff

/-- The partial derivative in the direction of the first axis. -/
noncomputable def partialX (f : ℝ × ℝ → ℝ) : ℝ × ℝ → ℝ := fun p => deriv (fun t => f (t, p.2)) p.1

/-- The partial derivative in the direction of the second axis. -/
noncomputable def partialY (f : ℝ × ℝ → ℝ) : ℝ × ℝ → ℝ := fun p => deriv (fun t => f (p.1, t)) p.2

/-- The Gaussian of the package with the shape parameter `eps`: `exp(-(eps r)²)`. -/
noncomputable def gaussRBF (eps : ℝ) (p : ℝ × ℝ) : ℝ := exp (-(eps ^ 2 * (p.1 ^ 2 + p.2 ^ 2)))

/-- What is assumed of `get_rbf("ga")`: called with the exponents `[a, b]` it is the derivative `∂x^a ∂y^b` of the Gaussian. -/
def GaussSpec (ga : ℝ → ℕ → ℕ → ℝ × ℝ → ℝ) : Prop := ∀ eps a b p, ga eps a b p = (partialX^[a] (partialY^[b] (gaussRBF eps))) p

/-- The value at `p` of the operator with the given exponents and coefficients. -/
noncomputable def applyDiffs (diffs : List (ℕ × ℕ)) (coeffs : List ℝ) (f : ℝ × ℝ → ℝ) (p : ℝ × ℝ) : ℝ :=
  ((coeffs.zip diffs).map fun t => t.1 * (partialX^[t.2.1] (partialY^[t.2.2] f)) p).sum

/-- The polynomials of degree at most `l`; only zero for `none`. -/
def PolyLE : Option ℕ → (ℝ × ℝ → ℝ) → Prop
  | none, q => q = fun _ => 0
  | some l, q => ∃ cs : ℕ → HPoly, (∀ i, (cs i).deg = i) ∧ q = fun p => ∑ i ∈ range (l + 1), (cs i).eval p

/-- The function depends on the distance from the origin only. -/
def Radial (φ : ℝ × ℝ → ℝ) : Prop := ∀ p q : ℝ × ℝ, p.1 ^ 2 + p.2 ^ 2 = q.1 ^ 2 + q.2 ^ 2 → φ p = φ q

/-- The linear system of RBF-FD for the functional `L`, the basis function `φ`, the degree of the added polynomials and `N` points: with the multipliers `μ`
for the polynomials the weights reproduce `L` on the translates of `φ` up to `μ`, and they are exact for the polynomials. -/
def RBFSystem (φ : ℝ × ℝ → ℝ) (l : Option ℕ) (N : ℕ) (pt : ℕ → ℝ × ℝ) (L : (ℝ × ℝ → ℝ) → ℝ) (w : ℕ → ℝ) : Prop :=
  (∃ μ, PolyLE l μ ∧ ∀ i < N, ∑ j ∈ range N, w j * φ (pt j - pt i) + μ (pt i) = L fun x => φ (x - pt i)) ∧
  ∀ q, PolyLE l q → ∑ j ∈ range N, w j * q (pt j) = L q

/-- The function `weight_matrix` with the points `pts` and the name `phi` of a basis function, for the operators of order `n`, solves the system of RBF-FD for
`φ` and the degree `l` of the added polynomials, and the solution is unique. -/
def RBFSolves (φ : ℝ × ℝ → ℝ) (l : Option ℕ) (wm : List (ℝ × ℝ) → List (ℕ × ℕ) → List ℝ → String → ℕ → ℝ) (phi : String) (pts : List (ℝ × ℝ)) (n : ℕ) : Prop :=
  ∀ c : HPoly, c.deg = n → c.diffs ≠ [] →
    RBFSystem φ l pts.length (fun j => pts.getD j 0) (fun f => applyDiffs c.diffs c.nonzeroCo f 0) (wm pts c.diffs c.nonzeroCo phi) ∧
    ∀ w w' : ℕ → ℝ, RBFSystem φ l pts.length (fun j => pts.getD j 0) (fun f => applyDiffs c.diffs c.nonzeroCo f 0) w →
      RBFSystem φ l pts.length (fun j => pts.getD j 0) (fun f => applyDiffs c.diffs c.nonzeroCo f 0) w' → ∀ j < pts.length, w j = w' j

/-- What is assumed of `weight_matrix` for the points `pts`, the name `phi` of a basis function and the operators of order `n`: the name stands for a smooth
radial function, the weights solve the system of RBF-FD with some degree of the added polynomials, and the solution of the system is unique. -/
def RBFSpec (wm : List (ℝ × ℝ) → List (ℕ × ℕ) → List ℝ → String → ℕ → ℝ) (phi : String) (pts : List (ℝ × ℝ)) (n : ℕ) : Prop :=
  ∃ (φ : ℝ × ℝ → ℝ) (l : Option ℕ), ContDiff ℝ ∞ φ ∧ Radial φ ∧ RBFSolves φ l wm phi pts n

end E2
