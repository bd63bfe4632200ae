import Verif.Props.KernelSpec
import Mathlib.Algebra.BigOperators.Group.Finset.Basic

/-!
# Specification of kernels of bounded angular frequency
-/

namespace E2

open Finset Mat Real

/-- A function of an angle with values in the matrices of shape `(so, si)` whose entries are trigonometric polynomials of degree at most `F`. -/
def TrigPoly (so si F : ℕ) (f : ℝ → Mat) : Prop :=
  ∃ a b : ℕ → Mat, ∀ φ, MEq so si (f φ) fun i j => ∑ μ ∈ range (F + 1), (a μ i j * cos (μ * φ) + b μ i j * sin (μ * φ))

/-- A kernel on the plane whose restriction to every circle around the origin has angular frequencies at most `F`. -/
def BandLimited (so si F : ℕ) (κ : ℝ × ℝ → Mat) : Prop := ∀ r, 0 < r → TrigPoly so si F fun θ => κ (r * cos θ, r * sin θ)

end E2
