import Verif.Model.Utils

/-!
# Specification of the kernel constraint and of the actions on the plane
-/

namespace E2

open Mat Real

/-- Rotation of the plane by the angle `α` around the origin. -/
noncomputable def rot (α : ℝ) (p : ℝ × ℝ) : ℝ × ℝ := (cos α * p.1 - sin α * p.2, sin α * p.1 + cos α * p.2)

/-- Reflection of the plane with respect to the line through the origin with angle `a` to the horizontal axis. -/
noncomputable def refl (a : ℝ) (p : ℝ × ℝ) : ℝ × ℝ :=
  (cos (2 * a) * p.1 + sin (2 * a) * p.2, sin (2 * a) * p.1 - cos (2 * a) * p.2)

/-- The action of a pair (flip, rotation angle): first the reflection with respect to the axis, then the rotation. -/
noncomputable def planeAct (axis : ℝ) (g : ℤ × ℝ) (p : ℝ × ℝ) : ℝ × ℝ := rot g.2 (if g.1 = 0 then p else refl axis p)

/-- The kernel constraint `κ(g x) = ρ_out(g) κ(x) ρ_in(g)⁻¹` for all `g` in the group and all `x`, for a kernel with values in the
matrices of shape `(so, si)`. -/
def KernelConstraint {El X : Type} (G : Grp El) (act : El → X → X) (so si : ℕ) (ρo ρi : El → Mat) (κ : X → Mat) : Prop :=
  ∀ g, G.isEl g → ∀ x, MEq so si (κ (act g x)) (Mat.mul si (Mat.mul so (ρo g) (κ x)) (ρi (G.inv g)))

/-- A matrix with one block `M` of shape `(rs, cs)` at position `(r0, c0)`, and zeros elsewhere. -/
def Mat.place (r0 rs c0 cs : ℕ) (M : Mat) : Mat := fun i j =>
  if (r0 ≤ i ∧ i < r0 + rs) ∧ (c0 ≤ j ∧ j < c0 + cs) then M (i - r0) (j - c0) else 0

end E2
