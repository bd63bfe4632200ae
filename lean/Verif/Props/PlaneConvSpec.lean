import Mathlib.MeasureTheory.Integral.Bochner.Basic
import Mathlib.MeasureTheory.Measure.Lebesgue.Basic
import Mathlib.Data.Matrix.Mul
import Verif.Model.Kernels
import Verif.Props.ImageSpec

/-!
# Specification of convolutions on the plane

The layers of the library are discretisations of convolutions on the plane.  Here are the fields on the plane, the convolution with a kernel, and the action of the
translations and of a group: no pixels, no interpolation, and all the elements of the group instead of those which permute pixels.
-/

namespace E2

open MeasureTheory

/-- The first `n` rows and `m` columns of an array. -/
def Mat.corner (n m : ℕ) (A : Mat) : Matrix (Fin n) (Fin m) ℝ := fun i j => A i j

/-- A field on the plane with `n` channels. -/
abbrev PField (n : ℕ) := ℝ × ℝ → Fin n → ℝ

/-- `(κ ⋆ f)(x) = ∫ κ(y - x) f(y) dy`, as `conv2d` of torch does for pixels. -/
noncomputable def planeConv (so si : ℕ) (κ : ℝ × ℝ → Mat) (f : PField si) : PField so := fun x => ∫ y, ((κ (y - x)).corner so si).mulVec (f y)

/-- The action of the element `g` of the group, followed by the translation by `t`: `f ↦ (x ↦ ρ(g) f(g⁻¹ (x - t)))`. -/
noncomputable def Space.move {El : Type} (Sp : Space El) {n : ℕ} (ρ : El → Mat) (t : ℝ × ℝ) (g : El) (f : PField n) : PField n :=
  fun x => ((ρ g).corner n n).mulVec (f (Sp.act (Sp.G.inv g) (x - t)))

/-- The convolution with `κ` commutes with the translations and with the group, on the fields with the property `C`. -/
def Space.ConvCommutes {El : Type} (Sp : Space El) (so si : ℕ) (ρo ρi : El → Mat) (κ : ℝ × ℝ → Mat) (C : PField si → Prop) : Prop :=
  ∀ g, Sp.G.isEl g → ∀ t f, C f → planeConv so si κ (Sp.move ρi t g f) = Sp.move ρo t g (planeConv so si κ f)

/-- The test functions: continuous fields which vanish outside of a bounded set. -/
def PField.Test {n : ℕ} (f : PField n) : Prop := Continuous f ∧ HasCompactSupport f

/-- The entries of the kernel are continuous functions on the plane. -/
def KernelContinuous (so si : ℕ) (κ : ℝ × ℝ → Mat) : Prop := Continuous fun p => (κ p).corner so si

/-- The entries of the kernel are bounded measurable functions, continuous except on the circle where the library starts to treat points as the origin (kernels/basis.py:282). -/
def KernelRegular (κ : ℝ × ℝ → Mat) : Prop :=
  ∀ a b, Measurable (fun p => κ p a b) ∧ (∃ C, ∀ p, |κ p a b| ≤ C) ∧ ∀ p, radius p ≠ 1e-9 → ContinuousAt (fun p => κ p a b) p

end E2
