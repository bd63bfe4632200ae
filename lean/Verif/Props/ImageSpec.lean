import Verif.Props.KernelSpec
import Verif.Model.Image

/-!
# Specification of the action on images
-/

namespace E2

open Real

/-- The position of the centre of the pixel in row `i` and column `j` of an `n × n` image, with the origin in the middle, the first
coordinate to the right and the second upwards. -/
noncomputable def pix (n : ℕ) (p : ℕ × ℕ) : ℝ × ℝ := (p.2 - ((n : ℝ) - 1) / 2, ((n : ℝ) - 1) / 2 - p.1)

/-- The angle is a multiple of a right angle. -/
def Quarter (θ : ℝ) : Prop := ∃ k : ℤ, θ = k * (π / 2)

/-- A space: a group, its action on the plane, its action on square images, and the elements which permute the pixels. -/
structure Space (El : Type) where
  G : Grp El
  act : El → ℝ × ℝ → ℝ × ℝ
  base : ℕ → El → Img → Img
  grid : El → Prop

/-- `TrivialOnR2`. -/
noncomputable def trivialSpace : Space ℤ := ⟨Cyclic.grp 1, fun _ p => p, trivialBase, fun _ => True⟩

/-- `Rot2dOnR2` with the cyclic group of order `N`. -/
noncomputable def rotSpace (interp : ℝ → Img → Img) (N : ℕ) : Space ℤ :=
  ⟨Cyclic.grp N, fun g => rot (g * (2 * π / N)), rotBase interp N, fun g => Quarter (g * (2 * π / N))⟩

/-- `Rot2dOnR2` with SO(2). -/
noncomputable def so2Space (interp : ℝ → Img → Img) : Space ℝ := ⟨SO2.grp, rot, so2Base interp, Quarter⟩

/-- `Flip2dOnR2`: the reflection permutes the pixels when twice the angle of the axis is a multiple of a right angle. -/
noncomputable def flipSpace (interp : ℝ → Img → Img) (axis : ℝ) : Space ℤ :=
  ⟨Cyclic.grp 2, fun g p => if g = 0 then p else refl axis p, flipBase interp axis, fun g => g = 0 ∨ Quarter (2 * axis)⟩

/-- `FlipRot2dOnR2` with the dihedral group with `N` rotations. -/
noncomputable def flipRotSpace (interp : ℝ → Img → Img) (N : ℕ) (axis : ℝ) : Space (ℤ × ℤ) :=
  ⟨Dihedral.grp N, fun g => planeAct axis (g.1, g.2 * (2 * π / N)), flipRotBase interp N axis,
    fun g => Quarter (g.2 * (2 * π / N) + if g.1 = 0 then 0 else 2 * axis)⟩

/-- `FlipRot2dOnR2` with O(2). -/
noncomputable def o2Space (interp : ℝ → Img → Img) (axis : ℝ) : Space (ℤ × ℝ) :=
  ⟨O2.grp, planeAct axis, o2Base interp axis, fun g => Quarter (g.2 + if g.1 = 0 then 0 else 2 * axis)⟩

/-- Equality of two images with `c` channels and `n × n` pixels. -/
def FEq (c n : ℕ) (x y : Fmap) : Prop := ∀ o < c, ∀ i < n, ∀ j < n, x o i j = y o i j

end E2
