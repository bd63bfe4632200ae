import Verif.Model.Utils
import Verif.Model.Cyclic
import Verif.Model.Dihedral
import Verif.Model.Continuous

/-!
# The action of the spaces on images: `gspaces/gspace.py`, `gspaces/r2/utils.py` and the `_basespace_action` of the spaces

Images are square with `n × n` pixels, the first index is the row from the top.  The batch axis is left out: all operations treat the
elements of a batch separately.
-/

namespace E2

open Real

/-- One channel. -/
abbrev Img := ℕ → ℕ → ℝ

/-- Several channels: channel, row, column. -/
abbrev Fmap := ℕ → Img

/-- `x[..., ::-1, :]`. -/
def Img.flip0 (n : ℕ) (x : Img) : Img := fun i j => x (n - 1 - i) j

/-- `np.flip(x, -1)`. -/
def Img.flip1 (n : ℕ) (x : Img) : Img := fun i j => x i (n - 1 - j)

/-- `np.transpose` of the two spatial axes. -/
def Img.transp (x : Img) : Img := fun i j => x j i

/-- `np.rot90(x, k, axes=(-2, -1))`, as implemented in numpy (external to the library): `k` is taken modulo 4. -/
def rot90 (n : ℕ) (k : ℤ) (x : Img) : Img :=
  if k % 4 = 0 then x
  else if k % 4 = 2 then (x.flip0 n).flip1 n
  else if k % 4 = 1 then (x.flip1 n).transp
  else x.transp.flip1 n

open Classical in
/-- `rotate_array` (gspaces/r2/utils.py:7-16).  `interp` stands for `scipy.ndimage.rotate`, used for the other angles. -/
noncomputable def rotateArray (interp : ℝ → Img → Img) (n : ℕ) (x : Img) (angle : ℝ) : Img :=
  if ∃ k : ℤ, 2 * angle / π = k then rot90 n ⌊2 * angle / π⌋ x else interp angle x

/-- `Rot2dOnR2._basespace_action` for a cyclic group (gspaces/r2/rot2d_on_r2.py:207-220). -/
noncomputable def rotBase (interp : ℝ → Img → Img) (N n : ℕ) (e : ℤ) (x : Img) : Img :=
  rotateArray interp n x (if N > 1 then e * 2 * π / N else e)

/-- `Rot2dOnR2._basespace_action` for SO(2), whose order is `-1` (gspaces/r2/rot2d_on_r2.py:207-220). -/
noncomputable def so2Base (interp : ℝ → Img → Img) (n : ℕ) (e : ℝ) (x : Img) : Img := rotateArray interp n x e

open Classical in
/-- `Flip2dOnR2._basespace_action` (gspaces/r2/flip2d_on_r2.py:183-195). -/
noncomputable def flipBase (interp : ℝ → Img → Img) (axis : ℝ) (n : ℕ) (e : ℤ) (x : Img) : Img :=
  if e ≠ 0 then
    if axis ≠ 0 then rotateArray interp n (x.flip0 n) (2 * axis) else x.flip0 n
  else x

open Classical in
/-- The common part of `FlipRot2dOnR2._basespace_action` (gspaces/r2/fliprot2d_on_r2.py:283-294). -/
noncomputable def flipRotBase' (interp : ℝ → Img → Img) (axis : ℝ) (n : ℕ) (flip : ℤ) (rotation : ℝ) (x : Img) : Img :=
  let out := if flip ≠ 0 then x.flip0 n else x
  let r := if flip ≠ 0 then rotation + 2 * axis else rotation
  if r ≠ 0 then rotateArray interp n out r else out

/-- `FlipRot2dOnR2._basespace_action` for a dihedral group (gspaces/r2/fliprot2d_on_r2.py:271-294); the order is `2 N > 1`. -/
noncomputable def flipRotBase (interp : ℝ → Img → Img) (N : ℕ) (axis : ℝ) (n : ℕ) (e : ℤ × ℤ) (x : Img) : Img :=
  flipRotBase' interp axis n e.1 (e.2 * 2 * π / N) x

/-- `FlipRot2dOnR2._basespace_action` for O(2) (gspaces/r2/fliprot2d_on_r2.py:271-294). -/
noncomputable def o2Base (interp : ℝ → Img → Img) (axis : ℝ) (n : ℕ) (e : ℤ × ℝ) (x : Img) : Img :=
  flipRotBase' interp axis n e.1 e.2 x

/-- `TrivialOnR2._basespace_action` (gspaces/r2/trivial_on_r2.py:169-172). -/
def trivialBase (_n : ℕ) (_e : ℤ) (x : Img) : Img := x

/-- `GSpace.featurefield_action` (gspaces/gspace.py:126-134): the channels are multiplied by the matrix of the representation, then the base space
is transformed.  Also `FieldType.transform` (nn/field_type.py:202-240), up to the conversions between tensors and arrays. -/
noncomputable def fieldAct (size : ℕ) (ρ : Mat) (base : Img → Img) (x : Fmap) : Fmap := fun o =>
  base fun i j => ∑ c ∈ Finset.range size, ρ o c * x c i j

end E2
