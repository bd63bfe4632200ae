import Verif.Model.Image
import Verif.Model.Expansion

/-!
# Convolution: `nn/modules/r2_conv/r2convolution.py`

Square images and integer padding.  `conv2d` and `pad` are functions of PyTorch, external to the library: their definition here is
the documented one, over the reals.
-/

namespace E2

open Finset

/-- The modes of `pad` accepted by the constructor (r2convolution.py:175-177). -/
inductive PadMode
  | zeros | reflect | replicate | circular

/-- The pixel of an axis of length `n` shown at position `i` of the axis padded by `p` on both sides; `none` for a zero. -/
def padIdx (mode : PadMode) (n p i : ℕ) : Option ℕ :=
  if i < p then
    match mode with
    | .zeros => none
    | .reflect => some (p - i)
    | .replicate => some 0
    | .circular => some (n + i - p)
  else if i < p + n then some (i - p)
  else
    match mode with
    | .zeros => none
    | .reflect => some (2 * (n - 1) - (i - p))
    | .replicate => some (n - 1)
    | .circular => some (i - p - n)

/-- The padding is accepted by PyTorch: smaller than the image when reflecting, at most the image when wrapping around. -/
def padOk (mode : PadMode) (n p : ℕ) : Prop :=
  match mode with
  | .zeros => True
  | .reflect => p < n
  | .replicate => 0 < n
  | .circular => p ≤ n

/-- A pixel of the padded image. -/
def readPad (mode : PadMode) (n p : ℕ) (x : Img) (i j : ℕ) : ℝ :=
  match padIdx mode n p i, padIdx mode n p j with
  | some i', some j' => x i' j'
  | _, _ => 0

/-- `torch.conv2d` with `groups`, on the padded image: `f` has shape `(cout, cinG, k, k)`, where `cinG` is the number of input
channels of a group, and the output channels are divided in consecutive groups of size `coutG`. -/
noncomputable def conv2d (mode : PadMode) (n p k s d cinG coutG : ℕ) (f : ℕ → ℕ → ℕ → ℕ → ℝ) (bias : ℕ → ℝ) (x : Fmap) : Fmap := fun o i j =>
  (∑ c ∈ range cinG, ∑ a ∈ range k, ∑ b ∈ range k,
    f o c a b * readPad mode n p (x (o / coutG * cinG + c)) (i * s + a * d) (j * s + b * d)) + bias o

/-- The size of the output of `conv2d` (PyTorch); `none` when the kernel does not fit. -/
def convSize (n p k s d : ℕ) : Option ℕ :=
  if d * (k - 1) + 1 ≤ n + 2 * p then some ((n + 2 * p - d * (k - 1) - 1) / s + 1) else none

/-- `get_grid_coords` (r2convolution.py:606-623), the point with flat index `q`. -/
noncomputable def gridCoords (k d : ℕ) (q : ℕ) : ℝ × ℝ :=
  let actual : ℝ := d * (k - 1) + 1
  let origin : ℝ := actual / 2 - 0.5
  let y : ℝ := (q / k : ℕ) * d
  let x : ℝ := (q % k : ℕ) * d
  (x - origin, -y + origin)

variable {F : Type} [DecidableEq F]

/-- The checks on the types when `groups > 1` and the type of one group of the input (r2convolution.py:180-197); `none` for a failed
assertion. -/
def convGroups (groups : ℕ) (inT outT : List F) : Option (List F) :=
  if groups > 1 then
    if inT.length % groups = 0 ∧ outT.length % groups = 0 ∧
        (∀ i < inT.length, inT[i]? = inT[i % (inT.length / groups)]?) ∧
        (∀ i < outT.length, outT[i]? = outT[i % (outT.length / groups)]?) then
      some (inT.take (inT.length / groups))
    else none
  else some inT

/-- `reshape` of the expanded filter to `(cout, cin, k, k)` (r2convolution.py:305). -/
def reshapeFilter (k : ℕ) (f : Arr3) : ℕ → ℕ → ℕ → ℕ → ℝ := fun o c a b => f o c (a * k + b)

end E2
