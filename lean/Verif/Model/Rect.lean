import Verif.Model.R2ConvInit
import Verif.Model.Shapes
import Verif.Model.Pooling

/-!
# Rectangular images and paddings which differ along the two axes

The files `Model/Image.lean` and `Model/Conv.lean` treat square images and one number for the padding.  Here are the same functions of the library for images with
`h × w` pixels, and for `padding` given as a tuple.
-/

namespace E2

open Finset Real

/-- `np.rot90(x, k, axes=(-2, -1))`, as implemented in numpy (external to the library), for an image with `h × w` pixels.  For odd `k` the result has `w × h` pixels. -/
def rot90R (h w : ℕ) (k : ℤ) (x : Img) : Img :=
  if k % 4 = 0 then x
  else if k % 4 = 2 then (x.flip0 h).flip1 w
  else if k % 4 = 1 then (x.flip1 w).transp
  else x.transp.flip1 h

open Classical in
/-- `rotate_array` (gspaces/r2/utils.py:7-16).  `interp` stands for `scipy.ndimage.rotate`, used for the other angles. -/
noncomputable def rotateArrayR (interp : ℝ → Img → Img) (h w : ℕ) (x : Img) (angle : ℝ) : Img :=
  if ∃ k : ℤ, 2 * angle / π = k then rot90R h w ⌊2 * angle / π⌋ x else interp angle x

/-- `Rot2dOnR2._basespace_action` for a cyclic group (gspaces/r2/rot2d_on_r2.py:207-220). -/
noncomputable def rotBaseR (interp : ℝ → Img → Img) (N h w : ℕ) (e : ℤ) (x : Img) : Img :=
  rotateArrayR interp h w x (if N > 1 then e * 2 * π / N else e)

/-- `Rot2dOnR2._basespace_action` for SO(2) (gspaces/r2/rot2d_on_r2.py:207-220). -/
noncomputable def so2BaseR (interp : ℝ → Img → Img) (h w : ℕ) (e : ℝ) (x : Img) : Img := rotateArrayR interp h w x e

open Classical in
/-- `Flip2dOnR2._basespace_action` (gspaces/r2/flip2d_on_r2.py:183-195). -/
noncomputable def flipBaseR (interp : ℝ → Img → Img) (axis : ℝ) (h w : ℕ) (e : ℤ) (x : Img) : Img :=
  if e ≠ 0 then
    if axis ≠ 0 then rotateArrayR interp h w (x.flip0 h) (2 * axis) else x.flip0 h
  else x

open Classical in
/-- The common part of `FlipRot2dOnR2._basespace_action` (gspaces/r2/fliprot2d_on_r2.py:283-294). -/
noncomputable def flipRotBaseR' (interp : ℝ → Img → Img) (axis : ℝ) (h w : ℕ) (flip : ℤ) (rotation : ℝ) (x : Img) : Img :=
  let out := if flip ≠ 0 then x.flip0 h else x
  let r := if flip ≠ 0 then rotation + 2 * axis else rotation
  if r ≠ 0 then rotateArrayR interp h w out r else out

/-- `FlipRot2dOnR2._basespace_action` for a dihedral group (gspaces/r2/fliprot2d_on_r2.py:271-294). -/
noncomputable def flipRotBaseR (interp : ℝ → Img → Img) (N : ℕ) (axis : ℝ) (h w : ℕ) (e : ℤ × ℤ) (x : Img) : Img :=
  flipRotBaseR' interp axis h w e.1 (e.2 * 2 * π / N) x

/-- `FlipRot2dOnR2._basespace_action` for O(2) (gspaces/r2/fliprot2d_on_r2.py:271-294). -/
noncomputable def o2BaseR (interp : ℝ → Img → Img) (axis : ℝ) (h w : ℕ) (e : ℤ × ℝ) (x : Img) : Img :=
  flipRotBaseR' interp axis h w e.1 e.2 x

/-- `TrivialOnR2._basespace_action` (gspaces/r2/trivial_on_r2.py:169-172). -/
def trivialBaseR (_h _w : ℕ) (_e : ℤ) (x : Img) : Img := x

/-! ## Padding -/

/-- The argument `padding` of `R2Conv` (r2convolution.py:168-173): an integer or a tuple of two of them. -/
inductive Padding
  | int (p : ℕ)
  | pair (ph pw : ℕ)

/-- `_padding` (r2convolution.py:168-173). -/
def Padding.both : Padding → ℕ × ℕ
  | .int p => (p, p)
  | .pair ph pw => (ph, pw)

/-- `_reversed_padding_repeated_twice` (r2convolution.py:178): the paddings of the last axis come first. -/
def Padding.reversedTwice (p : Padding) : List ℕ := [p.both.2, p.both.2, p.both.1, p.both.1]

/-- A pixel of an image with `h × w` pixels padded by `ph` rows and `pw` columns on each side. -/
def readPadR (mode : PadMode) (h w ph pw : ℕ) (x : Img) (i j : ℕ) : ℝ :=
  match padIdx mode h ph i, padIdx mode w pw j with
  | some i', some j' => x i' j'
  | _, _ => 0

/-- `torch.conv2d` with `groups` on the padded image, see `conv2d`. -/
noncomputable def conv2dR (mode : PadMode) (h w ph pw k s d cinG coutG : ℕ) (f : ℕ → ℕ → ℕ → ℕ → ℝ) (bias : ℕ → ℝ) (x : Fmap) : Fmap := fun o i j =>
  (∑ c ∈ range cinG, ∑ a ∈ range k, ∑ b ∈ range k,
    f o c a b * readPadR mode h w ph pw (x (o / coutG * cinG + c)) (i * s + a * d) (j * s + b * d)) + bias o

/-- The rows and columns added before the convolution (r2convolution.py:335-352): with zeros the tuple is an argument of `conv2d`, rows first; with the other modes
`pad` takes the paddings of the columns from the positions 0 and 1 and those of the rows from the positions 2 and 3, which are equal two by two. -/
def Padding.used (p : Padding) (mode : PadMode) : ℕ × ℕ :=
  match mode with
  | .zeros => p.both
  | _ => ((p.reversedTwice)[2]?.getD 0, (p.reversedTwice)[0]?.getD 0)

variable {El F A I : Type} [LinearOrder F] [DecidableEq I]

/-- `R2Conv.forward` in training mode (r2convolution.py:294-353), see `r2conv`, on an image with `h × w` pixels and with the padding `p`. -/
noncomputable def r2convR (c : ConvCfg A I) (p : Padding) (rep : F → Repr El) (inT outT : List F) (basis : F → F → List (A × (ℝ × ℝ → Mat)))
    (wts b : List ℝ) (h w : ℕ) (x : Fmap) : Option Fmap :=
  match convGroups c.groups inT outT with
  | none => none
  | some inG =>
    match (c.exp rep inG outT basis).forward wts with
    | none => none
    | some f => some (conv2dR c.mode h w (p.used c.mode).1 (p.used c.mode).2 c.k c.s c.d (typeSize (fun m => (rep m).size) inG)
        (typeSize (fun m => (rep m).size) outT / c.groups) (reshapeFilter c.k f) (outBias rep outT b) x)

/-- The same for a module built by the constructor, which does not use the padding (r2convolution.py:152-279). -/
noncomputable def ConvModule.forwardR (M : ConvModule El F) (p : Padding) (rep : F → Repr El) (inT outT : List F) (wts b : List ℝ) (h w : ℕ) (x : Fmap) : Option Fmap :=
  r2convR M.cfg p rep inT outT M.basis wts b h w x

/-- `R2Conv.evaluate_output_shape` (r2convolution.py:397-406): `2 * self.padding` repeats a tuple, and adding a tuple to an integer raises. -/
def declConvP (inS outS : ℕ) (p : Padding) (k s d : ℕ) (sh : Shape) : Option (List Dim) :=
  match p with
  | .int p => declConv inS outS p k s d sh
  | .pair _ _ => none

/-! ## Poolings whose arguments differ along the two axes -/

/-- The arguments of a pooling along one axis: one entry of each of the tuples `padding`, `kernel_size`, `stride` and `dilation`
(pooling/pointwise_max.py:61-83, pointwise_avg.py:56-73). -/
structure PoolAx where
  p : ℕ
  k : ℕ
  s : ℕ
  d : ℕ

/-- An argument which is an integer or a tuple of two of them (pointwise_max.py:61-83): the value for the rows and the one for the columns. -/
def pairOf (v : ℕ ⊕ ℕ × ℕ) : ℕ × ℕ := v.elim (fun n => (n, n)) id

/-- The arguments of `PointwiseMaxPool.__init__` and `PointwiseAvgPool.__init__` along the two axes (pointwise_max.py:61-83, pointwise_avg.py:56-73): the default of
`stride` is `kernel_size`. -/
def poolAxes (kernel : ℕ ⊕ ℕ × ℕ) (stride : Option (ℕ ⊕ ℕ × ℕ)) (padding dilation : ℕ ⊕ ℕ × ℕ) : PoolAx × PoolAx :=
  let k := pairOf kernel
  let s := match stride with
    | some s => pairOf s
    | none => k
  (⟨(pairOf padding).1, k.1, s.1, (pairOf dilation).1⟩, ⟨(pairOf padding).2, k.2, s.2, (pairOf dilation).2⟩)

/-- The rows (or columns) of the image in the window number `i`, see `axisPix`. -/
def PoolAx.idx (A : PoolAx) (n i : ℕ) : List ℕ :=
  (List.range A.k).filterMap fun a => if A.p ≤ i * A.s + a * A.d ∧ i * A.s + a * A.d - A.p < n then some (i * A.s + a * A.d - A.p) else none

/-- `F.max_pool2d` (PyTorch) on one channel with `h × w` pixels, as called by `PointwiseMaxPool.forward` (pointwise_max.py:85-107). -/
noncomputable def maxPoolR (A B : PoolAx) (h w : ℕ) (x : Img) : Img := fun i j =>
  maxVal ((A.idx h i).flatMap fun u => (B.idx w j).map fun v => x u v)

/-- `F.avg_pool2d` (PyTorch) on one channel with `h × w` pixels, as called by `PointwiseAvgPool.forward` (pointwise_avg.py:75-96); there is no dilation. -/
noncomputable def avgPoolR (A B : PoolAx) (h w : ℕ) (x : Img) : Img := fun i j =>
  (∑ a ∈ range A.k, ∑ b ∈ range B.k, readPadR .zeros h w A.p B.p x (i * A.s + a) (j * B.s + b))
    / ((min (i * A.s + A.k) (h + 2 * A.p) - i * A.s) * (min (j * B.s + B.k) (w + 2 * B.p) - j * B.s) : ℕ)

end E2
