import Verif.Model.Pooling
import Verif.Model.Conv
import Mathlib.Algebra.Order.Floor.Ring
import Mathlib.Data.Rat.Floor

/-!
# Output shapes: the methods `evaluate_output_shape`, and the shapes PyTorch computes

The divisions of the library are float divisions; here they are exact.  Sizes and parameters are natural numbers and the kernel size is at least 1.
-/

namespace E2

/-- The shape of a tensor: batch, channels, height, width. -/
structure Shape where
  b : ℕ
  c : ℕ
  h : ℕ
  w : ℕ
deriving DecidableEq

/-- An entry of a declared shape: an integer, or (by mistake) a pair. -/
inductive Dim
  | int (z : ℤ)
  | pair (a b : ℤ)
deriving DecidableEq

/-- The shape of a tensor as the tuple which should be declared. -/
def Shape.dims (s : Shape) : List Dim := [.int s.b, .int s.c, .int s.h, .int s.w]

/-- `math.floor((n + 2 * padding - dilation * (kernel_size - 1) - 1) / stride + 1)` (r2convolution.py:403). -/
def declFloor (n p k s d : ℕ) : ℤ := ⌊(((n : ℚ) + 2 * p - d * ((k : ℚ) - 1) - 1) / s + 1)⌋

/-- The same with `math.ceil` (pointwise_max.py:116-121). -/
def declCeil (n p k s d : ℕ) : ℤ := ⌈(((n : ℚ) + 2 * p - d * ((k : ℚ) - 1) - 1) / s + 1)⌉

/-- `R2Conv.evaluate_output_shape` (r2convolution.py:397-406), `R2DiffOp.evaluate_output_shape` (r2diffop.py:502-511) and
`R2ConvTransposed.evaluate_output_shape` (r2_transposed_convolution.py:247-256): the same code. -/
def declConv (inS outS p k s d : ℕ) (sh : Shape) : Option (List Dim) :=
  if sh.c = inS then some [.int sh.b, .int outS, .int (declFloor sh.h p k s d), .int (declFloor sh.w p k s d)] else none

/-- The shape of the result of `conv2d` (PyTorch) as called in `R2Conv.forward` (r2convolution.py:329-353); the circular or other paddings of lines 340-352
add the same number of pixels. -/
def torchConv (inS outS p k s d : ℕ) (sh : Shape) : Option Shape :=
  if sh.c = inS then (convSize sh.h p k s d).bind fun h => (convSize sh.w p k s d).map fun w => ⟨sh.b, outS, h, w⟩ else none

/-- The size of the output of `conv_transpose2d` (PyTorch): `(n - 1) s - 2 p + d (k - 1) + output_padding + 1`; `none` when it is not positive, or when the
output padding is not smaller than the stride or the dilation. -/
def convTSize (n p op k s d : ℕ) : Option ℕ :=
  if 0 < n ∧ (op < s ∨ op < d) ∧ 2 * p < (n - 1) * s + d * (k - 1) + op + 1 then some ((n - 1) * s + d * (k - 1) + op + 1 - 2 * p) else none

/-- The shape of the result of `R2ConvTransposed.forward` (r2_transposed_convolution.py:204-224). -/
def torchConvT (inS outS p op k s d : ℕ) (sh : Shape) : Option Shape :=
  if sh.c = inS then (convTSize sh.h p op k s d).bind fun h => (convTSize sh.w p op k s d).map fun w => ⟨sh.b, outS, h, w⟩ else none

/-- The attributes of a pooling module for one axis.  `dilation` is `none` when the constructor does not set the attribute. -/
structure PoolAttrs where
  p : ℕ
  k : ℕ
  s : ℕ
  d : Option ℕ

/-- `PointwiseMaxPool.evaluate_output_shape` (pointwise_max.py:109-126) and `PointwiseAvgPool.evaluate_output_shape` (pointwise_avg.py:98-115): the same
code.  Reading an attribute which does not exist raises. -/
def declPool (ceil : Bool) (size : ℕ) (ah aw : PoolAttrs) (sh : Shape) : Option (List Dim) :=
  if sh.c = size then do
    let dh ← ah.d
    let dw ← aw.d
    some (if ceil then [.int sh.b, .int size, .int (declCeil sh.h ah.p ah.k ah.s dh), .int (declCeil sh.w aw.p aw.k aw.s dw)]
      else [.int sh.b, .int size, .int (declFloor sh.h ah.p ah.k ah.s dh), .int (declFloor sh.w aw.p aw.k aw.s dw)])
  else none

/-- The attributes set by `PointwiseMaxPool.__init__` and `NormMaxPool.__init__` (pointwise_max.py:61-83, norm_max.py:59-81). -/
def maxPoolAttrs (p k s d : ℕ) : PoolAttrs := ⟨p, k, s, some d⟩

/-- The attributes set by `PointwiseAvgPool.__init__` (pointwise_avg.py:56-73): no dilation. -/
def avgPoolAttrs (p k s : ℕ) : PoolAttrs := ⟨p, k, s, none⟩

/-- `NormMaxPool.evaluate_output_shape` (norm_max.py:217-229): without `ceil_mode`. -/
def declNormPool (size : ℕ) (ah aw : PoolAttrs) (sh : Shape) : Option (List Dim) := declPool false size ah aw sh

/-- The shape of the result of `max_pool2d` and `avg_pool2d` (PyTorch). -/
def torchPool (ceil : Bool) (size : ℕ) (ph kh sth dh pw kw stw dw : ℕ) (sh : Shape) : Option Shape :=
  if sh.c = size then (poolSize ceil sh.h ph kh sth dh).bind fun h => (poolSize ceil sh.w pw kw stw dw).map fun w => ⟨sh.b, size, h, w⟩ else none

/-- `PointwiseAvgPoolAntialiased.evaluate_output_shape` (pointwise_avg.py:221-234). -/
def declAvgAA (size fs ph sth pw stw : ℕ) (sh : Shape) : Option (List Dim) :=
  if sh.c = size then some [.int sh.b, .int size, .int (declFloor sh.h ph fs sth 1), .int (declFloor sh.w pw fs stw 1)] else none

/-- The shape of the result of `PointwiseAvgPoolAntialiased.forward` (pointwise_avg.py:203-219). -/
def torchAvgAA (size fs ph sth pw stw : ℕ) (sh : Shape) : Option Shape :=
  if sh.c = size then (convSize sh.h ph fs sth 1).bind fun h => (convSize sh.w pw fs stw 1).map fun w => ⟨sh.b, size, h, w⟩ else none

/-- One axis of `PointwiseMaxPoolAntialiased.forward` (pointwise_max.py:212-236): pooling with stride 1, then the convolution with padding
`p + (fs - 1) / 2`. -/
def maxAASize (ceil : Bool) (n p k s fs : ℕ) : Option ℕ := (poolSize ceil n p k 1 1).bind fun m => convSize m (p + (fs - 1) / 2) fs s 1

/-- The shape of the result of `PointwiseMaxPoolAntialiased.forward`; the declared one is inherited from `PointwiseMaxPool`. -/
def torchMaxAA (ceil : Bool) (size fs ph kh sth pw kw stw : ℕ) (sh : Shape) : Option Shape :=
  if sh.c = size then (maxAASize ceil sh.h ph kh sth fs).bind fun h => (maxAASize ceil sh.w pw kw stw fs).map fun w => ⟨sh.b, size, h, w⟩ else none

/-- `PointwiseAdaptiveAvgPool.evaluate_output_shape` and `PointwiseAdaptiveMaxPool.evaluate_output_shape` (pointwise_adaptive_avg.py:51-54, 75-81): the
attribute is a pair. -/
def declAdaptive (size oh ow : ℕ) (sh : Shape) : Option (List Dim) :=
  if sh.c = size then some [.int sh.b, .int size, .pair oh ow, .pair oh ow] else none

/-- The shape of the result of `adaptive_avg_pool2d` and `adaptive_max_pool2d` (PyTorch). -/
def torchAdaptive (size oh ow : ℕ) (sh : Shape) : Option Shape := if sh.c = size then some ⟨sh.b, size, oh, ow⟩ else none

/-- The arguments of `R2Upsampling` (r2upsampling.py:23-29, 64-69): exactly one of them is used; with none of them the forward pass raises. -/
inductive UpSize
  | scale (q : ℚ)
  | size (h w : ℕ)

/-- `R2Upsampling.evaluate_output_shape` (r2upsampling.py:104-117). -/
def declUp (size : ℕ) (a : UpSize) (sh : Shape) : Option (List Dim) :=
  if sh.c = size then
    match a with
    | .scale q => some [.int sh.b, .int size, .int ⌊(sh.h : ℚ) * q⌋, .int ⌊(sh.w : ℚ) * q⌋]
    | .size h w => some [.int sh.b, .int size, .int h, .int w]
  else none

/-- The shape of the result of `interpolate` (PyTorch): the sizes multiplied by the factor and truncated, or the given ones; they must be positive. -/
def torchUp (size : ℕ) (a : UpSize) (sh : Shape) : Option Shape :=
  let r : Shape := match a with
    | .scale q => ⟨sh.b, size, ⌊(sh.h : ℚ) * q⌋.toNat, ⌊(sh.w : ℚ) * q⌋.toNat⟩
    | .size h w => ⟨sh.b, size, h, w⟩
  if sh.c = size ∧ 0 < r.h ∧ 0 < r.w then some r else none

/-- The loop of `MergeModule.evaluate_output_shape` (merge_module.py:118-126) on the shapes declared by its modules. -/
def mergeShapes : List Shape → Option Shape
  | [] => none
  | s :: ss => ss.foldlM (fun (acc o : Shape) => if acc.b = o.b ∧ acc.h = o.h ∧ acc.w = o.w then some { acc with c := acc.c + o.c } else none) s

/-- `MergeModule.evaluate_output_shape` (merge_module.py:106) accepts keyword arguments only: a call with positional arguments raises. -/
def mergeDecl (positional : ℕ) (shapes : List Shape) : Option Shape := if 0 < positional then none else mergeShapes shapes

/-- `MultipleModule.evaluate_output_shape` (multiple_module.py:122-131): the dictionary of the shapes is passed as one positional argument. -/
def multipleDecl (inSize : ℕ) (branches : Shape → List Shape) (sh : Shape) : Option Shape := if sh.c = inSize then mergeDecl 1 (branches sh) else none

end E2
