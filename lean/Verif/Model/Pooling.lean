import Verif.Model.Invariant
import Mathlib.Analysis.SpecialFunctions.Exp

/-!
# Spatial pooling and masks: `nn/modules/pooling` and `nn/modules/masking_module.py`

Square images and windows.  A channel is a function on the pixels of the images of a batch; the entries of the batch are indexed by `B`.  The pooling
functions of PyTorch are external to the library: their definition here is the documented one, over the reals.
-/

namespace E2

variable {B R : Type}

/-- The pixels of a batch of `n × n` images. -/
abbrev Pix (B : Type) (n : ℕ) := B × Fin n × Fin n

/-- The rows (or columns) of the image in the window number `i`: `kernel` entries at distance `dilation` from each other, starting from `i * stride` in
the padded image. -/
def axisPix (n p k s d i : ℕ) : List (Fin n) :=
  (List.range k).filterMap fun a => if h : p ≤ i * s + a * d ∧ i * s + a * d - p < n then some ⟨i * s + a * d - p, h.2⟩ else none

/-- The pixels of the image in a window, row by row. -/
def windowPix (n p k s d i j : ℕ) : List (Fin n × Fin n) :=
  (axisPix n p k s d i).flatMap fun u => (axisPix n p k s d j).map fun v => (u, v)

/-- The size of the output of `max_pool2d` and `avg_pool2d` (PyTorch): with `ceil_mode` the division is rounded up, and the last window is
dropped when it starts in the right padding.  `none` when the window does not fit. -/
def poolSize (ceil : Bool) (n p k s d : ℕ) : Option ℕ :=
  if d * (k - 1) + 1 ≤ n + 2 * p then
    let t := n + 2 * p - d * (k - 1) - 1
    if ceil then
      let o := (t + s - 1) / s + 1
      some (if (o - 1) * s ≥ n + p then o - 1 else o)
    else some (t / s + 1)
  else none

/-- `F.max_pool2d` (PyTorch): the padding is `-∞`, so only the pixels of the image count. -/
noncomputable def maxPool2d (n p k s d m : ℕ) (v : Pix B n → ℝ) : Pix B m → ℝ := fun q =>
  maxVal ((windowPix n p k s d q.2.1 q.2.2).map fun u => v (q.1, u))

/-- A pixel of the image padded with zeros. -/
noncomputable def readZ (n p : ℕ) (v : Pix B n → ℝ) (b : B) (u w : ℕ) : ℝ :=
  if h : (p ≤ u ∧ u - p < n) ∧ p ≤ w ∧ w - p < n then v (b, ⟨u - p, h.1.2⟩, ⟨w - p, h.2.2⟩) else 0

/-- `F.avg_pool2d` (PyTorch), `count_include_pad=True`: the sum over the window divided by the number of its entries inside of the padded
image. -/
noncomputable def avgPool2d (n p k s m : ℕ) (v : Pix B n → ℝ) : Pix B m → ℝ := fun q =>
  (∑ a ∈ Finset.range k, ∑ b ∈ Finset.range k, readZ n p v q.1 (q.2.1 * s + a) (q.2.2 * s + b))
    / ((min (q.2.1 * s + k) (n + 2 * p) - q.2.1 * s) * (min (q.2.2 * s + k) (n + 2 * p) - q.2.2 * s) : ℕ)

/-- The unnormalised filter (pooling/pointwise_max.py:190-201, pointwise_avg.py:180-191). -/
noncomputable def gauss (fs : ℕ) (sigma : ℝ) (a b : ℕ) : ℝ :=
  Real.exp (-(((a : ℝ) - ((fs : ℝ) - 1) / 2) ^ 2 + ((b : ℝ) - ((fs : ℝ) - 1) / 2) ^ 2) / (2 * sigma ^ 2))

/-- The filter (pointwise_max.py:204, pointwise_avg.py:194). -/
noncomputable def gaussFilter (fs : ℕ) (sigma : ℝ) (a b : ℕ) : ℝ :=
  gauss fs sigma a b / ∑ a ∈ Finset.range fs, ∑ b ∈ Finset.range fs, gauss fs sigma a b

/-- `F.conv2d` with the same filter on each channel (`groups` is the number of channels) and zero padding (PyTorch). -/
noncomputable def depthConv (n p k s m : ℕ) (f : ℕ → ℕ → ℝ) (v : Pix B n → ℝ) : Pix B m → ℝ := fun q =>
  ∑ a ∈ Finset.range k, ∑ b ∈ Finset.range k, f a b * readZ n p v q.1 (q.2.1 * s + a) (q.2.2 * s + b)

/-- The first index handled by window `i` of `F.adaptive_avg_pool2d` (PyTorch): `floor(i n / m)`. -/
def adaptiveStart (n m i : ℕ) : ℕ := i * n / m

/-- The end of the window: `ceil((i + 1) n / m)`. -/
def adaptiveEnd (n m i : ℕ) : ℕ := ((i + 1) * n + m - 1) / m

/-- The pixels of a window of the adaptive pooling functions. -/
def adaptivePix (n m i : ℕ) : List (Fin n) :=
  (List.finRange n).filter fun u => decide (adaptiveStart n m i ≤ u ∧ (u : ℕ) < adaptiveEnd n m i)

/-- `F.adaptive_avg_pool2d` (PyTorch). -/
noncomputable def adaptiveAvg (n m : ℕ) (v : Pix B n → ℝ) : Pix B m → ℝ := fun q =>
  (∑ u ∈ (adaptivePix n m q.2.1).toFinset, ∑ w ∈ (adaptivePix n m q.2.2).toFinset, v (q.1, u, w))
    / ((adaptiveEnd n m q.2.1 - adaptiveStart n m q.2.1) * (adaptiveEnd n m q.2.2 - adaptiveStart n m q.2.2) : ℕ)

/-- `F.adaptive_max_pool2d` (PyTorch). -/
noncomputable def adaptiveMax (n m : ℕ) (v : Pix B n → ℝ) : Pix B m → ℝ := fun q =>
  maxVal ((adaptivePix n m q.2.1).flatMap fun u => (adaptivePix n m q.2.2).map fun w => v (q.1, u, w))

/-- A module which treats each channel separately and keeps the type. -/
noncomputable def channelwise [DecidableEq R] {V W : Type} (sz : R → ℕ) (t : List R) (f : V → W) (x : GTensor R V) : Option (GTensor R W) :=
  if x.ty = t then mkGT sz (x.data.map f) t else none

/-- `PointwiseMaxPool.forward` (pooling/pointwise_max.py:85-107). -/
noncomputable def pointwiseMaxPool [DecidableEq R] (sz : R → ℕ) (t : List R) (n p k s d m : ℕ) (x : GTensor R (Pix B n → ℝ)) :
    Option (GTensor R (Pix B m → ℝ)) := channelwise sz t (maxPool2d n p k s d m) x

/-- `PointwiseMaxPoolAntialiased.forward` (pooling/pointwise_max.py:212-236): max pooling with stride 1, then the convolution with the filter of size
`fs`, whose padding is the one of the pooling plus `(fs - 1) / 2` (line 210).  `n1` is the size after the pooling. -/
noncomputable def pointwiseMaxPoolAA [DecidableEq R] (sz : R → ℕ) (t : List R) (n p k s n1 m fs : ℕ) (sigma : ℝ) (x : GTensor R (Pix B n → ℝ)) :
    Option (GTensor R (Pix B m → ℝ)) :=
  channelwise sz t (fun v => depthConv n1 (p + (fs - 1) / 2) fs s m (gaussFilter fs sigma) (maxPool2d n p k 1 1 n1 v)) x

/-- `PointwiseAvgPool.forward` (pooling/pointwise_avg.py:75-96). -/
noncomputable def pointwiseAvgPool [DecidableEq R] (sz : R → ℕ) (t : List R) (n p k s m : ℕ) (x : GTensor R (Pix B n → ℝ)) :
    Option (GTensor R (Pix B m → ℝ)) := channelwise sz t (avgPool2d n p k s m) x

/-- `PointwiseAvgPoolAntialiased.forward` (pooling/pointwise_avg.py:203-219). -/
noncomputable def pointwiseAvgPoolAA [DecidableEq R] (sz : R → ℕ) (t : List R) (n p s m fs : ℕ) (sigma : ℝ) (x : GTensor R (Pix B n → ℝ)) :
    Option (GTensor R (Pix B m → ℝ)) := channelwise sz t (depthConv n p fs s m (gaussFilter fs sigma)) x

/-- `PointwiseAdaptiveAvgPool.forward` (pooling/pointwise_adaptive_avg.py:56-73). -/
noncomputable def pointwiseAdaptiveAvg [DecidableEq R] (sz : R → ℕ) (t : List R) (n m : ℕ) (x : GTensor R (Pix B n → ℝ)) :
    Option (GTensor R (Pix B m → ℝ)) := channelwise sz t (adaptiveAvg n m) x

/-- `PointwiseAdaptiveMaxPool.forward` (pooling/pointwise_adaptive_max.py). -/
noncomputable def pointwiseAdaptiveMax [DecidableEq R] (sz : R → ℕ) (t : List R) (n m : ℕ) (x : GTensor R (Pix B n → ℝ)) :
    Option (GTensor R (Pix B m → ℝ)) := channelwise sz t (adaptiveMax n m) x

open Classical in
/-- The index returned by `F.max_pool2d(..., return_indices=True)` (PyTorch): the first pixel of the window, row by row, with the largest value
(a later one replaces the current one only if it is larger). -/
noncomputable def argmaxPix {n : ℕ} (norm : Fin n × Fin n → ℝ) : List (Fin n × Fin n) → Option (Fin n × Fin n)
  | [] => none
  | u :: us => some (us.foldl (fun best v => if norm best < norm v then v else best) u)

/-- One field of `NormMaxPool.forward` (pooling/norm_max.py:162-184): the norm is pooled and the field is read where it is largest.  A window without any
pixel of the image does not exist (PyTorch requires a padding of at most half of the window); here the result would be 0. -/
noncomputable def normPoolField (n p k s d m : ℕ) (fld : List (Pix B n → ℝ)) : List (Pix B m → ℝ) :=
  fld.map fun v q =>
    match argmaxPix (fun u => fieldNorm fld (q.1, u)) (windowPix n p k s d q.2.1 q.2.2) with
    | none => 0
    | some u => v (q.1, u)

/-- `NormMaxPool.forward` (pooling/norm_max.py:124-215), in memory `junk`. -/
noncomputable def normMaxPool [DecidableEq R] (sz : R → ℕ) (t : List R) (n p k s d m : ℕ) (junk : List (Pix B m → ℝ)) (x : GTensor R (Pix B n → ℝ)) :
    Option (GTensor R (Pix B m → ℝ)) :=
  if x.ty = t then
    match fieldLoop x.data (fun l => (contigFlags (t.map sz) l).getD false) (labelChannels (t.map sz) (t.map sz)) (labelChannels (t.map sz) (t.map sz))
      (labelCount (t.map sz)) (fun l => eachField l fun _ => normPoolField n p k s d m) (firstKeys (t.map sz)) 0 junk with
    | none => none
    | some y => mkGT sz y t
  else none

open Classical in
/-- `build_mask` (masking_module.py:15-27). -/
noncomputable def buildMask (S : ℕ) (margin : ℝ) (x y : ℕ) : ℝ :=
  let c : ℝ := ((S : ℝ) - 1) / 2
  let t : ℝ := (c - margin / 100 * c) ^ 2
  let r : ℝ := (x - c) ^ 2 + (y - c) ^ 2
  if r > t then Real.exp ((t - r) / 2 ^ 2) else 1

/-- `MaskModule.forward` (masking_module.py:67-73); the assertion on the size of the input is its type. -/
noncomputable def maskModule [DecidableEq R] (sz : R → ℕ) (t : List R) (S : ℕ) (margin : ℝ) (x : GTensor R (Pix B S → ℝ)) :
    Option (GTensor R (Pix B S → ℝ)) := channelwise sz t (fun v q => v q * buildMask S margin q.2.1 q.2.2) x

end E2
