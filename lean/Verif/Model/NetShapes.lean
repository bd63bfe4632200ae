import Verif.Model.Network
import Verif.Model.Shapes

/-!
# Declared shapes of networks: `evaluate_output_shape` of every module in a `SequentialModule`

A declared shape is a list of entries (`Dim`), which are passed on from module to module, the wrong ones included.  The divisions of the library are float
divisions; here they are exact.
-/

namespace E2

variable {El F A I B : Type}

/-- `floor((hi + 2 * padding - dilation * (kernel_size - 1) - 1) / stride + 1)` (r2convolution.py:403-404) for an entry of a shape: a pair cannot be added to
an integer (Python raises). -/
def axisFloor (p k s d : ℕ) : Dim → Option Dim
  | .int n => some (.int ⌊(((n : ℚ) + 2 * p - d * ((k : ℚ) - 1) - 1) / s + 1)⌋)
  | .pair _ _ => none

/-- The same with `math.ceil` (pointwise_max.py:116-121). -/
def axisCeil (p k s d : ℕ) : Dim → Option Dim
  | .int n => some (.int ⌈(((n : ℚ) + 2 * p - d * ((k : ℚ) - 1) - 1) / s + 1)⌉)
  | .pair _ _ => none

/-- `math.floor(hi * self._scale_factor)` (r2upsampling.py:111-112); with no factor, or for a pair, Python raises. -/
def axisScale (q : Option ℚ) : Dim → Option Dim
  | .int n => q.map fun q => .int ⌊(n : ℚ) * q⌋
  | .pair _ _ => none

/-- The frame of the methods `evaluate_output_shape` (for instance r2convolution.py:398-406): the assertions on the length of the shape and on its channels, and
the functions applied to the two sizes. -/
def declAxes (inS outS : ℕ) (fh fw : Dim → Option Dim) : List Dim → Option (List Dim)
  | [b, c, h, w] => if c = .int inS then (fh h).bind fun h => (fw w).map fun w => [b, .int outS, h, w] else none
  | _ => none

/-- `MaskModule.evaluate_output_shape` (masking_module.py:75-76), `DisentangleModule` (disentangle_module.py:119-120), `RestrictionModule`
(restriction_module.py:57-58): no assertions. -/
def declAny : List Dim → Option (List Dim) := some

/-- `IdentityModule.evaluate_output_shape` (identity_module.py:46-51). -/
def declIdentity (inS : ℕ) (s : List Dim) : Option (List Dim) := if s.length > 1 ∧ s[1]? = some (.int inS) then some s else none

/-- `evaluate_output_shape` of a module: R2Conv (r2convolution.py:397-406), R2ConvTransposed (r2_transposed_convolution.py:247-256),
PointwiseNonLinearity (nonlinearities/pointwise.py:82-88; the same in relu.py:67-73 and elu.py:69-75), NormNonLinearity (nonlinearities/norm.py:197-203),
InducedNormNonLinearity (nonlinearities/induced_norm.py:211-217), GatedNonLinearity1 (gated1.py:252-259), the batch normalisations (inner.py:151-157,
batchnormalization/norm.py:256-262, batchnormalization/induced_norm.py:271-277, gnorm.py:273-279), PointwiseMaxPool and PointwiseMaxPoolAntialiased (pointwise_max.py:109-126; the dilation of the
latter is 1), PointwiseAvgPool (pointwise_avg.py:98-115: reads an attribute which does not exist, so it raises), PointwiseAvgPoolAntialiased
(pointwise_avg.py:221-234), the adaptive poolings (pointwise_adaptive_avg.py:75-81, pointwise_adaptive_max.py:75-81: the attribute is a pair),
GroupPooling (gpool.py:125-131), NormPool (invariantmaps/norm.py:110-116), InducedNormPool (invariantmaps/induced_norm.py:145-151), MaskModule,
R2Upsampling (r2upsampling.py:104-117), FieldDropout (dropout/field.py:168-172), IdentityModule, ConcatenatedNonLinearity (concatenated.py:84-91), ReshuffleModule (reshuffle_module.py:75-81). -/
def Layer.declared (sz : F → ℕ) : Layer F A I → List Dim → Option (List Dim)
  | .conv c _ inT outT _ _ => declAxes (typeSize sz inT) (typeSize sz outT) (axisFloor c.p c.k c.s c.d) (axisFloor c.p c.k c.s c.d)
  | .convT c _ inT outT _ _ => declAxes (typeSize sz inT) (typeSize sz outT) (axisFloor c.p c.k c.s c.d) (axisFloor c.p c.k c.s c.d)
  | .pointwise t _ | .norm t _ _ _ | .inducedNorm t _ _ _ _ => declAxes (typeSize sz t) (typeSize sz t) some some
  | .gated t _ _ gates drop _ _ => declAxes (typeSize sz t) (typeSize sz (gated1Out t gates drop)) some some
  | .innerBatchNorm t _ _ _ _ _ _ _ | .normBatchNorm t _ _ _ _ _ | .inducedBatchNorm t _ _ _ _ _ _ | .gnormBatchNorm t _ _ _ _ _ _ _ =>
    declAxes (typeSize sz t) (typeSize sz t) some some
  | .maxPool t k s p d ceil =>
    if ceil then declAxes (typeSize sz t) (typeSize sz t) (axisCeil p k s d) (axisCeil p k s d)
    else declAxes (typeSize sz t) (typeSize sz t) (axisFloor p k s d) (axisFloor p k s d)
  | .maxPoolAntialiased t k s p ceil _ _ =>
    if ceil then declAxes (typeSize sz t) (typeSize sz t) (axisCeil p k s 1) (axisCeil p k s 1)
    else declAxes (typeSize sz t) (typeSize sz t) (axisFloor p k s 1) (axisFloor p k s 1)
  | .avgPool _ _ _ _ _ => fun _ => none
  | .avgPoolAntialiased t s p fs _ => declAxes (typeSize sz t) (typeSize sz t) (axisFloor p fs s 1) (axisFloor p fs s 1)
  | .adaptiveAvgPool t m | .adaptiveMaxPool t m =>
    declAxes (typeSize sz t) (typeSize sz t) (fun _ => some (.pair m m)) (fun _ => some (.pair m m))
  | .groupPool t triv | .normPool t triv | .inducedNormPool t _ triv =>
    declAxes (typeSize sz t) (typeSize sz (List.replicate t.length triv)) some some
  | .mask _ _ _ => declAny
  | .upsample t c =>
    match c.size with
    | none => declAxes (typeSize sz t) (typeSize sz t) (axisScale c.scale) (axisScale c.scale)
    | some m => declAxes (typeSize sz t) (typeSize sz t) (fun _ => some (.int m)) (fun _ => some (.int m))
  | .dropout t _ _ => declAxes (typeSize sz t) (typeSize sz t) some some
  | .identity t => declIdentity (typeSize sz t)
  | .concatenated t out _ => declAxes (typeSize sz t) (typeSize sz (t.map out)) some some
  | .reshuffle t perm => declAxes (typeSize sz t) (typeSize sz (perm.filterMap fun c => t[c]?)) some some

section

variable [LinearOrder F] [DecidableEq I] [Fintype B]

/-- A module with its declared shapes. -/
noncomputable def Layer.toShapedMod (rep : F → Repr El) (junk : (c n : ℕ) → List (Pix B n → ℝ)) (l : Layer F A I) :
    EMod (List F) (ETensor F B) (List Dim) :=
  ⟨l.inTy, l.outTy, l.forward rep junk, l.declared fun r => (rep r).size⟩

/-- The assertions of `SequentialModule.evaluate_output_shape` (sequential_module.py:104-105); with no modules `in_type` is `None`. -/
def seqShapeOk (sz : F → ℕ) (t : Option (List F)) (s : List Dim) : Bool :=
  match t with
  | none => false
  | some t => s.length == 4 && s[1]? == some (.int (typeSize sz t))

/-- A `SequentialModule` is built from named modules and asked for the shape of its output (sequential_module.py:16-61, 102-112).  The memory of the modules
is not used. -/
noncomputable def netDeclared {K : Type} [DecidableEq K] (rep : F → Repr El) (junk : K → (c n : ℕ) → List (Pix B n → ℝ)) (net : List (K × Layer F A I))
    (s : List Dim) : Option (List Dim) :=
  (seqNew (net.map fun l => (l.1, l.2.toShapedMod rep (junk l.1)))).bind fun st => seqShape (seqShapeOk fun r => (rep r).size) st s

end

/-- `tensor.shape` of a tensor of square images (geometric_tensor.py:368-373). -/
def ETensor.dims [Fintype B] (x : ETensor F B) : List Dim := (Shape.mk (Fintype.card B) x.x.data.length x.n x.n).dims

end E2
