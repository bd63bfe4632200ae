import Verif.Model.Upsample
import Verif.Model.BatchNorm
import Verif.Model.Pointwise
import Verif.Model.Conv
import Verif.Model.Shapes

/-!
# The exports to plain PyTorch modules

`export` of the modules of the library and the plain modules they return.  The tensors have a batch axis `B` and square images of any size.
-/

namespace E2

variable {B R : Type}

/-! ## Plain modules -/

/-- A tensor with square images: the channels. -/
structure PTensor (B : Type) where
  n : ℕ
  chans : List (Pix B n → ℝ)

/-- A convolution of PyTorch: its options, its filter and its bias (`bias=False`: none). -/
structure ConvOpts where
  cin : ℕ
  cout : ℕ
  k : ℕ
  p : ℕ
  s : ℕ
  d : ℕ
  groups : ℕ

/-- The layers returned by the exports; `sequential` is `torch.nn.Sequential`. -/
inductive Plain
  | batchNorm2d (eps : ℝ) (mean var w b : List ℝ)
  | maxPool2d (k s p d : ℕ) (ceil : Bool)
  | adaptiveAvgPool2d (m : ℕ)
  | adaptiveMaxPool2d (m : ℕ)
  | fixedConv2d (k : ℕ) (f : ℕ → ℕ → ℝ) (s p : ℕ)
  | conv2d (o : ConvOpts) (mode : PadMode) (f : ℕ → ℕ → ℕ → ℕ → ℝ) (bias : Option (ℕ → ℝ))
  | convTranspose2d (o : ConvOpts) (op : ℕ) (f : ℕ → ℕ → ℕ → ℕ → ℝ) (bias : Option (ℕ → ℝ))
  | upsample (scale : Option ℚ) (size : Option ℕ) (mode : UpMode) (align : Bool)
  | relu
  | elu (alpha : ℝ)
  | dropout
  | identity
  | maxPoolChannels (k : ℕ)
  | sequential (l : List Plain)

/-- `torch.nn.BatchNorm2d` in evaluation mode (PyTorch): every channel is normalised by its own running statistics. -/
noncomputable def batchNorm2d {P : Type} (eps : ℝ) (mean var w b : List ℝ) (x : List (P → ℝ)) : Option (List (P → ℝ)) :=
  if x.length = mean.length then
    some (x.mapIdx fun c v p => (v p - mean.getD c 0) / √(var.getD c 0 + eps) * w.getD c 0 + b.getD c 0)
  else none

/-- The images of one entry of the batch, as the argument of `conv2d`. -/
noncomputable def chanImg {n : ℕ} (x : List (Pix B n → ℝ)) (b : B) : Fmap := fun c i j => readZ n 0 (x.getD c 0) b i j

/-- `conv2d` on a batch (PyTorch); `none` when the number of channels is wrong or the kernel does not fit. -/
noncomputable def runConv (o : ConvOpts) (mode : PadMode) (f : ℕ → ℕ → ℕ → ℕ → ℝ) (bias : Option (ℕ → ℝ)) (x : PTensor B) : Option (PTensor B) :=
  if x.chans.length = o.cin then
    (convSize x.n o.p o.k o.s o.d).map fun m => ⟨m, (List.range o.cout).map fun c q =>
      conv2d mode x.n o.p o.k o.s o.d (o.cin / o.groups) (o.cout / o.groups) f (bias.getD 0) (chanImg x.chans q.1) c q.2.1 q.2.2⟩
  else none

/-- `conv_transpose2d` (PyTorch): the input pixel `(u, w)` is spread over the outputs `u s + a d - p`; the filter has shape
`(cin, cout / groups, k, k)`. -/
noncomputable def convT2d (n p k s d cinG coutG : ℕ) (f : ℕ → ℕ → ℕ → ℕ → ℝ) (bias : ℕ → ℝ) (x : Fmap) : Fmap := fun o i j =>
  (∑ c ∈ Finset.range cinG, ∑ u ∈ Finset.range n, ∑ w ∈ Finset.range n, ∑ a ∈ Finset.range k, ∑ b ∈ Finset.range k,
    if u * s + a * d = i + p ∧ w * s + b * d = j + p then x (o / coutG * cinG + c) u w * f (o / coutG * cinG + c) (o % coutG) a b else 0) + bias o

/-- `conv_transpose2d` on a batch (PyTorch). -/
noncomputable def runConvT (o : ConvOpts) (op : ℕ) (f : ℕ → ℕ → ℕ → ℕ → ℝ) (bias : Option (ℕ → ℝ)) (x : PTensor B) : Option (PTensor B) :=
  if x.chans.length = o.cin then
    (convTSize x.n o.p op o.k o.s o.d).map fun m => ⟨m, (List.range o.cout).map fun c q =>
      convT2d x.n o.p o.k o.s o.d (o.cin / o.groups) (o.cout / o.groups) f (bias.getD 0) (chanImg x.chans q.1) c q.2.1 q.2.2⟩
  else none

/-- `torch.relu`. -/
noncomputable def reluFun (a : ℝ) : ℝ := max a 0

/-- `torch.nn.functional.elu`. -/
noncomputable def eluFun (alpha a : ℝ) : ℝ := if 0 < a then a else alpha * (Real.exp a - 1)

/-- `interpolate` on a tensor (PyTorch). -/
noncomputable def runUp (scale : Option ℚ) (size : Option ℕ) (mode : UpMode) (align : Bool) (x : PTensor B) : Option (PTensor B) :=
  (upSize scale size x.n).map fun r => ⟨r.1, x.chans.map (interpolate mode align x.n r.1 r.2)⟩

mutual

/-- The forward pass of a layer in evaluation mode; `MaxPoolChannels` and `FixedConv2D` are in the library (gpool.py:202-228,
pointwise_max.py:254-262), the other layers in PyTorch. -/
noncomputable def Plain.run : Plain → PTensor B → Option (PTensor B)
  | .batchNorm2d eps mean var w b, x => (E2.batchNorm2d eps mean var w b x.chans).map fun y => ⟨x.n, y⟩
  | .maxPool2d k s p d ceil, x => (poolSize ceil x.n p k s d).map fun m => ⟨m, x.chans.map (E2.maxPool2d x.n p k s d m)⟩
  | .adaptiveAvgPool2d m, x => some ⟨m, x.chans.map (adaptiveAvg x.n m)⟩
  | .adaptiveMaxPool2d m, x => some ⟨m, x.chans.map (adaptiveMax x.n m)⟩
  | .fixedConv2d k f s p, x => (convSize x.n p k s 1).map fun m => ⟨m, x.chans.map (depthConv x.n p k s m f)⟩
  | .conv2d o mode f bias, x => runConv o mode f bias x
  | .convTranspose2d o op f bias, x => runConvT o op f bias x
  | .upsample scale size mode align, x => runUp scale size mode align x
  | .relu, x => some ⟨x.n, x.chans.map fun v p => reluFun (v p)⟩
  | .elu alpha, x => some ⟨x.n, x.chans.map fun v p => eluFun alpha (v p)⟩
  | .dropout, x => some x
  | .identity, x => some x
  | .maxPoolChannels k, x => (E2.maxPoolChannels k x.chans).map fun y => ⟨x.n, y⟩
  | .sequential l, x => Plain.runAll l x

/-- `torch.nn.Sequential`: the layers one after the other. -/
noncomputable def Plain.runAll : List Plain → PTensor B → Option (PTensor B)
  | [], x => some x
  | l :: ls, x =>
    match Plain.run l x with
    | none => none
    | some y => Plain.runAll ls y

end

/-! ## The modules of the library -/

/-- A tensor of the library with square images. -/
structure ETensor (R B : Type) where
  n : ℕ
  x : GTensor R (Pix B n → ℝ)

/-- Its attribute `tensor`. -/
def ETensor.plain (t : ETensor R B) : PTensor B := ⟨t.n, t.x.data⟩

/-- A module in evaluation mode.  Convolutions carry the filter and the bias which `eval` has stored (the expansion of the current weights,
`c27`); `bias` is `none` when the module has none.  `fs` is the size `2 round(4 sigma) + 1` of the filter of the antialiased pooling
(pointwise_max.py:186), whose dilation is 1 (line 179). -/
inductive EqMod (R : Type)
  | innerBatchNorm (t : List R) (momentum : Option ℝ) (eps : ℝ) (track : Bool) (w b : ℕ → ℝ) (st : NormState (ℝ × ℝ))
  | pointwiseMaxPool (t : List R) (k s p d : ℕ) (ceil : Bool)
  | pointwiseMaxPoolAntialiased (t : List R) (k s p : ℕ) (ceil : Bool) (fs : ℕ) (sigma : ℝ)
  | pointwiseAvgPool (t : List R) (k s p : ℕ) (ceil : Bool)
  | pointwiseAdaptiveAvgPool (t : List R) (m : ℕ)
  | pointwiseAdaptiveMaxPool (t : List R) (m : ℕ)
  | r2conv (inT outT : List R) (k p s d groups : ℕ) (mode : PadMode) (f : ℕ → ℕ → ℕ → ℕ → ℝ) (bias : Option (ℕ → ℝ))
  | r2convTransposed (inT outT : List R) (k p op s d groups : ℕ) (f : ℕ → ℕ → ℕ → ℕ → ℝ) (bias : Option (ℕ → ℝ))
  | r2upsampling (t : List R) (c : UpCfg)
  | relu (t : List R)
  | elu (t : List R) (alpha : ℝ)
  | pointwiseDropout (t : List R)
  | identity (t : List R)
  | restriction (inT outT : List R)
  | groupPooling (t : List R) (triv : R)
  | sequential (inT outT : List R) (l : List (EqMod R))

section forward

variable [DecidableEq R] [Fintype B]

/-- The constructor of `GeometricTensor` on a tensor with its size. -/
def mkE (sz : R → ℕ) (y : PTensor B) (t : List R) : Option (ETensor R B) := (mkGT sz y.chans t).map fun z => ⟨y.n, z⟩

/-- A layer of PyTorch between the check of the type and the wrapping of the result. -/
noncomputable def wrapped (sz : R → ℕ) (inT outT : List R) (f : PTensor B → Option (PTensor B)) (x : ETensor R B) : Option (ETensor R B) :=
  if x.x.ty = inT then
    match f x.plain with
    | none => none
    | some y => mkE sz y outT
  else none

mutual

/-- `forward` in evaluation mode.  `junk` is the memory which the modules building their output in new memory get from `torch.empty`, for each
number of channels and size of the images. -/
noncomputable def EqMod.forward (sz : R → ℕ) (junk : (c n : ℕ) → List (Pix B n → ℝ)) : EqMod R → ETensor R B → Option (ETensor R B)
  | .innerBatchNorm t momentum eps track w b st, x =>
    (E2.innerBatchNorm sz t momentum eps track w b false st (junk x.x.data.length x.n) x.x).map fun r => ⟨x.n, r.2⟩
  | .pointwiseMaxPool t k s p d ceil, x =>
    match poolSize ceil x.n p k s d with
    | none => none
    | some m => (E2.pointwiseMaxPool sz t x.n p k s d m x.x).map fun y => ⟨m, y⟩
  | .pointwiseMaxPoolAntialiased t k s p ceil fs sigma, x =>
    wrapped sz t t (fun x =>
      match poolSize ceil x.n p k 1 1 with
      | none => none
      | some n1 => (convSize n1 (p + (fs - 1) / 2) fs s 1).map fun m =>
          ⟨m, (x.chans.map (maxPool2d x.n p k 1 1 n1)).map
            (depthConv n1 (p + (fs - 1) / 2) fs s m (gaussFilter fs sigma))⟩) x
  | .pointwiseAvgPool t k s p ceil, x =>
    match poolSize ceil x.n p k s 1 with
    | none => none
    | some m => (E2.pointwiseAvgPool sz t x.n p k s m x.x).map fun y => ⟨m, y⟩
  | .pointwiseAdaptiveAvgPool t m, x => (pointwiseAdaptiveAvg sz t x.n m x.x).map fun y => ⟨m, y⟩
  | .pointwiseAdaptiveMaxPool t m, x => (pointwiseAdaptiveMax sz t x.n m x.x).map fun y => ⟨m, y⟩
  | .r2conv inT outT k p s d groups mode f bias, x =>
    wrapped sz inT outT (runConv ⟨typeSize sz inT, typeSize sz outT, k, p, s, d, groups⟩ mode f bias) x
  | .r2convTransposed inT outT k p op s d groups f bias, x =>
    wrapped sz inT outT (runConvT ⟨typeSize sz inT, typeSize sz outT, k, p, s, d, groups⟩ op f bias) x
  | .r2upsampling t c, x =>
    match upSize c.scale c.size x.n with
    | none => none
    | some r => (r2Upsampling sz t c x.n r.1 r.2 x.x).map fun y => ⟨r.1, y⟩
  | .relu t, x => (pointwise sz t reluFun x.x).map fun y => ⟨x.n, y⟩
  | .elu t alpha, x => (pointwise sz t (eluFun alpha) x.x).map fun y => ⟨x.n, y⟩
  | .pointwiseDropout t, x => wrapped sz t t some x
  | .identity t, x => if x.x.ty = t then some x else none
  | .restriction inT outT, x => wrapped sz inT outT some x
  | .groupPooling t triv, x => (E2.groupPooling sz t triv (junk t.length x.n) x.x).map fun y => ⟨x.n, y⟩
  | .sequential inT outT l, x =>
    if x.x.ty = inT then
      match EqMod.forwardAll sz junk l x with
      | none => none
      | some y => if y.x.ty = outT then some y else none
    else none

/-- The loop of `SequentialModule.forward` (sequential_module.py:66-84). -/
noncomputable def EqMod.forwardAll (sz : R → ℕ) (junk : (c n : ℕ) → List (Pix B n → ℝ)) : List (EqMod R) → ETensor R B → Option (ETensor R B)
  | [], x => some x
  | m :: ms, x =>
    match EqMod.forward sz junk m x with
    | none => none
    | some y => EqMod.forwardAll sz junk ms y

end

end forward

/-! ## The exports -/

/-- The loop of `InnerBatchNorm.export` (batchnormalization/inner.py:188-212): for each size, the values of the `n` fields, each repeated `s` times, are
written to the slice of the channels of these fields; `none` for the `NotImplementedError` of a size whose fields are not contiguous.  `vals k` is the
value of the field treated as number `k`, the entries of the buffers of the sizes one after the other. -/
def expandFields (contig : ℕ → Bool) (idx : ℕ → List ℕ) (nf : ℕ → ℕ) (vals : ℕ → ℝ) : List ℕ → ℕ → List ℝ → Option (List ℝ)
  | [], _, out => some out
  | s :: ss, next, out =>
    if contig s then
      match writeGroup out true (idx s) ((List.range (nf s)).flatMap fun k => List.replicate s (vals (next + k))) with
      | none => none
      | some out' => expandFields contig idx nf vals ss (next + nf s) out'
    else none

/-- One of the four buffers of the exported batch normalisation, which starts with the value `init` everywhere. -/
def exportBuffer (sz : R → ℕ) (t : List R) (vals : ℕ → ℝ) (init : ℝ) : Option (List ℝ) :=
  expandFields (fun s => ((indexesFromLabels sz t (t.map sz) s).map fun e => e.1).getD false) (labelChannels (t.map sz) (t.map sz))
    (labelCount (t.map sz)) vals (firstKeys (t.map sz)) 0 (List.replicate (typeSize sz t) init)

/-- `InnerBatchNorm.export` (batchnormalization/inner.py:163-216): `ValueError` without running statistics.  Without `affine` the weights `w` are 1
and `b` are 0, and so are those of the new module. -/
def exportInner (sz : R → ℕ) (t : List R) (eps : ℝ) (track : Bool) (w b : ℕ → ℝ) (st : NormState (ℝ × ℝ)) : Option Plain :=
  if track then
    match exportBuffer sz t (fun k => (st.stats k).1) 0, exportBuffer sz t (fun k => (st.stats k).2) 1,
      exportBuffer sz t w 1, exportBuffer sz t b 0 with
    | some mean, some var, some w', some b' => some (.batchNorm2d eps mean var w' b')
    | _, _, _, _ => none
  else none

mutual

/-- `export`: `none` when it raises.  `PointwiseMaxPool` (pointwise_max.py:133-141) passes kernel size, stride, padding and dilation only; `R2Upsampling`
(r2upsampling.py:194-214) the factor and the mode only; `R2ConvTransposed` (r2_transposed_convolution.py:354-382) no `output_padding`.
`PointwiseAvgPool` has no export of its own and raises (equivariant_module.py:120-135).  The other exports: pointwise_max.py:238-251,
pointwise_adaptive_avg.py:88-96, pointwise_adaptive_max.py:88-96, r2convolution.py:500-546, relu.py:106-114, elu.py:108-116,
dropout/pointwise.py:81-89, identity_module.py:56-65, restriction_module.py:90-99, gpool.py:159-196, sequential_module.py:117-136. -/
noncomputable def EqMod.export (sz : R → ℕ) : EqMod R → Option Plain
  | .innerBatchNorm t _ eps track w b st => exportInner sz t eps track w b st
  | .pointwiseMaxPool _ k s p d _ => some (.maxPool2d k s p d false)
  | .pointwiseMaxPoolAntialiased _ k s p ceil fs sigma => some (.sequential [.maxPool2d k 1 p 1 ceil,
      .fixedConv2d fs (gaussFilter fs sigma) s (p + (fs - 1) / 2)])
  | .pointwiseAvgPool .. => none
  | .pointwiseAdaptiveAvgPool _ m => some (.adaptiveAvgPool2d m)
  | .pointwiseAdaptiveMaxPool _ m => some (.adaptiveMaxPool2d m)
  | .r2conv inT outT k p s d groups mode f bias => some (.conv2d ⟨typeSize sz inT, typeSize sz outT, k, p, s, d, groups⟩ mode f bias)
  | .r2convTransposed inT outT k p _ s d groups f bias =>
    some (.convTranspose2d ⟨typeSize sz inT, typeSize sz outT, k, p, s, d, groups⟩ 0 f bias)
  | .r2upsampling _ c => some (.upsample c.scale none c.mode c.align)
  | .relu _ => some .relu
  | .elu _ alpha => some (.elu alpha)
  | .pointwiseDropout _ => some .dropout
  | .identity _ => some .identity
  | .restriction _ _ => some .identity
  | .groupPooling t _ =>
    match firstKeys (t.map sz) with
    | [s] => some (.maxPoolChannels s)
    | _ => none
  | .sequential _ _ l => (EqMod.exportAll sz l).map .sequential

/-- The loop of `SequentialModule.export` (sequential_module.py:126-134). -/
noncomputable def EqMod.exportAll (sz : R → ℕ) : List (EqMod R) → Option (List Plain)
  | [] => some []
  | m :: ms =>
    match EqMod.export sz m, EqMod.exportAll sz ms with
    | some l, some ls => some (l :: ls)
    | _, _ => none

end

end E2
