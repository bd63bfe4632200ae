import Verif.Model.Transposed
import Verif.Model.Sequential
import Verif.Model.Invariant
import Verif.Model.InducedNonlin
import Verif.Model.Dropout
import Verif.Model.Tensor

/-!
# Networks: the modules of the library in a `SequentialModule`

Every module with its parameters, on batches of square images, in training or evaluation mode.
-/

namespace E2

variable {El F A I B : Type}

/-- A module with its parameters.  `conv` and `convT` carry the arguments of the constructor, the basis of the kernels (built by the gspace,
r2convolution.py:242-262), the types, the weights and the bias parameters; `convT` has no output padding.  The batch normalisations carry their state
and the mode.  `fs` is the size of the filter of the antialiased poolings.  `dropout` is `FieldDropout` in evaluation mode.
`out` is `_transform_representation` of `ConcatenatedNonLinearity` (concatenated.py:147-234). -/
inductive Layer (F A I : Type)
  | conv (c : ConvCfg A I) (basis : F → F → List (A × (ℝ × ℝ → Mat))) (inT outT : List F) (w b : List ℝ)
  | convT (c : ConvCfg A I) (basis : F → F → List (A × (ℝ × ℝ → Mat))) (inT outT : List F) (w b : List ℝ)
  | pointwise (t : List F) (f : ℝ → ℝ)
  | norm (t : List F) (f : ℝ → ℝ) (eps : ℝ) (bias : List ℝ)
  | inducedNorm (t : List F) (subs : F → List ℕ) (f : ℝ → ℝ) (eps : ℝ) (bias : List ℝ)
  | gated (t : List F) (trivial supports : F → Bool) (gates : List Bool) (drop : Bool) (σ : ℝ → ℝ) (bias : List ℝ)
  | innerBatchNorm (t : List F) (momentum : Option ℝ) (eps : ℝ) (track : Bool) (w b : ℕ → ℝ) (training : Bool) (st : NormState (ℝ × ℝ))
  | normBatchNorm (t : List F) (momentum : Option ℝ) (eps : ℝ) (w : ℕ → ℝ) (training : Bool) (st : NormState ℝ)
  | inducedBatchNorm (t : List F) (sub : F → ℕ) (momentum : Option ℝ) (eps : ℝ) (w : ℕ → ℝ) (training : Bool) (st : NormState ℝ)
  | gnormBatchNorm (t order : List F) (momentum : Option ℝ) (eps : ℝ) (w b : ℕ → ℕ → ℝ) (training : Bool) (st : NormState (ℕ → ℝ × ℝ))
  | maxPool (t : List F) (k s p d : ℕ) (ceil : Bool)
  | maxPoolAntialiased (t : List F) (k s p : ℕ) (ceil : Bool) (fs : ℕ) (sigma : ℝ)
  | avgPool (t : List F) (k s p : ℕ) (ceil : Bool)
  | avgPoolAntialiased (t : List F) (s p fs : ℕ) (sigma : ℝ)
  | adaptiveAvgPool (t : List F) (m : ℕ)
  | adaptiveMaxPool (t : List F) (m : ℕ)
  | groupPool (t : List F) (triv : F)
  | normPool (t : List F) (triv : F)
  | inducedNormPool (t : List F) (sub : F → ℕ) (triv : F)
  | mask (t : List F) (S : ℕ) (margin : ℝ)
  | upsample (t : List F) (c : UpCfg)
  | dropout (t : List F) (p : ℝ) (inplace : Bool)
  | identity (t : List F)
  | concatenated (t : List F) (out : F → F) (f : ℝ → ℝ)
  | reshuffle (t : List F) (perm : List ℕ)

/-- `in_type` (equivariant_module.py:17-62). -/
def Layer.inTy : Layer F A I → List F
  | .conv _ _ inT _ _ _ => inT
  | .convT _ _ inT _ _ _ => inT
  | .pointwise t _ | .norm t _ _ _ | .inducedNorm t _ _ _ _ | .gated t _ _ _ _ _ _ => t
  | .innerBatchNorm t _ _ _ _ _ _ _ | .normBatchNorm t _ _ _ _ _ | .inducedBatchNorm t _ _ _ _ _ _ | .gnormBatchNorm t _ _ _ _ _ _ _ => t
  | .maxPool t _ _ _ _ _ | .maxPoolAntialiased t _ _ _ _ _ _ | .avgPool t _ _ _ _ | .avgPoolAntialiased t _ _ _ _ => t
  | .adaptiveAvgPool t _ | .adaptiveMaxPool t _ | .groupPool t _ | .normPool t _ | .inducedNormPool t _ _ => t
  | .mask t _ _ | .upsample t _ | .dropout t _ _ | .identity t | .concatenated t _ _ | .reshuffle t _ => t

/-- `out_type`: one field of the trivial representation for each field after the pooling maps (gpool.py:51-52, invariantmaps/norm.py:38-39,
invariantmaps/induced_norm.py:44-45), the gated fields and maybe the gates after the gated nonlinearity (gated1.py:106-111), the transformed
representations after the concatenated nonlinearity (concatenated.py:126-144), the permuted fields after `ReshuffleModule` (reshuffle_module.py:45;
the assertion in line 39 excludes indices out of range). -/
def Layer.outTy : Layer F A I → List F
  | .conv _ _ _ outT _ _ => outT
  | .convT _ _ _ outT _ _ => outT
  | .gated t _ _ gates drop _ _ => gated1Out t gates drop
  | .groupPool t triv | .normPool t triv | .inducedNormPool t _ triv => List.replicate t.length triv
  | .pointwise t _ | .norm t _ _ _ | .inducedNorm t _ _ _ _ => t
  | .innerBatchNorm t _ _ _ _ _ _ _ | .normBatchNorm t _ _ _ _ _ | .inducedBatchNorm t _ _ _ _ _ _ | .gnormBatchNorm t _ _ _ _ _ _ _ => t
  | .maxPool t _ _ _ _ _ | .maxPoolAntialiased t _ _ _ _ _ _ | .avgPool t _ _ _ _ | .avgPoolAntialiased t _ _ _ _ => t
  | .adaptiveAvgPool t _ | .adaptiveMaxPool t _ => t
  | .mask t _ _ | .upsample t _ | .dropout t _ _ | .identity t => t
  | .concatenated t out _ => t.map out
  | .reshuffle t perm => perm.filterMap fun c => t[c]?

section forward

variable [LinearOrder F] [DecidableEq I] [Fintype B]

/-- `forward` of a module: the types are checked and the result is wrapped as in the modules themselves; `none` for an exception.  `junk` is the new
memory of the modules which build their output in it, for each number of channels and size of the images.  The new state of a batch normalisation is
left out: it is for the next call.  `FieldDropout` makes no draws in evaluation mode. -/
noncomputable def Layer.forward (rep : F → Repr El) (junk : (c n : ℕ) → List (Pix B n → ℝ)) : Layer F A I → ETensor F B → Option (ETensor F B)
  | .conv c basis inT outT w b, x =>
    match convGroups c.groups inT outT with
    | none => none
    | some inG =>
      match (c.exp rep inG outT basis).forward w with
      | none => none
      | some f => wrapped (fun r => (rep r).size) inT outT (runConv ⟨typeSize (fun r => (rep r).size) inT, typeSize (fun r => (rep r).size) outT,
          c.k, c.p, c.s, c.d, c.groups⟩ c.mode (reshapeFilter c.k f) (some (outBias rep outT b))) x
  | .convT c basis inT outT w b, x =>
    match transGroups c.groups inT outT with
    | none => none
    | some outG =>
      match (c.exp rep inT outG basis).forward w with
      | none => none
      | some f => wrapped (fun r => (rep r).size) inT outT (runConvT ⟨typeSize (fun r => (rep r).size) inT, typeSize (fun r => (rep r).size) outT,
          c.k, c.p, c.s, c.d, c.groups⟩ 0 (transposeFilter c.k f) (some (outBias rep outT b))) x
  | .pointwise t f, x => (E2.pointwise (fun r => (rep r).size) t f x.x).map fun y => ⟨x.n, y⟩
  | .norm t f eps bias, x => (normNonlin (fun r => (rep r).size) t f eps bias (junk (typeSize (fun r => (rep r).size) t) x.n) x.x).map fun y => ⟨x.n, y⟩
  | .inducedNorm t subs f eps bias, x =>
    (E2.inducedNorm (fun r => (rep r).size) subs t f eps bias (junk (typeSize (fun r => (rep r).size) t) x.n) x.x).map fun y => ⟨x.n, y⟩
  | .gated t trivial supports gates drop σ bias, x =>
    (gated1 (fun r => (rep r).size) trivial supports t gates drop σ bias (junk (typeSize (fun r => (rep r).size) (gated1Out t gates drop)) x.n) x.x).map
      fun y => ⟨x.n, y⟩
  | .innerBatchNorm t momentum eps track w b training st, x =>
    (E2.innerBatchNorm (fun r => (rep r).size) t momentum eps track w b training st (junk x.x.data.length x.n) x.x).map fun r => ⟨x.n, r.2⟩
  | .normBatchNorm t momentum eps w training st, x =>
    (E2.normBatchNorm (fun r => (rep r).size) t momentum eps w training st x.x).map fun r => ⟨x.n, r.2⟩
  | .inducedBatchNorm t sub momentum eps w training st, x =>
    (inducedNormBatchNorm (fun r => (rep r).size) sub t momentum eps w training st x.x).map fun r => ⟨x.n, r.2⟩
  | .gnormBatchNorm t order momentum eps w b training st, x =>
    (E2.gnormBatchNorm rep t order momentum eps w b training st (junk x.x.data.length x.n) x.x).map fun r => ⟨x.n, r.2⟩
  | .maxPool t k s p d ceil, x =>
    match poolSize ceil x.n p k s d with
    | none => none
    | some m => (pointwiseMaxPool (fun r => (rep r).size) t x.n p k s d m x.x).map fun y => ⟨m, y⟩
  | .maxPoolAntialiased t k s p ceil fs sigma, x =>
    match poolSize ceil x.n p k 1 1 with
    | none => none
    | some n1 =>
      match convSize n1 (p + (fs - 1) / 2) fs s 1 with
      | none => none
      | some m => (pointwiseMaxPoolAA (fun r => (rep r).size) t x.n p k s n1 m fs sigma x.x).map fun y => ⟨m, y⟩
  | .avgPool t k s p ceil, x =>
    match poolSize ceil x.n p k s 1 with
    | none => none
    | some m => (pointwiseAvgPool (fun r => (rep r).size) t x.n p k s m x.x).map fun y => ⟨m, y⟩
  | .avgPoolAntialiased t s p fs sigma, x =>
    match convSize x.n p fs s 1 with
    | none => none
    | some m => (pointwiseAvgPoolAA (fun r => (rep r).size) t x.n p s m fs sigma x.x).map fun y => ⟨m, y⟩
  | .adaptiveAvgPool t m, x => (pointwiseAdaptiveAvg (fun r => (rep r).size) t x.n m x.x).map fun y => ⟨m, y⟩
  | .adaptiveMaxPool t m, x => (pointwiseAdaptiveMax (fun r => (rep r).size) t x.n m x.x).map fun y => ⟨m, y⟩
  | .groupPool t triv, x => (groupPooling (fun r => (rep r).size) t triv (junk t.length x.n) x.x).map fun y => ⟨x.n, y⟩
  | .normPool t triv, x => (E2.normPool (fun r => (rep r).size) t triv (junk t.length x.n) x.x).map fun y => ⟨x.n, y⟩
  | .inducedNormPool t sub triv, x => (E2.inducedNormPool (fun r => (rep r).size) sub t triv (junk t.length x.n) x.x).map fun y => ⟨x.n, y⟩
  | .mask t S margin, x =>
    if x.n = S then (maskModule (fun r => (rep r).size) t x.n margin x.x).map fun y => ⟨x.n, y⟩ else none
  | .upsample t c, x =>
    match upSize c.scale c.size x.n with
    | none => none
    | some r => (r2Upsampling (fun r => (rep r).size) t c x.n r.1 r.2 x.x).map fun y => ⟨r.1, y⟩
  | .dropout t p inplace, x => (fieldDropout (fun r => (rep r).size) t p inplace false (fun _ _ => 0) (junk x.x.data.length x.n) x.x).map fun y => ⟨x.n, y⟩
  | .identity t, x => if x.x.ty = t then some x else none
  | .concatenated t out f, x => (E2.concatenated (fun r => (rep r).size) out t f x.x).map fun y => ⟨x.n, y⟩
  | .reshuffle t perm, x => if x.x.ty = t then (E2.reshuffle (fun r => (rep r).size) perm x.x).map fun y => ⟨x.n, y⟩ else none

/-- A module of the model of `SequentialModule`; the declared shapes are left out (C40). -/
noncomputable def Layer.toMod (rep : F → Repr El) (junk : (c n : ℕ) → List (Pix B n → ℝ)) (l : Layer F A I) : EMod (List F) (ETensor F B) Unit :=
  ⟨l.inTy, l.outTy, l.forward rep junk, some⟩

/-- A `SequentialModule` is built from named modules and called on a tensor (sequential_module.py:16-84); every module gets its own memory. -/
noncomputable def netForward {K : Type} [DecidableEq K] (rep : F → Repr El) (junk : K → (c n : ℕ) → List (Pix B n → ℝ)) (net : List (K × Layer F A I))
    (x : ETensor F B) : Option (ETensor F B) :=
  (seqNew (net.map fun l => (l.1, l.2.toMod rep (junk l.1)))).bind fun st => seqForward (fun x => x.x.ty) st x

end forward

end E2
