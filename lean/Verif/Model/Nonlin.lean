import Verif.Model.FieldLoop
import Verif.Model.Tensor
import Mathlib.Analysis.Real.Sqrt

/-!
# Norm and gated nonlinearities

`nn/modules/nonlinearities/norm.py`, `gated1.py`, `gated2.py`.  A channel is a function from positions `P` (all batch entries and pixels) to the
reals.  The contents of memory allocated by `torch.empty` are the parameter `junk`.
-/

namespace E2

variable {P R : Type}

/-- `sorted(d.keys())` for the dictionaries with keys the sizes. -/
def sortedKeys (sizes : List ℕ) : List ℕ := sizes.dedup.mergeSort (fun a b => decide (a ≤ b))

/-- `.norm(dim=2)` of a field: the Euclidean norm at each position. -/
noncomputable def fieldNorm (fld : List (P → ℝ)) : P → ℝ := fun p => √((fld.map fun v => v p ^ 2).sum)

/-- The multiplier of a field (nonlinearities/norm.py:166-181) from its norm: `function(norm - bias) / max(norm, eps)`, replaced by zero where
the norm is not above `eps`. -/
noncomputable def normMultiplier (f : ℝ → ℝ) (eps b : ℝ) (t : ℝ) : ℝ := if t ≤ eps then 0 else f (t - b) / max t eps

/-- `NormNonLinearity.forward` (nonlinearities/norm.py:117-195).  `f` is any function; `bias` is `exp(log_bias)`, and without bias it is zero
(`norms - 0`, simplification of lines 167-172); `m.expand(...)` repeats the multiplier for the channels of the field. -/
noncomputable def normNonlin [DecidableEq R] (sz : R → ℕ) (inType : List R) (f : ℝ → ℝ) (eps : ℝ) (bias : List ℝ) (junk : List (P → ℝ))
    (x : GTensor R (P → ℝ)) : Option (GTensor R (P → ℝ)) :=
  if x.ty = inType then
    let sizes := inType.map sz
    match fieldLoop x.data (fun s => (contigFlags sizes s).getD false) (labelChannels sizes sizes) (labelChannels sizes sizes) (labelCount sizes)
      (fun s => eachField s fun k fld => List.replicate s fun p => normMultiplier f eps (bias[k]?.getD 0) (fieldNorm fld p))
      (sortedKeys sizes) 0 junk with
    | none => none
    | some m => mkGT sz (List.zipWith (· * ·) x.data m) inType
  else none

/-- The gates with their bias after the sigmoid (nonlinearities/gated1.py:203, gated2.py:157); `σ` is any function. -/
def gateValues (σ : ℝ → ℝ) (bias : List ℝ) (gates : List (P → ℝ)) : List (P → ℝ) :=
  List.zipWith (fun v b p => σ (v p - b)) gates bias

/-- The asserts of `GatedNonLinearity2.__init__` (nonlinearities/gated2.py:65-77). -/
def gated2Check (trivial supports : R → Bool) (gateType inType : List R) : Bool :=
  gateType.all trivial && inType.all supports && gateType.length == inType.length

/-- `GatedNonLinearity2.forward` (nonlinearities/gated2.py:134-196). -/
def gated2 [DecidableEq R] (sz : R → ℕ) (trivial supports : R → Bool) (gateType inType : List R) (σ : ℝ → ℝ) (bias : List ℝ)
    (junk : List (P → ℝ)) (g x : GTensor R (P → ℝ)) : Option (GTensor R (P → ℝ)) :=
  if gated2Check trivial supports gateType inType then
    if g.ty = gateType ∧ x.ty = inType then
      let sizes := inType.map sz
      let gates := gateValues σ bias g.data
      match fieldLoop x.data (fun s => (contigFlags sizes s).getD false) (labelChannels sizes sizes) (labelChannels sizes sizes)
        (labelCount sizes) (fun s => eachField s fun k fld => fld.map (· * gates[k]?.getD 0)) (sortedKeys sizes) 0 junk with
      | none => none
      | some y => mkGT sz y inType
    else none
  else none

/-- The default of the argument `gates` (nonlinearities/gated1.py:65-69), `true` for a gate: the first half; the number of fields must be
even. -/
def defaultGates (inType : List R) : Option (List Bool) :=
  if inType.length % 2 = 0 then
    some (List.replicate (inType.length / 2) true ++ List.replicate (inType.length / 2) false)
  else none

/-- The asserts of `GatedNonLinearity1.__init__` (nonlinearities/gated1.py:71, 88-104). -/
def gated1Check (trivial supports : R → Bool) (inType : List R) (gates : List Bool) : Bool :=
  gates.length == inType.length && ((gates.zip inType).all fun p => if p.1 then trivial p.2 else supports p.2)
    && gates.count true == gates.count false

/-- The keys of the dictionaries of `GatedNonLinearity1` (nonlinearities/gated1.py:119-124): `none` for gates, else the size. -/
def gated1Labels (sz : R → ℕ) (inType : List R) (gates : List Bool) : List (Option ℕ) :=
  List.zipWith (fun (g : Bool) r => if g then none else some (sz r)) gates inType

/-- The type of the output (nonlinearities/gated1.py:106-111). -/
def gated1Out (inType : List R) (gates : List Bool) (drop : Bool) : List R :=
  if drop then ((gates.zip inType).filter fun p => !p.1).map Prod.snd else inType

/-- The labels of the fields of the output (nonlinearities/gated1.py:136-140). -/
def gated1OutLabels (sz : R → ℕ) (inType : List R) (gates : List Bool) (drop : Bool) : List (Option ℕ) :=
  if drop then (gated1Out inType gates drop).map fun r => some (sz r) else gated1Labels sz inType gates

/-- The sizes of the gated fields in increasing order (`_order`, nonlinearities/gated1.py:171). -/
def gated1Order (sz : R → ℕ) (inType : List R) (gates : List Bool) : List (Option ℕ) :=
  (sortedKeys ((gated1Out inType gates true).map sz)).map some

/-- `GatedNonLinearity1.forward` (nonlinearities/gated1.py:176-250).  The flags of the groups come from the input (line 126-131); the output
indices come from the loop over the gated fields. -/
def gated1 [DecidableEq R] (sz : R → ℕ) (trivial supports : R → Bool) (inType : List R) (gates : List Bool) (drop : Bool) (σ : ℝ → ℝ)
    (bias : List ℝ) (junk : List (P → ℝ)) (x : GTensor R (P → ℝ)) : Option (GTensor R (P → ℝ)) :=
  if gated1Check trivial supports inType gates then
    if x.ty = inType then
      let labels := gated1Labels sz inType gates
      let inIdx := labelChannels labels (inType.map sz)
      let outType := gated1Out inType gates drop
      let outIdx := labelChannels (gated1OutLabels sz inType gates drop) (outType.map sz)
      let contig := fun l => (contigFlags labels l).getD false
      match readGroup x.data (contig none) (inIdx none) with
      | none => none
      | some g =>
        let gv := gateValues σ bias g
        match (if drop then some junk else writeGroup junk (contig none) (inIdx none) gv) with
        | none => none
        | some out =>
          match fieldLoop x.data contig inIdx outIdx (labelCount labels)
            (fun l => eachField (l.getD 0) fun k fld => fld.map (· * gv[k]?.getD 0)) (gated1Order sz inType gates) 0 out with
          | none => none
          | some y => mkGT sz y outType
    else none
  else none

end E2
