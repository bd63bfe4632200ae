import Verif.Model.Nonlin

/-!
# Nonlinearities for induced representations

`nn/modules/nonlinearities/induced_norm.py` and `induced_gated1.py`.  A field of an induced representation consists of subfields, one for each
coset.  `subs r` is the list of the numbers in the entries `induced_norm_*` (or `induced_gated_*`) of the supported nonlinearities of the
representation `r`.
-/

namespace E2

variable {P R : Type}

/-- The order of the tuples `(size, subfield_size)` in Python. -/
def sizePairLe (a b : ℕ × ℕ) : Bool := decide (a.1 < b.1) || (a.1 == b.1 && decide (a.2 ≤ b.2))

/-- `sorted(d.keys())` for the dictionaries with keys `(size, subfield_size)` (nonlinearities/induced_norm.py:120, induced_gated1.py:184). -/
def sortedPairs (ids : List (ℕ × ℕ)) : List (ℕ × ℕ) := ids.dedup.mergeSort sizePairLe

/-- The size of the subfields (nonlinearities/induced_norm.py:83-88, induced_gated1.py:107-115). -/
def subSize (subs : R → List ℕ) (r : R) : ℕ := (subs r).headD 0

/-- The asserts of `InducedNormNonLinearity.__init__` on the representations (nonlinearities/induced_norm.py:46-48 and 83-89): exactly one size
of subfields, which divides the size of the field. -/
def inducedNormCheck (sz : R → ℕ) (subs : R → List ℕ) (inType : List R) : Bool :=
  inType.all fun r => (subs r).length == 1 && sz r % subSize subs r == 0

/-- `InducedNormNonLinearity.forward` (nonlinearities/induced_norm.py:124-209).  In a group of fields with the key `l = (size, subfield_size)`
the channels are viewed as subfields (line 172); the biases of the fields, starting with the number `next`, are repeated for the
`size // subfield_size` subfields of each field (lines 176-183), so that the subfield number `m`, counted from `next * (size // subfield_size)`,
has the bias number `m / (size // subfield_size)`.  Without bias the list `bias` is empty. -/
noncomputable def inducedNorm [DecidableEq R] (sz : R → ℕ) (subs : R → List ℕ) (inType : List R) (f : ℝ → ℝ) (eps : ℝ) (bias : List ℝ)
    (junk : List (P → ℝ)) (x : GTensor R (P → ℝ)) : Option (GTensor R (P → ℝ)) :=
  if inducedNormCheck sz subs inType then
    if x.ty = inType then
      let ids := inType.map fun r => (sz r, subSize subs r)
      let sizes := inType.map sz
      match fieldLoop x.data (fun l => (contigFlags ids l).getD false) (labelChannels ids sizes) (labelChannels ids sizes) (labelCount ids)
        (fun l next => eachField l.2 (fun m fld => List.replicate l.2 fun p =>
          normMultiplier f eps (bias[m / (l.1 / l.2)]?.getD 0) (fieldNorm fld p)) (next * (l.1 / l.2)))
        (sortedPairs ids) 0 junk with
      | none => none
      | some m => mkGT sz (List.zipWith (· * ·) x.data m) inType
    else none
  else none

/-- `quotient_size` (nonlinearities/induced_gated1.py:96-102): the size of the first gate. -/
def quotientSize (sz : R → ℕ) (inType : List R) (gates : List Bool) : ℕ :=
  (((gates.zip inType).find? fun p => p.1).map fun p => sz p.2).getD 0

/-- The asserts of `InducedGatedNonLinearity1.__init__` (nonlinearities/induced_gated1.py:59, 76-115), `true` for a gate.  The dictionary
`subfield_sizes` has the names of the representations as keys; here the size belongs to the representation. -/
def inducedGatedCheck (sz : R → ℕ) (gate : R → Bool) (subs : R → List ℕ) (inType : List R) (gates : List Bool) : Bool :=
  gates.length == inType.length
    && ((gates.zip inType).all fun p => if p.1 then gate p.2 else (subs p.2).length == 1)
    && gates.count true == gates.count false
    && ((gates.zip inType).all fun p => if p.1 then sz p.2 == quotientSize sz inType gates
        else sz p.2 % subSize subs p.2 == 0 && sz p.2 / subSize subs p.2 == quotientSize sz inType gates)

/-- The keys of the dictionaries of `InducedGatedNonLinearity1` (nonlinearities/induced_gated1.py:132-137): `none` for gates. -/
def inducedGatedLabels (sz : R → ℕ) (subs : R → List ℕ) (inType : List R) (gates : List Bool) : List (Option (ℕ × ℕ)) :=
  List.zipWith (fun (g : Bool) r => if g then none else some (sz r, subSize subs r)) gates inType

/-- The labels of the fields of the output (nonlinearities/induced_gated1.py:149-153); the type of the output (lines 119-124) is the same as for
`GatedNonLinearity1`. -/
def inducedGatedOutLabels (sz : R → ℕ) (subs : R → List ℕ) (inType : List R) (gates : List Bool) (drop : Bool) : List (Option (ℕ × ℕ)) :=
  if drop then (gated1Out inType gates drop).map fun r => some (sz r, subSize subs r) else inducedGatedLabels sz subs inType gates

/-- `_order` (nonlinearities/induced_gated1.py:184). -/
def inducedGatedOrder (sz : R → ℕ) (subs : R → List ℕ) (inType : List R) (gates : List Bool) : List (Option (ℕ × ℕ)) :=
  (sortedPairs ((gated1Out inType gates true).map fun r => (sz r, subSize subs r))).map some

/-- The gates after the sigmoid (nonlinearities/induced_gated1.py:218): one bias for the `q` channels of each gate. -/
def inducedGateValues (σ : ℝ → ℝ) (bias : List ℝ) (q : ℕ) (gates : List (P → ℝ)) : List (P → ℝ) :=
  gates.mapIdx fun i v p => σ (v p - bias[i / q]?.getD 0)

/-- `InducedGatedNonLinearity1.forward` (nonlinearities/induced_gated1.py:189-264).  Lines 237-258 multiply the subfields of a group by the
channels of the gates with the numbers `next .. next + nfields`, that is from the channel `next * q` on. -/
def inducedGated [DecidableEq R] (sz : R → ℕ) (gate : R → Bool) (subs : R → List ℕ) (inType : List R) (gates : List Bool) (drop : Bool)
    (σ : ℝ → ℝ) (bias : List ℝ) (junk : List (P → ℝ)) (x : GTensor R (P → ℝ)) : Option (GTensor R (P → ℝ)) :=
  if inducedGatedCheck sz gate subs inType gates then
    if x.ty = inType then
      let q := quotientSize sz inType gates
      let labels := inducedGatedLabels sz subs inType gates
      let inIdx := labelChannels labels (inType.map sz)
      let outType := gated1Out inType gates drop
      let outIdx := labelChannels (inducedGatedOutLabels sz subs inType gates drop) (outType.map sz)
      let contig := fun l => (contigFlags labels l).getD false
      match readGroup x.data (contig none) (inIdx none) with
      | none => none
      | some g =>
        let gv := inducedGateValues σ bias q g
        match (if drop then some junk else writeGroup junk (contig none) (inIdx none) gv) with
        | none => none
        | some out =>
          match fieldLoop x.data contig inIdx outIdx (labelCount labels)
            (fun l next => eachField ((l.getD (0, 0)).2) (fun m fld => fld.map (· * gv[m]?.getD 0)) (next * q))
            (inducedGatedOrder sz subs inType gates) 0 out with
          | none => none
          | some y => mkGT sz y outType
    else none
  else none

end E2
