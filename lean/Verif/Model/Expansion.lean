import Mathlib.Analysis.Real.Sqrt
import Verif.Model.Layout
import Verif.Model.Steerable

/-!
# Expansion of a filter in a basis: `nn/modules/r2_conv/basisexpansion_singleblock.py` and `basisexpansion_blocks.py`

A representation is identified with its name, of type `F` (ordered, as the names are sorted): the code groups
the fields by `repr.name`, and assumes that the name determines the representation.
-/

namespace E2

open Finset

variable {F A I : Type}

/-! ## One pair of representations -/

/-- An element of a basis sampled on the grid: its attributes and an array of shape `(out, in, points)`. -/
structure Elem (A : Type) where
  attr : A
  ker : Arr3

/-- The norm of one element in `normalize_basis` (`basisexpansion_singleblock.py:211-230`): the trace of
`basis · basisᵀ` summed over the points, divided by the size, with the two thresholds.  The test for NaN (line 228) is
omitted. -/
noncomputable def elemNorm (so si S size : ℕ) (b : Arr3) : ℝ :=
  let n0 := (∑ s ∈ range S, ∑ o ∈ range so, ∑ p ∈ range si, b o p s * b o p s) / size
  let n1 := if n0 < 1e-15 then 0 else n0
  let n2 := Real.sqrt n1
  if n2 < 1e-6 then 1 else n2

/-- `normalize_basis` (`basisexpansion_singleblock.py:188-235`) on one element. -/
noncomputable def normalizeElem (so si S size : ℕ) (b : Arr3) : Arr3 := fun o p s => b o p s / elemNorm so si S size b

/-- The squared norm used to discard elements (`basisexpansion_singleblock.py:74`). -/
noncomputable def sqNorm (so si S : ℕ) (b : Arr3) : ℝ := ∑ o ∈ range so, ∑ p ∈ range si, ∑ s ∈ range S, b o p s ^ 2

open Classical in
/-- The constructor of `SingleBlockBasisExpansion` (`basisexpansion_singleblock.py:36-86`): the elements passing the
filter, normalised, without those close to zero; `none` is `EmptyBasisException`.  `shape0` reads `attr["shape"][0]`. -/
noncomputable def singleBlock (so si S : ℕ) (keep : A → Bool) (shape0 : A → ℕ) (basis : List (Elem A)) :
    Option (List (Elem A)) :=
  let masked := basis.filter fun e => keep e.attr
  if masked = [] then none
  else
    let norm := masked.map fun e => (⟨e.attr, normalizeElem so si S (shape0 e.attr) e.ker⟩ : Elem A)
    let kept := norm.filter fun e => decide (sqNorm so si S e.ker > 1e-2)
    if kept = [] then none else some kept

/-- `SingleBlockBasisExpansion.forward` (`basisexpansion_singleblock.py:110-115`): `einsum('boi...,kb->koi...')`, for
the row `k` of the coefficients. -/
noncomputable def blockForward (bl : List (Elem A)) (coef : ℕ → ℝ) : Arr3 := fun o i s =>
  ∑ b ∈ range bl.length, (match bl[b]? with | some e => e.ker o i s | none => 0) * coef b

/-! ## All pairs -/

/-- What the constructor of `BlocksBasisExpansion` receives (`basisexpansion_blocks.py:24-32`): the types, the sizes and numbers
of irreps of the representations, the identifier of an element inside its block, and `gen`, which stands for building
and sampling the basis of a pair (lines 73-78; `none` for `EmptyBasisException`). -/
structure Exp (F A I : Type) where
  sz : F → ℕ
  nIrr : F → ℕ
  inT : List F
  outT : List F
  gen : F → F → Option (List (Elem A))
  ident : A → I
  inIdx : A → ℕ
  outIdx : A → ℕ

/-- Comparison of pairs of names. -/
def pairLe [LinearOrder F] (a b : F × F) : Bool := a.1 < b.1 || (a.1 == b.1 && a.2 ≤ b.2)

/-- The names and positions in the identifier of a parameter (`basisexpansion_blocks.py:446-448`), as a tuple instead of a
formatted string. -/
structure ParamId (F I : Type) where
  inName : F
  inPos : ℕ
  outName : F
  outPos : ℕ
  elem : I
deriving DecidableEq

/-- The attributes added by `BlocksBasisExpansion` to those of an element (`basisexpansion_blocks.py:198-216`, 256-273). -/
structure Info (F A : Type) where
  attr : A
  inIrrPos : ℕ
  outIrrPos : ℕ
  inRepr : F
  outRepr : F
  inField : ℕ
  outField : ℕ
  idx : ℕ

namespace Exp

variable [LinearOrder F] [DecidableEq I]

/-- `_unique_representations` is a set: the order of the loops (`basisexpansion_blocks.py:71-72`) is arbitrary, here the one of
`dedup`; the result is sorted afterwards (line 93).  The keys of `_block_expansion_modules`. -/
def pairsRaw (E : Exp F A I) : List (F × F) :=
  E.inT.dedup.flatMap fun i => E.outT.dedup.filterMap fun o => (E.gen i o).map fun _ => (i, o)

/-- `_representations_pairs` (`basisexpansion_blocks.py:93`). -/
def pairs (E : Exp F A I) : List (F × F) := E.pairsRaw.mergeSort pairLe

/-- `_n_pairs` (`basisexpansion_blocks.py:90`). -/
def nPairs (E : Exp F A I) : ℕ := E.inT.dedup.length * E.outT.dedup.length

/-- The channels of a representation computed by `_retrieve_indices` (`basisexpansion_blocks.py:403-419`). -/
def indices (E : Exp F A I) (t : List F) (n : F) : List ℕ :=
  (labelIdxFrom 0 0 (t.zip (t.map E.sz)) (fun _ => [], fun _ => [])).1 n

/-- Whether they are contiguous (`basisexpansion_blocks.py:416`). -/
def contig (E : Exp F A I) (t : List F) (n : F) : Option Bool := checkConsecutive ((E.indices t n).map Int.ofNat)

/-- The elements of the basis of a pair. -/
def block (E : Exp F A I) (p : F × F) : List (Elem A) := (E.gen p.1 p.2).getD []

/-- The identifiers computed by `_compute_attrs_and_ids` for a pair (`basisexpansion_blocks.py:422-461`). -/
def basisIds (E : Exp F A I) (p : F × F) : List (ParamId F I) :=
  E.outT.zipIdx.flatMap fun q => E.inT.zipIdx.flatMap fun r =>
    if (r.1, q.1) = p then (E.block p).map fun e => ⟨r.1, r.2, q.1, q.2, E.ident e.attr⟩ else []

/-- The loop filling `_weights_ranges` (`basisexpansion_blocks.py:117-160`). -/
def rangesLoop (E : Exp F A I) : List (F × F) → ℕ → List ((F × F) × ℕ × ℕ)
  | [], _ => []
  | p :: ps, last => (p, last, last + (E.basisIds p).length) :: rangesLoop E ps (last + (E.basisIds p).length)

/-- `_weights_ranges`. -/
def ranges (E : Exp F A I) : List ((F × F) × ℕ × ℕ) := E.rangesLoop E.pairs 0

/-- `_basis_to_ids` (`basisexpansion_blocks.py:154`). -/
def basisToIds (E : Exp F A I) : List (ParamId F I) := E.pairs.flatMap E.basisIds

/-- `dimension` (`basisexpansion_blocks.py:280-281`): the number of keys of the dictionary `_ids_to_basis` (lines 151-152). -/
def dimension (E : Exp F A I) : ℕ := E.basisToIds.dedup.length

/-- `_ids_to_basis[name]`: the last position written for the identifier (`basisexpansion_blocks.py:151-152`). -/
def idIndex (E : Exp F A I) (n : ParamId F I) : Option ℕ := (E.basisToIds.zipIdx.reverse.find? fun p => p.1 = n).map Prod.snd

/-- The inner loop of the search in `get_element_info` (`basisexpansion_blocks.py:191-222`): the position and the irreps before
the field found, or the number of blocks seen. -/
def searchIn (E : Exp F A I) (p : F × F) (blk : ℕ) (oName : F) : List (F × ℕ) → ℕ → ℕ → Sum (ℕ × ℕ) ℕ
  | [], count, _ => Sum.inr count
  | (n, i) :: l, count, irr =>
    if p = (n, oName) then
      if count = blk then Sum.inl (i, irr) else searchIn E p blk oName l (count + 1) (irr + E.nIrr n)
    else searchIn E p blk oName l count (irr + E.nIrr n)

/-- The outer loop of the search (`basisexpansion_blocks.py:189-223`): input field, input irreps, output field, output irreps. -/
def searchOut (E : Exp F A I) (p : F × F) (blk : ℕ) : List (F × ℕ) → ℕ → ℕ → Option (ℕ × ℕ × ℕ × ℕ)
  | [], _, _ => none
  | (n, o) :: l, count, irr =>
    match E.searchIn p blk n E.inT.zipIdx count 0 with
    | Sum.inl (i, iirr) => some (i, iirr, o, irr)
    | Sum.inr count' => searchOut E p blk l count' (irr + E.nIrr n)

/-- `get_element_info` for an integer (`basisexpansion_blocks.py:165-225`); `none` when it raises. -/
def elementInfo (E : Exp F A I) (idx : ℕ) : Option (Info F A) :=
  match E.ranges.find? fun r => decide (r.2.1 ≤ idx ∧ idx < r.2.2) with
  | none => none
  | some (p, a, _) =>
    let rel := idx - a
    let dim := (E.block p).length
    match (E.block p)[rel % dim]? with
    | none => none
    | some e =>
      match E.searchOut p (rel / dim) E.outT.zipIdx 0 0 with
      | none => none
      | some (i, iirr, o, oirr) => some ⟨e.attr, iirr + E.inIdx e.attr, oirr + E.outIdx e.attr, p.1, p.2, i, o, idx⟩

/-- `in_irreps_counts`, `out_irreps_counts` (`basisexpansion_blocks.py:229-239`). -/
def irrCounts (E : Exp F A I) (t : List F) : List ℕ := 0 :: fieldsEndFrom 0 (t.map E.nIrr)

/-- The attributes yielded by `get_basis_info` without the index (`basisexpansion_blocks.py:244-270`). -/
def infoList (E : Exp F A I) : List (ℕ → Info F A) :=
  E.pairs.flatMap fun p => (labelFields E.outT p.2).flatMap fun o => (labelFields E.inT p.1).flatMap fun i =>
    (E.block p).map fun e k =>
      ⟨e.attr, (E.irrCounts E.inT)[i]?.getD 0 + E.inIdx e.attr, (E.irrCounts E.outT)[o]?.getD 0 + E.outIdx e.attr, p.1, p.2, i, o, k⟩

/-- `get_basis_info` (`basisexpansion_blocks.py:227-278`): the list of the attributes yielded. -/
def basisInfo (E : Exp F A I) : List (Info F A) := E.infoList.zipIdx.map fun q => q.1 q.2

/-- `_expand_block` (`basisexpansion_blocks.py:283-305`): an array with axes (output field, output channel, input
field, input channel, point); `none` when a `view` fails. -/
noncomputable def expandBlock (E : Exp F A I) (w : List ℝ) (p : F × F) : Option (ℕ → ℕ → ℕ → ℕ → ℕ → ℝ) :=
  match E.ranges.find? fun r => decide (r.1 = p) with
  | none => none
  | some (_, a, b) =>
    let coefs := pySlice w a b
    let dim := (E.block p).length
    if coefs.length % dim = 0 ∧ coefs.length / dim = E.outT.count p.2 * E.inT.count p.1 then
      some fun co ro ci ri s =>
        blockForward (E.block p) (fun e => coefs.getD ((co * E.inT.count p.1 + ci) * dim + e) 0) ro ri s
    else none

/-- Merging the axes by `reshape`: `(fields, size, fields, size, S)` to `(channels, channels, S)`. -/
def mergeAxes (so si : ℕ) (X : ℕ → ℕ → ℕ → ℕ → ℕ → ℝ) : Arr3 := fun a b s => X (a / so) (a % so) (b / si) (b % si) s

/-- `_filter[o0:o1, i0:i1, :] = block` (`basisexpansion_blocks.py:344-349`). -/
def writeRect (f : Arr3) (o0 o1 i0 i1 : ℕ) (blk : Arr3) : Arr3 := fun a b s =>
  if (o0 ≤ a ∧ a < o1) ∧ (i0 ≤ b ∧ b < i1) then blk (a - o0) (b - i0) s else f a b s

/-- `_filter[out_indices, in_indices, :] = block` (`basisexpansion_blocks.py:350-355`): the rows of the flattened block are
written one after the other. -/
def writePoints (f : Arr3) (out inn : List ℕ) (rows : ℕ → ℕ → ℝ) : Arr3 :=
  ((out.zip inn).zipIdx).foldl (fun g q a b s => if a = q.1.1 ∧ b = q.1.2 then rows q.2 s else g a b s) f

/-- The two lists made by `torch.meshgrid` and flattening (`basisexpansion_blocks.py:140-142`). -/
def meshOut (out inn : List ℕ) : List ℕ := out.flatMap fun a => inn.map fun _ => a

/-- See `meshOut`. -/
def meshIn (out inn : List ℕ) : List ℕ := out.flatMap fun _ => inn

/-- One step of the loop in `forward` (`basisexpansion_blocks.py:335-355`). -/
noncomputable def writePair (E : Exp F A I) (w : List ℝ) (p : F × F) (f : Arr3) : Option Arr3 :=
  (E.contig E.inT p.1).bind fun ci => (E.contig E.outT p.2).bind fun co => (E.expandBlock w p).bind fun X =>
    let blk := mergeAxes (E.sz p.2) (E.sz p.1) X
    let oi := E.indices E.outT p.2
    let ii := E.indices E.inT p.1
    if ci ∧ co then
      match oi.min?, oi.max?, ii.min?, ii.max? with
      | some o0, some o1, some i0, some i1 => some (writeRect f o0 (o1 + 1) i0 (i1 + 1) blk)
      | _, _, _, _ => none
    else some (writePoints f (meshOut oi ii) (meshIn oi ii) fun k s => blk (k / ii.length) (k % ii.length) s)

/-- `forward` (`basisexpansion_blocks.py:307-358`): `none` when it raises.  With one pair of representations the expanded block is
returned directly; the reshape needs the indices to be contiguous. -/
noncomputable def forward (E : Exp F A I) (w : List ℝ) : Option Arr3 :=
  if w.length = E.dimension then
    if E.nPairs = 1 then
      match E.pairs with
      | [] => none
      | p :: _ => (E.contig E.inT p.1).bind fun ci => (E.contig E.outT p.2).bind fun co =>
          if ci ∧ co then (E.expandBlock w p).map (mergeAxes (E.sz p.2) (E.sz p.1)) else none
    else E.pairs.foldlM (fun f p => E.writePair w p f) fun _ _ _ => 0
  else none

end Exp

end E2
