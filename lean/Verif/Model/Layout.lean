import Mathlib.Data.Real.Basic
import Mathlib.Data.List.Sort
import Mathlib.Data.List.Enum
import Mathlib.Algebra.Order.Field.Rat
import Mathlib.Algebra.BigOperators.Group.Finset.Basic
import Verif.Model.Mat

/-!
# Field types: the layout of the channels

A field type is its list of representations (the gspace plays no role in the layout); `sz` gives the
size of a representation.  The channels of a tensor are a list of values in `V`: the data of one
channel, i.e. all batch entries and all positions.  Operations that can raise return an `Option`.
-/

namespace E2

variable {R L V : Type*}

/-! ## Python lists -/

/-- `l[i]` for a Python or numpy list: negative indices count from the end, `none` is `IndexError`. -/
def pyGet (l : List V) (i : ℤ) : Option V :=
  if 0 ≤ i then l[i.toNat]?
  else if -(l.length : ℤ) ≤ i then l[(l.length + i).toNat]?
  else none

/-- `l[a:b]` for `0 ≤ a`, `0 ≤ b` (bounds above the length are clipped). -/
def pySlice (l : List V) (a b : ℕ) : List V := (l.take b).drop a

/-- `x[:, idx]` with a list of indices: fails when an index is out of range. -/
def gather (x : List V) (idx : List ℕ) : Option (List V) := idx.mapM fun i => x[i]?

/-! ## `nn/field_type.py` -/

/-- The assertion of the constructor of `FieldType` (`nn/field_type.py:68`): a field type has at least
one field. -/
def mkType (reps : List R) : Option (List R) := if reps = [] then none else some reps

/-- `FieldType.size` (`nn/field_type.py:83`). -/
def typeSize (sz : R → ℕ) (reps : List R) : ℕ := (reps.map sz).sum

/-- The loop of `fields_end` (`nn/field_type.py:375-383`) from position `p`. -/
def fieldsEndFrom : ℕ → List ℕ → List ℕ
  | _, [] => []
  | p, s :: ss => (p + s) :: fieldsEndFrom (p + s) ss

/-- The loop of `fields_start` (`nn/field_type.py:394-402`) from position `p`. -/
def fieldsStartFrom : ℕ → List ℕ → List ℕ
  | _, [] => []
  | p, s :: ss => p :: fieldsStartFrom (p + s) ss

/-- `FieldType.fields_end` (`nn/field_type.py:367-384`).  The cache `_field_end` is omitted: the
representations of a field type never change. -/
def fieldsEnd (sz : R → ℕ) (reps : List R) : List ℕ := fieldsEndFrom 0 (reps.map sz)

/-- `FieldType.fields_start` (`nn/field_type.py:386-403`). -/
def fieldsStart (sz : R → ℕ) (reps : List R) : List ℕ := fieldsStartFrom 0 (reps.map sz)

/-- `FieldType.__add__` (`nn/field_type.py:297-318`) for two types of the same gspace. -/
def addTypes (a b : List R) : Option (List R) := mkType (a ++ b)

/-- `FieldType.index_select` (`nn/field_type.py:345-365`): `max`/`min` of an empty list raise. -/
def indexSelect (reps : List R) (index : List ℤ) : Option (List R) :=
  if index = [] then none
  else if ∀ i ∈ index, i < (reps.length : ℤ) then
    if ∀ i ∈ index, 0 ≤ i then (index.mapM (pyGet reps)).bind mkType else none
  else none

/-- Comparison of the keys `(size, i)` (`nn/field_type.py:289`): tuples are compared
lexicographically. -/
def keyLe (a b : ℕ × ℕ) : Bool := a.1 < b.1 || (a.1 == b.1 && a.2 ≤ b.2)

/-- The permutation computed by `FieldType.sorted` (`nn/field_type.py:289-293`). -/
def sortedPerm (sz : R → ℕ) (reps : List R) : List ℕ :=
  (((reps.zipIdx).map fun p => (sz p.1, p.2)).mergeSort keyLe).map Prod.snd

/-- `FieldType.sorted` (`nn/field_type.py:279-295`). -/
def sortedType (sz : R → ℕ) (reps : List R) : Option (List R) :=
  indexSelect reps ((sortedPerm sz reps).map Int.ofNat)

/-- A `defaultdict(lambda: [])` after `d[l] += v`. -/
def dictAppend [DecidableEq L] (d : L → List V) (l : L) (v : List V) : L → List V :=
  fun k => if k = l then d k ++ v else d k

/-- The loop collecting the fields of each label (`nn/field_type.py:422-425`). -/
def labelFieldsFrom [DecidableEq L] : ℕ → List L → (L → List ℕ) → (L → List ℕ)
  | _, [], d => d
  | c, l :: ls, d => labelFieldsFrom (c + 1) ls (dictAppend d l [c])

/-- The fields of each label. -/
def labelFields [DecidableEq L] (labels : List L) : L → List ℕ := labelFieldsFrom 0 labels fun _ => []

/-- `FieldType.group_by_labels` (`nn/field_type.py:405-434`): the entry of the resulting dictionary for
the label `l`.  `none` also for a label that does not occur (it is not a key). -/
def groupByLabels [DecidableEq L] (reps : List R) (labels : List L) (l : L) : Option (List R) :=
  if labels.length = reps.length then
    if l ∈ labels then indexSelect reps ((labelFields labels l).map Int.ofNat) else none
  else none

/-! ## `nn/modules/utils.py` -/

/-- The loop of `check_consecutive_numbers` (`nn/modules/utils.py:15-19`): state `(m, M, s)`, `none` when
the assertion `l >= 0` fails. -/
def consecutiveLoop : List ℤ → ℤ × ℤ × ℤ → Option (ℤ × ℤ × ℤ)
  | [], st => some st
  | l :: ls, (m, M, s) => if 0 ≤ l then consecutiveLoop ls (min m l, max M l, s + l) else none

/-- `check_consecutive_numbers` (`nn/modules/utils.py:10-23`); `/` is the true division (rational).  The
empty list raises `IndexError`. -/
def checkConsecutive : List ℤ → Option Bool
  | [] => none
  | a :: l => (consecutiveLoop (a :: l) (a, a, 0)).map fun (m, M, s) =>
      decide (((M * (M + 1) : ℤ) : ℚ) / 2 - (((m - 1) * m : ℤ) : ℚ) / 2 = (s : ℚ))

/-- The loop of `indexes_from_labels` (`nn/modules/utils.py:44-48`) over `(label, size)`, with the
dictionaries `indeces` and `fields`. -/
def labelIdxFrom [DecidableEq L] :
    ℕ → ℕ → List (L × ℕ) → (L → List ℕ) × (L → List ℕ) → (L → List ℕ) × (L → List ℕ)
  | _, _, [], d => d
  | c, p, (l, s) :: ls, (ix, fs) =>
      labelIdxFrom (c + 1) (p + s) ls (dictAppend ix l (List.range' p s), dictAppend fs l [c])

/-- `indexes_from_labels` (`nn/modules/utils.py:26-56`): the entry `(contiguous, fields, indeces)` of the
label `l`.  `none` when the lengths differ, when the label does not occur, or when
`check_consecutive_numbers` raises. -/
def indexesFromLabels [DecidableEq L] (sz : R → ℕ) (reps : List R) (labels : List L) (l : L) :
    Option (Bool × List ℕ × List ℕ) :=
  if labels.length = reps.length then
    if l ∈ labels then
      let d := labelIdxFrom 0 0 (labels.zip (reps.map sz)) (fun _ => [], fun _ => [])
      (checkConsecutive ((d.1 l).map Int.ofNat)).map fun c => (c, d.2 l, d.1 l)
    else none
  else none

/-! ## Reading channels -/

/-- How the modules read the channels of a group of fields (for instance
`nn/modules/disentangle_module.py`, `nn/modules/branching_module.py:180-190`,
`nn/modules/nonlinearities/norm.py`): a slice `min : max+1` of the indices when they were found to be
contiguous, the list of indices otherwise. -/
def readGroup (x : List V) (contiguous : Bool) (idx : List ℕ) : Option (List V) :=
  if contiguous then
    match idx.min?, idx.max? with
    | some a, some b => some (pySlice x a (b + 1))
    | _, _ => none
  else gather x idx

/-- How the modules write the channels of a group of fields into the output: a slice assignment or an
assignment to a list of indices (one write after the other).  `vals` must have the right length. -/
def writeIdx (x : List V) (idx : List ℕ) (vals : List V) : List V :=
  (idx.zip vals).foldl (fun o p => o.set p.1 p.2) x

/-- `out[:, a:b] = vals`. -/
def writeSlice (x : List V) (a b : ℕ) (vals : List V) : List V := x.take a ++ vals ++ x.drop b

/-- The write corresponding to `readGroup`. -/
def writeGroup (x : List V) (contiguous : Bool) (idx : List ℕ) (vals : List V) : Option (List V) :=
  if vals.length = idx.length then
    if contiguous then
      match idx.min?, idx.max? with
      | some a, some b => some (writeSlice x a (b + 1) vals)
      | _, _ => none
    else if ∀ i ∈ idx, i < x.length then some (writeIdx x idx vals) else none
  else none

end E2
