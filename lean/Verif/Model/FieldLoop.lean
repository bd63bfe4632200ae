import Verif.Props.LayoutSpec

/-!
# The loop over the groups of fields used by the modules

The nonlinearities, the invariant maps, the batch normalisations and the dropout treat together all fields with the same label (their size, or
size and size of the subfields, ...): they read the channels of these fields, view them as fields, compute, and write the result.
-/

namespace E2

variable {L V W : Type}

/-- One step of the loop which finds out whether the fields with the same label are contiguous (nonlinearities/norm.py:82-89): the last label
and the dictionary `_contiguous`. -/
def contigStep [DecidableEq L] (st : Option L × (L → Option Bool)) (l : L) : Option L × (L → Option Bool) :=
  if some l ≠ st.1 then (some l, fun k => if k = l then some (st.2 l).isNone else st.2 k) else st

/-- The dictionary `_contiguous` (nonlinearities/norm.py:78-93, gated1.py:113-131, gated2.py:97-110, dropout/field.py:91-106,
invariantmaps/induced_norm.py:63-86): a second run of fields with the same label sets the flag to false; `none` when the label does not
occur. -/
def contigFlags [DecidableEq L] (labels : List L) : L → Option Bool :=
  (labels.foldl contigStep (none, fun _ => none)).2

/-- The channels with a label (the dictionary `_indices`, nonlinearities/norm.py:91). -/
def labelChannels [DecidableEq L] (labels : List L) (sizes : List ℕ) (l : L) : List ℕ :=
  (labelIdxFrom 0 0 (labels.zip sizes) (fun _ => [], fun _ => [])).1 l

/-- The number of fields with a label (the dictionary `_nfields`, nonlinearities/norm.py:92). -/
def labelCount [DecidableEq L] (labels : List L) (l : L) : ℕ := labels.count l

/-- `view(b, -1, s, h, w)`: the channels as fields of size `s`. -/
def viewFields (s : ℕ) (g : List V) : List (List V) := chunks (List.replicate (g.length / s) s) g

/-- A computation on each field: `φ k` on the field number `k` of the group, counted from `next`; the result is viewed as channels again. -/
def eachField (s : ℕ) (φ : ℕ → List V → List W) (next : ℕ) (g : List V) : List W :=
  ((viewFields s g).mapIdx fun k fld => φ (next + k) fld).flatten

/-- The loop over the labels in `forward` (for instance nonlinearities/norm.py:149-192): read the group, compute, write to the output; `next`
counts the fields treated before. -/
def fieldLoop (x : List V) (contig : L → Bool) (inIdx outIdx : L → List ℕ) (nf : L → ℕ) (f : L → ℕ → List V → List W) :
    List L → ℕ → List W → Option (List W)
  | [], _, out => some out
  | l :: ls, next, out =>
    match readGroup x (contig l) (inIdx l) with
    | none => none
    | some g =>
      match writeGroup out (contig l) (outIdx l) (f l next g) with
      | none => none
      | some out' => fieldLoop x contig inIdx outIdx nf f ls (next + nf l) out'

end E2
