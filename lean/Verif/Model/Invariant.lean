import Verif.Model.Nonlin

/-!
# The invariant maps (nn/modules/invariantmaps)
-/

namespace E2

variable {P R L : Type}

/-- The keys of a dictionary filled in the order of a list: the first occurrences. -/
def firstKeys [DecidableEq L] : List L → List L
  | [] => []
  | a :: l => a :: (firstKeys l).filter (· ≠ a)

/-- The values of `torch.max(fm, 2)` at one position of one field, `v` not empty. -/
noncomputable def maxVal (v : List ℝ) : ℝ := v.max?.getD 0

/-- The loop shared by `GroupPooling.forward` (invariantmaps/gpool.py:82-123) and `NormPool.forward` (invariantmaps/norm.py:69-108) with the
dictionaries of the constructors (gpool.py:55-80, invariantmaps/norm.py:42-67): the fields are grouped by size, `f` computes one channel for each field, and
the output has one trivial field for each field.  `triv` is `space.trivial_repr`, `junk` the content of `torch.empty`.  The entries of
`indexes_from_labels` always exist for the sizes which occur. -/
noncomputable def poolBySize [DecidableEq R] (sz : R → ℕ) (inType : List R) (triv : R) (f : List (P → ℝ) → P → ℝ) (junk : List (P → ℝ))
    (x : GTensor R (P → ℝ)) : Option (GTensor R (P → ℝ)) :=
  if x.ty = inType then
    let sizes := inType.map sz
    match fieldLoop x.data (fun s => ((indexesFromLabels sz inType sizes s).map fun e => e.1).getD false)
      (fun s => ((indexesFromLabels sz inType sizes s).map fun e => e.2.2).getD [])
      (fun s => ((indexesFromLabels sz inType sizes s).map fun e => e.2.1).getD []) (labelCount sizes)
      (fun s => eachField s fun _ fld => [f fld]) (firstKeys sizes) 0 junk with
    | none => none
    | some y => mkGT sz y (List.replicate inType.length triv)
  else none

/-- `GroupPooling.forward` (invariantmaps/gpool.py:82-123). -/
noncomputable def groupPooling [DecidableEq R] (sz : R → ℕ) (inType : List R) (triv : R) (junk : List (P → ℝ)) (x : GTensor R (P → ℝ)) :
    Option (GTensor R (P → ℝ)) :=
  poolBySize sz inType triv (fun fld p => maxVal (fld.map fun c => c p)) junk x

/-- `NormPool.forward` (invariantmaps/norm.py:69-108). -/
noncomputable def normPool [DecidableEq R] (sz : R → ℕ) (inType : List R) (triv : R) (junk : List (P → ℝ)) (x : GTensor R (P → ℝ)) :
    Option (GTensor R (P → ℝ)) :=
  poolBySize sz inType triv fieldNorm junk x

/-- `fm.view(b, -1, n_subfields, subfield_size, h, w).norm(dim=3).max(dim=2)` (invariantmaps/induced_norm.py:135) for one field. -/
noncomputable def subfieldNorm (sub : ℕ) (fld : List (P → ℝ)) (p : P) : ℝ :=
  maxVal ((viewFields sub fld).map fun g => fieldNorm g p)

/-- `InducedNormPool.forward` (invariantmaps/induced_norm.py:102-143) with the dictionaries of the constructor (lines 45-100): the fields are
grouped by their size and the size `sub r` of their subfields, the number in the entry `induced_norm_*` of the supported nonlinearities. -/
noncomputable def inducedNormPool [DecidableEq R] (sz sub : R → ℕ) (inType : List R) (triv : R) (junk : List (P → ℝ)) (x : GTensor R (P → ℝ)) :
    Option (GTensor R (P → ℝ)) :=
  if x.ty = inType ∧ ∀ r ∈ inType, sz r % sub r = 0 then
    let ids := inType.map fun r => (sz r, sub r)
    match fieldLoop x.data (fun l => (contigFlags ids l).getD false) (labelChannels ids (inType.map sz))
      (fun l => (labelIdxFrom 0 0 (ids.zip (inType.map sz)) (fun _ => [], fun _ => [])).2 l) (labelCount ids)
      (fun l => eachField l.1 fun _ fld => [subfieldNorm l.2 fld]) (firstKeys ids) 0 junk with
    | none => none
    | some y => mkGT sz y (List.replicate inType.length triv)
  else none

/-- `MaxPoolChannels.forward` (invariantmaps/gpool.py:216-228). -/
noncomputable def maxPoolChannels (k : ℕ) (x : List (P → ℝ)) : Option (List (P → ℝ)) :=
  if x.length % k = 0 then some ((viewFields k x).map fun fld p => maxVal (fld.map fun c => c p)) else none

end E2
