import Verif.Model.Layout

/-!
# Geometric tensors: splitting, concatenating, indexing, and the modules that move fields

A geometric tensor is its list of representations and its list of channels (`V` holds the data of a
channel: all batch entries and positions).
-/

namespace E2

variable {R L V : Type}

/-- `GeometricTensor` (`nn/geometric_tensor.py:17-171`): channels and type. -/
structure GTensor (R V : Type) where
  ty : List R
  data : List V

/-- The constructor (`nn/geometric_tensor.py:160-171`) asserts that the number of channels is the size of
the type. -/
def mkGT (sz : R → ℕ) (data : List V) (ty : List R) : Option (GTensor R V) :=
  if data.length = typeSize sz ty then some ⟨ty, data⟩ else none

/-! ## `split` and `tensor_directsum` -/

/-- The list `positions` (`nn/geometric_tensor.py:286-291`). -/
def positionsFrom : ℕ → List ℕ → List ℕ
  | p, [] => [p]
  | p, s :: ss => p :: positionsFrom (p + s) ss

/-- The loop of `split` (`nn/geometric_tensor.py:293-308`) from the field `last`. -/
def splitLoop (sz : R → ℕ) (x : GTensor R V) : ℕ → List ℤ → Option (List (GTensor R V))
  | _, [] => some []
  | last, b :: bs =>
    if (last : ℤ) < b then do
      let t ← mkType (pySlice x.ty last b.toNat)
      let p ← (positionsFrom 0 (x.ty.map sz))[last]?
      let q ← (positionsFrom 0 (x.ty.map sz))[b.toNat]?
      let y ← mkGT sz (pySlice x.data p q) t
      let ys ← splitLoop sz x b.toNat bs
      some (y :: ys)
    else none

/-- `split(breaks)` (`nn/geometric_tensor.py:209-308`): the pieces and the value of the list `breaks` after
the call.  The code appends to the list it is given (line 280). -/
def splitGT (sz : R → ℕ) (x : GTensor R V) (breaks : Option (List ℤ)) :
    Option (List (GTensor R V)) × Option (List ℤ) :=
  match breaks with
  | none => (splitLoop sz x 0 (((List.range' 1 (x.ty.length - 1)).map Int.ofNat) ++ [(x.ty.length : ℤ)]), none)
  | some b => (splitLoop sz x 0 (b ++ [(x.ty.length : ℤ)]), some (b ++ [(x.ty.length : ℤ)]))

/-- `tensor_directsum` (`nn/geometric_tensor.py:660-699`) for tensors of the same gspace, batch size and
resolution; the empty list raises. -/
def directsumGT (sz : R → ℕ) (ts : List (GTensor R V)) : Option (GTensor R V) :=
  if ts = [] then none
  else (mkType (ts.flatMap GTensor.ty)).bind fun t => mkGT sz (ts.flatMap GTensor.data) t

/-! ## Indexing -/

/-- A Python `slice(start, stop, step)`. -/
structure PySlice where
  start : Option ℤ
  stop : Option ℤ
  step : Option ℤ

/-- The indices a basic Python slice selects from a list of length `n` (CPython's `PySlice_AdjustIndices`);
`none` for step 0 (`ValueError`). -/
def PySlice.select (s : PySlice) (n : ℕ) : Option (List ℕ) :=
  let step := s.step.getD 1
  if step = 0 then none
  else if 0 < step then
    let clip (i : ℤ) : ℤ := if i < 0 then (if i + n < 0 then 0 else i + n) else if (n : ℤ) < i then n else i
    let a := clip (s.start.getD 0)
    let b := clip (s.stop.getD n)
    some ((List.range ((b - a + step - 1) / step).toNat).map fun k : ℕ => (a + (k : ℤ) * step).toNat)
  else
    let clip (i : ℤ) : ℤ := if i < 0 then (if i + n < 0 then -1 else i + n) else if (n : ℤ) ≤ i then n - 1 else i
    let a := (s.start.map clip).getD ((n : ℤ) - 1)
    let b := (s.stop.map clip).getD (-1)
    some ((List.range ((a - b + (-step) - 1) / (-step)).toNat).map fun k : ℕ => (a + (k : ℤ) * step).toNat)

/-- One entry of the index passed to `__getitem__`. -/
inductive PyIndex where
  | int (i : ℤ)
  | slice (s : PySlice)
  | ellipsis

/-- The expansion of ellipses (`nn/geometric_tensor.py:446-460`). -/
def expandLoop (missing : ℕ) : List PyIndex → Bool → List PyIndex
  | [], _ => []
  | .ellipsis :: l, false => List.replicate missing (.slice ⟨none, none, none⟩) ++ expandLoop missing l true
  | .ellipsis :: l, true => expandLoop missing l true
  | i :: l, b => i :: expandLoop missing l b

/-- Does the index name an axis. -/
def PyIndex.isAxis : PyIndex → Bool
  | .ellipsis => false
  | _ => true

/-- `expanded_idxs` (`nn/geometric_tensor.py:420-460`); `none` when there are more entries than axes
(lines 421-427).  (With `naxes` axes, `missing = naxes - indexed`, a negative number repeats nothing.) -/
def expandIdx (naxes : ℕ) (idx : List PyIndex) : Option (List PyIndex) :=
  if naxes < idx.length then none
  else some (expandLoop (naxes - (idx.filter PyIndex.isAxis).length) idx false)

/-- A single integer becomes a slice of length one (`nn/geometric_tensor.py:466-476`); `m` is the number of
fields (or the size of the axis). -/
def intToSlice (m : ℕ) (i : ℤ) : PySlice :=
  let idx := if i < 0 then (m : ℤ) + i else i
  ⟨some idx, some (idx + 1), some 1⟩

/-- The index on the field axis after the conversion of integers. -/
def fieldSlice (m : ℕ) : PyIndex → PySlice
  | .int i => intToSlice m i
  | .slice s => s
  | .ellipsis => ⟨none, none, none⟩

/-- The type of a contiguous slice (`nn/geometric_tensor.py:497-503`): the same type when all fields are
retrieved, else the selected representations. -/
def sliceType (reps : List R) (start stop : ℤ) (sel : List ℕ) : Option (List R) :=
  if start = 0 ∧ stop = (reps.length : ℤ) then some reps else (sel.mapM fun i => reps[i]?).bind mkType

/-- Indexing the fields (`nn/geometric_tensor.py:484-547`) with a slice: type and channels of the result.
With step 1 a slice of channels is used (lines 484-505), else a list of channels (516-550). -/
def getFields (sz : R → ℕ) (x : GTensor R V) (s : PySlice) : Option (GTensor R V) :=
  if s.step = none ∨ s.step = some 1 then do
    let start := s.start.getD 0
    let stop := s.stop.getD x.ty.length
    let a ← pyGet (fieldsStart sz x.ty) start
    let b ← pyGet (fieldsEnd sz x.ty) (stop - 1)
    let sel ← s.select x.ty.length
    let t ← sliceType x.ty start stop sel
    mkGT sz (pySlice x.data a b) t
  else do
    let sel ← s.select x.ty.length
    let reps ← sel.mapM fun i => x.ty[i]?
    let ranges ← sel.mapM fun i => do
      let a ← (fieldsStart sz x.ty)[i]?
      let b ← (fieldsEnd sz x.ty)[i]?
      some (List.range' a (b - a))
    let t ← mkType reps
    let y ← gather x.data ranges.flatten
    mkGT sz y t

/-- `__getitem__` (`nn/geometric_tensor.py:397-547`) as far as the fields are concerned: with at most one
expanded index the type and the channels do not change (lines 478-482).  The indices of the other axes
are passed on to torch. -/
def getItemGT (sz : R → ℕ) (naxes : ℕ) (x : GTensor R V) (idx : List PyIndex) : Option (GTensor R V) := do
  let e ← expandIdx naxes idx
  if e.length = 1 then some x
  else do
    let i ← e[1]?
    getFields sz x (fieldSlice x.ty.length i)

/-! ## Modules that move fields -/

/-- `ReshuffleModule` (`nn/modules/reshuffle_module.py:18-73`): construction and forward.  The permutation
is given by natural numbers (the assertion excludes others). -/
def reshuffle (sz : R → ℕ) (perm : List ℕ) (x : GTensor R V) : Option (GTensor R V) :=
  if (∀ i ∈ perm, i < x.ty.length) ∧ (∀ i ∈ List.range x.ty.length, i ∈ perm) then do
    let t ← indexSelect x.ty (perm.map Int.ofNat)
    let ranges ← perm.mapM fun c => do
      let p ← (positionsFrom 0 (x.ty.map sz))[c]?
      let r ← x.ty[c]?
      some (List.range' p (sz r))
    let y ← gather x.data ranges.flatten
    mkGT sz y t
  else none

/-- The permutation chosen by `BranchingModule` (`nn/modules/branching_module.py:83-96`): the fields sorted
by the first `level` entries of `(label, size, name)`.  Python's sort is stable, as is `mergeSort`; only
levels 1 and 2 sort (the constructor allows levels 0, 1, 2). -/
def branchPerm [LinearOrder L] (sz : R → ℕ) (level : ℕ) (labels : List L) (reps : List R) : List ℕ :=
  let keys := (labels.zip (reps.map sz)).zipIdx
  let le1 : (L × ℕ) × ℕ → (L × ℕ) × ℕ → Bool := fun a b => decide (a.1.1 ≤ b.1.1)
  let le2 : (L × ℕ) × ℕ → (L × ℕ) × ℕ → Bool :=
    fun a b => decide (a.1.1 < b.1.1 ∨ (a.1.1 = b.1.1 ∧ a.1.2 ≤ b.1.2))
  (keys.mergeSort (if level = 1 then le1 else le2)).map Prod.snd

/-- The loop computing `_contiguous` (`nn/modules/branching_module.py:117-127`). -/
def contigLoop [DecidableEq L] : List L → Option L → (L → Option Bool) → (L → Option Bool)
  | [], _, d => d
  | l :: ls, last, d =>
    contigLoop ls (some l)
      (if some l ≠ last then (fun k => if k = l then some (d l).isNone else d k) else d)

/-- The part of `BranchingModule` after the optional reshuffling
(`nn/modules/branching_module.py:114-161`, `_retrieve_subfiber` 163-190): the entry of label `l` of the
output dictionary. -/
def branchSub [DecidableEq L] (sz : R → ℕ) (labels : List L) (x : GTensor R V) (l : L) : Option (GTensor R V) := do
  let t ← groupByLabels x.ty labels l
  let c ← contigLoop labels none (fun _ => none) l
  let ix := (labelIdxFrom 0 0 (labels.zip (x.ty.map sz)) (fun _ => [], fun _ => [])).1 l
  let y ← readGroup x.data c ix
  mkGT sz y t

/-- `BranchingModule.forward` (`nn/modules/branching_module.py:24-219`). -/
def branch [LinearOrder L] (sz : R → ℕ) (level : ℕ) (labels : List L) (x : GTensor R V) (l : L) :
    Option (GTensor R V) :=
  if level < 3 ∧ x.ty.length = labels.length then
    if 0 < level ∧ branchPerm sz level labels x.ty ≠ List.range x.ty.length then do
      let y ← reshuffle sz (branchPerm sz level labels x.ty) x
      let labels' ← (branchPerm sz level labels x.ty).mapM fun p => labels[p]?
      branchSub sz labels' y l
    else branchSub sz labels x l
  else none

/-- The loop of `MergeModule.forward` (`nn/modules/merge_module.py:94-104`): each module writes its output
behind the previous ones. -/
def mergeLoop : ℕ → List (List V) → List V → List V
  | _, [], out => out
  | p, y :: ys, out => mergeLoop (p + y.length) ys (writeSlice out p (p + y.length) y)

/-- `MergeModule` (`nn/modules/merge_module.py:16-104`) on the results of its modules; `out` is the content
of the uninitialised output tensor (`torch.empty`). -/
def mergeGT (sz : R → ℕ) (out : List V) (ys : List (GTensor R V)) : Option (GTensor R V) :=
  if ys = [] then none
  else (mkType (ys.flatMap GTensor.ty)).bind fun t => mkGT sz (mergeLoop 0 (ys.map GTensor.data) out) t

/-- `RestrictionModule.forward` (`nn/modules/restriction_module.py:53-55`) and `GeometricTensor.restrict`
(`nn/geometric_tensor.py:173-207`): same channels, each representation restricted
(`nn/field_type.py:262-277`). -/
def restrictGT {R' : Type} (sz' : R' → ℕ) (restr : R → Option R') (x : GTensor R V) : Option (GTensor R' V) :=
  (x.ty.mapM restr).bind fun t => (mkType t).bind fun t => mkGT sz' x.data t

end E2
