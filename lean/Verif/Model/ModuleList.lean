import Verif.Model.Sequential

/-!
# `ModuleList`

`/repo/e2cnn/nn/modules/module_list.py`.  The class overrides four methods of `torch.nn.ModuleList`; the methods of torch which they call, and those which are
inherited, are modelled as torch defines them: an ordered dictionary whose names are positions written by `str`.
-/

namespace E2

/-- The names in the dictionary of the modules: `str(i)` of an integer, or another string given to `add_module`. -/
inductive MKey
  | idx (i : ℤ)
  | name (s : String)
deriving DecidableEq

/-- `_modules`, in the order of the insertions. -/
abbrev MList (M : Type) := List (MKey × M)

variable {M : Type}

/-- `append` (module_list.py:49-57): the class of the module is checked (`isE`), then `add_module(str(len(self)), module)` of torch.  The result is the state
and whether the method returned; `false` means that it raised. -/
def mlAppend (isE : M → Bool) (st : MList M) (m : M) : MList M × Bool :=
  if isE m then (dictSet st (.idx st.length) m, true) else (st, false)

/-- `extend` (module_list.py:59-73): the modules are checked and appended one after the other. -/
def mlExtend (isE : M → Bool) : MList M → List M → MList M × Bool
  | st, [] => (st, true)
  | st, m :: l => if (mlAppend isE st m).2 then mlExtend isE (mlAppend isE st m).1 l else ((mlAppend isE st m).1, false)

/-- `ModuleList(modules)` (module_list.py:21-39): the constructor of torch runs `self += modules`, which calls `extend`. -/
def mlNew (isE : M → Bool) (ms : List M) : MList M × Bool := mlExtend isE [] ms

/-- The loop in `torch.nn.ModuleList.insert`: `for i in range(len, index, -1): _modules[str(i)] = _modules[str(i - 1)]`, `n` steps beginning at `i`; a name which is
missing raises and leaves the dictionary as it is then. -/
def mlShift : ℕ → ℤ → MList M → MList M × Bool
  | 0, _, st => (st, true)
  | n + 1, i, st => match st.lookup (.idx (i - 1)) with
    | none => (st, false)
    | some m => mlShift n (i - 1) (dictSet st (.idx i) m)

/-- `insert` (module_list.py:45-47). -/
def mlInsert (isE : M → Bool) (st : MList M) (index : ℤ) (m : M) : MList M × Bool :=
  if isE m then
    if (mlShift (st.length - index).toNat st.length st).2 then (dictSet (mlShift (st.length - index).toNat st.length st).1 (.idx index) m, true)
    else ((mlShift (st.length - index).toNat st.length st).1, false)
  else (st, false)

/-- `_get_abs_string_index` of torch: an index which is out of range raises, a negative one counts from the end. -/
def mlAbs (len : ℕ) (i : ℤ) : Option ℤ := if -(len : ℤ) ≤ i ∧ i < len then some (if i < 0 then i + len else i) else none

/-- `__setitem__` (module_list.py:41-43); torch runs `setattr(self, str(idx), module)`. -/
def mlSet (isE : M → Bool) (st : MList M) (i : ℤ) (m : M) : MList M × Bool :=
  if isE m then match mlAbs st.length i with
    | none => (st, false)
    | some k => (dictSet st (.idx k) m, true)
  else (st, false)

/-- `__getitem__` of torch with an integer. -/
def mlGet (st : MList M) (i : ℤ) : Option M := (mlAbs st.length i).bind fun k => st.lookup (.idx k)

/-- The modules under the names `str(k)`, `str(k + 1)`, ... -/
def mlNumber : ℕ → List M → MList M
  | _, [] => []
  | k, m :: l => (.idx k, m) :: mlNumber (k + 1) l

/-- `__delitem__` of torch with an integer: the module is removed (`delattr` raises if there is no such name) and the others get new names. -/
def mlDel (st : MList M) (i : ℤ) : MList M × Bool := match mlAbs st.length i with
  | none => (st, false)
  | some k => if (st.lookup (.idx k)).isSome then (mlNumber 0 ((st.filter fun p => p.1 ≠ .idx k).map Prod.snd), true) else (st, false)

/-- `add_module` of torch, which is inherited: no check of the class. -/
def mlAdd (st : MList M) (k : MKey) (m : M) : MList M × Bool := (dictSet st k m, true)

/-- The calls of the methods. -/
inductive MLOp (M : Type)
  | append (m : M)
  | extend (ms : List M)
  | insert (i : ℤ) (m : M)
  | set (i : ℤ) (m : M)
  | del (i : ℤ)
  | add (k : MKey) (m : M)

/-- One call. -/
def MLOp.run (isE : M → Bool) (st : MList M) : MLOp M → MList M × Bool
  | .append m => mlAppend isE st m
  | .extend ms => mlExtend isE st ms
  | .insert i m => mlInsert isE st i m
  | .set i m => mlSet isE st i m
  | .del i => mlDel st i
  | .add k m => mlAdd st k m

/-- A program which goes on after an exception. -/
def mlRun (isE : M → Bool) (st : MList M) (ops : List (MLOp M)) : MList M := ops.foldl (fun st op => (op.run isE st).1) st

/-- `export` (module_list.py:75-91): every module is exported, in the order of the dictionary (`exp`, `none` if it raises), and the results are put into a
`torch.nn.ModuleList`, which numbers them.  The modes of the modules are left out. -/
def mlExport {X : Type} (exp : M → Option X) (st : MList M) : Option (MList X) := (st.mapM fun p => exp p.2).map (mlNumber 0)

end E2
