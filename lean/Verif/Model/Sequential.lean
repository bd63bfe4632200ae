import Verif.Model.Tensor

/-!
# Containers of modules: `nn/modules/sequential_module.py`, `nn/modules/multiple_module.py`

An equivariant module (`nn/modules/equivariant_module.py`) is its two types, its forward function and its declared output shape; `none` is an exception.
Tensors are the elements of any type `X`, whose field types are in `T`; shapes are in `S`.
-/

namespace E2

variable {T X S K : Type}

/-- `EquivariantModule` (equivariant_module.py:17-62): `in_type`, `out_type`, `forward`, `evaluate_output_shape`. -/
structure EMod (T X S : Type) where
  inTy : T
  outTy : T
  fwd : X → Option X
  shape : S → Option S

/-- The attributes of a `SequentialModule` (sequential_module.py:51-52): the two types, `None` at the beginning, and the ordered dictionary of the
modules. -/
structure SeqState (K T X S : Type) where
  inTy : Option T
  outTy : Option T
  mods : List (K × EMod T X S)

/-- Assignment in an ordered dictionary (Python): a new key goes at the end, an existing one keeps its place. -/
def dictSet {V : Type} [DecidableEq K] : List (K × V) → K → V → List (K × V)
  | [], k, v => [(k, v)]
  | (k', v') :: d, k, v => if k' = k then (k', v) :: d else (k', v') :: dictSet d k v

/-- `SequentialModule.add_module` (sequential_module.py:86-100) and `torch.nn.Module.add_module` (PyTorch): `_modules[name] = module`. -/
def addModule [DecidableEq K] [DecidableEq T] (st : SeqState K T X S) (name : K) (m : EMod T X S) : Option (SeqState K T X S) :=
  if st.mods.length = 0 then
    if st.inTy = none ∧ st.outTy = none then some ⟨some m.inTy, some m.outTy, dictSet st.mods name m⟩ else none
  else if some m.inTy = st.outTy then some ⟨st.inTy, some m.outTy, dictSet st.mods name m⟩ else none

/-- The loop over the named modules (sequential_module.py:54-61). -/
def addModules [DecidableEq K] [DecidableEq T] : SeqState K T X S → List (K × EMod T X S) → Option (SeqState K T X S)
  | st, [] => some st
  | st, (k, m) :: l => (addModule st k m).bind fun st => addModules st l

/-- `SequentialModule(OrderedDict(...))` (sequential_module.py:16-61). -/
def seqNew [DecidableEq K] [DecidableEq T] (l : List (K × EMod T X S)) : Option (SeqState K T X S) := addModules ⟨none, none, []⟩ l

/-- `SequentialModule(*modules)` (sequential_module.py:58-61): the names are the positions written by `str`. -/
def seqNewArgs [DecidableEq K] [DecidableEq T] (str : ℕ → K) (ms : List (EMod T X S)) : Option (SeqState K T X S) :=
  seqNew (ms.zipIdx.map fun p => (str p.2, p.1))

/-- The loop of `forward` (sequential_module.py:79-80). -/
def runMods : List (K × EMod T X S) → X → Option X
  | [], x => some x
  | (_, m) :: l, x => (m.fwd x).bind (runMods l)

/-- `SequentialModule.forward` (sequential_module.py:66-84). -/
def seqForward [DecidableEq T] (ty : X → T) (st : SeqState K T X S) (x : X) : Option X :=
  if some (ty x) = st.inTy then
    (runMods st.mods x).bind fun y => if some (ty y) = st.outTy then some y else none
  else none

/-- `SequentialModule.evaluate_output_shape` (sequential_module.py:102-112); `okShape` is the pair of assertions on the length of the shape and on its
number of channels. -/
def seqShape (okShape : Option T → S → Bool) (st : SeqState K T X S) (s : S) : Option S :=
  if okShape st.inTy s then st.mods.foldlM (fun s m => m.2.shape s) s else none

/-- A module together with its labels, as given to `MultipleModule` (multiple_module.py:20-24) and stored by `MergeModule`
(merge_module.py:71-73): the module is applied to the tensors of its labels. -/
structure LabelledMod (L R V W : Type) where
  labels : List L
  fwd : List (GTensor R V) → Option (GTensor R W)

/-- `MultipleModule.forward` (multiple_module.py:102-120): `BranchingModule.forward`, then `MergeModule.forward` (merge_module.py:75-104), whose output
starts as the uninitialised memory `junk`.  `inType` is the type of the module. -/
def multiple {L R V W : Type} [LinearOrder L] [DecidableEq R] (sz : R → ℕ) (inType : List R) (level : ℕ) (labels : List L)
    (mods : List (LabelledMod L R V W)) (junk : List W) (x : GTensor R V) : Option (GTensor R W) :=
  if x.ty = inType then
    (mods.mapM fun (m : LabelledMod L R V W) => (m.labels.mapM fun l => branch sz level labels x l).bind m.fwd).bind fun ys => mergeGT sz junk ys
  else none

end E2
