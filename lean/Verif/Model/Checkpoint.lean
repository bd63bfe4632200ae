import Mathlib.Data.List.Basic
import Mathlib.Logic.Function.Basic

/-!
# State dictionaries and shared memory of the modules

The convolutions keep the sampled bases in `SingleBlockBasisExpansion` objects, which `block_basisexpansion` shares between all modules
(basisexpansion_singleblock.py:145-185), and they create and delete the buffers `filter` and `expanded_bias` when the mode changes
(r2convolution.py:355-395).  This file models networks of such modules together with what `torch.nn.Module` does with their tensors:
`train`, `eval`, assignments to parameters, `to`, `state_dict` and `load_state_dict(strict=True)`.

The numbers in a tensor are of an arbitrary type `V`, shapes of a type `S`; `D` stands for the pairs of a device and a data type.  Simplified:
copying to another data type does not round.  The functions which compute are arbitrary: `expandF`, `expandB` (`expand_parameters`, r2convolution.py:294-312),
`runConv` (the call to `conv2d`) and `runOther` (the `forward` of the other modules).
-/

namespace E2.Ckpt

variable {K N S D V X : Type}

/-- A tensor: its shape, where it is stored, and its entries. -/
structure Ten (S D V : Type) where
  shape : S
  place : D
  val : V

/-- `copy_`: the entries of `src` are written to the memory of `t`. -/
def Ten.copy (t src : Ten S D V) : Ten S D V := { t with val := src.val }

/-- An attribute of a module which may be deleted: missing, `None`, or a buffer. -/
inductive Attr (S D V : Type)
  | absent
  | none
  | buf (t : Ten S D V)

/-- Changes the tensor of an attribute. -/
def Attr.map (f : Ten S D V → Ten S D V) : Attr S D V → Attr S D V
  | .buf t => .buf (f t)
  | a => a

/-- What the constructor fixes: whether the module is a convolution, the shapes of `filter` and of `bias_expansion @ bias`, whether there is a bias (r2convolution.py:214-239), and
the functions which compute. -/
structure ModCode (N S V X : Type) where
  conv : Bool
  fshape : S
  eshape : S
  hasBias : Bool
  expandF : List (N × V) → List (N × V) → V
  expandB : List (N × V) → V
  runConv : V → Option V → X → Option X
  runOther : Bool → List (N × V) → X → Option X

/-- A module: the parameters and buffers of its own (`weights`, `bias`, `bias_expansion`, the indices; running statistics), the addresses of the shared `sampled_basis`, and the two
buffers which come and go. -/
structure Mod (N S D V X : Type) where
  code : ModCode N S V X
  training : Bool
  own : List (N × Ten S D V)
  shared : List (N × ℕ)
  filter : Attr S D V
  ebias : Attr S D V

/-- The objects of `_stored_filters` and those built with `recompute=True`, by address. -/
abbrev Heap (S D V : Type) := ℕ → Ten S D V

/-- The entries of the tensors. -/
def ownVals (own : List (N × Ten S D V)) : List (N × V) := own.map fun e => (e.1, e.2.val)

/-- The entries of the shared tensors. -/
def sharedVals (h : Heap S D V) (sh : List (N × ℕ)) : List (N × V) := sh.map fun e => (e.1, (h e.2).val)

namespace Mod

variable [DecidableEq D]

/-- All the tensors needed by `expand_parameters` are at `p`. -/
def tensorsAt (h : Heap S D V) (m : Mod N S D V X) (p : D) : Bool :=
  m.own.all (fun e => decide (e.2.place = p)) && m.shared.all fun e => decide ((h e.2).place = p)

/-- `expand_parameters` (r2convolution.py:294-312): fails when the tensors are not all in the same place.  The result is where the first tensor of the module, its weights, is. -/
def expandParameters (h : Heap S D V) (m : Mod N S D V X) : Option (Ten S D V × Attr S D V) :=
  match m.own.head? with
  | none => none
  | some e =>
    if m.tensorsAt h e.2.place then
      some (⟨m.code.fshape, e.2.place, m.code.expandF (ownVals m.own) (sharedVals h m.shared)⟩,
        if m.code.hasBias then .buf ⟨m.code.eshape, e.2.place, m.code.expandB (ownVals m.own)⟩ else .none)
    else none

/-- `train(mode)` (r2convolution.py:355-395; torch.nn.Module.train for the other modules).  `none` when `expand_parameters` raises. -/
def setMode (h : Heap S D V) (mode : Bool) (m : Mod N S D V X) : Option (Mod N S D V X) :=
  if !m.code.conv then some { m with training := mode }
  else if mode then some { m with training := true, filter := .absent, ebias := .absent }
  else if m.training then (m.expandParameters h).map fun e => { m with training := false, filter := .buf e.1, ebias := e.2 }
  else some m

/-- An assignment to the entries of parameters and buffers: an optimiser step, or the update of running statistics. -/
def assign [DecidableEq N] (vs : List (N × V)) (m : Mod N S D V X) : Mod N S D V X :=
  { m with own := m.own.map fun e => (e.1, { e.2 with val := (vs.lookup e.1).getD e.2.val }) }

/-- The tensors are where the input is: those which `forward` uses (r2convolution.py:330-353). -/
def placed (h : Heap S D V) (m : Mod N S D V X) (p : D) : Bool :=
  if m.code.conv && !m.training then
    (match m.filter with | .buf t => decide (t.place = p) | _ => true) && (match m.ebias with | .buf t => decide (t.place = p) | _ => true)
  else m.tensorsAt h p

/-- The numbers which `forward` computes (r2convolution.py:330-353); `none` for an `AttributeError` or an input which is refused. -/
def compute (h : Heap S D V) (m : Mod N S D V X) (x : X) : Option X :=
  if m.code.conv then
    if m.training then
      m.code.runConv (m.code.expandF (ownVals m.own) (sharedVals h m.shared)) (if m.code.hasBias then some (m.code.expandB (ownVals m.own)) else none) x
    else
      match m.filter, m.ebias with
      | .buf f, .buf b => m.code.runConv f.val (some b.val) x
      | .buf f, .none => m.code.runConv f.val none x
      | _, _ => none
  else m.code.runOther m.training (ownVals m.own) x

/-- `forward` on an input stored at `p`. -/
def forward (h : Heap S D V) (m : Mod N S D V X) (p : D) (x : X) : Option X := if m.placed h p then m.compute h x else none

/-- `to`, `cuda`, `double`, …: every parameter and buffer is moved (torch.nn.Module._apply). -/
def moveTo (p : D) (m : Mod N S D V X) : Mod N S D V X :=
  { m with own := m.own.map (fun e => (e.1, { e.2 with place := p })), filter := m.filter.map fun t => { t with place := p },
           ebias := m.ebias.map fun t => { t with place := p } }

end Mod

/-- The names of the entries of a state dictionary, without the prefix of the module: names of the module's own tensors, `_basisexpansion.block_expansion_….sampled_basis`
(basisexpansion_blocks.py:81, basisexpansion_singleblock.py:86), `filter`, `expanded_bias`. -/
inductive Key (N : Type)
  | own (n : N)
  | shared (n : N)
  | filter
  | ebias
  deriving DecidableEq

/-- A buffer which exists is saved; `None` is not. -/
def Attr.entry (k : Key N) : Attr S D V → List (Key N × Ten S D V)
  | .buf t => [(k, t)]
  | _ => []

/-- `state_dict()` of one module. -/
def Mod.entries (h : Heap S D V) (m : Mod N S D V X) : List (Key N × Ten S D V) :=
  m.own.map (fun e => (Key.own e.1, e.2)) ++ m.shared.map (fun e => (Key.shared e.1, h e.2)) ++ m.filter.entry .filter ++ m.ebias.entry .ebias

/-- A network: the modules of a `SequentialModule`, by name (sequential_module.py:16-84). -/
abbrev Net (K N S D V X : Type) := List (K × Mod N S D V X)

/-- A state dictionary. -/
abbrev StateDict (K N S D V : Type) := List ((K × Key N) × Ten S D V)

/-- `state_dict()` of a network: the entries of the modules, prefixed by their names. -/
def stateDict (h : Heap S D V) (net : Net K N S D V X) : StateDict K N S D V := net.flatMap fun e => (e.2.entries h).map fun q => ((e.1, q.1), q.2)

/-- The shared tensors of a network. -/
def sharedOf (net : Net K N S D V X) : List ((K × N) × ℕ) := net.flatMap fun e => e.2.shared.map fun q => ((e.1, q.1), q.2)

section load
variable [DecidableEq K] [DecidableEq N] [DecidableEq S]

/-- What `load_state_dict` does with one tensor (torch.nn.Module._load_from_state_dict): entries of another shape are not copied. -/
def loadTen (sd : StateDict K N S D V) (k : K × Key N) (t : Ten S D V) : Ten S D V :=
  match sd.lookup k with
  | none => t
  | some s => if s.shape = t.shape then t.copy s else t

/-- The tensors of one module after loading. -/
def loadMod (sd : StateDict K N S D V) (c : K) (m : Mod N S D V X) : Mod N S D V X :=
  { m with own := m.own.map (fun e => (e.1, loadTen sd (c, .own e.1) e.2)), filter := m.filter.map (loadTen sd (c, .filter)), ebias := m.ebias.map (loadTen sd (c, .ebias)) }

/-- A shared tensor is written. -/
def loadOne (sd : StateDict K N S D V) (h : Heap S D V) (e : (K × N) × ℕ) : Heap S D V := Function.update h e.2 (loadTen sd (e.1.1, .shared e.1.2) (h e.2))

/-- The shared memory after loading: the tensors are written one after the other. -/
def loadHeap (sd : StateDict K N S D V) (h : Heap S D V) (net : Net K N S D V X) : Heap S D V := (sharedOf net).foldl (loadOne sd) h

/-- `load_state_dict` raises an error, after having copied what it can: a key is missing, a shape differs, or a key is unexpected. -/
def loadFails (sd : StateDict K N S D V) (h : Heap S D V) (net : Net K N S D V X) : Bool :=
  (stateDict h net).any (fun e => match sd.lookup e.1 with | none => true | some s => decide (s.shape ≠ e.2.shape)) ||
    sd.any fun e => decide (e.1 ∉ (stateDict h net).map Prod.fst)

end load

/-- `train(mode)` of a network calls that of the modules in turn; when one raises the later ones are not called.  The flag says whether all went well. -/
def setModeNet [DecidableEq D] (h : Heap S D V) (mode : Bool) : Net K N S D V X → Net K N S D V X × Bool
  | [] => ([], true)
  | e :: r =>
    match e.2.setMode h mode with
    | none => (e :: r, false)
    | some m => let q := setModeNet h mode r; ((e.1, m) :: q.1, q.2)

/-- The modules are called one after the other (sequential_module.py:66-84). -/
def netForward [DecidableEq D] (h : Heap S D V) (p : D) : Net K N S D V X → X → Option X
  | [], x => some x
  | e :: r, x => (e.2.forward h p x).bind (netForward h p r)

/-- A process: the shared memory and the networks. -/
structure World (K N S D V X : Type) where
  heap : Heap S D V
  nets : ℕ → Net K N S D V X

/-- What can be done with a network; `assign` is any assignment to parameters and running statistics. -/
inductive Op (K N S D V : Type)
  | train
  | eval
  | assign (vs : K → List (N × V))
  | move (p : D)
  | load (sd : StateDict K N S D V)

variable [DecidableEq K] [DecidableEq N] [DecidableEq S] [DecidableEq D]

/-- One operation on network `i`: the new state, and whether it returned without an exception.  `to` and `load_state_dict` also write the shared memory. -/
def step (w : World K N S D V X) (i : ℕ) : Op K N S D V → World K N S D V X × Bool
  | .train => let q := setModeNet w.heap true (w.nets i); (⟨w.heap, Function.update w.nets i q.1⟩, q.2)
  | .eval => let q := setModeNet w.heap false (w.nets i); (⟨w.heap, Function.update w.nets i q.1⟩, q.2)
  | .assign vs => (⟨w.heap, Function.update w.nets i ((w.nets i).map fun e => (e.1, e.2.assign (vs e.1)))⟩, true)
  | .move p =>
    (⟨fun a => if a ∈ (sharedOf (w.nets i)).map Prod.snd then { w.heap a with place := p } else w.heap a,
      Function.update w.nets i ((w.nets i).map fun e => (e.1, e.2.moveTo p))⟩, true)
  | .load sd => (⟨loadHeap sd w.heap (w.nets i), Function.update w.nets i ((w.nets i).map fun e => (e.1, loadMod sd e.1 e.2))⟩, !loadFails sd w.heap (w.nets i))

/-- The state after a sequence of operations; exceptions are caught. -/
def run (w : World K N S D V X) (ops : List (ℕ × Op K N S D V)) : World K N S D V X := ops.foldl (fun w o => (step w o.1 o.2).1) w

/-- The addresses which `block_basisexpansion` (basisexpansion_singleblock.py:151-185) returns for the keys `q` (basis, mask and points) of the blocks of a network, from the dictionary `stored` and the first free
address: with `recompute` always a new object, otherwise the stored one if there is one. -/
def buildBlocks {Q : Type} [DecidableEq Q] (recompute : Bool) : List (Q × ℕ) → ℕ → List Q → List ℕ × List (Q × ℕ) × ℕ
  | stored, free, [] => ([], stored, free)
  | stored, free, q :: qs =>
    match (if recompute then none else stored.lookup q) with
    | some a => let r := buildBlocks recompute stored free qs; (a :: r.1, r.2)
    | none => let r := buildBlocks recompute (if recompute then stored else stored ++ [(q, free)]) (free + 1) qs; (free :: r.1, r.2)

end E2.Ckpt
