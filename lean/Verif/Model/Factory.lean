import Mathlib.Data.List.Basic
import Mathlib.Data.Int.Basic
import Mathlib.Tactic.Common

/-!
# Group objects and their factories

Objects live in a heap and are identified by their address.  An object keeps what the factories and the methods building irreps read and write: the order or the
maximum frequency, the keys of the dictionary `irreps`, the keys of `representations` which belong to irreps, and the subgroup `(None, -1)` memoised by `O2`.
The key of an irrep is `(j, k)`, with `j = 0` for C_N and SO(2) (the code uses the string `irrep_k` or `irrep_j,k`).  Dictionaries with integer keys are
functions to `Option`.  Non-integer arguments (which the assertions reject) are not modelled.
-/

namespace E2.Factory

/-- The class of a group object. -/
inductive Kind
  | cyclic
  | dihedral
  | so2
  | o2
deriving DecidableEq

/-- A group object (group.py:16-48). `param` is `N` or `_maximum_frequency`. -/
structure Obj where
  kind : Kind
  param : ℤ
  irreps : List (ℤ × ℤ)
  reprs : List (ℤ × ℤ)
  sub : Option ℕ
deriving DecidableEq

/-- `name not in self.irreps` followed by the assignment (so2group.py:237-263, o2group.py:370-413, cyclicgroup.py:254-288, dihedralgroup.py:386-464). -/
def addKey (l : List (ℤ × ℤ)) (key : ℤ × ℤ) : List (ℤ × ℤ) := if key ∈ l then l else l ++ [key]

/-- `range(n)`. -/
def irange (n : ℤ) : List ℤ := (List.range n.toNat).map Int.ofNat

/-- The keys of the irreps built by `_build_representations`: so2group.py:203-209, o2group.py:330-337, cyclicgroup.py:211-213, dihedralgroup.py:319-333. -/
def builtKeys : Kind → ℤ → List (ℤ × ℤ)
  | .cyclic, n => (irange (n / 2 + 1)).map fun k => (0, k)
  | .dihedral, n => (0, 0) :: ((irange (n / 2 + 1)).map fun k => (1, k)) ++ (if n % 2 = 0 then [(0, n / 2)] else [])
  | .so2, f => (0, 0) :: (irange (f + 1)).map fun k => (0, k)
  | .o2, f => (0, 0) :: (irange (f + 1)).map fun k => (1, k)

/-- `_build_representations`: build the irreps, then `self.representations.update(**self.irreps)`. -/
def build (o : Obj) : Obj :=
  let irr := (builtKeys o.kind o.param).foldl addKey o.irreps
  { o with irreps := irr, reprs := irr.foldl addKey o.reprs }

/-- The assertion at the start of the constructors: `N > 0` (cyclicgroup.py:37, dihedralgroup.py:51), `maximum_frequency >= 0` (so2group.py:41, o2group.py:55). -/
def okParam : Kind → ℤ → Bool
  | .cyclic, n => 0 < n
  | .dihedral, n => 0 < n
  | .so2, f => 0 ≤ f
  | .o2, f => 0 ≤ f

/-- The memory of the process: the heap, and the module variables `_cached_group_instances` (cyclicgroup.py:17, dihedralgroup.py:15) and
`_cached_group_instance` (so2group.py:15, o2group.py:20). -/
structure Sys where
  heap : List Obj
  cyc : ℤ → Option ℕ
  dih : ℤ → Option ℕ
  so2 : Option ℕ
  o2 : Option ℕ

/-- The memory after the modules have been imported. -/
def init : Sys := ⟨[], fun _ => none, fun _ => none, none, none⟩

/-- A constructor: `none` when the assertion fails. -/
def new (s : Sys) (k : Kind) (p : ℤ) : Option (Sys × ℕ) :=
  if okParam k p then some ({ s with heap := s.heap ++ [build ⟨k, p, [], [], none⟩] }, s.heap.length) else none

/-- `_maximum_frequency = maximum_frequency; _build_representations()` when it grows (so2group.py:272-274, o2group.py:526-528). -/
def grow (s : Sys) (a : ℕ) (f : ℤ) : Sys :=
  { s with heap := s.heap.modify a fun o => if o.param < f then build { o with param := f } else o }

/-- What a program can do with the factories and the objects. -/
inductive Op
  /-- `cyclic_group(N)`; `trivial_group()` is `cyclic_group(1)` (factory.py:31, 52). -/
  | cyclicGroup (N : ℤ)
  | dihedralGroup (N : ℤ)
  | so2Group (F : ℤ)
  | o2Group (F : ℤ)
  /-- A constructor called directly, as users can and the methods `subgroup` do. -/
  | construct (k : Kind) (p : ℤ)
  /-- The method `irrep` of the SO(2) or O(2) object at an address. -/
  | irrep (a : ℕ) (j k : ℤ)
  /-- `subgroup((None, -1))` of the O(2) object at an address (o2group.py:187-196). -/
  | subgroup (a : ℕ)

/-- One operation: the new memory, and the address of the object returned (`none` when the operation raises or returns no group). -/
def step (s : Sys) : Op → Sys × Option ℕ
  | .cyclicGroup N =>
    match s.cyc N with
    | some a => (s, some a)
    | none => match new s .cyclic N with
      | some (s', a) => ({ s' with cyc := fun M => if M = N then some a else s'.cyc M }, some a)
      | none => (s, none)
  | .dihedralGroup N =>
    match s.dih N with
    | some a => (s, some a)
    | none => match new s .dihedral N with
      | some (s', a) => ({ s' with dih := fun M => if M = N then some a else s'.dih M }, some a)
      | none => (s, none)
  | .so2Group F =>
    match s.so2 with
    | some a => (grow s a F, some a)
    | none => match new s .so2 F with
      | some (s', a) => ({ s' with so2 := some a }, some a)
      | none => (s, none)
  | .o2Group F =>
    match s.o2 with
    | some a => (grow s a F, some a)
    | none => match new s .o2 F with
      | some (s', a) => ({ s' with o2 := some a }, some a)
      | none => (s, none)
  | .construct k p =>
    match new s k p with
    | some (s', a) => (s', some a)
    | none => (s, none)
  | .irrep a j k =>
    ({ s with heap := s.heap.modify a fun o =>
        if (o.kind = .so2 ∧ j = 0 ∧ 0 ≤ k) ∨ (o.kind = .o2 ∧ (j = 0 ∧ k = 0 ∨ j = 1 ∧ 0 ≤ k)) then { o with irreps := addKey o.irreps (j, k) } else o }, none)
  | .subgroup a =>
    match s.heap[a]? with
    | some o =>
      if o.kind = .o2 then
        match o.sub with
        | some b => (s, some b)
        | none => match new s .so2 o.param with
          | some (s', b) => ({ s' with heap := s'.heap.modify a fun o => { o with sub := some b } }, some b)
          | none => (s, none)
      else (s, none)
    | none => (s, none)

/-- The memory after a history of operations. -/
def after (h : List Op) : Sys := h.foldl (fun s o => (step s o).1) init

/-- What an operation returns after a history. -/
def returns (h : List Op) (o : Op) : Option ℕ := (step (after h) o).2

end E2.Factory
