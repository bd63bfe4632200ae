import Mathlib.Data.Real.Basic
import Mathlib.Logic.Function.Basic

/-!
# Caches: model of `build_kernel_basis`, `build_diffop_basis` (gspaces/r2/general_r2.py) and of the cache of discretised operators
(diffops/utils.py)
-/

namespace E2

/-! ### The bases remembered by a space -/

/-- The values in the dictionary of the arguments: tuples of numbers, or anything else. -/
inductive ArgVal (V : Type) where
  | tuple (l : List ℝ)
  | other (v : V)

/-- A dictionary of keyword arguments.  `tuple(sorted(d.items()))` (general_r2.py:115, 188) is equal for two dictionaries exactly when they have the
same items, so the dictionary itself is the key. -/
abbrev Kwargs (V : Type) := String → Option (ArgVal V)

/-- A call of `build_kernel_basis` or `build_diffop_basis`, with representations in `R`. -/
inductive BasisReq (R V Disc : Type) where
  | kernel (inR outR : R) (sigma : ℝ ⊕ List ℝ) (rings : List ℝ) (kwargs : Kwargs V)
  | diffop (inR outR : R) (maxPower : ℕ) (disc : Disc) (kwargs : Kwargs V)

section Space

variable {R V Disc N B : Type}

/-- What a space is given: the test `repr.group == self.fibergroup`, the names of the representations and the two generators (`none` for an
exception). -/
structure BasisGen (R V Disc N B : Type) where
  ofGroup : R → Bool
  name : R → N
  kernel : R → R → List ℝ → List ℝ → Kwargs V → Option B
  diffop : R → R → ℕ → Disc → Kwargs V → Option B

/-- `_fields_intertwiners_basis_memory` (general_r2.py:39-42). -/
abbrev Memory (V N B : Type) := Kwargs V → N × N → Option B

/-- A scalar `sigma` stands for all the rings (general_r2.py:105-106). -/
def sigmaList (sigma : ℝ ⊕ List ℝ) (rings : List ℝ) : List ℝ :=
  match sigma with
  | .inl s => List.replicate rings.length s
  | .inr l => l

/-- The key of the kernels (general_r2.py:112-115). -/
def kernelKey (sigma rings : List ℝ) (kwargs : Kwargs V) : Kwargs V :=
  Function.update (Function.update kwargs "sigma" (some (.tuple sigma))) "rings" (some (.tuple rings))

/-- The lookup (general_r2.py:117-126, 190-199): the basis is generated when the names are not in the dictionary of the key. -/
noncomputable def remember [DecidableEq N] (mem : Memory V N B) (key : Kwargs V) (names : N × N) (make : Option B) : Option B × Memory V N B :=
  match mem key names with
  | some b => (some b, mem)
  | none =>
    match make with
    | none => (none, mem)
    | some b => (some b, by classical exact fun k n => if k = key ∧ n = names then some b else mem k n)

open Classical in
/-- `build_kernel_basis` (general_r2.py:44-126) and `build_diffop_basis` (general_r2.py:128-199): the result (`none` for an exception) and the memory
afterwards. -/
noncomputable def buildBasis [DecidableEq N] (gen : BasisGen R V Disc N B) (mem : Memory V N B) : BasisReq R V Disc → Option B × Memory V N B
  | .kernel i o sigma rings kwargs =>
    if ¬ (gen.ofGroup i ∧ gen.ofGroup o) then (none, mem)
    else if ¬ (∀ s ∈ sigmaList sigma rings, 0 < s) ∨ (sigmaList sigma rings).length ≠ rings.length then (none, mem)
    else remember mem (kernelKey (sigmaList sigma rings) rings kwargs) (gen.name i, gen.name o) (gen.kernel i o rings (sigmaList sigma rings) kwargs)
  | .diffop i o maxPower disc kwargs =>
    if ¬ (gen.ofGroup i ∧ gen.ofGroup o) then (none, mem)
    else remember mem kwargs (gen.name i, gen.name o) (gen.diffop i o maxPower disc kwargs)

/-- A sequence of calls: the results and the memory at the end. -/
noncomputable def buildAll [DecidableEq N] (gen : BasisGen R V Disc N B) : Memory V N B → List (BasisReq R V Disc) → List (Option B) × Memory V N B
  | mem, [] => ([], mem)
  | mem, r :: rs => ((buildBasis gen mem r).1 :: (buildAll gen (buildBasis gen mem r).2 rs).1, (buildAll gen (buildBasis gen mem r).2 rs).2)

end Space

/-! ### The cache of discretised operators -/

/-- The module variable `_DIFFOP_CACHE` of a process and the contents of the file on disk.  The key is
`(points.tobytes(), coefficients.tobytes(), smoothing, phi, method)` (diffops/utils.py:87); the bytes of arrays of doubles of known dimensions stand
for the arrays. -/
structure DCache (K W : Type) where
  cache : K → Option W
  file : Option (K → Option W)

/-- A call of `discretize_homogeneous_polynomial`, `store_cache`, `load_cache`, or the start of a new process. -/
inductive DOp (K : Type) where
  | disc (k : K)
  | store
  | load
  | restart

section Disc

variable {K W : Type} [DecidableEq K]

/-- `discretize_homogeneous_polynomial` (diffops/utils.py:87-99, 167-168): the cache is looked up first; the zero operator is not stored. `compute` is the
discretisation and `isZero` tells whether all the coefficients are zero. -/
def discStep (compute : K → W) (isZero : K → Bool) (s : DCache K W) (k : K) : W × DCache K W :=
  match s.cache k with
  | some w => (w, s)
  | none => if isZero k then (compute k, s) else (compute k, { s with cache := Function.update s.cache k (some (compute k)) })

/-- `load_cache` (diffops/utils.py:31-45): `_DIFFOP_CACHE = pickle.load(f)` inside the function assigns a variable of the function, which has no
`global` statement: the module variable keeps its value. -/
def loadCache (s : DCache K W) : DCache K W :=
  match s.file with
  | none => s
  | some _local => s

/-- `store_cache` (diffops/utils.py:47-61). -/
def storeCache (s : DCache K W) : DCache K W := { s with file := some s.cache }

/-- One operation: the result of a discretisation, and the new state. -/
def dOp (compute : K → W) (isZero : K → Bool) (s : DCache K W) : DOp K → Option W × DCache K W
  | .disc k => (some (discStep compute isZero s k).1, (discStep compute isZero s k).2)
  | .store => (none, storeCache s)
  | .load => (none, loadCache s)
  | .restart => (none, { s with cache := fun _ => none })

/-- A history. -/
def dRun (compute : K → W) (isZero : K → Bool) : DCache K W → List (DOp K) → List (Option W) × DCache K W
  | s, [] => ([], s)
  | s, o :: os => ((dOp compute isZero s o).1 :: (dRun compute isZero (dOp compute isZero s o).2 os).1, (dRun compute isZero (dOp compute isZero s o).2 os).2)

end Disc

end E2
