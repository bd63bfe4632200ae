import Verif.Model.Tags
import Mathlib.Analysis.SpecialFunctions.Trigonometric.Basic

/-!
# The constructor of `ConcatenatedNonLinearity`

`nn/modules/nonlinearities/concatenated.py`, the loops which check the matrices of a representation and build the matrices of the representation of the
output.  `math.isclose(x, c, abs_tol=1e-9)` is equality.
-/

namespace E2

open Mat

/-- One step of the search in row `i` (concatenated.py:195-203): an entry different from zero is noted, a second one raises. -/
noncomputable def concatRowStep (r : Mat) (i : ℕ) (e : ℤ) (j : ℕ) : Option ℤ :=
  open Classical in
  if r i j ≠ 0 then (if e < 0 then some (j : ℤ) else none) else some e

/-- The search in row `i`, which begins with -1 (concatenated.py:191-203). -/
noncomputable def concatRow (s : ℕ) (r : Mat) (i : ℕ) : Option ℤ := (List.range s).foldlM (concatRowStep r i) (-1)

/-- One cell of the output (concatenated.py:210-225): the 2×2 block is the identity for 1, the identity turned upside down for -1, and is left as it is
for 0; other values raise. -/
noncomputable def concatCell (r : Mat) (acc : Mat) (p : ℕ × ℕ) : Option Mat :=
  open Classical in
  if r p.1 p.2 = 1 then some fun a b => if a / 2 = p.1 ∧ b / 2 = p.2 then Mat.one (a % 2) (b % 2) else acc a b
  else if r p.1 p.2 = -1 then some fun a b => if a / 2 = p.1 ∧ b / 2 = p.2 then Mat.one (1 - a % 2) (b % 2) else acc a b
  else if r p.1 p.2 ≠ 0 then none
  else some acc

/-- The cells in the order of the loops (concatenated.py:210-211). -/
def concatCells (s : ℕ) : List (ℕ × ℕ) := (List.range s).flatMap fun i => (List.range s).map fun j => (i, j)

/-- The body of the loop over the elements (concatenated.py:183-225): the rows are searched, the columns found have to be different
(`len(set(e)) != len(e)` raises), then the output is filled, beginning with zeros. -/
noncomputable def concatElement (s : ℕ) (r : Mat) : Option Mat :=
  ((List.range s).mapM (concatRow s r)).bind fun e =>
    if e.dedup.length ≠ e.length then none else (concatCells s).foldlM (concatCell r) fun _ _ => 0

/-- `_transform_representation` for a finite group (concatenated.py:147-234): the dictionary of the matrices, which is given to
`build_from_discrete_group_representation` (`build`).  The look up of the name (lines 171-173) never succeeds: no function adds such a representation to the
dictionary of the group. -/
noncomputable def concatTransform {El : Type} [DecidableEq El] (els : List El) (build : ℕ → (El → Mat) → Option (Repr El × (El → ℝ))) (r : Repr El) :
    Option (Repr El) :=
  (els.mapM fun e => (concatElement r.size (r.mat e)).map fun M => (e, M)).bind fun d =>
    (build (2 * r.size) fun e => (d.lookup e).getD fun _ _ => 0).map Prod.fst

/-- `_transform_representation` (concatenated.py:147-234), for the groups of the library; a continuous group raises (line 166).  The sorting and the
numerical solver of `build_from_discrete_group_representation` are parameters. -/
noncomputable def concatRepr : (g : GName) → (srt : List (Irrep g.El × ℤ) → List (Irrep g.El × ℤ)) → (solve : List (Irrep g.El) → ℕ → ℝ) →
    Repr g.El → Option (Repr g.El)
  | .cyc N, srt, solve, r => concatTransform (Cyclic.elements N) (buildFromDiscrete (Cyclic.grp N) (Cyclic.elements N) (Cyclic.irreps N) srt solve) r
  | .dih N, srt, solve, r => concatTransform (Dihedral.elements N) (buildFromDiscrete (Dihedral.grp N) (Dihedral.elements N) (Dihedral.irreps N) srt solve) r
  | .so2, _, _, _ => none
  | .o2, _, _, _ => none

/-- `_transform_fiber_representation` (concatenated.py:119-144): each different representation (`uniq`, a set, in any order) is transformed once; then the
fields are looked up.  A `FieldType` without fields raises. -/
def concatType {F R : Type} [DecidableEq F] (uniq t : List F) (tr : F → Option R) : Option (List R) :=
  (uniq.mapM fun r => (tr r).map fun r' => (r, r')).bind fun d => (t.mapM fun r => d.lookup r).bind fun l => if l.length = 0 then none else some l

/-- The functions which can be chosen (concatenated.py:55-63). -/
noncomputable def concatFunction (name : String) : Option (ℝ → ℝ) :=
  if name = "c_relu" then some fun x => max x 0
  else if name = "c_sigmoid" then some fun x => 1 / (1 + Real.exp (-x))
  else if name = "c_tanh" then some Real.tanh
  else none

/-- `ConcatenatedNonLinearity.__init__` (concatenated.py:20-63): the representations of the output type and the function. -/
noncomputable def concatInit {F : Type} [DecidableEq F] (g : GName) (srt : List (Irrep g.El × ℤ) → List (Irrep g.El × ℤ))
    (solve : F → List (Irrep g.El) → ℕ → ℝ) (rep : F → Repr g.El) (tags : F → List Tag) (uniq t : List F) (name : String) :
    Option (List (Repr g.El) × (ℝ → ℝ)) :=
  if accepts tags .concatenated t then
    (concatType uniq t fun r => concatRepr g srt (solve r) (rep r)).bind fun outs => (concatFunction name).map fun f => (outs, f)
  else none

end E2
