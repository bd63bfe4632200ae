import Verif.Model.Rep
import Mathlib.Logic.Relation

/-!
# `disentangle` (group/representation.py:471-605)
-/

namespace E2

open Finset Mat

/-- What is used of `scipy.sparse.csgraph.connected_components(graph, directed=False, return_labels=True)`: on the
vertices `0 .. nV - 1` the labels are the numbers `0 .. n - 1`, all of them occur, and two vertices have the same
label if and only if they are connected. -/
structure IsComponents (nV : ℕ) (adj : ℕ → ℕ → Prop) (n : ℕ) (lab : ℕ → ℕ) : Prop where
  lt : ∀ v < nV, lab v < n
  surj : ∀ b < n, ∃ v < nV, lab v = b
  iff : ∀ u < nV, ∀ v < nV, (lab u = lab v ↔ Relation.EqvGen (fun a b => a < nV ∧ b < nV ∧ adj a b) u v)

/-- `A[np.ix_(rows, cols)]`. -/
def ix (rows cols : List ℕ) (A : Mat) : Mat := fun i j => A (rows.getD i 0) (cols.getD j 0)

namespace Repr

variable {El : Type}

/-- `irreps_pos` (representation.py:545): start of the columns of irrep `i`. -/
def irrepPos (r : Repr El) (i : ℕ) : ℕ := ((r.irreps.map Irrep.size).take i).sum

/-- The `i`-th irrep's size (zero outside the list; never read there). -/
def irrepSize (r : Repr El) (i : ℕ) : ℕ := (r.irreps.map Irrep.size).getD i 0

/-- The bipartite graph of irreps and rows (representation.py:541-558): the irrep `i` (vertex `i`) and the row `x`
(vertex `nirreps + x`) are joined if some entry of the row `x` in the columns of the irrep is non-zero
(`np.isclose(_, 0)` is exact). -/
def entangled (r : Repr El) (u v : ℕ) : Prop :=
  ∃ i x c, i < r.irreps.length ∧ x < r.size ∧ c < r.irrepSize i ∧ r.cob x (r.irrepPos i + c) ≠ 0 ∧
    ((u = i ∧ v = r.irreps.length + x) ∨ (v = i ∧ u = r.irreps.length + x))

/-- `blocks[b][0]` (representation.py:567-568, 578), already sorted. -/
def irrepIdx (r : Repr El) (lab : ℕ → ℕ) (b : ℕ) : List ℕ :=
  (List.range r.irreps.length).filter fun i => lab i = b

/-- `blocks[b][1]` (representation.py:569-570, 579), already sorted. -/
def rowIdx (r : Repr El) (lab : ℕ → ℕ) (b : ℕ) : List ℕ :=
  (List.range r.size).filter fun x => lab (r.irreps.length + x) = b

/-- `col_indices` (representation.py:585-587). -/
def colIdx (r : Repr El) (lab : ℕ → ℕ) (b : ℕ) : List ℕ :=
  (r.irrepIdx lab b).flatMap fun i => List.range' (r.irrepPos i) (r.irrepSize i)

/-- `[irreps[id].name for id in irreps_indices]` (representation.py:595). -/
def irrepSel (r : Repr El) (lab : ℕ → ℕ) (b : ℕ) : List (Irrep El) :=
  (r.irrepIdx lab b).filterMap fun i => r.irreps[i]?

/-- The assignments `change_of_basis[current:next, row_indices] = np.eye(...)` (representation.py:600-603); the slices
of different blocks are disjoint. -/
def permMat : List (List ℕ) → Mat
  | [] => fun _ _ => 0
  | rows :: l => fun i c =>
      if i < rows.length then (if rows[i]? = some c then 1 else 0) else permMat l (i - rows.length) c

open Classical in
/-- `disentangle(repr)` (representation.py:471-605), given the result `(n, lab)` of `connected_components`;
`none` when one of the two assertions on the block sizes (lines 583 and 589) fails.  The supported nonlinearities of the
results are those of the argument, see `Lib.disentangle` in Model/Tags; the names are not modelled. -/
noncomputable def disentangle (r : Repr El) (n : ℕ) (lab : ℕ → ℕ) : Option (Mat × List (Repr El)) :=
  if ∀ b < n, ((r.irrepSel lab b).map Irrep.size).sum = (r.rowIdx lab b).length ∧
      (r.colIdx lab b).length = (r.rowIdx lab b).length then
    some (permMat ((List.range n).map (r.rowIdx lab)),
      (List.range n).map fun b => mk' (r.irrepSel lab b) (ix (r.rowIdx lab b) (r.colIdx lab b) r.cob))
  else none

end Repr
end E2
