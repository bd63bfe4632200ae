import Verif.Model.ConcatBuild
import Verif.Props.TagSpec
import Verif.Props.Decompose

/-!
# Specification: what the constructor of `ConcatenatedNonLinearity` should build
-/

namespace E2

open Mat

/-- Entries 1, -1 and 0, no two entries different from 0 in a row or a column, and not more than one row of zeros. -/
structure SparseSigns (s : ℕ) (r : Mat) : Prop where
  values : ∀ i < s, ∀ j < s, r i j = 1 ∨ r i j = -1 ∨ r i j = 0
  rows : ∀ i < s, ∀ j < s, ∀ j' < s, r i j ≠ 0 → r i j' ≠ 0 → j = j'
  cols : ∀ i < s, ∀ i' < s, ∀ j < s, r i j ≠ 0 → r i' j ≠ 0 → i = i'
  zero : ∀ i < s, ∀ i' < s, (∀ j < s, r i j = 0) → (∀ j < s, r i' j = 0) → i = i'

/-- The entry 1 becomes the 2×2 identity, -1 the exchange of two coordinates and 0 the 2×2 zero matrix. -/
def IsDoubled (s : ℕ) (r M : Mat) : Prop :=
  ∀ i < s, ∀ j < s, ∀ c < 2, ∀ d < 2, M (2 * i + c) (2 * j + d) =
    (open Classical in if r i j = 1 ∧ c = d ∨ r i j = -1 ∧ c ≠ d then 1 else 0)

/-- The finite groups. -/
def GName.IsFinite : GName → Prop
  | .cyc _ => True
  | .dih _ => True
  | .so2 => False
  | .o2 => False

/-- The elements of a finite group. -/
def GName.elements : (g : GName) → List g.El
  | .cyc N => Cyclic.elements N
  | .dih N => Dihedral.elements N
  | .so2 => []
  | .o2 => []

/-- A solver which finds an invertible solution of the linear system for the change of basis whenever there is one, for the doubled matrices of `r`. -/
def GoodSolver (g : GName) (r : Repr g.El) (solve : List (Irrep g.El) → ℕ → ℝ) : Prop :=
  ∀ (ρ : g.El → Mat) (irs : List (Irrep g.El)), (∀ e, g.grp.isEl e → IsDoubled r.size (r.mat e) (ρ e)) →
    (∃ x, IsSolution g.elements (2 * r.size) ρ irs x) → IsSolution g.elements (2 * r.size) ρ irs (solve irs)

end E2
