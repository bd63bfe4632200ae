import Verif.Model.Layout
import Verif.Model.Rep

/-!
# Specification: the fields of a tensor
-/

namespace E2

variable {V : Type*}

/-- The consecutive pieces of a list of channels with the given sizes: the feature fields. -/
def chunks : List ℕ → List V → List (List V)
  | [], _ => []
  | s :: ss, x => x.take s :: chunks ss (x.drop s)

/-- The action of an `n × n` array on the channels of a field. -/
noncomputable def chAct [AddCommMonoid V] [Module ℝ V] (n : ℕ) (M : Mat) (x : List V) : List V :=
  (List.range n).map fun c => ∑ j ∈ Finset.range n, M c j • (x[j]?.getD 0)

end E2
