import Verif.Model.Tags
import Verif.Model.Bias

/-!
# The predicates of a representation

`irreducible` and `is_trivial` are `Repr.Irreducible` and `Repr.IsTrivial` of `Model/Tags.lean`.
-/

namespace E2

variable {El : Type}

/-- `contains_trivial()` (group/representation.py:258-273).  The irreps of the group have the identity as change of basis, so that `is_trivial` of one of them
compares its name only. -/
def Repr.containsTrivial (r : Repr El) : Bool := r.irreps.any isTrivial

end E2
