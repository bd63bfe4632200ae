import Mathlib.Algebra.Order.Round
import Verif.Model.SpaceRestrict
import Verif.Model.Names

/-!
# `__hash__` of spaces, field types and representations

Python's `hash` of a text is not modelled: each definition gives the data from which the text is written, so that equal data are equal texts.
-/

namespace E2

/-- The name of a space (gspaces/gspace.py:57). -/
inductive SpaceName
  | trivial
  | rot (N : ℕ)
  | contRot
  | flips
  | flipRot (N : ℕ) (axis : ℤ)
  | flipCont (axis : ℤ)
deriving DecidableEq

/-- The number written by `'{:.5f}'.format(axis)`, in units of `10⁻⁵`.  Simplification: a tie is rounded up. -/
noncomputable def fmt5 (axis : ℝ) : ℤ := round (axis * 10 ^ 5)

/-- The names given by the constructors (trivial_on_r2.py:45, rot2d_on_r2.py:57-63, flip2d_on_r2.py:55, fliprot2d_on_r2.py:77-84), and `__hash__` (trivial_on_r2.py:180-181,
rot2d_on_r2.py:228-229, flip2d_on_r2.py:203-204, fliprot2d_on_r2.py:302-303), which is the hash of the name. -/
noncomputable def SpaceD.name : SpaceD → SpaceName
  | .trivial => .trivial
  | .rot N => .rot N
  | .so2 _ => .contRot
  | .flip _ => .flips
  | .flipRot N axis => .flipRot N (fmt5 axis)
  | .o2 _ axis => .flipCont (fmt5 axis)

/-- `FieldType.__hash__` (nn/field_type.py:92, 451-452): the name of the space and the names of the fields. -/
noncomputable def fieldTypeHash {R F : Type} (name : R → F) (t : SpaceD × List R) : SpaceName × List F := (t.1.name, t.2.map name)

/-- `Representation.__hash__` (group/representation.py:338-342): the text contains the name of the group, the name, the size, the number of irreps and the sum of the entries of
the change of basis. -/
noncomputable def reprHash {El F : Type} (r : NRep El F) : F × ℕ × ℕ × ℝ :=
  (r.name, r.rep.size, r.rep.irreps.length, ∑ i ∈ Finset.range r.rep.size, ∑ j ∈ Finset.range r.rep.size, r.rep.cob i j)

/-- `Representation.__eq__` (group/representation.py:328-336) for representations of one group, with exact comparison of the changes of basis.  The supported nonlinearities are
left out: comparing them too makes fewer representations equal. -/
def NRep.eqv {El F : Type} (r r' : NRep El F) : Prop := r.name = r'.name ∧ Mat.MEq r.rep.size r.rep.size r.rep.cob r'.rep.cob ∧ r.rep.irreps = r'.rep.irreps

end E2
