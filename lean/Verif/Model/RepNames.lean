import Verif.Model.Names
import Verif.Model.Continuous

/-!
# The names which the library gives to representations

A representation is built by a sequence of calls: irreps, regular, quotient and induced representations, restrictions and direct sums.  `RExp` records the calls and
their arguments; the names are those of the code.  Restrictions appear in `group/group.py:409`, the other names in `group/group.py` and in the classes of groups.
-/

namespace E2

/-- The groups of the library: the constructors of `CyclicGroup`, `DihedralGroup`, `SO2`, `O2`. -/
inductive LibGroup
  | cyc (N : ℕ)
  | dih (N : ℕ)
  | so2
  | o2

/-- `Group.name` (cyclicgroup.py:39, dihedralgroup.py:53, so2group.py:43, o2group.py:57). -/
def LibGroup.name : LibGroup → String
  | .cyc N => "C" ++ toString N
  | .dih N => "D" ++ toString N
  | .so2 => "SO(2)"
  | .o2 => "O(2)"

/-- The identifier of a subgroup: an order for `C_N` and `SO(2)`, a pair of an axis and an order for `D_N` (where the axis is an integer) and `O(2)` (where it is a
float and the order may be -1). -/
inductive SubId
  | order (M : ℕ)
  | pair (axis : Option ℕ) (M : ℕ)
  | angle (axis : Option ℝ) (M : ℤ)

/-- The group which `subgroup(id)` returns (cyclicgroup.py:114-157, dihedralgroup.py:134-216, so2group.py:113-150, o2group.py:135-226); `none` for an exception. -/
noncomputable def LibGroup.sub : LibGroup → SubId → Option LibGroup
  | .cyc N, .order M => (Cyclic.subgroup N M).map fun s => .cyc s.order
  | .dih N, .pair axis M => (Dihedral.subgroup N axis M).map fun
    | .cyc n _ _ => .cyc n
    | .dih n _ _ => .dih n
  | .so2, .order M => (SO2.subgroup M).map fun s => .cyc s.order
  | .o2, .angle axis M => (O2.subgroup axis M).map fun
    | .o2 _ _ => .o2
    | .so2 _ _ => .so2
    | .cyc n _ _ => .cyc n
    | .dih n _ _ => .dih n
  | _, _ => none

/-- How Python prints the identifiers of subgroups with which one can induce: integers, pairs of `None` or an integer and an integer, and `(None, -1)`.  The
identifiers of other subgroups of `O(2)` are never printed in the name of a representation (o2group.py:516-519). -/
def SubId.name : SubId → String
  | .order M => toString M
  | .pair none M => "(None, " ++ toString M ++ ")"
  | .pair (some a) M => "(" ++ toString a ++ ", " ++ toString M ++ ")"
  | .angle _ _ => "(None, -1)"

/-- The name of an irrep (cyclicgroup.py:252, dihedralgroup.py:384, so2group.py:235, o2group.py:368); `j` is not used by the groups without reflections. -/
def irrepName : LibGroup → ℕ → ℕ → String
  | .cyc _, _, k => "irrep_" ++ toString k
  | .so2, _, k => "irrep_" ++ toString k
  | .dih _, j, k => "irrep_" ++ toString j ++ "," ++ toString k
  | .o2, j, k => "irrep_" ++ toString j ++ "," ++ toString k

/-- `irrep(…)` returns (cyclicgroup.py:237-288, dihedralgroup.py:360-464, so2group.py:220-265, o2group.py:348-417); for the groups without reflections `j` is 0. -/
def IrrepOk : LibGroup → ℕ → ℕ → Prop
  | .cyc N, j, k => j = 0 ∧ Cyclic.irrep N k ≠ none
  | .so2, j, _ => j = 0
  | .dih N, j, k => Dihedral.irrep N j k ≠ none
  | .o2, j, k => O2.irrep j k ≠ none

/-- The calls which build a representation. -/
inductive RExp
  /-- `group.irrep(j, k)` -/
  | irrep (g : LibGroup) (j k : ℕ)
  /-- `group.regular_representation` -/
  | regular (g : LibGroup)
  /-- `group.quotient_representation(id)` -/
  | quotient (g : LibGroup) (id : SubId)
  /-- `group.induced_representation(id, subgroup.irrep(j, k))`; `h` is the subgroup -/
  | induced (g : LibGroup) (id : SubId) (h : LibGroup) (j k : ℕ)
  /-- `group.restrict_representation(id, repr)` -/
  | restrict (g : LibGroup) (id : SubId) (r : RExp)
  /-- `directsum(reprs)` -/
  | sum (rs : List RExp)

namespace RExp

/-- `Representation.name`: irreps as above, `regular` (group.py:245), quotients (group.py:281), induced representations (group.py:317), restrictions (group.py:409), default names
of direct sums (representation.py:442-443). -/
def name : RExp → String
  | irrep g j k => irrepName g j k
  | regular _ => "regular"
  | quotient _ id => "quotient[" ++ id.name ++ "]"
  | induced _ id h j k => "induced[" ++ id.name ++ "][" ++ irrepName h j k ++ "]"
  | restrict g _ r => g.name ++ ":" ++ r.name
  | sum rs => directsumName (rs.map name)

/-- The calls are legal and the result is a representation of the group: irreps which exist, regular and quotient representations of finite groups (group.py:238-240, 355-357), induction from an irrep of
the subgroup (representation.py:815) of a finite group or from `SO(2)` to `O(2)` (o2group.py:424), restriction of a representation of the group (group.py:387), sums of representations
of one group (representation.py:438-440). -/
inductive Of : RExp → LibGroup → Prop
  | irrep (g : LibGroup) (j k : ℕ) : IrrepOk g j k → Of (irrep g j k) g
  | regularC (N : ℕ) : Of (regular (.cyc N)) (.cyc N)
  | regularD (N : ℕ) : Of (regular (.dih N)) (.dih N)
  | quotientC (N : ℕ) (id : SubId) (h : LibGroup) : (LibGroup.cyc N).sub id = some h → Of (quotient (.cyc N) id) (.cyc N)
  | quotientD (N : ℕ) (id : SubId) (h : LibGroup) : (LibGroup.dih N).sub id = some h → Of (quotient (.dih N) id) (.dih N)
  | inducedC (N : ℕ) (id : SubId) (h : LibGroup) (j k : ℕ) : (LibGroup.cyc N).sub id = some h → IrrepOk h j k → Of (induced (.cyc N) id h j k) (.cyc N)
  | inducedD (N : ℕ) (id : SubId) (h : LibGroup) (j k : ℕ) : (LibGroup.dih N).sub id = some h → IrrepOk h j k → Of (induced (.dih N) id h j k) (.dih N)
  | inducedO (k : ℕ) : Of (induced .o2 (.angle none (-1)) .so2 0 k) .o2
  | restrict (g : LibGroup) (id : SubId) (h : LibGroup) (r : RExp) : Of r g → g.sub id = some h → Of (restrict g id r) h
  | sum (g : LibGroup) (rs : List RExp) : rs ≠ [] → (∀ r ∈ rs, Of r g) → Of (sum rs) g

end RExp

/-- `restrict_representation(id, repr)` with the name of the result (group.py:361-420); `restr` is `_restrict_irrep` with the id fixed. -/
noncomputable def nRestrict {El El' : Type} (g : LibGroup) (restr : Irrep El → Option (Mat × List (Irrep El'))) (r : NRep El String) : Option (NRep El' String) :=
  (Repr.restrict restr r.rep).map fun q => ⟨g.name ++ ":" ++ r.name, q⟩

end E2
