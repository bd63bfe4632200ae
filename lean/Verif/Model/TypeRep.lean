import Verif.Model.RepNames
import Verif.Model.Names
import Verif.Model.Image

/-!
# The representation of a field type and the restriction of a type (`nn/field_type.py`)

A type is a list of representations with names, as in `Model/Names.lean`.
-/

namespace E2

open Mat

variable {El El' : Type}

/-- `FieldType.representation` (field_type.py:105-127): the direct sum of the fields.  Its name is `typeReprName`. -/
def typeRepresentation (t : List (NRep El String)) : Repr El := Repr.directsum (t.map NRep.rep)

/-- What the name of `FieldType.representation` is built from (field_type.py:124-125): the size and the sorted names of the set of representations, which `uniq` lists. -/
def typeReprName (uniq t : List (NRep El String)) : ℕ × List String :=
  (typeSize (fun f => f.rep.size) t, (uniq.map NRep.name).mergeSort fun a b => decide (a ≤ b))

/-- The loop of `FieldType.irreps` (field_type.py:139-142). -/
def typeIrreps (t : List (NRep El String)) : List (Irrep El) := t.foldl (fun l f => l ++ f.rep.irreps) []

/-- `FieldType.change_of_basis` and `get_dense_change_of_basis` (field_type.py:144-165, 181-189). -/
def typeCob (t : List (NRep El String)) : Mat := bdiag (t.map fun f => (f.rep.size, f.rep.cob))

/-- `FieldType.change_of_basis_inv` and `get_dense_change_of_basis_inv` (field_type.py:167-179, 191-200). -/
def typeCobInv (t : List (NRep El String)) : Mat := bdiag (t.map fun f => (f.rep.size, f.rep.cobInv))

/-- `FieldType.transform` (field_type.py:202-240) on images with `n × n` pixels, by `GSpace.featurefield_action` (gspaces/gspace.py:126-134).  Also
`GeometricTensor.transform` (geometric_tensor.py:310-331).  The conversions between tensors and arrays are left out. -/
noncomputable def typeTransform (base : ℕ → El → Img → Img) (t : List (NRep El String)) (n : ℕ) (g : El) (x : Fmap) : Fmap :=
  fieldAct (typeSize (fun f => f.rep.size) t) ((typeRepresentation t).mat g) (base n g) x

open Classical in
/-- The dictionary `restricted_reprs` (field_type.py:266-269) after the loop over the set of representations, listed by `uniq`: an entry with the same name is
overwritten.  `none` if a restriction raises an exception. -/
noncomputable def restrictDict (restr : NRep El String → Option (NRep El' String)) (uniq : List (NRep El String)) : Option (String → Option (NRep El' String)) :=
  uniq.foldlM (fun d r => (restr r).map fun q => Function.update d r.name (some q)) fun _ => none

/-- The fields of `FieldType.restrict(id)` (field_type.py:242-277): each field is looked up by its name.  `restr` is `restrict_representation` with the id fixed.  The
space of the new type is in `Model/SpaceRestrict.lean`.  Also the type built by `RestrictionModule.__init__` (modules/restriction_module.py:42-51). -/
noncomputable def restrictType (restr : NRep El String → Option (NRep El' String)) (uniq t : List (NRep El String)) : Option (List (NRep El' String)) :=
  (restrictDict restr uniq).bind fun d => t.mapM fun r => d r.name

end E2
