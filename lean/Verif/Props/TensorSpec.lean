import Verif.Model.Tensor
import Verif.Props.LayoutSpec

/-!
# Specification: fields of a geometric tensor, selection of fields, action of the fiber group
-/

namespace E2

variable {R L V : Type}

namespace GTensor

/-- A geometric tensor that the constructors accept: at least one field, as many channels as the size of
the type. -/
def WF (sz : R → ℕ) (x : GTensor R V) : Prop := x.ty ≠ [] ∧ x.data.length = typeSize sz x.ty

/-- The feature fields: consecutive pieces of the channels. -/
def fields (sz : R → ℕ) (x : GTensor R V) : List (List V) := chunks (x.ty.map sz) x.data

/-- The tensor made of the fields with the given numbers, in this order. -/
def select (sz : R → ℕ) (x : GTensor R V) (fs : List ℕ) : Option (GTensor R V) :=
  if fs = [] then none
  else (fs.mapM fun i => x.ty[i]?).bind fun t => (fs.mapM fun i => (x.fields sz)[i]?).map fun f => ⟨t, f.flatten⟩

/-- The action of an element of the fiber group, given by the matrix `ρ r` in each representation `r`: the
matrix of a field type is block diagonal (see C10). -/
noncomputable def act [AddCommMonoid V] [Module ℝ V] (sz : R → ℕ) (ρ : R → Mat) (x : GTensor R V) : GTensor R V :=
  ⟨x.ty, chAct (typeSize sz x.ty) (Mat.bdiag (x.ty.map fun r => (sz r, ρ r))) x.data⟩

end GTensor
end E2
