import Verif.Props.TensorSpec

/-!
# Specification: transformations of fields

A field is a list of channels, a channel a function from positions (batch entries and pixels) to the reals.  A transformation acts on the channels
of each field by the matrix of its representation, and moves the positions by a map `π`.
-/

namespace E2

open Mat

variable {P R : Type}

/-- A field multiplied by one scalar at each position. -/
def scaleField (m : P → ℝ) (fld : List (P → ℝ)) : List (P → ℝ) := fld.map fun v p => m p * v p

/-- The values of a field at a position. -/
def fieldAt (fld : List (P → ℝ)) (p : P) : List ℝ := fld.map fun v => v p

/-- A field transformed by an array `M` and a map of the positions. -/
noncomputable def moveField (n : ℕ) (M : Mat) (π : P → P) (fld : List (P → ℝ)) : List (P → ℝ) := (chAct n M fld).map fun v => v ∘ π

/-- A tensor transformed by the matrices `ρ r` of an element of the group in each representation `r` and by a map of the positions. -/
noncomputable def GTensor.transform (sz : R → ℕ) (ρ : R → Mat) (π : P → P) (x : GTensor R (P → ℝ)) : GTensor R (P → ℝ) :=
  ⟨x.ty, (x.act sz ρ).data.map fun v => v ∘ π⟩

/-- An orthogonal `n × n` array. -/
def Orth (n : ℕ) (M : Mat) : Prop := MEq n n (Mat.mul n (Mat.tr M) M) Mat.one

/-- A `n × n` permutation array: row `i` has its one in column `σ i`. -/
def IsPerm (n : ℕ) (M : Mat) : Prop :=
  ∃ σ : Equiv.Perm (Fin n), ∀ i j : Fin n, M i j = if j = σ i then 1 else 0

end E2
