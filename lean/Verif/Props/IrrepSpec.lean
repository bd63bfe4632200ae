import Verif.Props.Spec
import Mathlib.LinearAlgebra.Matrix.ToLin
import Mathlib.LinearAlgebra.FiniteDimensional.Basic
import Mathlib.LinearAlgebra.Dimension.Finrank
import Mathlib.Tactic.Module

/-!
# Specification: irreducibility and intertwiners
-/

namespace E2

open Mat

variable {El : Type}

/-- A subspace which every element of the group maps into itself. -/
def IsInvariant (G : Grp El) (r : Irrep El) (W : Submodule ℝ (Fin r.size → ℝ)) : Prop :=
  ∀ g, G.isEl g → ∀ w ∈ W, (toM r.size (r.mat g)).mulVec w ∈ W

/-- Irreducible: not zero, and no invariant subspace but zero and the whole space. -/
def IsIrreducible (G : Grp El) (r : Irrep El) : Prop := 0 < r.size ∧ ∀ W, IsInvariant G r W → W = ⊥ ∨ W = ⊤

/-- The linear maps from the space of `r` to that of `s` which commute with the group. -/
def intertwiners (G : Grp El) (r s : Irrep El) : Submodule ℝ (Matrix (Fin s.size) (Fin r.size) ℝ) where
  carrier := {T | ∀ g, G.isEl g → toM s.size (s.mat g) * T = T * toM r.size (r.mat g)}
  zero_mem' := fun g _ => by rw [Matrix.mul_zero, Matrix.zero_mul]
  add_mem' := fun {a b} ha hb g hg => by rw [Matrix.mul_add, Matrix.add_mul, ha g hg, hb g hg]
  smul_mem' := fun c a ha g hg => by rw [Matrix.mul_smul, Matrix.smul_mul, ha g hg]

/-- Two irreps are inequivalent: there is no map between them but zero. -/
def Inequivalent (G : Grp El) (r s : Irrep El) : Prop := intertwiners G r s = ⊥ ∧ intertwiners G s r = ⊥

end E2
