import Verif.Model.Tags
import Verif.Props.InducedNonlin
import Verif.Props.NonlinGroups

/-!
# C73: what the entries of `supported_nonlinearities` promise

For each string the property of the matrices under which the modules accepting it are equivariant.
-/

namespace E2

open Mat

/-- An array with one entry in each row and column, 1 or -1. -/
def IsSignedPerm (n : ℕ) (M : Mat) : Prop :=
  ∃ (σ : Equiv.Perm (Fin n)) (ε : Fin n → ℝ), (∀ i, ε i = 1 ∨ ε i = -1) ∧ ∀ i j : Fin n, M i j = if j = σ i then ε i else 0

/-- Specification of the strings, for the matrices `ρ` of size `n`.  `pointwise`: permutations of the channels, with which a function of each
channel commutes.  `concatenated`: permutations up to signs.  `norm`: orthogonal matrices.  `gate`: the channels do not change.  `induced_gate`:
permutations.  `induced_norm_k`, `induced_gated_k`: the channels are subfields of size `k`, which are permuted, and on which the matrices are
orthogonal for `induced_norm_k`.  For `gated` nothing is needed: matrices commute with scalars.  `vectorfield` is not used:
`VectorFieldNonLinearity` asserts that the field is the regular representation (vectorfield.py:35-41), see C35. -/
def TagOk {El : Type} (G : Grp El) (n : ℕ) (ρ : El → Mat) : Tag → Prop
  | .pointwise => ∀ e, G.isEl e → IsPerm n (ρ e)
  | .concatenated => ∀ e, G.isEl e → IsSignedPerm n (ρ e)
  | .norm => ∀ e, G.isEl e → Orth n (ρ e)
  | .gate => ∀ e, G.isEl e → MEq n n (ρ e) Mat.one
  | .inducedGate => ∀ e, G.isEl e → IsPerm n (ρ e)
  | .inducedNorm k => 0 < k ∧ k ∣ n ∧ ∀ e, G.isEl e → IsBlockPerm (n / k) k (ρ e)
  | .inducedGated k => 0 < k ∧ k ∣ n ∧ ∀ e, G.isEl e → ∃ σ, MovesBlocks (n / k) k σ (ρ e)
  | .gated => True
  | .vectorfield => True

/-- The strings which `disentangle` may falsify: `induced_norm_k` and `induced_gated_k` with subfields of several channels. -/
def Tag.Divisible : Tag → Prop
  | .inducedNorm k => k = 1
  | .inducedGated k => k = 1
  | _ => True

end E2
