import Verif.Model.Regular

/-!
# `decompose_representation` and `compute_change_of_basis` (group/representation.py:348-397, 1153-1338)
-/

namespace E2

open Finset Mat

section
variable {El : Type} [DecidableEq El]

/-- `character[element] = np.trace(repr)` (representation.py:1305-1308). -/
noncomputable def repCharacter (n : ℕ) (ρ : El → Mat) (e : El) : ℝ := ∑ i ∈ range n, ρ e i i

open Classical in
/-- The multiplicities of `decompose_representation` (representation.py:1312-1327): the formula is that of the regular representation
(`multiplicity`), here with the character of the given matrices.  `none` is the failed assertion that it is an integer (line 1324, without
tolerance). -/
noncomputable def decomposeMult (G : Grp El) (els : List El) (irreps : List (Irrep El)) (n : ℕ) (ρ : El → Mat) :
    Option (List (Irrep El × ℤ)) :=
  let mult := fun irr : Irrep El => multiplicity G els (repCharacter n ρ) irr
  if ∀ irr ∈ irreps, mult irr = round (mult irr) then some (irreps.map fun irr => (irr, round (mult irr))) else none

/-- The list of irreps with repetitions (`irreps += [irr] * m`, representation.py:386-388; the blocks of `P`, lines 1178-1182): a negative
`m` gives the empty list, as in python. -/
def expandMult (ms : List (Irrep El × ℤ)) : List (Irrep El) := ms.flatMap fun p => List.replicate p.2.toNat p.1

/-- `sparse.kronsum(A, B)` for arrays of shape `(n, n)` (representation.py:1186): `kron(eye, A) + kron(B, eye)`. -/
def kronsum (n : ℕ) (A B : Mat) : Mat := fun a b =>
  (if a / n = b / n then A (a % n) (b % n) else 0) + (if a % n = b % n then B (a / n) (b / n) else 0)

/-- The equation of one element (representation.py:1183-1188): `kronsum(rho, -1 * P.T)`. -/
def cobEquation (n : ℕ) (rho P : Mat) : Mat := kronsum n rho fun i j => -1 * P j i

/-- `x.reshape(shape, order='F')` (representation.py:1114, 1148). -/
def reshapeF (n : ℕ) (x : ℕ → ℝ) : Mat := fun i j => x (i + n * j)

open Classical in
/-- `compute_change_of_basis(representation, irreps)` (representation.py:1153-1271).  The null space and the search inside it (`null`,
`linalg.orth`, `find_orthogonal_matrix`, lines 1201-1226) are numerical: their result, the vector `x = basis @ Xopt`, is a parameter.
What is checked of it is the final assertion (lines 1253-1269, without tolerance; `linalg.inv` raises if `D` is singular).  A representation
of size one is treated apart (lines 1195-1197). -/
noncomputable def computeCob (els : List El) (n : ℕ) (ρ : El → Mat) (irs : List (Irrep El)) (x : ℕ → ℝ) : Option Mat :=
  if n * (irs.map Irrep.size).sum = 1 then
    if ∀ e ∈ els, cobEquation n (ρ e) (Repr.blocks irs e) 0 0 = 0 then some fun _ _ => 1 else none
  else if (irs.map Irrep.size).sum ≠ n then none
  else
    let D := reshapeF n x
    if IsInv n D (Mat.inv n D) ∧ ∀ e ∈ els, MEq n n (ρ e) (mul n (mul n D (Repr.blocks irs e)) (Mat.inv n D)) then some D else none

/-- `decompose_representation(representation, group)` (representation.py:1274-1338).  Names are not modelled: `srt` is the effect of sorting
the list by name (line 1330), and `solve` the numerical search of `compute_change_of_basis`. -/
noncomputable def decompose (G : Grp El) (els : List El) (irreps : List (Irrep El)) (srt : List (Irrep El × ℤ) → List (Irrep El × ℤ))
    (solve : List (Irrep El) → ℕ → ℝ) (n : ℕ) (ρ : El → Mat) : Option (Mat × List (Irrep El × ℤ)) :=
  match decomposeMult G els irreps n ρ with
  | none => none
  | some ms =>
    let ms' := srt ms
    match computeCob els n ρ (expandMult ms') (solve (expandMult ms')) with
    | none => none
    | some D => some (D, ms')

/-- `build_from_discrete_group_representation` (representation.py:348-397): the representation, with its explicit character (line 384). The
explicit matrices are passed on unchanged (line 396) and are not part of the model's `Repr`. -/
noncomputable def buildFromDiscrete (G : Grp El) (els : List El) (irreps : List (Irrep El))
    (srt : List (Irrep El × ℤ) → List (Irrep El × ℤ)) (solve : List (Irrep El) → ℕ → ℝ) (n : ℕ) (ρ : El → Mat) :
    Option (Repr El × (El → ℝ)) :=
  match decompose G els irreps srt solve n ρ with
  | none => none
  | some (D, ms) => some (Repr.mk' (expandMult ms) D, fun e => (ms.map fun p => (p.2 : ℝ) * p.1.character e).sum)

end

end E2
