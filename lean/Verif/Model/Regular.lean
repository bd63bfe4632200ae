import Verif.Model.Dihedral
import Mathlib.Analysis.SpecialFunctions.Pow.NNReal

/-!
# `build_regular_representation` (group/representation.py:649-739)
-/

namespace E2

open Finset Mat

section
variable {El : Type} [DecidableEq El]

open Classical in
/-- The matrix `r` of the element `e` (representation.py:673-684): `r[index[e*g], index[g]] = 1` for every `g`, zero
elsewhere. -/
noncomputable def permMatrix (G : Grp El) (els : List El) (e : El) : Mat := fun j i =>
  if ∃ g ∈ els, els.idxOf (G.op e g) = j ∧ els.idxOf g = i then 1 else 0

/-- `character[e] = np.trace(r)` (representation.py:688). -/
noncomputable def permCharacter (G : Grp El) (els : List El) (e : El) : ℝ :=
  ∑ i ∈ range els.length, permMatrix G els e i i

/-- The multiplicity of an irrep (representation.py:696-702), before rounding. -/
noncomputable def multiplicity (G : Grp El) (els : List El) (char : El → ℝ) (irr : Irrep El) : ℝ :=
  (els.map fun e => char e * irr.character (G.inv e)).sum / (els.length * irr.socs)

/-- The vector `v` (representation.py:715-724): for an irrep of size `s` and multiplicity `m` the entries of
`np.eye(m, s).reshape(-1) * np.sqrt(s)`. -/
noncomputable def regularVec : List (Irrep El × ℕ) → ℕ → ℝ
  | [] => fun _ => 0
  | (irr, m) :: l => fun i =>
      if i < m * irr.size then (if i / irr.size = i % irr.size then Real.sqrt irr.size else 0)
      else regularVec l (i - m * irr.size)

open Classical in
/-- `build_regular_representation(group)` (representation.py:649-739) for a group with the elements `els` and the
irreps `irreps`.  `none` if a multiplicity is not an integer (lines 705-706, without tolerance), if
`irr.size >= m` fails (line 719), or if the sizes of the irreps do not add up to the size (numpy refuses the product
`P(e) @ v`). -/
noncomputable def buildRegular (G : Grp El) (els : List El) (irreps : List (Irrep El)) : Option (Repr El) :=
  let mult := fun irr : Irrep El => multiplicity G els (permCharacter G els) irr
  if ¬ ∀ irr ∈ irreps, mult irr = round (mult irr) then none
  else
    let ms := irreps.map fun irr => (irr, (round (mult irr)).toNat)
    let irrs := ms.flatMap fun p => List.replicate p.2 p.1
    if ¬ (∀ p ∈ ms, p.2 ≤ p.1.size) then none
    else if ¬ ((irrs.map Irrep.size).sum = els.length) then none
    else
      let cob : Mat := fun i j =>
        match els[i]? with
        | none => 0
        | some e => mulVec els.length (Repr.blocks irrs e) (regularVec ms) j / Real.sqrt els.length
      some ⟨irrs, cob, tr cob⟩

end

/-- `CyclicGroup(N).regular_representation` (group.py:211-252). -/
noncomputable def Cyclic.regular (N : ℕ) : Option (Repr ℤ) :=
  buildRegular (Cyclic.grp N) (Cyclic.elements N) (Cyclic.irreps N)

/-- `DihedralGroup(N).regular_representation` (group.py:211-252). -/
noncomputable def Dihedral.regular (N : ℕ) : Option (Repr (ℤ × ℤ)) :=
  buildRegular (Dihedral.grp N) (Dihedral.elements N) (Dihedral.irreps N)

end E2
