import Verif.Model.Induced
import Verif.Model.Continuous

/-!
# Induction from SO(2) to O(2): `O2._induced_from_irrep` (group/groups/o2group.py:419-519)
-/

namespace E2

open Finset Mat Real

namespace O2

/-- The matrix `E` (o2group.py:454, 457-459). -/
noncomputable def commE (size t : ℕ) : Mat :=
  if size = 1 then Mat.one else if t % 2 = 0 then tr (m2 1 (-1) 1 1) else m2 1 (-1) 1 1

/-- The matrix `M` (o2group.py:455, 460-462): `np.fliplr(np.eye(4)) * np.array([1, -1, -1, 1])` multiplies the columns. -/
noncomputable def commM (size : ℕ) : Mat :=
  if size = 1 then fun i j => 2 * π * Mat.one i j
  else fun i j => π * ((if i + j = 3 then (if j = 1 ∨ j = 2 then -1 else 1) else 0) + Mat.one i j)

/-- The vector `X` before its normalisation (o2group.py:468-469); `E.reshape(-1, 1)` has the entry `E[l // size, l % size]` at `l`. -/
noncomputable def commX (size t l : ℕ) : ℝ :=
  (∑ q ∈ range (size * size), commM size l q * commE size t (q / size) (q % size)) / (2 * π)

/-- `build_commuting_matrix(rho, t)` (o2group.py:450-476), with the normalisation by the sum of all entries of `X @ X.T` (line 472). -/
noncomputable def commuting (size t : ℕ) : Mat := fun i j =>
  commX size t (i * size + j) /
    √((∑ a ∈ range (size * size), ∑ b ∈ range (size * size), commX size t a * commX size t b) / size)

/-- The columns written for the copy `shift` of an irrep (o2group.py:491-500): `v[:, x:x + repr.size] = commuting_matrix` at the
occurrence `shift % n_repetitions` of the representation among the restricted irreps. -/
noncomputable def setCols (ρ : Irrep ℝ) (E : Mat) (k : ℕ) : ℕ → ℕ → List (Irrep ℝ) → Mat → Mat
  | _, _, [], B => B
  | x, i, r :: l, B =>
    if sameIrrep r ρ then
      setCols ρ E k (x + r.size) (i + 1) l (if i = k then fun a b => if x ≤ b ∧ b < x + ρ.size then E a (b - x) else B a b else B)
    else setCols ρ E k (x + r.size) i l B

/-- The blocks of `v` with their widths (o2group.py:478-503), before the division by `sqrt(size)`; `none` for a failed assertion (lines 483
and 489) or a failed restriction.  The restriction to SO(2) has an orthogonal change of basis: its inverse is the transpose. -/
noncomputable def vBlocks (ρ : Irrep ℝ) : List (Irrep (ℤ × ℝ) × ℕ) → Option (List (ℕ × Mat))
  | [] => some []
  | (irr, m) :: l =>
    if ¬ (m ≤ irr.size) then none
    else if m = 0 then vBlocks ρ l
    else
      match restrictSO2 irr with
      | none => none
      | some (cob, irreps) =>
        let n := (irreps.filter fun r => sameIrrep r ρ).length
        if ¬ (m ≤ ρ.size * n) then none
        else
          (vBlocks ρ l).map fun bs =>
            (List.range m).map (fun shift =>
              (irr.size, fun a b => Mat.mul irr.size (setCols ρ (commuting ρ.size (shift / n)) (shift % n) 0 0 irreps fun _ _ => 0) (tr cob) a b * √irr.size)) ++ bs

/-- Blocks side by side. -/
def hstack : List (ℕ × Mat) → Mat
  | [] => fun _ _ => 0
  | (n, A) :: l => fun i j => if j < n then A i j else hstack l i (j - n)

/-- The multiplicities (o2group.py:435-438); `none` is a failed call of `irrep`. -/
noncomputable def inducedMults (f : ℕ) : Option (List (Irrep (ℤ × ℝ) × ℕ)) :=
  if 0 < f then (irrep 1 f).map fun i => [(i, 2)]
  else
    match irrep 0 0, irrep 1 0 with
    | some a, some b => some [(a, 1), (b, 1)]
    | _, _ => none

/-- `_induced_from_irrep((None, -1), repr)` (o2group.py:424-514): irreps, change of basis and its inverse; `none` for an exception. -/
noncomputable def inducedSO2 (ρ : Irrep ℝ) : Option (Repr (ℤ × ℝ)) :=
  match inducedMults ρ.freq with
  | none => none
  | some ms =>
    let irreps := ms.flatMap fun p => List.replicate p.2 p.1
    let size := (irreps.map Irrep.size).sum
    match vBlocks ρ ms with
    | none => none
    | some bs =>
      let v : Mat := fun i j => hstack bs i j / √size
      let cob : Mat := fun i j =>
        if i < ρ.size then Mat.mul size v (Repr.blocks irreps grp.one) i j
        else Mat.mul size v (Repr.blocks irreps reflection) (i - ρ.size) j
      some ⟨irreps, cob, tr cob⟩

/-- `_induced_from_irrep(subgroup_id, repr)` (o2group.py:419-519): only `(None, -1)` is accepted. -/
noncomputable def inducedFromIrrep (axis : Option ℝ) (order : ℤ) (ρ : Irrep ℝ) : Option (Repr (ℤ × ℝ)) :=
  match axis with
  | none => if order = -1 then inducedSO2 ρ else none
  | some _ => none

end O2

end E2
