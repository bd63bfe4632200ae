import Verif.Model.Cyclic

/-!
# Dihedral groups: model of `e2cnn/group/groups/dihedralgroup.py`
-/

namespace E2

open Finset Mat Real

namespace Dihedral

/-- `DihedralGroup(N).elements` (dihedralgroup.py:58). -/
def elements (N : ℕ) : List (ℤ × ℤ) :=
  (List.range N).map (fun i : ℕ => ((0 : ℤ), (i : ℤ))) ++ (List.range N).map (fun i : ℕ => ((1 : ℤ), (i : ℤ)))

/-- `order()` (group.py:55-66). -/
def order (N : ℕ) : ℕ := (elements N).length

/-- `identity` (dihedralgroup.py:63). -/
def identity : ℤ × ℤ := (0, 0)

/-- `reflection` (dihedralgroup.py:64). -/
def reflection : ℤ × ℤ := (1, 0)

/-- `inverse` (dihedralgroup.py:82). -/
def inverse (N : ℕ) (e : ℤ × ℤ) : ℤ × ℤ :=
  (e.1, (-e.2 * (if e.1 ≠ 0 then -1 else 1)) % (N : ℤ))

/-- `combine` (dihedralgroup.py:98). -/
def combine (N : ℕ) (e1 e2 : ℤ × ℤ) : ℤ × ℤ :=
  ((e1.1 + e2.1) % 2, (e1.2 + (if e1.1 ≠ 0 then -1 else 1) * e2.2) % (N : ℤ))

/-- `is_element` on pairs of integers (dihedralgroup.py:100-105). -/
def isElement (N : ℕ) (e : ℤ × ℤ) : Bool :=
  (decide (e.1 = 0) || decide (e.1 = 1)) && (decide (0 ≤ e.2) && decide (e.2 < (N : ℤ)))

/-- The group as data; the constructor asserts `N > 0` (dihedralgroup.py:51). -/
def grp (N : ℕ) : Grp (ℤ × ℤ) where
  isEl e := isElement N e = true
  one := identity
  inv := inverse N
  op := combine N

/-- `irrep(j, k)` (dihedralgroup.py:360-464); `none` is a failed assertion or the `ValueError`. -/
noncomputable def irrep (N j k : ℕ) : Option (Irrep (ℤ × ℤ)) :=
  if ¬ (j = 0 ∨ j = 1) then none
  else if ¬ (k ≤ N / 2) then none
  else if j = 0 then
    if k = 0 then
      some { size := 1, socs := 1, mat := fun _ => m1 1, freq := k, flip := j, char := some fun _ => 1 }
    else if N % 2 = 0 ∧ k = N / 2 then
      some { size := 1, socs := 1, freq := k, flip := j,
             mat := fun e => m1 (cos (k * e.2 * (2 * π / N))) }
    else none
  else
    if k = 0 then
      some { size := 1, socs := 1, freq := k, flip := j,
             mat := fun e => m1 (if e.1 ≠ 0 then -1 else 1) }
    else if N % 2 = 0 ∧ k = N / 2 then
      some { size := 1, socs := 1, freq := k, flip := j,
             mat := fun e => m1 (cos (k * e.2 * (2 * π / N)) * (if e.1 ≠ 0 then -1 else 1)) }
    else
      some { size := 2, socs := 1, freq := k, flip := j,
             mat := fun e => psichi (e.2 * (2 * π / N)) e.1 k 0 }

/-- `irreps`: those built by `_build_representations` (dihedralgroup.py:312-343). -/
noncomputable def irreps (N : ℕ) : List (Irrep (ℤ × ℤ)) :=
  ([(0, 0)] ++ (List.range (N / 2 + 1)).map (fun k => (1, k)) ++
    (if N % 2 = 0 then [(0, N / 2)] else [])).filterMap fun p : ℕ × ℕ => irrep N p.1 p.2

/-- The result of `subgroup`: a cyclic or a dihedral group with its two maps. -/
inductive Sub where
  | cyc (order : ℕ) (parent : ℤ → ℤ × ℤ) (child : ℤ × ℤ → Option ℤ)
  | dih (order : ℕ) (parent : ℤ × ℤ → ℤ × ℤ) (child : ℤ × ℤ → Option (ℤ × ℤ))

/-- `subgroup((axis, order))` (dihedralgroup.py:134-216); `none` for a failed assertion.
`int(x / ratio)` is only reached for multiples of `ratio`, where it is the exact quotient. -/
def subgroup (N : ℕ) (axis : Option ℕ) (M : ℕ) : Option Sub :=
  if ¬ (1 ≤ M) then none
  else if ¬ (N % M = 0) then none
  else
    let ratio : ℤ := ((N / M : ℕ) : ℤ)
    match axis with
    | none =>
      some (.cyc M (fun e => (0, e * ratio))
        (fun e => if e.1 ≠ 0 ∨ e.2 % ratio > 0 then none else some (e.2 / ratio)))
    | some a =>
      if ¬ (a < N / M) then none
      else if M = 1 then
        some (.cyc 2 (fun e => (e, a * e)) (fun e => if e.2 ≠ e.1 * a then none else some e.1))
      else
        some (.dih M (fun e => (e.1, e.2 * ratio + e.1 * a))
          (fun e => if (e.2 - e.1 * a) % ratio > 0 then none
            else some (e.1, (e.2 - e.1 * a) / ratio)))

/-- `_restrict_irrep` with `id = (axis, 1)` (dihedralgroup.py:251-260): irreps of `C_2`. -/
noncomputable def restrictFlip (N : ℕ) (irr : Irrep (ℤ × ℤ)) (axis : ℕ) :
    Option (Mat × List (Irrep ℤ)) :=
  match subgroup N (some axis) 1 with
  | none => none
  | some _ =>
    let j := if 2 * irr.freq = N then (irr.flip + axis) % 2 else irr.flip
    match Cyclic.irrep 2 0, Cyclic.irrep 2 j with
    | some r0, some rj =>
      if irr.size > 1 then some (psi ((0.5 * axis) * 2 * π / N) irr.freq 0, [r0, rj])
      else some (Mat.one, [rj])
    | _, _ => none

/-- `_restrict_irrep` with `id = (None, M)` (dihedralgroup.py:262-277): irreps of `C_M`. -/
noncomputable def restrictCyc (N : ℕ) (irr : Irrep (ℤ × ℤ)) (M : ℕ) :
    Option (Mat × List (Irrep ℤ)) :=
  match subgroup N none M with
  | none => none
  | some _ =>
    match Cyclic.reduceFreq M (irr.freq % M) irr.size (chi 1) with
    | none => none
    | some p =>
      match Cyclic.irrep M p.1 with
      | none => none
      | some r => some (p.2, if r.size < irr.size then [r, r] else [r])

/-- `_restrict_irrep` with `id = (axis, M)`, `M > 1` (dihedralgroup.py:279-305): irreps of `D_M`. -/
noncomputable def restrictDih (N : ℕ) (irr : Irrep (ℤ × ℤ)) (axis M : ℕ) :
    Option (Mat × List (Irrep (ℤ × ℤ))) :=
  match subgroup N (some axis) M with
  | none => none
  | some _ =>
    let f := irr.freq
    let j := if 2 * f = N then (irr.flip + axis) % 2 else irr.flip
    match Cyclic.reduceFreq M (f % M) irr.size (chi 1) with
    | none => none
    | some p =>
      let cob := if irr.size = 2 then Mat.mul 2 (psi ((0.5 * axis) * 2 * π / N) f 0) p.2 else p.2
      match irrep M j p.1 with
      | none => none
      | some r =>
        if r.size < irr.size then
          match irrep M 0 p.1 with
          | none => none
          | some r0 => some (cob, [r0, r])
        else some (cob, [r])

end Dihedral
end E2
