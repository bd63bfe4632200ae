import Verif.Model.Dihedral
import Mathlib.Algebra.Order.Round

/-!
# Continuous groups: model of `so2group.py` and `o2group.py`

Floats are real numbers.  `x % S` for floats and `S > 0` is `x - S * floor(x / S)`.
`cycle_isclose(a, b, S)` is exact equality modulo `S`.
-/

namespace E2

open Finset Mat Real

/-- Python's `x % S` for floats, `S > 0`. -/
noncomputable def fmod (x S : ℝ) : ℝ := x - S * ⌊x / S⌋

/-- `cycle_isclose(a, b, S)` (group/utils.py:55-70) with zero tolerances. -/
def cycleEq (a b S : ℝ) : Prop := fmod (a - b) S = 0 ∨ fmod (a - b) S = S

noncomputable instance (a b S : ℝ) : Decidable (cycleEq a b S) := Classical.propDecidable _

namespace SO2

/-- `inverse` (so2group.py:62). -/
noncomputable def inverse (e : ℝ) : ℝ := fmod (-e) (2 * π)

/-- `combine` (so2group.py:77). -/
noncomputable def combine (e1 e2 : ℝ) : ℝ := fmod (e1 + e2) (2 * π)

/-- `equal` (so2group.py:95). -/
def equal (e1 e2 : ℝ) : Prop := cycleEq e1 e2 (2 * π)

/-- The group as data; every float is accepted by `is_element` (so2group.py:97-98). -/
noncomputable def grp : Grp ℝ where
  isEl _ := True
  one := 0
  inv := inverse
  op := combine

/-- `irrep(k)` (so2group.py:220-265). -/
noncomputable def irrep (k : ℕ) : Irrep ℝ :=
  if k = 0 then
    { size := 1, socs := 1, mat := fun _ => m1 1, freq := 0, flip := 0, char := some fun _ => 1 }
  else
    { size := 2, socs := 2, mat := fun e => psi e k 0, freq := k, flip := 0,
      char := some fun e => cos (k * e) + cos (k * e) }

/-- The result of `subgroup`. -/
structure Sub where
  order : ℕ
  parent : ℤ → ℝ
  child : ℝ → Option ℤ

/-- `subgroup(M)` (so2group.py:113-150). -/
noncomputable def subgroup (M : ℕ) : Option Sub :=
  if M = 0 then none
  else some { order := M
              parent := fun e => e * 2 * π / M
              child := fun e => if ¬ cycleEq e 0 (2 * π / M) then none
                else some (round (e * M / (2 * π))) }

/-- `_restrict_irrep(irrep, M)` (so2group.py:152-193). -/
noncomputable def restrictIrrep (irr : Irrep ℝ) (M : ℕ) : Option (Mat × List (Irrep ℤ)) :=
  match subgroup M with
  | none => none
  | some _ =>
    match Cyclic.reduceFreq M (irr.freq % M) irr.size (m2 1 0 0 (-1)) with
    | none => none
    | some p =>
      match Cyclic.irrep M p.1 with
      | none => none
      | some r => some (p.2, if r.size < irr.size then [r, r] else [r])

end SO2

namespace O2

/-- `inverse` (o2group.py:82). -/
def inverse (e : ℤ × ℝ) : ℤ × ℝ := (e.1, -e.2 * (if e.1 ≠ 0 then -1 else 1))

/-- `combine` (o2group.py:97); the angle is not reduced. -/
def combine (e1 e2 : ℤ × ℝ) : ℤ × ℝ :=
  ((e1.1 + e2.1) % 2, e1.2 + (if e1.1 ≠ 0 then -1 else 1) * e2.2)

/-- `equal` (o2group.py:114). -/
def equal (e1 e2 : ℤ × ℝ) : Prop := e1.1 = e2.1 ∧ cycleEq e1.2 e2.2 (2 * π)

/-- `is_element` on pairs of an integer and a float (o2group.py:116-120). -/
def isElement (e : ℤ × ℝ) : Prop := e.1 = 0 ∨ e.1 = 1

/-- The group as data. -/
noncomputable def grp : Grp (ℤ × ℝ) where
  isEl := isElement
  one := (0, 0)
  inv := inverse
  op := combine

/-- `reflection` (o2group.py:64). -/
def reflection : ℤ × ℝ := (1, 0)

/-- `irrep(j, k)` (o2group.py:348-417); `none` is a failed assertion or the `ValueError`. -/
noncomputable def irrep (j k : ℕ) : Option (Irrep (ℤ × ℝ)) :=
  if ¬ (j = 0 ∨ j = 1) then none
  else if j = 0 then
    if k = 0 then
      some { size := 1, socs := 1, mat := fun _ => m1 1, freq := k, flip := j,
             char := some fun _ => 1 }
    else none
  else if k = 0 then
    some { size := 1, socs := 1, mat := fun e => m1 (if e.1 ≠ 0 then -1 else 1), freq := k, flip := j,
           char := some fun e => if e.1 ≠ 0 then -1 else 1 }
  else
    some { size := 2, socs := 1, mat := fun e => psichi e.2 e.1 k 0, freq := k, flip := j,
           char := some fun e => if e.1 ≠ 0 then 0 else 2 * cos (k * e.2) }

/-- The result of `subgroup`. -/
inductive Sub where
  | o2 (parent : ℤ × ℝ → ℤ × ℝ) (child : ℤ × ℝ → Option (ℤ × ℝ))
  | so2 (parent : ℝ → ℤ × ℝ) (child : ℤ × ℝ → Option ℝ)
  | cyc (order : ℕ) (parent : ℤ → ℤ × ℝ) (child : ℤ × ℝ → Option ℤ)
  | dih (order : ℕ) (parent : ℤ × ℤ → ℤ × ℝ) (child : ℤ × ℝ → Option (ℤ × ℤ))

/-- `subgroup((axis, order))` (o2group.py:135-226); `none` for a failed assertion or `ValueError`.
`order = 0` fails with a division by zero, or in `CyclicGroup(0)`. -/
noncomputable def subgroup (axis : Option ℝ) (order : ℤ) : Option Sub :=
  match axis with
  | some a =>
    if ¬ ((0 ≤ a ∧ a < 2 * π / order) ∨ order < 0) ∨ order = 0 then none
    else if order = -1 then
      some (.o2 (fun e => (e.1, e.2 + e.1 * a)) (fun e => some (e.1, e.2 - e.1 * a)))
    else if order = 1 then
      some (.cyc 2 (fun e => (e, a * e))
        (fun e => if ¬ cycleEq e.2 (a * e.1) (2 * π) then none else some e.1))
    else if order > 1 then
      some (.dih order.toNat (fun e => (e.1, e.2 * 2 * π / order + e.1 * a))
        (fun e => if ¬ cycleEq (e.2 - e.1 * a) 0 (2 * π / order) then none
          else some (e.1, round ((e.2 - e.1 * a) * order / (2 * π)))))
    else none
  | none =>
    if order = -1 then
      some (.so2 (fun e => (0, e)) (fun e => if e.1 ≠ 0 then none else some e.2))
    else if order ≤ 0 then none
    else
      some (.cyc order.toNat (fun e => (0, e * 2 * π / order))
        (fun e => if e.1 ≠ 0 ∨ ¬ cycleEq e.2 0 (2 * π / order) then none
          else some (round (e.2 * order / (2 * π)))))

/-- `_restrict_irrep` with `id = (axis, -1)` (o2group.py:258-265): irreps of `O(2)`. -/
noncomputable def restrictO2 (irr : Irrep (ℤ × ℝ)) (axis : ℝ) : Option (Mat × List (Irrep (ℤ × ℝ))) :=
  if irr.size = 2 then some (Mat.mul 2 (psi (0.5 * axis) irr.freq 0) Mat.one, [irr])
  else some (Mat.one, [irr])

/-- `_restrict_irrep` with `id = (None, -1)` (o2group.py:267-270): irreps of `SO(2)`. -/
noncomputable def restrictSO2 (irr : Irrep (ℤ × ℝ)) : Option (Mat × List (Irrep ℝ)) :=
  some (Mat.one, [SO2.irrep irr.freq])

/-- `_restrict_irrep` with `id = (axis, 1)` (o2group.py:272-279): irreps of `C_2`. -/
noncomputable def restrictFlip (irr : Irrep (ℤ × ℝ)) (axis : ℝ) : Option (Mat × List (Irrep ℤ)) :=
  match subgroup (some axis) 1 with
  | none => none
  | some _ =>
    match Cyclic.irrep 2 0, Cyclic.irrep 2 irr.flip with
    | some r0, some rj =>
      if irr.size > 1 then some (psi (0.5 * axis) irr.freq 0, [r0, rj])
      else some (Mat.one, [rj])
    | _, _ => none

/-- `_restrict_irrep` with `id = (None, M)`, `M > 0` (o2group.py:280-294): irreps of `C_M`. -/
noncomputable def restrictCyc (irr : Irrep (ℤ × ℝ)) (M : ℕ) : Option (Mat × List (Irrep ℤ)) :=
  match subgroup none M with
  | none => none
  | some _ =>
    match Cyclic.reduceFreq M (irr.freq % M) irr.size (chi 1) with
    | none => none
    | some p =>
      match Cyclic.irrep M p.1 with
      | none => none
      | some r => some (p.2, if r.size < irr.size then [r, r] else [r])

/-- `_restrict_irrep` with `id = (axis, M)`, `M > 1` (o2group.py:296-315): irreps of `D_M`. -/
noncomputable def restrictDih (irr : Irrep (ℤ × ℝ)) (axis : ℝ) (M : ℕ) :
    Option (Mat × List (Irrep (ℤ × ℤ))) :=
  match subgroup (some axis) M with
  | none => none
  | some _ =>
    let f := irr.freq
    match Cyclic.reduceFreq M (f % M) irr.size (m2 1 0 0 (-1)) with
    | none => none
    | some p =>
      let cob := if irr.size = 2 then Mat.mul 2 (psi (0.5 * axis) f 0) p.2 else p.2
      match Dihedral.irrep M irr.flip p.1 with
      | none => none
      | some r =>
        if r.size < irr.size then
          match Dihedral.irrep M 0 p.1 with
          | none => none
          | some r0 => some (cob, [r0, r])
        else some (cob, [r])

end O2
end E2
