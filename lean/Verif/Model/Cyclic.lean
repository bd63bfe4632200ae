import Verif.Model.Utils

/-!
# Cyclic groups: model of `e2cnn/group/groups/cyclicgroup.py`
-/

namespace E2

open Finset Mat Real

namespace Cyclic

/-- `CyclicGroup(N).elements` (cyclicgroup.py:41). -/
def elements (N : ℕ) : List ℤ := (List.range N).map fun i : ℕ => (i : ℤ)

/-- `order()` (group.py:55-66): the number of elements. -/
def order (N : ℕ) : ℕ := (elements N).length

/-- `identity` (cyclicgroup.py:45). -/
def identity : ℤ := 0

/-- `inverse` (cyclicgroup.py:61). -/
def inverse (N : ℕ) (e : ℤ) : ℤ := (-e) % (order N : ℤ)

/-- `combine` (cyclicgroup.py:78). -/
def combine (N : ℕ) (e1 e2 : ℤ) : ℤ := (e1 + e2) % (order N : ℤ)

/-- `is_element` on integers (cyclicgroup.py:95-99); other Python types are rejected. -/
def isElement (N : ℕ) (e : ℤ) : Bool := decide (0 ≤ e) && decide (e < (order N : ℤ))

/-- The group as data; the constructor asserts `N > 0` (cyclicgroup.py:37). -/
def grp (N : ℕ) : Grp ℤ where
  isEl e := isElement N e = true
  one := identity
  inv := inverse N
  op := combine N

/-- `irrep(k)` (cyclicgroup.py:237-288); `none` is the failed assertion `0 <= k <= N//2`. -/
noncomputable def irrep (N k : ℕ) : Option (Irrep ℤ) :=
  if ¬ (k ≤ order N / 2) then none
  else if k = 0 then
    -- trivial representation
    some { size := 1, socs := 1, mat := fun _ => m1 1, freq := k, flip := 0 }
  else if order N % 2 = 0 ∧ k = order N / 2 then
    some { size := 1, socs := 1, freq := k, flip := 0,
           mat := fun e => m1 (cos (k * e * (2 * π / (order N)))) }
  else
    some { size := 2, socs := 2, freq := k, flip := 0,
           mat := fun e => psi (e * (2 * π / (order N))) k 0 }

/-- `irreps`: those built by `_build_representations` (cyclicgroup.py:203-222). -/
noncomputable def irreps (N : ℕ) : List (Irrep ℤ) :=
  (List.range (order N / 2 + 1)).filterMap (irrep N)

/-- The result of `subgroup`: order of the subgroup, parent and child maps. -/
structure Sub where
  order : ℕ
  parent : ℤ → ℤ
  child : ℤ → Option ℤ

/-- `subgroup(id)` (cyclicgroup.py:114-157); `none` for a failed assertion (the id does not divide the
order, or is not positive: `CyclicGroup(id)` asserts this). -/
def subgroup (N M : ℕ) : Option Sub :=
  if M = 0 ∨ ¬ (order N % M = 0) then none
  else
    let ratio : ℤ := ((order N / M : ℕ) : ℤ)
    some { order := M
           parent := fun e => e * ratio
           child := fun e => if e % ratio ≠ 0 then none else some (e / ratio) }

/-- The reduction of a frequency modulo the order of the subgroup, common to all the
`_restrict_irrep` methods (cyclicgroup.py:187-193, so2group.py:179-185, dihedralgroup.py:266-272 and
286-293, o2group.py:284-289 and 301-307): a frequency above half the order is
replaced by its complement, with the reflection `Q` as change of basis.  `f > order/2` (float
division) is `order < 2 * f`.  `none` is the failed assertion on the shape of the change of
basis in `restrict_representation` (group.py:399): the `2 x 2` matrix is only admissible for an irrep of size 2. -/
noncomputable def reduceFreq (M f size : ℕ) (Q : Mat) : Option (ℕ × Mat) :=
  if M < 2 * f then (if size = 2 then some (M - f, Q) else none) else some (f, Mat.one)

/-- `_restrict_irrep(irrep, id)` (cyclicgroup.py:159-201): change of basis and list of irreps. -/
noncomputable def restrictIrrep (N : ℕ) (irr : Irrep ℤ) (M : ℕ) : Option (Mat × List (Irrep ℤ)) :=
  match subgroup N M with
  | none => none
  | some _ =>
    match reduceFreq M (irr.freq % M) irr.size (m2 1 0 0 (-1)) with
    | none => none
    | some p =>
      match irrep M p.1 with
      | none => none
      | some r => some (p.2, if r.size < irr.size then [r, r] else [r])

end Cyclic
end E2
