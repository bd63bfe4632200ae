import Mathlib.Algebra.Group.Nat.Even

/-!
# Specification: the frequencies allowed on the rings of a filter
-/

namespace E2

/-- The policies which `frequencies_cutoff` selects with the numbers `-1` (the default), `-2` and `-3`. -/
inductive Policy where
  | wide
  | medium
  | narrow

/-- The number which selects a policy. -/
def Policy.code : Policy → ℤ
  | .wide => -1
  | .medium => -2
  | .narrow => -3

/-- The highest frequency on the ring of radius `r` of a filter whose rings have the radii `0, ..., last`: only frequency 0 in the centre; frequency 2 or 1 on
the last ring, which touches the border of the grid; on the other rings `2r` for odd and `2r - 1` for even radii, or 2 for the narrow policy. -/
def Policy.limit (p : Policy) (last r : ℕ) : ℕ :=
  if r = 0 then 0
  else if r = last then (match p with | .wide => 2 | .medium => 1 | .narrow => 1)
  else match p with
    | .narrow => 2
    | _ => if Even r then 2 * r - 1 else 2 * r

end E2
