import Verif.Model.Rep

/-!
# The bias of the convolutions: `r2convolution.py:199-240`, `r2_transposed_convolution.py:115-150` and `r2diffop.py:301-336` (the same code)
-/

namespace E2

variable {El : Type}

/-- `is_trivial()` of an irrep (group/representation.py:247-256): its name is the one of the trivial representation, `irrep_0` or `irrep_0,0`;
here the frequency, and the index of the flip, are compared. -/
def isTrivial (i : Irrep El) : Bool := decide (i.freq = 0 ∧ i.flip = 0)

/-- The positions `pi` of the trivial irreps inside a representation (the inner loop, r2convolution.py:223-229). -/
def trivPos : ℕ → List (Irrep El) → List ℕ
  | _, [] => []
  | pi, i :: is => if isTrivial i then pi :: trivPos (pi + i.size) is else trivPos (pi + i.size) is

/-- The columns of `bias_expansion` (the outer loop, r2convolution.py:219-230) from row `p`. -/
def biasCols : ℕ → List (Repr El) → List (ℕ → ℝ)
  | _, [] => []
  | p, r :: rs =>
    (trivPos 0 r.irreps).map (fun pi row => if p ≤ row ∧ row < p + r.size then r.cob (row - p) pi else 0) ++ biasCols (p + r.size) rs

/-- `expanded_bias = bias_expansion @ bias` (r2convolution.py:310); without trivial irreps there is no bias, here zero. -/
def expandBias (cols : List (ℕ → ℝ)) (b : List ℝ) (row : ℕ) : ℝ := (List.zipWith (fun col w => col row * w) cols b).sum

end E2
