import Verif.Model.Nonlin
import Mathlib.Analysis.SpecialFunctions.Trigonometric.Basic

/-!
# Pointwise, concatenated and vector field nonlinearities

`nn/modules/nonlinearities/pointwise.py`, `relu.py`, `elu.py`, `concatenated.py`, `vectorfield.py`.
-/

namespace E2

variable {P R : Type}

/-- `PointwiseNonLinearity.forward` (nonlinearities/pointwise.py:63-80; `ReLU.forward`, relu.py, and `ELU.forward`, elu.py, are the same with a fixed
function): the function on every entry. -/
def pointwise [DecidableEq R] (sz : R → ℕ) (inType : List R) (f : ℝ → ℝ) (x : GTensor R (P → ℝ)) : Option (GTensor R (P → ℝ)) :=
  if x.ty = inType then mkGT sz (x.data.map fun v p => f (v p)) inType else none

/-- The channels of `ConcatenatedNonLinearity.forward` (concatenated.py:69-79): `f(x)` in the even and `f(-x)` in the odd channels. -/
def concatChannels (f : ℝ → ℝ) (x : List (P → ℝ)) : List (P → ℝ) :=
  (List.range (2 * x.length)).map fun (k : ℕ) (p : P) => if k % 2 = 0 then f (x[k / 2]?.getD 0 p) else f (-1 * x[k / 2]?.getD 0 p)

/-- `ConcatenatedNonLinearity.forward` (concatenated.py:65-82); `sz'` and `outRep` give the size of the representations of the output and
`_transform_representation`. -/
def concatenated [DecidableEq R] (sz' : R → ℕ) (outRep : R → R) (inType : List R) (f : ℝ → ℝ) (x : GTensor R (P → ℝ)) :
    Option (GTensor R (P → ℝ)) :=
  if x.ty = inType then mkGT sz' (concatChannels f x.data) (inType.map outRep) else none

/-- The columns of the entries different from zero in row `i`. -/
noncomputable def nonzeroCols (s : ℕ) (r : Mat) (i : ℕ) : List ℕ := by
  classical exact (List.range s).filter fun j => r i j ≠ 0

/-- The checks of `_transform_representation` (concatenated.py:190-207, 219-225) on the matrix of one element: at most one entry different from
zero in each row, in different columns (rows without such an entry keep the value -1), and all entries 0, 1 or -1.  Without tolerances. -/
def ConcatOk (s : ℕ) (r : Mat) : Prop :=
  (∀ i < s, (nonzeroCols s r i).length ≤ 1) ∧
    ((List.range s).map fun i => ((nonzeroCols s r i).head?.map fun (j : ℕ) => (j : ℤ)).getD (-1)).Nodup ∧
    ∀ i < s, ∀ j < s, r i j = 1 ∨ r i j = -1 ∨ r i j = 0

/-- The matrix built by `_transform_representation` (concatenated.py:187, 210-218): the identity for an entry 1, the exchange of the two
channels for an entry -1. -/
noncomputable def concatMat (r : Mat) : Mat := fun a b =>
  open Classical in
  if (r (a / 2) (b / 2) = 1) then (if a % 2 = b % 2 then 1 else 0)
  else if (r (a / 2) (b / 2) = -1) then (if a % 2 = b % 2 then 0 else 1)
  else 0

/-- What `torch.max(fm, 2)` returns at one position of one field: the largest entry and an index at which it is taken.  Which index is
returned for ties is the parameter `argmax`. -/
def IsArgmax (argmax : List ℝ → ℕ) : Prop :=
  ∀ v : List ℝ, v ≠ [] → ∃ h : argmax v < v.length, ∀ i (hi : i < v.length), v[i] ≤ v[argmax v]

/-- The two channels computed from a field (vectorfield.py:75-90) at a position with the values `v`. -/
noncomputable def vectorFieldAt (N : ℕ) (argmax : List ℝ → ℕ) (v : List ℝ) : ℝ × ℝ :=
  let m := max (v[argmax v]?.getD 0) 0
  let a := (argmax v : ℝ) * (2 * Real.pi / N)
  (Real.cos a * m, Real.sin a * m)

/-- `VectorFieldNonLinearity.forward` (vectorfield.py:54-93) for `n` fields: the channels of the output; `outSize` is the size of `irrep_1`.
The assignments to `output[:, ::2]` and `output[:, 1::2]` fail unless the number of channels there is the number of fields, or the number
of fields is one (broadcasting). -/
noncomputable def vectorField (N outSize : ℕ) (argmax : List ℝ → ℕ) (n : ℕ) (x : List (P → ℝ)) : Option (List (P → ℝ)) :=
  let fm := viewFields N x
  let even := (n * outSize + 1) / 2
  let odd := (n * outSize) / 2
  if (fm.length = even ∨ fm.length = 1) ∧ (fm.length = odd ∨ fm.length = 1) then
    some ((List.range (n * outSize)).map fun k p =>
      let fld := fm[(if fm.length = 1 then 0 else k / 2 : ℕ)]?.getD []
      let v := vectorFieldAt N argmax (fld.map fun c => c p)
      if k % 2 = 0 then v.1 else v.2)
  else none

end E2
