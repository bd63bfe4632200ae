import Verif.Model.Diffops
import Verif.Model.Conv

/-!
# Discretisation of differential operators by finite differences: model of `e2cnn/diffops/utils.py` and of the sampling of a basis

The one dimensional weights come from `sympy.finite_diff_weights`; they are a parameter `fd`, where `fd n pts j` is the weight of the `j`-th point
in the approximation of the `n`-th derivative at the origin.
-/

namespace E2

open Finset Mat Real

/-- `np.unique(points[0])` and `np.unique(points[1])` (diffops/utils.py:116) for the grid of `get_grid_coords`; that this list is what `np.unique`
returns is `axisPts_unique`. -/
noncomputable def axisPts (k d : ℕ) : List ℝ :=
  (List.range k).map fun j : ℕ => (j : ℝ) * d - ((d * (k - 1) + 1 : ℝ) / 2 - 0.5)

open Classical in
/-- The assertions of `discretize_1d_monomial` (diffops/utils.py:181-182), for all the monomials with a nonzero coefficient
(diffops/utils.py:93-96). -/
def HPoly.Fits (k : ℕ) (c : HPoly) : Prop := ∀ m ≤ c.deg, c.co m ≠ 0 → c.deg - m < k ∧ m < k

open Classical in
/-- `discretize_homogeneous_polynomial` with `method = "fd"` (diffops/utils.py:64-168) on the grid of `get_grid_coords(k, d)`, with
`discretize_2d_monomial` (diffops/utils.py:194-201): `x_kernel[:, None] * y_kernel[None, :]` is flattened, so that the weight of the point with flat
index `q` is `x_kernel[q // k] * y_kernel[q % k]`.  `none` for a failed assertion.  The check of the points (diffops/utils.py:121-128) succeeds on
such a grid; the caches are not modelled here (see C42 and C53). -/
noncomputable def fdDisc (fd : ℕ → List ℝ → ℕ → ℝ) (k d : ℕ) (c : HPoly) : Option (ℕ → ℝ) :=
  if c.Fits k then
    some fun q => ∑ m ∈ range (c.deg + 1),
      if c.co m ≠ 0 then c.co m * (fd (c.deg - m) (axisPts k d) (q / k) * fd m (axisPts k d) (q % k)) else 0
  else none

open Classical in
/-- One element of `DiffopBasis.sample_masked` (diffops/basis.py:93-150) with `method = "fd"`; the angle offset rotates the polynomials first
(diffops/basis.py:119-126). -/
noncomputable def fdSample (fd : ℕ → List ℝ → ℕ → ℝ) (k d so si : ℕ) (off : Option ℝ) (D : DArr) : Option (ℕ → Mat) :=
  let D' := match off with
    | none => D
    | some θ => D.transform (psi θ 1 0)
  if ∀ i < so, ∀ j < si, (fdDisc fd k d (D'.entry i j)).isSome then
    some fun q i j => match fdDisc fd k d (D'.entry i j) with
      | some w => w q
      | none => 0
  else none

/-- `sample_masked` for one element, for some method of discretisation: the kernel size, the dilation, the sizes of the output and of the input, the angle offset
and the coefficients; `none` for an exception. -/
abbrev Sampler := ℕ → ℕ → ℕ → ℕ → Option ℝ → DArr → Option (ℕ → Mat)

/-- `required_points` (diffops/utils.py:399-424); the remainder of a division by two in python is never negative. -/
def requiredPoints (order accuracy : ℤ) : ℤ := if (accuracy - 1) % 2 ≠ 0 then order + accuracy - 1 else order + accuracy

/-- `largest_possible_order` (diffops/utils.py:426-435); `none` for a failed assertion. -/
def largestPossibleOrder (numPoints accuracy : ℤ) : Option ℤ :=
  let order := numPoints - accuracy
  if 0 ≤ order then if (numPoints - (order + 1)) % 2 ≠ 0 then some (order + 1) else some order else none

/-- `guaranteed_accuracy` (diffops/utils.py:437-446); `none` for a failed assertion. -/
def guaranteedAccuracy (numPoints order : ℤ) : Option ℤ :=
  let accuracy := numPoints - order
  if 0 ≤ accuracy then if accuracy % 2 ≠ 0 then some (accuracy + 1) else some accuracy else none

/-- `symmetric_points` (diffops/utils.py:448-452). -/
noncomputable def symmetricPoints (n : ℕ) (dilation : ℝ) : List ℝ := (List.range n).map fun x : ℕ => ((x : ℝ) - (n - 1 : ℝ) / 2) * dilation

end E2
