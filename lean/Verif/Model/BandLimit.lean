import Verif.Model.Kernels
import Verif.Model.Conv

/-!
# The parameters of the basis of a convolution: model of `compute_basis_params` and `bandlimiting_filter` (r2convolution.py)
-/

namespace E2

open Real

/-- `int(x)` for a number: the part towards zero. -/
noncomputable def pyInt (x : ℝ) : ℤ := if 0 ≤ x then ⌊x⌋ else ⌈x⌉

/-- `x % 2` for a number in python. -/
noncomputable def mod2 (x : ℝ) : ℝ := x - 2 * ⌊x / 2⌋

open Classical in
/-- `_manual_fco3` (r2convolution.py:699-717). -/
noncomputable def manualFco3 (maxRadius r : ℝ) : ℝ := if r = 0 then 0 else if r = maxRadius then 1 else 2

open Classical in
/-- `_manual_fco2` (r2convolution.py:720-738). -/
noncomputable def manualFco2 (maxRadius r : ℝ) : ℝ := if r = 0 then 0 else min (2 * r) (if r = maxRadius then 1 else 2 * r - mod2 (r + 1))

open Classical in
/-- `_manual_fco1` (r2convolution.py:741-759). -/
noncomputable def manualFco1 (maxRadius r : ℝ) : ℝ := if r = 0 then 0 else min (2 * r) (if r = maxRadius then 2 else 2 * r - mod2 (r + 1))

/-- The argument `frequencies_cutoff`: a number or a callable; `None` is the number `-1` (r2convolution.py:671-672). -/
abbrev Cutoff := ℝ ⊕ (ℝ → ℝ)

open Classical in
/-- The callable made from `frequencies_cutoff` (r2convolution.py:674-682); `kernel_size // 2` is the radius given to the tables. -/
noncomputable def cutoffFun (kernelSize : ℕ) : Cutoff → ℝ → ℝ
  | .inr f => f
  | .inl c =>
    if c = -3 then manualFco3 (kernelSize / 2 : ℕ)
    else if c = -2 then manualFco2 (kernelSize / 2 : ℕ)
    else if c = -1 then manualFco1 (kernelSize / 2 : ℕ)
    else fun r => c * r

/-- `bandlimiting_filter(frequency_cutoff)(attributes)` (r2convolution.py:576-603) for an element with a frequency and a radius.  For a number the
function `lambda r, fco=frequency_cutoff: r * frequency_cutoff` multiplies the radius by the variable, which by then is the function itself:
`none` is the `TypeError`. -/
noncomputable def blFilter (fco : Cutoff) (freq : ℤ) (radius : ℝ) : Option Bool :=
  match fco with
  | .inl _ => none
  | .inr f => some (decide (|(freq : ℝ)| ≤ f radius))

/-- `torch.linspace(0, b, n)`: exact numbers. -/
noncomputable def linspace0 (b : ℝ) (n : ℕ) : List ℝ := (List.range n).map fun i : ℕ => if n = 1 then 0 else (i : ℝ) * b / (n - 1 : ℕ)

/-- The rings (r2convolution.py:642-659); `math.ceil(kernel_size / 2)` rings by default. -/
noncomputable def basisRings (kernelSize dilation : ℕ) : Option (List ℝ) → List ℝ
  | some r => r
  | none => (linspace0 ((kernelSize - 1) / 2 : ℕ) ((kernelSize + 1) / 2)).map fun r => r * dilation

open Classical in
/-- The widths (r2convolution.py:661-668). -/
noncomputable def basisSigma (rings : List ℝ) : Option (ℝ ⊕ List ℝ) → List ℝ
  | none => (List.range rings.length).map fun i => if rings.getD i 0 = 0 then 0.005 else if i = rings.length - 1 then 0.4 else 0.6
  | some (.inl s) => List.replicate rings.length s
  | some (.inr l) => l

/-- `max_radius` (r2convolution.py:637): the largest norm of the points of the grid. -/
noncomputable def gridMaxRadius (kernelSize dilation : ℕ) : ℝ :=
  ((List.range (kernelSize * kernelSize)).map fun q => √((gridCoords kernelSize dilation q).1 ^ 2 + (gridCoords kernelSize dilation q).2 ^ 2)).foldr max 0

/-- `max(l)`; `none` is the `ValueError` for an empty list. -/
noncomputable def listMax : List ℝ → Option ℝ
  | [] => none
  | x :: l => some (l.foldl max x)

/-- `maximum_frequency` (r2convolution.py:687). -/
noncomputable def maximumFrequency (fco : ℝ → ℝ) (rings : List ℝ) : Option ℤ := (listMax (rings.map fco)).map pyInt

open Classical in
/-- `compute_basis_params` (r2convolution.py:626-696) without a custom filter: the rings, the widths, the cutoff and the maximum frequency; `none` for a
failed assertion or the `ValueError`. -/
noncomputable def computeBasisParams (kernelSize dilation : ℕ) (fco : Cutoff) (rings : Option (List ℝ)) (sigma : Option (ℝ ⊕ List ℝ)) :
    Option (List ℝ × List ℝ × (ℝ → ℝ) × ℤ) :=
  let rs := basisRings kernelSize dilation rings
  if ∀ r ∈ rs, r ≤ gridMaxRadius kernelSize dilation ∧ 0 ≤ r then
    (maximumFrequency (cutoffFun kernelSize fco) rs).map fun F => (rs, basisSigma rs sigma, cutoffFun kernelSize fco, F)
  else none

/-- The elements of the basis for one pair of irreps, all the rings with all the angular elements, which the band-limiting filter keeps (the filter is
applied to the attributes of each element in basisexpansion_singleblock.py:40-48). -/
noncomputable def bandKept (fco : ℝ → ℝ) (rings : List ℝ) (l : List AngElem) : List (ℝ × AngElem) :=
  (rings.flatMap fun r => l.map fun e => (r, e)).filter fun x => (blFilter (.inr fco) x.2.mu x.1).getD false

end E2
