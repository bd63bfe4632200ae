import Verif.Model.R2Conv
import Verif.Model.Export
import Verif.Model.BandLimit

/-!
# `R2ConvTransposed`: constructor and forward pass, `nn/modules/r2_conv/r2_transposed_convolution.py`
-/

namespace E2

variable {El F A I : Type} [LinearOrder F] [DecidableEq I]

/-- The checks on the types when `groups > 1` and the type of one group of the output (r2_transposed_convolution.py:92-111); `none` for a failed assertion. -/
def transGroups {F : Type} [DecidableEq F] (groups : ℕ) (inT outT : List F) : Option (List F) :=
  if groups > 1 then
    if inT.length % groups = 0 ∧ outT.length % groups = 0 ∧
        (∀ i < inT.length, inT[i]? = inT[i % (inT.length / groups)]?) ∧
        (∀ i < outT.length, outT[i]? = outT[i % (outT.length / groups)]?) then
      some (outT.take (outT.length / groups))
    else none
  else some outT

/-- `_filter.reshape(...).transpose(0, 1)` (r2_transposed_convolution.py:193-195): the filter has shape `(cin, cout, k, k)`. -/
def transposeFilter (k : ℕ) (f : Arr3) : ℕ → ℕ → ℕ → ℕ → ℝ := fun c o a b => f o c (a * k + b)

/-- `R2ConvTransposed.forward` in training mode (r2_transposed_convolution.py:192-224) with weights `w` and bias parameters `b`, on an image with `n × n` pixels; `none` for
a failed assertion.  The filter maps all the input to one group of the output (lines 163-176); the bias is that of `R2Conv` (lines 113-151).  The number of pixels of
the output is `convTSize`; the output padding only adds pixels at the end of both axes. -/
noncomputable def r2convT (c : ConvCfg A I) (rep : F → Repr El) (inT outT : List F) (basis : F → F → List (A × (ℝ × ℝ → Mat)))
    (w b : List ℝ) (n : ℕ) (x : Fmap) : Option Fmap :=
  match transGroups c.groups inT outT with
  | none => none
  | some outG =>
    match (c.exp rep inT outG basis).forward w with
    | none => none
    | some f => some (convT2d n c.p c.k c.s c.d (typeSize (fun m => (rep m).size) inT / c.groups)
        (typeSize (fun m => (rep m).size) outG) (transposeFilter c.k f) (outBias rep outT b) x)

/-- The rings of a transposed convolution (r2_transposed_convolution.py:478-494): unlike `basisRings`, the default rings are not multiplied by the dilation. -/
noncomputable def basisRingsT (kernelSize : ℕ) : Option (List ℝ) → List ℝ
  | some r => r
  | none => linspace0 ((kernelSize - 1) / 2 : ℕ) ((kernelSize + 1) / 2)

/-- `max_radius` of a transposed convolution (r2_transposed_convolution.py:475): the sums run over the points of the grid (axis 1) instead of the two coordinates. -/
noncomputable def gridMaxRadiusT (kernelSize dilation : ℕ) : ℝ :=
  max (√(∑ q ∈ Finset.range (kernelSize * kernelSize), (gridCoords kernelSize dilation q).1 ^ 2))
    (√(∑ q ∈ Finset.range (kernelSize * kernelSize), (gridCoords kernelSize dilation q).2 ^ 2))

open Classical in
/-- `compute_basis_params` of a transposed convolution (r2_transposed_convolution.py:464-533) without a custom filter; the other lines are those of r2convolution.py. -/
noncomputable def computeBasisParamsT (kernelSize dilation : ℕ) (fco : Cutoff) (rings : Option (List ℝ)) (sigma : Option (ℝ ⊕ List ℝ)) :
    Option (List ℝ × List ℝ × (ℝ → ℝ) × ℤ) :=
  let rs := basisRingsT kernelSize rings
  if ∀ r ∈ rs, r ≤ gridMaxRadiusT kernelSize dilation ∧ 0 ≤ r then
    (maximumFrequency (cutoffFun kernelSize fco) rs).map fun F => (rs, basisSigma rs sigma, cutoffFun kernelSize fco, F)
  else none

end E2
