import Verif.Model.R2ConvInit
import Verif.Model.Transposed

/-!
# `R2ConvTransposed` from its public arguments (`r2_transposed_convolution.py`)
-/

namespace E2

variable {El F : Type} [LinearOrder F]

open Classical in
/-- `R2ConvTransposed.__init__` (r2_transposed_convolution.py:70-186) without output padding; `none` for any exception.  The arguments are those of `R2Conv` (lines 27-45)
but for the padding mode, which is not used.  The bases are built for the pairs of representations of the input and of one group of the output
(basisexpansion_blocks.py:66-90).  Unlike `R2Conv` (r2convolution.py:267-272) there is no check that the basis is not empty. -/
noncomputable def r2convTInit (G : KernelGen El) (a : ConvArgs El) (rep : F → Repr El) (inT outT : List F) : Option (ConvModule El F) :=
  match transGroups a.groups inT outT with
  | none => none
  | some outG =>
    match computeBasisParamsT a.kernelSize a.dilation a.cutoff a.rings a.sigma with
    | none => none
    | some (rings, sigma, fco, maxFreq) =>
      if ∀ i ∈ inT, ∀ o ∈ outG, buildKernelBasis G sigma rings (some maxFreq) a.maximumOffset (rep i) (rep o) ≠ none then
        let basis := fun i o => (buildKernelBasis G sigma rings (some maxFreq) a.maximumOffset (rep i) (rep o)).getD []
        some ⟨a.cfg fco, basis, ((a.cfg fco).exp rep inT outG basis).dimension⟩
      else none

/-- `R2ConvTransposed.forward` in training mode (r2_transposed_convolution.py:192-224). -/
noncomputable def ConvModule.forwardT (M : ConvModule El F) (rep : F → Repr El) (inT outT : List F) (w b : List ℝ) (n : ℕ) (x : Fmap) : Option Fmap :=
  r2convT M.cfg rep inT outT M.basis w b n x

end E2
