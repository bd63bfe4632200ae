import Verif.Model.Conv
import Verif.Model.Bias
import Verif.Props.Expansion

/-!
# `R2Conv`: constructor and forward pass, `nn/modules/r2_conv/r2convolution.py`
-/

namespace E2

variable {El F A I : Type} [LinearOrder F] [DecidableEq I]

/-- The bias of a module with output type `outT` and parameters `b` (r2convolution.py:199-240, 308-311). -/
noncomputable def outBias {El F : Type} (rep : F → Repr El) (outT : List F) (b : List ℝ) : ℕ → ℝ := expandBias (biasCols 0 (outT.map rep)) b

/-- The arguments of the constructor of `R2Conv` besides the types: kernel size, padding, stride, dilation, groups and the mode of the
padding; and what the basis expansion takes from the constructor: the filter on the elements of the basis and the reading of the attributes. -/
structure ConvCfg (A I : Type) where
  k : ℕ
  p : ℕ
  s : ℕ
  d : ℕ
  groups : ℕ
  mode : PadMode
  keep : A → Bool
  shape0 : A → ℕ
  ident : A → I
  inIdx : A → ℕ
  outIdx : A → ℕ

/-- The expansion of the filter built by the constructor (r2convolution.py:242-262) for the type `inG` of one group of the input. -/
noncomputable def ConvCfg.exp (c : ConvCfg A I) (rep : F → Repr El) (inG outT : List F) (basis : F → F → List (A × (ℝ × ℝ → Mat))) : Exp F A I :=
  filterExp rep inG outT (c.k * c.k) (gridCoords c.k c.d) basis c.keep c.shape0 c.ident c.inIdx c.outIdx

/-- `R2Conv.forward` in training mode (r2convolution.py:294-353) with weights `w` and bias parameters `b`, on an image with `n × n`
pixels; `none` for a failed assertion. -/
noncomputable def r2conv (c : ConvCfg A I) (rep : F → Repr El) (inT outT : List F) (basis : F → F → List (A × (ℝ × ℝ → Mat)))
    (w b : List ℝ) (n : ℕ) (x : Fmap) : Option Fmap :=
  match convGroups c.groups inT outT with
  | none => none
  | some inG =>
    match (c.exp rep inG outT basis).forward w with
    | none => none
    | some f => some (conv2d c.mode n c.p c.k c.s c.d (typeSize (fun m => (rep m).size) inG)
        (typeSize (fun m => (rep m).size) outT / c.groups) (reshapeFilter c.k f) (outBias rep outT b) x)

end E2
