import Verif.Model.FiniteDiff
import Verif.Model.R2Conv

/-!
# `R2Diffop`: constructor and forward pass, `nn/modules/r2_conv/r2diffop.py`

The discretisation is a parameter `smp`: `fdSample` (finite differences) or one of those of `Model/GaussDiff.lean`.
-/

namespace E2

variable {El F B I : Type} [LinearOrder F] [DecidableEq I]

/-- The choice of the kernel size and of the maximum order (r2diffop.py:232-259): the arguments `kernel_size`, `maximum_order` and `accuracy`;
`none` for a failed assertion or a `ValueError`.  The warnings are not modelled. -/
def diffopSizes (kernelSize maxOrder accuracy : Option ℤ) : Option (ℤ × ℤ) :=
  match kernelSize, maxOrder, accuracy with
  | none, none, _ => none
  | none, some o, a => some (requiredPoints o (a.getD (if 0 < o then 2 else 1)), o)
  | some k, none, a => (largestPossibleOrder k (a.getD (if 1 < k then 2 else 1))).map fun o => (k, o)
  | some k, some o, none => some (k, o)
  | some _, some _, some _ => none

/-- The largest power of the Laplacian (r2diffop.py:720-723). -/
def diffopPower (maxOrder : ℤ) (maxPower : Option ℤ) : ℤ :=
  match maxPower with
  | some p => min p (maxOrder / 2)
  | none => maxOrder / 2

/-- The arguments of the constructor of `R2Diffop` besides the types (r2diffop.py:36-59): the three arguments which determine the kernel size, the
largest power of the Laplacian, the angle offset, padding, stride, dilation, groups and the mode of the padding, the custom filter on the attributes
(`fun _ => true` for `None`) and the reading of the attributes.  The attributes of an element are its order (`attr["order"]`) and the rest. -/
structure DiffopCfg (B I : Type) where
  kernelSize : Option ℤ
  maxOrder : Option ℤ
  accuracy : Option ℤ
  maxPower : Option ℤ
  angle : Option ℝ
  p : ℕ
  s : ℕ
  d : ℕ
  groups : ℕ
  mode : PadMode
  keep : ℕ × B → Bool
  shape0 : ℕ × B → ℕ
  ident : ℕ × B → I
  inIdx : ℕ × B → ℕ
  outIdx : ℕ × B → ℕ

/-- The kernel size, the maximum order and the largest power of the Laplacian.  A kernel size which is not positive fails the assertion on the grid
(r2diffop.py:697), a negative order or power leaves the basis empty, which is an error too (r2diffop.py:369-374): `none`. -/
def DiffopCfg.resolve (c : DiffopCfg B I) : Option (ℕ × ℕ × ℕ) :=
  match diffopSizes c.kernelSize c.maxOrder c.accuracy with
  | none => none
  | some (k, o) =>
    if 1 ≤ k ∧ 0 ≤ o ∧ 0 ≤ diffopPower o c.maxPower then some (k.toNat, o.toNat, (diffopPower o c.maxPower).toNat) else none

/-- The filter on the elements of the basis: the custom filter and `order_filter` (r2diffop.py:715-718, 754-755). -/
def DiffopCfg.keepOf (c : DiffopCfg B I) (maxOrder : ℕ) : ℕ × B → Bool := fun a => c.keep a && decide (a.1 ≤ maxOrder)

/-- The operators of a pair of representations with their attributes and their samples on the grid (basisexpansion_blocks.py:73-78 with
`build_diffop_basis`, `sample_masked`); `attr["order"]` is the degree of the operator (see `c47_order`).  Operators which cannot be discretised have
no sample; see `DiffopCfg.Sampled`. -/
noncomputable def diffopBasis (smp : Sampler) (k d : ℕ) (off : Option ℝ) (rep : F → Repr El) (ops : F → F → Option (List DArr))
    (attr : F → F → ℕ → B) (i o : F) : List ((ℕ × B) × (ℕ → Mat)) :=
  ((ops i o).getD []).zipIdx.map fun D =>
    ((D.1.deg, attr i o D.2), (smp k d (rep o).size (rep i).size off D.1).getD fun _ _ _ => 0)

/-- All the operators which pass the filter can be discretised (`sample_masked` with the mask of the filter, diffops/basis.py:93-150, and the
assertion of `discretize_1d_monomial`, diffops/utils.py:181-182). -/
def DiffopCfg.Sampled (c : DiffopCfg B I) (smp : Sampler) (k maxOrder : ℕ) (rep : F → Repr El) (inG outT : List F)
    (ops : F → F → Option (List DArr)) (attr : F → F → ℕ → B) : Prop :=
  ∀ i ∈ inG, ∀ o ∈ outT, ∀ D ∈ ((ops i o).getD []).zipIdx, c.keepOf maxOrder (D.1.deg, attr i o D.2) = true →
    (smp k c.d (rep o).size (rep i).size c.angle D.1).isSome

/-- The expansion of the filter built by the constructor (r2diffop.py:342-367) for the type `inG` of one group of the input. -/
noncomputable def DiffopCfg.exp (c : DiffopCfg B I) (smp : Sampler) (k maxOrder : ℕ) (rep : F → Repr El) (inG outT : List F)
    (ops : F → F → Option (List DArr)) (attr : F → F → ℕ → B) : Exp F (ℕ × B) I :=
  filterExp rep inG outT (k * k) id (diffopBasis smp k c.d c.angle rep ops attr) (c.keepOf maxOrder) c.shape0 c.ident c.inIdx c.outIdx

open Classical in
/-- `R2Diffop.__init__` and `R2Diffop.forward` in training mode (r2diffop.py:215-384, 399-458) with weights `w` and bias parameters `b`, on an image
with `n × n` pixels; `ops` gives the operators for a maximum order and a largest power of the Laplacian.  `none` for an exception. -/
noncomputable def r2diffop (c : DiffopCfg B I) (smp : Sampler) (rep : F → Repr El) (inT outT : List F)
    (ops : ℕ → ℕ → F → F → Option (List DArr)) (attr : F → F → ℕ → B) (w b : List ℝ) (n : ℕ) (x : Fmap) : Option Fmap :=
  match c.resolve with
  | none => none
  | some (k, o, pw) =>
    match convGroups c.groups inT outT with
    | none => none
    | some inG =>
      if c.Sampled smp k o rep inG outT (ops o pw) attr then
        if (c.exp smp k o rep inG outT (ops o pw) attr).dimension = 0 then none
        else
          match (c.exp smp k o rep inG outT (ops o pw) attr).forward w with
          | none => none
          | some f => some (conv2d c.mode n c.p k c.s c.d (typeSize (fun m => (rep m).size) inG)
              (typeSize (fun m => (rep m).size) outT / c.groups) (reshapeFilter k f) (outBias rep outT b) x)
      else none

end E2
