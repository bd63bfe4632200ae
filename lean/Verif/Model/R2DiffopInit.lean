import Verif.Model.R2Diffop
import Verif.Model.Diffops
import Verif.Model.R2ConvInit

/-!
# `R2Diffop` from its public arguments: the operators of the spaces (`gspaces/r2/*.py`, `diffops/r2.py`) and the constructor (`r2diffop.py`)
-/

namespace E2

variable {El F : Type} [LinearOrder F]

/-- The attributes of an element of `TensorBasis` (diffops/basis.py:252-287): those of the element of the first basis, the power of the Laplacian and the three
indices. -/
structure TensorAttr (El : Type) where
  angular : SBasis.Attr El DElem
  power : ℕ
  idx : ℕ
  idx1 : ℕ
  idx2 : ℕ

/-- `attr["order"]` (diffops/basis.py:263, 277; diffops/irreps_basis.py:115-121 and the same lines of the other classes; diffops/basis.py:192-194). -/
def TensorAttr.order (a : TensorAttr El) : ℕ := a.angular.elem.mu.natAbs + 2 * a.power

/-- `TensorBasis.__iter__` (diffops/basis.py:271-284) with `LaplaceProfile.__getitem__` (diffops/basis.py:192-194). -/
def tensorIter (S : SBasis El DElem) (maxPower : ℕ) : List (TensorAttr El) :=
  (SBasis.enum (S.iter.flatMap fun a => (List.range (maxPower + 1)).map fun k => (a, k))).map fun p => ⟨p.2.1, p.2.2, p.1, p.2.1.idx, p.2.2⟩

/-- What a space gives to `_diffop_basis_generator`: the coefficients of the operators of a pair of irreps, and the basis of the irreps for
`maximum_frequency` and `maximum_offset`; `none` for a failed assertion. -/
structure DiffopGen (El : Type) where
  cf : Irrep El → Irrep El → DElem → DArr
  bas : Option ℤ → Option ℤ → Option (Irrep El → Irrep El → Option (List DElem))

/-- `Rot2dOnR2(N)._diffop_basis_generator` (gspaces/r2/rot2d_on_r2.py:186-203, diffops/r2.py:106-163).  The checks are those of the kernels. -/
noncomputable def rot2dDiffops (N : ℕ) : DiffopGen ℤ :=
  ⟨dSamp 0, fun mf mo => (checkBounds mf mo).map fun b i o => dRot N i o b.1 b.2⟩

/-- `Rot2dOnR2(-1)._diffop_basis_generator` (gspaces/r2/rot2d_on_r2.py:204-205, diffops/r2.py:73-102). -/
noncomputable def so2Diffops : DiffopGen ℝ := ⟨fun i o => dCoefCont o.size i.size, fun _ _ => some dCont⟩

/-- `Flip2dOnR2(axis)._diffop_basis_generator` (gspaces/r2/flip2d_on_r2.py:163-181, diffops/r2.py:20-70). -/
noncomputable def flip2dDiffops (axis : ℝ) : DiffopGen ℤ :=
  ⟨dSamp axis, fun mf mo => (checkBounds mf mo).map fun b i o => dFlips i o b.1 b.2⟩

/-- `FlipRot2dOnR2(N, axis=axis)._diffop_basis_generator` (gspaces/r2/fliprot2d_on_r2.py:249-267, diffops/r2.py:167-220). -/
noncomputable def flipRot2dDiffops (N : ℕ) (axis : ℝ) : DiffopGen (ℤ × ℤ) :=
  ⟨dSamp axis, fun mf mo => (checkBounds mf mo).map fun b i o => dFlipRot N i o b.1 b.2⟩

/-- `FlipRot2dOnR2(-1, axis=axis)._diffop_basis_generator` (gspaces/r2/fliprot2d_on_r2.py:268-269, diffops/r2.py:223-262). -/
noncomputable def o2Diffops (axis : ℝ) : DiffopGen (ℤ × ℝ) := ⟨dSamp axis, fun _ _ => some dFlipCont⟩

/-- `TrivialOnR2()._diffop_basis_generator` (gspaces/r2/trivial_on_r2.py:150-167, diffops/r2.py:266-317). -/
noncomputable def trivialDiffops : DiffopGen ℤ :=
  ⟨dSamp 0, fun mf mo => (checkBounds mf mo).map fun b i o => dRot 1 i o b.1 b.2⟩

/-- `build_diffop_basis` (gspaces/r2/general_r2.py:128-199), without its cache (see C42): the elements of `TensorBasis` in the order of their iteration, with
their coefficients; `none` for a failed assertion, the empty list for `EmptyBasisException`. -/
noncomputable def buildDiffopBasis (G : DiffopGen El) (maxPower : ℕ) (maxFreq maxOff : Option ℤ) (rin rout : Repr El) :
    Option (List (TensorAttr El × DArr)) :=
  match G.bas maxFreq maxOff with
  | none => none
  | some bas => (steerable bas rin rout).map fun S => (tensorIter S maxPower).zip (tensorCoefs (S.dCoefs G.cf) (laplaceProfile maxPower))

/-- The public arguments of `R2Diffop` (r2diffop.py:36-59) besides the types, the bias and those which choose the
method of discretisation (see `DiscMethod`); the padding is one number,
`recompute`, `initialize` and `cache` are left out. -/
structure DiffopArgs (El : Type) where
  kernelSize : Option ℤ
  accuracy : Option ℤ
  maximumOrder : Option ℤ
  maximumPower : Option ℤ
  maximumOffset : Option ℤ
  padding : ℕ
  stride : ℕ
  dilation : ℕ
  paddingMode : PadMode
  groups : ℕ
  angleOffset : Option ℝ
  basisFilter : Option (TensorAttr El → Bool)

/-- The identifier of an element (basisexpansion_singleblock.py:88-108), before it is formatted as a string: the order stands where the kernels have the
radius. -/
abbrev DiffopId := ((ℕ × ℕ) × ℕ) × ((ℕ × ℕ) × ℕ) × ℕ × ℤ × ℕ

/-- The identifier built from the attributes (basisexpansion_singleblock.py:98-105). -/
def diffopId (a : TensorAttr El) : DiffopId :=
  (((a.angular.inIrrep.freq, a.angular.inIrrep.flip), a.angular.inIdx), ((a.angular.outIrrep.freq, a.angular.outIrrep.flip), a.angular.outIdx), a.order, a.angular.elem.mu,
    a.angular.innerIdx)

/-- The configuration of the expansion: `attr["shape"][0]` is the size of the output irrep (diffops/steerable_basis.py:223). -/
def DiffopArgs.cfg (a : DiffopArgs El) : DiffopCfg (TensorAttr El) DiffopId where
  kernelSize := a.kernelSize
  maxOrder := a.maximumOrder
  accuracy := a.accuracy
  maxPower := a.maximumPower
  angle := a.angleOffset
  p := a.padding
  s := a.stride
  d := a.dilation
  groups := a.groups
  mode := a.paddingMode
  keep := fun t => match a.basisFilter with | some f => f t.2 | none => true
  shape0 := fun t => t.2.angular.outIrrep.size
  ident := fun t => diffopId t.2
  inIdx := fun t => t.2.angular.inIdx
  outIdx := fun t => t.2.angular.outIdx

/-- An instance of `R2Diffop`: the configuration with the kernel size, the maximum order and the power of the Laplacian it determined, and the bases of the
pairs of representations of the types (empty for all others). -/
structure DiffopModule (El F : Type) where
  cfg : DiffopCfg (TensorAttr El) DiffopId
  size : ℕ
  order : ℕ
  inG : List F
  basis : F → F → List (TensorAttr El × DArr)

/-- The operators with their attributes and their samples: `sample_masked` and the attributes of the elements (diffops/basis.py:93-150,
basisexpansion_singleblock.py:56-83); the order used by the filter is `attr["order"]`. -/
noncomputable def DiffopModule.sampled (smp : Sampler) (M : DiffopModule El F) (rep : F → Repr El) (i o : F) :
    List ((ℕ × TensorAttr El) × (ℕ → Mat)) :=
  (M.basis i o).map fun b => ((b.1.order, b.1), (smp M.size M.cfg.d (rep o).size (rep i).size M.cfg.angle b.2).getD fun _ _ _ => 0)

/-- The expansion of the filter (r2diffop.py:342-367). -/
noncomputable def DiffopModule.exp (smp : Sampler) (M : DiffopModule El F) (rep : F → Repr El) (outT : List F) :
    Exp F (ℕ × TensorAttr El) DiffopId :=
  filterExp rep M.inG outT (M.size * M.size) id (M.sampled smp rep) (M.cfg.keepOf M.order) M.cfg.shape0 M.cfg.ident M.cfg.inIdx M.cfg.outIdx

open Classical in
/-- `R2Diffop.__init__` (r2diffop.py:215-384); `none` for any exception: the choice of the sizes, the groups, the bases, the discretisation of the elements
which pass the filter, the empty expansion. -/
noncomputable def r2diffopInit (smp : Sampler) (G : DiffopGen El) (a : DiffopArgs El) (rep : F → Repr El) (inT outT : List F) :
    Option (DiffopModule El F) :=
  match a.cfg.resolve with
  | none => none
  | some (k, o, pw) =>
    match convGroups a.groups inT outT with
    | none => none
    | some inG =>
      if ∀ i ∈ inG, ∀ j ∈ outT, buildDiffopBasis G pw (some o) a.maximumOffset (rep i) (rep j) ≠ none then
        let M : DiffopModule El F :=
          ⟨a.cfg, k, o, inG, fun i j =>
            if i ∈ inG ∧ j ∈ outT then (buildDiffopBasis G pw (some o) a.maximumOffset (rep i) (rep j)).getD [] else []⟩
        if ∀ i ∈ inG, ∀ j ∈ outT, ∀ b ∈ M.basis i j, M.cfg.keepOf o (b.1.order, b.1) = true →
            (smp k a.dilation (rep j).size (rep i).size a.angleOffset b.2).isSome then
          if (M.exp smp rep outT).dimension = 0 then none else some M
        else none
      else none

/-- `R2Diffop.forward` in training mode (r2diffop.py:399-458). -/
noncomputable def DiffopModule.forward (smp : Sampler) (M : DiffopModule El F) (rep : F → Repr El) (outT : List F) (w b : List ℝ) (n : ℕ)
    (x : Fmap) : Option Fmap :=
  ((M.exp smp rep outT).forward w).map fun f => conv2d M.cfg.mode n M.cfg.p M.size M.cfg.s M.cfg.d (typeSize (fun m => (rep m).size) M.inG)
    (typeSize (fun m => (rep m).size) outT / M.cfg.groups) (reshapeFilter M.size f) (outBias rep outT b) x

end E2
