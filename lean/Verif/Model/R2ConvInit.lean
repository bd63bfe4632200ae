import Verif.Model.R2Conv
import Verif.Model.BandLimit

/-!
# `R2Conv` from its public arguments: the kernel bases of the spaces (`gspaces/r2/*.py`, `kernels/r2.py`) and the constructor (`r2convolution.py`)
-/

namespace E2

variable {El F : Type} [LinearOrder F]

/-- The attributes of an element of `PolarBasis(GaussianRadialProfile(...), SteerableKernelBasis(...))` (kernels/basis.py:302-332, 217-219,
kernels/steerable_basis.py:222-273): radius, width and index of the ring, and the attributes of the angular element. -/
abbrev BasisAttr (El : Type) := PolarAttr ((ℝ × ℝ) × ℕ) (SBasis.Attr El AngElem)

/-- The functions of kernels/r2.py:20-310: the elements of `PolarBasis(radial_profile, angular_basis)` in the order of their iteration; `none` for a failed
assertion (in the irrep bases), the empty list for `EmptyBasisException`. -/
noncomputable def polarBasis (axis : ℝ) (rings : List (ℝ × ℝ)) (bas : Irrep El → Irrep El → Option (List AngElem)) (rin rout : Repr El) :
    Option (List (BasisAttr El × (ℝ × ℝ → Mat))) :=
  (steerable bas rin rout).map fun S =>
    (polarIter Prod.snd SBasis.Attr.idx (gaussianIter rings) S.iter).map fun a => (a, planeKernel axis (rings.map fun q => gaussian q.1 q.2) S a.idx)

/-- What a space gives to `_basis_generator`: the axis of the reflections, and the irrep basis for `maximum_frequency` and `maximum_offset`; `none` for a
failed assertion. -/
structure KernelGen (El : Type) where
  axis : ℝ
  bas : Option ℤ → Option ℤ → Option (Irrep El → Irrep El → Option (List AngElem))

/-- The checks of the two bounds for finite groups (gspaces/r2/rot2d_on_r2.py:135-147, fliprot2d_on_r2.py:197-209, flip2d_on_r2.py:117-129,
trivial_on_r2.py:105-117): both non negative, at least one given. -/
def checkBounds (maxFreq maxOff : Option ℤ) : Option (Option ℕ × Option ℕ) :=
  if (∀ f ∈ maxFreq, 0 ≤ f) ∧ (∀ t ∈ maxOff, 0 ≤ t) ∧ ¬ (maxFreq = none ∧ maxOff = none) then
    some (maxFreq.map Int.toNat, maxOff.map Int.toNat)
  else none

/-- `Rot2dOnR2(N)._basis_generator` (gspaces/r2/rot2d_on_r2.py:135-152, kernels/r2.py:94-147). -/
noncomputable def rot2dGen (N : ℕ) : KernelGen ℤ :=
  ⟨0, fun mf mo => (checkBounds mf mo).map fun b i o => rotBasis N i o b.1 b.2⟩

/-- `Rot2dOnR2(-1)._basis_generator` (gspaces/r2/rot2d_on_r2.py:153-154, kernels/r2.py:20-52): the bounds are not used. -/
noncomputable def so2Gen : KernelGen ℝ := ⟨0, fun _ _ => some contBasis⟩

/-- `Flip2dOnR2(axis)._basis_generator` (gspaces/r2/flip2d_on_r2.py:117-134, kernels/r2.py:208-257). -/
noncomputable def flip2dGen (axis : ℝ) : KernelGen ℤ :=
  ⟨axis, fun mf mo => (checkBounds mf mo).map fun b i o => flipsBasis i o b.1 b.2⟩

/-- `FlipRot2dOnR2(N, axis=axis)._basis_generator` (gspaces/r2/fliprot2d_on_r2.py:197-215, kernels/r2.py:150-205). -/
noncomputable def flipRot2dGen (N : ℕ) (axis : ℝ) : KernelGen (ℤ × ℤ) :=
  ⟨axis, fun mf mo => (checkBounds mf mo).map fun b i o => flipRotBasis N i o b.1 b.2⟩

/-- `FlipRot2dOnR2(-1, axis=axis)._basis_generator` (gspaces/r2/fliprot2d_on_r2.py:216-217, kernels/r2.py:55-91): the bounds are not used. -/
noncomputable def o2Gen (axis : ℝ) : KernelGen (ℤ × ℝ) := ⟨axis, fun _ _ => some flipContBasis⟩

/-- `TrivialOnR2()._basis_generator` (gspaces/r2/trivial_on_r2.py:105-121, kernels/r2.py:260-310). -/
noncomputable def trivialGen : KernelGen ℤ :=
  ⟨0, fun mf mo => (checkBounds mf mo).map fun b i o => rotBasis 1 i o b.1 b.2⟩

/-- `build_kernel_basis` (gspaces/r2/general_r2.py:96-126), without its cache (see C42): the widths are positive, one for each ring. -/
noncomputable def buildKernelBasis (G : KernelGen El) (sigma rings : List ℝ) (maxFreq maxOff : Option ℤ) (rin rout : Repr El) :
    Option (List (BasisAttr El × (ℝ × ℝ → Mat))) :=
  open Classical in
  if (∀ s ∈ sigma, 0 < s) ∧ sigma.length = rings.length then
    match G.bas maxFreq maxOff with
    | none => none
    | some bas => polarBasis G.axis (rings.zip sigma) bas rin rout
  else none

/-- The public arguments of `R2Conv` (r2convolution.py:27-45) besides the types and the bias; `frequencies_cutoff=None` is the number `-1`.  `recompute` and
`initialize` are left out, the padding is one number. -/
structure ConvArgs (El : Type) where
  kernelSize : ℕ
  padding : ℕ
  stride : ℕ
  dilation : ℕ
  paddingMode : PadMode
  groups : ℕ
  sigma : Option (ℝ ⊕ List ℝ)
  cutoff : Cutoff
  rings : Option (List ℝ)
  maximumOffset : Option ℤ
  basisFilter : Option (BasisAttr El → Bool)

/-- The identifier of an element (basisexpansion_singleblock.py:88-108), before it is formatted as a string: names and indices of the irreps, radius,
frequency, index among the elements for the two irreps.  The name of an irrep is its frequency and flip frequency. -/
abbrev AttrId := ((ℕ × ℕ) × ℕ) × ((ℕ × ℕ) × ℕ) × ℝ × ℤ × ℕ

/-- The identifier built from the attributes (basisexpansion_singleblock.py:98-105). -/
def attrId (a : BasisAttr El) : AttrId :=
  (((a.angular.inIrrep.freq, a.angular.inIrrep.flip), a.angular.inIdx), ((a.angular.outIrrep.freq, a.angular.outIrrep.flip), a.angular.outIdx), a.radial.1.1, a.angular.elem.mu,
    a.angular.innerIdx)

noncomputable instance : DecidableEq AttrId := Classical.decEq _

open Classical in
/-- The configuration of the expansion made by the constructor: the filter is the custom one and the band limit (r2convolution.py:576-603, 689-694),
`attr["shape"][0]` is the size of the output irrep (kernels/steerable_basis.py:236). -/
noncomputable def ConvArgs.cfg (a : ConvArgs El) (fco : ℝ → ℝ) : ConvCfg (BasisAttr El) AttrId where
  k := a.kernelSize
  p := a.padding
  s := a.stride
  d := a.dilation
  groups := a.groups
  mode := a.paddingMode
  keep := fun t => (match a.basisFilter with | some f => f t | none => true) && (blFilter (.inr fco) t.angular.elem.mu t.radial.1.1).getD false
  shape0 := fun t => t.angular.outIrrep.size
  ident := attrId
  inIdx := fun t => t.angular.inIdx
  outIdx := fun t => t.angular.outIdx

/-- An instance of `R2Conv`: the configuration, and the bases of the pairs of representations. -/
structure ConvModule (El F : Type) where
  cfg : ConvCfg (BasisAttr El) AttrId
  basis : F → F → List (BasisAttr El × (ℝ × ℝ → Mat))
  dim : ℕ

open Classical in
/-- `R2Conv.__init__` (r2convolution.py:152-279); `none` for any exception.  The bases are built for the pairs of representations of one group of the
input and the output (basisexpansion_blocks.py:66-90). -/
noncomputable def r2convInit (G : KernelGen El) (a : ConvArgs El) (rep : F → Repr El) (inT outT : List F) : Option (ConvModule El F) :=
  match convGroups a.groups inT outT with
  | none => none
  | some inG =>
    match computeBasisParams a.kernelSize a.dilation a.cutoff a.rings a.sigma with
    | none => none
    | some (rings, sigma, fco, maxFreq) =>
      if ∀ i ∈ inG, ∀ o ∈ outT, buildKernelBasis G sigma rings (some maxFreq) a.maximumOffset (rep i) (rep o) ≠ none then
        let basis := fun i o => (buildKernelBasis G sigma rings (some maxFreq) a.maximumOffset (rep i) (rep o)).getD []
        let dim := ((a.cfg fco).exp rep inG outT basis).dimension
        if dim = 0 then none else some ⟨a.cfg fco, basis, dim⟩
      else none

/-- `R2Conv.forward` in training mode (r2convolution.py:294-353). -/
noncomputable def ConvModule.forward (M : ConvModule El F) (rep : F → Repr El) (inT outT : List F) (w b : List ℝ) (n : ℕ) (x : Fmap) : Option Fmap :=
  r2conv M.cfg rep inT outT M.basis w b n x

end E2
