import Verif.Model.Expansion

/-!
# The dictionary of sampled bases: `block_basisexpansion` in `nn/modules/r2_conv/basisexpansion_singleblock.py`

The dictionary is a module variable: it is shared by all the layers of all the spaces in a process.
-/

namespace E2

variable {El Tag Nm : Type}

/-- A `PolarBasis` made of a `GaussianRadialProfile` and of a `SteerableKernelBasis`, as built by the functions in `kernels/r2.py:20-310`.  `tag` stands for the
group and the class of the irrep bases, `axis` for their attribute of this name (kernels/irreps_basis.py:62, 663, 907), `bases` for the constructor of the class with
its other arguments. -/
structure PolarB (El Tag Nm : Type) where
  tag : Tag
  axis : ℝ
  rings : List (ℝ × ℝ)
  inName : Nm
  outName : Nm
  rin : Repr El
  rout : Repr El
  bases : Irrep El → Irrep El → Option (List AngElem)

/-- The attributes of an element: radius, width and index of the radial part, and those of the angular part (kernels/basis.py:302-332). -/
abbrev PAttr (El : Type) := PolarAttr ((ℝ × ℝ) × ℕ) (SBasis.Attr El AngElem)

namespace PolarB

open Classical in
/-- The dictionary `irreps_bases` (kernels/steerable_basis.py:90-109), which has entries for the irreps of the two representations only. -/
noncomputable def dict (b : PolarB El Tag Nm) (i o : Irrep El) : Option (List AngElem) :=
  if i ∈ b.rin.irreps ∧ o ∈ b.rout.irreps then b.bases i o else some []

/-- The steerable basis; the empty one if the constructor fails. -/
noncomputable def sbasis (b : PolarB El Tag Nm) : SBasis El AngElem := (steerable b.dict b.rin b.rout).getD ⟨[], [], none, none, fun _ _ => []⟩

/-- The radial functions (kernels/basis.py:211-213). -/
noncomputable def radials (b : PolarB El Tag Nm) : List (ℝ → ℝ) := b.rings.map fun q => gaussian q.1 q.2

/-- `for b, attr in enumerate(basis)` (kernels/basis.py:320-332). -/
noncomputable def attrs (b : PolarB El Tag Nm) : List (PAttr El) :=
  polarIter (fun r => r.2) (fun a => a.idx) (gaussianIter b.rings) b.sbasis.iter

/-- The elements of the basis with their samples at the points (basisexpansion_singleblock.py:48, 56-58). -/
noncomputable def elems (b : PolarB El Tag Nm) (points : List (ℝ × ℝ)) : List (Elem (PAttr El)) :=
  b.attrs.zipIdx.map fun q => ⟨q.1, fun r c s => planeKernel b.axis b.radials b.sbasis q.2 (points.getD s (0, 0)) r c⟩

/-- `==` on these objects: `PolarBasis.__eq__` (kernels/basis.py:334-338), `GaussianRadialProfile.__eq__` (kernels/basis.py:221-225), `SteerableKernelBasis.__eq__`
(kernels/steerable_basis.py:275-290), `Representation.__eq__` (representation.py:328-336) and the `__eq__` of the irrep bases (kernels/irreps_basis.py:174-180, 434-442, 623-631,
881-889, 1063-1071), of which `cmpAxis` tells whether it compares the axis: only `R2FlipsSolution` does.  `np.allclose` is equality here.
Of a representation the code compares the change of basis and not its inverse, and of the elements the frequency, the phase and `s` and not the offset; the
first determine the second. -/
def Same (cmpAxis : Tag → Bool) (a b : PolarB El Tag Nm) : Prop :=
  a.rings = b.rings ∧ a.tag = b.tag ∧ (a.inName = b.inName ∧ a.rin = b.rin) ∧ (a.outName = b.outName ∧ a.rout = b.rout) ∧
  (∀ i ∈ a.rin.irreps, ∀ o ∈ a.rout.irreps, a.bases i o = b.bases i o) ∧ (cmpAxis a.tag = true → a.axis = b.axis)

end PolarB

/-- A call of `block_basisexpansion`; `keep` is the argument `basis_filter`. -/
structure FReq (El Tag Nm : Type) where
  basis : PolarB El Tag Nm
  points : List (ℝ × ℝ)
  keep : PAttr El → Bool
  recompute : Bool

namespace FReq

/-- `mask` (basisexpansion_singleblock.py:174-176). -/
noncomputable def mask (r : FReq El Tag Nm) : List Bool := r.basis.attrs.map r.keep

/-- Equality of the keys `(basis, mask.tobytes(), points.tobytes())` (basisexpansion_singleblock.py:178).  Equal objects have equal hashes, as these are
computed from the compared attributes (kernels/basis.py:227-228, 340-341, kernels/steerable_basis.py:292-296, representation.py:341-342, kernels/irreps_basis.py:182-183, 444-445,
633-634, 891-892, 1073-1074). -/
def SameKey (cmpAxis : Tag → Bool) (a b : FReq El Tag Nm) : Prop := a.basis.Same cmpAxis b.basis ∧ a.mask = b.mask ∧ a.points = b.points

/-- `SingleBlockBasisExpansion(basis, points, basis_filter)`; the first entry of `attr["shape"]` is the size of the output irrep (kernels/steerable_basis.py:236). -/
noncomputable def build (r : FReq El Tag Nm) : Option (List (Elem (PAttr El))) :=
  singleBlock r.basis.rout.size r.basis.rin.size r.points.length r.keep (fun a => a.angular.outIrrep.size) (r.basis.elems r.points)

end FReq

/-- `_stored_filters` (basisexpansion_singleblock.py:148). -/
abbrev Stored (El Tag Nm : Type) := List (FReq El Tag Nm × List (Elem (PAttr El)))

open Classical in
/-- `block_basisexpansion` (basisexpansion_singleblock.py:151-185): the result (`none` for an exception) and the dictionary afterwards. -/
noncomputable def blockBasis (cmpAxis : Tag → Bool) (st : Stored El Tag Nm) (r : FReq El Tag Nm) :
    Option (List (Elem (PAttr El))) × Stored El Tag Nm :=
  if r.recompute then (r.build, st)
  else match st.find? fun e => decide (FReq.SameKey cmpAxis e.1 r) with
    | some e => (some e.2, st)
    | none => match r.build with
      | none => (none, st)
      | some bl => (some bl, (r, bl) :: st)

/-- A sequence of calls in one process: the results. -/
noncomputable def blockBases (cmpAxis : Tag → Bool) : Stored El Tag Nm → List (FReq El Tag Nm) → List (Option (List (Elem (PAttr El))))
  | _, [] => []
  | st, r :: rs => (blockBasis cmpAxis st r).1 :: blockBases cmpAxis (blockBasis cmpAxis st r).2 rs

end E2
