import Verif.Model.R2DiffopInit

/-!
# The dictionary of sampled bases of differential operators: `block_basisexpansion` in `nn/modules/r2_conv/basisexpansion_singleblock.py` with the bases of `e2cnn/diffops`

The dictionary is the module variable which the kernels use as well (`Model/StoredFilters.lean`); a `TensorBasis` is never equal to a `PolarBasis`, so the two
parts do not interfere.
-/

namespace E2

variable {El Tag Nm Disc : Type}

/-- What the `__eq__` of a class of bases for irreps compares besides the irreps and the lists `mu`, `invert` and `s`: `R2FlipsSolution` compares the axis
(diffops/irreps_basis.py:125-131), `R2DiscreteRotationsSolution`, `R2ContinuousRotationsSolution` and `R2FlipsContinuousRotationsSolution` nothing
(diffops/irreps_basis.py:349-357, 728-736, 888-896), and `R2FlipsDiscreteRotationsSolution` asks for an instance of `R2DiscreteRotationsSolution`, which it is not
(diffops/irreps_basis.py:581-589), so that no object is equal to anything. -/
inductive EqKind where
  | axis
  | plain
  | never
deriving DecidableEq

/-- A `TensorBasis` as built by the functions in `diffops/r2.py:20-317`.  `tag` stands for the group and the class of the irrep bases, `axis` for their attribute of this
name, `disc` for `DiscretizationArgs` (diffops/basis.py:17-34), `bases` for the constructor of the class with its other arguments. -/
structure TensorB (El Tag Nm Disc : Type) where
  tag : Tag
  axis : ℝ
  disc : Disc
  maxPower : ℕ
  inName : Nm
  outName : Nm
  rin : Repr El
  rout : Repr El
  bases : Irrep El → Irrep El → Option (List DElem)

/-- What the classes and the discretisation compute: the coefficients of an element, by the class and the axis, and the samples of one operator with values in
matrices of the given size (`sample_masked`, diffops/basis.py:93-150); `none` for an exception. -/
structure DiffopLib (El Tag Disc : Type) where
  cf : Tag → ℝ → Irrep El → Irrep El → DElem → DArr
  samp : Disc → List (ℝ × ℝ) → ℕ → ℕ → DArr → Option (ℕ → Mat)
  kind : Tag → EqKind

namespace TensorB

open Classical in
/-- The dictionary `irreps_bases` (diffops/steerable_basis.py:93-110), which has entries for the irreps of the two representations only. -/
noncomputable def dict (b : TensorB El Tag Nm Disc) (i o : Irrep El) : Option (List DElem) :=
  if i ∈ b.rin.irreps ∧ o ∈ b.rout.irreps then b.bases i o else some []

/-- The attributes and the coefficients of the elements (diffops/basis.py:208-284); the empty list if the constructor fails. -/
noncomputable def ops (L : DiffopLib El Tag Disc) (b : TensorB El Tag Nm Disc) : List (TensorAttr El × DArr) :=
  match steerable b.dict b.rin b.rout with
  | none => []
  | some S => (tensorIter S b.maxPower).zip (tensorCoefs (S.dCoefs (L.cf b.tag b.axis)) (laplaceProfile b.maxPower))

/-- `==` on these objects: `TensorBasis.__eq__` (diffops/basis.py:285-289), `LaplaceProfile.__eq__` (diffops/basis.py:196-200), `SteerableDiffopBasis.__eq__`
(diffops/steerable_basis.py:238-253), `Representation.__eq__` (representation.py:328-336) and the `__eq__` of the irrep bases (see `EqKind`).  `DiscretizationArgs` is not
compared.  `np.allclose` is equality here.  A basis without elements never gets here, as its construction raises `EmptyBasisException`. -/
def Same (L : DiffopLib El Tag Disc) (a b : TensorB El Tag Nm Disc) : Prop :=
  a.tag = b.tag ∧ (a.inName = b.inName ∧ a.rin = b.rin) ∧ (a.outName = b.outName ∧ a.rout = b.rout) ∧ a.maxPower = b.maxPower ∧
  (∀ i ∈ a.rin.irreps, ∀ o ∈ a.rout.irreps, a.bases i o = b.bases i o) ∧
  match L.kind a.tag with
  | .axis => a.axis = b.axis
  | .plain => True
  | .never => False

end TensorB

/-- A call of `block_basisexpansion`; `keep` is the argument `basis_filter`. -/
structure DReq (El Tag Nm Disc : Type) where
  basis : TensorB El Tag Nm Disc
  points : List (ℝ × ℝ)
  keep : TensorAttr El → Bool
  recompute : Bool

namespace DReq

/-- `mask` (basisexpansion_singleblock.py:174-176). -/
noncomputable def mask (L : DiffopLib El Tag Disc) (r : DReq El Tag Nm Disc) : List Bool := (r.basis.ops L).map fun b => r.keep b.1

/-- Equality of the keys `(basis, mask.tobytes(), points.tobytes())` (basisexpansion_singleblock.py:178).  Equal objects have equal hashes, as these are
computed from the compared attributes (diffops/basis.py:202-203, 291-292, diffops/steerable_basis.py:255-261, diffops/irreps_basis.py:133-134, 359-360, 591-592,
738-739, 898-899). -/
def SameKey (L : DiffopLib El Tag Disc) (a b : DReq El Tag Nm Disc) : Prop :=
  a.basis.Same L b.basis ∧ a.mask L = b.mask L ∧ a.points = b.points

open Classical in
/-- `SingleBlockBasisExpansion(basis, points, basis_filter)` (basisexpansion_singleblock.py:36-86): the elements which pass the filter are sampled, `none` if this fails. -/
noncomputable def build (L : DiffopLib El Tag Disc) (r : DReq El Tag Nm Disc) : Option (List (Elem (TensorAttr El))) :=
  if ∀ b ∈ r.basis.ops L, r.keep b.1 = true → (L.samp r.basis.disc r.points r.basis.rout.size r.basis.rin.size b.2).isSome then
    singleBlock r.basis.rout.size r.basis.rin.size r.points.length r.keep (fun a => a.angular.outIrrep.size)
      ((r.basis.ops L).map fun b => ⟨b.1, fun x y s =>
        ((L.samp r.basis.disc r.points r.basis.rout.size r.basis.rin.size b.2).getD fun _ _ _ => 0) s x y⟩)
  else none

end DReq

open Classical in
/-- `block_basisexpansion` (basisexpansion_singleblock.py:151-185) on the entries of the dictionary made by differential operators: the result (`none` for an exception)
and the dictionary afterwards. -/
noncomputable def blockDiffop (L : DiffopLib El Tag Disc) (st : List (DReq El Tag Nm Disc × List (Elem (TensorAttr El)))) (r : DReq El Tag Nm Disc) :
    Option (List (Elem (TensorAttr El))) × List (DReq El Tag Nm Disc × List (Elem (TensorAttr El))) :=
  if r.recompute then (r.build L, st)
  else match st.find? fun e => decide (DReq.SameKey L e.1 r) with
    | some e => (some e.2, st)
    | none => match r.build L with
      | none => (none, st)
      | some bl => (some bl, (r, bl) :: st)

/-- A sequence of calls in one process: the results. -/
noncomputable def blockDiffops (L : DiffopLib El Tag Disc) : List (DReq El Tag Nm Disc × List (Elem (TensorAttr El))) → List (DReq El Tag Nm Disc) →
    List (Option (List (Elem (TensorAttr El))))
  | _, [] => []
  | st, r :: rs => (blockDiffop L st r).1 :: blockDiffops L (blockDiffop L st r).2 rs

end E2
