import Verif.Model.Shapes
import Verif.Model.NetTree
import Verif.Model.Nonlin
import Verif.Model.InducedNonlin
import Verif.Model.Pointwise

/-!
`evaluate_output_shape` of modules whose forward pass is modelled on channels: `GatedNonLinearity2`, `InducedGatedNonLinearity1`,
`VectorFieldNonLinearity`, `BranchingModule` and `PointwiseDropout`.
-/

namespace E2

variable {R : Type}

/-- `evaluate_output_shape` of a module with one input type, which keeps the batch and the image: `(b, out_type.size, hi, wi)`
(induced_gated1.py:266-273, vectorfield.py:95-101).  The argument is a tuple of four integers here, so that the first assert holds. -/
def declKeep (inSize outSize : ℕ) (sh : Shape) : Option (List Dim) :=
  if sh.c = inSize then some [.int sh.b, .int outSize, .int sh.h, .int sh.w] else none

/-- `InducedGatedNonLinearity1.evaluate_output_shape` (nonlinearities/induced_gated1.py:266-273); `out_type` is chosen in lines 121-124. -/
def declInducedGated (sz : R → ℕ) (inType : List R) (gates : List Bool) (drop : Bool) : Shape → Option (List Dim) :=
  declKeep (typeSize sz inType) (typeSize sz (gated1Out inType gates drop))

/-- `VectorFieldNonLinearity.evaluate_output_shape` (nonlinearities/vectorfield.py:95-101) for `n` regular fields of `C_N`; the output type has
`n` fields `irrep_1` (line 49). -/
def declVectorField (N outSize n : ℕ) : Shape → Option (List Dim) := declKeep (n * N) (n * outSize)

/-- `GatedNonLinearity2.evaluate_output_shape` (nonlinearities/gated2.py:198-213): the shapes of the gates and of the input. -/
def declGated2 (sz : R → ℕ) (gateType inType : List R) : List Shape → Option (List Dim)
  | [sg, sh] =>
    if sg.c = typeSize sz gateType then
      if sh.c = typeSize sz inType then
        if sg.b = sh.b then
          if sg.h = sh.h ∧ sg.w = sh.w then some [.int sh.b, .int (typeSize sz inType), .int sh.h, .int sh.w] else none
        else none
      else none
    else none
  | _ => none

/-- `BranchingModule.evaluate_output_shape` (branching_module.py:221-227): the entry of the dictionary at the label `l`, `none` also where
there is no such entry. -/
def declBranch {L : Type} [LinearOrder L] [LinearOrder R] (sz : R → ℕ) (level : ℕ) (labels : List L) (inType : List R) (l : L) (sh : Shape) :
    Option (List Dim) :=
  if sh.c = typeSize sz inType then
    (branchType sz level labels inType l).map fun t => [.int sh.b, .int (typeSize sz t), .int sh.h, .int sh.w]
  else none

/-- `PointwiseDropout.evaluate_output_shape` (dropout/pointwise.py:72-75). -/
def declDropout (sz : R → ℕ) (inType : List R) (sh : Shape) : Option (List Dim) := if sh.c = typeSize sz inType then some sh.dims else none

/-- `PointwiseDropout.forward` (dropout/pointwise.py:54-70) with the factors drawn by PyTorch (`mask`, in training mode `0` or `1/(1-p)` for each
value, in evaluation mode `1`). -/
def pointwiseDropout {P : Type} [DecidableEq R] (sz : R → ℕ) (inType : List R) (mask : ℕ → P → ℝ) (x : GTensor R (P → ℝ)) :
    Option (GTensor R (P → ℝ)) :=
  if x.ty = inType then mkGT sz (x.data.mapIdx fun c v p => mask c p * v p) inType else none

end E2
