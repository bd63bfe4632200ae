import Verif.Model.Kernels
import Verif.Model.Rep

/-!
# Steerable bases for arbitrary representations: model of `e2cnn/kernels/steerable_basis.py` and of `PolarBasis` in `kernels/basis.py`

The elements of the irrep bases have an arbitrary type `E` and the points of the base space an arbitrary type `X`.
-/

namespace E2

open Finset Mat

/-- A sampled basis at one point: a numpy array of shape `(rows, columns, elements)`. -/
abbrev Arr3 := ℕ → ℕ → ℕ → ℝ

/-- One element of a sampled basis. -/
def Arr3.slice (a : Arr3) (b : ℕ) : Mat := fun i j => a i j b

variable {El E X : Type}

/-- `SteerableKernelBasis` (kernels/steerable_basis.py:14-132): the irreps of the two representations, the changes of basis (`None` if they
are the identity) and the bases for the pairs of irreps.  An absent basis is `[]`. -/
structure SBasis (El E : Type) where
  ins : List (Irrep El)
  outs : List (Irrep El)
  Ainv : Option Mat
  B : Option Mat
  bases : Irrep El → Irrep El → List E

open Classical in
/-- The constructor (kernels/steerable_basis.py:68-132).  `irrepsBasis i o` is the class given as `irreps_basis`, called with its other arguments:
`none` for a failed assertion, `some []` for the `EmptyBasisException`, which is caught (line 107).  The result has
`dim = 0` where the base class raises `EmptyBasisException` (kernels/basis.py:43-44).  Irreps are compared as objects, not by name. -/
noncomputable def steerable (irrepsBasis : Irrep El → Irrep El → Option (List E)) (rin rout : Repr El) : Option (SBasis El E) :=
  if ∀ i ∈ rin.irreps, ∀ o ∈ rout.irreps, irrepsBasis i o ≠ none then
    some { ins := rin.irreps
           outs := rout.irreps
           Ainv := if MEq rin.size rin.size rin.cobInv Mat.one then none else some rin.cobInv
           B := if MEq rout.size rout.size rout.cob Mat.one then none else some rout.cob
           bases := fun i o => (irrepsBasis i o).getD [] }
  else none

namespace SBasis

/-- `shape` (kernels/steerable_basis.py:132). -/
def outSize (S : SBasis El E) : ℕ := (S.outs.map Irrep.size).sum

/-- `shape` (kernels/steerable_basis.py:132). -/
def inSize (S : SBasis El E) : ℕ := (S.ins.map Irrep.size).sum

/-- `dim` (kernels/steerable_basis.py:123-130). -/
def dim (S : SBasis El E) : ℕ := (S.ins.map fun i => (S.outs.map fun o => (S.bases i o).length).sum).sum

/-- The samples of the basis for a pair of irreps at one point: array of shape `(out size, in size, dim)`. -/
def irrepSample (samp : Irrep El → Irrep El → E → X → Mat) (i o : Irrep El) (l : List E) (x : X) : Arr3 := fun a b k =>
  match l[k]? with
  | some e => samp i o e x a b
  | none => 0

/-- Writing `block` in `out[r0:r0+rs, c0:c0+cs, b0:b0+bs]`. -/
def writeBlock (out : Arr3) (r0 rs c0 cs b0 bs : ℕ) (block : Arr3) : Arr3 := fun i j b =>
  if (r0 ≤ i ∧ i < r0 + rs) ∧ (c0 ≤ j ∧ j < c0 + cs) ∧ (b0 ≤ b ∧ b < b0 + bs) then block (i - r0) (j - c0) (b - b0) else out i j b

/-- The loop over the output irreps in `_sample_direct_sum` (kernels/steerable_basis.py:181-203): `outPos`, `count` and the array `out` are its state. -/
def loopOut (samp : Irrep El → Irrep El → E → X → Mat) (bases : Irrep El → Irrep El → List E) (x : X) (i : Irrep El) (inPos : ℕ) :
    List (Irrep El) → ℕ → ℕ → Arr3 → ℕ × Arr3
  | [], _, count, out => (count, out)
  | o :: os, outPos, count, out =>
    if bases i o = [] then loopOut samp bases x i inPos os (outPos + o.size) count out
    else loopOut samp bases x i inPos os (outPos + o.size) (count + (bases i o).length)
      (writeBlock out outPos o.size inPos i.size count (bases i o).length (irrepSample samp i o (bases i o) x))

/-- The loop over the input irreps in `_sample_direct_sum` (kernels/steerable_basis.py:180-204). -/
def loopIn (samp : Irrep El → Irrep El → E → X → Mat) (bases : Irrep El → Irrep El → List E) (x : X) (outs : List (Irrep El)) :
    List (Irrep El) → ℕ → ℕ → Arr3 → Arr3
  | [], _, _, out => out
  | i :: is, inPos, count, out =>
    let r := loopOut samp bases x i inPos outs 0 count out
    loopIn samp bases x outs is (inPos + i.size) r.1 r.2

/-- `_sample_direct_sum` (kernels/steerable_basis.py:170-206), on an array of zeros. -/
def sampleDirectSum (samp : Irrep El → Irrep El → E → X → Mat) (S : SBasis El E) (x : X) : Arr3 :=
  loopIn samp S.bases x S.outs S.ins 0 0 fun _ _ _ => 0

/-- `sample` (kernels/steerable_basis.py:134-168) with `_change_of_basis` (208-220). -/
def sample (samp : Irrep El → Irrep El → E → X → Mat) (S : SBasis El E) (x : X) : Arr3 :=
  let s := S.sampleDirectSum samp x
  match S.Ainv, S.B with
  | none, none => s
  | some A, none => fun n j b => ∑ i ∈ range S.inSize, s n i b * A i j
  | none, some B => fun n i b => ∑ o ∈ range S.outSize, B n o * s o i b
  | some A, some B => fun n j b => ∑ o ∈ range S.outSize, ∑ i ∈ range S.inSize, B n o * s o i b * A i j

/-- The attributes of an element (kernels/steerable_basis.py:234-245). -/
structure Attr (El E : Type) where
  inIrrep : Irrep El
  outIrrep : Irrep El
  inIdx : ℕ
  outIdx : ℕ
  innerIdx : ℕ
  elem : E
  idx : ℕ

/-- The search loops of `__getitem__` (kernels/steerable_basis.py:225-250), over the pairs `((ii, i), (oo, o))` in the order of the nested loops. -/
def getLoop (bases : Irrep El → Irrep El → List E) (idx : ℕ) :
    List ((ℕ × Irrep El) × (ℕ × Irrep El)) → ℕ → Option (Attr El E)
  | [], _ => none
  | ((ii, i), (oo, o)) :: ps, count =>
    let l := bases i o
    if l = [] then getLoop bases idx ps count
    else
      let rel : ℤ := (idx : ℤ) - count
      if 0 ≤ rel ∧ rel < l.length then
        match l[rel.toNat]? with
        | some e => some ⟨i, o, ii, oo, rel.toNat, e, idx⟩
        | none => none
      else getLoop bases idx ps (count + l.length)

/-- `enumerate`. -/
def enum {α : Type} (l : List α) : List (ℕ × α) := l.zipIdx.map fun p => (p.2, p.1)

/-- The pairs visited by the nested loops. -/
def pairs (S : SBasis El E) : List ((ℕ × Irrep El) × (ℕ × Irrep El)) :=
  (enum S.ins).flatMap fun p => (enum S.outs).map fun q => (p, q)

/-- `__getitem__` (kernels/steerable_basis.py:222-250); `none` for a failed assertion (or for a `None` result). -/
def getItem (S : SBasis El E) (idx : ℕ) : Option (Attr El E) :=
  if idx < S.dim then getLoop S.bases idx S.pairs 0 else none

/-- The loops of `__iter__` (kernels/steerable_basis.py:252-273), from a given index. -/
def iterLoop (bases : Irrep El → Irrep El → List E) : List ((ℕ × Irrep El) × (ℕ × Irrep El)) → ℕ → List (Attr El E)
  | [], _ => []
  | ((ii, i), (oo, o)) :: ps, idx =>
    let l := bases i o
    (enum l).map (fun p => ⟨i, o, ii, oo, p.1, p.2, idx + p.1⟩) ++ iterLoop bases ps (idx + l.length)

/-- `__iter__`, as the list of the yielded attributes. -/
def iter (S : SBasis El E) : List (Attr El E) := iterLoop S.bases S.pairs 0

end SBasis

/-- `PolarBasis.sample` (kernels/basis.py:275-300): the product of the radial elements, of shape `(1, 1)`, and the angular elements;
the two axes of the elements are merged in this order by the `reshape`. -/
noncomputable def polarSample (radials : List (ℝ → ℝ)) (angDim : ℕ) (ang : Option ℝ → Arr3) (p : ℝ × ℝ) : Arr3 := fun i j k =>
  (match radials[k / angDim]? with
    | some f => f (radius p)
    | none => 0) * ang (angle p) i j (k % angDim)

/-- The attributes of an element of a polar basis (kernels/basis.py:302-318): those of the radial element (here the index and the function), those
of the angular element, and the index. -/
structure PolarAttr (R A : Type) where
  radial : R
  angular : A
  idx : ℕ
  idx1 : ℕ
  idx2 : ℕ

/-- `PolarBasis.__getitem__` (kernels/basis.py:302-318); `none` for a failed assertion. -/
def polarGet {R A : Type} (rdim adim : ℕ) (rget : ℕ → Option R) (aget : ℕ → Option A) (idx : ℕ) : Option (PolarAttr R A) :=
  if idx < rdim * adim then
    match rget (idx / adim), aget (idx % adim) with
    | some r, some a => some ⟨r, a, idx, idx / adim, idx % adim⟩
    | _, _ => none
  else none

/-- `PolarBasis.__iter__` (kernels/basis.py:320-332): `ridx` and `aidx` read the entry `"idx"` of the attributes of the factors. -/
def polarIter {R A : Type} (ridx : R → ℕ) (aidx : A → ℕ) (riter : List R) (aiter : List A) : List (PolarAttr R A) :=
  (SBasis.enum (riter.flatMap fun r => aiter.map fun a => (r, a))).map fun p => ⟨p.2.1, p.2.2, p.1, ridx p.2.1, aidx p.2.2⟩

/-- The sampling functions of the irrep bases (irreps_basis.py, `sample`), as called in kernels/steerable_basis.py:192. -/
noncomputable def angSamp (axis : ℝ) (i o : Irrep El) (e : AngElem) (φ : Option ℝ) : Mat := angSample axis o.size i.size e φ

/-- The kernel at index `k` of `PolarBasis(radials, SteerableKernelBasis(...))`, as built by the functions in kernels/r2.py:20-310. -/
noncomputable def planeKernel (axis : ℝ) (radials : List (ℝ → ℝ)) (S : SBasis El AngElem) (k : ℕ) (p : ℝ × ℝ) : Mat :=
  (polarSample radials S.dim (fun φ => S.sample (angSamp axis) φ) p).slice k

/-- The entries of a Gaussian radial profile (kernels/basis.py:217-219): radius, width and index. -/
def gaussianGet (rings : List (ℝ × ℝ)) (r : ℕ) : Option ((ℝ × ℝ) × ℕ) := rings[r]?.map fun q => (q, r)

/-- Iteration over a Gaussian radial profile (kernels/basis.py:49-50). -/
def gaussianIter (rings : List (ℝ × ℝ)) : List ((ℝ × ℝ) × ℕ) := rings.zipIdx

end E2
