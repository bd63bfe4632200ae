import Verif.Model.Invariant
import Verif.Model.Bias

/-!
# Batch normalisation (nn/modules/batchnormalization)

`P` is the finite set of positions, the entries of the batch and the pixels.
-/

namespace E2

open Mat

variable {P R L S V : Type}

/-- The loop over the labels which updates the statistics (batchnormalization/norm.py:183-216, batchnormalization/gnorm.py:203-232): `st k` are the statistics of the
field treated as number `k`, the entries of the buffers of the groups one after the other. -/
def updLoop (x : List V) (contig : L → Bool) (idx : L → List ℕ) (nf s : L → ℕ) (upd : L → ℕ → List V → S → S) :
    List L → ℕ → (ℕ → S) → Option (ℕ → S)
  | [], _, st => some st
  | l :: ls, next, st =>
    match readGroup x (contig l) (idx l) with
    | none => none
    | some g => updLoop x contig idx nf s upd ls (next + nf l) fun j =>
        if next ≤ j then
          match (viewFields (s l) g)[j - next]? with
          | none => st j
          | some fld => upd l j fld (st j)
        else st j

/-- What a module does with the fields of each label: the update of the statistics of field number `k` (with `num_batches_tracked` after its
increment), and the output computed from a field and the statistics. -/
structure Normaliser (P L S : Type) where
  size : L → ℕ
  update : L → ℕ → ℕ → List (P → ℝ) → S → S
  apply : Bool → L → ℕ → List (P → ℝ) → S → List (P → ℝ)

/-- `num_batches_tracked` and the running statistics. -/
structure NormState (S : Type) where
  batches : ℕ
  stats : ℕ → S

/-- `forward` of the batch normalisations (batchnormalization/norm.py:146-254, batchnormalization/gnorm.py:174-271, batchnormalization/induced_norm.py:159-269, batchnormalization/inner.py:114-149): in training mode the statistics are updated first; `out` is the
memory in which the output is built. -/
def bnForward [DecidableEq L] (M : Normaliser P L S) (labels : List L) (sizes : List ℕ) (contig : L → Bool) (order : List L) (training : Bool)
    (st : NormState S) (x out : List (P → ℝ)) : Option (NormState S × List (P → ℝ)) :=
  let n := if training then st.batches + 1 else st.batches
  match (if training then updLoop x contig (labelChannels labels sizes) (labelCount labels) M.size (fun l k => M.update l k n) order 0 st.stats
    else some st.stats) with
  | none => none
  | some stats =>
    match fieldLoop x contig (labelChannels labels sizes) (labelChannels labels sizes) (labelCount labels)
      (fun l => eachField (M.size l) fun k fld => M.apply training l k fld (stats k)) order 0 out with
    | none => none
    | some y => some (⟨n, stats⟩, y)

/-- `exponential_average_factor` in training mode (batchnormalization/norm.py:160-167, batchnormalization/induced_norm.py:173-180, batchnormalization/gnorm.py:188-195): `momentum` or, when it is `None`, one over the number of batches. -/
noncomputable def avgFactor (momentum : Option ℝ) (n : ℕ) : ℝ :=
  match momentum with
  | none => 1 / n
  | some m => m

/-- `running *= 1 - f; running += f * new` (batchnormalization/norm.py:213-214). -/
noncomputable def running (f new old : ℝ) : ℝ := old * (1 - f) + f * new

/-- `n/(n-1) if n > 1 else 1` (batchnormalization/norm.py:207). -/
noncomputable def correction (n : ℕ) : ℝ := if n > 1 then (n : ℝ) / (n - 1) else 1

/-- The sum of the squares of all entries of a field, over all channels and positions. -/
noncomputable def sumSq [Fintype P] (fld : List (P → ℝ)) : ℝ := (fld.map fun v => ∑ p, v p ^ 2).sum

/-- `NormBatchNorm` (batchnormalization/norm.py:146-254): the statistic is the running variance; `w k` is the weight of the field (1 without `affine`). -/
noncomputable def normBN [Fintype P] (momentum : Option ℝ) (eps : ℝ) (w : ℕ → ℝ) : Normaliser P ℕ ℝ where
  size s := s
  update s _ n fld v := running (avgFactor momentum n) (sumSq fld / Fintype.card P / s * correction (Fintype.card P)) v
  apply _ _ k fld v := fld.map fun c p => c p * (w k / √(v + eps))

/-- `InducedNormBatchNorm` (batchnormalization/induced_norm.py:159-269), with labels (size, size of the subfields): the norms of all subfields count as samples
(line 222). -/
noncomputable def inducedBN [Fintype P] (momentum : Option ℝ) (eps : ℝ) (w : ℕ → ℝ) : Normaliser P (ℕ × ℕ) ℝ where
  size l := l.1
  update l _ n fld v := running (avgFactor momentum n)
    (sumSq fld / (Fintype.card P * (l.1 / l.2) : ℕ) / l.2 * correction (Fintype.card P * (l.1 / l.2))) v
  apply _ _ k fld v := fld.map fun c p => c p * (w k / √(v + eps))

/-- The mean of all entries of a field. -/
noncomputable def fieldMean [Fintype P] (fld : List (P → ℝ)) : ℝ := (fld.map fun v => ∑ p, v p).sum / (Fintype.card P * fld.length : ℕ)

/-- The biased variance of all entries of a field. -/
noncomputable def fieldVar [Fintype P] (fld : List (P → ℝ)) : ℝ :=
  (fld.map fun v => ∑ p, (v p - fieldMean fld) ^ 2).sum / (Fintype.card P * fld.length : ℕ)

/-- `InnerBatchNorm` (batchnormalization/inner.py:114-149): `BatchNorm3d` of PyTorch on the fields of each size, whose channels are the fields.  In training mode (and without `track`)
it normalises by the mean and the biased variance of the batch; the running statistics use the unbiased variance.  The statistics are
the running mean and variance. -/
noncomputable def innerBN [Fintype P] (momentum : Option ℝ) (eps : ℝ) (track : Bool) (w b : ℕ → ℝ) : Normaliser P ℕ (ℝ × ℝ) where
  size s := s
  update _ _ n fld v :=
    if track then (running (avgFactor momentum n) (fieldMean fld) v.1,
      running (avgFactor momentum n) (fieldVar fld * correction (Fintype.card P * fld.length)) v.2) else v
  apply training _ k fld v :=
    let m := if training || !track then (fieldMean fld, fieldVar fld) else v
    fld.map fun c p => (c p - m.1) / √(m.2 + eps) * w k + b k

/-- The blocks of channels of the irreps of a field after the multiplication by the inverse change of basis (batchnormalization/gnorm.py:211-215).  The code skips the
multiplication when the change of basis is the identity. -/
noncomputable def irrepBlocks {El : Type} (r : Repr El) (fld : List (P → ℝ)) : List (List (P → ℝ)) :=
  chunks (r.irreps.map Irrep.size) (chAct r.size r.cobInv fld)

/-- The mean of the channels of a block, the first entry of `_compute_statistics` for trivial irreps (batchnormalization/gnorm.py:298). -/
noncomputable def blockMean [Fintype P] (blk : List (P → ℝ)) : ℝ := (blk.map fun v => ∑ p, v p).sum / Fintype.card P

/-- The variance of a block (batchnormalization/gnorm.py:301-313): the mean of the squares, minus the squared mean for trivial irreps, averaged over the channels of the
irrep (`vars_aggregator`, lines 114-121). -/
noncomputable def blockVar [Fintype P] (triv : Bool) (blk : List (P → ℝ)) : ℝ :=
  (blk.map fun v => ((∑ p, v p ^ 2) / Fintype.card P - if triv then blockMean blk ^ 2 else 0) * (1 / blk.length)).sum
    * correction (Fintype.card P)

/-- The statistics computed by `_compute_statistics` for a field (batchnormalization/gnorm.py:285-315): mean (trivial irreps only) and variance for each irrep. -/
noncomputable def gnormStats {El : Type} [Fintype P] (r : Repr El) (fld : List (P → ℝ)) : List (ℝ × ℝ) :=
  List.zipWith (fun irr blk => (if isTrivial irr then blockMean blk else 0, blockVar (isTrivial irr) blk)) r.irreps (irrepBlocks r fld)

/-- `_shift`, `_scale` and `_shift` (batchnormalization/gnorm.py:248-253, 317-345) on the block of one irrep. -/
noncomputable def gnormBlock (triv : Bool) (eps m v w b : ℝ) (blk : List (P → ℝ)) : List (P → ℝ) :=
  blk.map fun c p => (c p + if triv then -m else 0) * (w / √(v + eps)) + if triv then b else 0

/-- `GNormBatchNorm` (batchnormalization/gnorm.py:174-271): the labels are the representations, `rep n` is the representation with name `n`; `w k` and `b k` are the weights and
biases of the irreps of field number `k` (biases of trivial irreps only).  The statistics of a field are the mean and variance of its irreps, by
number. -/
noncomputable def gnormBN {El : Type} [Fintype P] (rep : R → Repr El) (momentum : Option ℝ) (eps : ℝ) (w b : ℕ → ℕ → ℝ) :
    Normaliser P R (ℕ → ℝ × ℝ) where
  size n := (rep n).size
  update l _ n fld v := fun o =>
    match (gnormStats (rep l) fld)[o]? with
    | none => v o
    | some new => (running (avgFactor momentum n) new.1 (v o).1, running (avgFactor momentum n) new.2 (v o).2)
  apply training l k fld v :=
    let stats := if training then fun o => (gnormStats (rep l) fld)[o]?.getD (0, 0) else v
    chAct (rep l).size (rep l).cob
      (List.zipWith (fun (p : Irrep El × ℕ) blk => gnormBlock (isTrivial p.1) eps (stats p.2).1 (stats p.2).2 (w k p.2) (b k p.2) blk)
        (rep l).irreps.zipIdx (irrepBlocks (rep l) fld)).flatten

/-- A batch normalisation on tensors: `forward` checks the type and wraps the result (batchnormalization/norm.py:158, 254). -/
def bnModule [DecidableEq R] [DecidableEq L] (M : Normaliser P L S) (sz : R → ℕ) (t : List R) (labels : List L) (contig : L → Bool) (order : List L)
    (training : Bool) (st : NormState S) (out : List (P → ℝ)) (x : GTensor R (P → ℝ)) : Option (NormState S × GTensor R (P → ℝ)) :=
  if x.ty = t then
    match bnForward M labels (t.map sz) contig order training st x.data out with
    | none => none
    | some (st', y) => (mkGT sz y t).map fun z => (st', z)
  else none

/-- `NormBatchNorm.forward`: fields grouped by size, flags of the constructor (batchnormalization/norm.py:89-105), output in a copy of the input (line 175). -/
noncomputable def normBatchNorm [Fintype P] [DecidableEq R] (sz : R → ℕ) (t : List R) (momentum : Option ℝ) (eps : ℝ) (w : ℕ → ℝ) (training : Bool)
    (st : NormState ℝ) (x : GTensor R (P → ℝ)) : Option (NormState ℝ × GTensor R (P → ℝ)) :=
  bnModule (normBN momentum eps w) sz t (t.map sz) (fun s => (contigFlags (t.map sz) s).getD false) (firstKeys (t.map sz)) training st x.data x

/-- `InducedNormBatchNorm.forward`: fields grouped by size and size `sub r` of the subfields (batchnormalization/induced_norm.py:84-124). -/
noncomputable def inducedNormBatchNorm [Fintype P] [DecidableEq R] (sz sub : R → ℕ) (t : List R) (momentum : Option ℝ) (eps : ℝ) (w : ℕ → ℝ)
    (training : Bool) (st : NormState ℝ) (x : GTensor R (P → ℝ)) : Option (NormState ℝ × GTensor R (P → ℝ)) :=
  bnModule (inducedBN momentum eps w) sz t (t.map fun r => (sz r, sub r)) (fun s => (contigFlags (t.map fun r => (sz r, sub r)) s).getD false)
    (firstKeys (t.map fun r => (sz r, sub r))) training st x.data x

/-- `InnerBatchNorm.forward`: fields grouped by size with `indexes_from_labels` (batchnormalization/inner.py:69), output in new memory `junk` (line 129). -/
noncomputable def innerBatchNorm [Fintype P] [DecidableEq R] (sz : R → ℕ) (t : List R) (momentum : Option ℝ) (eps : ℝ) (track : Bool) (w b : ℕ → ℝ)
    (training : Bool) (st : NormState (ℝ × ℝ)) (junk : List (P → ℝ)) (x : GTensor R (P → ℝ)) :
    Option (NormState (ℝ × ℝ) × GTensor R (P → ℝ)) :=
  bnModule (innerBN momentum eps track w b) sz t (t.map sz) (fun s => ((indexesFromLabels sz t (t.map sz) s).map fun e => e.1).getD false)
    (firstKeys (t.map sz)) training st junk x

/-- `GNormBatchNorm.forward`: fields grouped by representation (batchnormalization/gnorm.py:71-99), in the order of the set `_unique_representations`, which is a parameter. -/
noncomputable def gnormBatchNorm {El : Type} [Fintype P] [DecidableEq R] (rep : R → Repr El) (t : List R) (order : List R)
    (momentum : Option ℝ) (eps : ℝ) (w b : ℕ → ℕ → ℝ) (training : Bool) (st : NormState (ℕ → ℝ × ℝ)) (junk : List (P → ℝ))
    (x : GTensor R (P → ℝ)) : Option (NormState (ℕ → ℝ × ℝ) × GTensor R (P → ℝ)) :=
  bnModule (gnormBN rep momentum eps w b) (fun r => (rep r).size) t t (fun r => (contigFlags t r).getD false) order training st junk x

/-- The states reached by calls of `forward` in training or evaluation mode on arbitrary tensors. -/
def bnRun {X Y : Type} (forward : Bool → NormState S → X → Option (NormState S × Y)) : List (Bool × X) → NormState S → Option (NormState S)
  | [], st => some st
  | (b, x) :: l, st =>
    match forward b st x with
    | none => none
    | some (st', _) => bnRun forward l st'

end E2
