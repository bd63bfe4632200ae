import Verif.Model.BatchNorm

/-!
# Construction and reset of the batch normalisations (nn/modules/batchnormalization)

The object of a module: its running statistics and its parameters, which exist only with `affine=True`.
-/

namespace E2

variable {R S W X Y : Type}

/-- `fill_` on one buffer or parameter of each group, in the loop over the groups (batchnormalization/norm.py:135-137): `groups` are the numbers of fields of the groups, the
entries are numbered as in `NormState`. -/
def fillLoop (v : ℕ → S) : List ℕ → ℕ → (ℕ → S) → ℕ → S
  | [], _, st => st
  | g :: gs, next, st => fillLoop v gs (next + g) fun j => if next ≤ j ∧ j < next + g then v j else st j

/-- A class of batch normalisations with its arguments.  `stat0` and `param0` are the values with which the constructor fills the statistics and the parameters of a
field, and `param0` is used in place of missing parameters; `drawn`: `reset_parameters` draws random weights; `guarded`: it tests `affine`. -/
structure BNClass (S W X Y : Type) where
  groups : List ℕ
  stat0 : S
  param0 : W
  drawn : Bool
  guarded : Bool
  forward : (ℕ → W) → Bool → NormState S → X → Option (NormState S × Y)

/-- A module: the running statistics, and the parameters if there are any. -/
structure BNObj (S W : Type) where
  state : NormState S
  params : Option (ℕ → W)

/-- The constructor (batchnormalization/norm.py:117-132, batchnormalization/induced_norm.py:126-142, batchnormalization/gnorm.py:139-152, batchnormalization/inner.py:94-102 with PyTorch's `BatchNorm3d`). -/
def BNClass.construct (C : BNClass S W X Y) (affine : Bool) : BNObj S W := ⟨⟨0, fun _ => C.stat0⟩, if affine then some fun _ => C.param0 else none⟩

/-- `forward` with the weights `1.` when there are no parameters (batchnormalization/norm.py:231-234, batchnormalization/induced_norm.py:247-250, batchnormalization/gnorm.py:237-240, 254-256). -/
def BNClass.call (C : BNClass S W X Y) (training : Bool) (o : BNObj S W) (x : X) : Option (BNObj S W × Y) :=
  (C.forward (o.params.getD fun _ => C.param0) training o.state x).map fun r => (⟨r.1, o.params⟩, r.2)

/-- `reset_running_stats` (batchnormalization/norm.py:134-138, batchnormalization/induced_norm.py:147-151, batchnormalization/gnorm.py:157-163, batchnormalization/inner.py:104-107).  Without `track_running_stats` the statistics
of `InnerBatchNorm` do not exist and are never read. -/
def BNClass.resetRunning (C : BNClass S W X Y) (o : BNObj S W) : BNObj S W := ⟨⟨0, fillLoop (fun _ => C.stat0) C.groups 0 o.state.stats⟩, o.params⟩

/-- `reset_parameters` (batchnormalization/norm.py:140-144, batchnormalization/induced_norm.py:153-157, batchnormalization/gnorm.py:165-172, batchnormalization/inner.py:109-112); `u` are the numbers drawn by `uniform_`.  Without a test of `affine`
`getattr` raises an exception for the first group. -/
def BNClass.resetParameters (C : BNClass S W X Y) (u : ℕ → W) (o : BNObj S W) : Option (BNObj S W) :=
  match o.params with
  | some p => some ⟨(C.resetRunning o).state, some (fillLoop (if C.drawn then u else fun _ => C.param0) C.groups 0 p)⟩
  | none => if C.guarded ∨ C.groups = [] then some ⟨(C.resetRunning o).state, none⟩ else none

/-- What happens to a module: a call in one of the modes, a step of an optimiser, which writes new parameters if there are any, and the resets. -/
inductive BNOp (W X : Type)
  | call (training : Bool) (x : X)
  | step (p : ℕ → W)
  | resetRunning
  | resetParameters (u : ℕ → W)

/-- One operation with its outputs; `none` for an exception. -/
def BNClass.run1 (C : BNClass S W X Y) (o : BNObj S W) : BNOp W X → Option (BNObj S W × List Y)
  | .call training x => (C.call training o x).map fun r => (r.1, [r.2])
  | .step p => some (⟨o.state, o.params.map fun _ => p⟩, [])
  | .resetRunning => some (C.resetRunning o, [])
  | .resetParameters u => (C.resetParameters u o).map fun o' => (o', [])

/-- Operations in turn, with all outputs. -/
def BNClass.run (C : BNClass S W X Y) : List (BNOp W X) → BNObj S W → Option (BNObj S W × List Y)
  | [], o => some (o, [])
  | op :: ops, o => (C.run1 o op).bind fun r => (C.run ops r.1).map fun q => (q.1, r.2 ++ q.2)

/-- An input: the number of positions, the contents of the memory in which the output is built, and the tensor. -/
abbrev BNIn (R : Type) := (n : ℕ) × List (Fin n → ℝ) × GTensor R (Fin n → ℝ)

/-- An output: the number of positions and the tensor. -/
abbrev BNOut (R : Type) := (n : ℕ) × GTensor R (Fin n → ℝ)

section
variable [DecidableEq R]

/-- `NormBatchNorm` (batchnormalization/norm.py:18-144): random weights, no test of `affine`. -/
noncomputable def normClass (sz : R → ℕ) (t : List R) (momentum : Option ℝ) (eps : ℝ) : BNClass ℝ ℝ (BNIn R) (BNOut R) where
  groups := (firstKeys (t.map sz)).map (labelCount (t.map sz))
  stat0 := 1
  param0 := 1
  drawn := true
  guarded := false
  forward w tr st x := (normBatchNorm sz t momentum eps w tr st x.2.2).map fun r => (r.1, ⟨x.1, r.2⟩)

/-- `InducedNormBatchNorm` (batchnormalization/induced_norm.py:18-157): no test of `affine`. -/
noncomputable def inducedClass (sz sub : R → ℕ) (t : List R) (momentum : Option ℝ) (eps : ℝ) : BNClass ℝ ℝ (BNIn R) (BNOut R) where
  groups := (firstKeys (t.map fun r => (sz r, sub r))).map (labelCount (t.map fun r => (sz r, sub r)))
  stat0 := 1
  param0 := 1
  drawn := false
  guarded := false
  forward w tr st x := (inducedNormBatchNorm sz sub t momentum eps w tr st x.2.2).map fun r => (r.1, ⟨x.1, r.2⟩)

/-- `InnerBatchNorm` (batchnormalization/inner.py:17-112): the resets are those of PyTorch's `BatchNorm3d`, which fill weights with 1 and biases with 0 when they exist.  A parameter is
the pair of weight and bias, a statistic the pair of mean and variance. -/
noncomputable def innerClass (sz : R → ℕ) (t : List R) (momentum : Option ℝ) (eps : ℝ) (track : Bool) : BNClass (ℝ × ℝ) (ℝ × ℝ) (BNIn R) (BNOut R) where
  groups := (firstKeys (t.map sz)).map (labelCount (t.map sz))
  stat0 := (0, 1)
  param0 := (1, 0)
  drawn := false
  guarded := true
  forward w tr st x := (innerBatchNorm sz t momentum eps track (fun k => (w k).1) (fun k => (w k).2) tr st x.2.1 x.2.2).map fun r => (r.1, ⟨x.1, r.2⟩)

/-- `GNormBatchNorm` (batchnormalization/gnorm.py:18-172): the parameters and the statistics of a field are indexed by its irreps. -/
noncomputable def gnormClass {El : Type} (rep : R → Repr El) (t order : List R) (momentum : Option ℝ) (eps : ℝ) :
    BNClass (ℕ → ℝ × ℝ) (ℕ → ℝ × ℝ) (BNIn R) (BNOut R) where
  groups := order.map (labelCount t)
  stat0 _ := (0, 1)
  param0 _ := (1, 0)
  drawn := false
  guarded := true
  forward w tr st x := (gnormBatchNorm rep t order momentum eps (fun k o => (w k o).1) (fun k o => (w k o).2) tr st x.2.1 x.2.2).map fun r => (r.1, ⟨x.1, r.2⟩)

end

end E2
