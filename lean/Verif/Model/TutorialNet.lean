import Verif.Model.WideResNet

/-!
# The network of the tutorial (examples/model.ipynb)

`C8SteerableCNN`, cell 4 of the notebook, with the number of rotations as an argument (8 in the notebook).  Parameters and statistics are arguments of the
constructor here.
-/

namespace E2

open Real

/-- The numbers of the modules of a `SequentialModule` built from positional arguments (sequential_module.py:58-61). -/
def numbered {M : Type} (ms : List M) : List (ℕ × M) := ms.zipIdx.map fun p => (p.2, p.1)

/-- `R2Conv(inT, outT, kernel_size=k, padding=p, bias=False)` (model.ipynb, cell 4) with the default values of the other arguments (r2convolution.py:30-45); the
filters stored in evaluation mode are those of the weights (see C59). -/
noncomputable def tutConv (S : Stage) (k p : ℕ) (inT outT : List ℕ) (w : List ℝ) : Option (SLayer S) :=
  match r2convInit S.s.gen ⟨k, p, 1, 1, .zeros, 1, none, .inl (-1), none, none, none⟩ S.rep inT outT with
  | none => none
  | some M => if w.length = M.dim then some (.conv M.cfg M.basis inT outT w []) else none

/-- `InnerBatchNorm(t)` (batchnormalization/inner.py:53-55 for the check) in training or evaluation mode. -/
def tutBN (S : Stage) (t : List ℕ) (training : Bool) (v : BNVals) : Option (SLayer S) :=
  if accepts S.tags .pointwise t then some (.innerBatchNorm t v.momentum v.eps true v.w v.b training v.st) else none

/-- The filter of `PointwiseAvgPoolAntialiased` (pointwise_avg.py:159): `2*int(round(3*sigma))+1`.  Halves are rounded up here and to the even number in Python. -/
noncomputable def aaFilter (sigma : ℝ) : ℕ := 2 * (round (3 * sigma)).toNat + 1

/-- `PointwiseAvgPoolAntialiased(t, sigma, stride, padding)` (pointwise_avg.py:125-199); without padding it is half the filter. -/
noncomputable def tutPool (S : Stage) (t : List ℕ) (sigma : ℝ) (stride : ℕ) (padding : Option ℕ) : Option (SLayer S) :=
  open Classical in if 0 < sigma then some (.avgPoolAntialiased t stride (padding.getD ((aaFilter sigma - 1) / 2)) (aaFilter sigma) sigma) else none

/-- `GroupPooling(t)` (invariantmaps/gpool.py:22-80): the representations must support pointwise nonlinearities. -/
def tutGroupPool (S : Stage) (t : List ℕ) : Option (SLayer S) := if accepts S.tags .pointwise t then some (.groupPool t 0) else none

/-- The parameters of a convolution and the batch normalisation after it. -/
structure BlockVals where
  w : List ℝ
  bn : BNVals

/-- The modules `R2Conv`, `InnerBatchNorm`, `ReLU` of a block. -/
noncomputable def tutModules (S : Stage) (training : Bool) (k p : ℕ) (inT outT : List ℕ) (v : BlockVals) : Option (List (SLayer S)) := do
  let conv ← tutConv S k p inT outT v.w
  let bn ← tutBN S outT training v.bn
  let relu ← wideReLU S outT
  some [conv, bn, relu]

/-- The parameters of `torch.nn.Linear`, `BatchNorm1d`, `Linear`. -/
structure HeadVals where
  w1 : ℕ → ℕ → ℝ
  b1 : ℕ → ℝ
  eps : ℝ
  gamma : ℕ → ℝ
  beta : ℕ → ℝ
  mean : ℕ → ℝ
  var : ℕ → ℝ
  w2 : ℕ → ℕ → ℝ
  b2 : ℕ → ℝ

/-- `torch.nn.BatchNorm1d` (PyTorch): with the statistics of the batch in training mode, otherwise with those stored. -/
noncomputable def batchNorm1d {B : Type} [Fintype B] (training : Bool) (v : HeadVals) (x : ℕ → B → ℝ) (c : ℕ) (b : B) : ℝ :=
  let mean := if training then (∑ b, x c b) / Fintype.card B else v.mean c
  let var := if training then (∑ b, (x c b - mean) ^ 2) / Fintype.card B else v.var c
  (x c b - mean) / Real.sqrt (var + v.eps) * v.gamma c + v.beta c

/-- `fully_net` (model.ipynb, cell 4) on `c` features. -/
noncomputable def fullyNet {B : Type} [Fintype B] (training : Bool) (v : HeadVals) (c : ℕ) (x : ℕ → B → ℝ) (o : ℕ) (b : B) : ℝ :=
  let y1 : ℕ → B → ℝ := fun j b => ∑ i ∈ Finset.range c, v.w1 j i * x i b + v.b1 j
  let y2 := batchNorm1d training v y1
  ∑ j ∈ Finset.range 64, v.w2 o j * eluFun 1 (y2 j b) + v.b2 o

/-- The parameters of the network. -/
structure TutVals where
  v1 : BlockVals
  v2 : BlockVals
  v3 : BlockVals
  v4 : BlockVals
  v5 : BlockVals
  v6 : BlockVals
  head : HeadVals

/-- `C8SteerableCNN`. -/
structure TutNet where
  S : Stage
  training : Bool
  block1 : List (SLayer S)
  block2 : List (SLayer S)
  pool1 : List (SLayer S)
  block3 : List (SLayer S)
  block4 : List (SLayer S)
  pool2 : List (SLayer S)
  block5 : List (SLayer S)
  block6 : List (SLayer S)
  pool3 : SLayer S
  gpool : SLayer S
  head : HeadVals

/-- `C8SteerableCNN.__init__` (model.ipynb, cell 4); the notebook has `N = 8`.  The trivial representation is 0, the regular one 1. -/
noncomputable def tutorialNet (N : ℕ) (training : Bool) (v : TutVals) : Option TutNet := do
  let S ← Stage.new (.rot N) []
  let m1 ← tutModules S training 7 1 [0] (List.replicate 24 1) v.v1
  let block2 ← tutModules S training 5 2 (List.replicate 24 1) (List.replicate 48 1) v.v2
  let pool1 ← tutPool S (List.replicate 48 1) 0.66 2 none
  let block3 ← tutModules S training 5 2 (List.replicate 48 1) (List.replicate 48 1) v.v3
  let block4 ← tutModules S training 5 2 (List.replicate 48 1) (List.replicate 96 1) v.v4
  let pool2 ← tutPool S (List.replicate 96 1) 0.66 2 none
  let block5 ← tutModules S training 5 2 (List.replicate 96 1) (List.replicate 96 1) v.v5
  let block6 ← tutModules S training 5 1 (List.replicate 96 1) (List.replicate 64 1) v.v6
  let pool3 ← tutPool S (List.replicate 64 1) 0.66 1 (some 0)
  let gpool ← tutGroupPool S (List.replicate 64 1)
  some ⟨S, training, .mask [0] 29 1 :: m1, block2, [pool1], block3, block4, [pool2], block5, block6, pool3, gpool, v.head⟩

/-- `x.reshape(x.shape[0], -1)` (model.ipynb, cell 4): all pixels of all channels, channel by channel. -/
noncomputable def flatPixels {B : Type} (x : ETensor ℕ B) (i : ℕ) (b : B) : ℝ :=
  if h : 0 < x.n then
    x.x.data.getD (i / (x.n * x.n)) 0 (b, ⟨i % (x.n * x.n) / x.n, Nat.div_lt_of_lt_mul (Nat.mod_lt _ (Nat.mul_pos h h))⟩, ⟨i % x.n, Nat.mod_lt _ h⟩)
  else 0

/-- `C8SteerableCNN.forward` (model.ipynb, cell 4): for a batch of images the value of each class; the first `Linear` expects 64 features. -/
noncomputable def TutNet.forward {B : Type} [Fintype B] (net : TutNet) (junk : ℕ → ℕ → Junk B) {n : ℕ} (x : List (Pix B n → ℝ)) : Option (ℕ → B → ℝ) := do
  let x ← mkGT (fun i => (net.S.rep i).size) x [0]
  let x ← netForward net.S.rep (junk 0) (numbered net.block1) ⟨n, x⟩
  let x ← netForward net.S.rep (junk 1) (numbered net.block2) x
  let x ← netForward net.S.rep (junk 2) (numbered net.pool1) x
  let x ← netForward net.S.rep (junk 3) (numbered net.block3) x
  let x ← netForward net.S.rep (junk 4) (numbered net.block4) x
  let x ← netForward net.S.rep (junk 5) (numbered net.pool2) x
  let x ← netForward net.S.rep (junk 6) (numbered net.block5) x
  let x ← netForward net.S.rep (junk 7) (numbered net.block6) x
  let x ← net.pool3.forward net.S.rep (junk 8 0) x
  let x ← net.gpool.forward net.S.rep (junk 9 0) x
  if x.x.data.length * (x.n * x.n) = 64 then some (fullyNet net.training net.head 64 (flatPixels x)) else none

end E2
