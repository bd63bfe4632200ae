import Verif.Model.Program
import Verif.Model.R2ConvInit
import Verif.Model.SpaceRestrict
import Verif.Model.DisentangleModule
import Verif.Model.Tags

/-!
# Wide residual networks (examples/e2wrn.py)

The constructor of the network from its arguments, with the field types it computes, and its `forward` in evaluation mode.  The parameters (weights, statistics) are
arguments of the constructor here.
-/

namespace E2

open Real

/-- The spaces used by the network: `TrivialOnR2()`, `Rot2dOnR2(N)`, `Flip2dOnR2(axis)`, `FlipRot2dOnR2(N, axis=axis)`. -/
inductive WSpace
  | trivial
  | rot (N : ℕ)
  | flip (axis : ℝ)
  | flipRot (N : ℕ) (axis : ℝ)

namespace WSpace

/-- `fibergroup` (trivial_on_r2.py:41, rot2d_on_r2.py:65-69, flip2d_on_r2.py:50-53, fliprot2d_on_r2.py:86-90). -/
def group : WSpace → GName
  | trivial => .cyc 1
  | rot N => .cyc N
  | flip _ => .cyc 2
  | flipRot N _ => .dih N

/-- The type of the elements of the group. -/
abbrev El (s : WSpace) : Type := s.group.El

/-- The group and its actions on the plane and on images. -/
noncomputable def space (interp : ℝ → Img → Img) : (s : WSpace) → Space s.El
  | trivial => trivialSpace
  | rot N => rotSpace interp N
  | flip axis => flipSpace interp axis
  | flipRot N axis => flipRotSpace interp N axis

/-- `_basis_generator`. -/
noncomputable def gen : (s : WSpace) → KernelGen s.El
  | trivial => trivialGen
  | rot N => rot2dGen N
  | flip axis => flip2dGen axis
  | flipRot N axis => flipRot2dGen N axis

/-- `fibergroup.order()`. -/
def order : WSpace → ℕ
  | trivial => 1
  | rot N => N
  | flip _ => 2
  | flipRot N _ => 2 * N

/-- `trivial_repr` (gspace.py:225-234) with its supported nonlinearities: the irrep of frequency 0. -/
noncomputable def trivialRepr : (s : WSpace) → Option (Repr s.El × List Tag)
  | trivial => (Cyclic.irrep 1 0).map fun i => (i.repr, Cyclic.irrepTags 1 0)
  | rot N => (Cyclic.irrep N 0).map fun i => (i.repr, Cyclic.irrepTags N 0)
  | flip _ => (Cyclic.irrep 2 0).map fun i => (i.repr, Cyclic.irrepTags 2 0)
  | flipRot N _ => (Dihedral.irrep N 0 0).map fun i => (i.repr, Dihedral.irrepTags N 0 0)

/-- `regular_repr` (gspace.py:255-264) with its supported nonlinearities. -/
noncomputable def regularRepr : (s : WSpace) → Option (Repr s.El × List Tag)
  | trivial => (Cyclic.regular 1).map fun r => (r, Cyclic.regularTags)
  | rot N => (Cyclic.regular N).map fun r => (r, Cyclic.regularTags)
  | flip _ => (Cyclic.regular 2).map fun r => (r, Cyclic.regularTags)
  | flipRot N _ => (Dihedral.regular N).map fun r => (r, regularTags)

/-- `rotations` in `WideBasic.__init__` (e2wrn.py:132-137). -/
def rotations : WSpace → ℕ
  | flipRot N _ => N
  | rot N => N
  | _ => 0

end WSpace

/-- What `restrict` of a space returns, with the method `_restrict_irrep` of its group. -/
structure WSub (s : WSpace) where
  sub : WSpace
  parent : sub.El → s.El
  restr : Irrep s.El → Option (Mat × List (Irrep sub.El))

/-- `gspace.restrict(id)` with `id = M` or `id = (0, M)` (e2wrn.py:279, 286, 290; trivial_on_r2.py:49-74, rot2d_on_r2.py:73-104, fliprot2d_on_r2.py:94-166), see
Model/SpaceRestrict.  `Flip2dOnR2` does not accept a pair. -/
noncomputable def WSpace.restrict : (s : WSpace) → Bool → ℕ → Option (WSub s)
  | .trivial, false, M =>
    match Cyclic.subgroup 1 M with
    | none => none
    | some S => if M = 1 then some ⟨.trivial, S.parent, fun i => Cyclic.restrictIrrep 1 i 1⟩ else none
  | .rot N, false, M =>
    match Cyclic.subgroup N M with
    | none => none
    | some S =>
      if M > 1 then some ⟨.rot M, S.parent, fun i => Cyclic.restrictIrrep N i M⟩
      else if M = 1 then some ⟨.trivial, S.parent, fun i => Cyclic.restrictIrrep N i 1⟩
      else none
  | .flipRot N axis, true, M =>
    match Dihedral.subgroup N (some 0) M with
    | none => none
    | some (.cyc _ parent _) =>
      if M = 1 then some ⟨.flip (newAxis axis ((0 : ℕ) * 2 * π / N)), parent, fun i => Dihedral.restrictFlip N i 0⟩ else none
    | some (.dih _ parent _) => some ⟨.flipRot M (newAxis axis ((0 : ℕ) * 2 * π / N)), parent, fun i => Dihedral.restrictDih N i 0 M⟩
  | _, _, _ => none

/-- A space with the representations used on it: `0` stands for the trivial representation, `1` for the regular one, `2, 3, ...` for those which a restriction has
left.  Equality of field types (nn/field_type.py:445-449) is equality of these lists: the names of the representations differ. -/
structure Stage where
  s : WSpace
  triv : Repr s.El × List Tag
  reg : Repr s.El × List Tag
  extra : List (Repr s.El × List Tag)

namespace Stage

/-- The representation with a number, and its supported nonlinearities. -/
def all (S : Stage) : ℕ → Repr S.s.El × List Tag
  | 0 => S.triv
  | 1 => S.reg
  | i + 2 => S.extra.getD i S.triv

/-- The representation with a number. -/
def rep (S : Stage) (i : ℕ) : Repr S.s.El := (S.all i).1

/-- `supported_nonlinearities`. -/
def tags (S : Stage) (i : ℕ) : List Tag := (S.all i).2

/-- The two representations of a space. -/
noncomputable def new (s : WSpace) (extra : List (Repr s.El × List Tag)) : Option Stage :=
  match s.trivialRepr, s.regularRepr with
  | some t, some r => some ⟨s, t, r, extra⟩
  | _, _ => none

/-- `regular_feature_type` (e2wrn.py:83-95). -/
noncomputable def regularType (S : Stage) (planes : ℕ) (fixparams : Bool) : Option (List ℕ) :=
  if S.s.order > 0 then
    mkType (List.replicate ⌊(if fixparams then (planes : ℝ) * Real.sqrt S.s.order else planes) / (S.s.order : ℝ)⌋₊ 1)
  else none

/-- `trivial_feature_type` (e2wrn.py:98-105). -/
noncomputable def trivialType (S : Stage) (planes : ℕ) (fixparams : Bool) : Option (List ℕ) :=
  mkType (List.replicate ⌊if fixparams then (planes : ℝ) * Real.sqrt S.s.order else planes⌋₊ 0)

end Stage

/-- The modules of a stage. -/
abbrev SLayer (S : Stage) := Layer ℕ (BasisAttr S.s.El) AttrId

/-- `conv1x1`, `conv3x3`, `conv5x5` (e2wrn.py:44-80) with `p = 0, 1, 2`; there is one weight for each parameter, no bias, and the filters stored in evaluation mode
are those of the weights (see C59). -/
noncomputable def wideConv (S : Stage) (p stride : ℕ) (inT outT : List ℕ) (w : List ℝ) : Option (SLayer S) :=
  match r2convInit S.s.gen ⟨2 * p + 1, p, stride, 1, .zeros, 1, none, .inr (fun r => 3 * r), none, none, none⟩ S.rep inT outT with
  | none => none
  | some M => if w.length = M.dim then some (.conv M.cfg M.basis inT outT w []) else none

/-- The parameters and statistics of a batch normalisation. -/
structure BNVals where
  momentum : Option ℝ
  eps : ℝ
  w : ℕ → ℝ
  b : ℕ → ℝ
  st : NormState (ℝ × ℝ)

/-- `InnerBatchNorm(t)` in evaluation mode; the constructor checks the nonlinearities (batchnormalization/inner.py:53-55). -/
def wideBN (S : Stage) (t : List ℕ) (v : BNVals) : Option (SLayer S) :=
  if accepts S.tags .pointwise t then some (.innerBatchNorm t v.momentum v.eps true v.w v.b false v.st) else none

/-- `ReLU(t, inplace=True)` (nonlinearities/relu.py:38-41), applied to a tensor which only it uses. -/
noncomputable def wideReLU (S : Stage) (t : List ℕ) : Option (SLayer S) :=
  if accepts S.tags .pointwise t then some (.pointwise t reluFun) else none

/-- `PointwiseDropout(t, p)` in evaluation mode, where it returns its input (dropout/pointwise.py:37-70). -/
noncomputable def wideDropout (S : Stage) (t : List ℕ) (p : ℝ) : Option (SLayer S) :=
  open Classical in if 0 ≤ p ∧ p ≤ 1 ∧ accepts S.tags .pointwise t then some (.identity t) else none

/-- The parameters of a `WideBasic`; `ws` are the weights of the shortcut, if there is one. -/
structure WideVals where
  bn1 : BNVals
  bn2 : BNVals
  w1 : List ℝ
  w2 : List ℝ
  ws : List ℝ

/-- `WideBasic` (e2wrn.py:114-170). -/
structure WideBlock (S : Stage) where
  inT : List ℕ
  outT : List ℕ
  bn1 : SLayer S
  relu1 : SLayer S
  conv1 : SLayer S
  bn2 : SLayer S
  relu2 : SLayer S
  dropout : SLayer S
  conv2 : SLayer S
  shortcut : Option (SLayer S)

/-- `WideBasic.__init__` (e2wrn.py:116-157). -/
noncomputable def wideBasic (S : Stage) (inT innerT outT : List ℕ) (rate : ℝ) (stride : ℕ) (v : WideVals) : Option (WideBlock S) := do
  let p := if S.s.rotations ∈ [0, 2, 4] then 1 else 2
  let bn1 ← wideBN S inT v.bn1
  let relu1 ← wideReLU S inT
  let conv1 ← wideConv S p 1 inT innerT v.w1
  let bn2 ← wideBN S innerT v.bn2
  let relu2 ← wideReLU S innerT
  let dropout ← wideDropout S innerT rate
  let conv2 ← wideConv S p stride innerT outT v.w2
  let shortcut ← if stride ≠ 1 ∨ inT ≠ outT then (wideConv S 0 stride inT outT v.ws).map some else some none
  some ⟨inT, outT, bn1, relu1, conv1, bn2, relu2, dropout, conv2, shortcut⟩

/-- The new memory used by the modules of a block. -/
abbrev Junk (B : Type) := (c n : ℕ) → List (Pix B n → ℝ)

/-- `a += b` (nn/geometric_tensor.py:579-594) for a tensor `a` which no other shares, see Model/Program. -/
noncomputable def iaddE {B : Type} (a b : ETensor ℕ B) : Option (ETensor ℕ B) := (inE (· + ·) a b).map fun d => ⟨a.n, a.x.ty, d⟩

/-- `WideBasic.forward` (e2wrn.py:159-170). -/
noncomputable def WideBlock.forward {B : Type} [Fintype B] {S : Stage} (b : WideBlock S) (junk : ℕ → Junk B) (x : ETensor ℕ B) : Option (ETensor ℕ B) := do
  let x1 ← b.bn1.forward S.rep (junk 0) x
  let xn ← b.relu1.forward S.rep (junk 1) x1
  let y1 ← b.conv1.forward S.rep (junk 2) xn
  let y2 ← b.bn2.forward S.rep (junk 3) y1
  let y3 ← b.relu2.forward S.rep (junk 4) y2
  let y4 ← b.dropout.forward S.rep (junk 5) y3
  let out ← b.conv2.forward S.rep (junk 6) y4
  match b.shortcut with
  | some l => do
    let sc ← l.forward S.rep (junk 7) xn
    iaddE out sc
  | none => iaddE out x

/-- The loop of `_wide_layer` (e2wrn.py:343-349): the blocks from number `i` on, with the remaining strides; the result has the type after the last block. -/
noncomputable def wideLoop (S : Stage) (rate : ℝ) (mainT innerT outT : List ℕ) (nb : ℤ) (vals : ℕ → WideVals) :
    ℕ → List ℕ → List ℕ → Option (List (WideBlock S) × List ℕ)
  | _, [], inT => some ([], inT)
  | i, stride :: strides, inT => do
    let outF := if (i : ℤ) = nb - 1 then outT else mainT
    let b ← wideBasic S inT innerT outF rate stride (vals i)
    let r ← wideLoop S rate mainT innerT outT nb vals (i + 1) strides outF
    some (b :: r.1, r.2)

/-- `_wide_layer` (e2wrn.py:326-352). -/
noncomputable def wideLayer (S : Stage) (rate : ℝ) (fixparams : Bool) (planes : ℕ) (nb : ℤ) (stride : ℕ) (totrivial : Bool) (vals : ℕ → WideVals) (inT : List ℕ) :
    Option (List (WideBlock S) × List ℕ) := do
  let mainT ← S.regularType planes fixparams
  let innerT ← S.regularType planes fixparams
  let outT ← if totrivial then S.trivialType planes fixparams else S.regularType planes fixparams
  wideLoop S rate mainT innerT outT nb vals 0 (stride :: List.replicate (nb - 1).toNat 1) inT

/-- The `SequentialModule` of the blocks (e2wrn.py:352). -/
noncomputable def wideSeq {B : Type} [Fintype B] {S : Stage} (bs : List (WideBlock S)) (junk : ℕ → ℕ → Junk B) (x : ETensor ℕ B) : Option (ETensor ℕ B) :=
  (seqNewArgs id (bs.zipIdx.map fun b => (⟨b.1.inT, b.1.outT, b.1.forward (junk b.2), some⟩ : EMod (List ℕ) (ETensor ℕ B) Unit))).bind fun st =>
    seqForward (fun x => x.x.ty) st x

/-- `self.restrict1` and `self.restrict2`: the identity function (e2wrn.py:282, 293), or the `SequentialModule` of a `RestrictionModule` and a `DisentangleModule`
(e2wrn.py:316-324) for fields of the regular representation: `r` is its restriction, `Q` and `c` are the change of basis and the number of representations which
`disentangle` returns. -/
inductive Link : Stage → Stage → Type
  | none (S : Stage) : Link S S
  | restrict {S T : Stage} (fields : ℕ) (parent : T.s.El → S.s.El) (r : Repr T.s.El) (Q : Mat) (c : ℕ) : Link S T

/-- The inclusion of the smaller group. -/
def Link.parent : {S T : Stage} → Link S T → T.s.El → S.s.El
  | _, _, .none _ => id
  | _, _, .restrict _ parent _ _ _ => parent

/-- The call of `self.restrict1` or `self.restrict2` (restriction_module.py:53-55, disentangle_module.py:80-117). -/
noncomputable def Link.forward {B : Type} : {S T : Stage} → Link S T → Junk B → ETensor ℕ B → Option (ETensor ℕ B)
  | _, _, .none _, _, x => some x
  | _, T, .restrict fields _ r Q c, junk, x =>
    open Classical in
    if x.x.ty = List.replicate fields 1 then
      ((restrictGT Repr.size (fun _ => some r) x.x).bind fun y =>
        disForward Repr.size (fun i => (T.rep i).size) (fun _ => ()) (fun _ => (Q, List.range' 2 c)) [r] (List.replicate fields r) (junk (fields * r.size) x.n) y).map
          fun y => ⟨x.n, y⟩
    else Option.none

/-- The answers of `connected_components` for the graphs made by `disentangle`. -/
abbrev Comps := (s : WSpace) → Repr s.El → ℕ × (ℕ → ℕ)

/-- `_restrict_layer` (e2wrn.py:316-324) for a type with fields of the regular representation: the new stage, the layer and its output type. -/
noncomputable def restrictLayer (comp : Comps) (S : Stage) (f : Bool) (M : ℕ) (inT : List ℕ) : Option ((T : Stage) × Link S T × List ℕ) :=
  if inT = List.replicate inT.length 1 then
    match S.s.restrict f M with
    | none => none
    | some U =>
      match S.reg.1.restrict U.restr with
      | none => none
      | some r =>
        match r.disentangle (comp U.sub r).1 (comp U.sub r).2 with
        | none => none
        | some (Q, reps) =>
          match U.sub.trivialRepr, U.sub.regularRepr with
          | some t, some g =>
            some ⟨⟨U.sub, t, g, reps.map fun q => (q, restrictTags r S.reg.2)⟩, .restrict inT.length U.parent r Q reps.length,
              (List.replicate inT.length r).flatMap fun _ => List.range' 2 reps.length⟩
          | _, _ => none
  else none

/-- `Wide_ResNet` (e2wrn.py:181-392): its submodules with their stages. -/
structure WideNet where
  S1 : Stage
  S2 : Stage
  S3 : Stage
  conv1 : SLayer S1
  layer1 : List (WideBlock S1)
  restrict1 : Link S1 S2
  layer2 : List (WideBlock S2)
  restrict2 : Link S2 S3
  layer3 : List (WideBlock S3)
  bn : SLayer S3
  relu : SLayer S3
  outT : List ℕ
  linear : (ℕ → ℕ → ℝ) × (ℕ → ℝ)

/-- The arguments of `Wide_ResNet` (e2wrn.py:182-190); `deltaorth` is left out: it only initialises weights. -/
structure WideArgs where
  depth : ℤ
  widen : ℕ
  rate : ℝ
  N : ℕ
  r : ℕ
  f : Bool
  fixparams : Bool
  initialStride : ℕ

/-- All the parameters of the network. -/
structure WideParams where
  conv1 : List ℝ
  layer1 : ℕ → WideVals
  layer2 : ℕ → WideVals
  layer3 : ℕ → WideVals
  bn : BNVals
  linear : (ℕ → ℕ → ℝ) × (ℕ → ℝ)

/-- `self.gspace` (e2wrn.py:235-244); the axis is vertical by default (fliprot2d_on_r2.py:29, flip2d_on_r2.py:28).  The groups check `N`. -/
noncomputable def WideArgs.space (a : WideArgs) : Option WSpace :=
  if a.N = 0 then none
  else if a.f then (if a.N ≠ 1 then some (.flipRot a.N (π / 2)) else some (.flip (π / 2)))
  else (if a.N ≠ 1 then some (.rot a.N) else some .trivial)

/-- The restriction before the second layer (e2wrn.py:277-282), and before the third one (lines 285-293): the number of rotations. -/
def WideArgs.restrict1 (a : WideArgs) : Option ℕ := if a.r ≥ 2 then some (a.N / 2) else none

/-- See `restrict1`. -/
def WideArgs.restrict2 (a : WideArgs) : Option ℕ := if a.r = 3 then some 1 else if a.r = 1 then some (a.N / 2) else none

/-- The layer for an optional restriction. -/
noncomputable def linkLayer (comp : Comps) (S : Stage) (f : Bool) (M : Option ℕ) (inT : List ℕ) : Option ((T : Stage) × Link S T × List ℕ) :=
  match M with
  | some M => restrictLayer comp S f M inT
  | none => some ⟨S, .none S, inT⟩

/-- `Wide_ResNet.__init__` (e2wrn.py:182-314). -/
noncomputable def wideResNet (comp : Comps) (a : WideArgs) (v : WideParams) : Option WideNet := do
  let nb ← if (a.depth - 4) % 6 = 0 then some ((a.depth - 4) / 6) else none
  let s ← a.space
  let _ ← if a.r ≤ 3 then some () else none
  let S1 ← Stage.new s []
  let r2 ← S1.regularType 16 true
  let conv1 ← wideConv S1 2 1 [0, 0, 0] r2 v.conv1
  let l1 ← wideLayer S1 a.rate a.fixparams (16 * a.widen) nb a.initialStride false v.layer1 r2
  let k1 ← linkLayer comp S1 a.f a.restrict1 l1.2
  let l2 ← wideLayer k1.1 a.rate a.fixparams (32 * a.widen) nb 2 false v.layer2 k1.2.2
  let k2 ← linkLayer comp k1.1 a.f a.restrict2 l2.2
  let l3 ← wideLayer k2.1 a.rate a.fixparams (64 * a.widen) nb 2 true v.layer3 k2.2.2
  let bn ← wideBN k2.1 l3.2 v.bn
  let relu ← wideReLU k2.1 l3.2
  some ⟨S1, k1.1, k2.1, conv1, l1.1, k1.2.1, l2.1, k2.2.1, l3.1, bn, relu, l3.2, v.linear⟩

/-- The average over all pixels of each channel and the linear layer (e2wrn.py:386-390). -/
noncomputable def WideNet.head {B : Type} (net : WideNet) (x : ETensor ℕ B) (o : ℕ) (b : B) : ℝ :=
  (∑ c ∈ Finset.range (typeSize (fun i => (net.S3.rep i).size) net.outT),
    net.linear.1 o c * ((∑ i : Fin x.n, ∑ j : Fin x.n, (x.x.data.getD c 0) (b, i, j)) / ((x.n : ℝ) * x.n))) + net.linear.2 o

/-- `Wide_ResNet.forward` in evaluation mode (e2wrn.py:368-392): for a batch of images the value of each class. -/
noncomputable def WideNet.forward {B : Type} [Fintype B] (net : WideNet) (junk : ℕ → ℕ → ℕ → Junk B) {n : ℕ} (x : List (Pix B n → ℝ)) : Option (ℕ → B → ℝ) := do
  let x ← mkGT (fun i => (net.S1.rep i).size) x [0, 0, 0]
  let y ← net.conv1.forward net.S1.rep (junk 0 0 0) ⟨n, x⟩
  let y ← wideSeq net.layer1 (junk 1) y
  let y ← net.restrict1.forward (junk 2 0 0) y
  let y ← wideSeq net.layer2 (junk 3) y
  let y ← net.restrict2.forward (junk 4 0 0) y
  let y ← wideSeq net.layer3 (junk 5) y
  let y ← net.bn.forward net.S3.rep (junk 6 0 0) y
  let y ← net.relu.forward net.S3.rep (junk 6 0 1) y
  some (net.head y)

end E2
