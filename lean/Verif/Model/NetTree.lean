import Verif.Model.NetShapes

/-!
# Networks nested from `SequentialModule` and `MultipleModule`

A network is a module of the library, a `SequentialModule` of networks or a `MultipleModule` of networks, to any depth.  The constructors run first, with their
assertions; then the network is called.  The memory of the modules which build their output in new memory is given by the place of the module in the tree.
-/

namespace E2

variable {El F A I B K : Type}

/-! ## Networks -/

mutual

/-- A network: a module, a `SequentialModule` (sequential_module.py:16-61) of named networks, or a `MultipleModule` (multiple_module.py:20-100) with its input
type, its level of reshuffling, the labels of its fields and its networks, one for each label.  Names and labels are strings in the library; here they are the
elements of any linear order.  A module of a `MultipleModule` may have several labels only when its `in_type` is a tuple; no module of the library has one. -/
inductive NetMod (F A I K : Type)
  | layer (l : Layer F A I)
  | seq (ms : NetMods F A I K)
  | multi (inT : List F) (level : ℕ) (labels : List K) (ms : NetMods F A I K)

/-- A list of networks with their names or labels. -/
inductive NetMods (F A I K : Type)
  | nil
  | cons (k : K) (m : NetMod F A I K) (ms : NetMods F A I K)

end

section forward

variable [LinearOrder F] [DecidableEq I] [LinearOrder K] [Fintype B]

/-! ## `SequentialModule` as a module -/

/-- A `SequentialModule` as a module of another one (sequential_module.py:16-112).  With no modules its types are `None`; it is left out here. -/
def seqMod (sz : F → ℕ) (l : List (K × EMod (List F) (ETensor F B) (List Dim))) : Option (EMod (List F) (ETensor F B) (List Dim)) :=
  (seqNew l).bind fun st => st.inTy.bind fun i => st.outTy.map fun o => ⟨i, o, seqForward (fun x => x.x.ty) st, seqShape (seqShapeOk sz) st⟩

/-! ## `MultipleModule` as a module -/

/-- `BranchingModule.out_type[l]` (branching_module.py:66-112). -/
def branchType (sz : F → ℕ) (level : ℕ) (labels : List K) (t : List F) (l : K) : Option (List F) :=
  if level < 3 ∧ t.length = labels.length then
    if 0 < level ∧ branchPerm sz level labels t ≠ List.range t.length then do
      let t' ← indexSelect t ((branchPerm sz level labels t).map Int.ofNat)
      let labels' ← (branchPerm sz level labels t).mapM fun p => labels[p]?
      groupByLabels t' labels' l
    else groupByLabels t labels l
  else none

/-- The sum of two entries of a shape (merge_module.py:124); the numbers of channels are always integers. -/
def Dim.add : Dim → Dim → Option Dim
  | .int a, .int b => some (.int (a + b))
  | _, _ => none

/-- One step of the loop of `MergeModule.evaluate_output_shape` (merge_module.py:120-124). -/
def mergeDim : List Dim → List Dim → Option (List Dim)
  | b :: c :: r, b' :: c' :: r' => if b = b' ∧ r = r' then (c.add c').map fun c => b :: c :: r else none
  | _, _ => none

/-- The loop of `MergeModule.evaluate_output_shape` (merge_module.py:118-126) on the shapes declared by its modules. -/
def mergeDims : List (List Dim) → Option (List Dim)
  | [] => none
  | s :: ss => ss.foldlM mergeDim s

/-- `torch.empty(out_shape)` (merge_module.py:92) for a batch of square images: the number of channels and of rows of the new tensor.  Negative sizes and pairs
raise.  Images which are not square or a batch of another size do not occur: every module is given the images of one batch of square images. -/
def allocSize (batch : ℕ) : List Dim → Option (ℕ × ℕ)
  | [.int b, .int c, .int h, .int w] => if b = batch ∧ h = w ∧ 0 ≤ c ∧ 0 ≤ h then some (c.toNat, h.toNat) else none
  | _ => none

/-- The right hand side of `output[:, ...] = ...` (merge_module.py:101) for an output with `n × n` pixels: torch repeats a tensor with one pixel, and raises for
every other resolution. -/
def ETensor.fit (n : ℕ) (y : ETensor F B) : Option (GTensor F (Pix B n → ℝ)) :=
  if h : y.n = n then some (h ▸ y.x)
  else if h : y.n = 1 then some ⟨y.x.ty, y.x.data.map fun v q => v (q.1, ⟨0, by omega⟩, ⟨0, by omega⟩)⟩
  else none

/-- `MultipleModule.forward` (multiple_module.py:102-120): the branches (branching_module.py:192-219), then `MergeModule.forward` (merge_module.py:75-104), which
asks the modules for the shapes of their outputs, allocates the output and writes the output of each module into it. -/
def multiForward (sz : F → ℕ) (inT : List F) (level : ℕ) (labels : List K) (ms : List (K × EMod (List F) (ETensor F B) (List Dim)))
    (junk : (c n : ℕ) → List (Pix B n → ℝ)) (x : ETensor F B) : Option (ETensor F B) :=
  if x.x.ty = inT then
    (ms.mapM fun m => (branch sz level labels x.x m.1).bind fun z => m.2.shape (ETensor.dims ⟨x.n, z⟩)).bind fun ss =>
      (mergeDims ss).bind fun s => (allocSize (Fintype.card B) s).bind fun cn =>
        (ms.mapM fun m => (branch sz level labels x.x m.1).bind fun z => (m.2.fwd ⟨x.n, z⟩).bind (ETensor.fit cn.2)).bind fun ys =>
          (mergeGT sz (junk cn.1 cn.2) ys).map fun y => ⟨cn.2, y⟩
  else none

/-- `MultipleModule.evaluate_output_shape` (multiple_module.py:122-131): the assertions, and a call of `MergeModule.evaluate_output_shape` (merge_module.py:106),
which accepts keyword arguments only, with one positional argument. -/
def multiShape (sz : F → ℕ) (inT : List F) (s : List Dim) : Option (List Dim) :=
  if s.length = 4 ∧ s[1]? = some (.int (typeSize sz inT)) then (mergeDecl 1 []).map Shape.dims else none

open Classical in
/-- The constructor of `MultipleModule` (multiple_module.py:62-100) with those of `BranchingModule` (branching_module.py:64-112) and `MergeModule`
(merge_module.py:39-73): the assertions, and the types. -/
noncomputable def multiMod (sz : F → ℕ) (inT : List F) (level : ℕ) (labels : List K) (ms : List (K × EMod (List F) (ETensor F B) (List Dim)))
    (junk : (c n : ℕ) → List (Pix B n → ℝ)) : Option (EMod (List F) (ETensor F B) (List Dim)) :=
  if level < 3 ∧ inT.length = labels.length ∧ (∀ k, k ∈ ms.map Prod.fst ↔ k ∈ labels) ∧ ∀ m ∈ ms, branchType sz level labels inT m.1 = some m.2.inTy then
    (mkType (ms.flatMap fun m => m.2.outTy)).map fun outT => ⟨inT, outT, multiForward sz inT level labels ms junk, multiShape sz inT⟩
  else none

/-! ## Building and calling a network -/

mutual

/-- A network is built, from the inside. -/
noncomputable def NetMod.build (rep : F → Repr El) :
    (List ℕ → (c n : ℕ) → List (Pix B n → ℝ)) → NetMod F A I K → Option (EMod (List F) (ETensor F B) (List Dim))
  | junk, .layer l => some (l.toShapedMod rep (junk []))
  | junk, .seq ms => (ms.build rep junk 0).bind (seqMod fun r => (rep r).size)
  | junk, .multi inT level labels ms => (ms.build rep junk 0).bind fun l => multiMod (fun r => (rep r).size) inT level labels l (junk [])

/-- The networks of a list; the one at position `i` has the memory of the branch `i` of the tree. -/
noncomputable def NetMods.build (rep : F → Repr El) :
    (List ℕ → (c n : ℕ) → List (Pix B n → ℝ)) → ℕ → NetMods F A I K → Option (List (K × EMod (List F) (ETensor F B) (List Dim)))
  | _, _, .nil => some []
  | junk, i, .cons k m ms => (m.build rep fun p => junk (i :: p)).bind fun M => (ms.build rep junk (i + 1)).map fun l => (k, M) :: l

end

/-- A network is built and called on a tensor. -/
noncomputable def NetMod.forward (rep : F → Repr El) (junk : List ℕ → (c n : ℕ) → List (Pix B n → ℝ)) (net : NetMod F A I K) (x : ETensor F B) :
    Option (ETensor F B) := (net.build rep junk).bind fun M => M.fwd x

end forward

end E2
