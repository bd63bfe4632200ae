import Verif.Model.Network

/-!
# Programs on geometric tensors: modules, arithmetic, in-place operations and views

What the `forward` of a residual network does (for instance examples/e2wrn.py:159-170): modules are called, tensors are added, split and concatenated,
some operations write in the memory of a tensor which other tensors share.
-/

namespace E2

variable {El F A I B K : Type}

/-- A `GeometricTensor` (nn/geometric_tensor.py:160-171): its type and its attribute `tensor`, a contiguous range of the channels of a block of memory. -/
structure Ref (F : Type) where
  addr : ℕ
  off : ℕ
  ty : List F

/-- The memory: blocks which hold batches of square images, and the values of the variables. -/
structure Mem (F B K : Type) where
  heap : List (PTensor B)
  env : K → Option (Ref F)

/-- The channels of a block which belong to a tensor, with its type; `none` if there are not as many as the size of the type. -/
def Mem.deref (sz : F → ℕ) (s : Mem F B K) (r : Ref F) : Option (ETensor F B) :=
  match s.heap[r.addr]? with
  | none => none
  | some t => (mkGT sz ((t.chans.drop r.off).take (typeSize sz r.ty)) r.ty).map fun x => ⟨t.n, x⟩

/-- The value of a variable. -/
def Mem.read (sz : F → ℕ) (s : Mem F B K) (v : K) : Option (ETensor F B) :=
  match s.env v with
  | none => none
  | some r => s.deref sz r

/-- The images of a tensor as images with `n × n` pixels, by the rules of broadcasting: they have this size, or one pixel which is repeated. -/
def expand (n : ℕ) (t : PTensor B) : Option (List (Pix B n → ℝ)) :=
  if h : t.n = n then some (h ▸ t.chans)
  else if h : t.n = 1 then some (t.chans.map fun v q => v (q.1, ⟨0, by omega⟩, ⟨0, by omega⟩))
  else none

/-- An operation on the entries of two tensors, as images with `n × n` pixels, and the tensor of a type with the result. -/
def binN (sz : F → ℕ) (op : ℝ → ℝ → ℝ) (n : ℕ) (ty : List F) (a b : PTensor B) : Option (ETensor F B) :=
  match expand n a, expand n b with
  | some u, some v => mkE sz ⟨n, List.zipWith (fun f h q => op (f q) (h q)) u v⟩ ty
  | _, _ => none

/-- `__add__` and `__sub__` (nn/geometric_tensor.py:549-577) with the operation on the entries; the sizes are not compared, so PyTorch broadcasts. -/
def binE [DecidableEq F] (sz : F → ℕ) (op : ℝ → ℝ → ℝ) (a b : ETensor F B) : Option (ETensor F B) :=
  if a.x.ty = b.x.ty then binN sz op (if a.n = 1 then b.n else a.n) a.x.ty a.plain b.plain else none

/-- `__mul__` with a number (nn/geometric_tensor.py:612-631). -/
def mulE (sz : F → ℕ) (c : ℝ) (a : ETensor F B) : Option (ETensor F B) := mkE sz ⟨a.n, a.x.data.map fun f q => f q * c⟩ a.x.ty

/-- `self.tensor += other.tensor` and `-=` (nn/geometric_tensor.py:579-610): the new channels of the first tensor; the result must have its size. -/
def inE [DecidableEq F] (op : ℝ → ℝ → ℝ) (a b : ETensor F B) : Option (List (Pix B a.n → ℝ)) :=
  if a.x.ty = b.x.ty then (expand a.n b.plain).map fun v => List.zipWith (fun f h q => op (f q) (h q)) a.x.data v else none

/-- The tensors with `n × n` pixels. -/
def ETensor.sized (n : ℕ) (x : ETensor F B) : Option (GTensor F (Pix B n → ℝ)) :=
  if h : x.n = n then some (h ▸ x.x) else none

/-- `tensor_directsum` (nn/geometric_tensor.py:660-699) for tensors of the same gspace and batch size. -/
def directsumE (sz : F → ℕ) : List (ETensor F B) → Option (ETensor F B)
  | [] => none
  | x :: xs => ((x :: xs).mapM (ETensor.sized x.n)).bind fun ys => (directsumGT sz ys).map fun y => ⟨x.n, y⟩

/-- The modules which return their input (identity_module.py:30-44; dropout/field.py:132-135 in evaluation mode). -/
def Layer.returnsInput : Layer F A I → Bool
  | .identity _ | .dropout _ _ _ => true
  | _ => false

/-- The modules with an argument `inplace` which write in the memory of their input when it is set (nonlinearities/relu.py:65, elu.py:67). -/
def Layer.canInplace : Layer F A I → Bool
  | .pointwise _ _ => true
  | _ => false

/-- One statement.  `call` has the flag `inplace` of the module, ignored by modules without it.  `split` assigns the pieces to several variables. -/
inductive Stmt (F A I K : Type)
  | assign (v u : K)
  | call (v : K) (l : Layer F A I) (inplace : Bool) (u : K)
  | add (v a b : K)
  | sub (v a b : K)
  | mul (v a : K) (c : ℝ)
  | iadd (a b : K)
  | isub (a b : K)
  | imul (a : K) (c : ℝ)
  | split (vs : List K) (u : K) (breaks : Option (List ℤ))
  | directsum (v : K) (us : List K)

section run

variable [DecidableEq K]

/-- Binding of a variable. -/
def Mem.bindVar (s : Mem F B K) (v : K) (r : Ref F) : Mem F B K := ⟨s.heap, Function.update s.env v (some r)⟩

/-- A new tensor in new memory, bound to a variable. -/
def Mem.alloc (s : Mem F B K) (v : K) (y : ETensor F B) : Mem F B K :=
  ⟨s.heap ++ [y.plain], Function.update s.env v (some ⟨s.heap.length, 0, y.x.ty⟩)⟩

/-- The memory with new channels in the range of a tensor. -/
def Mem.write (s : Mem F B K) (r : Ref F) (y : PTensor B) : Option (Mem F B K) :=
  match s.heap[r.addr]? with
  | none => none
  | some t => if h : y.n = t.n then
      some ⟨s.heap.set r.addr ⟨t.n, t.chans.take r.off ++ (h ▸ y.chans) ++ t.chans.drop (r.off + y.chans.length)⟩, s.env⟩
    else none

/-- Two tensors share all their memory or none (for tensors of the same size).  For a partial overlap the result of PyTorch is an error or depends on the order
in which the entries are visited: there is no result in the model. -/
def Ref.separate (sz : F → ℕ) (a b : Ref F) : Prop :=
  a.addr ≠ b.addr ∨ a.off = b.off ∨ a.off + typeSize sz a.ty ≤ b.off ∨ b.off + typeSize sz b.ty ≤ a.off

instance (sz : F → ℕ) (a b : Ref F) : Decidable (a.separate sz b) := by unfold Ref.separate; infer_instance

/-- Binding of several variables in turn. -/
def Mem.bindVars (s : Mem F B K) : List (K × Ref F) → Mem F B K
  | [] => s
  | (v, r) :: l => (s.bindVar v r).bindVars l

variable [LinearOrder F] [DecidableEq I] [Fintype B]

/-- In-place addition and subtraction. -/
def Mem.inplace (sz : F → ℕ) (op : ℝ → ℝ → ℝ) (s : Mem F B K) (a b : K) : Option (Mem F B K) :=
  match s.env a, s.env b with
  | some ra, some rb =>
    match s.deref sz ra, s.deref sz rb with
    | some x, some y => if ra.separate sz rb then (inE op x y).bind fun d => s.write ra ⟨x.n, d⟩ else none
    | _, _ => none
  | _, _ => none

/-- One statement; `none` for an exception.  `split` (nn/geometric_tensor.py:276-308) makes views: its pieces are computed on the numbers of the channels. -/
noncomputable def Stmt.run (rep : F → Repr El) (junk : (c n : ℕ) → List (Pix B n → ℝ)) (s : Mem F B K) : Stmt F A I K → Option (Mem F B K)
  | .assign v u => (s.env u).map fun r => s.bindVar v r
  | .call v l inplace u =>
    match s.env u with
    | none => none
    | some r =>
      match s.deref (fun r => (rep r).size) r with
      | none => none
      | some x =>
        match l.forward rep junk x with
        | none => none
        | some y =>
          if l.returnsInput then some (s.bindVar v r)
          else if inplace && l.canInplace then (s.write r y.plain).map fun s' => s'.bindVar v ⟨r.addr, r.off, y.x.ty⟩
          else some (s.alloc v y)
  | .add v a b =>
    match s.read (fun r => (rep r).size) a, s.read (fun r => (rep r).size) b with
    | some x, some y => (binE (fun r => (rep r).size) (· + ·) x y).map (s.alloc v)
    | _, _ => none
  | .sub v a b =>
    match s.read (fun r => (rep r).size) a, s.read (fun r => (rep r).size) b with
    | some x, some y => (binE (fun r => (rep r).size) (· - ·) x y).map (s.alloc v)
    | _, _ => none
  | .mul v a c =>
    match s.read (fun r => (rep r).size) a with
    | some x => (mulE (fun r => (rep r).size) c x).map (s.alloc v)
    | none => none
  | .iadd a b => s.inplace (fun r => (rep r).size) (· + ·) a b
  | .isub a b => s.inplace (fun r => (rep r).size) (· - ·) a b
  | .imul a c =>
    match s.env a with
    | none => none
    | some r =>
      match s.deref (fun r => (rep r).size) r with
      | none => none
      | some x => s.write r ⟨x.n, x.x.data.map fun f q => f q * c⟩
  | .split vs u breaks =>
    match s.env u with
    | none => none
    | some r =>
      match (splitGT (fun r => (rep r).size) (⟨r.ty, List.range' r.off (typeSize (fun r => (rep r).size) r.ty)⟩ : GTensor F ℕ) breaks).1 with
      | none => none
      | some ys =>
        if vs.length = ys.length then some (s.bindVars (vs.zip (ys.map fun y => ⟨r.addr, y.data.head?.getD 0, y.ty⟩))) else none
  | .directsum v us => ((us.mapM (s.read fun r => (rep r).size)).bind (directsumE fun r => (rep r).size)).map (s.alloc v)

/-- A program: the statements in turn, each with its own new memory. -/
noncomputable def runProg (rep : F → Repr El) (junk : ℕ → (c n : ℕ) → List (Pix B n → ℝ)) : List (Stmt F A I K) → Mem F B K → Option (Mem F B K)
  | [], s => some s
  | st :: p, s =>
    match st.run rep (junk p.length) s with
    | none => none
    | some s' => runProg rep junk p s'

/-- The memory at the start: every input tensor in its own block. -/
def Mem.init (xs : List (K × ETensor F B)) : Mem F B K := xs.foldl (fun s x => s.alloc x.1 x.2) ⟨[], fun _ => none⟩

end run

end E2
