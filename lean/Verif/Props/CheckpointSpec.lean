import Verif.Model.Checkpoint
import Mathlib.Data.List.Forall2

/-!
# Checkpoints and independence of networks: what the statements are about
-/

namespace E2.Ckpt

variable {K N S D V X : Type}

/-- The state of a module after its constructor (r2convolution.py:231-239, 274-275; r2_transposed_convolution.py:145-154, 181-182; r2diffop.py:331-339, 376-377): training mode; a convolution has weights, the buffer `filter` of the right
shape, and `expanded_bias` is a buffer or `None`.  The shape of this buffer is left open, see `c89_transposed_false`.  Names are unique. -/
def Mod.Fresh (m : Mod N S D V X) : Prop :=
  m.training = true ∧ (m.own.map Prod.fst).Nodup ∧ (m.shared.map Prod.fst).Nodup ∧
    if m.code.conv = true then
      m.own ≠ [] ∧ (∃ z, m.filter = .buf z ∧ z.shape = m.code.fshape) ∧ if m.code.hasBias = true then ∃ z, m.ebias = .buf z else m.ebias = .none
    else m.shared = [] ∧ m.filter = .none ∧ m.ebias = .none

/-- A network which has just been built. -/
def FreshNet (net : Net K N S D V X) : Prop := (net.map Prod.fst).Nodup ∧ ∀ e ∈ net, e.2.Fresh

/-- The buffer `expanded_bias` is registered with the shape it will have later, as `R2Conv` does. -/
def Registered (net : Net K N S D V X) : Prop := ∀ e ∈ net, ∀ z, e.2.ebias = .buf z → z.shape = e.2.code.eshape

/-- Two networks are built with the same arguments: their modules have the same names and the same code, the tensors the same names and shapes; and where the second network uses one object for two
blocks so does the first one: `φ` maps the addresses of the objects. -/
def SameArgs (h : Heap S D V) (a : Net K N S D V X) (h' : Heap S D V) (b : Net K N S D V X) : Prop :=
  ∃ φ : ℕ → ℕ, List.Forall₂ (fun e e' : K × Mod N S D V X => e.1 = e'.1 ∧ e.2.code = e'.2.code ∧
      e.2.own.map (fun q => (q.1, q.2.shape)) = e'.2.own.map (fun q => (q.1, q.2.shape)) ∧
      e.2.shared = e'.2.shared.map (fun q => (q.1, φ q.2)) ∧ ∀ q ∈ e'.2.shared, (h (φ q.2)).shape = (h' q.2).shape) a b

/-- All the modules are in evaluation mode. -/
def EvalMode (net : Net K N S D V X) : Prop := ∀ e ∈ net, e.2.training = false

/-- All the tensors of a network are at `p`. -/
def NetAt (h : Heap S D V) (p : D) (net : Net K N S D V X) : Prop :=
  ∀ e ∈ net, (∀ q ∈ e.2.own, q.2.place = p) ∧ (∀ q ∈ e.2.shared, (h q.2).place = p) ∧ (∀ t, e.2.filter = .buf t → t.place = p) ∧ ∀ t, e.2.ebias = .buf t → t.place = p

/-- Calls which read and write one network only. -/
inductive Call (K N V : Type)
  | train
  | eval
  | assign (vs : K → List (N × V))

/-- The operation of a call. -/
def Call.op : Call K N V → Op K N S D V
  | .train => .train
  | .eval => .eval
  | .assign vs => .assign vs

section
variable [DecidableEq K] [DecidableEq N] [DecidableEq S] [DecidableEq D]

/-- The output of network `i` for the input `x`, stored at `p`, after a sequence of calls. -/
def after (w : World K N S D V X) (i : ℕ) (calls : List (Call K N V)) (p : D) (x : X) : Option X :=
  let w' := run w (calls.map fun c => (i, c.op))
  netForward w'.heap p (w'.nets i) x

end

end E2.Ckpt
