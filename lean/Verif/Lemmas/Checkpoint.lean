import Verif.Props.CheckpointSpec
import Mathlib.Tactic.Tauto

namespace E2.Ckpt

variable {K N S D V X : Type}

/-! ### Networks which cannot be told apart -/

/-- The same attribute with the same entries. -/
def AttrRel : Attr S D V → Attr S D V → Prop
  | .absent, .absent => True
  | .none, .none => True
  | .buf s, .buf t => s.val = t.val
  | _, _ => False

/-- The modules hold the same numbers. -/
structure ModSame (h : Heap S D V) (m : Mod N S D V X) (h' : Heap S D V) (m' : Mod N S D V X) : Prop where
  code : m.code = m'.code
  training : m.training = m'.training
  own : ownVals m.own = ownVals m'.own
  shared : sharedVals h m.shared = sharedVals h' m'.shared
  filter : AttrRel m.filter m'.filter
  ebias : AttrRel m.ebias m'.ebias

/-- The tensors of a module are at `p`. -/
def ModAt (h : Heap S D V) (p : D) (m : Mod N S D V X) : Prop :=
  (∀ q ∈ m.own, q.2.place = p) ∧ (∀ q ∈ m.shared, (h q.2).place = p) ∧ (∀ t, m.filter = .buf t → t.place = p) ∧ ∀ t, m.ebias = .buf t → t.place = p

/-- Convolutions have weights. -/
def HasOwn (m : Mod N S D V X) : Prop := m.code.conv = true → m.own ≠ []

section
variable [DecidableEq D]

theorem ModAt.tensorsAt {h : Heap S D V} {p : D} {m : Mod N S D V X} (a : ModAt h p m) : m.tensorsAt h p = true := by
  simp only [Mod.tensorsAt, Bool.and_eq_true, List.all_eq_true, decide_eq_true_eq]
  exact ⟨a.1, a.2.1⟩

theorem ModAt.placed {h : Heap S D V} {p : D} {m : Mod N S D V X} (a : ModAt h p m) : m.placed h p = true := by
  have h0 := a.tensorsAt
  obtain ⟨-, -, h3, h4⟩ := a
  unfold Mod.placed
  split
  · cases hf : m.filter <;> cases he : m.ebias <;> simp_all
  · exact h0

theorem ModAt.expand {h : Heap S D V} {p : D} {m : Mod N S D V X} (a : ModAt h p m) (ho : m.own ≠ []) :
    m.expandParameters h = some (⟨m.code.fshape, p, m.code.expandF (ownVals m.own) (sharedVals h m.shared)⟩,
        if m.code.hasBias then .buf ⟨m.code.eshape, p, m.code.expandB (ownVals m.own)⟩ else .none) := by
  have h0 := a.tensorsAt
  unfold Mod.expandParameters
  cases hm : m.own with
  | nil => exact absurd hm ho
  | cons e r =>
    have he : e.2.place = p := a.1 e (by rw [hm]; exact List.mem_cons_self)
    simp only [List.head?_cons]
    rw [he, h0, if_pos rfl]

theorem ModSame.compute {h h' : Heap S D V} {m m' : Mod N S D V X} (r : ModSame h m h' m') (x : X) : m.compute h x = m'.compute h' x := by
  obtain ⟨h1, h2, h3, h4, h5, h6⟩ := r
  unfold Mod.compute
  rw [h1, h2, h3, h4]
  cases hf : m.filter <;> cases hf' : m'.filter <;> cases he : m.ebias <;> cases he' : m'.ebias <;> simp_all [AttrRel]

theorem ModAt.setMode_eval {h : Heap S D V} {p : D} {m : Mod N S D V X} (a : ModAt h p m) (hc : m.code.conv = true) (ht : m.training = true) (ho : m.own ≠ []) :
    m.setMode h false = some { m with
      training := false
      filter := .buf ⟨m.code.fshape, p, m.code.expandF (ownVals m.own) (sharedVals h m.shared)⟩
      ebias := if m.code.hasBias then .buf ⟨m.code.eshape, p, m.code.expandB (ownVals m.own)⟩ else .none } := by
  simp [Mod.setMode, hc, ht, a.expand ho]

theorem ModSame.setMode {h h' : Heap S D V} {p q : D} {m m' : Mod N S D V X} (r : ModSame h m h' m') (a : ModAt h p m) (a' : ModAt h' q m') (o : HasOwn m) (o' : HasOwn m') (mode : Bool) :
    ∃ n n', m.setMode h mode = some n ∧ m'.setMode h' mode = some n' ∧ ModSame h n h' n' ∧ ModAt h p n ∧ ModAt h' q n' ∧ HasOwn n ∧ HasOwn n' := by
  obtain ⟨h1, h2, h3, h4, h5, h6⟩ := r
  by_cases hc : m.code.conv = true
  · have hc' : m'.code.conv = true := h1 ▸ hc
    cases mode with
    | true =>
      refine ⟨{ m with training := true, filter := .absent, ebias := .absent }, { m' with training := true, filter := .absent, ebias := .absent }, ?_, ?_, ⟨h1, rfl, h3, h4, trivial, trivial⟩,
        ⟨a.1, a.2.1, ?_, ?_⟩, ⟨a'.1, a'.2.1, ?_, ?_⟩, o, o'⟩ <;> simp [Mod.setMode, hc, hc']
    | false =>
      by_cases ht : m.training = true
      · have ht' : m'.training = true := h2 ▸ ht
        refine ⟨_, _, a.setMode_eval hc ht (o hc), a'.setMode_eval hc' ht' (o' hc'), ⟨h1, rfl, h3, h4, ?_, ?_⟩,
          ⟨a.1, a.2.1, ?_, ?_⟩, ⟨a'.1, a'.2.1, ?_, ?_⟩, o, o'⟩
        · simp only [AttrRel, h1, h3, h4]
        · simp only [h1, h3]
          cases m'.code.hasBias <;> simp [AttrRel]
        · rintro t ⟨⟩; rfl
        · intro t; dsimp only; split
          · rintro ⟨⟩; rfl
          · rintro ⟨⟩
        · rintro t ⟨⟩; rfl
        · intro t; dsimp only; split
          · rintro ⟨⟩; rfl
          · rintro ⟨⟩
      · have ht' : ¬ m'.training = true := h2 ▸ ht
        exact ⟨m, m', by simp [Mod.setMode, hc, ht], by simp [Mod.setMode, hc', ht'], ⟨h1, h2, h3, h4, h5, h6⟩, a, a', o, o'⟩
  · have hc' : ¬ m'.code.conv = true := h1 ▸ hc
    exact ⟨{ m with training := mode }, { m' with training := mode }, by simp [Mod.setMode, hc], by simp [Mod.setMode, hc'], ⟨h1, rfl, h3, h4, h5, h6⟩, a, a', o, o'⟩

theorem ownVals_assign [DecidableEq N] (own : List (N × Ten S D V)) (vs : List (N × V)) :
    ownVals (own.map fun e => (e.1, { e.2 with val := (vs.lookup e.1).getD e.2.val })) = (ownVals own).map fun e => (e.1, (vs.lookup e.1).getD e.2) := by
  simp [ownVals, Function.comp_def]

theorem ModSame.assign [DecidableEq N] {h h' : Heap S D V} {p q : D} {m m' : Mod N S D V X} (r : ModSame h m h' m') (a : ModAt h p m) (a' : ModAt h' q m') (o : HasOwn m) (o' : HasOwn m')
    (vs : List (N × V)) : ModSame h (m.assign vs) h' (m'.assign vs) ∧ ModAt h p (m.assign vs) ∧ ModAt h' q (m'.assign vs) ∧ HasOwn (m.assign vs) ∧ HasOwn (m'.assign vs) := by
  obtain ⟨h1, h2, h3, h4, h5, h6⟩ := r
  refine ⟨⟨h1, h2, ?_, h4, h5, h6⟩, ⟨?_, a.2⟩, ⟨?_, a'.2⟩, ?_, ?_⟩
  · unfold Mod.assign
    rw [ownVals_assign, ownVals_assign, h3]
  · intro t ht
    obtain ⟨e, he, rfl⟩ := List.mem_map.1 ht
    exact a.1 e he
  · intro t ht
    obtain ⟨e, he, rfl⟩ := List.mem_map.1 ht
    exact a'.1 e he
  · intro hc hn
    exact o hc (List.map_eq_nil_iff.1 hn)
  · intro hc hn
    exact o' hc (List.map_eq_nil_iff.1 hn)

/-- The networks hold the same numbers, the first at `p`, the second at `q`. -/
def NetSame (h : Heap S D V) (p : D) (a : Net K N S D V X) (h' : Heap S D V) (q : D) (b : Net K N S D V X) : Prop :=
  List.Forall₂ (fun e e' : K × Mod N S D V X => e.1 = e'.1 ∧ ModSame h e.2 h' e'.2 ∧ ModAt h p e.2 ∧ ModAt h' q e'.2 ∧ HasOwn e.2 ∧ HasOwn e'.2) a b

theorem NetSame.forward {h h' : Heap S D V} {p q : D} {a b : Net K N S D V X} (r : NetSame h p a h' q b) (x : X) : netForward h p a x = netForward h' q b x := by
  induction r generalizing x with
  | nil => rfl
  | cons e _ ih =>
    obtain ⟨-, e2, e3, e4, -, -⟩ := e
    simp only [netForward, Mod.forward]
    rw [e3.placed, e4.placed, if_pos rfl, if_pos rfl, e2.compute]
    congr 1
    funext y
    exact ih y

theorem NetSame.setMode {h h' : Heap S D V} {p q : D} {a b : Net K N S D V X} (r : NetSame h p a h' q b) (mode : Bool) :
    NetSame h p (setModeNet h mode a).1 h' q (setModeNet h' mode b).1 := by
  induction r with
  | nil => exact .nil
  | @cons e e' _ _ he _ ih =>
    obtain ⟨e1, e2, e3, e4, e5, e6⟩ := he
    obtain ⟨n, n', h1, h2, h3, h4, h5, h6, h7⟩ := e2.setMode e3 e4 e5 e6 mode
    simp only [setModeNet, h1, h2]
    exact .cons ⟨e1, h3, h4, h5, h6, h7⟩ ih

theorem NetSame.assign [DecidableEq N] {h h' : Heap S D V} {p q : D} {a b : Net K N S D V X} (r : NetSame h p a h' q b) (vs : K → List (N × V)) :
    NetSame h p (a.map fun e => (e.1, e.2.assign (vs e.1))) h' q (b.map fun e => (e.1, e.2.assign (vs e.1))) := by
  induction r with
  | nil => exact .nil
  | @cons e e' _ _ he _ ih =>
    obtain ⟨e1, e2, e3, e4, e5, e6⟩ := he
    refine .cons ⟨e1, ?_⟩ ih
    dsimp only
    rw [e1]
    exact e2.assign e3 e4 e5 e6 (vs e'.1)

variable [DecidableEq K] [DecidableEq N] [DecidableEq S]

theorem NetSame.call {w w' : World K N S D V X} {i j : ℕ} {p q : D} (r : NetSame w.heap p (w.nets i) w'.heap q (w'.nets j)) (c : Call K N V) :
    NetSame (step w i c.op).1.heap p ((step w i c.op).1.nets i) (step w' j c.op).1.heap q ((step w' j c.op).1.nets j) := by
  cases c with
  | train => simpa [step, Call.op] using r.setMode true
  | eval => simpa [step, Call.op] using r.setMode false
  | assign vs => simpa [step, Call.op] using r.assign vs

theorem NetSame.after {w w' : World K N S D V X} {i j : ℕ} {p q : D} (r : NetSame w.heap p (w.nets i) w'.heap q (w'.nets j)) (calls : List (Call K N V)) (x : X) :
    Ckpt.after w i calls p x = Ckpt.after w' j calls q x := by
  induction calls generalizing w w' with
  | nil => exact r.forward x
  | cons c cs ih => exact ih (r.call c)

end

end E2.Ckpt
