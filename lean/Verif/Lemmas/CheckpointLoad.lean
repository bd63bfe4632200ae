import Verif.Lemmas.Checkpoint
import Mathlib.Data.List.Nodup

set_option linter.unusedSectionVars false

namespace E2.Ckpt

variable {K N S D V X : Type}

/-! ### What never changes -/

/-- Names and shapes of tensors. -/
def sig {A : Type} (l : List (A × Ten S D V)) : List (A × S) := l.map fun e => (e.1, e.2.shape)

/-- The parts of a network which no operation changes. -/
def Kept (a b : Net K N S D V X) : Prop :=
  List.Forall₂ (fun e e' : K × Mod N S D V X => e.1 = e'.1 ∧ e.2.code = e'.2.code ∧ sig e.2.own = sig e'.2.own ∧ e.2.shared = e'.2.shared) a b

theorem Kept.refl (a : Net K N S D V X) : Kept a a := List.forall₂_same.2 fun _ _ => ⟨rfl, rfl, rfl, rfl⟩

theorem Kept.trans {a b c : Net K N S D V X} (h : Kept a b) (h' : Kept b c) : Kept a c := by
  unfold Kept at *
  induction h generalizing c with
  | nil => cases h'; exact .nil
  | cons e _ ih =>
    cases h' with
    | cons e' r' => exact .cons ⟨e.1.trans e'.1, e.2.1.trans e'.2.1, e.2.2.1.trans e'.2.2.1, e.2.2.2.trans e'.2.2.2⟩ (ih r')

theorem kept_map (f : K × Mod N S D V X → Mod N S D V X) (hf : ∀ e, (f e).code = e.2.code ∧ sig (f e).own = sig e.2.own ∧ (f e).shared = e.2.shared) (a : Net K N S D V X) :
    Kept a (a.map fun e => (e.1, f e)) := by
  rw [Kept, List.forall₂_map_right_iff]
  exact List.forall₂_same.2 fun e _ => ⟨rfl, (hf e).1.symm, (hf e).2.1.symm, (hf e).2.2.symm⟩

theorem sig_map {A : Type} (l : List (A × Ten S D V)) (f : A × Ten S D V → Ten S D V) (hf : ∀ e, (f e).shape = e.2.shape) : sig (l.map fun e => (e.1, f e)) = sig l := by
  simp [sig, Function.comp_def, hf]

theorem Kept.names {a b : Net K N S D V X} (h : Kept a b) : a.map Prod.fst = b.map Prod.fst := by
  unfold Kept at h
  induction h with
  | nil => rfl
  | cons e _ ih => rw [List.map_cons, List.map_cons, ih, e.1]

theorem Kept.mem {a b : Net K N S D V X} (h : Kept a b) {e' : K × Mod N S D V X} (he : e' ∈ b) :
    ∃ e ∈ a, e.1 = e'.1 ∧ e.2.code = e'.2.code ∧ sig e.2.own = sig e'.2.own ∧ e.2.shared = e'.2.shared := by
  unfold Kept at h
  induction h with
  | nil => cases he
  | cons q _ ih =>
    rcases List.mem_cons.1 he with rfl | he
    · exact ⟨_, List.mem_cons_self, q⟩
    · obtain ⟨e, h1, h2⟩ := ih he
      exact ⟨e, List.mem_cons_of_mem _ h1, h2⟩

theorem Kept.sharedOf {a b : Net K N S D V X} (h : Kept a b) : sharedOf a = sharedOf b := by
  unfold Kept at h
  induction h with
  | nil => rfl
  | cons e _ ih => simp only [Ckpt.sharedOf, List.flatMap_cons, e.1, e.2.2.2] at ih ⊢; rw [ih]

/-- What holds for the buffers of a module at all times. -/
def ModInv (m : Mod N S D V X) : Prop :=
  HasOwn m ∧ (m.own.map Prod.fst).Nodup ∧ (m.shared.map Prod.fst).Nodup ∧
  if m.code.conv = true then
    if m.training = true then m.filter = .absent ∧ m.ebias = .absent ∨ (∃ z, m.filter = .buf z ∧ z.shape = m.code.fshape) ∧ if m.code.hasBias = true then ∃ z, m.ebias = .buf z else m.ebias = .none
    else (∃ z, m.filter = .buf z ∧ z.shape = m.code.fshape) ∧ if m.code.hasBias = true then ∃ z, m.ebias = .buf z ∧ z.shape = m.code.eshape else m.ebias = .none
  else m.shared = [] ∧ m.filter = .none ∧ m.ebias = .none

theorem Mod.Fresh.inv {m : Mod N S D V X} (h : m.Fresh) : ModInv m := by
  obtain ⟨h1, h2, h3, h4⟩ := h
  refine ⟨?_, h2, h3, ?_⟩
  · intro hc
    rw [if_pos hc] at h4
    exact h4.1
  · by_cases hc : m.code.conv = true
    · rw [if_pos hc] at h4 ⊢
      rw [if_pos h1]
      exact .inr h4.2
    · rw [if_neg hc] at h4 ⊢
      exact h4

/-- A change of the entries and places of the tensors keeps the invariant. -/
theorem ModInv.map {m : Mod N S D V X} (h : ModInv m) (own : List (N × Ten S D V)) (ho : sig own = sig m.own) (f g : Ten S D V → Ten S D V) (hf : ∀ t, (f t).shape = t.shape)
    (hg : ∀ t, (g t).shape = t.shape) : ModInv { m with own := own, filter := m.filter.map f, ebias := m.ebias.map g } := by
  have hk : own.map Prod.fst = m.own.map Prod.fst := by
    have := congrArg (List.map Prod.fst) ho
    simpa [sig, Function.comp_def] using this
  obtain ⟨h1, h2, h3, h4⟩ := h
  refine ⟨fun hc hn => h1 hc ?_, by rw [hk]; exact h2, h3, ?_⟩
  · dsimp only at hn
    rw [hn] at hk
    simpa using hk.symm
  · dsimp only
    by_cases hc : m.code.conv = true
    · rw [if_pos hc] at h4 ⊢
      by_cases ht : m.training = true
      · rw [if_pos ht] at h4 ⊢
        rcases h4 with ⟨e1, e2⟩ | ⟨⟨z, e1, e2⟩, e3⟩
        · left; rw [e1, e2]; exact ⟨rfl, rfl⟩
        · right
          refine ⟨⟨f z, by rw [e1]; rfl, (hf z).trans e2⟩, ?_⟩
          by_cases hb : m.code.hasBias = true
          · rw [if_pos hb] at e3 ⊢
            obtain ⟨z, e3⟩ := e3
            exact ⟨g z, by rw [e3]; rfl⟩
          · rw [if_neg hb] at e3 ⊢
            rw [e3]; rfl
      · rw [if_neg ht] at h4 ⊢
        obtain ⟨⟨z, e1, e2⟩, e3⟩ := h4
        refine ⟨⟨f z, by rw [e1]; rfl, (hf z).trans e2⟩, ?_⟩
        by_cases hb : m.code.hasBias = true
        · rw [if_pos hb] at e3 ⊢
          obtain ⟨z, e3, e4⟩ := e3
          exact ⟨g z, by rw [e3]; rfl, (hg z).trans e4⟩
        · rw [if_neg hb] at e3 ⊢
          rw [e3]; rfl
    · rw [if_neg hc] at h4 ⊢
      obtain ⟨e0, e1, e2⟩ := h4
      exact ⟨e0, by rw [e1]; rfl, by rw [e2]; rfl⟩

theorem Attr.map_id (a : Attr S D V) : a.map id = a := by cases a <;> rfl

section
variable [DecidableEq D]

theorem ModInv.setMode {h : Heap S D V} {m n : Mod N S D V X} (i : ModInv m) {mode : Bool} (hs : m.setMode h mode = some n) :
    ModInv n ∧ m.code = n.code ∧ m.own = n.own ∧ m.shared = n.shared ∧ n.training = mode := by
  have i' := i
  obtain ⟨h1, h2, h3, h4⟩ := i
  unfold Mod.setMode at hs
  by_cases hc : m.code.conv = true
  · cases mode with
    | true =>
      simp only [hc, Bool.not_true, Bool.false_eq_true, if_false, if_true, Option.some.injEq] at hs
      subst hs
      refine ⟨⟨h1, h2, h3, ?_⟩, rfl, rfl, rfl, rfl⟩
      dsimp only
      rw [if_pos hc, if_pos rfl]
      exact .inl ⟨rfl, rfl⟩
    | false =>
      by_cases ht : m.training = true
      · simp only [hc, ht, Bool.not_true, Bool.false_eq_true, if_false, if_true, Option.map_eq_some_iff] at hs
        obtain ⟨e, he, rfl⟩ := hs
        refine ⟨⟨h1, h2, h3, ?_⟩, rfl, rfl, rfl, rfl⟩
        dsimp only
        rw [if_pos hc, if_neg (by simp)]
        unfold Mod.expandParameters at he
        split at he
        · cases he
        · split at he
          · obtain rfl := Option.some.inj he
            refine ⟨⟨_, rfl, rfl⟩, ?_⟩
            by_cases hb : m.code.hasBias = true
            · rw [if_pos hb]; simp only [hb, if_true]; exact ⟨_, rfl, rfl⟩
            · rw [if_neg hb]; simp [hb]
          · cases he
      · simp only [hc, ht, Bool.not_true, Bool.false_eq_true, if_false, Option.some.injEq] at hs
        subst hs
        exact ⟨i', rfl, rfl, rfl, by simpa using ht⟩
  · simp only [hc, Bool.not_false, if_true, Option.some.injEq] at hs
    subst hs
    refine ⟨⟨h1, h2, h3, ?_⟩, rfl, rfl, rfl, rfl⟩
    dsimp only
    rw [if_neg hc] at h4 ⊢
    exact h4

theorem setModeNet_kept (h : Heap S D V) (mode : Bool) (net : Net K N S D V X) (hi : ∀ e ∈ net, ModInv e.2) :
    Kept net (setModeNet h mode net).1 ∧ ∀ e ∈ (setModeNet h mode net).1, ModInv e.2 := by
  induction net with
  | nil => exact ⟨.nil, hi⟩
  | cons e r ih =>
    simp only [setModeNet]
    cases hs : e.2.setMode h mode with
    | none => exact ⟨Kept.refl _, hi⟩
    | some n =>
      obtain ⟨a1, a2, a3, a4, -⟩ := (hi e List.mem_cons_self).setMode hs
      obtain ⟨b1, b2⟩ := ih fun e he => hi e (List.mem_cons_of_mem _ he)
      refine ⟨.cons ⟨rfl, a2, by rw [a3], a4⟩ b1, ?_⟩
      intro q hq
      rcases List.mem_cons.1 hq with rfl | hq
      · exact a1
      · exact b2 q hq

variable [DecidableEq K] [DecidableEq N] [DecidableEq S]

theorem loadTen_shape (sd : StateDict K N S D V) (k : K × Key N) (t : Ten S D V) : (loadTen sd k t).shape = t.shape := by
  unfold loadTen
  split
  · rfl
  · split <;> rfl

theorem loadTen_place (sd : StateDict K N S D V) (k : K × Key N) (t : Ten S D V) : (loadTen sd k t).place = t.place := by
  unfold loadTen
  split
  · rfl
  · split <;> rfl

theorem foldHeap_shape (sd : StateDict K N S D V) (L : List ((K × N) × ℕ)) (h : Heap S D V) (a : ℕ) :
    (L.foldl (loadOne sd) h a).shape = (h a).shape ∧
    (L.foldl (loadOne sd) h a).place = (h a).place := by
  induction L generalizing h with
  | nil => exact ⟨rfl, rfl⟩
  | cons e r ih =>
    simp only [List.foldl_cons]
    rw [(ih _).1, (ih _).2, loadOne]
    by_cases ha : a = e.2
    · subst ha; rw [Function.update_self]; exact ⟨loadTen_shape _ _ _, loadTen_place _ _ _⟩
    · rw [Function.update_of_ne ha]; exact ⟨rfl, rfl⟩

/-- All the networks of a process satisfy the invariant. -/
def WInv (w : World K N S D V X) : Prop := ∀ i, ∀ e ∈ w.nets i, ModInv e.2

/-- One operation. -/
theorem step_kept {w : World K N S D V X} (hi : WInv w) (i : ℕ) (o : Op K N S D V) :
    WInv (step w i o).1 ∧ (∀ j, Kept (w.nets j) ((step w i o).1.nets j)) ∧ ∀ a, ((step w i o).1.heap a).shape = (w.heap a).shape := by
  have key : ∀ (net : Net K N S D V X), Kept (w.nets i) net → (∀ e ∈ net, ModInv e.2) → ∀ h', (∀ a, (h' a : Ten S D V).shape = (w.heap a).shape) →
      WInv (⟨h', Function.update w.nets i net⟩ : World K N S D V X) ∧ (∀ j, Kept (w.nets j) (Function.update w.nets i net j)) ∧ ∀ a, (h' a).shape = (w.heap a).shape := by
    intro net h1 h2 h' h3
    refine ⟨fun j => ?_, fun j => ?_, h3⟩
    · by_cases hj : j = i
      · subst hj; simpa using h2
      · simpa [Function.update_of_ne hj] using hi j
    · by_cases hj : j = i
      · subst hj; simpa using h1
      · simpa [Function.update_of_ne hj] using Kept.refl _
  cases o with
  | train =>
    obtain ⟨a, b⟩ := setModeNet_kept w.heap true (w.nets i) (hi i)
    exact key _ a b _ fun _ => rfl
  | eval =>
    obtain ⟨a, b⟩ := setModeNet_kept w.heap false (w.nets i) (hi i)
    exact key _ a b _ fun _ => rfl
  | assign vs =>
    refine key _ (kept_map (fun e => e.2.assign (vs e.1)) (fun e => ⟨rfl, sig_map _ _ fun _ => rfl, rfl⟩) _) ?_ _ fun _ => rfl
    intro e he
    obtain ⟨q, hq, rfl⟩ := List.mem_map.1 he
    have := (hi i q hq).map (q.2.assign (vs q.1)).own (sig_map _ _ fun _ => rfl) id id (fun _ => rfl) fun _ => rfl
    rwa [Attr.map_id, Attr.map_id] at this
  | move p =>
    refine key _ (kept_map (fun e => e.2.moveTo p) (fun e => ⟨rfl, sig_map _ _ fun _ => rfl, rfl⟩) _) ?_ _ fun a => ?_
    · intro e he
      obtain ⟨q, hq, rfl⟩ := List.mem_map.1 he
      exact (hi i q hq).map (q.2.moveTo p).own (sig_map _ _ fun _ => rfl) (fun t => { t with place := p }) (fun t => { t with place := p }) (fun _ => rfl) fun _ => rfl
    · dsimp only
      split <;> rfl
  | load sd =>
    refine key _ (kept_map (fun e => loadMod sd e.1 e.2) (fun e => ⟨rfl, sig_map _ _ fun _ => loadTen_shape _ _ _, rfl⟩) _) ?_ _ fun a => (foldHeap_shape sd _ _ a).1
    intro e he
    obtain ⟨q, hq, rfl⟩ := List.mem_map.1 he
    exact (hi i q hq).map _ (sig_map _ _ fun _ => loadTen_shape _ _ _) _ _ (fun _ => loadTen_shape _ _ _) fun _ => loadTen_shape _ _ _

theorem run_kept {w : World K N S D V X} (hi : WInv w) (ops : List (ℕ × Op K N S D V)) :
    WInv (run w ops) ∧ (∀ j, Kept (w.nets j) ((run w ops).nets j)) ∧ ∀ a, ((run w ops).heap a).shape = (w.heap a).shape := by
  induction ops generalizing w with
  | nil => exact ⟨hi, fun _ => Kept.refl _, fun _ => rfl⟩
  | cons o r ih =>
    obtain ⟨a1, a2, a3⟩ := step_kept hi o.1 o.2
    obtain ⟨b1, b2, b3⟩ := ih a1
    exact ⟨b1, fun j => (a2 j).trans (b2 j), fun a => (b3 a).trans (a3 a)⟩

theorem fresh_inv {w : World K N S D V X} (h : ∀ i, FreshNet (w.nets i)) : WInv w := fun i e he => ((h i).2 e he).inv

/-! ### Loading -/

theorem lookup_of_mem {A B : Type} [BEq A] [LawfulBEq A] {l : List (A × B)} (hn : (l.map Prod.fst).Nodup) {k : A} {b : B} (h : (k, b) ∈ l) : l.lookup k = some b := by
  induction l with
  | nil => cases h
  | cons e r ih =>
    rw [List.map_cons, List.nodup_cons] at hn
    rcases List.mem_cons.1 h with rfl | h2
    · simp [List.lookup]
    · have : ¬ k = e.1 := by
        rintro rfl
        exact hn.1 (List.mem_map.2 ⟨_, h2, rfl⟩)
      obtain ⟨e1, e2⟩ := e
      simp only at this
      rw [List.lookup_cons, beq_false_of_ne this]
      exact ih hn.2 h2

theorem sig_mem {A : Type} {l l' : List (A × Ten S D V)} (h : sig l = sig l') {e : A × Ten S D V} (he : e ∈ l) : ∃ t, (e.1, t) ∈ l' ∧ t.shape = e.2.shape := by
  have : (e.1, e.2.shape) ∈ sig l' := by rw [← h]; exact List.mem_map.2 ⟨e, he, rfl⟩
  obtain ⟨q, hq, e1⟩ := List.mem_map.1 this
  obtain ⟨e2, e3⟩ := Prod.mk.inj e1
  exact ⟨q.2, by rw [← e2]; exact hq, e3⟩

theorem sig_keys {A : Type} {l l' : List (A × Ten S D V)} (h : sig l = sig l') : l.map Prod.fst = l'.map Prod.fst := by
  have := congrArg (List.map Prod.fst) h
  simpa [sig, Function.comp_def] using this

/-- Loading succeeds when the names and shapes agree. -/
theorem loadFails_eq_false {sd : StateDict K N S D V} {h : Heap S D V} {net : Net K N S D V X} (hn : (sd.map Prod.fst).Nodup) (hs : sig sd = sig (stateDict h net)) :
    loadFails sd h net = false := by
  rw [loadFails, Bool.or_eq_false_iff]
  constructor
  · rw [List.any_eq_false]
    intro e he
    obtain ⟨t, ht, hsh⟩ := sig_mem hs.symm he
    rw [lookup_of_mem hn ht]
    simpa using hsh
  · rw [List.any_eq_false]
    intro e he
    have : e.1 ∈ (stateDict h net).map Prod.fst := by rw [← sig_keys hs]; exact List.mem_map.2 ⟨e, he, rfl⟩
    simpa using this

/-- The same attributes with the same shapes. -/
def AttrShape : Attr S D V → Attr S D V → Prop
  | .absent, .absent => True
  | .none, .none => True
  | .buf s, .buf t => s.shape = t.shape
  | _, _ => False

/-- The networks have the same arguments and the same buffers. -/
def SameKeys (φ : ℕ → ℕ) (h : Heap S D V) (a : Net K N S D V X) (h' : Heap S D V) (b : Net K N S D V X) : Prop :=
  List.Forall₂ (fun e e' : K × Mod N S D V X => e.1 = e'.1 ∧ e.2.code = e'.2.code ∧ sig e.2.own = sig e'.2.own ∧
      e.2.shared = e'.2.shared.map (fun q => (q.1, φ q.2)) ∧ (∀ q ∈ e'.2.shared, (h (φ q.2)).shape = (h' q.2).shape) ∧
      AttrShape e.2.filter e'.2.filter ∧ AttrShape e.2.ebias e'.2.ebias) a b

theorem AttrShape.entry {a b : Attr S D V} (h : AttrShape a b) (k : Key N) : sig (a.entry k) = sig (b.entry k) := by
  cases a <;> cases b <;> simp_all [AttrShape, Attr.entry, sig]

theorem SameKeys.sig {φ : ℕ → ℕ} {h h' : Heap S D V} {a b : Net K N S D V X} (r : SameKeys φ h a h' b) : sig (stateDict h a) = sig (stateDict h' b) := by
  unfold SameKeys at r
  induction r with
  | nil => rfl
  | @cons e e' _ _ he _ ih =>
    obtain ⟨e1, -, e3, e4, e5, e6, e7⟩ := he
    have : Ckpt.sig (e.2.entries h) = Ckpt.sig (e'.2.entries h') := by
      have f1 : Ckpt.sig (e.2.own.map fun q => (Key.own q.1, q.2)) = Ckpt.sig (e'.2.own.map fun q => (Key.own q.1, q.2)) := by
        have := congrArg (List.map fun q : N × S => (Key.own q.1, q.2)) e3
        simpa [Ckpt.sig, Function.comp_def] using this
      have f2 : Ckpt.sig (e.2.shared.map fun q => (Key.shared q.1, h q.2)) = Ckpt.sig (e'.2.shared.map fun q => (Key.shared q.1, h' q.2)) := by
        rw [e4]
        simp only [Ckpt.sig, List.map_map]
        exact List.map_congr_left fun q hq => by simp [e5 q hq]
      have f3 := e6.entry (Key.filter (N := N))
      have f4 := e7.entry (Key.ebias (N := N))
      simp only [Mod.entries]
      simp only [Ckpt.sig, List.map_append] at f1 f2 f3 f4 ⊢
      rw [f1, f2, f3, f4]
    have g : Ckpt.sig ((e.2.entries h).map fun q => ((e.1, q.1), q.2)) = Ckpt.sig ((e'.2.entries h').map fun q => ((e'.1, q.1), q.2)) := by
      have := congrArg (List.map fun q : Key N × S => ((e.1, q.1), q.2)) this
      rw [e1] at this ⊢
      simpa [Ckpt.sig, Function.comp_def] using this
    simp only [stateDict, List.flatMap_cons]
    simp only [Ckpt.sig, List.map_append, stateDict] at g ih ⊢
    rw [g, ih]

theorem attr_keys (k : Key N) (a : Attr S D V) : (a.entry k).map Prod.fst = [] ∨ (a.entry k).map Prod.fst = [k] := by
  cases a <;> simp [Attr.entry]

theorem entries_nodup {h : Heap S D V} {m : Mod N S D V X} (i : ModInv m) : ((m.entries h).map Prod.fst).Nodup := by
  obtain ⟨-, h2, h3, -⟩ := i
  have f1 : ((m.own.map fun e => (Key.own e.1, e.2)).map Prod.fst) = (m.own.map Prod.fst).map Key.own := by simp [Function.comp_def]
  have f2 : ((m.shared.map fun e => (Key.shared e.1, h e.2)).map Prod.fst) = (m.shared.map Prod.fst).map Key.shared := by simp [Function.comp_def]
  have g1 : ((m.own.map Prod.fst).map Key.own).Nodup := h2.map fun _ _ h => by injection h
  have g2 : ((m.shared.map Prod.fst).map Key.shared).Nodup := h3.map fun _ _ h => by injection h
  simp only [Mod.entries, List.map_append, f1, f2]
  rcases attr_keys (Key.filter (N := N)) m.filter with e | e <;> rcases attr_keys (Key.ebias (N := N)) m.ebias with e' | e' <;> rw [e, e'] <;>
    simp [List.nodup_append, g1, g2] <;> aesop

theorem stateDict_nodup {h : Heap S D V} {net : Net K N S D V X} (hn : (net.map Prod.fst).Nodup) (hi : ∀ e ∈ net, ModInv e.2) : ((stateDict h net).map Prod.fst).Nodup := by
  induction net with
  | nil => exact List.nodup_nil
  | cons e r ih =>
    rw [List.map_cons, List.nodup_cons] at hn
    simp only [stateDict, List.flatMap_cons, List.map_append]
    rw [List.nodup_append]
    refine ⟨?_, ih hn.2 fun e he => hi e (List.mem_cons_of_mem _ he), ?_⟩
    · have := (entries_nodup (h := h) (hi e List.mem_cons_self)).map (f := fun k => (e.1, k)) fun _ _ h => (Prod.mk.inj h).2
      simpa [Function.comp_def] using this
    · intro a ha b hb hab
      subst hab
      simp only [List.mem_map, List.mem_flatMap] at ha hb
      obtain ⟨-, ⟨q, -, rfl⟩, rfl⟩ := ha
      obtain ⟨-, ⟨e', he', q', -, rfl⟩, hq⟩ := hb
      exact hn.1 (List.mem_map.2 ⟨e', he', (Prod.mk.inj hq).1⟩)

theorem mem_stateDict {h : Heap S D V} {net : Net K N S D V X} {e : K × Mod N S D V X} (he : e ∈ net) {q : Key N × Ten S D V} (hq : q ∈ e.2.entries h) :
    ((e.1, q.1), q.2) ∈ stateDict h net := List.mem_flatMap.2 ⟨e, he, List.mem_map.2 ⟨q, hq, rfl⟩⟩

theorem loadTen_of_lookup {sd : StateDict K N S D V} {k : K × Key N} {s t : Ten S D V} (h : sd.lookup k = some s) (hs : s.shape = t.shape) : (loadTen sd k t).val = s.val := by
  unfold loadTen
  rw [h]
  simp [hs, Ten.copy]

theorem loadOwn {sd : StateDict K N S D V} {c : K} {l l' : List (N × Ten S D V)} (h : sig l = sig l') (hl : ∀ e ∈ l, sd.lookup (c, .own e.1) = some e.2) :
    ownVals (l'.map fun e => (e.1, loadTen sd (c, .own e.1) e.2)) = ownVals l := by
  induction l generalizing l' with
  | nil => cases l' with
    | nil => rfl
    | cons _ _ => simp [sig] at h
  | cons e r ih =>
    cases l' with
    | nil => simp [sig] at h
    | cons e' r' =>
      simp only [sig, List.map_cons, List.cons.injEq, Prod.mk.injEq] at h
      obtain ⟨⟨h1, h2⟩, h3⟩ := h
      have := ih (l' := r') h3 fun e he => hl e (List.mem_cons_of_mem _ he)
      simp only [ownVals, List.map_cons, List.cons.injEq] at this ⊢
      refine ⟨?_, this⟩
      rw [← h1, loadTen_of_lookup (hl e List.mem_cons_self) h2]

theorem loadAttr {sd : StateDict K N S D V} {k : K × Key N} {a a' : Attr S D V} (h : AttrShape a a') (hl : ∀ t, a = .buf t → sd.lookup k = some t) : AttrRel a (a'.map (loadTen sd k)) := by
  cases a <;> cases a' <;> simp_all [AttrShape, AttrRel, Attr.map, loadTen, Ten.copy]

/-- The shared memory after loading. -/
theorem foldHeap_val {sd : StateDict K N S D V} {hs : Heap S D V} (φ : ℕ → ℕ) (L : List ((K × N) × ℕ)) (h : Heap S D V)
    (hL : ∀ e ∈ L, sd.lookup (e.1.1, .shared e.1.2) = some (hs (φ e.2)) ∧ (hs (φ e.2)).shape = (h e.2).shape) (a : ℕ) :
    (L.foldl (loadOne sd) h a).val = if a ∈ L.map Prod.snd then (hs (φ a)).val else (h a).val := by
  induction L generalizing h with
  | nil => simp
  | cons e r ih =>
    simp only [List.foldl_cons]
    have h0 := hL e List.mem_cons_self
    rw [ih _ ?_, loadOne]
    · by_cases ha : a = e.2
      · subst ha
        rw [Function.update_self, loadTen_of_lookup h0.1 h0.2]
        simp
      · rw [Function.update_of_ne ha]
        have : a ∈ (e :: r).map Prod.snd ↔ a ∈ r.map Prod.snd := by rw [List.map_cons, List.mem_cons]; tauto
        by_cases h1 : a ∈ r.map Prod.snd
        · rw [if_pos h1, if_pos (this.2 h1)]
        · rw [if_neg h1, if_neg fun h2 => h1 (this.1 h2)]
    · intro q hq
      obtain ⟨q1, q2⟩ := hL q (List.mem_cons_of_mem _ hq)
      refine ⟨q1, ?_⟩
      rw [loadOne]
      by_cases hqe : q.2 = e.2
      · rw [hqe, Function.update_self, loadTen_shape, ← hqe]; exact q2
      · rw [Function.update_of_ne hqe]; exact q2

/-- The numbers of the networks are the same, whatever their modes. -/
def NetSame0 (h : Heap S D V) (p : D) (a : Net K N S D V X) (h' : Heap S D V) (q : D) (b : Net K N S D V X) : Prop :=
  List.Forall₂ (fun e e' : K × Mod N S D V X => e.1 = e'.1 ∧ e.2.code = e'.2.code ∧ ownVals e.2.own = ownVals e'.2.own ∧ sharedVals h e.2.shared = sharedVals h' e'.2.shared ∧
    AttrRel e.2.filter e'.2.filter ∧ AttrRel e.2.ebias e'.2.ebias ∧ ModAt h p e.2 ∧ ModAt h' q e'.2 ∧ HasOwn e.2 ∧ HasOwn e'.2) a b

/-- Loading a checkpoint with the same keys makes the numbers the same; the modes may differ. -/
theorem load_same0 {φ : ℕ → ℕ} {hs h : Heap S D V} {a b : Net K N S D V X} (r : SameKeys φ hs a h b) (hn : ((stateDict hs a).map Prod.fst).Nodup)
    (ia : ∀ e ∈ a, ModInv e.2) (ib : ∀ e ∈ b, ModInv e.2) (p q : D) (pa : NetAt hs p a) (pb : NetAt h q b) :
    NetSame0 hs p a (loadHeap (stateDict hs a) h b) q (b.map fun e => (e.1, loadMod (stateDict hs a) e.1 e.2)) := by
  set sd := stateDict hs a with hsd
  have hsub : ∀ e ∈ a, ∀ q ∈ e.2.entries hs, sd.lookup (e.1, q.1) = some q.2 := fun e he q hq => lookup_of_mem hn (mem_stateDict he hq)
  have hL : ∀ e ∈ sharedOf b, sd.lookup (e.1.1, .shared e.1.2) = some (hs (φ e.2)) ∧ (hs (φ e.2)).shape = (h e.2).shape := by
    clear_value sd
    clear hn hsd pa pb ia ib
    unfold SameKeys at r
    induction r with
    | nil => intro e he; cases he
    | @cons e e' l l' he _ ih =>
      obtain ⟨e1, -, -, e4, e5, -, -⟩ := he
      intro x hx
      simp only [sharedOf, List.flatMap_cons, List.mem_append] at hx
      rcases hx with hx | hx
      · obtain ⟨y, hy, rfl⟩ := List.mem_map.1 hx
        refine ⟨?_, e5 y hy⟩
        have := hsub e List.mem_cons_self (Key.shared y.1, hs (φ y.2)) ?_
        · rw [← e1]; exact this
        · simp only [Mod.entries, List.mem_append, List.mem_map]
          refine .inl (.inl (.inr ⟨(y.1, φ y.2), ?_, rfl⟩))
          rw [e4]
          exact List.mem_map.2 ⟨y, hy, rfl⟩
      · exact ih (fun e he => hsub e (List.mem_cons_of_mem _ he)) x hx
  have hh : ∀ x, (loadHeap sd h b x).val = if x ∈ (sharedOf b).map Prod.snd then (hs (φ x)).val else (h x).val := foldHeap_val φ _ h hL
  have hp : ∀ x, (loadHeap sd h b x).place = (h x).place := fun x => (foldHeap_shape sd _ h x).2
  have hmem : ∀ e ∈ b, ∀ q ∈ e.2.shared, q.2 ∈ (sharedOf b).map Prod.snd := fun e he q hq =>
    List.mem_map.2 ⟨((e.1, q.1), q.2), List.mem_flatMap.2 ⟨e, he, List.mem_map.2 ⟨q, hq, rfl⟩⟩, rfl⟩
  clear hL
  clear_value sd
  generalize loadHeap sd h b = h' at *
  generalize (sharedOf b).map Prod.snd = B at *
  clear hn hsd
  unfold NetSame0 SameKeys at *
  induction r with
  | nil => exact .nil
  | @cons e e' l l' he _ ih =>
    obtain ⟨e1, e2, e3, e4, e5, e6, e7⟩ := he
    refine .cons ⟨e1, e2, ?_, ?_, ?_, ?_, pa e List.mem_cons_self, ⟨?_, ?_, ?_, ?_⟩, (ia e List.mem_cons_self).1, ?_⟩
      (ih (fun e he => ia e (List.mem_cons_of_mem _ he)) (fun e he => ib e (List.mem_cons_of_mem _ he)) (fun e he => pa e (List.mem_cons_of_mem _ he)) (fun e he => pb e (List.mem_cons_of_mem _ he))
        (fun e he => hsub e (List.mem_cons_of_mem _ he)) fun e he => hmem e (List.mem_cons_of_mem _ he))
    · refine (loadOwn e3 fun q hq => ?_).symm
      rw [← e1]
      exact hsub e List.mem_cons_self (Key.own q.1, q.2) (by simp only [Mod.entries, List.mem_append, List.mem_map]; exact .inl (.inl (.inl ⟨q, hq, rfl⟩)))
    · simp only [sharedVals, loadMod]
      rw [e4, List.map_map]
      refine List.map_congr_left fun q hq => ?_
      simp [hh, hmem e' List.mem_cons_self q hq]
    · refine loadAttr e6 fun t hft => ?_
      rw [← e1]
      exact hsub e List.mem_cons_self (Key.filter, t) (by simp [Mod.entries, hft, Attr.entry])
    · refine loadAttr e7 fun t hft => ?_
      rw [← e1]
      exact hsub e List.mem_cons_self (Key.ebias, t) (by simp [Mod.entries, hft, Attr.entry])
    · intro q hq
      obtain ⟨x, hx, rfl⟩ := List.mem_map.1 hq
      rw [loadTen_place]
      exact (pb e' List.mem_cons_self).1 x hx
    · intro q hq
      rw [hp]
      exact (pb e' List.mem_cons_self).2.1 q hq
    · intro t hft
      have := (pb e' List.mem_cons_self).2.2.1
      cases hf : e'.2.filter <;> simp only [loadMod, Attr.map, hf, reduceCtorEq, Attr.buf.injEq] at hft
      rw [← hft, loadTen_place]
      exact this _ hf
    · intro t hft
      have := (pb e' List.mem_cons_self).2.2.2
      cases hf : e'.2.ebias <;> simp only [loadMod, Attr.map, hf, reduceCtorEq, Attr.buf.injEq] at hft
      rw [← hft, loadTen_place]
      exact this _ hf
    · intro hc hn
      exact (ib e' List.mem_cons_self).1 hc (List.map_eq_nil_iff.1 hn)

/-- Loading a checkpoint with the same keys makes the numbers the same. -/
theorem load_same {φ : ℕ → ℕ} {hs h : Heap S D V} {a b : Net K N S D V X} (r : SameKeys φ hs a h b) (hn : ((stateDict hs a).map Prod.fst).Nodup)
    (ht : List.Forall₂ (fun e e' : K × Mod N S D V X => e.2.training = e'.2.training) a b) (ia : ∀ e ∈ a, ModInv e.2) (ib : ∀ e ∈ b, ModInv e.2) (p q : D) (pa : NetAt hs p a) (pb : NetAt h q b) :
    NetSame hs p a (loadHeap (stateDict hs a) h b) q (b.map fun e => (e.1, loadMod (stateDict hs a) e.1 e.2)) := by
  have h0 := load_same0 r hn ia ib p q pa pb
  have ht' : List.Forall₂ (fun e e' : K × Mod N S D V X => e.2.training = e'.2.training) a (b.map fun e => (e.1, loadMod (stateDict hs a) e.1 e.2)) := by
    rw [List.forall₂_map_right_iff]
    exact ht
  generalize loadHeap (stateDict hs a) h b = h' at *
  generalize b.map (fun e => (e.1, loadMod (stateDict hs a) e.1 e.2)) = b' at *
  clear r hn ht ia ib pa pb
  unfold NetSame0 at h0
  unfold NetSame
  induction h0 with
  | nil => exact .nil
  | cons e _ ih =>
    obtain ⟨e1, e2, e3, e4, e5, e6, e7⟩ := e
    cases ht' with
    | cons t1 t2 => exact .cons ⟨e1, ⟨e2, t1, e3, e4, e5, e6⟩, e7⟩ (ih t2)

end

end E2.Ckpt
