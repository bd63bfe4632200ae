import Verif.Props.Checkpoint

/-!
# C90: networks do not influence each other
-/

set_option linter.unusedSectionVars false

namespace E2
open Ckpt

variable {K N S D V X : Type} [DecidableEq K] [DecidableEq N] [DecidableEq S] [DecidableEq D]

namespace Ckpt

/-- The addresses of the shared tensors of a network. -/
def addrs (net : Net K N S D V X) : List ℕ := (sharedOf net).map Prod.snd

theorem step_nets_ne (w : World K N S D V X) {i j : ℕ} (h : j ≠ i) (o : Op K N S D V) : (step w i o).1.nets j = w.nets j := by
  cases o <;> simp [step, Function.update_of_ne h]

theorem foldHeap_ne (sd : StateDict K N S D V) (L : List ((K × N) × ℕ)) (h : Heap S D V) (a : ℕ) (ha : a ∉ L.map Prod.snd) : L.foldl (loadOne sd) h a = h a := by
  induction L generalizing h with
  | nil => rfl
  | cons e r ih =>
    rw [List.map_cons, List.mem_cons, not_or] at ha
    rw [List.foldl_cons, ih _ ha.2, loadOne, Function.update_of_ne ha.1]

theorem step_heap_ne (w : World K N S D V X) (i a : ℕ) (ha : a ∉ addrs (w.nets i)) (o : Op K N S D V) : (step w i o).1.heap a = w.heap a := by
  cases o with
  | train => rfl
  | eval => rfl
  | assign vs => rfl
  | move p => exact if_neg ha
  | load sd => exact foldHeap_ne sd _ _ _ ha

/-- The heap is read at the addresses of the network only. -/
theorem expand_congr {h h' : Heap S D V} {m : Mod N S D V X} (hh : ∀ q ∈ m.shared, h q.2 = h' q.2) : m.expandParameters h = m.expandParameters h' ∧ (∀ p, m.tensorsAt h p = m.tensorsAt h' p) ∧
    sharedVals h m.shared = sharedVals h' m.shared := by
  have h1 : sharedVals h m.shared = sharedVals h' m.shared := List.map_congr_left fun q hq => by rw [hh q hq]
  have h2 : ∀ p, m.tensorsAt h p = m.tensorsAt h' p := by
    intro p
    unfold Mod.tensorsAt
    congr 1
    rw [Bool.eq_iff_iff, List.all_eq_true, List.all_eq_true]
    exact forall₂_congr fun q hq => by rw [hh q hq]
  refine ⟨?_, h2, h1⟩
  unfold Mod.expandParameters
  split
  · rfl
  · rw [h2, h1]

theorem setModeNet_congr {h h' : Heap S D V} (mode : Bool) {net : Net K N S D V X} (hh : ∀ e ∈ net, ∀ q ∈ e.2.shared, h q.2 = h' q.2) : setModeNet h mode net = setModeNet h' mode net := by
  induction net with
  | nil => rfl
  | cons e r ih =>
    have : e.2.setMode h mode = e.2.setMode h' mode := by
      unfold Mod.setMode
      rw [(expand_congr (hh e List.mem_cons_self)).1]
    simp only [setModeNet, this]
    rw [ih fun e he => hh e (List.mem_cons_of_mem _ he)]

theorem netForward_congr {h h' : Heap S D V} (p : D) {net : Net K N S D V X} (hh : ∀ e ∈ net, ∀ q ∈ e.2.shared, h q.2 = h' q.2) (x : X) : netForward h p net x = netForward h' p net x := by
  induction net generalizing x with
  | nil => rfl
  | cons e r ih =>
    obtain ⟨-, h2, h3⟩ := expand_congr (hh e List.mem_cons_self)
    have : e.2.forward h p x = e.2.forward h' p x := by
      unfold Mod.forward Mod.placed Mod.compute
      rw [h2, h3]
    simp only [netForward, this]
    congr 1
    funext y
    exact ih (fun e he => hh e (List.mem_cons_of_mem _ he)) y

theorem mem_addrs {net : Net K N S D V X} {e : K × Mod N S D V X} (he : e ∈ net) {q : N × ℕ} (hq : q ∈ e.2.shared) : q.2 ∈ addrs net :=
  List.mem_map.2 ⟨((e.1, q.1), q.2), List.mem_flatMap.2 ⟨e, he, List.mem_map.2 ⟨q, hq, rfl⟩⟩, rfl⟩

/-- Two processes look the same from network `j`. -/
def View (j : ℕ) (w w' : World K N S D V X) : Prop := w.nets j = w'.nets j ∧ ∀ a ∈ addrs (w.nets j), w.heap a = w'.heap a

theorem View.shared {j : ℕ} {w w' : World K N S D V X} (v : View j w w') : ∀ e ∈ w.nets j, ∀ q ∈ e.2.shared, w.heap q.2 = w'.heap q.2 := fun _ he _ hq => v.2 _ (mem_addrs he hq)

theorem foldHeap_congr (sd : StateDict K N S D V) (L : List ((K × N) × ℕ)) {h h' : Heap S D V} {A : List ℕ} (hh : ∀ a ∈ A, h a = h' a) (hL : ∀ e ∈ L, e.2 ∈ A) :
    ∀ a ∈ A, L.foldl (loadOne sd) h a = L.foldl (loadOne sd) h' a := by
  induction L generalizing h h' with
  | nil => exact hh
  | cons e r ih =>
    refine ih (fun a ha => ?_) fun e he => hL e (List.mem_cons_of_mem _ he)
    unfold loadOne
    by_cases hae : a = e.2
    · rw [hae, Function.update_self, Function.update_self, hh _ (hL e List.mem_cons_self)]
    · rw [Function.update_of_ne hae, Function.update_of_ne hae, hh a ha]

theorem View.step {j : ℕ} {w w' : World K N S D V X} (hi : WInv w) (v : View j w w') (o : Op K N S D V) : View j (Ckpt.step w j o).1 (Ckpt.step w' j o).1 := by
  have hk := (step_kept hi j o).2.1 j
  have ha : addrs ((Ckpt.step w j o).1.nets j) = addrs (w.nets j) := by rw [addrs, ← hk.sharedOf, addrs]
  refine ⟨?_, ?_⟩
  · cases o with
    | train => simp only [Ckpt.step, Function.update_self]; rw [setModeNet_congr true v.shared, v.1]
    | eval => simp only [Ckpt.step, Function.update_self]; rw [setModeNet_congr false v.shared, v.1]
    | assign vs => simp only [Ckpt.step, Function.update_self]; rw [v.1]
    | move p => simp only [Ckpt.step, Function.update_self]; rw [v.1]
    | load sd => simp only [Ckpt.step, Function.update_self]; rw [v.1]
  · rw [ha]
    cases o with
    | train => exact v.2
    | eval => exact v.2
    | assign vs => exact v.2
    | move p =>
      intro a h
      have h' : a ∈ addrs (w'.nets j) := v.1 ▸ h
      show (if a ∈ addrs (w.nets j) then _ else _) = (if a ∈ addrs (w'.nets j) then _ else _)
      rw [if_pos h, if_pos h', v.2 a h]
    | load sd =>
      intro a h
      show (sharedOf (w.nets j)).foldl (loadOne sd) w.heap a = (sharedOf (w'.nets j)).foldl (loadOne sd) w'.heap a
      rw [← v.1]
      exact foldHeap_congr sd _ v.2 (fun e he => List.mem_map.2 ⟨e, he, rfl⟩) a h

end Ckpt

/-- **C90, recomputed bases**: if network `j` shares no memory with the others, then whatever is done to the others, its state and its outputs are as if nothing had been done to them. -/
theorem c90_disjoint_partial {w : World K N S D V X} (hw : ∀ i, FreshNet (w.nets i)) (j : ℕ) (hd : ∀ i, i ≠ j → ∀ a ∈ addrs (w.nets i), a ∉ addrs (w.nets j)) (ops : List (ℕ × Op K N S D V)) :
    (run w ops).nets j = (run w (ops.filter fun o => o.1 = j)).nets j ∧
    ∀ calls p x, after (run w ops) j calls p x = after (run w (ops.filter fun o => o.1 = j)) j calls p x := by
  have key : ∀ (ops : List (ℕ × Op K N S D V)) (v v' : World K N S D V X), WInv v → WInv v' → View j v v' → (∀ i, i ≠ j → ∀ a ∈ addrs (v.nets i), a ∉ addrs (v.nets j)) →
      View j (run v ops) (run v' (ops.filter fun o => o.1 = j)) ∧ WInv (run v ops) ∧ WInv (run v' (ops.filter fun o => o.1 = j)) := by
    intro ops
    induction ops with
    | nil => intro v v' i1 i2 h _; exact ⟨h, i1, i2⟩
    | cons o r ih =>
      intro v v' i1 i2 h hd
      have hk := (step_kept i1 o.1 o.2).2.1
      have hd' : ∀ i, i ≠ j → ∀ a ∈ addrs ((step v o.1 o.2).1.nets i), a ∉ addrs ((step v o.1 o.2).1.nets j) := by
        intro i hij a ha
        rw [addrs, ← (hk i).sharedOf] at ha
        rw [addrs, ← (hk j).sharedOf]
        exact hd i hij a ha
      by_cases ho : o.1 = j
      · rw [List.filter_cons_of_pos (by simpa using ho)]
        have := h.step i1 o.2
        rw [← ho] at this
        exact ih _ _ (step_kept i1 o.1 o.2).1 (step_kept i2 o.1 o.2).1 (by rw [← ho]; exact this) hd'
      · rw [List.filter_cons_of_neg (by simpa using ho)]
        refine ih _ _ (step_kept i1 o.1 o.2).1 i2 ⟨(step_nets_ne v (Ne.symm ho) o.2).trans h.1, ?_⟩ hd'
        rw [step_nets_ne v (Ne.symm ho) o.2]
        intro a ha
        rw [step_heap_ne v o.1 a (fun h1 => hd o.1 ho a h1 ha) o.2]
        exact h.2 a ha
  obtain ⟨h, i1, i2⟩ := key ops w w (fresh_inv hw) (fresh_inv hw) ⟨rfl, fun _ _ => rfl⟩ hd
  refine ⟨h.1, fun calls p x => ?_⟩
  generalize run w ops = v at *
  generalize run w (ops.filter fun o => o.1 = j) = v' at *
  induction calls generalizing v v' with
  | nil =>
    show netForward v.heap p (v.nets j) x = netForward v'.heap p (v'.nets j) x
    rw [netForward_congr p h.shared, h.1]
  | cons c cs ih => exact ih _ (step_kept i1 j c.op).1 _ (step_kept i2 j c.op).1 (h.step i1 c.op)

/-- **C90, modes and parameters**: `train`, `eval` and assignments to the parameters and statistics of one network change nothing of another one, also if they share bases. -/
theorem c90_calls_partial (w : World K N S D V X) {i j : ℕ} (h : j ≠ i) (calls : List (Call K N V)) :
    (run w (calls.map fun c => (i, c.op))).nets j = w.nets j ∧ (run w (calls.map fun c => (i, c.op))).heap = w.heap := by
  induction calls generalizing w with
  | nil => exact ⟨rfl, rfl⟩
  | cons c cs ih =>
    obtain ⟨h1, h2⟩ := ih (step w i c.op).1
    have h3 : (step w i c.op).1.heap = w.heap := by cases c <;> rfl
    exact ⟨h1.trans (step_nets_ne w h _), h2.trans h3⟩

/-- **C90, evaluation mode**: whatever is done to other networks, moving and loading included, the outputs of a network in evaluation mode stay the same. -/
theorem c90_eval_partial {w : World K N S D V X} (hw : ∀ i, FreshNet (w.nets i)) (ops ops' : List (ℕ × Op K N S D V)) (j : ℕ) (ho : ∀ o ∈ ops', o.1 ≠ j) (ht : EvalMode ((run w ops).nets j)) (p : D) (x : X) :
    after (run (run w ops) ops') j [] p x = after (run w ops) j [] p x := by
  have hn : (run (run w ops) ops').nets j = (run w ops).nets j := by
    generalize run w ops = v
    induction ops' generalizing v with
    | nil => rfl
    | cons o r ih =>
      exact (ih (fun o ho' => ho o (List.mem_cons_of_mem _ ho')) _).trans (step_nets_ne v (Ne.symm (ho o List.mem_cons_self)) o.2)
  show netForward (run (run w ops) ops').heap p ((run (run w ops) ops').nets j) x = netForward (run w ops).heap p ((run w ops).nets j) x
  rw [hn]
  have hi := (run_kept (fresh_inv hw) ops).1 j
  generalize (run w ops).nets j = net at *
  generalize (run (run w ops) ops').heap = h'
  generalize (run w ops).heap = h
  clear hn
  induction net generalizing x with
  | nil => rfl
  | cons e r ih =>
    have t := ht e List.mem_cons_self
    have : e.2.forward h' p x = e.2.forward h p x := by
      unfold Mod.forward Mod.placed Mod.compute
      by_cases hc : e.2.code.conv = true
      · simp only [hc, t]; rfl
      · have hs := (hi e List.mem_cons_self).2.2.2
        rw [if_neg hc] at hs
        simp only [hc, Mod.tensorsAt, hs.1]
        rfl
    simp only [netForward, this]
    congr 1
    funext y
    exact ih y (fun e he => ht e (List.mem_cons_of_mem _ he)) fun e he => hi e (List.mem_cons_of_mem _ he)

/-- **C90 fails for `to`**: if network `j` has a convolution in training mode which shares a basis with network `i`, and `i` is moved to another device or data type, then network `j` refuses all inputs where it is, and `eval()` of that convolution raises. -/
theorem c90_move_false (w : World K N S D V X) {i j : ℕ} (hij : j ≠ i) {p q : D} (hpq : q ≠ p) {e : K × Mod N S D V X} (he : e ∈ w.nets j) (hc : e.2.code.conv = true) (ht : e.2.training = true)
    (hp : ∀ t ∈ e.2.own, t.2.place = p) {n : N} {a : ℕ} (ha : (n, a) ∈ e.2.shared) (hs : a ∈ addrs (w.nets i)) :
    (∀ x, after (step w i (.move q)).1 j [] p x = none) ∧ e.2.setMode (step w i (.move q)).1.heap false = none ∧ (step (step w i (.move q)).1 j .eval).2 = false := by
  have hn := step_nets_ne w hij (.move q)
  have hh : ((step w i (.move q)).1.heap a).place = q := by
    show (if a ∈ addrs (w.nets i) then ({ w.heap a with place := q } : Ten S D V) else w.heap a).place = q
    rw [if_pos hs]
  have hb : ∀ r, r ≠ q → e.2.tensorsAt (step w i (.move q)).1.heap r = false := by
    intro r hr
    rw [Bool.eq_false_iff]
    intro h
    rw [Mod.tensorsAt, Bool.and_eq_true, List.all_eq_true, List.all_eq_true] at h
    have := h.2 _ ha
    rw [decide_eq_true_eq] at this
    exact hr (this.symm.trans hh)
  have hse : e.2.setMode (step w i (.move q)).1.heap false = none := by
    unfold Mod.setMode Mod.expandParameters
    simp only [hc, ht]
    cases ho : e.2.own.head? with
    | none => rfl
    | some t =>
      have := hp t (List.mem_of_mem_head? ho)
      simp only [this, hb p (Ne.symm hpq)]
      rfl
  refine ⟨fun x => ?_, hse, ?_⟩
  · show netForward (step w i (.move q)).1.heap p ((step w i (.move q)).1.nets j) x = none
    rw [hn]
    have hf : ∀ x, e.2.forward (step w i (.move q)).1.heap p x = none := by
      intro x
      unfold Mod.forward Mod.placed
      simp only [hc, ht, hb p (Ne.symm hpq)]
      rfl
    generalize w.nets j = net at he
    clear hn
    induction net generalizing x with
    | nil => cases he
    | cons e' r ih =>
      rcases List.mem_cons.1 he with rfl | he
      · simp only [netForward, hf]; rfl
      · simp only [netForward]
        cases e'.2.forward (step w i (.move q)).1.heap p x with
        | none => rfl
        | some y => exact ih y he
  · show (setModeNet (step w i (.move q)).1.heap false ((step w i (.move q)).1.nets j)).2 = false
    rw [hn]
    generalize w.nets j = net at he
    clear hn
    induction net with
    | nil => cases he
    | cons e' r ih =>
      rcases List.mem_cons.1 he with rfl | he
      · simp only [setModeNet, hse]
      · simp only [setModeNet]
        cases e'.2.setMode (step w i (.move q)).1.heap false with
        | none => rfl
        | some y => exact ih he

/-! ### Which memory is shared -/

namespace Ckpt
variable {Q : Type} [DecidableEq Q]

theorem build_recompute (stored : List (Q × ℕ)) (free : ℕ) (qs : List Q) : buildBlocks true stored free qs = (List.range' free qs.length, stored, free + qs.length) := by
  induction qs generalizing free with
  | nil => rfl
  | cons q r ih => simp [buildBlocks, ih, List.range'_succ]; omega

theorem lookup_append_some {A B : Type} [BEq A] {l l' : List (A × B)} {k : A} {b : B} (h : l.lookup k = some b) : (l ++ l').lookup k = some b := by
  induction l with
  | nil => cases h
  | cons e r ih =>
    obtain ⟨e1, e2⟩ := e
    rw [List.cons_append, List.lookup_cons] at *
    cases hk : k == e1 with
    | true => rw [hk] at h; exact h
    | false => rw [hk] at h; exact ih h

theorem lookup_append_none {A B : Type} [BEq A] [LawfulBEq A] {l : List (A × B)} {k : A} {b : B} (h : l.lookup k = none) : (l ++ [(k, b)]).lookup k = some b := by
  induction l with
  | nil => simp [List.lookup]
  | cons e r ih =>
    obtain ⟨e1, e2⟩ := e
    rw [List.cons_append, List.lookup_cons] at *
    cases hk : k == e1 with
    | true => rw [hk] at h; cases h
    | false => rw [hk] at h; exact ih h

theorem build_stored (stored : List (Q × ℕ)) (free : ℕ) (qs : List Q) :
    (∀ k a, stored.lookup k = some a → (buildBlocks false stored free qs).2.1.lookup k = some a) ∧
    qs.map (fun q => (buildBlocks false stored free qs).2.1.lookup q) = (buildBlocks false stored free qs).1.map some := by
  induction qs generalizing stored free with
  | nil => exact ⟨fun _ _ h => h, rfl⟩
  | cons q r ih =>
    cases hq : stored.lookup q with
    | some a =>
      have e : buildBlocks false stored free (q :: r) = (a :: (buildBlocks false stored free r).1, (buildBlocks false stored free r).2) := by
        simp [buildBlocks, hq]
      rw [e]
      obtain ⟨h1, h2⟩ := ih stored free
      refine ⟨h1, ?_⟩
      simp only [List.map_cons]
      rw [h1 q a hq, h2]
    | none =>
      have e : buildBlocks false stored free (q :: r) = (free :: (buildBlocks false (stored ++ [(q, free)]) (free + 1) r).1, (buildBlocks false (stored ++ [(q, free)]) (free + 1) r).2) := by
        simp [buildBlocks, hq]
      rw [e]
      obtain ⟨h1, h2⟩ := ih (stored ++ [(q, free)]) (free + 1)
      refine ⟨fun k a hk => h1 k a (lookup_append_some hk), ?_⟩
      simp only [List.map_cons]
      rw [h1 q free (lookup_append_none hq), h2]

end Ckpt

/-- **C90, `recompute=True`**: every block gets an address which no block built before has. -/
theorem c90_recompute {Q : Type} [DecidableEq Q] (stored : List (Q × ℕ)) (free : ℕ) (qs : List Q) :
    (buildBlocks true stored free qs).1.Nodup ∧ (∀ a ∈ (buildBlocks true stored free qs).1, free ≤ a ∧ a < (buildBlocks true stored free qs).2.2) ∧ (buildBlocks true stored free qs).2.1 = stored := by
  rw [build_recompute]
  refine ⟨List.nodup_range', fun a ha => ?_, rfl⟩
  rw [List.mem_range'_1] at ha
  exact ha

/-- **C90, the default**: blocks of two networks with the same basis, mask and points are the same object, whatever was built between. -/
theorem c90_shared {Q : Type} [DecidableEq Q] (stored : List (Q × ℕ)) (free free' : ℕ) (qs between qs' : List Q) (q : Q) {i j : ℕ} (hi : qs[i]? = some q) (hj : qs'[j]? = some q) :
    let first := buildBlocks false stored free qs
    let second := buildBlocks false first.2.1 free' between
    let third := buildBlocks false second.2.1 second.2.2 qs'
    first.1[i]? = third.1[j]? ∧ first.1[i]?.isSome = true := by
  intro first second third
  have h1 := (build_stored stored free qs).2
  have h2 := (build_stored first.2.1 free' between).1
  obtain ⟨h3, h4⟩ := build_stored second.2.1 second.2.2 qs'
  have e1 := congrArg (fun l => l[i]?) h1
  have e4 := congrArg (fun l => l[j]?) h4
  simp only [List.getElem?_map, hi, hj, Option.map_some] at e1 e4
  cases ha : first.1[i]? with
  | none => rw [show (buildBlocks false stored free qs).1[i]? = none from ha] at e1; cases e1
  | some a =>
    rw [show (buildBlocks false stored free qs).1[i]? = some a from ha] at e1
    have e2 : first.2.1.lookup q = some a := Option.some.inj e1
    have e3 := h3 q a (h2 q a e2)
    rw [e3] at e4
    refine ⟨?_, rfl⟩
    cases hb : third.1[j]? with
    | none => rw [show (buildBlocks false second.2.1 second.2.2 qs').1[j]? = none from hb] at e4; cases e4
    | some b =>
      rw [show (buildBlocks false second.2.1 second.2.2 qs').1[j]? = some b from hb] at e4
      exact Option.some.inj e4

/-! ### Checkpoints of the same process -/

/-- The operations move nothing, and the dictionaries which are loaded contain the bases which are there. -/
def Harmless (w : World K N S D V X) (o : ℕ × Op K N S D V) : Prop :=
  match o.2 with
  | .move _ => False
  | .load sd => ∀ e ∈ sharedOf (w.nets o.1), ∀ s, sd.lookup (e.1.1, .shared e.1.2) = some s → s.val = (w.heap e.2).val
  | _ => True

namespace Ckpt

theorem foldHeap_id (sd : StateDict K N S D V) (L : List ((K × N) × ℕ)) (h : Heap S D V) (hL : ∀ e ∈ L, ∀ s, sd.lookup (e.1.1, .shared e.1.2) = some s → s.val = (h e.2).val) :
    L.foldl (loadOne sd) h = h := by
  induction L generalizing h with
  | nil => rfl
  | cons e r ih =>
    have : loadOne sd h e = h := by
      unfold loadOne
      have : loadTen sd (e.1.1, .shared e.1.2) (h e.2) = h e.2 := by
        unfold loadTen
        split
        · rfl
        · rename_i s hs
          have hv := hL e List.mem_cons_self s hs
          split
          · rw [Ten.copy, hv]
          · rfl
      rw [this, Function.update_eq_self]
    rw [List.foldl_cons, this]
    exact ih h fun e he => hL e (List.mem_cons_of_mem _ he)

end Ckpt

/-- **C90, checkpoints**: with shared bases too, the networks are independent as long as nothing is moved and the dictionaries which are loaded contain the same bases. -/
theorem c90_harmless_partial {w : World K N S D V X} (hw : ∀ i, FreshNet (w.nets i)) (j : ℕ) (ops : List (ℕ × Op K N S D V)) (ho : ∀ o ∈ ops, Harmless w o) :
    (run w ops).heap = w.heap ∧ (run w ops).nets j = (run w (ops.filter fun o => o.1 = j)).nets j ∧
    ∀ calls p x, after (run w ops) j calls p x = after (run w (ops.filter fun o => o.1 = j)) j calls p x := by
  have hstep : ∀ (v : World K N S D V X), v.heap = w.heap → (∀ i, sharedOf (v.nets i) = sharedOf (w.nets i)) → ∀ o, Harmless w o → (step v o.1 o.2).1.heap = w.heap := by
    intro v h1 h2 o ho
    obtain ⟨i, o⟩ := o
    cases o with
    | train => exact h1
    | eval => exact h1
    | assign vs => exact h1
    | move p => exact ho.elim
    | load sd =>
      show (sharedOf (v.nets i)).foldl (loadOne sd) v.heap = w.heap
      rw [h2, h1]
      exact foldHeap_id sd _ _ ho
  have key : ∀ (ops : List (ℕ × Op K N S D V)) (v v' : World K N S D V X), (∀ o ∈ ops, Harmless w o) → WInv v → WInv v' → v.heap = w.heap → v'.heap = w.heap →
      (∀ i, sharedOf (v.nets i) = sharedOf (w.nets i)) → (∀ i, sharedOf (v'.nets i) = sharedOf (w.nets i)) → v.nets j = v'.nets j →
      (run v ops).heap = w.heap ∧ (run v' (ops.filter fun o => o.1 = j)).heap = w.heap ∧ (run v ops).nets j = (run v' (ops.filter fun o => o.1 = j)).nets j := by
    intro ops
    induction ops with
    | nil => intro v v' _ _ _ a b _ _ c; exact ⟨a, b, c⟩
    | cons o r ih =>
      intro v v' ho i1 i2 a b c d e
      obtain ⟨k1, k2, -⟩ := step_kept i1 o.1 o.2
      obtain ⟨l1, l2, -⟩ := step_kept i2 o.1 o.2
      have ho1 := ho o List.mem_cons_self
      have ho2 := fun x hx => ho x (List.mem_cons_of_mem _ hx)
      have c' : ∀ i, sharedOf ((step v o.1 o.2).1.nets i) = sharedOf (w.nets i) := fun i => (k2 i).sharedOf.symm.trans (c i)
      by_cases hj : o.1 = j
      · rw [List.filter_cons_of_pos (by simpa using hj)]
        have hv : View j v v' := ⟨e, fun x _ => by rw [a, b]⟩
        have := (hv.step i1 o.2).1
        rw [← hj] at this
        exact ih _ _ ho2 k1 l1 (hstep v a c o ho1) (hstep v' b d o ho1) c' (fun i => (l2 i).sharedOf.symm.trans (d i)) (by rw [← hj]; exact this)
      · rw [List.filter_cons_of_neg (by simpa using hj)]
        exact ih _ _ ho2 k1 i2 (hstep v a c o ho1) b c' d ((step_nets_ne v (Ne.symm hj) o.2).trans e)
  obtain ⟨h1, h2, h3⟩ := key ops w w ho (fresh_inv hw) (fresh_inv hw) rfl rfl (fun _ => rfl) (fun _ => rfl) rfl
  refine ⟨h1, h3, fun calls p x => ?_⟩
  have i1 := (run_kept (fresh_inv hw) ops).1
  have v : View j (run w ops) (run w (ops.filter fun o => o.1 = j)) := ⟨h3, fun _ _ => by rw [h1, h2]⟩
  generalize run w ops = s at *
  generalize run w (ops.filter fun o => o.1 = j) = s' at *
  clear h1 h2 h3
  induction calls generalizing s s' with
  | nil =>
    show netForward s.heap p (s.nets j) x = netForward s'.heap p (s'.nets j) x
    rw [netForward_congr p v.shared, v.1]
  | cons c cs ih => exact ih _ (step_kept i1 j c.op).1 _ (v.step i1 c.op)

/-- **C90 fails for `load_state_dict`**: loading a dictionary with another basis into one network changes the outputs of another one. -/
theorem c90_load_false : ∃ (w : World ℕ ℕ ℕ Bool Int Int) (sd : StateDict ℕ ℕ ℕ Bool Int), (∀ i, FreshNet (w.nets i)) ∧ (step w 0 (.load sd)).2 = true ∧
    after w 1 [] false 1 = some 15 ∧ after (step w 0 (.load sd)).1 1 [] false 1 = some 20 :=
  ⟨exWorld, [((0, .own 0), ⟨1, false, 5⟩), ((0, .shared 0), ⟨1, false, 4⟩), ((0, .filter), ⟨1, false, 0⟩)], exWorld_fresh, rfl, rfl, rfl⟩

/-! ### Concrete networks -/

/-- `c90_move_false` applies to two networks which share a basis: before, the second network gives an output, and after the first one has been moved it raises. -/
example : after exWorld 1 [] false 1 = some 15 ∧ (∀ x, after (step exWorld 0 (.move true)).1 1 [] false x = none) ∧ (step (step exWorld 0 (.move true)).1 1 .eval).2 = false := by
  obtain ⟨h1, -, h2⟩ := c90_move_false exWorld (i := 0) (j := 1) (by omega) (p := false) (q := true) (by simp) (e := (0, exMod)) List.mem_cons_self rfl rfl
    (by intro t ht; obtain rfl := List.mem_singleton.1 ht; rfl) (n := 0) (a := 0) List.mem_cons_self (by simp [addrs, sharedOf, exWorld, exMod])
  exact ⟨rfl, h1, h2⟩

/-- In evaluation mode the second network is not affected (`c90_eval_partial`). -/
example (x : Int) : after (run (run exWorld [(1, .eval)]) [(0, .move true)]) 1 [] false x = some (5 * 3 * x + 0) :=
  (c90_eval_partial exWorld_fresh [(1, .eval)] [(0, .move true)] 1 (by simp) (by intro e he; obtain rfl := List.mem_singleton.1 he; rfl) false x).trans rfl

/-- `c90_disjoint_partial` applies when the second network has its own basis. -/
example (ops : List (ℕ × Op ℕ ℕ ℕ Bool Int)) (hops : ∀ o ∈ ops, o.1 ≠ 1) (x : Int) :
    let w : World ℕ ℕ ℕ Bool Int Int := ⟨fun _ => ⟨1, false, 3⟩, fun i => [(0, { exMod with shared := [(0, i)] })]⟩
    after (run w ops) 1 [] false x = some (5 * 3 * x + 0) := by
  intro w
  have hw : ∀ i, FreshNet (w.nets i) := by
    intro i
    refine ⟨by simp [w], fun e he => ?_⟩
    obtain rfl : e = (0, { exMod with shared := [(0, i)] }) := by simpa [w] using he
    exact ⟨rfl, by simp [exMod], by simp, by simp [exMod, exCode]⟩
  have := (c90_disjoint_partial hw 1 (by intro i hi a ha hb; simp [addrs, sharedOf, w] at ha hb; omega) ops).2 [] false x
  rw [this, List.filter_eq_nil_iff.2 (by simpa using hops)]
  rfl

/-- `c90_harmless_partial` applies to the checkpoint of a network of the same process. -/
example : Harmless exWorld (1, .load (stateDict (run exWorld [(0, .assign fun _ => [(0, 7)]), (0, .eval)]).heap ((run exWorld [(0, .assign fun _ => [(0, 7)]), (0, .eval)]).nets 0))) := by
  intro e he s hs
  obtain rfl : e = ((0, 0), 0) := by simpa [sharedOf, exWorld, exMod] using he
  obtain rfl : (⟨1, false, 3⟩ : Ten ℕ Bool Int) = s := Option.some.inj hs
  rfl

/-- Two networks with the keys `[5, 7]` and `[7, 8]`: the block with key 7 is one object, or with `recompute=True` two. -/
example : (buildBlocks false [] 0 [5, 7]).1 = [0, 1] ∧ (buildBlocks false [(5, 0), (7, 1)] 2 [7, 8]).1 = [1, 2] ∧ (buildBlocks true [(5, 0), (7, 1)] 2 [7, 8]).1 = [2, 3] := ⟨rfl, rfl, rfl⟩

end E2
