import Verif.Lemmas.CheckpointLoad

/-!
# C89: a checkpoint saved in evaluation mode is restored
-/

set_option linter.unusedSectionVars false

namespace E2
open Ckpt

variable {K N S D V X : Type} [DecidableEq K] [DecidableEq N] [DecidableEq S] [DecidableEq D]

namespace Ckpt

theorem FreshNet.nodup_run {w : World K N S D V X} (hw : ∀ i, FreshNet (w.nets i)) (ops : List (ℕ × Op K N S D V)) (i : ℕ) :
    (((run w ops).nets i).map Prod.fst).Nodup := by
  rw [← ((run_kept (fresh_inv hw) ops).2.1 i).names]
  exact (hw i).1

/-- The buffers of two convolutions in the same mode after `train` or `eval`. -/
theorem sameKeys_of {h h0 h' h0' : Heap S D V} {a0 a b0 b : Net K N S D V X} (sa : SameArgs h0 a0 h0' b0) (ka : Kept a0 a) (kb : Kept b0 b) (hh : ∀ x, (h x).shape = (h0 x).shape)
    (hh' : ∀ x, (h' x).shape = (h0' x).shape) (ia : ∀ e ∈ a, ModInv e.2) (ib : ∀ e ∈ b, ModInv e.2)
    (ht : (EvalMode a ∧ EvalMode b) ∨ ((∀ e ∈ a, e.2.training = true ∧ (e.2.code.conv = true → e.2.filter = .absent ∧ e.2.ebias = .absent)) ∧
      ∀ e ∈ b, e.2.training = true ∧ (e.2.code.conv = true → e.2.filter = .absent ∧ e.2.ebias = .absent))) :
    (∃ φ, SameKeys φ h a h' b) ∧ List.Forall₂ (fun e e' : K × Mod N S D V X => e.2.training = e'.2.training) a b := by
  obtain ⟨φ, sa⟩ := sa
  suffices hk : List.Forall₂ (fun e e' : K × Mod N S D V X => (e.1 = e'.1 ∧ e.2.code = e'.2.code ∧ sig e.2.own = sig e'.2.own ∧
      e.2.shared = e'.2.shared.map (fun q => (q.1, φ q.2)) ∧ (∀ q ∈ e'.2.shared, (h (φ q.2)).shape = (h' q.2).shape) ∧
      AttrShape e.2.filter e'.2.filter ∧ AttrShape e.2.ebias e'.2.ebias) ∧ e.2.training = e'.2.training) a b from
    ⟨⟨φ, hk.imp fun _ _ h => h.1⟩, hk.imp fun _ _ h => h.2⟩
  induction sa generalizing a b with
  | nil => cases ka; cases kb; exact .nil
  | @cons e0 e0' _ _ he _ ih =>
    cases ka with
    | @cons _ e _ _ ka1 ka2 =>
    cases kb with
    | @cons _ e' _ _ kb1 kb2 =>
    obtain ⟨s1, s2, s3, s4, s5⟩ := he
    obtain ⟨a1, a2, a3, a4⟩ := ka1
    obtain ⟨b1, b2, b3, b4⟩ := kb1
    refine .cons ⟨⟨a1.symm.trans (s1.trans b1), a2.symm.trans (s2.trans b2), a3.symm.trans (s3.trans b3), ?_, ?_, ?_⟩, ?_⟩ (ih ka2 kb2 (fun e he => ia e (List.mem_cons_of_mem _ he))
      (fun e he => ib e (List.mem_cons_of_mem _ he)) ?_)
    · rw [← a4, ← b4]; exact s4
    · rw [← b4]
      intro q hq
      rw [hh, hh']
      exact s5 q hq
    · have hc : e.2.code = e'.2.code := a2.symm.trans (s2.trans b2)
      have i1 := (ia e List.mem_cons_self).2.2.2
      have i2 := (ib e' List.mem_cons_self).2.2.2
      by_cases hcv : e.2.code.conv = true
      · have hcv' : e'.2.code.conv = true := hc ▸ hcv
        rw [if_pos hcv] at i1
        rw [if_pos hcv'] at i2
        rcases ht with ht | ht
        · have t1 := ht.1 e List.mem_cons_self
          have t2 := ht.2 e' List.mem_cons_self
          rw [if_neg (by simp [t1])] at i1
          rw [if_neg (by simp [t2])] at i2
          obtain ⟨⟨z, z1, z2⟩, z3⟩ := i1
          obtain ⟨⟨y, y1, y2⟩, y3⟩ := i2
          refine ⟨by rw [z1, y1]; exact z2.trans ((congrArg _ hc).trans y2.symm), ?_⟩
          by_cases hb : e.2.code.hasBias = true
          · rw [if_pos hb] at z3
            rw [if_pos (hc ▸ hb)] at y3
            obtain ⟨z, z3, z4⟩ := z3
            obtain ⟨y, y3, y4⟩ := y3
            rw [z3, y3]
            exact z4.trans ((congrArg _ hc).trans y4.symm)
          · rw [if_neg hb] at z3
            rw [if_neg (hc ▸ hb)] at y3
            rw [z3, y3]
            trivial
        · obtain ⟨t1, t2⟩ := (ht.1 e List.mem_cons_self).2 hcv
          obtain ⟨t3, t4⟩ := (ht.2 e' List.mem_cons_self).2 hcv'
          rw [t1, t2, t3, t4]
          exact ⟨trivial, trivial⟩
      · rw [if_neg hcv] at i1
        rw [if_neg (hc ▸ hcv)] at i2
        rw [i1.2.1, i1.2.2, i2.2.1, i2.2.2]
        exact ⟨trivial, trivial⟩
    · rcases ht with ht | ht
      · rw [ht.1 e List.mem_cons_self, ht.2 e' List.mem_cons_self]
      · rw [(ht.1 e List.mem_cons_self).1, (ht.2 e' List.mem_cons_self).1]
    · rcases ht with ht | ht
      · exact .inl ⟨fun e he => ht.1 e (List.mem_cons_of_mem _ he), fun e he => ht.2 e (List.mem_cons_of_mem _ he)⟩
      · exact .inr ⟨fun e he => ht.1 e (List.mem_cons_of_mem _ he), fun e he => ht.2 e (List.mem_cons_of_mem _ he)⟩

/-- Loading into network `j`. -/
theorem restores_core {s t : World K N S D V X} {i j : ℕ} {φ : ℕ → ℕ} (r : SameKeys φ s.heap (s.nets i) t.heap (t.nets j)) (hn : ((s.nets i).map Prod.fst).Nodup)
    (ht : List.Forall₂ (fun e e' : K × Mod N S D V X => e.2.training = e'.2.training) (s.nets i) (t.nets j)) (ia : WInv s) (ib : WInv t) :
    (step t j (.load (stateDict s.heap (s.nets i)))).2 = true ∧
    ∀ p q, NetAt s.heap p (s.nets i) → NetAt t.heap q (t.nets j) → ∀ calls x,
      after (step t j (.load (stateDict s.heap (s.nets i)))).1 j calls q x = after s i calls p x := by
  have hd := stateDict_nodup (h := s.heap) hn (ia i)
  refine ⟨by simp only [step, loadFails_eq_false hd r.sig, Bool.not_false], fun p q hp hq calls x => ?_⟩
  refine (NetSame.after ?_ calls x).symm
  have := load_same r hd ht (ia i) (ib j) p q hp hq
  simpa only [step, Function.update_self] using this

theorem setModeNet_train (h : Heap S D V) (net : Net K N S D V X) :
    ∀ e ∈ (setModeNet h true net).1, e.2.training = true ∧ (e.2.code.conv = true → e.2.filter = .absent ∧ e.2.ebias = .absent) := by
  induction net with
  | nil => intro e he; cases he
  | cons e r ih =>
    intro q hq
    by_cases hc : e.2.code.conv = true
    · have : e.2.setMode h true = some { e.2 with training := true, filter := .absent, ebias := .absent } := by simp [Mod.setMode, hc]
      rw [setModeNet, this] at hq
      rcases List.mem_cons.1 hq with rfl | hq
      · exact ⟨rfl, fun _ => ⟨rfl, rfl⟩⟩
      · exact ih q hq
    · have : e.2.setMode h true = some { e.2 with training := true } := by simp [Mod.setMode, hc]
      rw [setModeNet, this] at hq
      rcases List.mem_cons.1 hq with rfl | hq
      · exact ⟨rfl, fun h => absurd h hc⟩
      · exact ih q hq

/-- Two modules with the same tensors of their own give the same after `train` and `eval`, and after `eval` if in training mode. -/
theorem eval_same {h h' : Heap S D V} {p q : D} {m m' : Mod N S D V X} (hc : m.code = m'.code) (ho : ownVals m.own = ownVals m'.own) (hs : sharedVals h m.shared = sharedVals h' m'.shared)
    (i : ModInv m) (i' : ModInv m') (a : ModAt h p m) (a' : ModAt h' q m') (ht : m'.training = true) :
    ∃ n0 n n', m.setMode h true = some n0 ∧ n0.setMode h false = some n ∧ m'.setMode h' false = some n' ∧ ModSame h n h' n' ∧ ModAt h p n ∧ ModAt h' q n' ∧ HasOwn n ∧ HasOwn n' := by
  by_cases hv : m.code.conv = true
  · have hv' : m'.code.conv = true := hc ▸ hv
    have e0 : m.setMode h true = some { m with training := true, filter := .absent, ebias := .absent } := by simp [Mod.setMode, hv]
    have a0 : ModAt h p { m with training := true, filter := .absent, ebias := .absent } := ⟨a.1, a.2.1, by rintro _ ⟨⟩, by rintro _ ⟨⟩⟩
    refine ⟨_, _, _, e0, a0.setMode_eval hv rfl (i.1 hv), a'.setMode_eval hv' ht (i'.1 hv'), ⟨hc, rfl, ho, hs, ?_, ?_⟩, ⟨a.1, a.2.1, ?_, ?_⟩, ⟨a'.1, a'.2.1, ?_, ?_⟩, i.1, i'.1⟩
    · simp only [AttrRel, hc, ho, hs]
    · simp only [hc, ho]
      cases m'.code.hasBias <;> simp [AttrRel]
    · rintro t ⟨⟩; rfl
    · intro t; dsimp only; split
      · rintro ⟨⟩; rfl
      · rintro ⟨⟩
    · rintro t ⟨⟩; rfl
    · intro t; dsimp only; split
      · rintro ⟨⟩; rfl
      · rintro ⟨⟩
  · have hv' : ¬ m'.code.conv = true := hc ▸ hv
    have j := i.2.2.2
    have j' := i'.2.2.2
    rw [if_neg hv] at j
    rw [if_neg hv'] at j'
    exact ⟨{ m with training := true }, { m with training := false }, { m' with training := false }, by simp [Mod.setMode, hv], by simp [Mod.setMode, hv], by simp [Mod.setMode, hv'],
      ⟨hc, rfl, ho, hs, by simp [j.2.1, j'.2.1, AttrRel], by simp [j.2.2, j'.2.2, AttrRel]⟩, a, a', i.1, i'.1⟩

theorem evalNet_same {h h' : Heap S D V} {p q : D} {a b : Net K N S D V X} (r : NetSame0 h p a h' q b) (ia : ∀ e ∈ a, ModInv e.2) (ib : ∀ e ∈ b, ModInv e.2)
    (ht : ∀ e ∈ b, e.2.training = true) : NetSame h p (setModeNet h false (setModeNet h true a).1).1 h' q (setModeNet h' false b).1 := by
  unfold NetSame0 at r
  induction r with
  | nil => exact .nil
  | @cons e e' _ _ he _ ih =>
    obtain ⟨e1, e2, e3, e4, e5, e6, e7, e8, e9, e10⟩ := he
    obtain ⟨n0, n, n', h1, h2, h3, h4⟩ := eval_same e2 e3 e4 (ia e List.mem_cons_self) (ib e' List.mem_cons_self) e7 e8 (ht e' List.mem_cons_self)
    have := ih (fun e he => ia e (List.mem_cons_of_mem _ he)) (fun e he => ib e (List.mem_cons_of_mem _ he)) fun e he => ht e (List.mem_cons_of_mem _ he)
    simp only [setModeNet, h1, h2, h3]
    exact .cons ⟨e1, h4⟩ this

/-- A network in evaluation mode and a new one whose buffers were registered with the right shapes. -/
theorem sameKeys_fresh {h h0 h' : Heap S D V} {a0 a b : Net K N S D V X} (sa : SameArgs h0 a0 h' b) (ka : Kept a0 a) (hh : ∀ x, (h x).shape = (h0 x).shape)
    (ia : ∀ e ∈ a, ModInv e.2) (ht : EvalMode a) (hb : ∀ e ∈ b, e.2.Fresh) (hr : Registered b) : ∃ φ, SameKeys φ h a h' b := by
  obtain ⟨φ, sa⟩ := sa
  refine ⟨φ, ?_⟩
  unfold SameKeys
  induction sa generalizing a with
  | nil => cases ka; exact .nil
  | @cons e0 e' _ _ he _ ih =>
    cases ka with
    | @cons _ e _ _ ka1 ka2 =>
    obtain ⟨s1, s2, s3, s4, s5⟩ := he
    obtain ⟨a1, a2, a3, a4⟩ := ka1
    have hc : e.2.code = e'.2.code := a2.symm.trans s2
    refine .cons ⟨a1.symm.trans s1, hc, a3.symm.trans s3, ?_, ?_, ?_⟩ (ih ka2 (fun e he => ia e (List.mem_cons_of_mem _ he)) (fun e he => ht e (List.mem_cons_of_mem _ he))
      (fun e he => hb e (List.mem_cons_of_mem _ he)) fun e he => hr e (List.mem_cons_of_mem _ he))
    · rw [← a4]; exact s4
    · intro q hq
      rw [hh]
      exact s5 q hq
    · have i1 := (ia e List.mem_cons_self).2.2.2
      have i2 := (hb e' List.mem_cons_self).2.2.2
      by_cases hcv : e.2.code.conv = true
      · rw [if_pos hcv, if_neg (by simp [ht e List.mem_cons_self])] at i1
        rw [if_pos (hc ▸ hcv)] at i2
        obtain ⟨⟨z, z1, z2⟩, z3⟩ := i1
        obtain ⟨-, ⟨y, y1, y2⟩, y3⟩ := i2
        refine ⟨by rw [z1, y1]; exact z2.trans ((congrArg _ hc).trans y2.symm), ?_⟩
        by_cases hb : e.2.code.hasBias = true
        · rw [if_pos hb] at z3
          rw [if_pos (hc ▸ hb)] at y3
          obtain ⟨z, z3, z4⟩ := z3
          obtain ⟨y, y3⟩ := y3
          have y4 := hr e' List.mem_cons_self y y3
          rw [z3, y3]
          exact z4.trans ((congrArg _ hc).trans y4.symm)
        · rw [if_neg hb] at z3
          rw [if_neg (hc ▸ hb)] at y3
          rw [z3, y3]
          trivial
      · rw [if_neg hcv] at i1
        rw [if_neg (hc ▸ hcv)] at i2
        rw [i1.2.1, i1.2.2, i2.2.1, i2.2.2]
        exact ⟨trivial, trivial⟩

end Ckpt

/-- **C89**: after any operations in two processes, the state dictionary of a network in evaluation mode is loaded without error into a network in evaluation mode which was built with the same arguments, and afterwards the two networks give the
same outputs, whatever calls of `train`, `eval` and assignments follow. -/
theorem c89_restores {w w' : World K N S D V X} (hw : ∀ i, FreshNet (w.nets i)) (hw' : ∀ i, FreshNet (w'.nets i)) (ops ops' : List (ℕ × Op K N S D V)) (i j : ℕ)
    (ha : SameArgs w.heap (w.nets i) w'.heap (w'.nets j)) (hs : EvalMode ((run w ops).nets i)) (ht : EvalMode ((run w' ops').nets j)) :
    let sd := stateDict (run w ops).heap ((run w ops).nets i)
    let r := step (run w' ops') j (.load sd)
    r.2 = true ∧ ∀ p q, NetAt (run w ops).heap p ((run w ops).nets i) → NetAt (run w' ops').heap q ((run w' ops').nets j) →
      ∀ calls x, after r.1 j calls q x = after (run w ops) i calls p x := by
  obtain ⟨a1, a2, a3⟩ := run_kept (fresh_inv hw) ops
  obtain ⟨b1, b2, b3⟩ := run_kept (fresh_inv hw') ops'
  obtain ⟨⟨φ, k1⟩, k2⟩ := sameKeys_of ha (a2 i) (b2 j) a3 b3 (a1 i) (b1 j) (.inl ⟨hs, ht⟩)
  exact restores_core k1 (FreshNet.nodup_run hw ops i) k2 a1 b1

/-- **C89, training mode**: the same holds when the last call on both networks was `train()`. -/
theorem c89_training {w w' : World K N S D V X} (hw : ∀ i, FreshNet (w.nets i)) (hw' : ∀ i, FreshNet (w'.nets i)) (ops ops' : List (ℕ × Op K N S D V)) (i j : ℕ)
    (ha : SameArgs w.heap (w.nets i) w'.heap (w'.nets j)) :
    let s := (step (run w ops) i .train).1
    let t := (step (run w' ops') j .train).1
    let r := step t j (.load (stateDict s.heap (s.nets i)))
    r.2 = true ∧ ∀ p q, NetAt s.heap p (s.nets i) → NetAt t.heap q (t.nets j) → ∀ calls x, after r.1 j calls q x = after s i calls p x := by
  obtain ⟨a1, a2, a3⟩ := run_kept (fresh_inv hw) (ops ++ [(i, .train)])
  obtain ⟨b1, b2, b3⟩ := run_kept (fresh_inv hw') (ops' ++ [(j, .train)])
  have es : run w (ops ++ [(i, .train)]) = (step (run w ops) i .train).1 := by simp [run]
  have et : run w' (ops' ++ [(j, .train)]) = (step (run w' ops') j .train).1 := by simp [run]
  have hn := FreshNet.nodup_run hw (ops ++ [(i, .train)]) i
  rw [es] at a1 a2 a3 hn
  rw [et] at b1 b2 b3
  obtain ⟨⟨φ, k1⟩, k2⟩ := sameKeys_of ha (a2 i) (b2 j) a3 b3 (a1 i) (b1 j) (.inr ⟨by simpa [step] using setModeNet_train (run w ops).heap _,
    by simpa [step] using setModeNet_train (run w' ops').heap _⟩)
  exact restores_core k1 hn k2 a1 b1

/-- **C89, new networks**: the state dictionary of a network in evaluation mode is also loaded without error into a network which has just been built, if its convolutions register `expanded_bias` with the right shape.  After `eval()` this network
gives the outputs which the saved one gives after `train()` and `eval()`, that is with filters expanded from the saved weights. -/
theorem c89_new {w w' : World K N S D V X} (hw : ∀ i, FreshNet (w.nets i)) (hw' : ∀ i, FreshNet (w'.nets i)) (ops : List (ℕ × Op K N S D V)) (i j : ℕ)
    (ha : SameArgs w.heap (w.nets i) w'.heap (w'.nets j)) (hr : Registered (w'.nets j)) (hs : EvalMode ((run w ops).nets i)) :
    let r := step w' j (.load (stateDict (run w ops).heap ((run w ops).nets i)))
    r.2 = true ∧ ∀ p q, NetAt (run w ops).heap p ((run w ops).nets i) → NetAt w'.heap q (w'.nets j) →
      ∀ calls x, after r.1 j (.eval :: calls) q x = after (run w ops) i (.train :: .eval :: calls) p x := by
  intro r
  obtain ⟨a1, a2, a3⟩ := run_kept (fresh_inv hw) ops
  obtain ⟨φ, k⟩ := sameKeys_fresh ha (a2 i) a3 (a1 i) hs (hw' j).2 hr
  have hd := stateDict_nodup (h := (run w ops).heap) (FreshNet.nodup_run hw ops i) (a1 i)
  refine ⟨by simp only [r, step, loadFails_eq_false hd k.sig, Bool.not_false], fun p q hp hq calls x => ?_⟩
  have h0 := load_same0 k hd (a1 i) (fresh_inv hw' j) p q hp hq
  have i' : WInv r.1 := (step_kept (fresh_inv hw') j _).1
  have en : r.1.nets j = (w'.nets j).map fun e => (e.1, loadMod (stateDict (run w ops).heap ((run w ops).nets i)) e.1 e.2) := by simp [r, step]
  have h1 := evalNet_same h0 (a1 i) (by rw [← en]; exact i' j) (by
    intro e he
    obtain ⟨e0, h2, rfl⟩ := List.mem_map.1 he
    exact ((hw' j).2 e0 h2).1)
  have h2 : NetSame (run (run w ops) [(i, .train), (i, .eval)]).heap p ((run (run w ops) [(i, .train), (i, .eval)]).nets i) (run r.1 [(j, .eval)]).heap q ((run r.1 [(j, .eval)]).nets j) := by
    simp only [run, List.foldl_cons, List.foldl_nil, step, Function.update_self, r]
    exact h1
  exact (h2.after calls x).symm

/-! ### What goes wrong -/

/-- The size of the buffer `expanded_bias` registered by the constructor of `R2Conv` (r2convolution.py:234): `out_type` is the whole output type. -/
def registeredConv (_groups outSize : ℕ) : ℕ := outSize

/-- The size of the buffer `expanded_bias` registered by the constructor of `R2ConvTransposed` (r2_transposed_convolution.py:111, 148): `out_type` is the type of one group. -/
def registeredTransposed (groups outSize : ℕ) : ℕ := if 1 < groups then outSize / groups else outSize

/-- The state dictionary of a network in evaluation mode cannot be loaded into a new network with a convolution whose `expanded_bias` is registered with another shape. -/
theorem c89_unregistered {w w' : World K N S D V X} (hw : ∀ i, FreshNet (w.nets i)) (hw' : ∀ i, FreshNet (w'.nets i)) (ops : List (ℕ × Op K N S D V)) (i j : ℕ)
    (ha : SameArgs w.heap (w.nets i) w'.heap (w'.nets j)) (hs : EvalMode ((run w ops).nets i)) {e : K × Mod N S D V X} (he : e ∈ w'.nets j) {z : Ten S D V} (hz : e.2.ebias = .buf z)
    (hne : z.shape ≠ e.2.code.eshape) : (step w' j (.load (stateDict (run w ops).heap ((run w ops).nets i)))).2 = false := by
  obtain ⟨a1, a2, a3⟩ := run_kept (fresh_inv hw) ops
  obtain ⟨φ, ha⟩ := ha
  have hd := stateDict_nodup (h := (run w ops).heap) (FreshNet.nodup_run hw ops i) (a1 i)
  -- the module of the saved network
  obtain ⟨e0, he0, hn, hc⟩ : ∃ e0 ∈ w.nets i, e0.1 = e.1 ∧ e0.2.code = e.2.code := by
    clear hd a1 a2 hs hw hw'
    revert ha
    generalize w.nets i = a
    generalize w'.nets j = b at he
    intro ha
    induction ha with
    | nil => cases he
    | cons q _ ih =>
      rcases List.mem_cons.1 he with rfl | he
      · exact ⟨_, List.mem_cons_self, q.1, q.2.1⟩
      · obtain ⟨e0, h1, h2⟩ := ih he
        exact ⟨e0, List.mem_cons_of_mem _ h1, h2⟩
  obtain ⟨e1, he1, hn1, hc1⟩ : ∃ e1 ∈ (run w ops).nets i, e0.1 = e1.1 ∧ e0.2.code = e1.2.code := by
    have := a2 i
    unfold Kept at this
    revert this
    generalize w.nets i = a at he0
    generalize (run w ops).nets i = b
    intro this
    induction this with
    | nil => cases he0
    | cons q _ ih =>
      rcases List.mem_cons.1 he0 with rfl | he0
      · exact ⟨_, List.mem_cons_self, q.1, q.2.1⟩
      · obtain ⟨e1, h1, h2⟩ := ih he0
        exact ⟨e1, List.mem_cons_of_mem _ h1, h2⟩
  have hf := ((hw' j).2 e he).2.2.2
  have hcv : e.2.code.conv = true := by
    by_contra h
    rw [if_neg h, hz] at hf
    cases hf.2.2
  rw [if_pos hcv] at hf
  have hb : e.2.code.hasBias = true := by
    by_contra h
    rw [if_neg h, hz] at hf
    cases hf.2.2
  have hi := (a1 i e1 he1).2.2.2
  rw [if_pos (by rw [← hc1, hc]; exact hcv), if_neg (by simp [hs e1 he1]), if_pos (by rw [← hc1, hc]; exact hb)] at hi
  obtain ⟨-, y, y1, y2⟩ := hi
  have hl : (stateDict (run w ops).heap ((run w ops).nets i)).lookup (e.1, .ebias) = some y := by
    refine lookup_of_mem hd ?_
    rw [← hn, hn1]
    exact mem_stateDict (q := (Key.ebias, y)) he1 (by simp [Mod.entries, y1, Attr.entry])
  simp only [step, Bool.not_eq_false']
  rw [loadFails, Bool.or_eq_true]
  left
  rw [List.any_eq_true]
  refine ⟨((e.1, Key.ebias), z), mem_stateDict (q := (Key.ebias, z)) he (by simp [Mod.entries, hz, Attr.entry]), ?_⟩
  simp only [hl, decide_eq_true_eq]
  intro h
  apply hne
  rw [← h, y2, ← hc1, hc]

/-- **C89 fails for `R2ConvTransposed`** with several groups and a bias: the state dictionary of a network in evaluation mode is refused by a new network built with the same arguments. -/
theorem c89_transposed_false {w w' : World K N ℕ D V X} (hw : ∀ i, FreshNet (w.nets i)) (hw' : ∀ i, FreshNet (w'.nets i)) (ops : List (ℕ × Op K N ℕ D V)) (i j : ℕ)
    (ha : SameArgs w.heap (w.nets i) w'.heap (w'.nets j)) (hs : EvalMode ((run w ops).nets i)) {e : K × Mod N ℕ D V X} (he : e ∈ w'.nets j) {z : Ten ℕ D V} (hz : e.2.ebias = .buf z)
    (groups outSize : ℕ) (hg : 1 < groups) (ho : 0 < outSize) (h1 : z.shape = registeredTransposed groups outSize) (h2 : e.2.code.eshape = outSize) :
    (step w' j (.load (stateDict (run w ops).heap ((run w ops).nets i)))).2 = false := by
  refine c89_unregistered hw hw' ops i j ha hs he hz ?_
  rw [h1, h2, registeredTransposed, if_pos hg]
  exact Nat.ne_of_lt (Nat.div_lt_self ho hg)

namespace Ckpt

/-- The module `e` of the first network has a counterpart in the second. -/
theorem SameArgs.mem {h h' : Heap S D V} {a b : Net K N S D V X} (r : SameArgs h a h' b) {e : K × Mod N S D V X} (he : e ∈ a) : ∃ e' ∈ b, e.1 = e'.1 ∧ e.2.code = e'.2.code := by
  obtain ⟨φ, r⟩ := r
  induction r with
  | nil => cases he
  | cons q _ ih =>
    rcases List.mem_cons.1 he with rfl | he
    · exact ⟨_, List.mem_cons_self, q.1, q.2.1⟩
    · obtain ⟨e1, h1, h2⟩ := ih he
      exact ⟨e1, List.mem_cons_of_mem _ h1, h2⟩

theorem Kept.mem' {a b : Net K N S D V X} (h : Kept a b) {e : K × Mod N S D V X} (he : e ∈ a) : ∃ e' ∈ b, e.1 = e'.1 ∧ e.2.code = e'.2.code := by
  unfold Kept at h
  induction h with
  | nil => cases he
  | cons q _ ih =>
    rcases List.mem_cons.1 he with rfl | he
    · exact ⟨_, List.mem_cons_self, q.1, q.2.1⟩
    · obtain ⟨e, h1, h2⟩ := ih he
      exact ⟨e, List.mem_cons_of_mem _ h1, h2⟩

/-- Names are unique, so a key of a state dictionary belongs to one module. -/
theorem filter_key {h : Heap S D V} {net : Net K N S D V X} (hn : (net.map Prod.fst).Nodup) {e : K × Mod N S D V X} (he : e ∈ net) (hk : (e.1, Key.filter) ∈ (stateDict h net).map Prod.fst) :
    ∃ z, e.2.filter = .buf z := by
  obtain ⟨q, hq, h1⟩ := List.mem_map.1 hk
  obtain ⟨e', he', h2⟩ := List.mem_flatMap.1 hq
  obtain ⟨x, hx, rfl⟩ := List.mem_map.1 h2
  obtain ⟨h3, h4⟩ := Prod.mk.inj h1
  have : e' = e := List.inj_on_of_nodup_map hn he' he h3
  subst this
  simp only [Mod.entries, List.mem_append, List.mem_map] at hx
  rcases hx with ((⟨y, -, rfl⟩ | ⟨y, -, rfl⟩) | hx) | hx
  · cases h4
  · cases h4
  · cases hf : e'.2.filter with
    | absent => rw [hf] at hx; cases hx
    | none => rw [hf] at hx; cases hx
    | buf z => exact ⟨z, rfl⟩
  · cases hf : e'.2.ebias with
    | absent => rw [hf] at hx; cases hx
    | none => rw [hf] at hx; cases hx
    | buf z =>
      rw [hf] at hx
      simp only [Attr.entry, List.mem_singleton] at hx
      subst hx
      cases h4

theorem fails_unexpected {sd : StateDict K N S D V} {h : Heap S D V} {net : Net K N S D V X} {k : K × Key N} (h1 : k ∈ sd.map Prod.fst) (h2 : k ∉ (stateDict h net).map Prod.fst) :
    loadFails sd h net = true := by
  rw [loadFails, Bool.or_eq_true]
  right
  obtain ⟨e, he, rfl⟩ := List.mem_map.1 h1
  exact List.any_eq_true.2 ⟨e, he, by simpa using h2⟩

theorem lookup_none {A B : Type} [BEq A] [LawfulBEq A] {l : List (A × B)} {k : A} (h : k ∉ l.map Prod.fst) : l.lookup k = none := by
  induction l with
  | nil => rfl
  | cons e r ih =>
    rw [List.map_cons, List.mem_cons, not_or] at h
    obtain ⟨e1, e2⟩ := e
    simp only at h
    rw [List.lookup_cons, beq_false_of_ne h.1]
    exact ih h.2

theorem fails_missing {sd : StateDict K N S D V} {h : Heap S D V} {net : Net K N S D V X} {k : K × Key N} (h1 : k ∉ sd.map Prod.fst) (h2 : k ∈ (stateDict h net).map Prod.fst) :
    loadFails sd h net = true := by
  rw [loadFails, Bool.or_eq_true]
  left
  obtain ⟨e, he, rfl⟩ := List.mem_map.1 h2
  exact List.any_eq_true.2 ⟨e, he, by rw [lookup_none h1]⟩

theorem filter_mem {h : Heap S D V} {net : Net K N S D V X} (hi : ∀ e ∈ net, ModInv e.2) (ht : EvalMode net) {e : K × Mod N S D V X} (he : e ∈ net) (hc : e.2.code.conv = true) :
    (e.1, Key.filter) ∈ (stateDict h net).map Prod.fst := by
  have := (hi e he).2.2.2
  rw [if_pos hc, if_neg (by simp [ht e he])] at this
  obtain ⟨⟨z, hz, -⟩, -⟩ := this
  exact List.mem_map.2 ⟨_, mem_stateDict (q := (Key.filter, z)) he (by simp [Mod.entries, hz, Attr.entry]), rfl⟩

end Ckpt

/-- **C89 fails when the modes differ**: between a network in evaluation mode and one on which `train()` was called last, no state dictionary can be loaded in either direction, if there is a convolution. -/
theorem c89_modes_false {w w' : World K N S D V X} (hw : ∀ i, FreshNet (w.nets i)) (hw' : ∀ i, FreshNet (w'.nets i)) (ops ops' : List (ℕ × Op K N S D V)) (i j : ℕ)
    (ha : SameArgs w.heap (w.nets i) w'.heap (w'.nets j)) {e : K × Mod N S D V X} (he : e ∈ w.nets i) (hc : e.2.code.conv = true) (hs : EvalMode ((run w ops).nets i)) :
    let s := run w ops
    let t := (step (run w' ops') j .train).1
    (step t j (.load (stateDict s.heap (s.nets i)))).2 = false ∧ (step s i (.load (stateDict t.heap (t.nets j)))).2 = false := by
  intro s t
  obtain ⟨a1, a2, -⟩ := run_kept (fresh_inv hw) ops
  obtain ⟨b1, b2, -⟩ := run_kept (fresh_inv hw') (ops' ++ [(j, .train)])
  have et : run w' (ops' ++ [(j, .train)]) = t := by simp [run, t]
  have hnt := FreshNet.nodup_run hw' (ops' ++ [(j, .train)]) j
  rw [et] at b1 b2 hnt
  obtain ⟨e1, he1, n1, c1⟩ := (a2 i).mem' he
  obtain ⟨e2, he2, n2, c2⟩ := ha.mem he
  obtain ⟨e3, he3, n3, c3⟩ := (b2 j).mem' he2
  have k1 : (e1.1, Key.filter) ∈ (stateDict s.heap (s.nets i)).map Prod.fst := filter_mem (a1 i) hs he1 (c1 ▸ hc)
  have k2 : (e3.1, Key.filter) ∉ (stateDict t.heap (t.nets j)).map Prod.fst := by
    intro h
    obtain ⟨z, hz⟩ := filter_key hnt he3 h
    have := setModeNet_train (run w' ops').heap ((run w' ops').nets j) e3 (by simpa [t, step] using he3)
    rw [(this.2 (by rw [← c3, ← c2]; exact hc)).1] at hz
    cases hz
  rw [← n1] at k1
  rw [← n3, ← n2] at k2
  simp only [step, Bool.not_eq_false']
  exact ⟨fails_unexpected k1 k2, fails_missing k2 k1⟩

/-- **C89 fails silently** for a network which is in training mode because it has never been switched: its state dictionary, saved after the weights were assigned, contains the zeros written by the constructor, is loaded without error into a network in evaluation
mode, and the filter used there is zero, whatever the weights; `eval()` does not repair it. -/
theorem c89_silent_false {w w' : World K N S D V X} (hw : ∀ i, FreshNet (w.nets i)) (hw' : ∀ i, FreshNet (w'.nets i)) (ops' : List (ℕ × Op K N S D V)) (i j : ℕ)
    (ha : SameArgs w.heap (w.nets i) w'.heap (w'.nets j)) {c : K} {m : Mod N S D V X} (hm : w.nets i = [(c, m)]) (hc : m.code.conv = true) (hb : m.code.hasBias = false)
    {z : Ten S D V} (hz : m.filter = .buf z) (ht : EvalMode ((run w' ops').nets j)) (vs : K → List (N × V)) :
    let s := (step w i (.assign vs)).1
    let r := step (run w' ops') j (.load (stateDict s.heap (s.nets i)))
    r.2 = true ∧ ∀ p q, NetAt s.heap p (s.nets i) → NetAt (run w' ops').heap q ((run w' ops').nets j) → ∀ x,
      after r.1 j [] q x = m.code.runConv z.val none x ∧ after r.1 j [.eval] q x = m.code.runConv z.val none x ∧
      after s i [] p x = m.code.runConv (m.code.expandF (ownVals (m.assign (vs c)).own) (sharedVals w.heap m.shared)) none x := by
  intro s r
  obtain ⟨b1, b2, b3⟩ := run_kept (fresh_inv hw') ops'
  obtain ⟨s1, s2, s3⟩ := step_kept (fresh_inv hw) i (.assign vs)
  have hns : ((s.nets i).map Prod.fst).Nodup := by rw [← (s2 i).names]; exact (hw i).1
  have hd := stateDict_nodup (h := s.heap) hns (s1 i)
  have hf := ((hw i).2 (c, m) (by rw [hm]; exact List.mem_cons_self)).2.2.2
  have hm1 := ((hw i).2 (c, m) (by rw [hm]; exact List.mem_cons_self)).1
  rw [if_pos hc, if_neg (by simp [hb])] at hf
  obtain ⟨hf0, ⟨z', hz', hz2⟩, hf2⟩ := hf
  obtain rfl : z = z' := by
    have := hz.symm.trans hz'
    injection this
  have hsn : s.nets i = [(c, m.assign (vs c))] := by simp [s, step, hm]
  -- the other network
  obtain ⟨φ, ha⟩ := ha
  rw [hm] at ha
  obtain ⟨e', hb0, he'⟩ : ∃ e', w'.nets j = [e'] ∧ _ := by
    cases hwn : w'.nets j with
    | nil => rw [hwn] at ha; cases ha
    | cons e' l => rw [hwn] at ha; cases ha with | cons h1 h2 => cases h2; exact ⟨e', rfl, h1⟩
  have hk := b2 j
  rw [hb0] at hk
  obtain ⟨e, hb1, he⟩ : ∃ e, (run w' ops').nets j = [e] ∧ (e'.1 = e.1 ∧ e'.2.code = e.2.code ∧ sig e'.2.own = sig e.2.own ∧ e'.2.shared = e.2.shared) := by
    unfold Kept at hk
    cases hwn : (run w' ops').nets j with
    | nil => rw [hwn] at hk; cases hk
    | cons e l => rw [hwn] at hk; cases hk with | cons h1 h2 => cases h2; exact ⟨e, rfl, h1⟩
  obtain ⟨q1, q2, q3, q4, q5⟩ := he'
  obtain ⟨g1, g2, g3, g4⟩ := he
  have hce : m.code = e.2.code := q2.trans g2
  have i2 := (b1 j e (by rw [hb1]; exact List.mem_cons_self)).2.2.2
  rw [if_pos (hce ▸ hc), if_neg (by simp [ht e (by rw [hb1]; exact List.mem_cons_self)]), if_neg (by rw [← hce]; simp [hb])] at i2
  obtain ⟨⟨y, y1, y2⟩, y3⟩ := i2
  have k : SameKeys φ s.heap (s.nets i) (run w' ops').heap ((run w' ops').nets j) := by
    rw [hsn, hb1]
    refine .cons ⟨q1.trans g1, hce, ?_, ?_, ?_, ?_, ?_⟩ .nil
    · exact (sig_map m.own (fun e => { e.2 with val := ((vs c).lookup e.1).getD e.2.val }) fun _ => rfl).trans (Eq.trans q3 g3)
    · rw [← g4]; exact q4
    · intro x hx
      rw [b3, s3]
      exact q5 x (by rw [g4]; exact hx)
    · show AttrShape m.filter e.2.filter
      rw [hz, y1]
      exact hz2.trans ((congrArg _ hce).trans y2.symm)
    · show AttrShape m.ebias e.2.ebias
      rw [hf2, y3]
      trivial
  refine ⟨by simp only [r, step, loadFails_eq_false hd k.sig, Bool.not_false], fun p q hp hq x => ?_⟩
  have h0 := load_same0 k hd (s1 i) (b1 j) p q hp hq
  have hrn : r.1.nets j = ((run w' ops').nets j).map fun e => (e.1, loadMod (stateDict s.heap (s.nets i)) e.1 e.2) := by simp [r, step]
  have hrh : r.1.heap = loadHeap (stateDict s.heap (s.nets i)) (run w' ops').heap ((run w' ops').nets j) := rfl
  rw [← hrn, ← hrh, hsn] at h0
  obtain ⟨e4, he4⟩ : ∃ e4, r.1.nets j = [e4] ∧ e4.2.training = false := 
    ⟨(e.1, loadMod (stateDict s.heap (s.nets i)) e.1 e.2), by rw [hrn, hb1]; rfl, ht e (by rw [hb1]; exact List.mem_cons_self)⟩
  rw [he4.1] at h0
  unfold NetSame0 at h0
  cases h0 with
  | cons h0 _ =>
  obtain ⟨-, u2, u3, u4, u5, u6, u7, u8, -, -⟩ := h0
  have u5' : AttrRel m.filter e4.2.filter := u5
  have u6' : AttrRel m.ebias e4.2.ebias := u6
  rw [hz] at u5'
  rw [hf2] at u6'
  have v2 : m.code = e4.2.code := u2
  obtain ⟨z4, z5⟩ : ∃ z4, e4.2.filter = .buf z4 ∧ z.val = z4.val := by
    cases hq : e4.2.filter with
    | absent => rw [hq] at u5'; exact u5'.elim
    | none => rw [hq] at u5'; exact u5'.elim
    | buf t => rw [hq] at u5'; exact ⟨t, rfl, u5'⟩
  have z6 : e4.2.ebias = .none := by
    cases hq : e4.2.ebias with
    | absent => rw [hq] at u6'; exact u6'.elim
    | none => rfl
    | buf t => rw [hq] at u6'; exact u6'.elim
  have out : netForward r.1.heap q [e4] x = m.code.runConv z.val none x := by
    simp only [netForward, Mod.forward]
    rw [u8.placed, if_pos rfl, Mod.compute, ← v2, if_pos hc, he4.2, z5.1, z6]
    simp only [Bool.false_eq_true, if_false, ← z5.2]
    cases m.code.runConv z.val none x <;> rfl
  refine ⟨?_, ?_, ?_⟩
  · show netForward r.1.heap q (r.1.nets j) x = _
    rw [he4.1]
    exact out
  · have : e4.2.setMode r.1.heap false = some e4.2 := by simp [Mod.setMode, ← v2, hc, he4.2]
    show netForward r.1.heap q (Function.update r.1.nets j (setModeNet r.1.heap false (r.1.nets j)).1 j) x = _
    rw [Function.update_self, he4.1]
    simp only [setModeNet, this]
    exact out
  · show netForward s.heap p (s.nets i) x = _
    rw [hsn]
    simp only [netForward, Mod.forward]
    rw [u7.placed, if_pos rfl, Mod.compute]
    have e1 : (m.assign (vs c)).code = m.code := rfl
    have e2 : (m.assign (vs c)).training = true := hm1
    rw [e1, if_pos hc, e2, if_pos rfl, hb]
    simp only [Bool.false_eq_true, if_false]
    show Option.bind (m.code.runConv (m.code.expandF (ownVals (m.assign (vs c)).own) (sharedVals w.heap m.shared)) none x) _ = _
    cases m.code.runConv (m.code.expandF (ownVals (m.assign (vs c)).own) (sharedVals w.heap m.shared)) none x <;> rfl

/-! ### A concrete network -/

namespace Ckpt

/-- A convolution with one weight and a shared basis of one element: the filter is the product of the weight and the basis, the output the product of the filter and the input. -/
def exCode : ModCode ℕ ℕ Int Int where
  conv := true
  fshape := 1
  eshape := 1
  hasBias := false
  expandF own sh := ((own.head?.map Prod.snd).getD 0) * ((sh.head?.map Prod.snd).getD 0)
  expandB _ := 0
  runConv f b x := some (f * x + b.getD 0)
  runOther _ _ x := some x

/-- The convolution after its constructor. -/
def exMod : Mod ℕ ℕ Bool Int Int := ⟨exCode, true, [(0, ⟨1, false, 5⟩)], [(0, 0)], .buf ⟨1, false, 0⟩, .none⟩

/-- A process with networks of one convolution, which all share the basis. -/
def exWorld : World ℕ ℕ ℕ Bool Int Int := ⟨fun _ => ⟨1, false, 3⟩, fun _ => [(0, exMod)]⟩

theorem exWorld_fresh (i : ℕ) : FreshNet (exWorld.nets i) := by
  refine ⟨by simp [exWorld], fun e he => ?_⟩
  obtain rfl : e = (0, exMod) := by simpa [exWorld] using he
  exact ⟨rfl, by simp [exMod], by simp [exMod], by simp [exMod, exCode]⟩

theorem exWorld_same (i j : ℕ) : SameArgs exWorld.heap (exWorld.nets i) exWorld.heap (exWorld.nets j) :=
  ⟨id, .cons ⟨rfl, rfl, rfl, rfl, fun _ _ => rfl⟩ .nil⟩

end Ckpt

/-- The hypotheses of `c89_restores` are met: a network is trained to the weight 7 and evaluated, its state dictionary is loaded into another one in evaluation mode, which then gives `7 * 3 * x`. -/
example (x : Int) :
    let s := run exWorld [(0, .assign fun _ => [(0, 7)]), (0, .eval)]
    let t := run exWorld [(1, .eval)]
    let r := step t 1 (.load (stateDict s.heap (s.nets 0)))
    after t 1 [] false x = some (5 * 3 * x + 0) ∧ r.2 = true ∧ (∀ calls, after r.1 1 calls false x = after s 0 calls false x) ∧ after r.1 1 [] false x = some (7 * 3 * x + 0) := by
  intro s t r
  obtain ⟨h1, h2⟩ := c89_restores exWorld_fresh exWorld_fresh [(0, .assign fun _ => [(0, 7)]), (0, .eval)] [(1, .eval)] 0 1 (exWorld_same 0 1)
    (by intro e he; obtain rfl := List.mem_singleton.1 he; rfl) (by intro e he; obtain rfl := List.mem_singleton.1 he; rfl)
  have h3 := fun calls => h2 false false (by
      intro e he
      obtain rfl := List.mem_singleton.1 he
      refine ⟨?_, ?_, ?_, ?_⟩
      · intro q hq; obtain rfl := List.mem_singleton.1 hq; rfl
      · intro q hq; obtain rfl := List.mem_singleton.1 hq; rfl
      · rintro t ⟨⟩; rfl
      · rintro t ⟨⟩) (by
      intro e he
      obtain rfl := List.mem_singleton.1 he
      refine ⟨?_, ?_, ?_, ?_⟩
      · intro q hq; obtain rfl := List.mem_singleton.1 hq; rfl
      · intro q hq; obtain rfl := List.mem_singleton.1 hq; rfl
      · rintro t ⟨⟩; rfl
      · rintro t ⟨⟩) calls x
  exact ⟨rfl, h1, h3, (h3 []).trans rfl⟩

/-- `c89_silent_false` applies to it: the new network is never switched, its weight becomes 7 and the state dictionary is saved.  A network in evaluation mode with this dictionary gives zero for all inputs. -/
example (x : Int) :
    let s := (step exWorld 0 (.assign fun _ => [(0, 7)])).1
    let r := step (run exWorld [(1, .eval)]) 1 (.load (stateDict s.heap (s.nets 0)))
    r.2 = true ∧ after r.1 1 [] false x = some (0 * x + 0) ∧ after r.1 1 [.eval] false x = some (0 * x + 0) ∧ after s 0 [] false x = some (7 * 3 * x + 0) := by
  obtain ⟨h1, h2⟩ := c89_silent_false exWorld_fresh exWorld_fresh [(1, .eval)] 0 1 (exWorld_same 0 1) (c := 0) (m := exMod) rfl rfl rfl (z := ⟨1, false, 0⟩) rfl
    (by intro e he; obtain rfl := List.mem_singleton.1 he; rfl) fun _ => [(0, 7)]
  obtain ⟨h3, h4, h5⟩ := h2 false false (by
      intro e he
      obtain rfl := List.mem_singleton.1 he
      refine ⟨?_, ?_, ?_, ?_⟩
      · intro q hq; obtain rfl := List.mem_singleton.1 hq; rfl
      · intro q hq; obtain rfl := List.mem_singleton.1 hq; rfl
      · rintro t ⟨⟩; rfl
      · rintro t ⟨⟩) (by
      intro e he
      obtain rfl := List.mem_singleton.1 he
      refine ⟨?_, ?_, ?_, ?_⟩
      · intro q hq; obtain rfl := List.mem_singleton.1 hq; rfl
      · intro q hq; obtain rfl := List.mem_singleton.1 hq; rfl
      · rintro t ⟨⟩; rfl
      · rintro t ⟨⟩) x
  exact ⟨h1, h3, h4, h5⟩

/-- `c89_new` and `c89_modes_false` apply to it as well. -/
example : (step exWorld 1 (.load (stateDict (run exWorld [(0, .eval)]).heap ((run exWorld [(0, .eval)]).nets 0)))).2 = true ∧
    (step (step exWorld 1 .train).1 1 (.load (stateDict (run exWorld [(0, .eval)]).heap ((run exWorld [(0, .eval)]).nets 0)))).2 = false :=
  ⟨(c89_new exWorld_fresh exWorld_fresh [(0, .eval)] 0 1 (exWorld_same 0 1) (by
      intro e he z hz
      obtain rfl := List.mem_singleton.1 he
      cases hz) (by intro e he; obtain rfl := List.mem_singleton.1 he; rfl)).1,
    (c89_modes_false exWorld_fresh exWorld_fresh [(0, .eval)] [] 0 1 (exWorld_same 0 1) (e := (0, exMod)) List.mem_cons_self rfl
      (by intro e he; obtain rfl := List.mem_singleton.1 he; rfl)).1⟩

/-- `c89_transposed_false` applies to a transposed convolution with two groups and two output channels. -/
example :
    let m : Ckpt.Mod ℕ ℕ Bool Int Int := ⟨{ exCode with hasBias := true, eshape := 2 }, true, [(0, ⟨1, false, 5⟩)], [(0, 0)], .buf ⟨1, false, 0⟩, .buf ⟨registeredTransposed 2 2, false, 0⟩⟩
    let w : World ℕ ℕ ℕ Bool Int Int := ⟨fun _ => ⟨1, false, 3⟩, fun _ => [(0, m)]⟩
    (step w 1 (.load (stateDict (run w [(0, .eval)]).heap ((run w [(0, .eval)]).nets 0)))).2 = false := by
  intro m w
  have hw : ∀ i, FreshNet (w.nets i) := by
    intro i
    refine ⟨by simp [w], fun e he => ?_⟩
    obtain rfl : e = (0, m) := by simpa [w] using he
    exact ⟨rfl, by simp [m], by simp [m], by simp [m, exCode]⟩
  exact c89_transposed_false hw hw [(0, .eval)] 0 1 ⟨id, .cons ⟨rfl, rfl, rfl, rfl, fun _ _ => rfl⟩ .nil⟩ (by intro e he; obtain rfl := List.mem_singleton.1 he; rfl)
    (e := (0, m)) List.mem_cons_self rfl 2 2 (by omega) (by omega) rfl rfl

/-- **C89, what evaluation mode uses**: while convolutions are in evaluation mode, assignments to their weights and biases do not change the outputs; only the next `train()` and `eval()` make
them count.  So a state dictionary which is saved then contains weights and filters which do not belong together, and both are restored as they are. -/
theorem c89_eval_frozen (w : World K N S D V X) (i : ℕ) (he : EvalMode (w.nets i)) (hc : ∀ e ∈ w.nets i, e.2.code.conv = true) (vs : K → List (N × V)) (p : D) (x : X) :
    after (step w i (.assign vs)).1 i [] p x = after w i [] p x := by
  show netForward w.heap p (Function.update w.nets i ((w.nets i).map fun e => (e.1, e.2.assign (vs e.1))) i) x = netForward w.heap p (w.nets i) x
  rw [Function.update_self]
  generalize w.nets i = net at he hc
  induction net generalizing x with
  | nil => rfl
  | cons e r ih =>
    have h1 : (e.2.assign (vs e.1)).forward w.heap p x = e.2.forward w.heap p x := by
      have ht := he e List.mem_cons_self
      have hk := hc e List.mem_cons_self
      have h1 : (e.2.assign (vs e.1)).placed w.heap p = e.2.placed w.heap p := by
        simp [Mod.placed, Mod.assign, ht, hk]
      have h2 : (e.2.assign (vs e.1)).compute w.heap x = e.2.compute w.heap x := by
        simp [Mod.compute, Mod.assign, ht, hk]
      rw [Mod.forward, Mod.forward, h1, h2]
    rw [List.map_cons, netForward, netForward, h1]
    congr 1
    funext y
    exact ih y (fun e h => he e (List.mem_cons_of_mem _ h)) fun e h => hc e (List.mem_cons_of_mem _ h)

/-- `c89_eval_frozen` applies after `eval()`: the output is that of the old weights. -/
example : after (step (run exWorld [(0, .eval)]) 0 (.assign fun _ => [(0, 7)])).1 0 [] false 1 = some 15 ∧
    after (step (run exWorld [(0, .eval)]) 0 (.assign fun _ => [(0, 7)])).1 0 [.train, .eval] false 1 = some 21 :=
  ⟨(c89_eval_frozen _ 0 (by intro e he; obtain rfl := List.mem_singleton.1 he; rfl) (by intro e he; obtain rfl := List.mem_singleton.1 he; rfl) _ _ _).trans rfl, rfl⟩

end E2
