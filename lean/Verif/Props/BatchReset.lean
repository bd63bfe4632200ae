import Verif.Model.BatchReset
import Verif.Props.Running

/-!
Resetting batch normalisations (C101): after `reset_parameters` a module behaves like a new one, whatever happened before, for `GNormBatchNorm`, `InnerBatchNorm` and
for `InducedNormBatchNorm` with parameters.  `NormBatchNorm` draws random weights instead of the ones of its constructor, and `NormBatchNorm` and
`InducedNormBatchNorm` without parameters raise an exception.
-/

set_option linter.unusedSectionVars false

namespace E2

open Mat

variable {R L S W X Y : Type}

/-! ### Specification -/

/-- The inputs of an operation are admissible. -/
def BNOp.Ok (ok : X → Prop) : BNOp W X → Prop
  | .call _ x => ok x
  | _ => True

/-- After every history a reset succeeds, and from then on all outputs are those of a new module, for every continuation. -/
def BNClass.ResetsToNew (C : BNClass S W X Y) (ok : X → Prop) (affine : Bool) : Prop :=
  ∀ ops : List (BNOp W X), (∀ op ∈ ops, op.Ok ok) → ∃ o ys, C.run ops (C.construct affine) = some (o, ys) ∧
    ∀ u, ∃ o', C.resetParameters u o = some o' ∧
      ∀ later : List (BNOp W X), (∀ op ∈ later, op.Ok ok) → ∃ r r' zs, C.run later o' = some (r, zs) ∧ C.run later (C.construct affine) = some (r', zs)

/-- After `reset_running_stats` all outputs are those of a new module with the same parameters. -/
def BNClass.ForgetsBatches (C : BNClass S W X Y) (ok : X → Prop) (affine : Bool) : Prop :=
  ∀ ops : List (BNOp W X), (∀ op ∈ ops, op.Ok ok) → ∀ o ys, C.run ops (C.construct affine) = some (o, ys) →
    ∀ later : List (BNOp W X), (∀ op ∈ later, op.Ok ok) →
      (C.run later (C.resetRunning o)).map Prod.snd = (C.run later ⟨(C.construct affine).state, o.params⟩).map Prod.snd

/-! ### Proof -/

theorem fillLoop_apply (v : ℕ → S) (gs : List ℕ) (next : ℕ) (st : ℕ → S) (j : ℕ) :
    fillLoop v gs next st j = if next ≤ j ∧ j < next + gs.sum then v j else st j := by
  induction gs generalizing next st with
  | nil =>
    rw [fillLoop, if_neg]
    simp
  | cons g gs ih =>
    rw [fillLoop, ih, List.sum_cons]
    by_cases h1 : next + g ≤ j ∧ j < next + g + gs.sum
    · rw [if_pos h1, if_pos (by omega)]
    · rw [if_neg h1]
      by_cases h2 : next ≤ j ∧ j < next + g
      · rw [if_pos h2, if_pos (by omega)]
      · rw [if_neg h2, if_neg (by omega)]

/-- Field number `c` uses the statistics and parameters number `num c`, and no others; calls succeed. -/
structure BNClass.Local (C : BNClass S W X Y) (ok : X → Prop) (n : ℕ) (num : ℕ → ℕ) : Prop where
  lt : ∀ c < n, num c < C.groups.sum
  fwd : ∀ w w' tr st st' x, ok x → st.batches = st'.batches → (∀ c < n, w (num c) = w' (num c) ∧ st.stats (num c) = st'.stats (num c)) →
    ∃ s s' y, C.forward w tr st x = some (s, y) ∧ C.forward w' tr st' x = some (s', y) ∧ s.batches = s'.batches ∧ ∀ c < n, s.stats (num c) = s'.stats (num c)

/-- Two modules which differ only in entries which no field uses. -/
structure Sim (n : ℕ) (num : ℕ → ℕ) (o o' : BNObj S W) : Prop where
  batches : o.state.batches = o'.state.batches
  stats : ∀ c < n, o.state.stats (num c) = o'.state.stats (num c)
  params : Option.Rel (fun p p' => ∀ c < n, p (num c) = p' (num c)) o.params o'.params

section
variable {C : BNClass S W X Y} {ok : X → Prop} {n : ℕ} {num : ℕ → ℕ}

theorem Sim.refl (o : BNObj S W) : Sim n num o o := by
  refine ⟨rfl, fun _ _ => rfl, ?_⟩
  cases o.params with
  | none => exact .none
  | some p => exact .some fun _ _ => rfl

theorem Sim.getD {o o' : BNObj S W} (h : Sim n num o o') (d : ℕ → W) : ∀ c < n, (o.params.getD d) (num c) = (o'.params.getD d) (num c) := by
  have := h.params
  generalize o.params = p at this ⊢
  generalize o'.params = p' at this ⊢
  cases this with
  | none => exact fun _ _ => rfl
  | some h => exact h

theorem sim_run1 (hC : C.Local ok n num) {o o' : BNObj S W} (h : Sim n num o o') {op : BNOp W X} (hop : op.Ok ok) :
    Option.Rel (fun r r' => Sim n num r.1 r'.1 ∧ r.2 = r'.2) (C.run1 o op) (C.run1 o' op) := by
  have hreset : Sim n num (C.resetRunning o) (C.resetRunning o') := by
    refine ⟨rfl, fun c hc => ?_, h.params⟩
    simp only [BNClass.resetRunning, fillLoop_apply]
    have := hC.lt c hc
    rw [if_pos (by omega), if_pos (by omega)]
  cases op with
  | call tr x =>
    obtain ⟨s, s', y, h1, h2, h3, h4⟩ := hC.fwd _ _ tr o.state o'.state x hop h.batches fun c hc => ⟨h.getD (fun _ => C.param0) c hc, h.stats c hc⟩
    simp only [BNClass.run1, BNClass.call, h1, h2, Option.map_some]
    exact .some ⟨⟨h3, h4, h.params⟩, rfl⟩
  | step p =>
    refine .some ⟨⟨h.batches, h.stats, ?_⟩, rfl⟩
    have := h.params
    dsimp only
    generalize o.params = q at this ⊢
    generalize o'.params = q' at this ⊢
    cases this with
    | none => exact .none
    | some _ => exact .some fun _ _ => rfl
  | resetRunning => exact .some ⟨hreset, rfl⟩
  | resetParameters u =>
    have hp := h.params
    simp only [BNClass.run1, BNClass.resetParameters]
    generalize o.params = q at hp ⊢
    generalize o'.params = q' at hp ⊢
    cases hp with
    | none =>
      dsimp only
      split_ifs
      · exact .some ⟨⟨hreset.batches, hreset.stats, .none⟩, rfl⟩
      · exact .none
    | some hp =>
      refine .some ⟨⟨hreset.batches, hreset.stats, .some fun c hc => ?_⟩, rfl⟩
      have := hC.lt c hc
      have hlt : 0 ≤ num c ∧ num c < 0 + C.groups.sum := by omega
      simp only [fillLoop_apply, if_pos hlt]

theorem sim_run (hC : C.Local ok n num) {o o' : BNObj S W} (h : Sim n num o o') {ops : List (BNOp W X)} (hops : ∀ op ∈ ops, op.Ok ok) :
    Option.Rel (fun r r' => Sim n num r.1 r'.1 ∧ r.2 = r'.2) (C.run ops o) (C.run ops o') := by
  induction ops generalizing o o' with
  | nil => exact .some ⟨h, rfl⟩
  | cons op ops ih =>
    have h1 := sim_run1 hC h (hops op List.mem_cons_self)
    simp only [BNClass.run]
    generalize C.run1 o op = a at h1 ⊢
    generalize C.run1 o' op = b at h1 ⊢
    cases h1 with
    | none => exact .none
    | @some r r' h1 =>
      have h2 := ih h1.1 fun op hop => hops op (List.mem_cons_of_mem _ hop)
      simp only [Option.bind_some]
      generalize C.run ops r.1 = a at h2 ⊢
      generalize C.run ops r'.1 = b at h2 ⊢
      cases h2 with
      | none => exact .none
      | some h2 => exact .some ⟨h2.1, by simp only [h1.2, h2.2]⟩

theorem run1_affine {o : BNObj S W} {op : BNOp W X} {r : BNObj S W × List Y} (h : C.run1 o op = some r) : r.1.params.isSome = o.params.isSome := by
  cases op with
  | call tr x =>
    simp only [BNClass.run1, BNClass.call, Option.map_map, Option.map_eq_some_iff] at h
    obtain ⟨_, -, rfl⟩ := h
    rfl
  | step p => cases h; cases o.params <;> rfl
  | resetRunning => cases h; rfl
  | resetParameters u =>
    simp only [BNClass.run1, BNClass.resetParameters, Option.map_eq_some_iff] at h
    obtain ⟨o', h, rfl⟩ := h
    cases hp : o.params with
    | none =>
      rw [hp] at h
      dsimp only at h
      split_ifs at h
      cases h; rfl
    | some p => rw [hp] at h; cases h; rfl

theorem run_affine {o : BNObj S W} {ops : List (BNOp W X)} {r : BNObj S W × List Y} (h : C.run ops o = some r) : r.1.params.isSome = o.params.isSome := by
  induction ops generalizing o r with
  | nil => cases h; rfl
  | cons op ops ih =>
    simp only [BNClass.run, Option.bind_eq_some_iff, Option.map_eq_some_iff] at h
    obtain ⟨a, h1, b, h2, rfl⟩ := h
    rw [ih h2, run1_affine h1]

theorem run1_some (hC : C.Local ok n num) {o : BNObj S W} (ho : C.guarded = true ∨ o.params.isSome = true) {op : BNOp W X} (hop : op.Ok ok) :
    ∃ r, C.run1 o op = some r := by
  cases op with
  | call tr x =>
    obtain ⟨s, s', y, h1, -⟩ := hC.fwd (o.params.getD fun _ => C.param0) _ tr o.state o.state x hop rfl fun c hc => ⟨rfl, rfl⟩
    exact ⟨(⟨s, o.params⟩, [y]), by simp only [BNClass.run1, BNClass.call, h1, Option.map_some]⟩
  | step p => exact ⟨_, rfl⟩
  | resetRunning => exact ⟨_, rfl⟩
  | resetParameters u =>
    simp only [BNClass.run1, BNClass.resetParameters]
    cases hp : o.params with
    | none =>
      rw [hp] at ho
      rw [show C.guarded = true by simpa using ho]
      exact ⟨_, rfl⟩
    | some p => exact ⟨_, rfl⟩

theorem run_some (hC : C.Local ok n num) {o : BNObj S W} (ho : C.guarded = true ∨ o.params.isSome = true) {ops : List (BNOp W X)} (hops : ∀ op ∈ ops, op.Ok ok) :
    ∃ r, C.run ops o = some r := by
  induction ops generalizing o with
  | nil => exact ⟨_, rfl⟩
  | cons op ops ih =>
    obtain ⟨a, ha⟩ := run1_some hC ho (hops op List.mem_cons_self)
    obtain ⟨b, hb⟩ := ih (o := a.1) (by rw [run1_affine ha]; exact ho) fun op hop => hops op (List.mem_cons_of_mem _ hop)
    exact ⟨(b.1, a.2 ++ b.2), by simp only [BNClass.run, ha, Option.bind_some, hb, Option.map_some]⟩

theorem sim_reset (hC : C.Local ok n num) (hd : C.drawn = false) {o o' : BNObj S W} {u : ℕ → W} (h : C.resetParameters u o = some o') :
    Sim n num o' (C.construct o.params.isSome) := by
  have hst : ∀ c < n, (C.resetRunning o).state.stats (num c) = C.stat0 := fun c hc => by
    have := hC.lt c hc
    simp only [BNClass.resetRunning, fillLoop_apply]
    rw [if_pos (by omega)]
  simp only [BNClass.resetParameters, hd] at h
  cases hp : o.params with
  | none =>
    rw [hp] at h
    dsimp only at h
    split_ifs at h
    cases h
    exact ⟨rfl, hst, .none⟩
  | some p =>
    rw [hp] at h
    cases h
    refine ⟨rfl, hst, .some fun c hc => ?_⟩
    have := hC.lt c hc
    rw [fillLoop_apply, if_pos (by omega)]
    rfl

theorem resets_of_local (hC : C.Local ok n num) (hd : C.drawn = false) {affine : Bool} (ha : C.guarded = true ∨ affine = true) : C.ResetsToNew ok affine := by
  intro ops hops
  have ha' : C.guarded = true ∨ (C.construct affine).params.isSome = true := by
    rcases ha with ha | ha
    · exact .inl ha
    · exact .inr (by rw [ha]; rfl)
  obtain ⟨⟨o, ys⟩, h1⟩ := run_some hC ha' hops
  refine ⟨o, ys, h1, fun u => ?_⟩
  have haff : o.params.isSome = affine := by
    rw [run_affine h1]
    cases affine <;> rfl
  obtain ⟨⟨o', zs⟩, h2⟩ := run1_some hC (o := o) (by rw [run_affine h1]; exact ha') (op := .resetParameters u) trivial
  have h3 : C.resetParameters u o = some o' := by
    simp only [BNClass.run1, Option.map_eq_some_iff] at h2
    obtain ⟨a, h2, h4⟩ := h2
    cases h4
    exact h2
  refine ⟨o', h3, fun later hl => ?_⟩
  have hs := sim_reset hC hd h3
  rw [haff] at hs
  have hr := sim_run hC hs hl
  obtain ⟨⟨q, zs⟩, hq⟩ := run_some hC ha' hl
  rw [hq] at hr ⊢
  generalize C.run later o' = a at hr ⊢
  cases hr with
  | @some r _ hr => exact ⟨r.1, q, zs, by rw [show zs = r.2 from hr.2.symm], rfl⟩

theorem forgets_of_local (hC : C.Local ok n num) (affine : Bool) : C.ForgetsBatches ok affine := by
  intro ops _ o ys _ later hl
  have hs : Sim n num (C.resetRunning o) ⟨(C.construct affine).state, o.params⟩ := by
    refine ⟨rfl, fun c hc => ?_, (Sim.refl (n := n) (num := num) o).params⟩
    have := hC.lt c hc
    simp only [BNClass.resetRunning, fillLoop_apply, BNClass.construct]
    rw [if_pos (by omega)]
  have hr := sim_run hC hs hl
  generalize C.run later (C.resetRunning o) = a at hr ⊢
  generalize C.run later _ = b at hr ⊢
  cases hr with
  | none => rfl
  | some hr => simp [hr.2]

end

/-! ### The four classes -/

section
variable [DecidableEq R] [DecidableEq L]

theorem statIdx_lt (lab : R → L) (t : List R) (order : List L) (hn : order.Nodup) (hm : ∀ l, l ∈ order ↔ l ∈ t.map lab) {c : ℕ} (hc : c < t.length) :
    statIdx (t.map lab) order c < (order.map (labelCount (t.map lab))).sum := by
  have hperm := fieldOrder_perm (t.map lab) order hn fun l hl => (hm l).2 hl
  have hmem : c ∈ fieldOrder (t.map lab) order := hperm.mem_iff.2 (List.mem_range.2 (by simpa using hc))
  refine (List.idxOf_lt_length_iff.2 hmem).trans_le (le_of_eq ?_)
  rw [fieldOrder, List.length_flatMap]
  congr 1
  exact List.map_congr_left fun l _ => posOf_length_eq _ l

/-- A tensor is determined by its type and its fields. -/
theorem ext_fieldOf {n : ℕ} {sz : R → ℕ} {t : List R} {x y : GTensor R (Fin n → ℝ)} (hx : x.WF sz) (hy : y.WF sz) (hxt : x.ty = t) (hyt : y.ty = t)
    (h : ∀ (c : ℕ) r, t[c]? = some r → fieldOf sz x c = fieldOf sz y c) : x = y := by
  refine GTensor.ext_fields hx hy (hxt.trans hyt.symm) (List.ext_getElem ?_ fun c h1 h2 => ?_)
  · rw [GTensor.fields_length, GTensor.fields_length, hxt, hyt]
  · have hc : c < t.length := by rwa [GTensor.fields_length, hxt] at h1
    have := h c _ (List.getElem?_eq_getElem hc)
    simpa [fieldOf, h1, h2] using this

theorem module_local (M : (n : ℕ) → (ℕ → W) → Normaliser (Fin n) L S) (sz : R → ℕ) (lab : R → L) (t : List R) (contig : L → Bool) (order : List L)
    (hn : order.Nodup) (hm : ∀ l, l ∈ order ↔ l ∈ t.map lab) (hpos : ∀ r ∈ t, 0 < sz r) (hsz : ∀ n w, ∀ r ∈ t, (M n w).size (lab r) = sz r)
    (hf : ∀ l ∈ order, FlagOk (contig l) (labelChannels (t.map lab) (t.map sz) l))
    (ha : ∀ n w b r k fld st, r ∈ t → fld.length = sz r → ((M n w).apply b (lab r) k fld st).length = sz r)
    (hu : ∀ n w w' l k m fld st, (M n w).update l k m fld st = (M n w').update l k m fld st)
    (hw : ∀ n w w' b l k fld st, w k = w' k → (M n w).apply b l k fld st = (M n w').apply b l k fld st)
    (out : (x : Batch R) → List (Fin x.1 → ℝ)) (hout : ∀ x, x.Ok sz t → (out x).length = x.2.2.data.length)
    (C : BNClass S W (Batch R) (BNOut R)) (hg : C.groups = order.map (labelCount (t.map lab)))
    (hC : ∀ w tr st x, C.forward w tr st x = (bnModule (M x.1 w) sz t (t.map lab) contig order tr st (out x) x.2.2).map fun r => (r.1, ⟨x.1, r.2⟩)) :
    C.Local (Batch.Ok sz t) t.length (statIdx (t.map lab) order) := by
  refine ⟨fun c hc => by rw [hg]; exact statIdx_lt lab t order hn hm hc, fun w w' tr st st' x hx hb hs => ?_⟩
  have hfld := fun w st => bnModule_fields (P := Fin x.1) (M x.1 w) sz lab t contig order hn hm hpos (hsz x.1 w) hf (ha x.1 w) tr st x.2.2 hx.2.1 hx.2.2.1
    (out x) (hout x hx)
  obtain ⟨s, y, a1, a2, a3, a4, -, a5⟩ := hfld w st
  obtain ⟨s', y', b1, b2, b3, b4, -, b5⟩ := hfld w' st'
  have hst : ∀ c r, t[c]? = some r → s.stats (statIdx (t.map lab) order c) = s'.stats (statIdx (t.map lab) order c) := fun c r hr => by
    have hc : c < t.length := (List.getElem?_eq_some_iff.1 hr).1
    rw [(a5 c r hr).2.1, (b5 c r hr).2.1, (hs c hc).2, hb, hu x.1 w w']
  have hy : y = y' := ext_fieldOf a2 b2 a3 b3 fun c r hr => by
    have hc : c < t.length := (List.getElem?_eq_some_iff.1 hr).1
    rw [(a5 c r hr).2.2, (b5 c r hr).2.2, hst c r hr]
    exact hw x.1 w w' tr _ _ _ _ (hs c hc).1
  subst hy
  refine ⟨s, s', ⟨x.1, y⟩, by rw [hC, a1]; rfl, by rw [hC, b1]; rfl, by rw [a4, b4, hb], fun c hc => hst c _ (List.getElem?_eq_getElem hc)⟩

theorem norm_local (sz : R → ℕ) (t : List R) (hpos : ∀ r ∈ t, 0 < sz r) (momentum : Option ℝ) (eps : ℝ) :
    (normClass sz t momentum eps).Local (Batch.Ok sz t) t.length (statIdx (t.map sz) (firstKeys (t.map sz))) :=
  module_local (fun _ w => normBN momentum eps w) sz sz t (fun s => (contigFlags (t.map sz) s).getD false) _ (firstKeys_nodup _) (fun l => mem_firstKeys _ l) hpos
    (fun _ _ _ _ => rfl) (fun l _ => bn_flagOk sz sz t hpos l) (fun _ _ b r k fld s _ h => by simpa [normBN] using h) (fun _ _ _ _ _ _ _ _ => rfl)
    (fun _ w w' b l k fld st h => by simp only [normBN, h]) (fun x => x.2.2.data) (fun _ _ => rfl) _ rfl (fun _ _ _ _ => rfl)

theorem induced_local (sz sub : R → ℕ) (t : List R) (hpos : ∀ r ∈ t, 0 < sz r) (momentum : Option ℝ) (eps : ℝ) :
    (inducedClass sz sub t momentum eps).Local (Batch.Ok sz t) t.length
      (statIdx (t.map fun r => (sz r, sub r)) (firstKeys (t.map fun r => (sz r, sub r)))) :=
  module_local (fun _ w => inducedBN momentum eps w) sz (fun r => (sz r, sub r)) t (fun s => (contigFlags (t.map fun r => (sz r, sub r)) s).getD false) _
    (firstKeys_nodup _) (fun l => mem_firstKeys _ l) hpos
    (fun _ _ _ _ => rfl) (fun l _ => bn_flagOk sz _ t hpos l) (fun _ _ b r k fld s _ h => by simpa [inducedBN] using h) (fun _ _ _ _ _ _ _ _ => rfl)
    (fun _ w w' b l k fld st h => by simp only [inducedBN, h]) (fun x => x.2.2.data) (fun _ _ => rfl) _ rfl (fun _ _ _ _ => rfl)

theorem inner_local (sz : R → ℕ) (t : List R) (hpos : ∀ r ∈ t, 0 < sz r) (momentum : Option ℝ) (eps : ℝ) (track : Bool) :
    (innerClass sz t momentum eps track).Local (Batch.Ok sz t) t.length (statIdx (t.map sz) (firstKeys (t.map sz))) :=
  module_local (fun _ w => innerBN momentum eps track (fun k => (w k).1) (fun k => (w k).2)) sz sz t
    (fun s => ((indexesFromLabels sz t (t.map sz) s).map fun e => e.1).getD false) _ (firstKeys_nodup _) (fun l => mem_firstKeys _ l) hpos
    (fun _ _ _ _ => rfl) (fun l hl => inner_flagOk sz t hpos ((mem_firstKeys _ l).1 hl)) (fun _ _ b r k fld s _ h => by simpa [innerBN] using h)
    (fun _ _ _ _ _ _ _ _ => rfl) (fun _ w w' b l k fld st h => by simp only [innerBN, h]) (fun x => x.2.1) (fun _ h => h.2.2.2) _ rfl (fun _ _ _ _ => rfl)

theorem gnorm_local {El : Type} (rep : R → Repr El) (t order : List R) (hn : order.Nodup) (hm : ∀ r, r ∈ order ↔ r ∈ t) (hpos : ∀ r ∈ t, 0 < (rep r).size)
    (momentum : Option ℝ) (eps : ℝ) :
    (gnormClass rep t order momentum eps).Local (Batch.Ok (fun r => (rep r).size) t) t.length (statIdx t order) := by
  have hid : t.map (fun r => r) = t := List.map_id t
  have := module_local (fun n w => gnormBN (P := Fin n) rep momentum eps (fun k o => (w k o).1) (fun k o => (w k o).2)) (fun r => (rep r).size) (fun r => r) t
    (fun r => (contigFlags t r).getD false) order hn (fun l => by rw [hid]; exact hm l) hpos (fun _ _ _ _ => rfl)
    (fun l _ => by
      have := bn_flagOk (fun r => (rep r).size) (fun r => r) t hpos l
      rw [hid] at this ⊢
      exact this)
    (fun _ _ tr r k fld s _ h => by simp [gnormBN, chAct_length]) (fun _ _ _ _ _ _ _ _ => by simp only [gnormBN]) (fun _ w w' b l k fld st h => by simp only [gnormBN, h])
    (fun x => x.2.1) (fun _ h => h.2.2.2) (gnormClass rep t order momentum eps) (by rw [hid]; rfl) (fun w tr st x => by simp only [hid, gnormClass, gnormBatchNorm])
  rwa [hid] at this

/-- **C101 for `GNormBatchNorm`.** -/
theorem c101_gnorm {El : Type} (rep : R → Repr El) (t order : List R) (hn : order.Nodup) (hm : ∀ r, r ∈ order ↔ r ∈ t) (hpos : ∀ r ∈ t, 0 < (rep r).size)
    (momentum : Option ℝ) (eps : ℝ) (affine : Bool) :
    (gnormClass rep t order momentum eps).ResetsToNew (Batch.Ok (fun r => (rep r).size) t) affine ∧
    (gnormClass rep t order momentum eps).ForgetsBatches (Batch.Ok (fun r => (rep r).size) t) affine :=
  ⟨resets_of_local (gnorm_local rep t order hn hm hpos momentum eps) rfl (.inl rfl), forgets_of_local (gnorm_local rep t order hn hm hpos momentum eps) affine⟩

/-- **C101 for `InnerBatchNorm`.** -/
theorem c101_inner (sz : R → ℕ) (t : List R) (hpos : ∀ r ∈ t, 0 < sz r) (momentum : Option ℝ) (eps : ℝ) (track affine : Bool) :
    (innerClass sz t momentum eps track).ResetsToNew (Batch.Ok sz t) affine ∧ (innerClass sz t momentum eps track).ForgetsBatches (Batch.Ok sz t) affine :=
  ⟨resets_of_local (inner_local sz t hpos momentum eps track) rfl (.inl rfl), forgets_of_local (inner_local sz t hpos momentum eps track) affine⟩

/-- **C101 for `InducedNormBatchNorm`**, `reset_parameters` only with parameters. -/
theorem c101_induced_partial (sz sub : R → ℕ) (t : List R) (hpos : ∀ r ∈ t, 0 < sz r) (momentum : Option ℝ) (eps : ℝ) :
    (inducedClass sz sub t momentum eps).ResetsToNew (Batch.Ok sz t) true ∧
    ∀ affine, (inducedClass sz sub t momentum eps).ForgetsBatches (Batch.Ok sz t) affine :=
  ⟨resets_of_local (induced_local sz sub t hpos momentum eps) rfl (.inr rfl), fun affine => forgets_of_local (induced_local sz sub t hpos momentum eps) affine⟩

/-- **C101 for `NormBatchNorm`**, only `reset_running_stats`. -/
theorem c101_norm_partial (sz : R → ℕ) (t : List R) (hpos : ∀ r ∈ t, 0 < sz r) (momentum : Option ℝ) (eps : ℝ) (affine : Bool) :
    (normClass sz t momentum eps).ForgetsBatches (Batch.Ok sz t) affine := forgets_of_local (norm_local sz t hpos momentum eps) affine

/-- `reset_parameters` of `NormBatchNorm` and `InducedNormBatchNorm` without parameters raises an exception, whatever happened before. -/
theorem c101_no_affine (sz sub : R → ℕ) (t : List R) (ht : t ≠ []) (momentum : Option ℝ) (eps : ℝ) :
    (∀ ops o ys, (normClass sz t momentum eps).run ops ((normClass sz t momentum eps).construct false) = some (o, ys) →
      ∀ u, (normClass sz t momentum eps).resetParameters u o = none) ∧
    ∀ ops o ys, (inducedClass sz sub t momentum eps).run ops ((inducedClass sz sub t momentum eps).construct false) = some (o, ys) →
      ∀ u, (inducedClass sz sub t momentum eps).resetParameters u o = none := by
  have key : ∀ (C : BNClass ℝ ℝ (BNIn R) (BNOut R)), C.guarded = false → C.groups ≠ [] →
      ∀ ops o ys, C.run ops (C.construct false) = some (o, ys) → ∀ u, C.resetParameters u o = none := by
    intro C hg hgr ops o ys h u
    have := run_affine h
    have hp : o.params = none := by simpa [BNClass.construct] using this
    rw [BNClass.resetParameters, hp]
    simp [hg, hgr]
  obtain ⟨r, t, rfl⟩ := List.exists_cons_of_ne_nil ht
  refine ⟨key _ rfl ?_, key _ rfl ?_⟩
  · have h := (mem_firstKeys ((r :: t).map sz) (sz r)).2 (by simp)
    intro h0
    rw [List.map_eq_nil_iff.1 h0] at h
    simp at h
  · have h := (mem_firstKeys ((r :: t).map fun r => (sz r, sub r)) (sz r, sub r)).2 (by simp)
    intro h0
    rw [List.map_eq_nil_iff.1 h0] at h
    simp at h

/-- After `reset_parameters` the fields of the output of `NormBatchNorm` in evaluation mode are those of a new module multiplied by the numbers which were drawn, and
since `uniform_` draws from `[0, 1)` there is always an input on which the reset module differs from a new one. -/
theorem c101_norm_drawn (sz : R → ℕ) (t : List R) (ht : t ≠ []) (hpos : ∀ r ∈ t, 0 < sz r) (momentum : Option ℝ) (eps : ℝ) (heps : 0 < eps) :
    ∃ num : ℕ → ℕ, (∀ c c', c < t.length → c' < t.length → num c = num c' → c = c') ∧
    ∀ ops : List (BNOp ℝ (BNIn R)), (∀ op ∈ ops, op.Ok (Batch.Ok sz t)) →
      ∃ o ys, (normClass sz t momentum eps).run ops ((normClass sz t momentum eps).construct true) = some (o, ys) ∧
      ∀ u, ∃ o', (normClass sz t momentum eps).resetParameters u o = some o' ∧
        (∀ x : BNIn R, Batch.Ok sz t x → ∃ r r' y y', (normClass sz t momentum eps).call false o' x = some (r, ⟨x.1, y⟩) ∧
          (normClass sz t momentum eps).call false ((normClass sz t momentum eps).construct true) x = some (r', ⟨x.1, y'⟩) ∧
          ∀ c < t.length, fieldOf sz y c = (fieldOf sz y' c).map fun v p => u (num c) * v p) ∧
        ((∀ k, 0 ≤ u k ∧ u k < 1) → ∃ x : BNIn R, Batch.Ok sz t x ∧ ((normClass sz t momentum eps).call false o' x).map Prod.snd ≠
          ((normClass sz t momentum eps).call false ((normClass sz t momentum eps).construct true) x).map Prod.snd) := by
  set C := normClass sz t momentum eps with hCdef
  set lo := firstKeys (t.map sz) with hlo
  have hC := norm_local sz t hpos momentum eps
  rw [← hCdef, ← hlo] at hC
  refine ⟨statIdx (t.map sz) lo, fun c c' hc hc' h => statIdx_inj sz t lo (firstKeys_nodup _) (fun l => mem_firstKeys _ l) hc hc' h, fun ops hops => ?_⟩
  obtain ⟨⟨o, ys⟩, h1⟩ := run_some hC (o := C.construct true) (.inr rfl) hops
  refine ⟨o, ys, h1, fun u => ?_⟩
  obtain ⟨p, hp⟩ : ∃ p, o.params = some p := Option.isSome_iff_exists.1 (run_affine h1)
  have hro : C.resetParameters u o = some ⟨(C.resetRunning o).state, some (fillLoop u C.groups 0 p)⟩ := by
    rw [BNClass.resetParameters, hp]
    rfl
  have hst : ∀ c < t.length, (C.resetRunning o).state.stats (statIdx (t.map sz) lo c) = 1 := fun c hc => by
    have := hC.lt c hc
    simp only [BNClass.resetRunning, fillLoop_apply]
    rw [if_pos (by omega)]
    rfl
  have hwu : ∀ c < t.length, fillLoop u C.groups 0 p (statIdx (t.map sz) lo c) = u (statIdx (t.map sz) lo c) := fun c hc => by
    have := hC.lt c hc
    rw [fillLoop_apply, if_pos (by omega)]
  have key : ∀ x : BNIn R, Batch.Ok sz t x → ∃ r r' y y', C.call false ⟨(C.resetRunning o).state, some (fillLoop u C.groups 0 p)⟩ x = some (r, ⟨x.1, y⟩) ∧
      C.call false (C.construct true) x = some (r', ⟨x.1, y'⟩) ∧
      ∀ c < t.length, fieldOf sz y c = (fieldOf sz y' c).map (fun v p => u (statIdx (t.map sz) lo c) * v p) ∧
        fieldOf sz y' c = (fieldOf sz x.2.2 c).map (fun v p => v p * (1 / √(1 + eps))) ∧ (fieldOf sz x.2.2 c).length = sz (t.getD c (t.head ht)) := by
    intro x hx
    have hfld := fun w st => bnModule_fields (P := Fin x.1) (normBN momentum eps w) sz sz t (fun s => (contigFlags (t.map sz) s).getD false) lo (firstKeys_nodup _)
      (fun l => mem_firstKeys _ l) hpos (fun _ _ => rfl) (fun l _ => bn_flagOk sz sz t hpos l) (fun b r k fld s _ h => by simpa [normBN] using h)
      false st x.2.2 hx.2.1 hx.2.2.1 x.2.2.data rfl
    obtain ⟨s, y, a1, -, -, -, a4, a5⟩ := hfld (fillLoop u C.groups 0 p) (C.resetRunning o).state
    obtain ⟨s', y', b1, -, -, -, b4, b5⟩ := hfld (fun _ => 1) ⟨0, fun _ => 1⟩
    refine ⟨⟨s, some (fillLoop u C.groups 0 p)⟩, ⟨s', some fun _ => 1⟩, y, y', ?_, ?_, fun c hc => ?_⟩
    · change ((normBatchNorm sz t momentum eps (fillLoop u C.groups 0 p) false (C.resetRunning o).state x.2.2).map _).map _ = _
      rw [normBatchNorm, a1]
      rfl
    · change ((normBatchNorm sz t momentum eps (fun _ => 1) false ⟨0, fun _ => 1⟩ x.2.2).map _).map _ = _
      rw [normBatchNorm, b1]
      rfl
    · have hr := List.getElem?_eq_getElem hc
      obtain ⟨q1, -, q2⟩ := a5 c _ hr
      obtain ⟨-, -, q3⟩ := b5 c _ hr
      rw [a4 rfl] at q2
      rw [b4 rfl] at q3
      simp only [normBN, hst c hc, hwu c hc] at q2 q3
      refine ⟨?_, q3, by rw [q1]; simp [hc]⟩
      rw [q2, q3, List.map_map]
      refine List.map_congr_left fun v _ => funext fun p => ?_
      simp only [Function.comp]
      ring
  refine ⟨_, hro, fun x hx => ?_, fun hu => ?_⟩
  · obtain ⟨r, r', y, y', e1, e2, e3⟩ := key x hx
    exact ⟨r, r', y, y', e1, e2, fun c hc => (e3 c hc).1⟩
  · let x : BNIn R := ⟨1, List.replicate (typeSize sz t) (fun _ => 1), ⟨t, List.replicate (typeSize sz t) fun _ => 1⟩⟩
    have hx : Batch.Ok sz t x := ⟨Nat.one_pos, ⟨ht, by simp [x]⟩, rfl, rfl⟩
    refine ⟨x, hx, fun heq => ?_⟩
    obtain ⟨r, r', y, y', e1, e2, e3⟩ := key x hx
    rw [e1, e2] at heq
    simp only [Option.map_some, Option.some.injEq, Sigma.mk.injEq, heq_eq_eq, true_and] at heq
    subst heq
    have h0 : 0 < t.length := List.length_pos_iff.2 ht
    obtain ⟨g1, g2, g3⟩ := e3 0 h0
    have hne : fieldOf sz y 0 ≠ [] := by
      rw [g2]
      intro h
      have := congrArg List.length h
      rw [List.length_map, g3] at this
      have h5 := hpos (t.head ht) (List.head_mem ht)
      have h6 : t.getD 0 (t.head ht) = t.head ht := by cases t <;> simp at ht ⊢
      rw [h6] at this
      simp at this
      omega
    obtain ⟨v, l, hv⟩ := List.exists_cons_of_ne_nil hne
    have hv1 : v 0 = 1 * (1 / √(1 + eps)) := by
      rw [g2] at hv
      have hmem : v ∈ List.map (fun v p => v p * (1 / √(1 + eps))) (fieldOf sz x.2.2 0) := by rw [hv]; exact List.mem_cons_self
      obtain ⟨w, hw, rfl⟩ := List.mem_map.1 hmem
      have hw' : w ∈ x.2.2.data := by
        have hfl := GTensor.fields_flatten (sz := sz) hx.2.1
        rw [← hfl]
        refine List.mem_flatten.2 ⟨fieldOf sz x.2.2 0, ?_, hw⟩
        have hl : 0 < (x.2.2.fields sz).length := by rw [GTensor.fields_length]; exact h0
        rw [fieldOf, List.getElem?_eq_getElem hl]
        exact List.getElem_mem hl
      rw [List.eq_of_mem_replicate hw']
    have hpos1 : 0 < v 0 := by
      rw [hv1]
      have : 0 < √(1 + eps) := Real.sqrt_pos.2 (by linarith)
      positivity
    rw [hv, List.map_cons, List.cons.injEq] at g1
    have := congrFun g1.1 0
    have h7 := (hu (statIdx (t.map sz) lo 0)).2
    nlinarith

end

/-- Two fields of sizes 2 and 1: a batch in training mode, a step of an optimiser and a reset of `InnerBatchNorm`. -/
example (a b c : ℝ) : ∃ o ys, (innerClass id [2, 1] none 1 true).run
      [.call true ⟨1, [0, 0, 0], ⟨[2, 1], [![a], ![b], ![c]]⟩⟩, .step fun _ => (5, 7)] ((innerClass (R := ℕ) id [2, 1] none 1 true).construct true) = some (o, ys) ∧
    ∀ u, ∃ o', (innerClass id [2, 1] none 1 true).resetParameters u o = some o' ∧ ∃ r r' zs,
      (innerClass id [2, 1] none 1 true).run [.call false ⟨1, [0, 0, 0], ⟨[2, 1], [![c], ![b], ![a]]⟩⟩] o' = some (r, zs) ∧
      (innerClass id [2, 1] none 1 true).run [.call false ⟨1, [0, 0, 0], ⟨[2, 1], [![c], ![b], ![a]]⟩⟩] ((innerClass (R := ℕ) id [2, 1] none 1 true).construct true) =
        some (r', zs) := by
  obtain ⟨o, ys, h1, h2⟩ := (c101_inner (R := ℕ) id [2, 1] (by simp) none 1 true true).1
    [.call true ⟨1, [0, 0, 0], ⟨[2, 1], [![a], ![b], ![c]]⟩⟩, .step fun _ => (5, 7)] (by simp [BNOp.Ok, Batch.Ok, GTensor.WF]; rfl)
  refine ⟨o, ys, h1, fun u => ?_⟩
  obtain ⟨o', h3, h4⟩ := h2 u
  exact ⟨o', h3, h4 [.call false ⟨1, [0, 0, 0], ⟨[2, 1], [![c], ![b], ![a]]⟩⟩] (by simp [BNOp.Ok, Batch.Ok, GTensor.WF]; rfl)⟩

/-- `NormBatchNorm` reset at once after its construction differs from a new one, and cannot be reset without parameters. -/
example (u : ℕ → ℝ) (hu : ∀ k, 0 ≤ u k ∧ u k < 1) :
    (∃ o', (normClass (R := ℕ) id [2, 1] none 1).resetParameters u ((normClass (R := ℕ) id [2, 1] none 1).construct true) = some o' ∧
      ∃ x : BNIn ℕ, ((normClass id [2, 1] none 1).call false o' x).map Prod.snd ≠
        ((normClass id [2, 1] none 1).call false ((normClass (R := ℕ) id [2, 1] none 1).construct true) x).map Prod.snd) ∧
    (normClass (R := ℕ) id [2, 1] none 1).resetParameters u ((normClass (R := ℕ) id [2, 1] none 1).construct false) = none := by
  obtain ⟨num, -, h⟩ := c101_norm_drawn (R := ℕ) id [2, 1] (by simp) (by simp) none 1 one_pos
  obtain ⟨o, ys, h1, h2⟩ := h [] (by simp)
  cases h1
  obtain ⟨o', h3, -, h4⟩ := h2 u
  obtain ⟨x, -, hx⟩ := h4 hu
  exact ⟨⟨o', h3, x, hx⟩, (c101_no_affine (R := ℕ) id id [2, 1] (by simp) none 1).1 [] _ _ rfl u⟩

/-- `GNormBatchNorm` on three regular fields of `C_4`, and `InducedNormBatchNorm` on subfields of size 2 in fields of size 4. -/
example : (∃ r, Cyclic.regular 4 = some r ∧ r.size = 4 ∧
      (gnormClass (fun _ : Bool => r) [true, false, true] [false, true] none 1).ResetsToNew (Batch.Ok (fun _ => r.size) [true, false, true]) true) ∧
    (inducedClass (R := ℕ) (fun _ => 4) (fun _ => 2) [0, 1] none 1).ResetsToNew (Batch.Ok (fun _ => 4) [0, 1]) true := by
  refine ⟨?_, (c101_induced_partial (R := ℕ) (fun _ => 4) (fun _ => 2) [0, 1] (by simp) none 1).1⟩
  obtain ⟨r, h1, h2, h3⟩ := c12_cyclic_regular 4 (by norm_num)
  have hs : r.size = 4 := h2.size.trans (Cyclic.order_eq 4)
  exact ⟨r, h1, hs, (c101_gnorm (fun _ : Bool => r) [true, false, true] [false, true] (by simp) (by simp) (by simp [hs]) none 1 true).1⟩

end E2
