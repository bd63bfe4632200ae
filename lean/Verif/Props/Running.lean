import Verif.Props.RunningSpec
import Verif.Props.GNorm
import Mathlib.Tactic.FieldSimp

/-!
Running statistics (C64): over any history of calls in training and evaluation mode, on batches of any sizes, the running statistics of each field are the
moving averages of the statistics of the training batches, and `forward` normalises with them.
-/

set_option linter.unusedSectionVars false

namespace E2

open Finset Mat

variable {R L S P : Type}

theorem movingAverage_step (momentum : Option ℝ) (init : ℝ) (vs : List ℝ) (s v : ℝ) (h : MovingAverage momentum init vs s) :
    MovingAverage momentum init (vs ++ [v]) (running (avgFactor momentum (vs.length + 1)) v s) := by
  cases momentum with
  | some m =>
    simp only [MovingAverage] at h ⊢
    rw [h, running, avgFactor, List.length_append, List.length_singleton, Finset.sum_range_succ]
    have e1 : (vs ++ [v]).getD vs.length 0 = v := by simp [List.getD]
    have e2 : ∑ i ∈ range vs.length, m * (1 - m) ^ (vs.length + 1 - 1 - i) * (vs ++ [v]).getD i 0
        = (1 - m) * ∑ i ∈ range vs.length, m * (1 - m) ^ (vs.length - 1 - i) * vs.getD i 0 := by
      rw [Finset.mul_sum]
      refine Finset.sum_congr rfl fun i hi => ?_
      have hi := Finset.mem_range.1 hi
      have e3 : (vs ++ [v]).getD i 0 = vs.getD i 0 := by simp [List.getD, List.getElem?_append_left hi]
      have e4 : vs.length + 1 - 1 - i = (vs.length - 1 - i) + 1 := by omega
      rw [e3, e4, pow_succ]
      ring
    rw [e1, e2]
    simp only [Nat.add_sub_cancel, Nat.sub_self, pow_zero, pow_succ]
    ring
  | none =>
    simp only [MovingAverage] at h ⊢
    rw [if_neg (by simp)]
    simp only [running, avgFactor, List.sum_append, List.sum_singleton, List.length_append, List.length_singleton]
    have hne : ((vs.length : ℝ) + 1) ≠ 0 := by positivity
    split_ifs at h with h0
    · subst h0
      simp
    · have hl : (vs.length : ℝ) ≠ 0 := by
        have := List.length_pos_iff.2 h0
        positivity
      rw [h]
      push_cast
      field_simp
      ring

/-! ### One call -/

section generic
variable [DecidableEq R] [DecidableEq L]

/-- The number of the statistics of field `c`. -/
def statIdx (labels order : List L) (c : ℕ) : ℕ := (fieldOrder labels order).idxOf c

theorem statIdx_inj (lab : R → L) (t : List R) (order : List L) (hn : order.Nodup) (hm : ∀ l, l ∈ order ↔ l ∈ t.map lab) {c c' : ℕ} (hc : c < t.length)
    (hc' : c' < t.length) (h : statIdx (t.map lab) order c = statIdx (t.map lab) order c') : c = c' := by
  have hperm := fieldOrder_perm (t.map lab) order hn fun l hl => (hm l).2 hl
  refine (List.idxOf_inj (hperm.mem_iff.2 (List.mem_range.2 (by simpa using hc)))).1 h

theorem bnModule_fields (M : Normaliser P L S) (sz : R → ℕ) (lab : R → L) (t : List R) (contig : L → Bool) (order : List L)
    (hn : order.Nodup) (hm : ∀ l, l ∈ order ↔ l ∈ t.map lab) (hpos : ∀ r ∈ t, 0 < sz r) (hsz : ∀ r ∈ t, M.size (lab r) = sz r)
    (hf : ∀ l ∈ order, FlagOk (contig l) (labelChannels (t.map lab) (t.map sz) l))
    (ha : ∀ b r k fld st, r ∈ t → fld.length = sz r → (M.apply b (lab r) k fld st).length = sz r)
    (training : Bool) (st : NormState S) (x : GTensor R (P → ℝ)) (hx : x.WF sz) (hxt : x.ty = t) (out : List (P → ℝ)) (ho : out.length = x.data.length) :
    ∃ st' y, bnModule M sz t (t.map lab) contig order training st out x = some (st', y) ∧ y.WF sz ∧ y.ty = t ∧
      st'.batches = (if training then st.batches + 1 else st.batches) ∧ (training = false → st' = st) ∧
      ∀ (c : ℕ) r, t[c]? = some r → (fieldOf sz x c).length = sz r ∧
        st'.stats (statIdx (t.map lab) order c) = (if training then M.update (lab r) (statIdx (t.map lab) order c) (st.batches + 1) (fieldOf sz x c)
          (st.stats (statIdx (t.map lab) order c)) else st.stats (statIdx (t.map lab) order c)) ∧
        fieldOf sz y c = M.apply training (lab r) (statIdx (t.map lab) order c) (fieldOf sz x c) (st'.stats (statIdx (t.map lab) order c)) := by
  have hordr : ∀ l ∈ order, ∃ r ∈ t, lab r = l := fun l hl => by simpa using (hm l).1 hl
  have hlab : ∀ (c : ℕ) l, (t.map lab)[c]? = some l → ∃ r, t[c]? = some r ∧ lab r = l := fun c l h => by simpa using h
  have hs : ∀ l ∈ order, 0 < M.size l := by
    intro l hl
    obtain ⟨r, hr, rfl⟩ := hordr l hl
    rw [hsz r hr]; exact hpos r hr
  have hsi : ∀ (c : ℕ) l, (t.map lab)[c]? = some l → (t.map sz)[c]? = some (M.size l) := by
    intro c l h
    obtain ⟨r, hr, rfl⟩ := hlab c l h
    rw [List.getElem?_map, hr, Option.map_some, hsz r (List.mem_of_getElem? hr)]
  have ha' : ∀ b l k fld st, l ∈ order → fld.length = M.size l → (M.apply b l k fld st).length = M.size l := by
    intro b l k fld st hl hfl
    obtain ⟨r, hr, rfl⟩ := hordr l hl
    rw [hsz r hr] at hfl ⊢
    exact ha b r k fld st hr hfl
  have hll : (t.map lab).length = (t.map sz).length := by simp
  have hxl : x.data.length = (t.map sz).sum := hxt ▸ hx.2
  obtain ⟨st1, y1, h1, h2, h3, h4, h5⟩ := bnForward_spec M (t.map lab) (t.map sz) contig order x.data out hxl (by omega) hll hn hs hsi hf ha' training st
  have hperm := fieldOrder_perm (t.map lab) order hn fun l hl => (hm l).2 hl
  have hty : t ≠ [] := hxt ▸ hx.1
  refine ⟨st1, ⟨t, y1⟩, ?_, ⟨hty, h2⟩, rfl, h3, fun htr => ?_, fun c r hr => ?_⟩
  · rw [bnModule, if_pos hxt, h1]
    simp only [mkGT]
    rw [show (if y1.length = typeSize sz t then some (⟨t, y1⟩ : GTensor R (P → ℝ)) else none) = some ⟨t, y1⟩ from if_pos h2]
    rfl
  · subst htr
    have hstats : st1.stats = st.stats := by
      funext j
      by_cases hj : j < (fieldOrder (t.map lab) order).length
      · obtain ⟨l, fld, e1, e2, e3, -⟩ := h4 _ _ (List.getElem?_eq_getElem hj)
        simpa using e3
      · exact h5 j (by omega)
    cases st1; cases st
    simp only [Bool.false_eq_true, if_false] at h3 hstats
    rw [h3, hstats]
  · have hc : c < t.length := (List.getElem?_eq_some_iff.1 hr).1
    have hmem : c ∈ fieldOrder (t.map lab) order := hperm.mem_iff.2 (List.mem_range.2 (by simpa using hc))
    have hj : (fieldOrder (t.map lab) order)[statIdx (t.map lab) order c]? = some c := List.getElem?_idxOf hmem
    obtain ⟨l, fld, e1, e2, e3, e4⟩ := h4 _ _ hj
    obtain ⟨r', hr', rfl⟩ := hlab _ _ e1
    obtain rfl := Option.some.inj (hr.symm.trans hr')
    have hfx : fieldOf sz x c = fld := by rw [fieldOf, GTensor.fields, hxt, e2]; rfl
    have hfy : fieldOf sz (⟨t, y1⟩ : GTensor R (P → ℝ)) c = M.apply training (lab r) (statIdx (t.map lab) order c) fld (st1.stats (statIdx (t.map lab) order c)) := by
      rw [fieldOf, GTensor.fields, e4]; rfl
    have hxr : x.ty[c]? = some r := by rw [hxt]; exact hr
    refine ⟨?_, by rw [hfx]; exact e3, by rw [hfx]; exact hfy⟩
    rw [hfx]
    exact field_length hx hxr (by rw [GTensor.fields, hxt]; exact e2)

end generic

/-! ### Histories of calls -/

/-- The statistics after a history of calls. -/
theorem bnRun_fields {X Y : Type} (forward : Bool → NormState S → X → Option (NormState S × Y)) (ok : X → Prop) (C : Type) (num : C → ℕ)
    (J : C → List X → S → Prop)
    (hf : ∀ b st x, ok x → ∃ st' y, forward b st x = some (st', y) ∧ st'.batches = (if b then st.batches + 1 else st.batches) ∧
      ∀ c, ∀ xs : List X, (∀ x ∈ xs, ok x) → st.batches = xs.length → J c xs (st.stats (num c)) → J c (if b then xs ++ [x] else xs) (st'.stats (num c)))
    (calls : List (Bool × X)) (hok : ∀ c ∈ calls, ok c.2) (st : NormState S) (xs : List X) (hxs : ∀ x ∈ xs, ok x) (hb : st.batches = xs.length)
    (hJ : ∀ c, J c xs (st.stats (num c))) :
    ∃ st', bnRun forward calls st = some st' ∧ st'.batches = (xs ++ (calls.filter fun c => c.1).map Prod.snd).length ∧
      ∀ c, J c (xs ++ (calls.filter fun c => c.1).map Prod.snd) (st'.stats (num c)) := by
  induction calls generalizing st xs with
  | nil => exact ⟨st, rfl, by simpa using hb, by simpa using hJ⟩
  | cons p calls ih =>
    obtain ⟨b, x⟩ := p
    have hx : ok x := hok _ List.mem_cons_self
    obtain ⟨st1, y, h1, h2, h3⟩ := hf b st x hx
    obtain ⟨st', g1, g2, g3⟩ := ih (fun c hc => hok c (List.mem_cons_of_mem _ hc)) st1 (if b then xs ++ [x] else xs)
      (by
        cases b
        · exact hxs
        · intro z hz
          rcases List.mem_append.1 hz with hz | hz
          · exact hxs z hz
          · rw [List.mem_singleton.1 hz]; exact hx)
      (by rw [h2, hb]; cases b <;> simp) (fun c => h3 c xs hxs hb (hJ c))
    refine ⟨st', by rw [bnRun, h1]; exact g1, ?_, ?_⟩
    · rw [g2]; cases b <;> simp
    · intro c
      have := g3 c
      cases b <;> simpa using this


/-! ### The statistics of one batch -/

theorem correction_bessel {n : ℕ} (hn : 0 < n) (a : ℝ) : a / n * correction n = a / bessel n := by
  have h0 : (n : ℝ) ≠ 0 := by exact_mod_cast hn.ne'
  rw [correction, bessel]
  split_ifs with h
  · have h1 : (1 : ℝ) < n := by exact_mod_cast h
    have h2 : (n : ℝ) - 1 ≠ 0 := by linarith
    rw [Nat.cast_sub hn, Nat.cast_one]
    field_simp
  · obtain rfl : n = 1 := by omega
    simp

theorem sum_list_comm {n : ℕ} (fld : List (Fin n → ℝ)) (f : ℝ → ℝ) : (fld.map fun v => ∑ p, f (v p)).sum = ∑ p, (fld.map fun v => f (v p)).sum := by
  induction fld with
  | nil => simp
  | cons v fld ih => simp [ih, Finset.sum_add_distrib]

theorem sumSq_norm {n : ℕ} (hn : 0 < n) (s : ℕ) (fld : List (Fin n → ℝ)) :
    sumSq fld / Fintype.card (Fin n) / s * correction (Fintype.card (Fin n)) = normVariance s fld := by
  rw [Fintype.card_fin, div_right_comm, correction_bessel hn, normVariance, sumSq, sum_list_comm fld fun a => a ^ 2, div_div, Nat.cast_mul, mul_comm (s : ℝ)]

theorem sumSq_induced {n : ℕ} (k s : ℕ) (hk : 0 < n * k) (fld : List (Fin n → ℝ)) :
    sumSq fld / (Fintype.card (Fin n) * k : ℕ) / s * correction (Fintype.card (Fin n) * k) = inducedVariance k s fld := by
  rw [Fintype.card_fin, div_right_comm, correction_bessel hk, inducedVariance, sumSq, sum_list_comm fld fun a => a ^ 2, div_div, Nat.cast_mul, mul_comm (s : ℝ)]

theorem fieldMean_value {n : ℕ} (fld : List (Fin n → ℝ)) : fieldMean fld = valueMean fld := by
  rw [fieldMean, valueMean, Fintype.card_fin, sum_list_comm fld fun a => a]

theorem fieldVar_value {n : ℕ} (fld : List (Fin n → ℝ)) (hk : 0 < n * fld.length) :
    fieldVar fld * correction (Fintype.card (Fin n) * fld.length) = valueVariance fld := by
  rw [fieldVar, valueVariance, Fintype.card_fin, correction_bessel hk, fieldMean_value, sum_list_comm fld fun a => (a - valueMean fld) ^ 2]

/-! ### The modules -/

section modules
variable [DecidableEq R]

/-- The moving average of a statistic of the training batches. -/
theorem run_average {X Y C : Type} (forward : Bool → NormState S → X → Option (NormState S × Y)) (ok : X → Prop) (num : C → ℕ) (momentum : Option ℝ)
    (K : Type) (init : K → ℝ) (stat : C → K → X → ℝ) (proj : K → S → ℝ) (good : C → K → Prop)
    (hf : ∀ b st x, ok x → ∃ st' y, forward b st x = some (st', y) ∧ st'.batches = (if b then st.batches + 1 else st.batches) ∧
      ∀ c k, good c k → proj k (st'.stats (num c)) = if b then running (avgFactor momentum (st.batches + 1)) (stat c k x) (proj k (st.stats (num c)))
        else proj k (st.stats (num c)))
    (calls : List (Bool × X)) (hok : ∀ c ∈ calls, ok c.2) (st : NormState S) (h0 : st.batches = 0) (hi : ∀ c k, proj k (st.stats (num c)) = init k) :
    ∃ st', bnRun forward calls st = some st' ∧ st'.batches = ((calls.filter fun c => c.1).map Prod.snd).length ∧
      ∀ c k, good c k → MovingAverage momentum (init k) (((calls.filter fun c => c.1).map Prod.snd).map (stat c k)) (proj k (st'.stats (num c))) := by
  have := bnRun_fields (S := S) forward ok C num (fun c xs s => ∀ k, good c k → MovingAverage momentum (init k) (xs.map (stat c k)) (proj k s))
    (fun b st x hx => by
      obtain ⟨st', y, h1, h2, h3⟩ := hf b st x hx
      refine ⟨st', y, h1, h2, fun c xs hxs hb hJ k hk => ?_⟩
      rw [h3 c k hk]
      cases b with
      | false => exact hJ k hk
      | true =>
        rw [if_pos rfl, if_pos rfl, hb, List.map_append, List.map_singleton]
        have := movingAverage_step momentum (init k) (xs.map (stat c k)) _ (stat c k x) (hJ k hk)
        rwa [List.length_map] at this)
    calls hok st [] (by simp) (by simpa using h0) (fun c k _ => by
      rw [hi, List.map_nil]
      cases momentum <;> simp [MovingAverage])
  simpa using this

/-- **C64 for `NormBatchNorm`**. -/
theorem c64_norm (sz : R → ℕ) (t : List R) (hpos : ∀ r ∈ t, 0 < sz r) (momentum : Option ℝ) (eps : ℝ) (w : ℕ → ℝ) :
    ∃ num : ℕ → ℕ, (∀ c c', c < t.length → c' < t.length → num c = num c' → c = c') ∧
    ∀ calls : List (Bool × Batch R), (∀ c ∈ calls, c.2.Ok sz t) →
      ∃ st, bnRun (fun b st x => normBatchNorm sz t momentum eps w b st x.2.2 |>.map fun y => (y.1, ())) calls ⟨0, fun _ => 1⟩ = some st ∧
        st.batches = (trainingBatches calls).length ∧
        (∀ (c : ℕ) r, t[c]? = some r → MovingAverage momentum 1 ((trainingBatches calls).map fun x => normVariance (sz r) (fieldOf sz x.2.2 c)) (st.stats (num c))) ∧
        ∀ (training : Bool) (x : Batch R), x.Ok sz t → ∃ st' y, normBatchNorm sz t momentum eps w training st x.2.2 = some (st', y) ∧
          (training = false → st' = st) ∧
          ∀ (c : ℕ) r, t[c]? = some r → fieldOf sz y c = (fieldOf sz x.2.2 c).map fun v p => v p * (w (num c) / √(st'.stats (num c) + eps)) := by
  set lo := firstKeys (t.map sz) with hlo
  have hfld := fun (n : ℕ) => bnModule_fields (P := Fin n) (normBN momentum eps w) sz sz t (fun s => (contigFlags (t.map sz) s).getD false) lo (firstKeys_nodup _)
    (fun l => mem_firstKeys _ l) hpos (fun _ _ => rfl) (fun l _ => bn_flagOk sz sz t hpos l) (fun b r k fld s _ h => by simpa [normBN] using h)
  refine ⟨statIdx (t.map sz) lo, fun c c' hc hc' h => statIdx_inj sz t lo (firstKeys_nodup _) (fun l => mem_firstKeys _ l) hc hc' h, fun calls hok => ?_⟩
  obtain ⟨st, h1, h2, h3⟩ := run_average (S := ℝ) (fun b st (x : Batch R) => normBatchNorm sz t momentum eps w b st x.2.2 |>.map fun y => (y.1, ())) (Batch.Ok sz t)
    (statIdx (t.map sz) lo) momentum ℕ (fun _ => 1) (fun c s x => normVariance s (fieldOf sz x.2.2 c)) (fun _ s => s) (fun c s => ∃ r, t[c]? = some r ∧ sz r = s)
    (fun b st x hx => by
      obtain ⟨st', y, e1, -, -, e2, -, e3⟩ := hfld x.1 b st x.2.2 hx.2.1 hx.2.2.1 x.2.2.data rfl
      refine ⟨st', (), by rw [normBatchNorm, e1]; rfl, e2, ?_⟩
      rintro c s ⟨r, hr, rfl⟩
      rw [(e3 c r hr).2.1]
      simp only [normBN]
      rw [sumSq_norm hx.1])
    calls hok ⟨0, fun _ => 1⟩ rfl fun _ _ => rfl
  refine ⟨st, h1, h2, fun c r hr => h3 c (sz r) ⟨r, hr, rfl⟩, fun training x hx => ?_⟩
  obtain ⟨st', y, e1, -, -, -, e4, e3⟩ := hfld x.1 training st x.2.2 hx.2.1 hx.2.2.1 x.2.2.data rfl
  exact ⟨st', y, e1, e4, fun c r hr => (e3 c r hr).2.2⟩

/-- **C64 for `InducedNormBatchNorm`**. -/
theorem c64_induced (sz sub : R → ℕ) (t : List R) (hpos : ∀ r ∈ t, 0 < sz r ∧ 0 < sub r ∧ sub r ∣ sz r) (momentum : Option ℝ) (eps : ℝ) (w : ℕ → ℝ) :
    ∃ num : ℕ → ℕ, (∀ c c', c < t.length → c' < t.length → num c = num c' → c = c') ∧
    ∀ calls : List (Bool × Batch R), (∀ c ∈ calls, c.2.Ok sz t) →
      ∃ st, bnRun (fun b st x => inducedNormBatchNorm sz sub t momentum eps w b st x.2.2 |>.map fun y => (y.1, ())) calls ⟨0, fun _ => 1⟩ = some st ∧
        st.batches = (trainingBatches calls).length ∧
        (∀ (c : ℕ) r, t[c]? = some r → MovingAverage momentum 1
          ((trainingBatches calls).map fun x => inducedVariance (sz r / sub r) (sub r) (fieldOf sz x.2.2 c)) (st.stats (num c))) ∧
        ∀ (training : Bool) (x : Batch R), x.Ok sz t → ∃ st' y, inducedNormBatchNorm sz sub t momentum eps w training st x.2.2 = some (st', y) ∧
          (training = false → st' = st) ∧
          ∀ (c : ℕ) r, t[c]? = some r → fieldOf sz y c = (fieldOf sz x.2.2 c).map fun v p => v p * (w (num c) / √(st'.stats (num c) + eps)) := by
  set lab : R → ℕ × ℕ := fun r => (sz r, sub r) with hlab
  set lo := firstKeys (t.map lab) with hlo
  have hpos' : ∀ r ∈ t, 0 < sz r := fun r hr => (hpos r hr).1
  have hfld := fun (n : ℕ) => bnModule_fields (P := Fin n) (inducedBN momentum eps w) sz lab t (fun s => (contigFlags (t.map lab) s).getD false) lo (firstKeys_nodup _)
    (fun l => mem_firstKeys _ l) hpos' (fun _ _ => rfl) (fun l _ => bn_flagOk sz lab t hpos' l) (fun b r k fld s _ h => by simpa [inducedBN] using h)
  refine ⟨statIdx (t.map lab) lo, fun c c' hc hc' h => statIdx_inj lab t lo (firstKeys_nodup _) (fun l => mem_firstKeys _ l) hc hc' h, fun calls hok => ?_⟩
  obtain ⟨st, h1, h2, h3⟩ := run_average (S := ℝ) (fun b st (x : Batch R) => inducedNormBatchNorm sz sub t momentum eps w b st x.2.2 |>.map fun y => (y.1, ()))
    (Batch.Ok sz t) (statIdx (t.map lab) lo) momentum (ℕ × ℕ) (fun _ => 1) (fun c s x => inducedVariance (s.1 / s.2) s.2 (fieldOf sz x.2.2 c)) (fun _ s => s)
    (fun c s => ∃ r, t[c]? = some r ∧ lab r = s)
    (fun b st x hx => by
      obtain ⟨st', y, e1, -, -, e2, -, e3⟩ := hfld x.1 b st x.2.2 hx.2.1 hx.2.2.1 x.2.2.data rfl
      refine ⟨st', (), by rw [inducedNormBatchNorm, e1]; rfl, e2, ?_⟩
      rintro c s ⟨r, hr, rfl⟩
      rw [(e3 c r hr).2.1]
      obtain ⟨q1, q2, q3⟩ := hpos r (List.mem_of_getElem? hr)
      simp only [inducedBN, hlab]
      rw [sumSq_induced _ _ (Nat.mul_pos hx.1 (Nat.div_pos (Nat.le_of_dvd q1 q3) q2))])
    calls hok ⟨0, fun _ => 1⟩ rfl fun _ _ => rfl
  refine ⟨st, h1, h2, fun c r hr => h3 c (lab r) ⟨r, hr, rfl⟩, fun training x hx => ?_⟩
  obtain ⟨st', y, e1, -, -, -, e4, e3⟩ := hfld x.1 training st x.2.2 hx.2.1 hx.2.2.1 x.2.2.data rfl
  exact ⟨st', y, e1, e4, fun c r hr => (e3 c r hr).2.2⟩

/-- **C64 for `InnerBatchNorm`** with running statistics: in training mode it normalises by the statistics of the batch, in evaluation mode by the moving
averages. -/
theorem c64_inner (sz : R → ℕ) (t : List R) (hpos : ∀ r ∈ t, 0 < sz r) (momentum : Option ℝ) (eps : ℝ) (w b : ℕ → ℝ) :
    ∃ num : ℕ → ℕ, (∀ c c', c < t.length → c' < t.length → num c = num c' → c = c') ∧
    ∀ calls : List (Bool × Batch R), (∀ c ∈ calls, c.2.Ok sz t) →
      ∃ st, bnRun (fun tr st x => innerBatchNorm sz t momentum eps true w b tr st x.2.1 x.2.2 |>.map fun y => (y.1, ())) calls ⟨0, fun _ => (0, 1)⟩ = some st ∧
        st.batches = (trainingBatches calls).length ∧
        (∀ (c : ℕ) r, t[c]? = some r → MovingAverage momentum 0 ((trainingBatches calls).map fun x => valueMean (fieldOf sz x.2.2 c)) (st.stats (num c)).1 ∧
          MovingAverage momentum 1 ((trainingBatches calls).map fun x => valueVariance (fieldOf sz x.2.2 c)) (st.stats (num c)).2) ∧
        ∀ (training : Bool) (x : Batch R), x.Ok sz t → ∃ st' y, innerBatchNorm sz t momentum eps true w b training st x.2.1 x.2.2 = some (st', y) ∧
          (training = false → st' = st ∧ ∀ (c : ℕ) r, t[c]? = some r → fieldOf sz y c = (fieldOf sz x.2.2 c).map fun v p =>
            (v p - (st.stats (num c)).1) / √((st.stats (num c)).2 + eps) * w (num c) + b (num c)) ∧
          (training = true → ∀ (c : ℕ) r, t[c]? = some r → fieldOf sz y c = (fieldOf sz x.2.2 c).map fun v p =>
            (v p - valueMean (fieldOf sz x.2.2 c)) / √((∑ p, ((fieldOf sz x.2.2 c).map fun v => (v p - valueMean (fieldOf sz x.2.2 c)) ^ 2).sum) /
              (x.1 * sz r : ℕ) + eps) * w (num c) + b (num c)) := by
  set lo := firstKeys (t.map sz) with hlo
  have hfld := fun (n : ℕ) => bnModule_fields (P := Fin n) (innerBN momentum eps true w b) sz sz t
    (fun s => ((indexesFromLabels sz t (t.map sz) s).map fun e => e.1).getD false) lo (firstKeys_nodup _)
    (fun l => mem_firstKeys _ l) hpos (fun _ _ => rfl) (fun l hl => inner_flagOk sz t hpos ((mem_firstKeys _ l).1 hl)) (fun b r k fld s _ h => by simpa [innerBN] using h)
  refine ⟨statIdx (t.map sz) lo, fun c c' hc hc' h => statIdx_inj sz t lo (firstKeys_nodup _) (fun l => mem_firstKeys _ l) hc hc' h, fun calls hok => ?_⟩
  obtain ⟨st, h1, h2, h3⟩ := run_average (S := ℝ × ℝ)
    (fun tr st (x : Batch R) => innerBatchNorm sz t momentum eps true w b tr st x.2.1 x.2.2 |>.map fun y => (y.1, ())) (Batch.Ok sz t)
    (statIdx (t.map sz) lo) momentum Bool (fun k => if k then 1 else 0) (fun c k x => if k then valueVariance (fieldOf sz x.2.2 c) else valueMean (fieldOf sz x.2.2 c))
    (fun k s => if k then s.2 else s.1) (fun c _ => ∃ r, t[c]? = some r)
    (fun tr st x hx => by
      obtain ⟨st', y, e1, -, -, e2, -, e3⟩ := hfld x.1 tr st x.2.2 hx.2.1 hx.2.2.1 x.2.1 hx.2.2.2
      refine ⟨st', (), by rw [innerBatchNorm, e1]; rfl, e2, ?_⟩
      rintro c k ⟨r, hr⟩
      obtain ⟨q1, q2, -⟩ := e3 c r hr
      rw [q2]
      have hl : 0 < x.1 * (fieldOf sz x.2.2 c).length := by
        rw [q1]
        exact Nat.mul_pos hx.1 (hpos r (List.mem_of_getElem? hr))
      cases tr <;> cases k <;> simp only [innerBN, if_true, if_false, Bool.false_eq_true]
      · rw [fieldMean_value]
      · rw [fieldVar_value _ hl])
    calls hok ⟨0, fun _ => (0, 1)⟩ rfl fun _ k => by cases k <;> rfl
  refine ⟨st, h1, h2, fun c r hr => ⟨h3 c false ⟨r, hr⟩, h3 c true ⟨r, hr⟩⟩, fun training x hx => ?_⟩
  obtain ⟨st', y, e1, -, -, -, e4, e3⟩ := hfld x.1 training st x.2.2 hx.2.1 hx.2.2.1 x.2.1 hx.2.2.2
  refine ⟨st', y, e1, fun ht => ⟨e4 ht, fun c r hr => ?_⟩, fun ht c r hr => ?_⟩
  · rw [(e3 c r hr).2.2, e4 ht, ht]
    simp [innerBN]
  · rw [(e3 c r hr).2.2, ht]
    simp only [innerBN, Bool.true_or, if_true]
    rw [fieldVar, fieldMean_value, sum_list_comm _ fun a => (a - valueMean (fieldOf sz x.2.2 c)) ^ 2, Fintype.card_fin, (e3 c r hr).1]

/-- The blocks used by the code are the ones of the specification. -/
theorem irrepBlocks_block {El : Type} {n : ℕ} (r : Repr El) (fld : List (Fin n → ℝ)) {o : ℕ} {irr : Irrep El} (h : r.irreps[o]? = some irr) :
    (irrepBlocks r fld)[o]? = some (irrepBlock r fld o) := by
  have ho : o < r.irreps.length := (List.getElem?_eq_some_iff.1 h).1
  have hlen : offset (r.irreps.map Irrep.size) o + irr.size ≤ r.size := by
    have h1 := offset_add_le (r.irreps.map Irrep.size) (k := o) (by simpa using ho)
    rw [List.getElem_map, (List.getElem?_eq_some_iff.1 h).2] at h1
    exact h1
  rw [irrepBlocks, chunks_get _ _ (by simpa using ho), irrepBlock, h]
  refine congrArg some (List.ext_getElem? fun i => ?_)
  rw [List.getElem_map, (List.getElem?_eq_some_iff.1 h).2, List.getElem?_take, List.getElem?_drop]
  split_ifs with hi
  · rw [chAct_get _ _ _ (by omega)]
    simp only [Option.map_some, Option.getD_some, List.getElem?_map, List.getElem?_range hi]
    congr 1
    funext p
    rw [Finset.sum_apply]
    refine Finset.sum_congr rfl fun j _ => ?_
    rw [Pi.smul_apply, smul_eq_mul, offset, ← List.map_take]
  · symm
    simp only [Option.map_some, Option.getD_some, List.getElem?_eq_none_iff, List.length_map, List.length_range]
    omega

theorem irrepBlock_length {El : Type} {n : ℕ} (r : Repr El) (fld : List (Fin n → ℝ)) {o : ℕ} {irr : Irrep El} (h : r.irreps[o]? = some irr) :
    (irrepBlock r fld o).length = irr.size := by simp [irrepBlock, h]

theorem blockMean_value {n : ℕ} (blk : List (Fin n → ℝ)) (h : blk.length = 1) : blockMean blk = valueMean blk := by
  rw [blockMean, valueMean, h, Fintype.card_fin, sum_list_comm blk fun a => a, mul_one]

theorem blockVar_true_value {n : ℕ} (hn : 0 < n) (blk : List (Fin n → ℝ)) (h : blk.length = 1) : blockVar true blk = valueVariance blk := by
  obtain ⟨v, rfl⟩ := List.length_eq_one_iff.1 h
  have h0 : (n : ℝ) ≠ 0 := by exact_mod_cast hn.ne'
  rw [valueVariance, List.length_singleton, mul_one, ← correction_bessel hn, blockVar, blockMean_value _ h, Fintype.card_fin]
  congr 1
  set m := valueMean [v] with hm
  have hs : ∑ p, v p = n * m := by
    rw [hm, valueMean]
    simp only [List.map_cons, List.map_nil, List.sum_cons, List.sum_nil, add_zero, List.length_cons, List.length_nil, zero_add, mul_one]
    field_simp
  simp only [List.map_cons, List.map_nil, List.sum_cons, List.sum_nil, add_zero, List.length_cons, List.length_nil, zero_add, Nat.cast_one, div_one, mul_one,
    if_true, sub_sq]
  rw [Finset.sum_add_distrib, Finset.sum_sub_distrib, ← Finset.sum_mul, ← Finset.mul_sum, hs, Finset.sum_const, Finset.card_univ, Fintype.card_fin,
    nsmul_eq_mul]
  field_simp
  ring

theorem blockVar_false_value {n : ℕ} (hn : 0 < n) (blk : List (Fin n → ℝ)) : blockVar false blk = normVariance blk.length blk := by
  rw [blockVar_false, ← sumSq_norm hn, mul_one_div]

/-- The statistics of a batch are the ones of the specification. -/
theorem gnormStats_value {El : Type} {n : ℕ} (hn : 0 < n) (r : Repr El) (hr : ∀ i ∈ r.irreps, isTrivial i = true → i.size = 1) (fld : List (Fin n → ℝ))
    {o : ℕ} {irr : Irrep El} (h : r.irreps[o]? = some irr) :
    (gnormStats r fld)[o]? = some (if isTrivial irr then (valueMean (irrepBlock r fld o), valueVariance (irrepBlock r fld o))
      else (0, normVariance irr.size (irrepBlock r fld o))) := by
  rw [gnormStats, List.getElem?_zipWith, h, irrepBlocks_block r fld h]
  have hl := irrepBlock_length r fld h
  cases ht : isTrivial irr with
  | true =>
    have h1 := hl.trans (hr irr (List.mem_of_getElem? h) ht)
    simp only [ht, if_true]
    rw [blockMean_value _ h1, blockVar_true_value hn _ h1]
  | false =>
    simp only [ht, Bool.false_eq_true, if_false]
    rw [blockVar_false_value hn, hl]

/-- The blocks of the output, in the basis of the irreps. -/
theorem irrepBlock_out {El : Type} {n : ℕ} (r : Repr El) (hr : r.WF) (bs : List (List (Fin n → ℝ))) (hbs : bs.map List.length = r.irreps.map Irrep.size)
    {o : ℕ} {irr : Irrep El} {blk : List (Fin n → ℝ)} (h : r.irreps[o]? = some irr) (hb : bs[o]? = some blk) :
    irrepBlock r (chAct r.size r.cob bs.flatten) o = blk := by
  have hm : MEq r.size r.size (Mat.mul r.size r.cobInv r.cob) Mat.one := hr.2
  have h1 : irrepBlocks r (chAct r.size r.cob bs.flatten) = bs := by
    have hl : bs.flatten.length = r.size := by rw [List.length_flatten, hbs, Repr.size]
    rw [irrepBlocks, chAct_mul, chAct_MEq hm, show chAct r.size Mat.one bs.flatten = bs.flatten from ?_, chunks_of_flatten' bs hbs]
    apply List.ext_getElem?
    intro i
    by_cases hi : i < r.size
    · rw [chAct_get _ _ _ hi, Finset.sum_eq_single i]
      · rw [Mat.one, if_pos rfl, one_smul, List.getElem?_eq_getElem (by omega), Option.getD_some]
      · intro j _ hj
        rw [Mat.one, if_neg (Ne.symm hj), zero_smul]
      · intro h
        exact absurd (Finset.mem_range.2 hi) h
    · rw [List.getElem?_eq_none (by rw [chAct_length]; omega), List.getElem?_eq_none (by omega)]
  have h2 := irrepBlocks_block r (chAct r.size r.cob bs.flatten) h
  rw [h1, hb] at h2
  exact (Option.some.inj h2).symm

/-- **C64 for `GNormBatchNorm`**: the statistics belong to the irreps of the fields, in the basis of the irreps; the trivial ones have a mean. -/
theorem c64_gnorm {El : Type} (rep : R → Repr El) (t : List R) (order : List R) (hn : order.Nodup) (hm : ∀ r, r ∈ order ↔ r ∈ t)
    (hpos : ∀ r ∈ t, 0 < (rep r).size) (hwf : ∀ r ∈ t, (rep r).WF ∧ ∀ i ∈ (rep r).irreps, isTrivial i = true → i.size = 1)
    (momentum : Option ℝ) (eps : ℝ) (w b : ℕ → ℕ → ℝ) :
    ∃ num : ℕ → ℕ, (∀ c c', c < t.length → c' < t.length → num c = num c' → c = c') ∧
    ∀ calls : List (Bool × Batch R), (∀ c ∈ calls, c.2.Ok (fun r => (rep r).size) t) →
      ∃ st, bnRun (fun tr st x => gnormBatchNorm rep t order momentum eps w b tr st x.2.1 x.2.2 |>.map fun y => (y.1, ())) calls ⟨0, fun _ _ => (0, 1)⟩ = some st ∧
        st.batches = (trainingBatches calls).length ∧
        (∀ (c : ℕ) r (o : ℕ) irr, t[c]? = some r → (rep r).irreps[o]? = some irr →
          (isTrivial irr = true →
            MovingAverage momentum 0 ((trainingBatches calls).map fun x => valueMean (irrepBlock (rep r) (fieldOf (fun r => (rep r).size) x.2.2 c) o)) (st.stats (num c) o).1 ∧
            MovingAverage momentum 1 ((trainingBatches calls).map fun x => valueVariance (irrepBlock (rep r) (fieldOf (fun r => (rep r).size) x.2.2 c) o)) (st.stats (num c) o).2) ∧
          (isTrivial irr = false →
            MovingAverage momentum 1 ((trainingBatches calls).map fun x => normVariance irr.size (irrepBlock (rep r) (fieldOf (fun r => (rep r).size) x.2.2 c) o)) (st.stats (num c) o).2)) ∧
        ∀ (training : Bool) (x : Batch R), x.Ok (fun r => (rep r).size) t →
          ∃ st' y, gnormBatchNorm rep t order momentum eps w b training st x.2.1 x.2.2 = some (st', y) ∧ (training = false → st' = st) ∧
          ∀ (c : ℕ) r (o : ℕ) irr, t[c]? = some r → (rep r).irreps[o]? = some irr → ∀ blk, blk = irrepBlock (rep r) (fieldOf (fun r => (rep r).size) x.2.2 c) o →
            irrepBlock (rep r) (fieldOf (fun r => (rep r).size) y c) o =
              if isTrivial irr then blk.map fun v p => (v p - if training then valueMean blk else (st.stats (num c) o).1) *
                (w (num c) o / √((if training then valueVariance blk else (st.stats (num c) o).2) + eps)) + b (num c) o
              else blk.map fun v p => v p * (w (num c) o / √((if training then normVariance irr.size blk else (st.stats (num c) o).2) + eps)) := by
  have hid : t.map (fun r => r) = t := List.map_id t
  have hfld := fun (n : ℕ) => bnModule_fields (P := Fin n) (gnormBN rep momentum eps w b) (fun r => (rep r).size) (fun r => r) t
    (fun r => (contigFlags t r).getD false) order hn (fun l => by rw [hid]; exact hm l) hpos (fun _ _ => rfl)
    (fun l _ => by
      have := bn_flagOk (fun r => (rep r).size) (fun r => r) t hpos l
      rw [hid] at this ⊢
      exact this)
    (fun tr r k fld s _ h => by simp [gnormBN, chAct_length])
  rw [hid] at hfld
  have hinj := fun c c' => statIdx_inj (fun r => r) t order hn (fun l => by rw [hid]; exact hm l) (c := c) (c' := c')
  rw [hid] at hinj
  refine ⟨statIdx t order, fun c c' hc hc' h => hinj c c' hc hc' h, fun calls hok => ?_⟩
  obtain ⟨st, h1, h2, h3⟩ := run_average (S := ℕ → ℝ × ℝ)
    (fun tr st (x : Batch R) => gnormBatchNorm rep t order momentum eps w b tr st x.2.1 x.2.2 |>.map fun y => (y.1, ())) (Batch.Ok (fun r => (rep r).size) t)
    (statIdx t order) momentum (ℕ × Bool) (fun k => if k.2 then 1 else 0)
    (fun c k x => match t[c]? with
      | none => 0
      | some r => let s := (gnormStats (rep r) (fieldOf (fun r => (rep r).size) x.2.2 c))[k.1]?.getD (0, 0)
        if k.2 then s.2 else s.1)
    (fun k s => if k.2 then (s k.1).2 else (s k.1).1) (fun c k => ∃ r irr, t[c]? = some r ∧ (rep r).irreps[k.1]? = some irr)
    (fun tr st x hx => by
      obtain ⟨st', y, e1, -, -, e2, -, e3⟩ := hfld x.1 tr st x.2.2 hx.2.1 hx.2.2.1 x.2.1 hx.2.2.2
      refine ⟨st', (), by rw [gnormBatchNorm, e1]; rfl, e2, ?_⟩
      rintro c ⟨o, k⟩ ⟨r, irr, hr, ho⟩
      obtain ⟨q1, q2, -⟩ := e3 c r hr
      rw [q2, hr]
      have hs := gnormStats_value hx.1 (rep r) (hwf r (List.mem_of_getElem? hr)).2 (fieldOf (fun r => (rep r).size) x.2.2 c) ho
      cases tr <;> cases k <;> simp only [gnormBN, if_true, if_false, Bool.false_eq_true, hs, Option.getD_some])
    calls hok ⟨0, fun _ _ => (0, 1)⟩ rfl fun _ k => by rcases k with ⟨o, k⟩; cases k <;> rfl
  refine ⟨st, h1, h2, fun c r o irr hr ho => ?_, fun training x hx => ?_⟩
  · have hmean := h3 c (o, false) ⟨r, irr, hr, ho⟩
    have hvar := h3 c (o, true) ⟨r, irr, hr, ho⟩
    have hok' : ∀ x ∈ (calls.filter fun c => c.1).map Prod.snd, Batch.Ok (fun r => (rep r).size) t x := by
      intro x hx
      obtain ⟨c, hc, rfl⟩ := List.mem_map.1 hx
      exact hok c (List.mem_filter.1 hc).1
    have hs := fun (x : Batch R) (hx : x.1 > 0) => gnormStats_value hx (rep r) (hwf r (List.mem_of_getElem? hr)).2 (fieldOf (fun r => (rep r).size) x.2.2 c) ho
    refine ⟨fun ht => ⟨?_, ?_⟩, fun ht => ?_⟩
    · refine (congrArg (fun l => MovingAverage momentum _ l _) (List.map_congr_left fun x hx => ?_)).mpr hmean
      simp only [hr, hs x (hok' x hx).1, ht, if_true, Option.getD_some, Bool.false_eq_true, if_false]
    · refine (congrArg (fun l => MovingAverage momentum _ l _) (List.map_congr_left fun x hx => ?_)).mpr hvar
      simp only [hr, hs x (hok' x hx).1, ht, if_true, Option.getD_some]
    · refine (congrArg (fun l => MovingAverage momentum _ l _) (List.map_congr_left fun x hx => ?_)).mpr hvar
      simp only [hr, hs x (hok' x hx).1, ht, if_true, Option.getD_some, Bool.false_eq_true, if_false]
  · obtain ⟨st', y, e1, -, -, -, e4, e3⟩ := hfld x.1 training st x.2.2 hx.2.1 hx.2.2.1 x.2.1 hx.2.2.2
    refine ⟨st', y, e1, e4, fun c r o irr hr ho blk hblk => ?_⟩
    have hr' := hwf r (List.mem_of_getElem? hr)
    have hs := gnormStats_value hx.1 (rep r) hr'.2 (fieldOf (fun r => (rep r).size) x.2.2 c) ho
    have hbk := irrepBlocks_block (rep r) (fieldOf (fun r => (rep r).size) x.2.2 c) ho
    rw [← hblk] at hs hbk
    rw [(e3 c r hr).2.2]
    simp only [gnormBN]
    rw [irrepBlock_out (rep r) hr'.1 _ (gnorm_blocks_length (rep r) _ _ fun p b => gnormBlock_length _ _ _ _ _ _ _) ho (by
      rw [List.getElem?_zipWith, List.getElem?_zipIdx, ho, hbk]
      rfl)]
    simp only [gnormBlock, zero_add]
    cases training with
    | true => cases ht : isTrivial irr <;> simp [hs, ht, sub_eq_add_neg]
    | false => cases ht : isTrivial irr <;> simp [e4 rfl, ht, sub_eq_add_neg]

end modules

/-- Two calls in training mode with momentum 1/2: the running variance of the first field. -/
example (a b c d e f : ℝ) : ∃ num : ℕ → ℕ, num 0 ≠ num 1 ∧ ∃ st,
    bnRun (fun tr st (x : Batch ℕ) => normBatchNorm id [2, 1] (some (1 / 2)) 1 (fun _ => 1) tr st x.2.2 |>.map fun y => (y.1, ()))
      [(true, ⟨2, [0, 0, 0], ⟨[2, 1], [![a, b], ![c, d], ![e, f]]⟩⟩), (false, ⟨2, [0, 0, 0], ⟨[2, 1], [![e, f], ![c, d], ![a, b]]⟩⟩),
        (true, ⟨1, [0, 0, 0], ⟨[2, 1], [![3], ![4], ![0]]⟩⟩)] ⟨0, fun _ => 1⟩ = some st ∧ st.batches = 2 ∧
    st.stats (num 0) = 1 / 4 + 1 / 4 * ((a ^ 2 + c ^ 2 + (b ^ 2 + d ^ 2)) / 2) + 1 / 2 * (25 / 2) := by
  obtain ⟨num, h1, h2⟩ := c64_norm (R := ℕ) id [2, 1] (by simp) (some (1 / 2)) 1 fun _ => 1
  obtain ⟨st, e1, e2, e3, -⟩ := h2
    [(true, ⟨2, [0, 0, 0], ⟨[2, 1], [![a, b], ![c, d], ![e, f]]⟩⟩), (false, ⟨2, [0, 0, 0], ⟨[2, 1], [![e, f], ![c, d], ![a, b]]⟩⟩),
      (true, ⟨1, [0, 0, 0], ⟨[2, 1], [![3], ![4], ![0]]⟩⟩)] (by simp [Batch.Ok, GTensor.WF]; rfl)
  refine ⟨num, fun h => by simpa using h1 0 1 (by simp) (by simp) h, st, e1, by rw [e2]; rfl, ?_⟩
  have := e3 0 2 rfl
  simp [trainingBatches, MovingAverage, normVariance, fieldOf, GTensor.fields, chunks, bessel, Finset.sum_range_succ] at this
  rw [this]
  norm_num
  ring

end E2
