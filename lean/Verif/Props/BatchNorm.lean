import Verif.Lemmas.BatchNorm
import Verif.Props.PointwiseGroups
import Verif.Props.Irreps

/-!
Batch normalisation (C37): `NormBatchNorm`, `InducedNormBatchNorm`, `InnerBatchNorm` and `GNormBatchNorm` commute with the action in training
and in evaluation mode, a training step leaves the same running statistics whether its batch was transformed or not, and the running variances
stay non-negative over any sequence of calls.  A transformation acts on the fibers and permutes the positions (the pixels of each image of the
batch).
-/

set_option linter.unusedSectionVars false

namespace E2

open Mat

variable {P R L S : Type}

section generic
variable [DecidableEq R] [DecidableEq L]

/-- A batch normalisation commutes with a transformation when its computation on each field does. -/
theorem bnModule_equivariant (M : Normaliser P L S) (sz : R → ℕ) (lab : R → L) (t : List R) (contig : L → Bool) (order : List L)
    (hn : order.Nodup) (hm : ∀ l, l ∈ order ↔ l ∈ t.map lab) (hpos : ∀ r ∈ t, 0 < sz r) (hsz : ∀ r ∈ t, M.size (lab r) = sz r)
    (hf : ∀ l ∈ order, FlagOk (contig l) (labelChannels (t.map lab) (t.map sz) l))
    (ha : ∀ b r k fld st, r ∈ t → fld.length = sz r → (M.apply b (lab r) k fld st).length = sz r)
    (ρ : R → Mat) (π : P → P)
    (hu : ∀ r k n fld st, r ∈ t → fld.length = sz r → M.update (lab r) k n (moveField (sz r) (ρ r) π fld) st = M.update (lab r) k n fld st)
    (hap : ∀ b r k fld st, r ∈ t → fld.length = sz r →
      M.apply b (lab r) k (moveField (sz r) (ρ r) π fld) st = moveField (sz r) (ρ r) π (M.apply b (lab r) k fld st))
    (training : Bool) (st : NormState S) (x : GTensor R (P → ℝ)) (hx : x.WF sz) (hxt : x.ty = t) (out out' : List (P → ℝ))
    (ho : out.length = x.data.length) (ho' : out'.length = x.data.length) :
    ∃ st' y, bnModule M sz t (t.map lab) contig order training st out x = some (st', y) ∧ y.WF sz ∧ y.ty = t ∧
      bnModule M sz t (t.map lab) contig order training st out' (x.transform sz ρ π) = some (st', y.transform sz ρ π) := by
  have hordr : ∀ l ∈ order, ∃ r ∈ t, lab r = l := fun l hl => by simpa using (hm l).1 hl
  have hlab : ∀ (c : ℕ) l, (t.map lab)[c]? = some l → ∃ r, t[c]? = some r ∧ lab r = l := fun c l h => by simpa using h
  have hs : ∀ l ∈ order, 0 < M.size l := by
    intro l hl
    obtain ⟨r, hr, rfl⟩ := hordr l hl
    rw [hsz r hr]; exact hpos r hr
  have hsi : ∀ (c : ℕ) l, (t.map lab)[c]? = some l → (t.map sz)[c]? = some (M.size l) := by
    intro c l h
    obtain ⟨r, hr, rfl⟩ := hlab c l h
    rw [List.getElem?_map, hr, Option.map_some, hsz r (List.mem_of_getElem? hr)]
  have ha' : ∀ b l k fld st, l ∈ order → fld.length = M.size l → (M.apply b l k fld st).length = M.size l := by
    intro b l k fld st hl hfl
    obtain ⟨r, hr, rfl⟩ := hordr l hl
    rw [hsz r hr] at hfl ⊢
    exact ha b r k fld st hr hfl
  have hll : (t.map lab).length = (t.map sz).length := by simp
  have hxl : x.data.length = (t.map sz).sum := hxt ▸ hx.2
  have hx' := transform_wf ρ π hx
  have hxl' : (x.transform sz ρ π).data.length = (t.map sz).sum := by
    have := hx'.2
    rw [show (x.transform sz ρ π).ty = t from hxt] at this
    exact this
  obtain ⟨st1, y1, h1, h2, h3, h4, h5⟩ := bnForward_spec M (t.map lab) (t.map sz) contig order x.data out hxl (by omega) hll hn hs hsi hf ha' training st
  obtain ⟨st2, y2, g1, g2, g3, g4, g5⟩ := bnForward_spec M (t.map lab) (t.map sz) contig order (x.transform sz ρ π).data out' hxl' (by omega) hll hn hs hsi hf
    ha' training st
  have hperm := fieldOrder_perm (t.map lab) order hn fun l hl => (hm l).2 hl
  have hfield : ∀ (c : ℕ) r fld, t[c]? = some r → (chunks (t.map sz) x.data)[c]? = some fld → fld.length = sz r ∧
      (chunks (t.map sz) (x.transform sz ρ π).data)[c]? = some (moveField (sz r) (ρ r) π fld) := by
    intro c r fld hr hfld
    have e : x.fields sz = chunks (t.map sz) x.data := by rw [GTensor.fields, hxt]
    have e' : (x.transform sz ρ π).fields sz = chunks (t.map sz) (x.transform sz ρ π).data := by
      rw [GTensor.fields, show (x.transform sz ρ π).ty = t from hxt]
    rw [← e] at hfld
    have hr' : x.ty[c]? = some r := by rw [hxt]; exact hr
    refine ⟨field_length hx hr' hfld, ?_⟩
    rw [← e', transform_fields_get sz ρ π x hr', hfld]
    rfl
  have hst : st2 = st1 := by
    have hstats : st2.stats = st1.stats := by
      funext j
      by_cases hj : j < (fieldOrder (t.map lab) order).length
      · have hjc := List.getElem?_eq_getElem hj
        obtain ⟨l, fld, e1, e2, e3, -⟩ := h4 _ _ hjc
        obtain ⟨l', fld', e1', e2', e3', -⟩ := g4 _ _ hjc
        rw [e1] at e1'
        obtain rfl := Option.some.inj e1'
        obtain ⟨r, hr, rfl⟩ := hlab _ _ e1
        obtain ⟨hl, hmv⟩ := hfield _ r fld hr e2
        rw [e2'] at hmv
        rw [e3, e3', Option.some.inj hmv, hu r j _ fld _ (List.mem_of_getElem? hr) hl]
      · rw [h5 j (by omega), g5 j (by omega)]
    cases st1; cases st2
    simp only at h3 g3 hstats
    rw [h3, g3, hstats]
  have hty : t ≠ [] := hxt ▸ hx.1
  have hy1 : GTensor.WF sz ⟨t, y1⟩ := ⟨hty, h2⟩
  have hy2 : GTensor.WF sz ⟨t, y2⟩ := ⟨hty, g2⟩
  refine ⟨st1, ⟨t, y1⟩, ?_, hy1, rfl, ?_⟩
  · rw [bnModule, if_pos hxt, h1]
    simp only [mkGT]
    rw [show (if y1.length = typeSize sz t then some (⟨t, y1⟩ : GTensor R (P → ℝ)) else none) = some ⟨t, y1⟩ from if_pos h2]
    rfl
  · rw [bnModule, if_pos (show (x.transform sz ρ π).ty = t from hxt), g1]
    simp only [mkGT]
    rw [show (if y2.length = typeSize sz t then some (⟨t, y2⟩ : GTensor R (P → ℝ)) else none) = some ⟨t, y2⟩ from if_pos g2, hst]
    have : (⟨t, y2⟩ : GTensor R (P → ℝ)) = GTensor.transform sz ρ π ⟨t, y1⟩ := by
      refine transform_of_fields hy1 hy2 rfl ?_
      intro c r hr
      have hr : t[c]? = some r := hr
      change (chunks (t.map sz) y2)[c]? = ((chunks (t.map sz) y1)[c]?).map _
      have hc : c < t.length := (List.getElem?_eq_some_iff.1 hr).1
      obtain ⟨j, hj⟩ := List.mem_iff_getElem?.1 (hperm.mem_iff.2 (List.mem_range.2 (by simpa using hc)))
      obtain ⟨l, fld, e1, e2, -, e4⟩ := h4 _ _ hj
      obtain ⟨l', fld', e1', e2', -, e4'⟩ := g4 _ _ hj
      rw [e1] at e1'
      obtain rfl := Option.some.inj e1'
      obtain ⟨r', hr', rfl⟩ := hlab _ _ e1
      rw [hr] at hr'
      obtain rfl := Option.some.inj hr'
      obtain ⟨hl, hmv⟩ := hfield _ r fld hr e2
      rw [e2'] at hmv
      rw [e4', e4, Option.some.inj hmv, hst, hap _ r j fld _ (List.mem_of_getElem? hr) hl]
      rfl
    rw [this]
    rfl

/-- The flags of the constructors. -/
theorem bn_flagOk (sz : R → ℕ) (lab : R → L) (t : List R) (hpos : ∀ r ∈ t, 0 < sz r) (l : L) :
    FlagOk ((contigFlags (t.map lab) l).getD false) (labelChannels (t.map lab) (t.map sz) l) := by
  have hll : (t.map lab).length = (t.map sz).length := by simp
  rw [show labelChannels (t.map lab) (t.map sz) l = _ from (labelIdx_eq (t.map lab) (t.map sz) hll l).1]
  cases h : contigFlags (t.map lab) l with
  | none => intro e; simp at e
  | some b =>
    exact (flagOk_contig (t.map lab) (t.map sz) hll (by
      intro s hs
      obtain ⟨r, hr, rfl⟩ := List.mem_map.1 hs
      exact hpos r hr) l b h).1

theorem updLoop_inv {V : Type} (J : S → Prop) (x : List V) (contig : L → Bool) (idx : L → List ℕ) (nf s : L → ℕ) (upd : L → ℕ → List V → S → S)
    (hu : ∀ l k fld st, J st → J (upd l k fld st)) (order : List L) (next : ℕ) (st st' : ℕ → S)
    (h : updLoop x contig idx nf s upd order next st = some st') (hJ : ∀ k, J (st k)) : ∀ k, J (st' k) := by
  induction order generalizing next st with
  | nil => simp only [updLoop, Option.some.injEq] at h; exact h ▸ hJ
  | cons l ls ih =>
    rw [updLoop] at h
    cases hr : readGroup x (contig l) (idx l) with
    | none => rw [hr] at h; simp at h
    | some g =>
      rw [hr] at h
      refine ih _ _ h fun k => ?_
      split
      · split
        · exact hJ k
        · exact hu _ _ _ _ (hJ k)
      · exact hJ k

/-- A property of the statistics kept by every update holds over any sequence of calls. -/
theorem bnModule_inv (J : S → Prop) (M : Normaliser P L S) (sz : R → ℕ) (t : List R) (labels : List L) (contig : L → Bool) (order : List L)
    (hu : ∀ l k n fld st, J st → J (M.update l k (n + 1) fld st)) (training : Bool) (st : NormState S) (out : List (P → ℝ)) (x : GTensor R (P → ℝ))
    {st' : NormState S} {y : GTensor R (P → ℝ)} (h : bnModule M sz t labels contig order training st out x = some (st', y))
    (hJ : ∀ k, J (st.stats k)) : ∀ k, J (st'.stats k) := by
  rw [bnModule] at h
  split at h
  · cases hf : bnForward M labels (t.map sz) contig order training st x.data out with
    | none => rw [hf] at h; simp at h
    | some p =>
      obtain ⟨s', y'⟩ := p
      rw [hf] at h
      simp only [Option.map_eq_some_iff, Prod.mk.injEq] at h
      obtain ⟨z, -, rfl, -⟩ := h
      unfold bnForward at hf
      cases training with
      | false =>
        simp only [Bool.false_eq_true, if_false] at hf
        split at hf
        · simp at hf
        · simp only [Option.some.injEq, Prod.mk.injEq] at hf
          rw [← hf.1]; exact hJ
      | true =>
        simp only [if_true] at hf
        cases hl : updLoop x.data contig (labelChannels labels (t.map sz)) (labelCount labels) M.size (fun l k => M.update l k (st.batches + 1)) order 0
          st.stats with
        | none => rw [hl] at hf; simp at hf
        | some stats =>
          rw [hl] at hf
          simp only at hf
          split at hf
          · simp at hf
          · simp only [Option.some.injEq, Prod.mk.injEq] at hf
            rw [← hf.1]
            exact updLoop_inv J x.data contig _ _ _ _ (fun l k fld s hs => hu l k _ fld s hs) order 0 _ _ hl hJ
  · simp at h

end generic

theorem bnRun_inv {X Y : Type} (J : S → Prop) (forward : Bool → NormState S → X → Option (NormState S × Y))
    (hf : ∀ b st x st' y, forward b st x = some (st', y) → (∀ k, J (st.stats k)) → ∀ k, J (st'.stats k)) (l : List (Bool × X)) (st st' : NormState S)
    (h : bnRun forward l st = some st') (hJ : ∀ k, J (st.stats k)) : ∀ k, J (st'.stats k) := by
  induction l generalizing st with
  | nil => simp only [bnRun, Option.some.injEq] at h; exact h ▸ hJ
  | cons p l ih =>
    obtain ⟨b, x⟩ := p
    rw [bnRun] at h
    cases hb : forward b st x with
    | none => rw [hb] at h; simp at h
    | some q =>
      obtain ⟨s', y⟩ := q
      rw [hb] at h
      exact ih s' h (hf b st x s' y hb hJ)

/-! ### The statistics of a field -/

section stats
variable [Fintype P]

theorem sumSq_eq (n : ℕ) (fld : List (P → ℝ)) (h : fld.length = n) : sumSq fld = ∑ p, ∑ i ∈ Finset.range n, (fld[i]?.getD 0 p) ^ 2 := by
  rw [sumSq, sum_list_fin _ (by simpa using h), Finset.sum_comm]
  apply Finset.sum_congr rfl
  intro i _
  rw [List.getElem?_map]
  cases fld[i]? <;> simp

theorem sumSq_nonneg (fld : List (P → ℝ)) : 0 ≤ sumSq fld := by
  apply List.sum_nonneg
  intro a ha
  obtain ⟨v, -, rfl⟩ := List.mem_map.1 ha
  exact Finset.sum_nonneg fun p _ => sq_nonneg _

/-- Orthogonal matrices and permutations of the positions keep the sum of the squares. -/
theorem sumSq_move {n : ℕ} {M : Mat} (hM : Orth n M) (π : Equiv.Perm P) (fld : List (P → ℝ)) (h : fld.length = n) :
    sumSq (moveField n M π fld) = sumSq fld := by
  rw [sumSq_eq n _ (moveField_length _ _ _ _), sumSq_eq n fld h, ← Equiv.sum_comp π fun p => ∑ i ∈ Finset.range n, (fld[i]?.getD 0 p) ^ 2]
  apply Finset.sum_congr rfl
  intro p _
  rw [← orth_sum_sq hM fun j => fld[j]?.getD 0 (π p)]
  apply Finset.sum_congr rfl
  intro i hi
  rw [moveField_get n M π fld (Finset.mem_range.1 hi) p]

theorem correction_nonneg (n : ℕ) : 0 ≤ correction n := by
  rw [correction]
  split
  · rename_i h
    have : (1 : ℝ) < n := by exact_mod_cast h
    apply div_nonneg <;> linarith
  · exact zero_le_one

theorem avgFactor_mem (momentum : Option ℝ) (hm : ∀ m, momentum = some m → 0 ≤ m ∧ m ≤ 1) (n : ℕ) :
    0 ≤ avgFactor momentum (n + 1) ∧ avgFactor momentum (n + 1) ≤ 1 := by
  cases momentum with
  | some m => exact hm m rfl
  | none =>
    simp only [avgFactor, Nat.cast_add, Nat.cast_one]
    have : (0 : ℝ) ≤ n := Nat.cast_nonneg n
    exact ⟨by positivity, by rw [div_le_one (by linarith)]; linarith⟩

theorem running_nonneg {f new old : ℝ} (h0 : 0 ≤ f) (h1 : f ≤ 1) (hn : 0 ≤ new) (ho : 0 ≤ old) : 0 ≤ running f new old := by
  rw [running]
  have : 0 ≤ 1 - f := by linarith
  positivity

end stats

/-! ### NormBatchNorm and InducedNormBatchNorm -/

section norm
variable [Fintype P] [DecidableEq R]

theorem map_scale (a : ℝ) (fld : List (P → ℝ)) : (fld.map fun c p => c p * a) = scaleField (fun _ => a) fld := by
  rw [scaleField]
  apply List.map_congr_left
  intro v _
  funext p
  ring

/-- C37 for `NormBatchNorm`: for orthogonal representations, in both modes, whatever the running variances, the module commutes with the action
and the statistics left by the step do not depend on the transformation. -/
theorem c37_norm (sz : R → ℕ) (t : List R) (hpos : ∀ r ∈ t, 0 < sz r) (momentum : Option ℝ) (eps : ℝ) (w : ℕ → ℝ) (ρ : R → Mat)
    (hρ : ∀ r ∈ t, Orth (sz r) (ρ r)) (π : Equiv.Perm P) (training : Bool) (st : NormState ℝ) (x : GTensor R (P → ℝ)) (hx : x.WF sz) (hxt : x.ty = t) :
    ∃ st' y, normBatchNorm sz t momentum eps w training st x = some (st', y) ∧ y.WF sz ∧ y.ty = t ∧
      normBatchNorm sz t momentum eps w training st (x.transform sz ρ π) = some (st', y.transform sz ρ π) := by
  apply bnModule_equivariant (normBN momentum eps w) sz sz t _ _ (firstKeys_nodup _) (fun l => mem_firstKeys _ l) hpos (fun _ _ => rfl)
    (fun l _ => bn_flagOk sz sz t hpos l)
  · intro b r k fld s _ h; simpa [normBN] using h
  · intro r k n fld s hr h
    simp only [normBN, sumSq_move (hρ r hr) π fld h]
  · intro b r k fld s hr h
    simp only [normBN, map_scale, moveField_scale]
    rfl
  · exact hx
  · exact hxt
  · rfl
  · rw [hx.2, (transform_wf ρ π hx).2]; rfl

/-- C37: the running variances of `NormBatchNorm` are non-negative over any sequence of calls in any modes, so that every denominator
`√(running_var + eps)` is positive. -/
theorem c37_norm_nonneg (sz : R → ℕ) (t : List R) (momentum : Option ℝ) (hm : ∀ m, momentum = some m → 0 ≤ m ∧ m ≤ 1) (eps : ℝ) (heps : 0 < eps)
    (w : ℕ → ℝ) (calls : List (Bool × GTensor R (P → ℝ))) (st : NormState ℝ) (h : bnRun (normBatchNorm sz t momentum eps w) calls ⟨0, fun _ => 1⟩ = some st) :
    ∀ k, 0 ≤ st.stats k ∧ 0 < √(st.stats k + eps) := by
  have := bnRun_inv (fun v : ℝ => 0 ≤ v) _ (fun b s x s' y hs hJ => bnModule_inv (fun v : ℝ => 0 ≤ v) _ sz t _ _ _ (fun l k n fld v hv => by
    obtain ⟨h0, h1⟩ := avgFactor_mem momentum hm n
    refine running_nonneg h0 h1 (mul_nonneg (div_nonneg (div_nonneg (sumSq_nonneg _) (Nat.cast_nonneg _)) (Nat.cast_nonneg _)) (correction_nonneg _)) hv) b s _ x hs hJ)
    calls _ st h fun _ => zero_le_one
  exact fun k => ⟨this k, Real.sqrt_pos.2 (by linarith [this k])⟩

/-- C37 for `InducedNormBatchNorm`. -/
theorem c37_induced (sz sub : R → ℕ) (t : List R) (hpos : ∀ r ∈ t, 0 < sz r) (momentum : Option ℝ) (eps : ℝ) (w : ℕ → ℝ) (ρ : R → Mat)
    (hρ : ∀ r ∈ t, Orth (sz r) (ρ r)) (π : Equiv.Perm P) (training : Bool) (st : NormState ℝ) (x : GTensor R (P → ℝ)) (hx : x.WF sz) (hxt : x.ty = t) :
    ∃ st' y, inducedNormBatchNorm sz sub t momentum eps w training st x = some (st', y) ∧ y.WF sz ∧ y.ty = t ∧
      inducedNormBatchNorm sz sub t momentum eps w training st (x.transform sz ρ π) = some (st', y.transform sz ρ π) := by
  apply bnModule_equivariant (inducedBN momentum eps w) sz (fun r => (sz r, sub r)) t _ _ (firstKeys_nodup _) (fun l => mem_firstKeys _ l) hpos
    (fun _ _ => rfl) (fun l _ => bn_flagOk sz _ t hpos l)
  · intro b r k fld s _ h; simpa [inducedBN] using h
  · intro r k n fld s hr h
    simp only [inducedBN, sumSq_move (hρ r hr) π fld h]
  · intro b r k fld s hr h
    simp only [inducedBN, map_scale, moveField_scale]
    rfl
  · exact hx
  · exact hxt
  · rfl
  · rw [hx.2, (transform_wf ρ π hx).2]; rfl

theorem c37_induced_nonneg (sz sub : R → ℕ) (t : List R) (momentum : Option ℝ) (hm : ∀ m, momentum = some m → 0 ≤ m ∧ m ≤ 1) (eps : ℝ) (heps : 0 < eps)
    (w : ℕ → ℝ) (calls : List (Bool × GTensor R (P → ℝ))) (st : NormState ℝ)
    (h : bnRun (inducedNormBatchNorm sz sub t momentum eps w) calls ⟨0, fun _ => 1⟩ = some st) :
    ∀ k, 0 ≤ st.stats k ∧ 0 < √(st.stats k + eps) := by
  have := bnRun_inv (fun v : ℝ => 0 ≤ v) _ (fun b s x s' y hs hJ => bnModule_inv (fun v : ℝ => 0 ≤ v) _ sz t _ _ _ (fun l k n fld v hv => by
    obtain ⟨h0, h1⟩ := avgFactor_mem momentum hm n
    refine running_nonneg h0 h1 (mul_nonneg (div_nonneg (div_nonneg (sumSq_nonneg _) (Nat.cast_nonneg _)) (Nat.cast_nonneg _)) (correction_nonneg _)) hv) b s _ x hs hJ)
    calls _ st h fun _ => zero_le_one
  exact fun k => ⟨this k, Real.sqrt_pos.2 (by linarith [this k])⟩

end norm

/-! ### InnerBatchNorm -/

section inner
variable [Fintype P] [DecidableEq R]

/-- A field transformed by a permutation matrix: the channels are permuted. -/
theorem moveField_isPerm {n : ℕ} {M : Mat} (hM : IsPerm n M) (π : P → P) (fld : List (P → ℝ)) (hl : fld.length = n) :
    ∃ σ : Equiv.Perm (Fin n), moveField n M π fld = List.ofFn fun i : Fin n => (fld[(σ i : ℕ)]'(by rw [hl]; exact (σ i).2)) ∘ π := by
  obtain ⟨σ, h⟩ := hM
  refine ⟨σ, ?_⟩
  apply List.ext_getElem (by simp [moveField_length])
  intro i hi _
  rw [moveField_length] at hi
  rw [List.getElem_ofFn]
  funext p
  have h1 := moveField_get n M π fld hi p
  rw [List.getElem?_eq_getElem (by rw [moveField_length]; exact hi), Option.getD_some] at h1
  rw [h1, Finset.sum_eq_single (σ ⟨i, hi⟩ : ℕ)]
  · rw [h ⟨i, hi⟩ (σ ⟨i, hi⟩), if_pos rfl, one_mul, List.getElem?_eq_getElem (by rw [hl]; exact (σ ⟨i, hi⟩).2)]
    rfl
  · intro j hj hne
    rw [Finset.mem_range] at hj
    rw [h ⟨i, hi⟩ ⟨j, hj⟩, if_neg fun e => hne (congrArg Fin.val e), zero_mul]
  · intro hh
    exact absurd (Finset.mem_range.2 (σ ⟨i, hi⟩).2) hh

theorem sum_move {n : ℕ} {M : Mat} (hM : IsPerm n M) (π : Equiv.Perm P) (fld : List (P → ℝ)) (hl : fld.length = n) (f : ℝ → ℝ) :
    ((moveField n M π fld).map fun v => ∑ p, f (v p)).sum = (fld.map fun v => ∑ p, f (v p)).sum := by
  obtain ⟨σ, h⟩ := moveField_isPerm hM π fld hl
  have e : fld = List.ofFn fun i : Fin n => fld[(i : ℕ)]'(by rw [hl]; exact i.2) := by
    apply List.ext_getElem (by simp [hl])
    intro i _ _
    simp
  rw [h, List.map_ofFn, List.sum_ofFn]
  conv_rhs => rw [e]
  rw [List.map_ofFn, List.sum_ofFn]
  rw [← Equiv.sum_comp σ fun i : Fin n => ((fun v : P → ℝ => ∑ p, f (v p)) ∘ fun i : Fin n => fld[(i : ℕ)]'(by rw [hl]; exact i.2)) i]
  apply Finset.sum_congr rfl
  intro i _
  exact Equiv.sum_comp π fun p => f ((fld[(σ i : ℕ)]'(by rw [hl]; exact (σ i).2)) p)

theorem fieldMean_move {n : ℕ} {M : Mat} (hM : IsPerm n M) (π : Equiv.Perm P) (fld : List (P → ℝ)) (hl : fld.length = n) :
    fieldMean (moveField n M π fld) = fieldMean fld := by
  rw [fieldMean, fieldMean, moveField_length, hl, sum_move hM π fld hl fun v => v]

theorem fieldVar_move {n : ℕ} {M : Mat} (hM : IsPerm n M) (π : Equiv.Perm P) (fld : List (P → ℝ)) (hl : fld.length = n) :
    fieldVar (moveField n M π fld) = fieldVar fld := by
  rw [fieldVar, fieldVar, moveField_length, hl, fieldMean_move hM π fld hl, sum_move hM π fld hl fun v => (v - fieldMean fld) ^ 2]

theorem map_move {n : ℕ} {M : Mat} (hM : IsPerm n M) (π : P → P) (fld : List (P → ℝ)) (hl : fld.length = n) (f : ℝ → ℝ) :
    ((moveField n M π fld).map fun v p => f (v p)) = moveField n M π (fld.map fun v p => f (v p)) := by
  obtain ⟨σ, hσ⟩ := hM
  apply List.ext_getElem (by simp [moveField_length])
  intro i hi _
  simp only [List.length_map, moveField_length] at hi
  rw [List.getElem_map]
  funext p
  have h1 := moveField_get n M π fld hi p
  have h2 := moveField_get n M π (fld.map fun v p => f (v p)) hi p
  rw [List.getElem?_eq_getElem (by rw [moveField_length]; exact hi), Option.getD_some] at h1 h2
  have key : ∀ g : ℕ → ℝ, ∑ j ∈ Finset.range n, M i j * g j = g (σ ⟨i, hi⟩) := by
    intro g
    rw [Finset.sum_eq_single (σ ⟨i, hi⟩ : ℕ)]
    · rw [hσ ⟨i, hi⟩ (σ ⟨i, hi⟩), if_pos rfl, one_mul]
    · intro j hj hne
      rw [Finset.mem_range] at hj
      rw [hσ ⟨i, hi⟩ ⟨j, hj⟩, if_neg fun e => hne (congrArg Fin.val e), zero_mul]
    · intro hh
      exact absurd (Finset.mem_range.2 (σ ⟨i, hi⟩).2) hh
  rw [h1, h2, key fun j => fld[j]?.getD 0 (π p), key fun j => (fld.map fun (v : P → ℝ) (p : P) => f (v p))[j]?.getD 0 (π p)]
  have hb : (σ ⟨i, hi⟩ : ℕ) < fld.length := by rw [hl]; exact (σ ⟨i, hi⟩).2
  simp only [List.getElem?_map, List.getElem?_eq_getElem hb, Option.map_some, Option.getD_some]

theorem inner_flagOk (sz : R → ℕ) (t : List R) (hpos : ∀ r ∈ t, 0 < sz r) {s : ℕ} (hs : s ∈ t.map sz) :
    FlagOk (((indexesFromLabels sz t (t.map sz) s).map fun e => e.1).getD false) (labelChannels (t.map sz) (t.map sz) s) := by
  obtain ⟨b, h1, h2, -⟩ := flagOk_indexes sz t hpos (t.map sz) (by simp) hs
  rw [h1, show labelChannels (t.map sz) (t.map sz) s = _ from (labelIdx_eq (t.map sz) (t.map sz) rfl s).1]
  exact h2

/-- C37 for `InnerBatchNorm`: for representations by permutation matrices, in both modes, with or without running statistics. -/
theorem c37_inner (sz : R → ℕ) (t : List R) (hpos : ∀ r ∈ t, 0 < sz r) (momentum : Option ℝ) (eps : ℝ) (track : Bool) (w b : ℕ → ℝ) (ρ : R → Mat)
    (hρ : ∀ r ∈ t, IsPerm (sz r) (ρ r)) (π : Equiv.Perm P) (training : Bool) (st : NormState (ℝ × ℝ)) (x : GTensor R (P → ℝ)) (hx : x.WF sz)
    (hxt : x.ty = t) (junk junk' : List (P → ℝ)) (hj : junk.length = x.data.length) (hj' : junk'.length = x.data.length) :
    ∃ st' y, innerBatchNorm sz t momentum eps track w b training st junk x = some (st', y) ∧ y.WF sz ∧ y.ty = t ∧
      innerBatchNorm sz t momentum eps track w b training st junk' (x.transform sz ρ π) = some (st', y.transform sz ρ π) := by
  apply bnModule_equivariant (innerBN momentum eps track w b) sz sz t _ _ (firstKeys_nodup _) (fun l => mem_firstKeys _ l) hpos
    (fun _ _ => rfl) (fun l hl => inner_flagOk sz t hpos ((mem_firstKeys _ l).1 hl))
  · intro b r k fld s _ h; simpa [innerBN] using h
  · intro r k n fld s hr h
    simp only [innerBN, fieldMean_move (hρ r hr) π fld h, fieldVar_move (hρ r hr) π fld h, moveField_length, h]
  · intro tr r k fld s hr h
    simp only [innerBN, fieldMean_move (hρ r hr) π fld h, fieldVar_move (hρ r hr) π fld h]
    exact map_move (hρ r hr) π fld h fun v => (v - _) / _ * _ + _
  · exact hx
  · exact hxt
  · exact hj
  · exact hj'

theorem fieldVar_nonneg (fld : List (P → ℝ)) : 0 ≤ fieldVar fld := by
  rw [fieldVar]
  refine div_nonneg (List.sum_nonneg ?_) (Nat.cast_nonneg _)
  intro a ha
  obtain ⟨v, -, rfl⟩ := List.mem_map.1 ha
  exact Finset.sum_nonneg fun p _ => sq_nonneg _

theorem c37_inner_nonneg (sz : R → ℕ) (t : List R) (momentum : Option ℝ) (hm : ∀ m, momentum = some m → 0 ≤ m ∧ m ≤ 1) (eps : ℝ) (heps : 0 < eps)
    (track : Bool) (w b : ℕ → ℝ) (calls : List (Bool × List (P → ℝ) × GTensor R (P → ℝ))) (st : NormState (ℝ × ℝ))
    (h : bnRun (fun tr s (c : List (P → ℝ) × GTensor R (P → ℝ)) => innerBatchNorm sz t momentum eps track w b tr s c.1 c.2) calls ⟨0, fun _ => (0, 1)⟩ = some st) :
    ∀ k, 0 ≤ (st.stats k).2 ∧ 0 < √((st.stats k).2 + eps) := by
  have := bnRun_inv (fun v : ℝ × ℝ => 0 ≤ v.2) _ (fun b s x s' y hs hJ => bnModule_inv (fun v : ℝ × ℝ => 0 ≤ v.2) _ sz t _ _ _ (fun l k n fld v hv => by
    obtain ⟨h0, h1⟩ := avgFactor_mem momentum hm n
    simp only [innerBN]
    split
    · exact running_nonneg h0 h1 (mul_nonneg (fieldVar_nonneg _) (correction_nonneg _)) hv
    · exact hv) b s _ x.2 hs hJ)
    calls _ st h fun _ => zero_le_one
  exact fun k => ⟨this k, Real.sqrt_pos.2 (by linarith [this k])⟩

end inner

end E2
