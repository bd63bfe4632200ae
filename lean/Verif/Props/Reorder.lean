import Verif.Props.Tensor
import Verif.Props.Spec

/-!
# C31: modules that only move whole fields
-/

namespace E2

open Mat

variable {R L V : Type}

/-! ## Reshuffling -/

theorem reshuffle_eq (sz : R → ℕ) {x : GTensor R V} (hx : x.WF sz) (perm : List ℕ)
    (hp : ∀ i, i ∈ perm ↔ i < x.ty.length) : reshuffle sz perm x = x.select sz perm := by
  have hpos : 0 < x.ty.length := List.length_pos_iff.2 hx.1
  have h0 : perm ≠ [] := List.ne_nil_of_mem ((hp 0).2 hpos)
  have hlt : ∀ i ∈ perm, i < x.ty.length := fun i hi => (hp i).1 hi
  unfold reshuffle
  rw [if_pos ⟨hlt, fun i hi => (hp i).2 (by simpa using hi)⟩]
  obtain ⟨y, h1, h2, h3, h4⟩ := GTensor.select_of_gather hx h0 hlt
  have hs : indexSelect x.ty (perm.map Int.ofNat) = some y.ty := by
    rw [indexSelect_eq]
    refine ⟨by simpa using h0, ?_, ?_⟩
    · intro i hi
      obtain ⟨j, hj, rfl⟩ := List.mem_map.1 hi
      have := hlt j hj
      simpa using this
    · rw [List.map_map]
      exact (gather_some_iff _ _ _).1 h3
  have hr : (perm.mapM fun c => ((positionsFrom 0 (x.ty.map sz))[c]?).bind fun p =>
      (x.ty[c]?).bind fun r => some (List.range' p (sz r)))
      = some (perm.map fun c => List.range' (offset (x.ty.map sz) c) ((x.ty.map sz)[c]?.getD 0)) := by
    rw [mapM_some_iff, List.map_map]
    apply List.map_congr_left
    intro c hc
    have hc' := hlt c hc
    rw [positionsFrom_get 0 _ (by simp; omega), List.getElem?_eq_getElem hc']
    simp [hc']
  simp only [Option.bind_eq_bind]
  rw [hs, hr, h1]
  simp only [Option.bind_some]
  rw [← List.flatMap_def]
  change (gather x.data (chanIdx (x.ty.map sz) perm)).bind _ = _
  rw [h2, Option.bind_some]
  exact mkGT_eq_some.2 ⟨h4.2, rfl⟩

theorem select_perm {sz : R → ℕ} {x y : GTensor R V} (hx : x.WF sz) {fs : List ℕ} (hp : fs.Perm (List.range x.ty.length))
    (h : x.select sz fs = some y) : (y.fields sz).Perm (x.fields sz) ∧ y.data.Perm x.data ∧ y.ty.Perm x.ty := by
  obtain ⟨_, h1, h2, h3⟩ := (GTensor.select_eq_some hx).1 h
  have key : ∀ {W : Type} (l m : List W), l.length = x.ty.length → gather l fs = some m → m.Perm l := by
    intro W l m hl hg
    have hg := (gather_some_iff _ _ _).1 hg
    have h4 := gather_range l
    rw [hl] at h4
    have h4 := (gather_some_iff _ _ _).1 h4
    have : (m.map some).Perm (l.map some) := by
      rw [← hg, ← h4]; exact hp.map _
    exact (List.map_perm_map_iff (Option.some_injective W)).1 this
  have hf := key _ _ (GTensor.fields_length sz x) h2
  refine ⟨hf, ?_, key _ _ rfl h1⟩
  rw [← GTensor.fields_flatten hx, ← GTensor.fields_flatten h3]
  exact hf.flatten

/-- **C31**: `ReshuffleModule` with a permutation moves whole fields: field number `k` of the output is field
number `perm[k]` of the input with its representation, no value is changed, and it commutes with the action. -/
theorem c31_reshuffle (sz : R → ℕ) (x : GTensor R V) (hx : x.WF sz) (perm : List ℕ)
    (hp : perm.Perm (List.range x.ty.length)) :
    ∃ y, reshuffle sz perm x = some y ∧ y.WF sz ∧ y.ty.map some = perm.map (fun c => x.ty[c]?) ∧
      (y.fields sz).map some = perm.map (fun c => (x.fields sz)[c]?) ∧ y.data.Perm x.data := by
  have hm : ∀ i, i ∈ perm ↔ i < x.ty.length := fun i => by rw [hp.mem_iff, List.mem_range]
  have hpos : 0 < x.ty.length := List.length_pos_iff.2 hx.1
  obtain ⟨y, hy⟩ := GTensor.select_exists hx (List.ne_nil_of_mem ((hm 0).2 hpos)) fun i hi => (hm i).1 hi
  obtain ⟨_, h1, h2, h3⟩ := (GTensor.select_eq_some hx).1 hy
  exact ⟨y, by rw [reshuffle_eq sz hx perm hm, hy], h3, ((gather_some_iff _ _ _).1 h1).symm,
    ((gather_some_iff _ _ _).1 h2).symm, (select_perm hx hp hy).2.1⟩

theorem c31_reshuffle_act [AddCommMonoid V] [Module ℝ V] (sz : R → ℕ) (ρ : R → Mat) (x : GTensor R V) (hx : x.WF sz)
    (perm : List ℕ) :
    reshuffle sz perm (x.act sz ρ) = (reshuffle sz perm x).map (GTensor.act sz ρ) := by
  by_cases h : ∀ i, i ∈ perm ↔ i < x.ty.length
  · rw [reshuffle_eq sz hx perm h, reshuffle_eq sz (GTensor.act_wf ρ hx) perm h, GTensor.select_act sz ρ hx]
  · have h' : ¬ ((∀ i ∈ perm, i < x.ty.length) ∧ (∀ i ∈ List.range x.ty.length, i ∈ perm)) := by
      rintro ⟨h1, h2⟩
      exact h fun i => ⟨h1 i, fun hi => h2 i (by simpa using hi)⟩
    unfold reshuffle
    rw [GTensor.act_ty, if_neg h', if_neg h']; rfl

/-! ## Branching -/

theorem posOf_append [DecidableEq L] (pre : List L) (l k : L) :
    posOf (pre ++ [l]) k = posOf pre k ++ if k = l then [pre.length] else [] := by
  unfold posOf
  rw [List.length_append, List.length_singleton, List.range_succ, List.filter_append]
  congr 1
  · apply List.filter_congr
    intro i hi
    rw [List.getElem?_append_left (by simpa using hi)]
  · by_cases h : k = l
    · simp [h]
    · have h' : ¬ l = k := fun e => h e.symm
      simp [h, h']

/-- The invariant of the loop computing `_contiguous`: known labels are those seen, and a label marked
contiguous occupies a range of fields. -/
theorem contigLoop_inv [DecidableEq L] (ls pre : List L) (d : L → Option Bool)
    (h1 : ∀ k, (d k).isSome ↔ k ∈ pre) (h2 : ∀ k, d k = some true → ∃ a m, posOf pre k = List.range' a m) :
    (∀ k, (contigLoop ls pre.getLast? d k).isSome ↔ k ∈ pre ++ ls) ∧
    (∀ k, contigLoop ls pre.getLast? d k = some true → ∃ a m, posOf (pre ++ ls) k = List.range' a m) := by
  induction ls generalizing pre d with
  | nil => simpa [contigLoop] using ⟨h1, h2⟩
  | cons l ls ih =>
    rw [contigLoop]
    have hlast : (some l : Option L) = (pre ++ [l]).getLast? := by simp
    have happ : pre ++ l :: ls = (pre ++ [l]) ++ ls := by simp
    rw [hlast, happ]
    apply ih
    · intro k
      by_cases hl : some l ≠ pre.getLast?
      · rw [← hlast, if_pos hl]
        by_cases hk : k = l
        · simp [hk]
        · simp [hk, h1 k]
      · rw [← hlast, if_neg hl, h1 k]
        rw [not_not] at hl
        have : l ∈ pre := List.mem_of_getLast? hl.symm
        constructor
        · intro h; simp [h]
        · intro h
          rcases List.mem_append.1 h with h | h
          · exact h
          · rw [List.mem_singleton.1 h]; exact this
    · intro k
      rw [posOf_append]
      by_cases hl : some l ≠ pre.getLast?
      · rw [← hlast, if_pos hl]
        by_cases hk : k = l
        · subst hk
          simp only [if_true, Option.some.injEq, Option.isNone_iff_eq_none]
          intro hd
          have hk' : k ∉ pre := by
            intro h
            have := (h1 k).2 h
            rw [hd] at this; simp at this
          have : posOf pre k = [] := by
            rw [List.eq_nil_iff_forall_not_mem]
            intro i hi
            have := mem_posOf.1 hi
            exact hk' (List.mem_of_getElem? this)
          exact ⟨pre.length, 1, by rw [this]; rfl⟩
        · simp only [if_neg hk, List.append_nil]
          exact h2 k
      · rw [← hlast, if_neg hl]
        rw [not_not] at hl
        intro hd
        obtain ⟨a, m, ham⟩ := h2 k hd
        by_cases hk : k = l
        · subst hk
          rw [if_pos rfl]
          have hne : pre ≠ [] := by rintro rfl; simp at hl
          have hpos : 0 < pre.length := List.length_pos_iff.2 hne
          have hmem : pre.length - 1 ∈ posOf pre k := by
            rw [mem_posOf, ← List.getLast?_eq_getElem?, ← hl]
          have hmem' := hmem
          rw [ham, List.mem_range'_1] at hmem
          have hmax : a + m ≤ pre.length := by
            have : a + (m - 1) ∈ posOf pre k := by rw [ham, List.mem_range'_1]; omega
            have := posOf_lt this
            omega
          refine ⟨a, m + 1, ?_⟩
          rw [ham, List.range'_concat, show a + 1 * m = pre.length by omega]
        · simp only [if_neg hk, List.append_nil]
          exact ⟨a, m, ham⟩

/-- The channels of a range of fields are a range. -/
theorem chanIdx_range' (s : List ℕ) (a m : ℕ) (h : a + m ≤ s.length) :
    chanIdx s (List.range' a m) = List.range' (offset s a) (offset s (a + m) - offset s a) := by
  induction m with
  | zero => simp [chanIdx]
  | succ m ih =>
    have hlt : a + m < s.length := by omega
    have h1 := offset_mono s (show a ≤ a + m by omega)
    rw [List.range'_concat, chanIdx, List.flatMap_append]
    change chanIdx s (List.range' a m) ++ _ = _
    rw [ih (by omega), Nat.one_mul]
    simp only [List.flatMap_cons, List.flatMap_nil, List.append_nil, List.getElem?_eq_getElem hlt, Option.getD_some]
    have h2 := offset_succ s hlt
    rw [show a + (m + 1) = a + m + 1 by omega, h2,
      show offset s (a + m) + s[a + m] - offset s a = (offset s (a + m) - offset s a) + s[a + m] by omega,
      ← List.range'_append_1, show offset s a + (offset s (a + m) - offset s a) = offset s (a + m) by omega]

/-- After the optional reshuffling, the branch of label `l` consists of the fields carrying this label, in their
order. -/
theorem branchSub_eq [DecidableEq L] (sz : R → ℕ) {x : GTensor R V} (hx : x.WF sz) (hsz : ∀ r ∈ x.ty, 0 < sz r)
    (labels : List L) (hl : labels.length = x.ty.length) (l : L) :
    branchSub sz labels x l = x.select sz (posOf labels l) := by
  by_cases hm : l ∈ labels
  swap
  · have : posOf labels l = [] := by
      rw [List.eq_nil_iff_forall_not_mem]
      intro i hi
      exact hm (List.mem_of_getElem? (mem_posOf.1 hi))
    rw [this, branchSub, groupByLabels, if_pos hl, if_neg hm]
    simp [GTensor.select]
  have hlt : ∀ i ∈ posOf labels l, i < x.ty.length := fun i hi => hl ▸ posOf_lt hi
  have hne : posOf labels l ≠ [] := by
    obtain ⟨i, hi, rfl⟩ := List.mem_iff_getElem.1 hm
    exact List.ne_nil_of_mem (mem_posOf.2 (List.getElem?_eq_getElem hi) : i ∈ _)
  obtain ⟨y, h1, h2, h3, h4⟩ := GTensor.select_of_gather hx hne hlt
  obtain ⟨t, ht, ht2⟩ := c28_group_by_labels x.ty labels hl l hm
  have hty : t = y.ty := by
    have := (gather_some_iff _ _ _).1 h3
    rw [posOf, hl] at this
    rw [this] at ht2
    exact (List.map_injective_iff.2 (Option.some_injective _)) ht2
  obtain ⟨i1, i2⟩ := contigLoop_inv labels [] (fun _ => none) (by simp) (by simp)
  simp only [List.getLast?_nil, List.nil_append] at i1 i2
  obtain ⟨c, hc⟩ := Option.isSome_iff_exists.1 ((i1 l).2 hm)
  have hidx := (labelIdx_eq labels (x.ty.map sz) (by simpa using hl) l).1
  unfold branchSub
  simp only [Option.bind_eq_bind]
  rw [ht, hc, hidx, h1]
  simp only [Option.bind_some]
  have hread : readGroup x.data c (chanIdx (x.ty.map sz) (posOf labels l)) = some y.data := by
    cases c with
    | false => simpa [readGroup] using h2
    | true =>
      obtain ⟨a, m, ham⟩ := i2 l hc
      rw [ham] at h2 hne hlt ⊢
      have hm0 : 0 < m := by
        rcases Nat.eq_zero_or_pos m with rfl | h
        · simp at hne
        · exact h
      have ham' : a + m ≤ (x.ty.map sz).length := by
        have := hlt (a + (m - 1)) (by rw [List.mem_range'_1]; omega)
        simp; omega
      rw [chanIdx_range' _ _ _ ham'] at h2 ⊢
      have hgt : offset (x.ty.map sz) a < offset (x.ty.map sz) (a + m) := by
        have h5 := offset_mono (x.ty.map sz) (show a + 1 ≤ a + m by omega)
        have h6 := offset_succ (x.ty.map sz) (show a < (x.ty.map sz).length by omega)
        have h7 : 0 < (x.ty.map sz)[a]'(by omega) := by
          rw [List.getElem_map]; exact hsz _ (List.getElem_mem _)
        omega
      have hle : offset (x.ty.map sz) (a + m) ≤ x.data.length := by
        rw [hx.2, typeSize, ← offset_length]; exact offset_mono _ ham'
      obtain ⟨n, hn⟩ : ∃ n, offset (x.ty.map sz) (a + m) - offset (x.ty.map sz) a = n + 1 := ⟨offset (x.ty.map sz) (a + m) - offset (x.ty.map sz) a - 1, by omega⟩
      rw [hn] at h2 ⊢
      rw [gather_range' _ _ _ (by omega)] at h2
      simp only [readGroup, if_true, min?_range', max?_range', pySlice]
      rw [List.drop_take, ← h2]
      congr 2; omega
  rw [hread, Option.bind_some, hty]
  exact mkGT_eq_some.2 ⟨h4.2, rfl⟩

theorem select_select {sz : R → ℕ} {x y : GTensor R V} (hx : x.WF sz) {p : List ℕ} (hy : x.select sz p = some y)
    (fs gs : List ℕ) (hg : gather p fs = some gs) : y.select sz fs = x.select sz gs := by
  obtain ⟨h0, h1, h2, h3⟩ := (GTensor.select_eq_some hx).1 hy
  by_cases hf : fs = []
  · subst hf
    rw [gather_nil, Option.some.injEq] at hg
    subst hg; simp [GTensor.select]
  · have hl := gather_length hg
    have hgne : gs ≠ [] := by
      rintro rfl
      exact hf (List.length_eq_zero_iff.1 (by simpa using hl.symm))
    have key : ∀ {W : Type} (l m : List W), gather l p = some m → gather m fs = gather l gs := by
      intro W l m hm
      have hm := (gather_some_iff _ _ _).1 hm
      have hg' := (gather_some_iff _ _ _).1 hg
      have hf' := gather_lt hg
      have e : gather (m.map some) fs = gather (p.map fun i => l[i]?) fs := by rw [hm]
      rw [gather_map, gather_map, hg, Option.map_some] at e
      rcases h : gather m fs with _ | u
      · rw [h] at e; simp at e
      · rw [h, Option.map_some, Option.some.injEq] at e
        exact ((gather_some_iff _ _ _).2 e.symm).symm
    obtain ⟨z, hz⟩ := GTensor.select_exists h3 hf (by
      intro i hi
      have := gather_lt hg i hi
      rw [← gather_length h1] at this
      exact this)
    rw [hz, eq_comm, GTensor.select_eq_some hx]
    obtain ⟨_, g1, g2, g3⟩ := (GTensor.select_eq_some h3).1 hz
    exact ⟨hgne, by rw [← key _ _ h1, g1], by rw [← key _ _ h2, g2], g3⟩

theorem branchPerm_perm [LinearOrder L] (sz : R → ℕ) (level : ℕ) (labels : List L) (reps : List R)
    (h : labels.length = reps.length) : (branchPerm sz level labels reps).Perm (List.range reps.length) := by
  unfold branchPerm
  dsimp only
  refine ((List.mergeSort_perm _ _).map Prod.snd).trans ?_
  rw [List.zipIdx_map_snd, List.range_eq_range']
  simp [h]

/-- The fields of the branch of label `l`. -/
theorem branch_eq [LinearOrder L] (sz : R → ℕ) (level : ℕ) (hlev : level < 3) {x : GTensor R V} (_hx : x.WF sz)
    (hsz : ∀ r ∈ x.ty, 0 < sz r) (labels : List L) (hl : labels.length = x.ty.length) (l : L) :
    ∃ fs : List ℕ, fs.Perm (posOf labels l) ∧ (level = 0 → fs = posOf labels l) ∧
      (∀ x' : GTensor R V, x'.WF sz → x'.ty = x.ty → branch sz level labels x' l = x'.select sz fs) := by
  by_cases hc : 0 < level ∧ branchPerm sz level labels x.ty ≠ List.range x.ty.length
  swap
  · refine ⟨posOf labels l, List.Perm.refl _, fun _ => rfl, fun x' hx' ht => ?_⟩
    rw [branch, ht, if_pos ⟨hlev, hl.symm⟩, if_neg hc]
    exact branchSub_eq sz hx' (by rwa [ht]) labels (by rw [ht, hl]) l
  · have hperm := branchPerm_perm sz level labels x.ty hl
    generalize hP : branchPerm sz level labels x.ty = p at *
    have hmem : ∀ i, i ∈ p ↔ i < x.ty.length := fun i => by rw [hperm.mem_iff, List.mem_range]
    obtain ⟨labels', hlab⟩ := gather_isSome labels p (by intro i hi; rw [hl]; exact (hmem i).1 hi)
    have hlen : labels'.length = p.length := gather_length hlab
    have hplen : p.length = x.ty.length := by rw [hperm.length_eq, List.length_range]
    obtain ⟨gs, hgs⟩ := gather_isSome p (posOf labels' l) (by
      intro i hi; rw [← hlen]; exact posOf_lt hi)
    refine ⟨gs, ?_, fun h0 => by omega, ?_⟩
    · have hnd : p.Nodup := hperm.nodup_iff.2 List.nodup_range
      have hg := (gather_some_iff _ _ _).1 hgs
      have hlab' := (gather_some_iff _ _ _).1 hlab
      have hget : ∀ k i : ℕ, p[k]? = some i → labels'[k]? = labels[i]? := by
        intro k i hk
        have := congrArg (·[k]?) hlab'
        simp only [List.getElem?_map, hk, Option.map_some] at this
        have hk' : k < p.length := (List.getElem?_eq_some_iff.1 hk).1
        rw [List.getElem?_eq_getElem (by omega : k < labels'.length)] at this ⊢
        simpa using this.symm
      have hgget : ∀ i, i ∈ gs ↔ ∃ k ∈ posOf labels' l, p[k]? = some i := by
        intro i
        have : some i ∈ gs.map some ↔ i ∈ gs := by simp
        rw [← this, ← hg, List.mem_map]
      rw [List.perm_ext_iff_of_nodup _ (posOf_nodup labels l)]
      · intro i
        rw [hgget, mem_posOf]
        constructor
        · rintro ⟨k, hk, hki⟩
          rw [← hget k i hki]; exact mem_posOf.1 hk
        · intro hi
          have hi' : i < x.ty.length := by rw [← hl]; exact (List.getElem?_eq_some_iff.1 hi).1
          obtain ⟨k, hk, hki⟩ := List.mem_iff_getElem.1 ((hmem i).2 hi')
          have : p[k]? = some i := by rw [List.getElem?_eq_getElem hk, hki]
          exact ⟨k, by rw [mem_posOf, hget k i this, hi], this⟩
      · have hn : (gs.map some).Nodup := by
          rw [← hg]
          refine List.Nodup.map_on ?_ (posOf_nodup labels' l)
          intro a ha b hb hab
          have ha' : a < p.length := by have := posOf_lt ha; omega
          have hb' : b < p.length := by have := posOf_lt hb; omega
          rw [List.getElem?_eq_getElem ha', List.getElem?_eq_getElem hb', Option.some.injEq] at hab
          exact (hnd.getElem_inj_iff).1 hab
        exact hn.of_map
    · intro x' hx' ht
      rw [branch, ht, hP, if_pos ⟨hlev, hl.symm⟩, if_pos hc]
      have hmem' : ∀ i, i ∈ p ↔ i < x'.ty.length := by rwa [ht]
      have hpos : 0 < x'.ty.length := List.length_pos_iff.2 hx'.1
      obtain ⟨y, hy⟩ := GTensor.select_exists hx' (List.ne_nil_of_mem ((hmem' 0).2 hpos)) fun i hi => (hmem' i).1 hi
      obtain ⟨_, g1, g2, g3⟩ := (GTensor.select_eq_some hx').1 hy
      simp only [Option.bind_eq_bind]
      rw [reshuffle_eq sz hx' p hmem', hy, mapM_eq_gather, hlab]
      simp only [Option.bind_some]
      rw [branchSub_eq sz g3 _ labels' (by rw [hlen, gather_length g1]) l]
      · exact select_select hx' hy _ _ hgs
      · intro r hr
        have := (gather_some_iff _ _ _).1 g1
        have hm : some r ∈ y.ty.map some := List.mem_map_of_mem hr
        rw [← this] at hm
        obtain ⟨i, _, hi⟩ := List.mem_map.1 hm
        rw [ht] at hi
        exact hsz r (List.mem_of_getElem? hi)

/-- **C31**: each branch of `BranchingModule` consists of exactly the fields carrying its label (in their order
when no reshuffling is requested), with their representations and values. -/
theorem c31_branch [LinearOrder L] (sz : R → ℕ) (level : ℕ) (hlev : level < 3) (x : GTensor R V) (hx : x.WF sz)
    (hsz : ∀ r ∈ x.ty, 0 < sz r) (labels : List L) (hl : labels.length = x.ty.length) (l : L) (hm : l ∈ labels) :
    ∃ fs y, (∀ c, c ∈ fs ↔ labels[c]? = some l) ∧ fs.Nodup ∧ (level = 0 → fs.Pairwise (· < ·)) ∧
      branch sz level labels x l = some y ∧ x.select sz fs = some y := by
  obtain ⟨fs, h1, h2, h3⟩ := branch_eq sz level hlev hx hsz labels hl l
  have hmem : ∀ c, c ∈ fs ↔ labels[c]? = some l := fun c => by rw [h1.mem_iff, mem_posOf]
  have hne : fs ≠ [] := by
    obtain ⟨i, hi, rfl⟩ := List.mem_iff_getElem.1 hm
    exact List.ne_nil_of_mem ((hmem i).2 (List.getElem?_eq_getElem hi))
  obtain ⟨y, hy⟩ := GTensor.select_exists hx hne (by
    intro i hi
    rw [← hl]; exact (List.getElem?_eq_some_iff.1 ((hmem i).1 hi)).1)
  exact ⟨fs, y, hmem, h1.nodup_iff.2 (posOf_nodup _ _), fun h => by rw [h2 h]; exact posOf_pairwise _ _,
    by rw [h3 x hx rfl, hy], hy⟩

/-- **C31**: branching commutes with the action. -/
theorem c31_branch_act [LinearOrder L] [AddCommMonoid V] [Module ℝ V] (sz : R → ℕ) (ρ : R → Mat) (level : ℕ)
    (hlev : level < 3) (x : GTensor R V) (hx : x.WF sz) (hsz : ∀ r ∈ x.ty, 0 < sz r) (labels : List L)
    (hl : labels.length = x.ty.length) (l : L) :
    branch sz level labels (x.act sz ρ) l = (branch sz level labels x l).map (GTensor.act sz ρ) := by
  obtain ⟨fs, h1, h2, h3⟩ := branch_eq sz level hlev hx hsz labels hl l
  rw [h3 x hx rfl, h3 (x.act sz ρ) (GTensor.act_wf ρ hx) rfl, GTensor.select_act sz ρ hx]

/-! ## Merging -/

theorem mergeLoop_eq (ys : List (List V)) (p : ℕ) (out : List V) (h : p + (ys.map List.length).sum ≤ out.length) :
    mergeLoop p ys out = out.take p ++ ys.flatten ++ out.drop (p + (ys.map List.length).sum) := by
  induction ys generalizing p out with
  | nil => simp [mergeLoop]
  | cons y ys ih =>
    rw [List.map_cons, List.sum_cons] at h
    have hl := writeSlice_length out p (p + y.length) y rfl (by omega)
    rw [mergeLoop, ih _ _ (by rw [hl]; omega)]
    have e1 : (writeSlice out p (p + y.length) y).take (p + y.length) = out.take p ++ y := by
      rw [writeSlice, List.take_append_of_le_length (by simp; omega)]
      apply List.take_of_length_le
      simp
    have e2 : (writeSlice out p (p + y.length) y).drop (p + y.length + (ys.map List.length).sum)
        = out.drop (p + (y.length + (ys.map List.length).sum)) := by
      rw [writeSlice, List.drop_append]
      have hlen : (out.take p ++ y).length = p + y.length := by simp; omega
      rw [hlen, List.drop_eq_nil_of_le (by omega), List.nil_append, List.drop_drop]
      congr 1; omega
    rw [e1, e2]
    simp

/-- Merging is the concatenation, whatever the output tensor contained. -/
theorem mergeGT_eq (sz : R → ℕ) (ys : List (GTensor R V)) (hne : ys ≠ []) (hw : ∀ y ∈ ys, y.WF sz) (out : List V)
    (ho : out.length = typeSize sz (ys.flatMap GTensor.ty)) : mergeGT sz out ys = directsumGT sz ys := by
  obtain ⟨h1, h2⟩ := directsumGT_eq sz ys hne hw
  have hlen : ((ys.map GTensor.data).map List.length).sum = out.length := by
    rw [ho, ← h2.2]
    simp [List.length_flatMap, Function.comp_def]
  have hm : mergeLoop 0 (ys.map GTensor.data) out = ys.flatMap GTensor.data := by
    rw [mergeLoop_eq _ _ _ (by omega), List.flatMap_def, Nat.zero_add, hlen]
    simp
  rw [h1, mergeGT, if_neg hne, mkType_eq_some.2 ⟨h2.1, rfl⟩, Option.bind_some, hm]
  exact mkGT_eq_some.2 ⟨h2.2, rfl⟩

theorem select_flatMap {sz : R → ℕ} {x : GTensor R V} (hx : x.WF sz) (ls : List L) (f : L → List ℕ) (ys : List (GTensor R V))
    (hne : ls ≠ []) (h : ls.mapM (fun l => x.select sz (f l)) = some ys) :
    x.select sz (ls.flatMap f) = some ⟨ys.flatMap GTensor.ty, ys.flatMap GTensor.data⟩ := by
  induction ls generalizing ys with
  | nil => exact absurd rfl hne
  | cons l ls ih =>
    rw [show l :: ls = [l] ++ ls from rfl, mapM_append_some] at h
    obtain ⟨u, v, hu, hv, rfl⟩ := h
    obtain ⟨y, rfl, hy⟩ : ∃ y, u = [y] ∧ x.select sz (f l) = some y := by
      rw [mapM_some_iff] at hu
      cases u with
      | nil => simp at hu
      | cons y ys =>
        simp only [List.map_cons, List.map_nil, List.cons.injEq] at hu
        have : ys = [] := by simpa using hu.2.symm
        exact ⟨y, by rw [this], hu.1⟩
    by_cases hls : ls = []
    · subst hls
      have : v = [] := by
        rw [mapM_some_iff] at hv; simpa using hv.symm
      subst this
      simpa using hy
    · have := GTensor.select_append hx hy (ih v hls hv)
      rw [List.flatMap_cons, this]
      simp

/-- **C31**: `BranchingModule` followed by a `MergeModule` of identities over all the labels gives back all the
fields, each exactly once, grouped by label: a permutation of whole fields. -/
theorem c31_branch_merge [LinearOrder L] (sz : R → ℕ) (level : ℕ) (hlev : level < 3) (x : GTensor R V) (hx : x.WF sz)
    (hsz : ∀ r ∈ x.ty, 0 < sz r) (labels : List L) (hl : labels.length = x.ty.length)
    (ls : List L) (hnd : ls.Nodup) (hls : ∀ l, l ∈ ls ↔ l ∈ labels) :
    ∃ ys fs z, ls.mapM (branch sz level labels x) = some ys ∧ fs.Perm (List.range x.ty.length) ∧
      (∀ out : List V, out.length = typeSize sz x.ty → mergeGT sz out ys = some z) ∧
      x.select sz fs = some z ∧ z.data.Perm x.data := by
  choose f hf1 hf2 hf3 using fun l => branch_eq sz level hlev hx hsz labels hl l
  have hpos : 0 < x.ty.length := List.length_pos_iff.2 hx.1
  have hlsne : ls ≠ [] := by
    have : labels[0]'(by omega) ∈ ls := (hls _).2 (List.getElem_mem _)
    exact List.ne_nil_of_mem this
  have hsel : ∀ l ∈ ls, ∃ y, x.select sz (f l) = some y := by
    intro l hm
    obtain ⟨i, hi, hil⟩ := List.mem_iff_getElem.1 ((hls l).1 hm)
    refine GTensor.select_exists hx ?_ ?_
    · exact List.ne_nil_of_mem ((hf1 l).mem_iff.2 (mem_posOf.2 (by rw [List.getElem?_eq_getElem hi, hil]) : i ∈ _))
    · intro j hj
      rw [← hl]; exact posOf_lt ((hf1 l).mem_iff.1 hj)
  obtain ⟨ys, hys⟩ : ∃ ys, ls.mapM (fun l => x.select sz (f l)) = some ys := by
    clear hlsne hls hnd
    induction ls with
    | nil => exact ⟨[], rfl⟩
    | cons l ls ih =>
      obtain ⟨ys, hys⟩ := ih fun m hm => hsel m (by simp [hm])
      obtain ⟨y, hy⟩ := hsel l (by simp)
      exact ⟨y :: ys, by rw [List.mapM_cons, hys, hy]; rfl⟩
  have hbr : ls.mapM (branch sz level labels x) = some ys := by
    rw [← hys]
    congr 1
    funext l
    exact hf3 l x hx rfl
  have hz := select_flatMap hx ls f ys hlsne hys
  have hperm : (ls.flatMap f).Perm (List.range x.ty.length) := by
    refine (List.Perm.flatMap_left ls fun l _ => hf1 l).trans ?_
    rw [List.perm_ext_iff_of_nodup _ List.nodup_range]
    · intro i
      rw [List.mem_flatMap, List.mem_range]
      constructor
      · rintro ⟨l, _, hi⟩
        rw [← hl]; exact posOf_lt hi
      · intro hi
        exact ⟨labels[i]'(by omega), (hls _).2 (List.getElem_mem _), mem_posOf.2 (List.getElem?_eq_getElem _)⟩
    · rw [List.nodup_flatMap]
      refine ⟨fun l _ => posOf_nodup labels l, ?_⟩
      refine hnd.imp ?_
      intro a b hab i ha hb
      have h1 := mem_posOf.1 ha
      have h2 := mem_posOf.1 hb
      rw [h1, Option.some.injEq] at h2
      exact hab h2
  have hw : ∀ y ∈ ys, y.WF sz := by
    intro y hy
    rw [mapM_some_iff] at hys
    have : some y ∈ ys.map some := List.mem_map_of_mem hy
    rw [← hys] at this
    obtain ⟨l, _, hl'⟩ := List.mem_map.1 this
    exact ((GTensor.select_eq_some hx).1 hl').2.2.2
  have hyne : ys ≠ [] := by
    rintro rfl
    rw [mapM_some_iff] at hys
    exact hlsne (by simpa using hys)
  have hp := select_perm hx hperm hz
  refine ⟨ys, _, _, hbr, hperm, ?_, hz, hp.2.1⟩
  intro out ho
  have hsz' : typeSize sz (ys.flatMap GTensor.ty) = typeSize sz x.ty := by
    unfold typeSize
    exact (hp.2.2.map sz).sum_eq
  rw [mergeGT_eq sz ys hyne hw out (by rw [ho, hsz']), (directsumGT_eq sz ys hyne hw).1]

/-- **C31**: merging commutes with the action (in particular branching followed by merging does). -/
theorem c31_merge_act [AddCommMonoid V] [Module ℝ V] (sz : R → ℕ) (ρ : R → Mat) (ys : List (GTensor R V)) (hne : ys ≠ [])
    (hw : ∀ y ∈ ys, y.WF sz) (out out' : List V) (ho : out.length = typeSize sz (ys.flatMap GTensor.ty))
    (ho' : out'.length = out.length) :
    mergeGT sz out (ys.map (GTensor.act sz ρ)) = (mergeGT sz out' ys).map (GTensor.act sz ρ) := by
  have hty : (ys.map (GTensor.act sz ρ)).flatMap GTensor.ty = ys.flatMap GTensor.ty := by
    rw [List.flatMap_map]; rfl
  rw [mergeGT_eq sz ys hne hw out' (by rw [ho', ho]), mergeGT_eq sz _ (by simpa using hne) (by
    intro y hy
    obtain ⟨z, hz, rfl⟩ := List.mem_map.1 hy
    exact GTensor.act_wf ρ (hw z hz)) out (by rw [ho, hty])]
  exact c29_directsum_act_partial sz ρ ys hne hw

/-! ## Restricting -/

theorem chAct_congr [AddCommMonoid V] [Module ℝ V] {n : ℕ} {A B : Mat} (h : MEq n n A B) (x : List V) :
    chAct n A x = chAct n B x := by
  apply List.map_congr_left
  intro c hc
  apply Finset.sum_congr rfl
  intro j hj
  rw [h c (by simpa using hc) j (by simpa using hj)]

/-- **C31**: `RestrictionModule` keeps all channels, and transforming the result with an element of the subgroup
is transforming the input with the corresponding element of the group. -/
theorem c31_restriction {A B : Type} [AddCommMonoid V] [Module ℝ V] (H : Grp A) (parent : A → B) (isIrrep : Irrep A → Prop)
    (restr : Repr B → Option (Repr A)) (x : GTensor (Repr B) V) (hx : x.WF Repr.size)
    (hr : ∀ r ∈ x.ty, ∃ r', restr r = some r' ∧ IsRestriction H parent isIrrep r r') :
    ∃ y, restrictGT Repr.size restr x = some y ∧ y.data = x.data ∧ y.ty.map some = x.ty.map restr ∧ y.WF Repr.size ∧
      ∀ h, H.isEl h → (y.act Repr.size fun r => r.mat h).data = (x.act Repr.size fun r => r.mat (parent h)).data := by
  obtain ⟨t, ht⟩ : ∃ t, x.ty.mapM restr = some t := by
    have := hr
    generalize x.ty = l at this
    induction l with
    | nil => exact ⟨[], rfl⟩
    | cons r l ih =>
      obtain ⟨t, ht⟩ := ih fun s hs => this s (by simp [hs])
      obtain ⟨r', h1, _⟩ := this r (by simp)
      exact ⟨r' :: t, by rw [List.mapM_cons, h1, ht]; rfl⟩
  have ht' := (mapM_some_iff _ _ _).1 ht
  have hlen : x.ty.length = t.length := by simpa using congrArg List.length ht'
  have hget : ∀ i (h1 : i < x.ty.length) (h2 : i < t.length), IsRestriction H parent isIrrep x.ty[i] t[i] := by
    intro i h1 h2
    have := congrArg (·[i]?) ht'
    simp only [List.getElem?_map, List.getElem?_eq_getElem h1, List.getElem?_eq_getElem h2, Option.map_some,
      Option.some.injEq] at this
    obtain ⟨r', h3, h4⟩ := hr x.ty[i] (List.getElem_mem _)
    rw [this, Option.some.injEq] at h3
    rw [h3]; exact h4
  have hsz : t.map Repr.size = x.ty.map Repr.size := by
    apply List.ext_getElem (by simp [hlen])
    intro i h1 h2
    simp only [List.length_map] at h1 h2
    simp only [List.getElem_map]
    exact (hget i h2 h1).size
  have hne : t ≠ [] := by
    rintro rfl
    exact hx.1 (List.length_eq_zero_iff.1 (by simpa using hlen))
  have hy : (⟨t, x.data⟩ : GTensor (Repr A) V).WF Repr.size := ⟨hne, by simp only [typeSize, hsz]; exact hx.2⟩
  refine ⟨⟨t, x.data⟩, ?_, rfl, ht'.symm, hy, ?_⟩
  · rw [restrictGT, ht, Option.bind_some, mkType_eq_some.2 ⟨hne, rfl⟩, Option.bind_some]
    exact mkGT_eq_some.2 ⟨hy.2, rfl⟩
  · intro h hh
    rw [← GTensor.fields_flatten (GTensor.act_wf _ hy), ← GTensor.fields_flatten (GTensor.act_wf _ hx)]
    congr 1
    rw [GTensor.act_fields, GTensor.act_fields]
    have hf : (⟨t, x.data⟩ : GTensor (Repr A) V).fields Repr.size = x.fields Repr.size := by
      simp only [GTensor.fields, hsz]
    rw [hf]
    apply List.ext_getElem (by simp [hlen])
    intro i h1 h2
    simp only [List.length_zipWith, lt_inf_iff] at h1 h2
    simp only [List.getElem_zipWith]
    have := hget i h2.1 h1.1
    rw [this.size]
    exact chAct_congr (this.mat h hh) _

/-- Three fields with labels 1, 0, 1: the branches and the merged tensor. -/
example : branch id 0 [1, 0, 1] (⟨[2, 1, 3], [10, 11, 12, 13, 14, 15]⟩ : GTensor ℕ ℕ) 1
      = some ⟨[2, 3], [10, 11, 13, 14, 15]⟩ ∧
    branch id 0 [1, 0, 1] (⟨[2, 1, 3], [10, 11, 12, 13, 14, 15]⟩ : GTensor ℕ ℕ) 0 = some ⟨[1], [12]⟩ ∧
    mergeGT id [0, 0, 0, 0, 0, 0] [(⟨[1], [12]⟩ : GTensor ℕ ℕ), ⟨[2, 3], [10, 11, 13, 14, 15]⟩]
      = some ⟨[1, 2, 3], [12, 10, 11, 13, 14, 15]⟩ ∧
    reshuffle id [2, 0, 1] (⟨[2, 1, 3], [10, 11, 12, 13, 14, 15]⟩ : GTensor ℕ ℕ)
      = some ⟨[3, 2, 1], [13, 14, 15, 10, 11, 12]⟩ := by
  refine ⟨by rfl, by rfl, by rfl, by rfl⟩

/-! ### The order chosen by `BranchingModule` -/

theorem no_two_orders {α : Type} {l : List α} (hl : l.Nodup) {a b : α} (h1 : [a, b].Sublist l) (h2 : [b, a].Sublist l) : False := by
  induction l with
  | nil => cases h1
  | cons c l ih =>
    rw [List.nodup_cons] at hl
    cases h1 with
    | cons _ h1 =>
      cases h2 with
      | cons _ h2 => exact ih hl.2 h1 h2
      | cons_cons _ h2 => exact hl.1 (h1.subset (by simp))
    | cons_cons _ h1 =>
      cases h2 with
      | cons _ h2 => exact hl.1 (h2.subset (by simp))
      | cons_cons _ h2 => exact hl.1 (h2.subset (by simp))

/-- A stable sort of a list with positions: the keys increase, and equal keys are in the order of their positions. -/
theorem stable_sort {α : Type} (l : List α) (le : α × ℕ → α × ℕ → Bool) (ht : ∀ a b c, le a b = true → le b c = true → le a c = true)
    (htot : ∀ a b, (le a b || le b a) = true) :
    (l.zipIdx.mergeSort le).Pairwise fun a b => le a b = true ∧ (le b a = true → a.2 < b.2) := by
  have hp := List.mergeSort_perm l.zipIdx le
  have hsnd : (l.zipIdx.map Prod.snd).Pairwise (· < ·) := by
    rw [List.zipIdx_map_snd]
    exact List.pairwise_lt_range'
  have hlt : l.zipIdx.Pairwise fun a b => a.2 < b.2 := List.pairwise_map.1 hsnd
  have hnd : l.zipIdx.Nodup := hlt.imp fun h e => absurd (e ▸ h) (lt_irrefl _)
  have hs := List.pairwise_mergeSort ht htot l.zipIdx
  rw [List.pairwise_iff_forall_sublist] at hs ⊢
  intro a b hab
  refine ⟨hs hab, fun hba => ?_⟩
  by_contra hn
  have ha : a ∈ l.zipIdx := hp.subset (hab.subset (by simp))
  have hb : b ∈ l.zipIdx := hp.subset (hab.subset (by simp))
  have hne : a ≠ b := by
    rintro rfl
    have hnd' : (l.zipIdx.mergeSort le).Nodup := hp.nodup_iff.2 hnd
    have := hnd'.sublist hab
    simp at this
  have hsub : [b, a].Sublist l.zipIdx := by
    obtain ⟨i, hi, rfl⟩ := List.mem_iff_getElem.1 ha
    obtain ⟨j, hj, rfl⟩ := List.mem_iff_getElem.1 hb
    have hij : j < i := by
      rcases lt_trichotomy i j with h | h | h
      · exact absurd (List.pairwise_iff_getElem.1 hlt i j hi hj h) hn
      · exact absurd (by subst h; rfl) hne
      · exact h
    have h1 : [l.zipIdx[j], l.zipIdx[i]].Sublist (l.zipIdx.take i ++ l.zipIdx.drop i) := by
      refine List.Sublist.append (l₁ := [_]) (r₁ := [_]) ?_ ?_
      · rw [List.singleton_sublist]
        exact List.mem_iff_getElem.2 ⟨j, by simp at hi ⊢; omega, by simp⟩
      · rw [List.singleton_sublist]
        exact List.mem_iff_getElem.2 ⟨0, by simp at hi ⊢; omega, by simp⟩
    rwa [List.take_append_drop] at h1
  exact no_two_orders (hp.nodup_iff.2 hnd) hab (List.pair_sublist_mergeSort ht htot hba hsub)

/-- **C31, the order of the fields in a branching**: with level 1 the fields are in the order of their labels, those with the same label in the order of the input; with
level 2 the fields with the same label are in the order of their sizes, those with the same label and size in the order of the input. -/
theorem c31_branch_order [LinearOrder L] (sz : R → ℕ) (labels : List L) (reps : List R) (hl : labels.length = reps.length) :
    (branchPerm sz 1 labels reps).Pairwise (fun i j => ∃ (hi : i < labels.length) (hj : j < labels.length),
      labels[i] < labels[j] ∨ (labels[i] = labels[j] ∧ i < j)) ∧
    (branchPerm sz 2 labels reps).Pairwise (fun i j => ∃ (hi : i < labels.length) (hj : j < labels.length),
      labels[i] < labels[j] ∨ (labels[i] = labels[j] ∧ (sz (reps[i]'(hl ▸ hi)) < sz (reps[j]'(hl ▸ hj)) ∨
        (sz (reps[i]'(hl ▸ hi)) = sz (reps[j]'(hl ▸ hj)) ∧ i < j)))) := by
  have hmem : ∀ (le : (L × ℕ) × ℕ → (L × ℕ) × ℕ → Bool) a, a ∈ (labels.zip (reps.map sz)).zipIdx.mergeSort le → ∃ hi : a.2 < labels.length,
      a.1.1 = labels[a.2] ∧ a.1.2 = sz (reps[a.2]'(hl ▸ hi)) := by
    intro le a ha
    have ha := (List.mergeSort_perm _ le).subset ha
    obtain ⟨⟨l, s⟩, i⟩ := a
    rw [List.mk_mem_zipIdx_iff_getElem?] at ha
    obtain ⟨h1, h2⟩ := List.getElem?_eq_some_iff.1 ha
    rw [List.length_zip, List.length_map, ← hl, Nat.min_self] at h1
    rw [List.getElem_zip, List.getElem_map, Prod.mk.injEq] at h2
    exact ⟨h1, h2.1.symm, h2.2.symm⟩
  constructor
  · unfold branchPerm
    simp only [if_true]
    rw [List.pairwise_map]
    refine (stable_sort _ _ ?_ ?_).imp_of_mem ?_
    · intro a b c h1 h2
      simp only [decide_eq_true_eq] at *
      exact h1.trans h2
    · intro a b
      simp only [Bool.or_eq_true, decide_eq_true_eq]
      exact le_total _ _
    · rintro a b ha hb ⟨h1, h2⟩
      obtain ⟨i1, i2, i3⟩ := hmem _ a ha
      obtain ⟨j1, j2, j3⟩ := hmem _ b hb
      simp only [decide_eq_true_eq, i2, j2] at h1 h2
      refine ⟨i1, j1, ?_⟩
      rcases h1.lt_or_eq with h | h
      · exact Or.inl h
      · exact Or.inr ⟨h, h2 h.ge⟩
  · unfold branchPerm
    simp only [if_neg (show ¬ (2 : ℕ) = 1 by decide)]
    rw [List.pairwise_map]
    refine (stable_sort _ _ ?_ ?_).imp_of_mem ?_
    · intro a b c h1 h2
      simp only [decide_eq_true_eq] at *
      rcases h1 with h1 | ⟨h1, h1'⟩ <;> rcases h2 with h2 | ⟨h2, h2'⟩
      · exact Or.inl (h1.trans h2)
      · exact Or.inl (h2 ▸ h1)
      · exact Or.inl (h1 ▸ h2)
      · exact Or.inr ⟨h1.trans h2, h1'.trans h2'⟩
    · intro a b
      simp only [Bool.or_eq_true, decide_eq_true_eq]
      rcases lt_trichotomy a.1.1 b.1.1 with h | h | h
      · exact Or.inl (Or.inl h)
      · rcases le_total a.1.2 b.1.2 with h' | h'
        · exact Or.inl (Or.inr ⟨h, h'⟩)
        · exact Or.inr (Or.inr ⟨h.symm, h'⟩)
      · exact Or.inr (Or.inl h)
    · rintro a b ha hb ⟨h1, h2⟩
      obtain ⟨i1, i2, i3⟩ := hmem _ a ha
      obtain ⟨j1, j2, j3⟩ := hmem _ b hb
      simp only [decide_eq_true_eq, i2, j2, i3, j3] at h1 h2
      refine ⟨i1, j1, ?_⟩
      rcases h1 with h | ⟨h, h'⟩
      · exact Or.inl h
      · rcases h'.lt_or_eq with h'' | h''
        · exact Or.inr ⟨h, Or.inl h''⟩
        · exact Or.inr ⟨h, Or.inr ⟨h'', h2 (Or.inr ⟨h.symm, h''.ge⟩)⟩⟩

/-- Two fields with the same label and different sizes: level 1 keeps their order, level 2 does not. -/
example : branchPerm (fun n : ℕ => n) 1 [1, 0, 1] [5, 4, 3] = [1, 0, 2] ∧ branchPerm (fun n : ℕ => n) 2 [1, 0, 1] [5, 4, 3] = [1, 2, 0] := by
  constructor <;> simp [branchPerm, List.mergeSort, List.MergeSort.Internal.splitInTwo, List.zipIdx, List.merge]

end E2
