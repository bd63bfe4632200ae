import Verif.Lemmas.Layout

/-!
# C28 and C32: the layout of the channels of a field type and the contiguity test
-/

namespace E2

open Mat

variable {R L V : Type*}

/-! ## C28 -/

/-- **C28**: the `i`-th field occupies the channels `fields_start[i] .. fields_end[i] - 1`: the intervals
start at `0`, follow each other without gaps, have the size of the `i`-th representation and end at
`size`. -/
theorem c28_intervals (sz : R → ℕ) (reps : List R) :
    (fieldsStart sz reps).length = reps.length ∧ (fieldsEnd sz reps).length = reps.length ∧
    (∀ i (h : i < reps.length), ∃ a b, (fieldsStart sz reps)[i]? = some a ∧ (fieldsEnd sz reps)[i]? = some b ∧
      b = a + sz reps[i] ∧ b ≤ typeSize sz reps ∧
      (i = 0 → a = 0) ∧ (i + 1 = reps.length → b = typeSize sz reps) ∧
      (i + 1 < reps.length → (fieldsStart sz reps)[i + 1]? = some b)) := by
  refine ⟨by simp [fieldsStart, fieldsStartFrom_length], by simp [fieldsEnd, fieldsEndFrom_length], ?_⟩
  intro i h
  have h' : i < (reps.map sz).length := by simpa using h
  refine ⟨0 + offset (reps.map sz) i, 0 + offset (reps.map sz) (i + 1), fieldsStartFrom_get 0 _ h',
    fieldsEndFrom_get 0 _ h', ?_, ?_, ?_, ?_, ?_⟩
  · rw [offset_succ _ h']; simp
  · rw [offset_succ _ h', Nat.zero_add]; exact offset_add_le _ h'
  · rintro rfl; simp [offset]
  · intro e
    rw [Nat.zero_add, e, show reps.length = (reps.map sz).length by simp, offset_length]; rfl
  · intro hi
    exact fieldsStartFrom_get 0 _ (by simpa using hi)

/-- **C28**: every channel belongs to exactly one field. -/
theorem c28_cover (sz : R → ℕ) (reps : List R) (c : ℕ) (hc : c < typeSize sz reps) :
    ∃! i : ℕ, ∃ a b : ℕ, (fieldsStart sz reps)[i]? = some a ∧ (fieldsEnd sz reps)[i]? = some b ∧ a ≤ c ∧ c < b := by
  obtain ⟨k, hk, x, hx, he⟩ := exists_offset _ hc
  refine ⟨k, ⟨_, _, fieldsStartFrom_get 0 _ hk, fieldsEndFrom_get 0 _ hk, by omega, ?_⟩, ?_⟩
  · rw [offset_succ _ hk]; omega
  · rintro i ⟨a, b, ha, hb, h1, h2⟩
    have hi : i < (reps.map sz).length := by
      have := (List.getElem?_eq_some_iff.1 ha).1
      rwa [fieldsStart, fieldsStartFrom_length] at this
    rw [fieldsStart, fieldsStartFrom_get 0 _ hi, Option.some.injEq] at ha
    rw [fieldsEnd, fieldsEndFrom_get 0 _ hi, Option.some.injEq] at hb
    have hb' := offset_succ _ hi
    refine (offset_inj _ hi hk (x := c - a) (y := x) ?_ hx ?_).1 <;> omega

/-- **C28**: `+` concatenates the lists of fields and the layouts: the fields of the second summand are
moved behind the channels of the first. -/
theorem c28_add (sz : R → ℕ) (s t u : List R) (h : addTypes s t = some u) :
    u = s ++ t ∧ typeSize sz u = typeSize sz s + typeSize sz t ∧
    fieldsStart sz u = fieldsStart sz s ++ (fieldsStart sz t).map (typeSize sz s + ·) ∧
    fieldsEnd sz u = fieldsEnd sz s ++ (fieldsEnd sz t).map (typeSize sz s + ·) := by
  simp only [addTypes, mkType] at h
  split_ifs at h
  rw [Option.some.injEq] at h
  subst h
  refine ⟨rfl, by simp [typeSize], ?_, ?_⟩
  · rw [fieldsStart, List.map_append, fieldsStartFrom_append, Nat.zero_add, fieldsStartFrom_shift (s.map sz).sum]; rfl
  · rw [fieldsEnd, List.map_append, fieldsEndFrom_append, Nat.zero_add, fieldsEndFrom_shift (s.map sz).sum]; rfl

theorem pyGet_nat (l : List V) (i : ℕ) : pyGet l (Int.ofNat i) = l[i]? := by simp [pyGet]

theorem mapM_some_iff {A B : Type*} (f : A → Option B) (l : List A) (r : List B) :
    l.mapM f = some r ↔ l.map f = r.map some := by
  induction l generalizing r with
  | nil => cases r <;> simp
  | cons a l ih =>
    rw [List.mapM_cons]
    cases r with
    | nil =>
      rcases f a with _ | b
      · simp
      · rcases l.mapM f with _ | t <;> simp
    | cons b' r =>
      have := ih r
      rcases hfa : f a with _ | b
      · simp [hfa]
      · rcases hm : l.mapM f with _ | t
        · rw [hm] at this
          simp only [List.map_cons, List.cons.injEq, ← this, hfa]
          simp
        · rw [hm] at this
          simp only [List.map_cons, List.cons.injEq, ← this, hfa]
          simp

theorem indexSelect_eq (reps : List R) (index : List ℤ) (t : List R) :
    indexSelect reps index = some t ↔
      index ≠ [] ∧ (∀ i ∈ index, 0 ≤ i ∧ i < (reps.length : ℤ)) ∧ index.map (fun i => reps[i.toNat]?) = t.map some := by
  unfold indexSelect
  split_ifs with h0 h1 h2
  · simp [h0]
  · rw [Option.bind_eq_some_iff]
    simp only [mkType]
    have e : index.map (pyGet reps) = index.map (fun i => reps[i.toNat]?) := by
      apply List.map_congr_left
      intro i hi
      simp [pyGet, h2 i hi]
    constructor
    · rintro ⟨a, ha, h⟩
      split_ifs at h
      rw [Option.some.injEq] at h; subst h
      refine ⟨h0, fun i hi => ⟨h2 i hi, h1 i hi⟩, ?_⟩
      rw [← e]; exact (mapM_some_iff _ _ _).1 ha
    · rintro ⟨_, _, h⟩
      refine ⟨t, (mapM_some_iff _ _ _).2 (by rw [e, h]), ?_⟩
      rw [if_neg]
      rintro rfl
      exact h0 (by simpa using h)
  · simp only [false_iff]
    rintro ⟨_, h, _⟩
    exact h2 fun i hi => (h i hi).1
  · simp only [false_iff]
    rintro ⟨_, h, _⟩
    exact h1 fun i hi => (h i hi).2

/-- **C28**: `index_select(index)` has as `k`-th field the field number `index[k]`, and succeeds exactly for
non-empty lists of field numbers in `0 .. n-1`. -/
theorem c28_index_select (reps : List R) (index : List ℤ) :
    (∀ t, indexSelect reps index = some t → t.length = index.length ∧
      ∀ k (h : k < index.length), 0 ≤ index[k] ∧ t[k]? = reps[index[k].toNat]? ∧ index[k].toNat < reps.length) ∧
    ((indexSelect reps index).isSome ↔ index ≠ [] ∧ ∀ i ∈ index, 0 ≤ i ∧ i < (reps.length : ℤ)) := by
  constructor
  · intro t h
    obtain ⟨_, h1, h2⟩ := (indexSelect_eq _ _ _).1 h
    have hl : index.length = t.length := by simpa using congrArg List.length h2
    refine ⟨hl.symm, fun k hk => ?_⟩
    have h3 := h1 index[k] (List.getElem_mem _)
    have := congrArg (·[k]?) h2
    simp only [List.getElem?_map, List.getElem?_eq_getElem hk, List.getElem?_eq_getElem (hl ▸ hk : k < t.length),
      Option.map_some, Option.some.injEq] at this
    exact ⟨h3.1, by rw [List.getElem?_eq_getElem (hl ▸ hk : k < t.length), this], by omega⟩
  · rw [Option.isSome_iff_exists]
    constructor
    · rintro ⟨t, h⟩
      obtain ⟨h0, h1, _⟩ := (indexSelect_eq _ _ _).1 h
      exact ⟨h0, h1⟩
    · rintro ⟨h0, h1⟩
      have hne : ∀ i ∈ index, i.toNat < reps.length := fun i hi => by have := h1 i hi; omega
      refine ⟨index.pmap (fun i hi => reps[i.toNat]'hi) hne, (indexSelect_eq _ _ _).2 ⟨h0, h1, ?_⟩⟩
      rw [List.map_pmap]
      rw [← List.pmap_eq_map (p := fun i : ℤ => i.toNat < reps.length) (H := hne)]
      apply List.pmap_congr_left
      intro i _ hi _
      rw [List.getElem?_eq_getElem hi]

theorem keyLe_trans (a b c : ℕ × ℕ) : keyLe a b → keyLe b c → keyLe a c := by
  simp only [keyLe, Bool.or_eq_true, decide_eq_true_eq, Bool.and_eq_true, beq_iff_eq]; omega

theorem keyLe_total (a b : ℕ × ℕ) : (keyLe a b || keyLe b a) = true := by
  simp only [keyLe, Bool.or_eq_true, decide_eq_true_eq, Bool.and_eq_true, beq_iff_eq]; omega

/-- **C28**: `sorted` permutes the fields so that the sizes do not decrease; fields of equal size keep
their order. -/
theorem c28_sorted (sz : R → ℕ) (reps : List R) (hne : reps ≠ []) :
    ∃ t, sortedType sz reps = some t ∧ t.Perm reps ∧ (t.map sz).Pairwise (· ≤ ·) ∧
      (sortedPerm sz reps).Perm (List.range reps.length) ∧
      t.map some = (sortedPerm sz reps).map (fun i => reps[i]?) ∧
      (sortedPerm sz reps).Pairwise fun i j => ∀ a b, reps[i]? = some a → reps[j]? = some b →
        sz a < sz b ∨ (sz a = sz b ∧ i ≤ j) := by
  set keys := (reps.zipIdx).map (fun p => (sz p.1, p.2)) with hkeys
  have hperm : (keys.mergeSort keyLe).Perm keys := List.mergeSort_perm keys keyLe
  have hsort : (keys.mergeSort keyLe).Pairwise (fun a b => keyLe a b) :=
    List.pairwise_mergeSort keyLe_trans keyLe_total keys
  have hsnd : keys.map Prod.snd = List.range reps.length := by
    rw [hkeys, List.map_map]
    have : (Prod.snd ∘ fun p : R × ℕ => (sz p.1, p.2)) = Prod.snd := rfl
    rw [this, List.zipIdx_map_snd, List.range_eq_range']
  have hP : (sortedPerm sz reps).Perm (List.range reps.length) := by
    rw [← hsnd]; exact hperm.map _
  have hkey : ∀ p ∈ keys.mergeSort keyLe, ∃ a, reps[p.2]? = some a ∧ sz a = p.1 := by
    intro p hp
    rw [hperm.mem_iff, hkeys, List.mem_map] at hp
    obtain ⟨q, hq, rfl⟩ := hp
    have := List.mem_zipIdx' hq
    exact ⟨q.1, by rw [List.getElem?_eq_getElem this.1, ← this.2], rfl⟩
  have hlt : ∀ i ∈ sortedPerm sz reps, i < reps.length := fun i hi => by
    simpa using hP.mem_iff.1 hi
  have hPne : sortedPerm sz reps ≠ [] := by
    intro h
    rw [h] at hP
    have := hP.length_eq
    simp only [List.length_nil, List.length_range] at this
    exact hne (List.length_eq_zero_iff.1 this.symm)
  obtain ⟨t, ht⟩ := Option.isSome_iff_exists.1 (((c28_index_select reps ((sortedPerm sz reps).map Int.ofNat)).2).2
    ⟨by simpa using hPne, by
      intro i hi
      obtain ⟨j, hj, rfl⟩ := List.mem_map.1 hi
      have := hlt j hj
      simpa using this⟩)
  obtain ⟨_, _, hm⟩ := (indexSelect_eq _ _ _).1 ht
  rw [List.map_map] at hm
  have hm' : t.map some = (sortedPerm sz reps).map (fun i => reps[i]?) := by
    rw [← hm]; rfl
  have htp : t.Perm reps := by
    have h1 : (t.map some).Perm ((List.range reps.length).map (fun i => reps[i]?)) := by
      rw [hm']; exact hP.map _
    have h2 : (List.range reps.length).map (fun i => reps[i]?) = reps.map some := by
      apply List.ext_getElem (by simp)
      intro i h1 h2
      simp at h1
      simp [h1]
    rw [h2] at h1
    exact (List.map_perm_map_iff (Option.some_injective R)).1 h1
  refine ⟨t, ht, htp, ?_, hP, hm', ?_⟩
  · have hs : t.map sz = (keys.mergeSort keyLe).map Prod.fst := by
      have : (t.map some).map (Option.map sz) = ((keys.mergeSort keyLe).map Prod.fst).map some := by
        rw [hm', sortedPerm, List.map_map, List.map_map, List.map_map]
        apply List.map_congr_left
        intro p hp
        obtain ⟨a, h1, h2⟩ := hkey p hp
        simp only [Function.comp, h1, Option.map_some, h2]
      rw [List.map_map] at this
      have e : (Option.map sz ∘ some) = some ∘ sz := rfl
      rw [e, ← List.map_map] at this
      exact (List.map_injective_iff.2 (Option.some_injective _)) this
    rw [hs, List.pairwise_map]
    refine hsort.imp ?_
    intro a b h
    simp only [keyLe, Bool.or_eq_true, decide_eq_true_eq, Bool.and_eq_true, beq_iff_eq] at h
    omega
  · rw [sortedPerm, List.pairwise_map]
    refine hsort.imp_of_mem ?_
    intro p q hp hq h a b ha hb
    obtain ⟨a', h1, h2⟩ := hkey p hp
    obtain ⟨b', h3, h4⟩ := hkey q hq
    rw [h1, Option.some.injEq] at ha
    rw [h3, Option.some.injEq] at hb
    subst ha hb
    simp only [keyLe, Bool.or_eq_true, decide_eq_true_eq, Bool.and_eq_true, beq_iff_eq] at h
    omega

/-- **C28**: `group_by_labels` gives each label the fields carrying it, in their order: field number `i`
is in the group of `l` exactly when its label is `l`. -/
theorem c28_group_by_labels [DecidableEq L] (reps : List R) (labels : List L) (hl : labels.length = reps.length)
    (l : L) (hm : l ∈ labels) :
    ∃ t, groupByLabels reps labels l = some t ∧
      t.map some = ((List.range reps.length).filter fun i => labels[i]? = some l).map fun i => reps[i]? := by
  have hlt : ∀ i ∈ posOf labels l, i < reps.length := fun i hi => hl ▸ posOf_lt hi
  have hne : posOf labels l ≠ [] := by
    obtain ⟨i, hi, rfl⟩ := List.mem_iff_getElem.1 hm
    exact List.ne_nil_of_mem (mem_posOf.2 (List.getElem?_eq_getElem hi) : i ∈ _)
  obtain ⟨t, ht⟩ := Option.isSome_iff_exists.1 (((c28_index_select reps ((posOf labels l).map Int.ofNat)).2).2
    ⟨by simpa using hne, by
      intro i hi
      obtain ⟨j, hj, rfl⟩ := List.mem_map.1 hi
      have := hlt j hj
      simpa using this⟩)
  refine ⟨t, ?_, ?_⟩
  · rw [groupByLabels, if_pos hl, if_pos hm, labelFields_eq, ht]
  · obtain ⟨_, _, h⟩ := (indexSelect_eq _ _ _).1 ht
    rw [← h, List.map_map, posOf, hl]; rfl

/-- The type with fields of sizes 2, 1, 3, 1: layouts, selection, sorting and grouping. -/
example : fieldsStart (id : ℕ → ℕ) [2, 1, 3, 1] = [0, 2, 3, 6] ∧ fieldsEnd (id : ℕ → ℕ) [2, 1, 3, 1] = [2, 3, 6, 7] ∧
    indexSelect [2, 1, 3, 1] [2, 0, 2] = some [3, 2, 3] ∧ indexSelect [2, 1, 3, 1] [-1] = none ∧
    groupByLabels [2, 1, 3, 1] ["a", "b", "a", "b"] "a" = some [2, 3] := by
  refine ⟨rfl, rfl, by rfl, by rfl, by rfl⟩

/-! ## C32 -/

/-- **C32**: on an increasing non-empty list of channel indices the test answers, and it answers true
exactly when the list is a range. -/
theorem c32_test_iff_range (l : List ℕ) (hl : l ≠ []) (h : l.Pairwise (· < ·)) :
    ∃ b, checkConsecutive (l.map Int.ofNat) = some b ∧ (b = true ↔ ∃ a n, l = List.range' a n) := by
  obtain ⟨b, h1, h2⟩ := checkConsecutive_iff l hl h
  refine ⟨b, h1, h2.trans ⟨fun ⟨a, ha⟩ => ⟨a, _, ha⟩, ?_⟩⟩
  rintro ⟨a, n, rfl⟩
  exact ⟨a, by simp⟩

/-- **C32**: the index lists the test is applied to are increasing, for all labels and sizes. -/
theorem c32_indices_increasing [DecidableEq L] (sz : R → ℕ) (reps : List R) (labels : List L) (l : L)
    (b : Bool) (fs idx : List ℕ) (h : indexesFromLabels sz reps labels l = some (b, fs, idx)) :
    idx.Pairwise (· < ·) ∧ idx ≠ [] ∧ (b = true ↔ ∃ a n, idx = List.range' a n) ∧
    (∀ i, i ∈ idx ↔ ∃ c a e : ℕ, labels[c]? = some l ∧ (fieldsStart sz reps)[c]? = some a ∧
      (fieldsEnd sz reps)[c]? = some e ∧ a ≤ i ∧ i < e) := by
  unfold indexesFromLabels at h
  split_ifs at h with h1 h2
  dsimp only at h
  obtain ⟨e1, e2⟩ := labelIdx_eq labels (reps.map sz) (by simpa using h1) l
  rw [e1, e2, Option.map_eq_some_iff] at h
  obtain ⟨b', hb, h⟩ := h
  simp only [Prod.mk.injEq] at h
  obtain ⟨rfl, rfl, rfl⟩ := h
  have hf : ∀ c ∈ posOf labels l, c < (reps.map sz).length := fun c hc => by
    have := posOf_lt hc
    simp; omega
  have hpw := chanIdx_pairwise (reps.map sz) _ hf (posOf_pairwise labels l)
  have hne : chanIdx (reps.map sz) (posOf labels l) ≠ [] := by
    intro h; rw [h] at hb; simp [checkConsecutive] at hb
  obtain ⟨b'', h3, h4⟩ := c32_test_iff_range _ hne hpw
  rw [hb, Option.some.injEq] at h3
  subst h3
  refine ⟨hpw, hne, h4, ?_⟩
  intro i
  rw [chanIdx, List.mem_flatMap]
  constructor
  · rintro ⟨c, hc, hi⟩
    have hc' := hf c hc
    rw [List.mem_range'_1, List.getElem?_eq_getElem hc', Option.getD_some] at hi
    refine ⟨c, _, _, mem_posOf.1 hc, fieldsStartFrom_get 0 _ hc', fieldsEndFrom_get 0 _ hc', by omega, ?_⟩
    rw [offset_succ _ hc']; omega
  · rintro ⟨c, a, e, hc, ha, he, h5, h6⟩
    have hc := mem_posOf.2 hc
    have hc' := hf c hc
    rw [fieldsStart, fieldsStartFrom_get 0 _ hc', Option.some.injEq] at ha
    rw [fieldsEnd, fieldsEndFrom_get 0 _ hc', Option.some.injEq, offset_succ _ hc'] at he
    refine ⟨c, hc, ?_⟩
    rw [List.mem_range'_1, List.getElem?_eq_getElem hc', Option.getD_some]
    omega

/-- **C32**: reading and writing through the slice gives the same result as through the list of indices,
whenever the test allows the slice. -/
theorem c32_slice_eq_gather (x : List V) (idx : List ℕ) (hne : idx ≠ []) (hpw : idx.Pairwise (· < ·))
    (hlt : ∀ i ∈ idx, i < x.length) (b : Bool) (hb : checkConsecutive (idx.map Int.ofNat) = some b) :
    readGroup x b idx = gather x idx ∧
    ∀ vals : List V, vals.length = idx.length → writeGroup x b idx vals = some (writeIdx x idx vals) := by
  cases b with
  | false =>
    refine ⟨by simp [readGroup], fun vals hv => ?_⟩
    simp only [writeGroup, if_pos hv]
    rw [if_neg (by simp), if_pos hlt]
  | true =>
    obtain ⟨b', h1, h2⟩ := checkConsecutive_iff idx hne hpw
    rw [hb, Option.some.injEq] at h1
    obtain ⟨a, ha⟩ := h2.1 h1.symm
    obtain ⟨n, hn⟩ : ∃ n, idx.length = n + 1 := ⟨idx.length - 1, by
      have := List.length_pos_iff.2 hne; omega⟩
    rw [hn] at ha
    have hle : a + (n + 1) ≤ x.length := by
      have := hlt (a + n) (by rw [ha, List.mem_range'_1]; omega)
      omega
    subst ha
    constructor
    · rw [gather_range' x a (n + 1) hle]
      simp only [readGroup, if_true, min?_range', max?_range', pySlice]
      rw [List.drop_take]
      congr 2; omega
    · intro vals hv
      simp only [List.length_range'] at hv
      simp only [writeGroup, List.length_range', if_pos hv, if_true, min?_range', max?_range']
      rw [← hv, writeIdx_range' x a vals (by omega), hv, Nat.add_assoc]

/-- The indices 2, 3, 4 are a range; 2, 3, 5 are not; fields 0 and 2 of the type with sizes 2, 1, 3 are not
contiguous although fields 1 and 2 are. -/
example : checkConsecutive [2, 3, 4] = some true ∧ checkConsecutive [2, 3, 5] = some false ∧
    indexesFromLabels (id : ℕ → ℕ) [2, 1, 3] ["a", "b", "a"] "a" = some (false, [0, 2], [0, 1, 3, 4, 5]) ∧
    indexesFromLabels (id : ℕ → ℕ) [2, 1, 3] ["a", "b", "b"] "b" = some (true, [1, 2], [2, 3, 4, 5]) := by
  refine ⟨?_, ?_, ?_, ?_⟩ <;> simp [checkConsecutive, consecutiveLoop, indexesFromLabels, labelIdxFrom, dictAppend,
    List.range'_succ] <;> norm_num

end E2
