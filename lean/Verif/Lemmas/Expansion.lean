import Verif.Model.Expansion
import Verif.Lemmas.Layout
import Verif.Props.Reorder

/-!
# Lemmas on the expansion of filters
-/

set_option linter.unusedSectionVars false

namespace E2

open Finset Mat

variable {F A I V W : Type}

/-! ## Lists -/

/-- Entry of a concatenation of lists of the same length. -/
theorem flatMap_const_get (l : List V) (f : V → List W) (m : ℕ) (hm : ∀ x ∈ l, (f x).length = m) (k j : ℕ) (hj : j < m) :
    (l.flatMap f)[k * m + j]? = l[k]?.bind fun x => (f x)[j]? := by
  induction l generalizing k with
  | nil => simp
  | cons x l ih =>
    have hx := hm x (by simp)
    rw [List.flatMap_cons]
    cases k with
    | zero => rw [List.getElem?_append_left (by omega)]; simp
    | succ k =>
      rw [List.getElem?_append_right (by rw [hx]; nlinarith), hx,
        show (k + 1) * m + j - m = k * m + j by rw [Nat.succ_mul]; omega, ih fun y hy => hm y (by simp [hy])]
      simp

theorem flatMap_const_length (l : List V) (f : V → List W) (m : ℕ) (hm : ∀ x ∈ l, (f x).length = m) :
    (l.flatMap f).length = l.length * m := by
  induction l with
  | nil => simp
  | cons x l ih =>
    rw [List.flatMap_cons, List.length_append, ih fun y hy => hm y (by simp [hy]), hm x (by simp), List.length_cons,
      Nat.succ_mul, Nat.add_comm]

/-- Entry of a concatenation. -/
theorem flatMap_offset_get (l : List V) (f : V → List W) (j k : ℕ) (x : V) (hj : l[j]? = some x) (hk : k < (f x).length) :
    (l.flatMap f)[offset (l.map fun y => (f y).length) j + k]? = (f x)[k]? := by
  induction l generalizing j with
  | nil => simp at hj
  | cons y l ih =>
    rw [List.flatMap_cons, List.map_cons]
    cases j with
    | zero =>
      rw [List.getElem?_cons_zero, Option.some.injEq] at hj
      subst hj
      rw [offset_zero, Nat.zero_add, List.getElem?_append_left hk]
    | succ j =>
      rw [List.getElem?_cons_succ] at hj
      rw [offset_cons_succ, List.getElem?_append_right (by omega), Nat.add_assoc, Nat.add_sub_cancel_left, ih j hj]

theorem posOf_cons [DecidableEq V] (n : V) (l : List V) (k : V) :
    posOf (n :: l) k = (if n = k then [0] else []) ++ (posOf l k).map (· + 1) := by
  unfold posOf
  rw [List.length_cons, List.range_succ_eq_map, List.filter_cons, List.filter_map]
  by_cases h : n = k
  · simp [h, Function.comp_def]
  · simp [h, Function.comp_def]

theorem posOf_length [DecidableEq V] (l : List V) (k : V) : (posOf l k).length = l.count k := by
  induction l with
  | nil => simp [posOf]
  | cons n l ih =>
    rw [posOf_cons, List.length_append, List.length_map, ih]
    by_cases h : n = k
    · subst h; simp; omega
    · simp [h]

theorem zipIdx_flatMap_posOf [DecidableEq V] (l : List V) (k : V) (c : ℕ) (g : ℕ → List W) :
    (l.zipIdx c).flatMap (fun q => if q.1 = k then g q.2 else []) = (posOf l k).flatMap fun i => g (c + i) := by
  induction l generalizing c with
  | nil => simp [posOf]
  | cons n l ih =>
    rw [List.zipIdx_cons, List.flatMap_cons, ih, posOf_cons, List.flatMap_append, List.flatMap_map]
    congr 1
    · by_cases h : n = k <;> simp [h]
    · congr 1; funext i; congr 1; omega

theorem posOf_get_lt [DecidableEq V] {l : List V} {n : V} {k i : ℕ} (h : (posOf l n)[k]? = some i) : i < l.length ∧ l[i]? = some n := by
  have := List.mem_of_getElem? h
  exact ⟨posOf_lt this, mem_posOf.1 this⟩

/-- The rank of a field among the fields with the same name. -/
theorem posOf_rank [DecidableEq V] {l : List V} {n : V} {i : ℕ} (h : l[i]? = some n) : ∃ k : ℕ, (posOf l n)[k]? = some i := by
  obtain ⟨k, hk, he⟩ := List.mem_iff_getElem.1 (mem_posOf.2 h)
  exact ⟨k, by rw [List.getElem?_eq_getElem hk, he]⟩

theorem posOf_get_inj [DecidableEq V] {l : List V} {n : V} {j k i : ℕ} (hj : (posOf l n)[j]? = some i) (hk : (posOf l n)[k]? = some i) :
    j = k := by
  obtain ⟨h1, h2⟩ := List.getElem?_eq_some_iff.1 hj
  obtain ⟨h3, h4⟩ := List.getElem?_eq_some_iff.1 hk
  exact (posOf_nodup l n).getElem_inj_iff.1 (h2.trans h4.symm)

/-- Position of a channel among the channels of the fields with some name. -/
theorem chanIdx_get [DecidableEq V] (sz : V → ℕ) (t : List V) (n : V) {k i r : ℕ} (hk : (posOf t n)[k]? = some i) (hr : r < sz n) :
    (chanIdx (t.map sz) (posOf t n))[k * sz n + r]? = some (offset (t.map sz) i + r) := by
  rw [chanIdx, flatMap_const_get _ _ (sz n) _ _ _ hr, hk, Option.bind_some]
  · obtain ⟨_, h⟩ := posOf_get_lt hk
    rw [List.getElem?_map, h, Option.map_some, Option.getD_some, List.getElem?_range' hr]
    simp
  · intro c hc
    rw [List.length_range', List.getElem?_map, mem_posOf.1 hc]; rfl

theorem chanIdx_posOf_length [DecidableEq V] (sz : V → ℕ) (t : List V) (n : V) :
    (chanIdx (t.map sz) (posOf t n)).length = t.count n * sz n := by
  rw [chanIdx, flatMap_const_length _ _ (sz n), posOf_length]
  intro c hc
  rw [List.length_range', List.getElem?_map, mem_posOf.1 hc]; rfl

theorem mem_chanIdx_posOf [DecidableEq V] (sz : V → ℕ) (t : List V) (n : V) {i r : ℕ} {m : V} (hi : t[i]? = some m) (hr : r < sz m) :
    offset (t.map sz) i + r ∈ chanIdx (t.map sz) (posOf t n) ↔ m = n := by
  constructor
  · intro h
    rw [chanIdx, List.mem_flatMap] at h
    obtain ⟨c, hc, hm⟩ := h
    rw [List.mem_range'_1, List.getElem?_map, mem_posOf.1 hc, Option.map_some, Option.getD_some] at hm
    have hc1 := mem_posOf.1 hc
    obtain ⟨hi', hi2⟩ := List.getElem?_eq_some_iff.1 hi
    obtain ⟨hc', hc2⟩ := List.getElem?_eq_some_iff.1 hc1
    have := (offset_inj (t.map sz) (k := i) (l := c) (x := r) (y := offset (t.map sz) i + r - offset (t.map sz) c)
      (by simpa using hi') (by simpa using hc') (by simpa [hi2] using hr) (by rw [List.getElem_map, hc2]; omega) (by omega)).1
    subst this
    rw [hi] at hc1
    simpa using hc1
  · rintro rfl
    obtain ⟨k, hk⟩ := posOf_rank hi
    exact List.mem_of_getElem? (chanIdx_get sz t m hk hr)

namespace Exp

variable [LinearOrder F] [DecidableEq I]

/-! ## Pairs and identifiers -/

theorem pairsRaw_nodup (E : Exp F A I) : E.pairsRaw.Nodup := by
  unfold pairsRaw
  rw [List.nodup_flatMap]
  refine ⟨fun i _ => ?_, ?_⟩
  · apply (List.nodup_dedup _).filterMap
    intro a b c hc hc'
    simp only [Option.mem_def, Option.map_eq_some_iff] at hc hc'
    obtain ⟨_, _, rfl⟩ := hc
    obtain ⟨_, _, h⟩ := hc'
    exact (Prod.ext_iff.1 h).2.symm
  · refine (List.nodup_dedup _).imp ?_
    intro a b hab p hp hp'
    simp only [List.mem_filterMap, Option.map_eq_some_iff] at hp hp'
    obtain ⟨_, _, _, _, rfl⟩ := hp
    obtain ⟨_, _, _, _, h⟩ := hp'
    exact hab (Prod.ext_iff.1 h).1.symm

theorem pairs_nodup (E : Exp F A I) : E.pairs.Nodup :=
  (List.mergeSort_perm _ _).nodup_iff.2 E.pairsRaw_nodup

theorem mem_pairs (E : Exp F A I) (p : F × F) :
    p ∈ E.pairs ↔ p.1 ∈ E.inT ∧ p.2 ∈ E.outT ∧ (E.gen p.1 p.2).isSome := by
  rw [pairs, (List.mergeSort_perm _ _).mem_iff, pairsRaw, List.mem_flatMap]
  constructor
  · rintro ⟨i, hi, hp⟩
    simp only [List.mem_filterMap, Option.map_eq_some_iff] at hp
    obtain ⟨o, ho, b, hb, rfl⟩ := hp
    exact ⟨List.mem_dedup.1 hi, List.mem_dedup.1 ho, by rw [hb]; rfl⟩
  · rintro ⟨h1, h2, h3⟩
    obtain ⟨b, hb⟩ := Option.isSome_iff_exists.1 h3
    refine ⟨p.1, List.mem_dedup.2 h1, ?_⟩
    simp only [List.mem_filterMap, Option.map_eq_some_iff]
    exact ⟨p.2, List.mem_dedup.2 h2, b, hb, rfl⟩

/-- Number of blocks of a pair times number of elements. -/
def len (E : Exp F A I) (p : F × F) : ℕ := E.outT.count p.2 * (E.inT.count p.1 * (E.block p).length)

theorem basisIds_eq (E : Exp F A I) (p : F × F) : E.basisIds p =
    (posOf E.outT p.2).flatMap fun o => (posOf E.inT p.1).flatMap fun i =>
      (E.block p).map fun e => (⟨p.1, i, p.2, o, E.ident e.attr⟩ : ParamId F I) := by
  have h1 : ∀ q : F × ℕ, (E.inT.zipIdx.flatMap fun r =>
      if (r.1, q.1) = p then (E.block p).map fun e => (⟨r.1, r.2, q.1, q.2, E.ident e.attr⟩ : ParamId F I) else [])
      = if q.1 = p.2 then (posOf E.inT p.1).flatMap fun i =>
          (E.block p).map fun e => (⟨p.1, i, p.2, q.2, E.ident e.attr⟩ : ParamId F I) else [] := by
    intro q
    by_cases h : q.1 = p.2
    · rw [if_pos h]
      have := zipIdx_flatMap_posOf E.inT p.1 0 fun i => (E.block p).map fun e => (⟨p.1, i, p.2, q.2, E.ident e.attr⟩ : ParamId F I)
      simp only [Nat.zero_add] at this
      rw [← this]
      congr 1; funext r
      by_cases h' : r.1 = p.1
      · rw [if_pos (Prod.ext h' h), if_pos h', h, h']
      · rw [if_neg (fun e => h' (Prod.ext_iff.1 e).1), if_neg h']
    · rw [if_neg h]
      apply List.flatMap_eq_nil_iff.2
      intro r _
      rw [if_neg (fun e => h (Prod.ext_iff.1 e).2)]
  unfold basisIds
  simp only [h1]
  have := zipIdx_flatMap_posOf E.outT p.2 0 fun o => (posOf E.inT p.1).flatMap fun i =>
      (E.block p).map fun e => (⟨p.1, i, p.2, o, E.ident e.attr⟩ : ParamId F I)
  simpa only [Nat.zero_add] using this

theorem nest_length (E : Exp F A I) (p : F × F) (g : ℕ → ℕ → Elem A → W) :
    ((posOf E.outT p.2).flatMap fun o => (posOf E.inT p.1).flatMap fun i => (E.block p).map (g o i)).length = E.len p := by
  rw [flatMap_const_length _ _ (E.inT.count p.1 * (E.block p).length), posOf_length, len]
  intro o _
  rw [flatMap_const_length _ _ (E.block p).length, posOf_length]
  intro i _
  simp

theorem nest_get (E : Exp F A I) (p : F × F) (g : ℕ → ℕ → Elem A → W) {po pi e o i : ℕ} {b : Elem A}
    (ho : (posOf E.outT p.2)[po]? = some o) (hi : (posOf E.inT p.1)[pi]? = some i) (he : (E.block p)[e]? = some b) :
    ((posOf E.outT p.2).flatMap fun o => (posOf E.inT p.1).flatMap fun i => (E.block p).map (g o i))[
      (po * E.inT.count p.1 + pi) * (E.block p).length + e]? = some (g o i b) := by
  have hel : e < (E.block p).length := (List.getElem?_eq_some_iff.1 he).1
  have hil : pi < E.inT.count p.1 := by rw [← posOf_length]; exact (List.getElem?_eq_some_iff.1 hi).1
  have hlt : pi * (E.block p).length + e < E.inT.count p.1 * (E.block p).length := by
    calc pi * (E.block p).length + e < pi * (E.block p).length + (E.block p).length := by omega
      _ = (pi + 1) * (E.block p).length := by ring
      _ ≤ _ := Nat.mul_le_mul_right _ hil
  rw [show (po * E.inT.count p.1 + pi) * (E.block p).length + e
      = po * (E.inT.count p.1 * (E.block p).length) + (pi * (E.block p).length + e) by ring,
    flatMap_const_get _ _ (E.inT.count p.1 * (E.block p).length) _ _ _ hlt, ho, Option.bind_some,
    flatMap_const_get _ _ (E.block p).length _ _ _ hel, hi, Option.bind_some, List.getElem?_map, he, Option.map_some]
  · intro i _; simp
  · intro o _
    rw [flatMap_const_length _ _ (E.block p).length, posOf_length]
    intro i _; simp

/-- Every position inside the range of a pair is the position of an element of a block. -/
theorem nest_decode (E : Exp F A I) (p : F × F) {k : ℕ} (hk : k < E.len p) :
    ∃ (po pi e o i : ℕ) (b : Elem A), (posOf E.outT p.2)[po]? = some o ∧ (posOf E.inT p.1)[pi]? = some i ∧ (E.block p)[e]? = some b ∧
      k = (po * E.inT.count p.1 + pi) * (E.block p).length + e := by
  unfold len at hk
  have hd : 0 < (E.block p).length := Nat.pos_of_ne_zero fun h => by rw [h] at hk; simp at hk
  have hn : 0 < E.inT.count p.1 := Nat.pos_of_ne_zero fun h => by rw [h] at hk; simp at hk
  generalize hdd : (E.block p).length = d at *
  generalize hni : E.inT.count p.1 = n at *
  have h1 : k / d / n < (posOf E.outT p.2).length := by
    rw [posOf_length, Nat.div_lt_iff_lt_mul hn, Nat.div_lt_iff_lt_mul hd, Nat.mul_assoc]; exact hk
  have h2 : k / d % n < (posOf E.inT p.1).length := by
    rw [posOf_length, hni]; exact Nat.mod_lt _ hn
  have h3 : k % d < (E.block p).length := by rw [hdd]; exact Nat.mod_lt _ hd
  refine ⟨k / d / n, k / d % n, k % d, _, _, _, List.getElem?_eq_getElem h1, List.getElem?_eq_getElem h2,
    List.getElem?_eq_getElem h3, ?_⟩
  rw [Nat.div_add_mod', Nat.div_add_mod']

/-! ## Ranges of the parameters -/

theorem basisIds_length (E : Exp F A I) (p : F × F) : (E.basisIds p).length = E.len p := by
  rw [basisIds_eq]
  exact E.nest_length p fun o i e => (⟨p.1, i, p.2, o, E.ident e.attr⟩ : ParamId F I)

/-- The first parameter of the `j`-th pair. -/
def start (E : Exp F A I) (j : ℕ) : ℕ := offset (E.pairs.map E.len) j

/-- The number of parameters. -/
def total (E : Exp F A I) : ℕ := (E.pairs.map E.len).sum

theorem rangesLoop_get (E : Exp F A I) (ps : List (F × F)) (last j : ℕ) :
    (E.rangesLoop ps last)[j]? = ps[j]?.map fun p => (p, last + offset (ps.map E.len) j, last + offset (ps.map E.len) j + E.len p) := by
  induction ps generalizing last j with
  | nil => simp [rangesLoop]
  | cons q ps ih =>
    rw [rangesLoop, basisIds_length]
    cases j with
    | zero => simp [offset_zero]
    | succ j =>
      rw [List.getElem?_cons_succ, List.getElem?_cons_succ, ih, List.map_cons, offset_cons_succ]
      simp only [Nat.add_assoc]

theorem ranges_get (E : Exp F A I) (j : ℕ) :
    E.ranges[j]? = E.pairs[j]?.map fun p => (p, E.start j, E.start j + E.len p) := by
  rw [ranges, rangesLoop_get]; simp [start]

theorem rangesLoop_find_idx (E : Exp F A I) (ps : List (F × F)) (last j k : ℕ) (p : F × F) (hj : ps[j]? = some p) (hk : k < E.len p) :
    (E.rangesLoop ps last).find? (fun r => decide (r.2.1 ≤ last + offset (ps.map E.len) j + k ∧ last + offset (ps.map E.len) j + k < r.2.2))
      = some (p, last + offset (ps.map E.len) j, last + offset (ps.map E.len) j + E.len p) := by
  induction ps generalizing last j with
  | nil => simp at hj
  | cons q ps ih =>
    rw [rangesLoop, basisIds_length]
    cases j with
    | zero =>
      rw [List.getElem?_cons_zero, Option.some.injEq] at hj
      subst hj
      simp only [offset_zero, Nat.add_zero]
      exact List.find?_cons_of_pos (by simpa using hk)
    | succ j =>
      rw [List.getElem?_cons_succ] at hj
      rw [List.map_cons, offset_cons_succ, List.find?_cons_of_neg (by simp; omega)]
      have := ih (last + E.len q) j hj
      simp only [Nat.add_assoc] at this ⊢
      exact this

theorem ranges_find_idx (E : Exp F A I) {j k : ℕ} {p : F × F} (hj : E.pairs[j]? = some p) (hk : k < E.len p) :
    E.ranges.find? (fun r => decide (r.2.1 ≤ E.start j + k ∧ E.start j + k < r.2.2)) = some (p, E.start j, E.start j + E.len p) := by
  have := E.rangesLoop_find_idx E.pairs 0 j k p hj hk
  simp only [Nat.zero_add] at this
  exact this

theorem rangesLoop_find_none (E : Exp F A I) (ps : List (F × F)) (last i : ℕ) (h : last + (ps.map E.len).sum ≤ i) :
    (E.rangesLoop ps last).find? (fun r => decide (r.2.1 ≤ i ∧ i < r.2.2)) = none := by
  induction ps generalizing last with
  | nil => simp [rangesLoop]
  | cons q ps ih =>
    rw [List.map_cons, List.sum_cons] at h
    rw [rangesLoop, basisIds_length, List.find?_cons_of_neg (by simp; omega)]
    exact ih _ (by omega)

theorem ranges_find_pair (E : Exp F A I) {j : ℕ} {p : F × F} (hj : E.pairs[j]? = some p) :
    E.ranges.find? (fun r => decide (r.1 = p)) = some (p, E.start j, E.start j + E.len p) := by
  have key : ∀ (ps : List (F × F)) (last j : ℕ), ps.Nodup → ps[j]? = some p →
      (E.rangesLoop ps last).find? (fun r => decide (r.1 = p))
        = some (p, last + offset (ps.map E.len) j, last + offset (ps.map E.len) j + E.len p) := by
    intro ps
    induction ps with
    | nil => intro _ _ _ h; simp at h
    | cons q ps ih =>
      intro last j hn hj
      rw [List.nodup_cons] at hn
      rw [rangesLoop, basisIds_length, List.find?_cons]
      cases j with
      | zero =>
        rw [List.getElem?_cons_zero, Option.some.injEq] at hj
        subst hj
        simp [offset_zero]
      | succ j =>
        rw [List.getElem?_cons_succ] at hj
        have hne : ¬ q = p := by
          rintro rfl
          exact hn.1 (List.mem_of_getElem? hj)
        simp only
        rw [decide_eq_false hne]
        have := ih (last + E.len q) j hn.2 hj
        simp only [List.map_cons, offset_cons_succ, Nat.add_assoc] at this ⊢
        exact this
  have := key E.pairs 0 j E.pairs_nodup hj
  simp only [Nat.zero_add] at this
  exact this

theorem start_add_len (E : Exp F A I) {j : ℕ} {p : F × F} (hj : E.pairs[j]? = some p) : E.start (j + 1) = E.start j + E.len p := by
  obtain ⟨h1, h2⟩ := List.getElem?_eq_some_iff.1 hj
  rw [start, offset_succ _ (by simpa using h1), List.getElem_map, h2, start]

theorem start_add_le (E : Exp F A I) {j : ℕ} {p : F × F} (hj : E.pairs[j]? = some p) : E.start j + E.len p ≤ E.total := by
  rw [← E.start_add_len hj, start, total, ← offset_length]
  apply offset_mono
  have := (List.getElem?_eq_some_iff.1 hj).1
  simp; omega

/-- Every parameter belongs to one element of the basis of one pair of fields. -/
theorem decode (E : Exp F A I) {k : ℕ} (hk : k < E.total) :
    ∃ (j po pi e o i : ℕ) (p : F × F) (b : Elem A), E.pairs[j]? = some p ∧ (posOf E.outT p.2)[po]? = some o ∧
      (posOf E.inT p.1)[pi]? = some i ∧ (E.block p)[e]? = some b ∧
      (po * E.inT.count p.1 + pi) * (E.block p).length + e < E.len p ∧
      k = E.start j + ((po * E.inT.count p.1 + pi) * (E.block p).length + e) := by
  obtain ⟨j, hj, x, hx, he⟩ := exists_offset _ hk
  rw [List.getElem_map] at hx
  have hj' : j < E.pairs.length := by simpa using hj
  obtain ⟨po, pi, e, o, i, b, h1, h2, h3, h4⟩ := E.nest_decode _ hx
  exact ⟨j, po, pi, e, o, i, _, b, List.getElem?_eq_getElem hj', h1, h2, h3, h4 ▸ hx, by rw [← h4, start, he]⟩

theorem nest_lt (E : Exp F A I) {p : F × F} {po pi e o i : ℕ} {b : Elem A}
    (ho : (posOf E.outT p.2)[po]? = some o) (hi : (posOf E.inT p.1)[pi]? = some i) (he : (E.block p)[e]? = some b) :
    (po * E.inT.count p.1 + pi) * (E.block p).length + e < E.len p := by
  have := E.nest_get p (fun _ _ _ => ()) ho hi he
  have := (List.getElem?_eq_some_iff.1 this).1
  rwa [E.nest_length p fun _ _ _ => ()] at this

/-! ## The two ways of reporting the parameters -/

/-- The attributes of the element `b` between the fields `i` and `o`. -/
def infoAt (E : Exp F A I) (p : F × F) (o i : ℕ) (b : Elem A) (k : ℕ) : Info F A :=
  ⟨b.attr, offset (E.inT.map E.nIrr) i + E.inIdx b.attr, offset (E.outT.map E.nIrr) o + E.outIdx b.attr, p.1, p.2, i, o, k⟩

theorem irrCounts_get (E : Exp F A I) (t : List F) {i : ℕ} (hi : i < t.length) : (E.irrCounts t)[i]?.getD 0 = offset (t.map E.nIrr) i := by
  cases i with
  | zero => rfl
  | succ i =>
    rw [irrCounts, List.getElem?_cons_succ, fieldsEndFrom_get 0 _ (by simp; omega)]
    simp

theorem infoList_eq (E : Exp F A I) : E.infoList =
    E.pairs.flatMap fun p => (posOf E.outT p.2).flatMap fun o => (posOf E.inT p.1).flatMap fun i =>
      (E.block p).map fun e => E.infoAt p o i e := by
  unfold infoList
  apply List.flatMap_congr
  intro p _
  rw [labelFields_eq, labelFields_eq]
  apply List.flatMap_congr
  intro o ho
  apply List.flatMap_congr
  intro i hi
  apply List.map_congr_left
  intro e _
  funext k
  rw [irrCounts_get _ _ (posOf_lt ho), irrCounts_get _ _ (posOf_lt hi), infoAt]

theorem infoList_length (E : Exp F A I) : E.infoList.length = E.total := by
  rw [infoList_eq, List.length_flatMap, total]
  congr 1
  apply List.map_congr_left
  intro p _
  exact E.nest_length p fun o i e => E.infoAt p o i e

theorem basisInfo_length (E : Exp F A I) : E.basisInfo.length = E.total := by
  rw [basisInfo, List.length_map, List.length_zipIdx, infoList_length]

theorem basisInfo_get (E : Exp F A I) {j po pi e o i : ℕ} {p : F × F} {b : Elem A} (hj : E.pairs[j]? = some p)
    (ho : (posOf E.outT p.2)[po]? = some o) (hi : (posOf E.inT p.1)[pi]? = some i) (he : (E.block p)[e]? = some b) :
    E.basisInfo[E.start j + ((po * E.inT.count p.1 + pi) * (E.block p).length + e)]?
      = some (E.infoAt p o i b (E.start j + ((po * E.inT.count p.1 + pi) * (E.block p).length + e))) := by
  have hl : ∀ q, ((posOf E.outT q.2).flatMap fun o => (posOf E.inT q.1).flatMap fun i =>
      (E.block q).map fun e => E.infoAt q o i e).length = E.len q := fun q => E.nest_length q fun o i e => E.infoAt q o i e
  have := flatMap_offset_get E.pairs (fun p => (posOf E.outT p.2).flatMap fun o => (posOf E.inT p.1).flatMap fun i =>
      (E.block p).map fun e => E.infoAt p o i e) j ((po * E.inT.count p.1 + pi) * (E.block p).length + e) p hj
      (by rw [hl]; exact E.nest_lt ho hi he)
  simp only [hl] at this
  rw [basisInfo, List.getElem?_map, List.getElem?_zipIdx, infoList_eq, start, this,
    E.nest_get p (fun o i e => E.infoAt p o i e) ho hi he]
  simp

theorem searchIn_eq (E : Exp F A I) (p : F × F) (l : List F) (c count irr blk : ℕ) :
    (∀ pi i, (posOf l p.1)[pi]? = some i → blk = count + pi →
      E.searchIn p blk p.2 (l.zipIdx c) count irr = Sum.inl (c + i, irr + offset (l.map E.nIrr) i)) ∧
    (count + (posOf l p.1).length ≤ blk → E.searchIn p blk p.2 (l.zipIdx c) count irr = Sum.inr (count + (posOf l p.1).length)) := by
  induction l generalizing c count irr with
  | nil => simp [posOf, searchIn]
  | cons n l ih =>
    rw [posOf_cons, List.zipIdx_cons, searchIn]
    by_cases h : n = p.1
    · subst h
      simp only [if_true, List.singleton_append, List.length_cons, List.length_map]
      obtain ⟨h1, h2⟩ := ih (c + 1) (count + 1) (irr + E.nIrr p.1)
      constructor
      · intro pi i hi hb
        cases pi with
        | zero =>
          rw [List.getElem?_cons_zero, Option.some.injEq] at hi
          subst hi; subst hb
          simp [offset_zero]
        | succ pi =>
          rw [List.getElem?_cons_succ, List.getElem?_map, Option.map_eq_some_iff] at hi
          obtain ⟨i', hi', rfl⟩ := hi
          rw [if_neg (by omega), h1 pi i' hi' (by omega), List.map_cons, offset_cons_succ]
          congr 2 <;> omega
      · intro hb
        rw [if_neg (by omega), h2 (by omega)]
        congr 1; omega
    · obtain ⟨h1, h2⟩ := ih (c + 1) count (irr + E.nIrr n)
      simp only [if_neg h, List.nil_append, List.length_map]
      have hne : ¬ p = (n, p.2) := fun e => h (Prod.ext_iff.1 e).1.symm
      rw [if_neg hne]
      constructor
      · intro pi i hi hb
        rw [List.getElem?_map, Option.map_eq_some_iff] at hi
        obtain ⟨i', hi', rfl⟩ := hi
        rw [h1 pi i' hi' (by omega), List.map_cons, offset_cons_succ]
        congr 2 <;> omega
      · exact h2

theorem searchIn_ne (E : Exp F A I) (p : F × F) (n : F) (hn : n ≠ p.2) (l : List (F × ℕ)) (count irr blk : ℕ) :
    E.searchIn p blk n l count irr = Sum.inr count := by
  induction l generalizing irr with
  | nil => rfl
  | cons q l ih =>
    rw [show q = (q.1, q.2) from rfl, searchIn, if_neg (fun e => hn (Prod.ext_iff.1 e).2.symm), ih]

theorem searchOut_eq (E : Exp F A I) (p : F × F) (l : List F) (c count irr po pi o i : ℕ)
    (ho : (posOf l p.2)[po]? = some o) (hi : (posOf E.inT p.1)[pi]? = some i) :
    E.searchOut p (count + (po * E.inT.count p.1 + pi)) (l.zipIdx c) count irr
      = some (i, offset (E.inT.map E.nIrr) i, c + o, irr + offset (l.map E.nIrr) o) := by
  have hpi : pi < E.inT.count p.1 := by rw [← posOf_length]; exact (List.getElem?_eq_some_iff.1 hi).1
  induction l generalizing c count irr po o with
  | nil => simp [posOf] at ho
  | cons n l ih =>
    rw [posOf_cons] at ho
    rw [List.zipIdx_cons, searchOut]
    by_cases h : n = p.2
    · subst h
      simp only [if_true, List.singleton_append] at ho
      cases po with
      | zero =>
        rw [List.getElem?_cons_zero, Option.some.injEq] at ho
        subst ho
        rw [Nat.zero_mul, Nat.zero_add, (E.searchIn_eq p E.inT 0 count 0 (count + pi)).1 pi i hi rfl]
        simp [offset_zero]
      | succ po =>
        rw [List.getElem?_cons_succ, List.getElem?_map, Option.map_eq_some_iff] at ho
        obtain ⟨o', ho', rfl⟩ := ho
        rw [(E.searchIn_eq p E.inT 0 count 0 _).2 (by rw [posOf_length, Nat.succ_mul]; omega)]
        simp only
        rw [posOf_length, show count + ((po + 1) * E.inT.count p.1 + pi) = count + E.inT.count p.1 + (po * E.inT.count p.1 + pi) by
          rw [Nat.succ_mul]; omega, ih (c + 1) _ _ po o' ho', List.map_cons, offset_cons_succ]
        simp only [Option.some.injEq, Prod.mk.injEq, true_and]
        omega
    · simp only [if_neg h, List.nil_append] at ho
      rw [List.getElem?_map, Option.map_eq_some_iff] at ho
      obtain ⟨o', ho', rfl⟩ := ho
      rw [E.searchIn_ne p n h]
      simp only
      rw [ih (c + 1) _ _ po o' ho', List.map_cons, offset_cons_succ]
      simp only [Option.some.injEq, Prod.mk.injEq, true_and]
      omega

theorem elementInfo_get (E : Exp F A I) {j po pi e o i : ℕ} {p : F × F} {b : Elem A} (hj : E.pairs[j]? = some p)
    (ho : (posOf E.outT p.2)[po]? = some o) (hi : (posOf E.inT p.1)[pi]? = some i) (he : (E.block p)[e]? = some b) :
    E.elementInfo (E.start j + ((po * E.inT.count p.1 + pi) * (E.block p).length + e))
      = some (E.infoAt p o i b (E.start j + ((po * E.inT.count p.1 + pi) * (E.block p).length + e))) := by
  have hel : e < (E.block p).length := (List.getElem?_eq_some_iff.1 he).1
  have h1 : ((po * E.inT.count p.1 + pi) * (E.block p).length + e) / (E.block p).length = po * E.inT.count p.1 + pi := by
    rw [Nat.add_comm, Nat.add_mul_div_right _ _ (by omega), Nat.div_eq_of_lt hel, Nat.zero_add]
  have h2 : ((po * E.inT.count p.1 + pi) * (E.block p).length + e) % (E.block p).length = e := by
    rw [Nat.add_comm, Nat.add_mul_mod_self_right, Nat.mod_eq_of_lt hel]
  have h3 := E.searchOut_eq p E.outT 0 0 0 po pi o i ho hi
  simp only [Nat.zero_add] at h3
  rw [elementInfo, E.ranges_find_idx hj (E.nest_lt ho hi he)]
  simp only [Nat.add_sub_cancel_left, h1, h2, he, h3]
  rfl

theorem elementInfo_eq (E : Exp F A I) (k : ℕ) : E.elementInfo k = E.basisInfo[k]? := by
  by_cases hk : k < E.total
  · obtain ⟨j, po, pi, e, o, i, p, b, hj, ho, hi, he, _, rfl⟩ := E.decode hk
    rw [E.elementInfo_get hj ho hi he, E.basisInfo_get hj ho hi he]
  · rw [List.getElem?_eq_none (by rw [basisInfo_length]; omega), elementInfo, ranges,
      E.rangesLoop_find_none E.pairs 0 k (by rw [Nat.zero_add]; exact not_lt.1 hk)]

end Exp

end E2
