import Verif.Lemmas.Nonlin

/-!
# Lemmas for the first gated nonlinearity
-/

namespace E2

open Mat

variable {P R L : Type}

/-- Preimages of consecutive numbers under an increasing map are consecutive. -/
theorem range'_of_map {f : ℕ → ℕ} {m : ℕ} (hf : ∀ i j, i < j → j < m → f i < f j) (l : List ℕ) (hl : l.Pairwise (· < ·)) (hlt : ∀ i ∈ l, i < m)
    (a n : ℕ) (h : l.map f = List.range' a (n + 1)) : ∃ b, l = List.range' b (n + 1) := by
  induction n generalizing l a with
  | zero =>
    obtain ⟨b, rfl⟩ : ∃ b, l = [b] := List.length_eq_one_iff.1 (by simpa using congrArg List.length h)
    exact ⟨b, rfl⟩
  | succ n ih =>
    cases l with
    | nil => simp at h
    | cons i l =>
      rw [List.map_cons, List.range'_succ] at h
      obtain ⟨h1, h2⟩ := List.cons.inj h
      obtain ⟨b, hb⟩ := ih l (List.pairwise_cons.1 hl).2 (fun j hj => hlt j (by simp [hj])) (a + 1) h2
      refine ⟨i, ?_⟩
      have hbl : b ∈ l := by rw [hb, List.mem_range'_1]; omega
      have hib : i < b := (List.pairwise_cons.1 hl).1 b hbl
      have hfb : f b = a + 1 := by
        rw [hb, List.range'_succ, List.map_cons, List.range'_succ] at h2
        exact (List.cons.inj h2).1
      have : b = i + 1 := by
        by_contra hne
        have h3 := hf i (i + 1) (by omega) (by have := hlt b (by simp [hbl]); omega)
        have h4 := hf (i + 1) b (by omega) (hlt b (by simp [hbl]))
        omega
      rw [hb, this, List.range'_succ (n := n + 1)]

theorem flagOk_chanIdx (s : List ℕ) (hpos : ∀ a ∈ s, 0 < a) (a n : ℕ) (h : a + n < s.length) :
    ∃ b m, chanIdx s (List.range' a (n + 1)) = List.range' b (m + 1) := by
  have e : offset s (a + 1) = offset s a + s[a] := offset_succ s (by omega)
  have e2 : offset s (a + 1) ≤ offset s (a + (n + 1)) := offset_mono s (by omega)
  have e3 := hpos _ (List.getElem_mem (h := (by omega : a < s.length)))
  refine ⟨offset s a, offset s (a + (n + 1)) - offset s a - 1, ?_⟩
  rw [chanIdx_run _ _ _ (by omega)]
  congr 1
  omega

/-- Labels and output of a list of fields, each a gate or gated. -/
def gLab (sz : R → ℕ) (p : Bool × R) : Option ℕ := if p.1 then none else some (sz p.2)

theorem gated1_zip {t : List R} {gates : List Bool} (h : gates.length = t.length) :
    gates = (gates.zip t).map Prod.fst ∧ t = (gates.zip t).map Prod.snd :=
  ⟨(List.map_fst_zip (by omega)).symm, (List.map_snd_zip (by omega)).symm⟩

theorem gated1Labels_eq (sz : R → ℕ) (t : List R) (gates : List Bool) : gated1Labels sz t gates = (gates.zip t).map (gLab sz) := by
  rw [gated1Labels, List.zip, List.map_zipWith]
  rfl

theorem posOf_gLab_none (sz : R → ℕ) (z : List (Bool × R)) : posOf (z.map (gLab sz)) none = posOf (z.map Prod.fst) true := by
  unfold posOf
  simp only [List.length_map]
  apply List.filter_congr
  intro i _
  rw [List.getElem?_map, List.getElem?_map]
  rcases z[i]? with _ | ⟨b, r⟩
  · simp
  · cases b <;> simp [gLab]

theorem posOf_false_length (z : List (Bool × R)) : (posOf (z.map Prod.fst) false).length = (z.filter fun p => !p.1).length := by
  rw [posOf_length_eq, labelCount, List.count, List.countP_map, List.countP_eq_length_filter]
  congr 2
  funext p
  cases h : p.1 <;> simp [h]

theorem posOf_gLab_some (sz : R → ℕ) (z : List (Bool × R)) (s : ℕ) :
    posOf (z.map (gLab sz)) (some s) =
      (posOf (((z.filter fun p => !p.1).map Prod.snd).map fun r => some (sz r)) (some s)).map
        fun i => (posOf (z.map Prod.fst) false)[i]?.getD 0 := by
  induction z using List.reverseRecOn with
  | nil => rfl
  | append_singleton z q ih =>
    obtain ⟨b, r⟩ := q
    rw [List.map_append, List.map_singleton, posOf_snoc, ih, List.filter_append, List.map_append, List.map_singleton, posOf_snoc]
    cases b with
    | true => simp [gLab]
    | false =>
      have hl := posOf_false_length z
      simp only [gLab, Bool.not_false, List.filter_cons_of_pos, List.filter_nil, List.map_append, List.map_cons, List.map_nil, posOf_snoc,
        Bool.false_eq_true, if_false, if_true, List.length_map, Option.some.injEq]
      congr 1
      · apply List.map_congr_left
        intro i hi
        have := posOf_lt hi
        rw [List.length_map, List.length_map, ← hl] at this
        rw [List.getElem?_append_left this]
      · by_cases h : sz r = s
        · simp [h, ← hl]
        · simp [h]

theorem posOf_mono [DecidableEq L] (labels : List L) (l : L) (i j : ℕ) (hij : i < j) (hj : j < (posOf labels l).length) :
    (posOf labels l)[i]?.getD 0 < (posOf labels l)[j]?.getD 0 := by
  have := List.pairwise_iff_getElem.1 (posOf_pairwise labels l) i j (by omega) hj hij
  rw [List.getElem?_eq_getElem (by omega), List.getElem?_eq_getElem hj]
  exact this

end E2
