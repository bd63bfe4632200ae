import Verif.Lemmas.Rep

/-!
# Entries of block diagonal arrays by block number and position inside the block
-/

namespace E2

open Finset Mat

namespace Mat

/-- Start of the `k`-th of consecutive blocks with the given sizes. -/
def offset (sizes : List ℕ) (k : ℕ) : ℕ := (sizes.take k).sum

theorem offset_zero (s : List ℕ) : offset s 0 = 0 := rfl

theorem offset_cons_succ (a : ℕ) (s : List ℕ) (k : ℕ) : offset (a :: s) (k + 1) = a + offset s k := by
  simp [offset]

theorem offset_length (s : List ℕ) : offset s s.length = s.sum := by simp [offset]

theorem offset_succ (s : List ℕ) {k : ℕ} (h : k < s.length) : offset s (k + 1) = offset s k + s[k] := by
  rw [offset, offset, List.sum_take_succ s k h]

theorem offset_add_le (s : List ℕ) {k : ℕ} (h : k < s.length) : offset s k + s[k] ≤ s.sum := by
  rw [← offset_succ s h, offset]
  have := List.sum_take_add_sum_drop s (k + 1)
  omega

theorem offset_mono (s : List ℕ) {k l : ℕ} (h : k ≤ l) : offset s k ≤ offset s l := by
  induction l, h using Nat.le_induction with
  | base => exact le_rfl
  | succ l _ ih =>
    by_cases hl : l < s.length
    · rw [offset_succ s hl]; omega
    · have h1 : offset s (l + 1) = offset s l := by
        simp [offset, List.take_of_length_le (show s.length ≤ l by omega),
          List.take_of_length_le (show s.length ≤ l + 1 by omega)]
      omega

/-- Every position lies in exactly one block. -/
theorem exists_offset (s : List ℕ) {i : ℕ} (h : i < s.sum) :
    ∃ k, ∃ hk : k < s.length, ∃ x, x < s[k] ∧ i = offset s k + x := by
  induction s generalizing i with
  | nil => simp at h
  | cons a s ih =>
    by_cases hi : i < a
    · exact ⟨0, by simp, i, by simpa using hi, by simp [offset]⟩
    · simp only [List.sum_cons] at h
      obtain ⟨k, hk, x, hx, he⟩ := ih (i := i - a) (by omega)
      exact ⟨k + 1, by simpa using hk, x, by simpa using hx, by rw [offset_cons_succ]; omega⟩

theorem offset_inj (s : List ℕ) {k l x y : ℕ} (hk : k < s.length) (hl : l < s.length) (hx : x < s[k])
    (hy : y < s[l]) (h : offset s k + x = offset s l + y) : k = l ∧ x = y := by
  rcases lt_trichotomy k l with hkl | rfl | hkl
  · have := offset_mono s (show k + 1 ≤ l from hkl)
    rw [offset_succ s hk] at this
    omega
  · exact ⟨rfl, by omega⟩
  · have := offset_mono s (show l + 1 ≤ k from hkl)
    rw [offset_succ s hl] at this
    omega

/-- Entries of a block diagonal array. -/
theorem bdiag_entry (l : List (ℕ × Mat)) {k m x y : ℕ} (hk : k < l.length) (hm : m < l.length)
    (hx : x < l[k].1) (hy : y < l[m].1) :
    bdiag l (offset (l.map Prod.fst) k + x) (offset (l.map Prod.fst) m + y)
      = if k = m then l[k].2 x y else 0 := by
  induction l generalizing k m with
  | nil => simp at hk
  | cons a l ih =>
    obtain ⟨s, A⟩ := a
    cases k with
    | zero =>
      simp only [List.getElem_cons_zero] at hx
      cases m with
      | zero =>
        simp only [List.getElem_cons_zero] at hy
        simp [offset, bdiag, hx, hy]
      | succ m =>
        rw [List.map_cons, offset_cons_succ, offset_zero]
        simp only [bdiag]
        rw [if_pos (by omega), if_neg (by omega), if_neg (by omega)]
    | succ k =>
      simp only [List.getElem_cons_succ] at hx
      rw [List.map_cons, offset_cons_succ]
      cases m with
      | zero =>
        simp only [List.getElem_cons_zero] at hy
        rw [offset_zero]
        simp only [bdiag]
        rw [if_neg (by omega), if_pos (by omega), if_neg (by omega)]
      | succ m =>
        simp only [List.getElem_cons_succ] at hy
        rw [offset_cons_succ]
        simp only [bdiag]
        rw [if_neg (by omega), if_neg (by omega)]
        have e1 : s + offset (l.map Prod.fst) k + x - s = offset (l.map Prod.fst) k + x := by omega
        have e2 : s + offset (l.map Prod.fst) m + y - s = offset (l.map Prod.fst) m + y := by omega
        rw [e1, e2, ih (by simpa using hk) (by simpa using hm) hx hy]
        simp

end Mat
end E2
