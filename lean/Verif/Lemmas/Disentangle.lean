import Verif.Model.Disentangle
import Verif.Lemmas.Bdiag
import Mathlib.LinearAlgebra.Matrix.Trace
import Mathlib.Data.List.GetD

namespace E2

open Finset Mat

theorem list_sum_getD {α : Type} [AddCommMonoid α] (l : List ℕ) (f : ℕ → α) :
    (l.map f).sum = ∑ k ∈ range l.length, f (l.getD k 0) := by
  induction l with
  | nil => simp
  | cons a l ih =>
    rw [List.length_cons, Finset.sum_range_succ', List.map_cons, List.sum_cons, ih, add_comm]
    simp

theorem sum_filter_list {α : Type} [AddCommMonoid α] (n : ℕ) (p : ℕ → Prop) [DecidablePred p] (f : ℕ → α) :
    ∑ i ∈ range n, (if p i then f i else 0) = (((List.range n).filter fun i => p i).map f).sum := by
  induction n with
  | zero => simp
  | succ n ih =>
    rw [Finset.sum_range_succ, ih, List.range_succ, List.filter_append, List.map_append, List.sum_append]
    congr 1
    by_cases h : p n <;> simp [h]

/-- Summing over the selected indices. -/
theorem sum_sel (n : ℕ) (p : ℕ → Prop) [DecidablePred p] (f : ℕ → ℝ) (h : ∀ i < n, ¬ p i → f i = 0) :
    ∑ i ∈ range n, f i = ∑ k ∈ range ((List.range n).filter fun i => p i).length,
      f (((List.range n).filter fun i => p i).getD k 0) := by
  rw [← list_sum_getD, ← sum_filter_list]
  refine Finset.sum_congr rfl fun i hi => ?_
  by_cases hp : p i
  · rw [if_pos hp]
  · rw [if_neg hp, h i (mem_range.1 hi) hp]

theorem getD_mem {l : List ℕ} {k : ℕ} (h : k < l.length) : l.getD k 0 ∈ l := by
  rw [List.getD, List.getElem?_eq_getElem h]; exact List.getElem_mem h

/-- The label of a column: the label of its irrep. -/
def colLab : List ℕ → (ℕ → ℕ) → ℕ → ℕ
  | [], _, _ => 0
  | a :: s, lab, c => if c < a then lab 0 else colLab s (fun i => lab (i + 1)) (c - a)

theorem colLab_offset (s : List ℕ) (lab : ℕ → ℕ) {k x : ℕ} (hk : k < s.length) (hx : x < s[k]) :
    colLab s lab (offset s k + x) = lab k := by
  induction s generalizing lab k with
  | nil => simp at hk
  | cons a s ih =>
    cases k with
    | zero => simp only [List.getElem_cons_zero] at hx; simp [offset, colLab, hx]
    | succ k =>
      simp only [List.getElem_cons_succ] at hx
      rw [offset_cons_succ, colLab, if_neg (by omega)]
      have e : a + offset s k + x - a = offset s k + x := by omega
      rw [e, ih _ (by simpa using hk) hx]

/-- The columns of the irreps with label `b`, as the code lists them. -/
def colsOf (s : List ℕ) (lab : ℕ → ℕ) (b : ℕ) : List ℕ :=
  ((List.range s.length).filter fun i => lab i = b).flatMap fun i => List.range' (offset s i) (s.getD i 0)

theorem range_len_succ (n : ℕ) : List.range (n + 1) = 0 :: (List.range n).map (· + 1) := by
  rw [List.range_succ_eq_map]

theorem colsOf_cons (a : ℕ) (s : List ℕ) (lab : ℕ → ℕ) (b : ℕ) :
    colsOf (a :: s) lab b = (if lab 0 = b then List.range a else []) ++
      (colsOf s (fun i => lab (i + 1)) b).map (a + ·) := by
  rw [colsOf, List.length_cons, range_len_succ, List.filter_cons]
  have hrest : (((List.range s.length).map (· + 1)).filter fun i => lab i = b).flatMap
      (fun i => List.range' (offset (a :: s) i) ((a :: s).getD i 0))
      = (colsOf s (fun i => lab (i + 1)) b).map (a + ·) := by
    rw [List.filter_map, List.flatMap_map, colsOf, List.map_flatMap]
    simp only [Function.comp_def]
    congr 1
    funext i
    rw [offset_cons_succ, List.map_add_range']
    simp
  by_cases h : lab 0 = b
  · rw [if_pos (by simpa using h), if_pos h, List.flatMap_cons, hrest]
    congr 1
    simp [offset_zero, List.range_eq_range']
  · rw [if_neg (by simpa using h), if_neg h, hrest]
    rfl

theorem colsOf_eq (s : List ℕ) (lab : ℕ → ℕ) (b : ℕ) :
    colsOf s lab b = (List.range s.sum).filter fun c => colLab s lab c = b := by
  induction s generalizing lab with
  | nil => simp [colsOf]
  | cons a s ih =>
    rw [colsOf_cons, List.sum_cons, List.range_add, List.filter_append, ih]
    congr 1
    · by_cases h : lab 0 = b
      · rw [if_pos h, List.filter_eq_self.2]
        intro c hc
        simp [colLab, List.mem_range.1 hc, h]
      · rw [if_neg h, eq_comm, List.filter_eq_nil_iff]
        intro c hc
        simp [colLab, List.mem_range.1 hc, h]
    · rw [List.filter_map]
      congr 1
      refine List.filter_congr fun c _ => ?_
      simp [colLab]

/-- The selected blocks. -/
def selOf (l : List (ℕ × Mat)) (lab : ℕ → ℕ) (b : ℕ) : List (ℕ × Mat) :=
  ((List.range l.length).filter fun i => lab i = b).filterMap fun i => l[i]?

theorem selOf_cons (a : ℕ × Mat) (l : List (ℕ × Mat)) (lab : ℕ → ℕ) (b : ℕ) :
    selOf (a :: l) lab b = (if lab 0 = b then [a] else []) ++ selOf l (fun i => lab (i + 1)) b := by
  rw [selOf, List.length_cons, range_len_succ, List.filter_cons]
  have hrest : (((List.range l.length).map (· + 1)).filter fun i => lab i = b).filterMap
      (fun i => (a :: l)[i]?) = selOf l (fun i => lab (i + 1)) b := by
    rw [List.filter_map, List.filterMap_map, selOf]
    simp [Function.comp_def]
  by_cases h : lab 0 = b
  · rw [if_pos (by simpa using h), if_pos h, List.filterMap_cons, hrest]
    simp
  · rw [if_neg (by simpa using h), if_neg h, hrest]
    rfl

theorem total_selOf (l : List (ℕ × Mat)) (lab : ℕ → ℕ) (b : ℕ) :
    total (selOf l lab b) = (colsOf (l.map Prod.fst) lab b).length := by
  induction l generalizing lab with
  | nil => simp [selOf, colsOf, total]
  | cons a l ih =>
    rw [selOf_cons, List.map_cons, colsOf_cons, total_append, ih, List.length_append, List.length_map]
    congr 1
    split_ifs <;> simp [total]

theorem ix_colsOf (l : List (ℕ × Mat)) (lab : ℕ → ℕ) (b : ℕ) {i j : ℕ}
    (hi : i < (colsOf (l.map Prod.fst) lab b).length) (hj : j < (colsOf (l.map Prod.fst) lab b).length) :
    ix (colsOf (l.map Prod.fst) lab b) (colsOf (l.map Prod.fst) lab b) (bdiag l) i j
      = bdiag (selOf l lab b) i j := by
  induction l generalizing lab i j with
  | nil => simp [colsOf] at hi
  | cons a l ih =>
    obtain ⟨s, A⟩ := a
    rw [selOf_cons]
    rw [List.map_cons, colsOf_cons] at hi hj ⊢
    set C := colsOf (l.map Prod.fst) (fun i => lab (i + 1)) b with hC
    have key : ∀ i < C.length, (C.map (s + ·)).getD i 0 = s + C.getD i 0 := by
      intro i hi; simp [hi]
    by_cases h : lab 0 = b
    · rw [if_pos h] at hi hj ⊢
      rw [if_pos h]
      rw [List.length_append, List.length_range, List.length_map] at hi hj
      have get : ∀ i, i < s + C.length → (List.range s ++ C.map (s + ·)).getD i 0
          = if i < s then i else s + C.getD (i - s) 0 := by
        intro i hi
        split_ifs with h1
        · rw [List.getD_append _ _ _ _ (by simpa using h1)]; simp [h1]
        · rw [List.getD_append_right _ _ _ _ (by simpa using h1), List.length_range]
          exact key _ (by omega)
      rw [ix, get i hi, get j hj, List.cons_append, List.nil_append]
      by_cases h1 : i < s <;> by_cases h2 : j < s
      · simp only [h1, h2, if_true, bdiag]
      · simp only [h1, h2, if_true, if_false, bdiag]
        rw [if_neg (by omega)]
      · simp only [h1, h2, if_true, if_false, bdiag]
        rw [if_neg (by omega)]
      · simp only [h1, h2, if_false, bdiag]
        rw [if_neg (by omega), if_neg (by omega), Nat.add_sub_cancel_left, Nat.add_sub_cancel_left]
        have hi' : i - s < C.length := by omega
        have hj' : j - s < C.length := by omega
        exact ih _ hi' hj'
    · rw [if_neg h] at hi hj ⊢
      rw [if_neg h]
      simp only [List.nil_append, List.length_map] at hi hj ⊢
      rw [ix, key i hi, key j hj]
      simp only [bdiag]
      rw [if_neg (by omega), if_neg (by omega), Nat.add_sub_cancel_left, Nat.add_sub_cancel_left]
      exact ih _ hi hj

/-- The block diagonal of sub-blocks of an array which does not mix the blocks. -/
theorem bdiag_ix (L : List (List ℕ)) (A : Mat)
    (h : L.Pairwise fun R R' => ∀ x ∈ R, ∀ y ∈ R', A x y = 0 ∧ A y x = 0) {i j : ℕ}
    (hi : i < L.flatten.length) (hj : j < L.flatten.length) :
    bdiag (L.map fun R => (R.length, ix R R A)) i j = A (L.flatten.getD i 0) (L.flatten.getD j 0) := by
  induction L generalizing i j with
  | nil => simp at hi
  | cons R L ih =>
    rw [List.pairwise_cons] at h
    rw [List.flatten_cons, List.length_append] at hi hj
    have mem : ∀ k < L.flatten.length, ∃ R' ∈ L, L.flatten.getD k 0 ∈ R' := by
      intro k hk
      exact List.mem_flatten.1 (getD_mem hk)
    simp only [List.map_cons, bdiag, List.flatten_cons]
    split_ifs with h1 h2 h2
    · rw [List.getD_append _ _ _ _ h1, List.getD_append _ _ _ _ h2, ix]
    · rw [List.getD_append _ _ _ _ h1, List.getD_append_right _ _ _ _ (by omega)]
      obtain ⟨R', hR', hm⟩ := mem (j - R.length) (by omega)
      exact ((h.1 R' hR' _ (getD_mem h1) _ hm).1).symm
    · rw [List.getD_append _ _ _ _ h2, List.getD_append_right _ _ _ _ (by omega)]
      obtain ⟨R', hR', hm⟩ := mem (i - R.length) (by omega)
      exact ((h.1 R' hR' _ (getD_mem h2) _ hm).2).symm
    · rw [List.getD_append_right _ _ _ _ (by omega), List.getD_append_right _ _ _ _ (by omega)]
      exact ih h.2 (by omega) (by omega)

theorem permMat_entry (L : List (List ℕ)) (i c : ℕ) :
    Repr.permMat L i c = if L.flatten[i]? = some c then 1 else 0 := by
  induction L generalizing i with
  | nil => simp [Repr.permMat]
  | cons R L ih =>
    rw [List.flatten_cons]
    show (if i < R.length then (if R[i]? = some c then 1 else 0) else Repr.permMat L (i - R.length) c) = _
    by_cases h : i < R.length
    · rw [if_pos h, List.getElem?_append_left h]
    · rw [if_neg h, ih, List.getElem?_append_right (by omega)]

/-- Splitting `range n` by label and concatenating is a permutation of `range n`. -/
theorem flatten_filter_perm (n m : ℕ) (lab : ℕ → ℕ) (h : ∀ i < n, lab i < m) :
    ((List.range m).map fun b => (List.range n).filter fun i => lab i = b).flatten.Perm (List.range n) := by
  rw [← List.flatMap_def, List.perm_ext_iff_of_nodup _ List.nodup_range]
  · intro a
    simp only [List.mem_flatMap, List.mem_range, List.mem_filter, decide_eq_true_eq]
    constructor
    · rintro ⟨b, _, h1, _⟩; exact h1
    · intro ha; exact ⟨_, h a ha, ha, rfl⟩
  · rw [List.nodup_flatMap]
    refine ⟨fun b _ => List.Nodup.filter _ List.nodup_range, ?_⟩
    refine List.Pairwise.imp_of_mem ?_ List.nodup_range
    intro a b _ _ hab x hx hy
    simp only [List.mem_filter, decide_eq_true_eq] at hx hy
    exact hab (hx.2.symm.trans hy.2)

end E2
