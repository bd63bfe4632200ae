import Verif.Model.ConcatBuild
import Verif.Lemmas.TagsGood

/-!
# The loops of `_transform_representation`
-/

namespace E2

open Mat

open Classical in
theorem concatRow_fold (r : Mat) (i : ℕ) : ∀ (l : List ℕ),
    (∀ k : ℕ, l.foldlM (concatRowStep r i) (k : ℤ) = if l.filter (fun j => decide (r i j ≠ 0)) = [] then some (k : ℤ) else none) ∧
    l.foldlM (concatRowStep r i) (-1) = if (l.filter (fun j => decide (r i j ≠ 0))).length ≤ 1 then
      some (((l.filter (fun j => decide (r i j ≠ 0))).head?.map fun j : ℕ => (j : ℤ)).getD (-1)) else none := by
  intro l
  induction l with
  | nil => simp
  | cons j l ih =>
    obtain ⟨ih1, ih2⟩ := ih
    constructor
    · intro k
      rw [List.foldlM_cons, concatRowStep]
      by_cases h : r i j ≠ 0
      · rw [if_pos h, if_neg (by omega), List.filter_cons_of_pos (by simpa using h), if_neg (by simp)]
        rfl
      · rw [if_neg h, List.filter_cons_of_neg (by simpa using h), ← ih1 k]
        rfl
    · rw [List.foldlM_cons, concatRowStep]
      by_cases h : r i j ≠ 0
      · rw [if_pos h, if_pos (by norm_num), List.filter_cons_of_pos (by simpa using h)]
        refine (ih1 j).trans ?_
        by_cases h' : l.filter (fun j => decide (r i j ≠ 0)) = []
        · rw [if_pos h', h', if_pos (by simp)]
          rfl
        · rw [if_neg h', if_neg]
          intro hl
          rw [List.length_cons] at hl
          exact h' (List.length_eq_zero_iff.1 (by omega))
      · rw [if_neg h, List.filter_cons_of_neg (by simpa using h), ← ih2]
        rfl

theorem concatRow_eq (s : ℕ) (r : Mat) (i : ℕ) : concatRow s r i =
    if (nonzeroCols s r i).length ≤ 1 then some (((nonzeroCols s r i).head?.map fun j : ℕ => (j : ℤ)).getD (-1)) else none :=
  (concatRow_fold r i (List.range s)).2

theorem mapM_rows {A B : Type} (f : A → Option B) (p : A → Prop) [DecidablePred p] (g : A → B) (h : ∀ a, f a = if p a then some (g a) else none) (l : List A) :
    l.mapM f = if ∀ a ∈ l, p a then some (l.map g) else none := by
  induction l with
  | nil => simp
  | cons a l ih =>
    rw [List.mapM_cons, h a, ih]
    by_cases h1 : p a
    · by_cases h2 : ∀ b ∈ l, p b
      · rw [if_pos h1, if_pos h2, if_pos (by simpa using ⟨h1, h2⟩)]; rfl
      · rw [if_pos h1, if_neg h2, if_neg (by intro h; exact h2 fun b hb => h b (List.mem_cons_of_mem _ hb))]; rfl
    · rw [if_neg h1, if_neg (show ¬ ∀ b ∈ a :: l, p b from fun h => h1 (h a List.mem_cons_self))]; rfl

theorem concatMat_block (r : Mat) (a b : ℕ) : concatMat r a b =
    (open Classical in if r (a / 2) (b / 2) = 1 then Mat.one (a % 2) (b % 2) else if r (a / 2) (b / 2) = -1 then Mat.one (1 - a % 2) (b % 2) else 0) := by
  have ha := Nat.mod_two_eq_zero_or_one a
  have hb := Nat.mod_two_eq_zero_or_one b
  unfold concatMat Mat.one
  rcases ha with ha | ha <;> rcases hb with hb | hb <;> rw [ha, hb] <;> simp

open Classical in
theorem concatCell_fold (r : Mat) : ∀ (l : List (ℕ × ℕ)) (S : ℕ × ℕ → Prop) (acc : Mat),
    (∀ a b, acc a b = if S (a / 2, b / 2) then concatMat r a b else 0) →
    (∀ M, l.foldlM (concatCell r) acc = some M → (∀ p ∈ l, r p.1 p.2 = 1 ∨ r p.1 p.2 = -1 ∨ r p.1 p.2 = 0) ∧
      ∀ a b, M a b = if S (a / 2, b / 2) ∨ (a / 2, b / 2) ∈ l then concatMat r a b else 0) ∧
    ((∀ p ∈ l, r p.1 p.2 = 1 ∨ r p.1 p.2 = -1 ∨ r p.1 p.2 = 0) → ∃ M, l.foldlM (concatCell r) acc = some M) := by
  intro l
  induction l with
  | nil =>
    intro S acc h
    refine ⟨fun M hM => ⟨by simp, fun a b => ?_⟩, fun _ => ⟨acc, rfl⟩⟩
    cases hM
    rw [h a b]
    simp
  | cons p l ih =>
    intro S acc h
    have key : ∀ acc', concatCell r acc p = some acc' → ∀ a b, acc' a b = if S (a / 2, b / 2) ∨ (a / 2, b / 2) = p then concatMat r a b else 0 := by
      intro acc' hacc a b
      have hp : (a / 2, b / 2) = p ↔ a / 2 = p.1 ∧ b / 2 = p.2 := Prod.ext_iff
      rw [concatCell] at hacc
      by_cases h1 : r p.1 p.2 = 1
      · rw [if_pos h1] at hacc
        cases hacc
        dsimp only
        by_cases h2 : a / 2 = p.1 ∧ b / 2 = p.2
        · rw [if_pos h2, if_pos (Or.inr (hp.2 h2)), concatMat_block, h2.1, h2.2, if_pos h1]
        · rw [if_neg h2, h a b]
          have : ¬ (a / 2, b / 2) = p := fun e => h2 (hp.1 e)
          simp only [this, or_false]
      · rw [if_neg h1] at hacc
        by_cases h1' : r p.1 p.2 = -1
        · rw [if_pos h1'] at hacc
          cases hacc
          dsimp only
          by_cases h2 : a / 2 = p.1 ∧ b / 2 = p.2
          · rw [if_pos h2, if_pos (Or.inr (hp.2 h2)), concatMat_block, h2.1, h2.2, if_neg h1, if_pos h1']
          · rw [if_neg h2, h a b]
            have : ¬ (a / 2, b / 2) = p := fun e => h2 (hp.1 e)
            simp only [this, or_false]
        · rw [if_neg h1'] at hacc
          by_cases h0 : r p.1 p.2 ≠ 0
          · rw [if_pos h0] at hacc; cases hacc
          · rw [if_neg h0] at hacc
            cases hacc
            rw [h a b]
            by_cases h2 : a / 2 = p.1 ∧ b / 2 = p.2
            · rw [if_pos (Or.inr (hp.2 h2)), concatMat_block, h2.1, h2.2, if_neg h1, if_neg h1', ite_self]
            · have : ¬ (a / 2, b / 2) = p := fun e => h2 (hp.1 e)
              simp only [this, or_false]
    constructor
    · intro M hM
      rw [List.foldlM_cons] at hM
      cases hc : concatCell r acc p with
      | none => rw [hc] at hM; cases hM
      | some acc' =>
        rw [hc] at hM
        obtain ⟨h1, h2⟩ := (ih (fun q => S q ∨ q = p) acc' (fun a b => by rw [key acc' hc a b]; congr)).1 M hM
        refine ⟨fun q hq => ?_, fun a b => ?_⟩
        · rcases List.mem_cons.1 hq with rfl | hq
          · rw [concatCell] at hc
            by_contra hn
            rw [not_or, not_or] at hn
            rw [if_neg hn.1, if_neg hn.2.1, if_pos hn.2.2] at hc
            cases hc
          · exact h1 q hq
        · rw [h2 a b]
          simp only [List.mem_cons, or_assoc]
    · intro hall
      have hc : ∃ acc', concatCell r acc p = some acc' := by
        rw [concatCell]
        rcases hall p List.mem_cons_self with h1 | h1 | h1
        · rw [if_pos h1]; exact ⟨_, rfl⟩
        · rw [if_neg (by rw [h1]; norm_num), if_pos h1]; exact ⟨_, rfl⟩
        · rw [if_neg (by rw [h1]; norm_num), if_neg (by rw [h1]; norm_num), if_neg (by rw [h1]; simp)]; exact ⟨_, rfl⟩
      obtain ⟨acc', hc⟩ := hc
      rw [List.foldlM_cons, hc]
      exact (ih (fun q => S q ∨ q = p) acc' (fun a b => by rw [key acc' hc a b]; congr)).2 fun q hq => hall q (List.mem_cons_of_mem _ hq)

theorem mem_concatCells {s : ℕ} {p : ℕ × ℕ} : p ∈ concatCells s ↔ p.1 < s ∧ p.2 < s := by
  rw [concatCells, List.mem_flatMap]
  constructor
  · rintro ⟨i, hi, h⟩
    obtain ⟨j, hj, rfl⟩ := List.mem_map.1 h
    exact ⟨List.mem_range.1 hi, List.mem_range.1 hj⟩
  · rintro ⟨h1, h2⟩
    exact ⟨p.1, List.mem_range.2 h1, List.mem_map.2 ⟨p.2, List.mem_range.2 h2, rfl⟩⟩

/-- The loops raise exactly if a check fails. -/
theorem concatElement_isSome {s : ℕ} {r : Mat} (h : ConcatOk s r) : ∃ M, concatElement s r = some M := by
  obtain ⟨h1, h2, h3⟩ := h
  rw [concatElement, mapM_rows _ (fun i => (nonzeroCols s r i).length ≤ 1) _ (concatRow_eq s r), if_pos fun i hi => h1 i (List.mem_range.1 hi), Option.bind_some,
    if_neg (by rw [not_not, h2.dedup])]
  exact (concatCell_fold r _ (fun _ => False) _ (fun _ _ => by simp)).2 fun p hp => h3 _ (mem_concatCells.1 hp).1 _ (mem_concatCells.1 hp).2

theorem concatElement_some {s : ℕ} {r M : Mat} (h : concatElement s r = some M) : ConcatOk s r ∧ MEq (2 * s) (2 * s) M (concatMat r) := by
  rw [concatElement, mapM_rows _ (fun i => (nonzeroCols s r i).length ≤ 1) _ (concatRow_eq s r)] at h
  by_cases h1 : ∀ i ∈ List.range s, (nonzeroCols s r i).length ≤ 1
  · rw [if_pos h1, Option.bind_some] at h
    split_ifs at h with h2
    obtain ⟨h3, h4⟩ := (concatCell_fold r _ (fun _ => False) _ (fun _ _ => by simp)).1 M h
    rw [not_not] at h2
    refine ⟨⟨fun i hi => h1 i (List.mem_range.2 hi), ?_, fun i hi j hj => h3 (i, j) (mem_concatCells.2 ⟨hi, hj⟩)⟩, fun a ha b hb => ?_⟩
    · have h5 := List.dedup_sublist ((List.range s).map fun i => ((nonzeroCols s r i).head?.map fun (j : ℕ) => (j : ℤ)).getD (-1))
      have h6 := h5.eq_of_length h2
      rw [← h6]
      exact List.nodup_dedup _
    · rw [h4 a b, if_pos (Or.inr (mem_concatCells.2 ⟨by dsimp only; omega, by dsimp only; omega⟩))]
  · rw [if_neg h1] at h
    cases h

end E2
