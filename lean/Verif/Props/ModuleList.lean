import Verif.Model.ModuleList
import Mathlib.Tactic.Ring

/-!
# C105: `ModuleList` is a list of equivariant modules
-/

namespace E2

variable {M : Type}

/-! ## Specification: lists of Python -/

/-- The position which an index of Python means in a list of the given length. -/
def pyPos (len : ℕ) (i : ℤ) : ℕ := if i < 0 then (i + len).toNat else i.toNat

/-- `l[i]` of Python; `none` if it raises. -/
def listGet (l : List M) (i : ℤ) : Option M := if -(l.length : ℤ) ≤ i ∧ i < l.length then l[pyPos l.length i]? else none

/-- The call on a list of Python. -/
def MLOp.onList (l : List M) : MLOp M → List M
  | .append m => l ++ [m]
  | .extend ms => l ++ ms
  | .insert i m => l.take i.toNat ++ m :: l.drop i.toNat
  | .set i m => l.set (pyPos l.length i) m
  | .del i => l.eraseIdx (pyPos l.length i)
  | .add _ _ => l

/-- The calls which are meant to work: equivariant modules, indices in range, none of the methods for which the class has no check. -/
def MLOp.Meant (isE : M → Bool) (l : List M) : MLOp M → Prop
  | .append m => isE m
  | .extend ms => ∀ m ∈ ms, isE m
  | .insert i m => isE m ∧ 0 ≤ i ∧ i ≤ l.length
  | .set i m => isE m ∧ -(l.length : ℤ) ≤ i ∧ i < l.length
  | .del i => -(l.length : ℤ) ≤ i ∧ i < l.length
  | .add _ _ => False

/-- All calls of a program are meant to work. -/
def MLOp.AllMeant (isE : M → Bool) : List M → List (MLOp M) → Prop
  | _, [] => True
  | l, op :: ops => op.Meant isE l ∧ AllMeant isE (op.onList l) ops

/-- The state holds this list: `list(self)`, `len(self)` and `self[i]`. -/
def MLHolds (st : MList M) (l : List M) : Prop := st.map Prod.snd = l ∧ st.length = l.length ∧ ∀ i, mlGet st i = listGet l i

/-! ## Dictionaries with numbered names -/

theorem mlNumber_length (k : ℕ) (l : List M) : (mlNumber k l).length = l.length := by
  induction l generalizing k with
  | nil => rfl
  | cons m l ih => simp [mlNumber, ih]

theorem mlNumber_values (k : ℕ) (l : List M) : (mlNumber k l).map Prod.snd = l := by
  induction l generalizing k with
  | nil => rfl
  | cons m l ih => simp [mlNumber, ih]

theorem mlNumber_set (k j : ℕ) (l : List M) (h : j < l.length) (m : M) : dictSet (mlNumber k l) (.idx (k + j : ℕ)) m = mlNumber k (l.set j m) := by
  induction l generalizing k j with
  | nil => simp at h
  | cons a l ih =>
    cases j with
    | zero => simp [mlNumber, dictSet]
    | succ j =>
      have h' := ih (k + 1) j (by simpa using h)
      have hne : ¬ (MKey.idx (k : ℤ) = .idx ((k + (j + 1) : ℕ) : ℤ)) := by
        intro e; injection e with e; omega
      simp only [mlNumber, dictSet, hne, if_false, List.set_cons_succ, List.cons.injEq, true_and]
      rw [← h']
      congr 2
      omega

theorem mlNumber_append (k : ℕ) (l : List M) (m : M) : dictSet (mlNumber k l) (.idx (k + l.length : ℕ)) m = mlNumber k (l ++ [m]) := by
  induction l generalizing k with
  | nil => simp [mlNumber, dictSet]
  | cons a l ih =>
    have hne : ¬ (MKey.idx (k : ℤ) = .idx ((k + (l.length + 1) : ℕ) : ℤ)) := by
      intro e; injection e with e; omega
    simp only [mlNumber, dictSet, List.length_cons, hne, if_false, List.cons_append, List.cons.injEq, true_and]
    rw [← ih]
    congr 2
    omega

theorem mlNumber_lookup (k j : ℕ) (l : List M) : (mlNumber k l).lookup (.idx (k + j : ℕ)) = l[j]? := by
  induction l generalizing k j with
  | nil => simp [mlNumber]
  | cons a l ih =>
    cases j with
    | zero => simp [mlNumber]
    | succ j =>
      have hne : (MKey.idx ((k + (j + 1) : ℕ) : ℤ) == .idx (k : ℤ)) = false := by
        rw [beq_eq_false_iff_ne]
        intro e; injection e with e; omega
      simp only [mlNumber, List.lookup, hne, List.getElem?_cons_succ]
      rw [← ih (k + 1) j]
      congr 2
      omega

theorem mlNumber_lookup_neg (k : ℕ) (i : ℤ) (h : i < k) (l : List M) : (mlNumber k l).lookup (.idx i) = none := by
  induction l generalizing k with
  | nil => simp [mlNumber]
  | cons a l ih =>
    have hne : (MKey.idx i == .idx (k : ℤ)) = false := by
      rw [beq_eq_false_iff_ne]
      intro e; injection e with e; omega
    simp only [mlNumber, List.lookup, hne]
    exact ih (k + 1) (by push_cast; omega)

theorem mlNumber_filter_ge (k : ℕ) (i : ℤ) (h : i < k) (l : List M) : (mlNumber k l).filter (fun p => p.1 ≠ .idx i) = mlNumber k l := by
  induction l generalizing k with
  | nil => rfl
  | cons a l ih =>
    have hne : MKey.idx (k : ℤ) ≠ .idx i := by
      intro e; injection e with e; omega
    simp only [mlNumber]
    rw [List.filter_cons_of_pos (by simpa using hne), ih (k + 1) (by push_cast; omega)]

theorem mlNumber_erase (k j : ℕ) (l : List M) (h : j < l.length) :
    ((mlNumber k l).filter fun p => p.1 ≠ .idx (k + j : ℕ)).map Prod.snd = l.eraseIdx j := by
  induction l generalizing k j with
  | nil => simp at h
  | cons a l ih =>
    cases j with
    | zero =>
      simp only [mlNumber]
      rw [List.filter_cons_of_neg (by simp), mlNumber_filter_ge _ _ (by push_cast; omega), mlNumber_values]
      rfl
    | succ j =>
      have hne : MKey.idx (k : ℤ) ≠ .idx ((k + (j + 1) : ℕ) : ℤ) := by
        intro e; injection e with e; omega
      have h' := ih (k + 1) j (by simpa using h)
      rw [show k + 1 + j = k + (j + 1) by omega] at h'
      simp only [mlNumber]
      rw [List.filter_cons_of_pos (by simpa using hne), List.map_cons, h']
      rfl

theorem mlNumber_holds (l : List M) : MLHolds (mlNumber 0 l) l := by
  refine ⟨mlNumber_values 0 l, mlNumber_length 0 l, fun i => ?_⟩
  unfold mlGet listGet mlAbs pyPos
  rw [mlNumber_length]
  split_ifs with h h2
  · rw [Option.bind_some, ← mlNumber_lookup 0]
    congr 2
    omega
  · rw [Option.bind_some, ← mlNumber_lookup 0]
    congr 2
    omega
  · rfl

/-- The loop of `insert`, from the position `i` down to `i - n + 1`. -/
theorem mlShift_number (n i : ℕ) (l : List M) (hi : i < l.length) (hn : n ≤ i) : ∃ l', mlShift n i (mlNumber 0 l) = (mlNumber 0 l', true) ∧
    l'.length = l.length ∧ ∀ k, l'[k]? = if i - n < k ∧ k ≤ i then l[k - 1]? else l[k]? := by
  induction n generalizing i l with
  | zero => exact ⟨l, rfl, rfl, fun k => by rw [if_neg (by omega)]⟩
  | succ n ih =>
    obtain ⟨j, rfl⟩ : ∃ j, i = j + 1 := ⟨i - 1, by omega⟩
    have hlk : (mlNumber 0 l).lookup (.idx (((j + 1 : ℕ) : ℤ) - 1)) = some l[j] := by
      have := mlNumber_lookup 0 j l
      rw [List.getElem?_eq_getElem (by omega)] at this
      rw [← this]
      congr 2
      omega
    obtain ⟨l', h1, h2, h3⟩ := ih j (l.set (j + 1) l[j]) (by simp; omega) (by omega)
    refine ⟨l', ?_, by simpa using h2, fun k => ?_⟩
    · rw [mlShift, hlk]
      have hs := mlNumber_set 0 (j + 1) l hi l[j]
      rw [Nat.zero_add] at hs
      simp only [hs]
      rw [show ((j + 1 : ℕ) : ℤ) - 1 = (j : ℕ) by omega]
      exact h1
    · rw [h3 k]
      by_cases hk : k = j + 1
      · subst hk
        rw [if_neg (by omega), if_pos (by omega), List.getElem?_set_self hi, Nat.add_sub_cancel, List.getElem?_eq_getElem (by omega)]
      · by_cases hk2 : j - n < k ∧ k ≤ j
        · rw [if_pos hk2, if_pos (by omega), List.getElem?_set_ne (by omega)]
        · rw [if_neg hk2, if_neg (by omega), List.getElem?_set_ne (by omega)]

theorem mlShift_step (n : ℕ) (l : List M) (hl : 0 < l.length) : mlShift (n + 1) l.length (mlNumber 0 l) =
    mlShift n ((l.length - 1 : ℕ) : ℤ) (mlNumber 0 (l ++ [l[l.length - 1]])) := by
  have hlk : (mlNumber 0 l).lookup (.idx ((l.length : ℤ) - 1)) = some l[l.length - 1] := by
    have := mlNumber_lookup 0 (l.length - 1) l
    rw [List.getElem?_eq_getElem (by omega)] at this
    rw [← this]
    congr 2
    omega
  rw [mlShift, hlk]
  have hs := mlNumber_append 0 l l[l.length - 1]
  rw [Nat.zero_add] at hs
  simp only [hs]
  congr 1
  omega

theorem mlInsert_number (isE : M → Bool) (l : List M) (i : ℕ) (hi : i ≤ l.length) (m : M) (hm : isE m) :
    mlInsert isE (mlNumber 0 l) i m = (mlNumber 0 (l.take i ++ m :: l.drop i), true) := by
  unfold mlInsert
  rw [if_pos hm, mlNumber_length, show ((l.length : ℤ) - i).toNat = l.length - i by omega]
  rcases Nat.lt_or_ge i l.length with h | h
  · obtain ⟨n, hn⟩ : ∃ n, l.length - i = n + 1 := ⟨l.length - i - 1, by omega⟩
    obtain ⟨l', h1, h2, h3⟩ := mlShift_number n (l.length - 1) (l ++ [l[l.length - 1]]) (by simp) (by omega)
    rw [hn, mlShift_step n l (by omega), h1, if_pos rfl]
    have hl' : l'.length = l.length + 1 := by simpa using h2
    have hs := mlNumber_set 0 i l' (by omega) m
    rw [Nat.zero_add] at hs
    dsimp only
    rw [hs]
    congr 2
    refine List.ext_getElem? fun k => ?_
    rcases lt_trichotomy k i with hk | hk | hk
    · rw [List.getElem?_set_ne (by omega), h3, if_neg (by omega), List.getElem?_append_left (by omega),
        List.getElem?_append_left (by simp; omega), List.getElem?_take_of_lt hk]
    · subst hk
      rw [List.getElem?_set_self (by omega), List.getElem?_append_right (by simp), List.length_take, Nat.min_eq_left hi, Nat.sub_self]
      rfl
    · rw [List.getElem?_set_ne (by omega), h3, List.getElem?_append_right (l₁ := l.take i) (by simp; omega), List.length_take, Nat.min_eq_left hi]
      obtain ⟨d, hd⟩ : ∃ d, k - i = d + 1 := ⟨k - i - 1, by omega⟩
      rw [hd, List.getElem?_cons_succ, List.getElem?_drop]
      by_cases hk2 : k ≤ l.length - 1
      · rw [if_pos (by omega), List.getElem?_append_left (by omega)]
        congr 1
        omega
      · rw [if_neg (by omega)]
        rcases Nat.lt_or_ge k (l.length + 1) with hk3 | hk3
        · have hk4 : k = l.length := by omega
          rw [List.getElem?_append_right (by omega), hk4, Nat.sub_self, show i + d = l.length - 1 by omega, List.getElem?_eq_getElem (show l.length - 1 < l.length by omega)]
          rfl
        · rw [List.getElem?_eq_none (by simp; omega), List.getElem?_eq_none (by omega)]
  · obtain rfl : i = l.length := le_antisymm hi h
    have hs := mlNumber_append 0 l m
    rw [Nat.zero_add] at hs
    simp [mlShift, hs]

theorem mlAppend_number (isE : M → Bool) (l : List M) (m : M) (hm : isE m) : mlAppend isE (mlNumber 0 l) m = (mlNumber 0 (l ++ [m]), true) := by
  have hs := mlNumber_append 0 l m
  rw [Nat.zero_add] at hs
  simp [mlAppend, hm, mlNumber_length, hs]

theorem mlExtend_number (isE : M → Bool) (ms l : List M) (hm : ∀ m ∈ ms, isE m) : mlExtend isE (mlNumber 0 l) ms = (mlNumber 0 (l ++ ms), true) := by
  induction ms generalizing l with
  | nil => simp [mlExtend]
  | cons m ms ih =>
    rw [mlExtend, mlAppend_number isE l m (hm m (by simp)), if_pos rfl]
    dsimp only
    rw [ih _ fun a ha => hm a (by simp [ha])]
    simp

theorem mlAbs_pos {len : ℕ} {i : ℤ} (h : -(len : ℤ) ≤ i ∧ i < len) : mlAbs len i = some ((pyPos len i : ℕ) : ℤ) ∧ pyPos len i < len := by
  unfold mlAbs pyPos
  rw [if_pos h]
  split_ifs with h2
  · exact ⟨by congr 1; omega, by omega⟩
  · exact ⟨by congr 1; omega, by omega⟩

theorem mlOp_number (isE : M → Bool) (l : List M) (op : MLOp M) (h : op.Meant isE l) :
    op.run isE (mlNumber 0 l) = (mlNumber 0 (op.onList l), true) := by
  cases op with
  | append m => exact mlAppend_number isE l m h
  | extend ms => exact mlExtend_number isE ms l h
  | insert i m =>
    obtain ⟨j, rfl⟩ := Int.eq_ofNat_of_zero_le h.2.1
    exact mlInsert_number isE l j (by have := h.2.2; omega) m h.1
  | set i m =>
    obtain ⟨h1, h2⟩ := mlAbs_pos h.2
    have hs := mlNumber_set 0 _ l h2 m
    rw [Nat.zero_add] at hs
    simp only [MLOp.run, MLOp.onList, mlSet, mlNumber_length, h1, if_pos h.1, hs]
  | del i =>
    obtain ⟨h1, h2⟩ := mlAbs_pos h
    have hs := mlNumber_erase 0 _ l h2
    have hk := mlNumber_lookup 0 (pyPos l.length i) l
    rw [Nat.zero_add] at hs hk
    rw [List.getElem?_eq_getElem h2] at hk
    simp only [MLOp.run, MLOp.onList, mlDel, mlNumber_length, h1, hk, Option.isSome_some, if_true, hs]
  | add k m => exact h.elim

theorem mlRun_number (isE : M → Bool) (ops : List (MLOp M)) (l : List M) (h : MLOp.AllMeant isE l ops) :
    mlRun isE (mlNumber 0 l) ops = mlNumber 0 (ops.foldl MLOp.onList l) := by
  induction ops generalizing l with
  | nil => rfl
  | cons op ops ih =>
    simp only [mlRun, List.foldl_cons]
    rw [mlOp_number isE l op h.1]
    exact ih _ h.2

/-! ## The property -/

/-- After the constructor and any sequence of calls which are meant to work, the object holds the list which the same calls give on a list of Python, and no call
has raised. -/
theorem c105_list (isE : M → Bool) (ms : List M) (hms : ∀ m ∈ ms, isE m) (ops : List (MLOp M)) (h : MLOp.AllMeant isE ms ops) :
    (mlNew isE ms).2 = true ∧ MLHolds (mlRun isE (mlNew isE ms).1 ops) (ops.foldl MLOp.onList ms) ∧
      ∀ a op b, ops = a ++ op :: b → (op.run isE (mlRun isE (mlNew isE ms).1 a)).2 = true := by
  have h0 : mlNew isE ms = (mlNumber 0 ms, true) := mlExtend_number isE ms [] hms
  rw [h0]
  refine ⟨rfl, ?_, ?_⟩
  · dsimp only
    rw [mlRun_number isE ops ms h]
    exact mlNumber_holds _
  · rintro a op b rfl
    have key : ∀ (a : List (MLOp M)) (l : List M), MLOp.AllMeant isE l (a ++ op :: b) → MLOp.AllMeant isE l a ∧ op.Meant isE (a.foldl MLOp.onList l) := by
      intro a
      induction a with
      | nil => exact fun l hl => ⟨trivial, hl.1⟩
      | cons c a ih => exact fun l hl => ⟨⟨hl.1, (ih _ hl.2).1⟩, (ih _ hl.2).2⟩
    obtain ⟨h1, h2⟩ := key a ms h
    dsimp only
    rw [mlRun_number isE a ms h1, mlOp_number isE _ op h2]

theorem dictSet_mem {K V : Type} [DecidableEq K] {d : List (K × V)} {k : K} {v : V} {p : K × V} (h : p ∈ dictSet d k v) : p ∈ d ∨ p.2 = v := by
  induction d with
  | nil => simp [dictSet] at h; simp [h]
  | cons a d ih =>
    obtain ⟨k', v'⟩ := a
    rw [dictSet] at h
    split_ifs at h
    · rcases List.mem_cons.1 h with rfl | h
      · simp
      · simp [h]
    · rcases List.mem_cons.1 h with rfl | h
      · simp
      · rcases ih h with h | h <;> simp [h]

theorem lookup_mem' {K V : Type} [DecidableEq K] {d : List (K × V)} {k : K} {v : V} (h : d.lookup k = some v) : (k, v) ∈ d := by
  induction d with
  | nil => simp at h
  | cons a d ih =>
    obtain ⟨k', v'⟩ := a
    rw [List.lookup] at h
    split at h
    · rename_i hk
      obtain rfl : k = k' := by simpa using hk
      simp_all
    · exact List.mem_cons_of_mem _ (ih h)

theorem mlShift_all (isE : M → Bool) (n : ℕ) (i : ℤ) (st : MList M) (h : ∀ p ∈ st, isE p.2) : ∀ p ∈ (mlShift n i st).1, isE p.2 := by
  induction n generalizing i st with
  | zero => exact h
  | succ n ih =>
    rw [mlShift]
    split
    · exact h
    · rename_i m hm
      refine ih _ _ fun p hp => ?_
      rcases dictSet_mem hp with h' | h'
      · exact h p h'
      · rw [h']; exact h _ (lookup_mem' hm)

theorem mlAppend_all (isE : M → Bool) (st : MList M) (m : M) (h : ∀ p ∈ st, isE p.2) : ∀ p ∈ (mlAppend isE st m).1, isE p.2 := by
  unfold mlAppend
  split_ifs with hm
  · exact fun p hp => (dictSet_mem hp).elim (h p) fun h' => by rw [h']; exact hm
  · exact h

theorem mlExtend_all (isE : M → Bool) (ms : List M) (st : MList M) (h : ∀ p ∈ st, isE p.2) : ∀ p ∈ (mlExtend isE st ms).1, isE p.2 := by
  induction ms generalizing st with
  | nil => exact h
  | cons m ms ih =>
    rw [mlExtend]
    split_ifs
    · exact ih _ (mlAppend_all isE st m h)
    · exact mlAppend_all isE st m h

theorem mlOp_all (isE : M → Bool) (st : MList M) (op : MLOp M) (hop : ∀ k m, op ≠ .add k m) (h : ∀ p ∈ st, isE p.2) :
    ∀ p ∈ (op.run isE st).1, isE p.2 := by
  cases op with
  | append m => exact mlAppend_all isE st m h
  | extend ms => exact mlExtend_all isE ms st h
  | insert i m =>
    simp only [MLOp.run, mlInsert]
    split_ifs with hm
    · exact fun p hp => (dictSet_mem hp).elim (mlShift_all isE _ _ st h p) fun h' => by rw [h']; exact hm
    · exact mlShift_all isE _ _ st h
    · exact h
  | set i m =>
    simp only [MLOp.run, mlSet]
    split_ifs with hm
    · cases mlAbs st.length i with
      | none => exact h
      | some k => exact fun p hp => (dictSet_mem hp).elim (h p) fun h' => by rw [h']; exact hm
    · exact h
  | del i =>
    simp only [MLOp.run, mlDel]
    cases mlAbs st.length i with
    | none => exact h
    | some k =>
      dsimp only
      split_ifs
      · intro p hp
        have : p.2 ∈ (mlNumber 0 ((st.filter fun p => p.1 ≠ .idx k).map Prod.snd)).map Prod.snd := List.mem_map_of_mem hp
        rw [mlNumber_values, List.mem_map] at this
        obtain ⟨q, hq, he⟩ := this
        rw [← he]
        exact h q (List.mem_filter.1 hq).1
      · exact h
  | add k m => exact (hop k m rfl).elim

/-- The constructor and any sequence of calls other than `add_module`, with any arguments, also when some calls have raised and the program has gone on, leave an
object which contains only equivariant modules.  Not proved, because it is false: the same with `add_module`, see `c105_add_wrong`. -/
theorem c105_only_equivariant_partial (isE : M → Bool) (ms : List M) (ops : List (MLOp M)) (hops : ∀ op ∈ ops, ∀ k m, op ≠ .add k m) :
    ∀ m ∈ (mlRun isE (mlNew isE ms).1 ops).map Prod.snd, isE m := by
  have key : ∀ (ops : List (MLOp M)) (st : MList M), (∀ op ∈ ops, ∀ k m, op ≠ .add k m) → (∀ p ∈ st, isE p.2) → ∀ p ∈ mlRun isE st ops, isE p.2 := by
    intro ops
    induction ops with
    | nil => exact fun st _ h => h
    | cons op ops ih =>
      intro st ho h
      exact ih _ (fun o h' => ho o (by simp [h'])) (mlOp_all isE st op (ho op (by simp)) h)
  intro m hm
  obtain ⟨p, hp, rfl⟩ := List.mem_map.1 hm
  exact key ops _ hops (mlExtend_all isE ms [] (by simp)) p hp

/-- `append`, `insert` and assignment of a module which is not equivariant raise and change nothing, in every state. -/
theorem c105_rejected (isE : M → Bool) (m : M) (hm : isE m = false) (st : MList M) (i : ℤ) :
    mlAppend isE st m = (st, false) ∧ mlInsert isE st i m = (st, false) ∧ mlSet isE st i m = (st, false) := by
  simp [mlAppend, mlInsert, mlSet, hm]

/-- `extend`, and the constructor, stop at the first module which is not equivariant: the call raises, but the modules before it have been added. -/
theorem c105_extend_stops (isE : M → Bool) (l a b : List M) (m : M) (ha : ∀ x ∈ a, isE x) (hm : isE m = false) (hl : ∀ x ∈ l, isE x) :
    (mlExtend isE (mlNew isE l).1 (a ++ m :: b)).2 = false ∧ MLHolds (mlExtend isE (mlNew isE l).1 (a ++ m :: b)).1 (l ++ a) := by
  have h0 : mlNew isE l = (mlNumber 0 l, true) := mlExtend_number isE l [] hl
  have key : ∀ (a l : List M), (∀ x ∈ a, isE x) → mlExtend isE (mlNumber 0 l) (a ++ m :: b) = (mlNumber 0 (l ++ a), false) := by
    intro a
    induction a with
    | nil => intro l _; simp [mlExtend, mlAppend, hm]
    | cons c a ih =>
      intro l h
      rw [List.cons_append, mlExtend, mlAppend_number isE l c (h c (by simp)), if_pos rfl]
      dsimp only
      rw [ih _ fun x hx => h x (by simp [hx])]
      simp
  rw [h0]
  dsimp only
  rw [key a l ha]
  exact ⟨rfl, mlNumber_holds _⟩

/-- `export` after any such program returns exactly if every module of the list can be exported, and then position `i` of the result holds what the module at
position `i` is exported to. -/
theorem c105_export {X : Type} (isE : M → Bool) (exp : M → Option X) (ms : List M) (hms : ∀ m ∈ ms, isE m) (ops : List (MLOp M))
    (h : MLOp.AllMeant isE ms ops) :
    ((∃ out, mlExport exp (mlRun isE (mlNew isE ms).1 ops) = some out) ↔ ∀ m ∈ ops.foldl MLOp.onList ms, ∃ y, exp m = some y) ∧
      ∀ out, mlExport exp (mlRun isE (mlNew isE ms).1 ops) = some out → out.length = (ops.foldl MLOp.onList ms).length ∧
        ∀ (i : ℤ), mlGet out i = (listGet (ops.foldl MLOp.onList ms) i).bind exp := by
  have h0 : mlNew isE ms = (mlNumber 0 ms, true) := mlExtend_number isE ms [] hms
  rw [h0]
  dsimp only
  rw [mlRun_number isE ops ms h]
  generalize ops.foldl MLOp.onList ms = l
  have hm : ((mlNumber 0 l).mapM fun p => exp p.2) = l.mapM exp := by
    have : ∀ (l : List M) (k : ℕ), ((mlNumber k l).mapM fun p => exp p.2) = l.mapM exp := by
      intro l
      induction l with
      | nil => intro k; rfl
      | cons m l ih => intro k; simp only [mlNumber, List.mapM_cons, ih (k + 1)]
    exact this l 0
  have hlen : ∀ (l : List M) (ys : List X), l.mapM exp = some ys → ys.length = l.length ∧ ∀ i : ℕ, ys[i]? = (l[i]?).bind exp := by
    intro l
    induction l with
    | nil => intro ys h; simp at h; subst h; simp
    | cons m l ih =>
      intro ys h
      rw [List.mapM_cons] at h
      simp only [Option.bind_eq_bind, Option.bind_eq_some_iff, Option.pure_def, Option.some.injEq] at h
      obtain ⟨y, hy, ys', hys, rfl⟩ := h
      obtain ⟨h1, h2⟩ := ih ys' hys
      refine ⟨by simp [h1], fun i => ?_⟩
      cases i with
      | zero => simp [hy]
      | succ i => simpa using h2 i
  unfold mlExport
  rw [hm]
  refine ⟨⟨fun ⟨out, ho⟩ m hml => ?_, fun hall => ?_⟩, fun out ho => ?_⟩
  · obtain ⟨ys, hy, -⟩ := Option.map_eq_some_iff.1 ho
    obtain ⟨i, hi, rfl⟩ := List.mem_iff_getElem.1 hml
    obtain ⟨h1, h2⟩ := hlen l ys hy
    have := h2 i
    rw [List.getElem?_eq_getElem hi, List.getElem?_eq_getElem (by omega), Option.bind_some] at this
    exact ⟨_, this.symm⟩
  · have : ∀ l : List M, (∀ m ∈ l, ∃ y, exp m = some y) → ∃ ys, l.mapM exp = some ys := by
      intro l
      induction l with
      | nil => exact fun _ => ⟨[], rfl⟩
      | cons m l ih =>
        intro h
        obtain ⟨y, hy⟩ := h m (by simp)
        obtain ⟨ys, hys⟩ := ih fun a ha => h a (by simp [ha])
        exact ⟨y :: ys, by simp [List.mapM_cons, hy, hys]⟩
    obtain ⟨ys, hy⟩ := this l hall
    exact ⟨_, by rw [hy]; rfl⟩
  · obtain ⟨ys, hy, rfl⟩ := Option.map_eq_some_iff.1 ho
    obtain ⟨h1, h2⟩ := hlen l ys hy
    refine ⟨by rw [mlNumber_length, h1], fun i => ?_⟩
    rw [(mlNumber_holds ys).2.2 i]
    unfold listGet
    rw [h1]
    split_ifs
    · exact h2 _
    · rfl

/-- `add_module`, which is inherited without a check, puts a module which is not equivariant into the list; `export` then raises if such a module has no method
`export`. -/
theorem c105_add_wrong (isE : M → Bool) (m : M) (hm : isE m = false) {X : Type} (exp : M → Option X) (he : exp m = none) (ms : List M) (s : String) :
    (mlAdd (mlNew isE ms).1 (.name s) m).2 = true ∧ (∃ a ∈ (mlAdd (mlNew isE ms).1 (.name s) m).1.map Prod.snd, isE a = false) ∧
      mlExport exp (mlAdd (mlNew isE ms).1 (.name s) m).1 = none := by
  have hmem : ∀ (d : MList M), ∃ k, (k, m) ∈ dictSet d (.name s) m := by
    intro d
    induction d with
    | nil => exact ⟨_, by simp [dictSet]; rfl⟩
    | cons a d ih =>
      obtain ⟨k, v⟩ := a
      rw [dictSet]
      split_ifs
      · exact ⟨k, by simp⟩
      · obtain ⟨k', h⟩ := ih
        exact ⟨k', by simp [h]⟩
  obtain ⟨k, hk⟩ := hmem (mlNew isE ms).1
  refine ⟨rfl, ⟨m, List.mem_map_of_mem (f := Prod.snd) hk, hm⟩, ?_⟩
  have hno : ∀ d : MList M, (k, m) ∈ d → (d.mapM fun p => exp p.2) = none := by
    intro d
    induction d with
    | nil => simp
    | cons a d ih =>
      intro h
      rw [List.mapM_cons]
      rcases List.mem_cons.1 h with rfl | h
      · simp [he]
      · rw [ih h]; cases exp a.2 <;> simp
  unfold mlExport mlAdd
  rw [hno _ hk]
  rfl

/-- `insert` behind the end leaves a gap in the names; the next `append` then replaces the inserted module, and no call raises. -/
theorem c105_insert_gap_wrong (isE : M → Bool) (l : List M) (hl : ∀ m ∈ l, isE m) (a b : M) (ha : isE a) (hb : isE b) :
    (mlInsert isE (mlNew isE l).1 (l.length + 1) a).2 = true ∧
      mlAppend isE (mlInsert isE (mlNew isE l).1 (l.length + 1) a).1 b = (mlNumber 0 l ++ [(.idx (l.length + 1), b)], true) ∧
      mlGet (mlInsert isE (mlNew isE l).1 (l.length + 1) a).1 l.length = none := by
  have h0 : mlNew isE l = (mlNumber 0 l, true) := mlExtend_number isE l [] hl
  have hset : ∀ (l : List M) (k : ℕ) (c : M) (t : MList M), dictSet (mlNumber k l ++ t) (.idx (k + l.length + 1)) c =
      mlNumber k l ++ dictSet t (.idx (k + l.length + 1)) c := by
    intro l
    induction l with
    | nil => intro k c t; rfl
    | cons m l ih =>
      intro k c t
      have hne : ¬ (MKey.idx (k : ℤ) = .idx ((k : ℤ) + ((m :: l).length : ℕ) + 1)) := by
        intro e; injection e with e; omega
      simp only [mlNumber, List.cons_append, dictSet, hne, if_false, List.cons.injEq, true_and]
      have := ih (k + 1) c t
      rw [show ((k + 1 : ℕ) : ℤ) + (l.length : ℤ) + 1 = (k : ℤ) + ((m :: l).length : ℕ) + 1 by push_cast [List.length_cons]; ring] at this
      exact this
  have hi : mlInsert isE (mlNumber 0 l) (l.length + 1) a = (mlNumber 0 l ++ [(.idx (l.length + 1), a)], true) := by
    have := hset l 0 a []
    simp only [List.append_nil, Nat.cast_zero, zero_add, dictSet] at this
    unfold mlInsert
    rw [if_pos ha, mlNumber_length, show ((l.length : ℤ) - (l.length + 1)).toNat = 0 by omega]
    simp [mlShift, this]
  rw [h0]
  dsimp only
  rw [hi]
  refine ⟨rfl, ?_, ?_⟩
  · have := hset l 0 b [(.idx (l.length + 1), a)]
    simp only [Nat.cast_zero, zero_add, dictSet, if_true] at this
    simp [mlAppend, hb, mlNumber_length, this]
  · have hlk : ∀ (l : List M) (k : ℕ) (t : MList M), (mlNumber k l ++ t).lookup (.idx (k + l.length)) = t.lookup (.idx (k + l.length)) := by
      intro l
      induction l with
      | nil => intro k t; rfl
      | cons m l ih =>
        intro k t
        have hne : (MKey.idx ((k : ℤ) + ((m :: l).length : ℕ)) == .idx (k : ℤ)) = false := by
          rw [beq_eq_false_iff_ne]
          intro e; injection e with e; simp at e; omega
        simp only [mlNumber, List.cons_append, List.lookup, hne]
        have := ih (k + 1) t
        rw [show ((k + 1 : ℕ) : ℤ) + (l.length : ℤ) = (k : ℤ) + ((m :: l).length : ℕ) by push_cast [List.length_cons]; ring] at this
        exact this
    have h := hlk l 0 [(.idx (l.length + 1), a)]
    simp only [Nat.cast_zero, zero_add] at h
    have hne : (MKey.idx (l.length : ℤ) == .idx ((l.length : ℤ) + 1)) = false := by
      rw [beq_eq_false_iff_ne]
      intro e; injection e with e; omega
    unfold mlGet mlAbs
    rw [List.length_append, mlNumber_length, if_pos (by simp; omega), Option.bind_some, if_neg (by omega), h]
    simp [List.lookup, hne]

/-- `insert` with the index -1, which a list of Python accepts, raises; and the list has then one module more: the first one twice. -/
theorem c105_insert_negative_wrong (isE : M → Bool) (c : M) (l : List M) (hl : ∀ m ∈ c :: l, isE m) (a : M) (ha : isE a) :
    (mlInsert isE (mlNew isE (c :: l)).1 (-1) a).2 = false ∧ MLHolds (mlInsert isE (mlNew isE (c :: l)).1 (-1) a).1 (c :: c :: l) := by
  have h0 : mlNew isE (c :: l) = (mlNumber 0 (c :: l), true) := mlExtend_number isE (c :: l) [] hl
  have hlen : (c :: l).length = l.length + 1 := rfl
  have hsplit : ∀ (n : ℕ) (i : ℤ) (st st' : MList M), mlShift n i st = (st', true) → mlShift (n + 1) i st = mlShift 1 (i - n) st' := by
    intro n
    induction n with
    | zero => intro i st st' h; simp [mlShift] at h; subst h; simp
    | succ n ih =>
      intro i st st' h
      rw [mlShift] at h
      rw [mlShift]
      cases hk : st.lookup (.idx (i - 1)) with
      | none => rw [hk] at h; simp at h
      | some m =>
        rw [hk] at h
        dsimp only at h ⊢
        rw [ih _ _ _ h]
        congr 1
        push_cast
        ring
  have hins : mlInsert isE (mlNumber 0 (c :: l)) 0 c = (mlNumber 0 (c :: c :: l), true) := by
    have := mlInsert_number isE (c :: l) 0 (by simp) c (hl c (by simp))
    simpa using this
  obtain ⟨l', h1, h2, h3⟩ := mlShift_number l.length l.length (c :: l ++ [(c :: l)[(c :: l).length - 1]]) (by simp) (le_refl _)
  have hsh : mlShift (l.length + 1) (c :: l).length (mlNumber 0 (c :: l)) = (mlNumber 0 l', true) := by
    rw [mlShift_step l.length (c :: l) (by simp)]
    exact h1
  have hl' : l' = c :: c :: l := by
    refine List.ext_getElem? fun k => ?_
    rw [h3]
    rcases k with - | k
    · simp
    · by_cases hk : k + 1 ≤ l.length
      · rw [if_pos (by omega), Nat.add_sub_cancel, List.getElem?_cons_succ, List.getElem?_append_left (by simp; omega)]
      · rw [if_neg (by omega), List.getElem?_cons_succ]
        rcases Nat.lt_or_ge k (l.length + 1) with hk2 | hk2
        · obtain rfl : k = l.length := by omega
          rw [List.getElem?_append_right (by simp)]
          simp
        · rw [List.getElem?_eq_none (by simp; omega), List.getElem?_eq_none (by simp; omega)]
  have hfin : mlShift (l.length + 1 + 1) (c :: l).length (mlNumber 0 (c :: l)) = (mlNumber 0 (c :: c :: l), false) := by
    rw [hsplit _ _ _ _ hsh, hl', mlShift, show (((c :: l).length : ℕ) : ℤ) - ((l.length + 1 : ℕ) : ℤ) - 1 = -1 by simp,
      mlNumber_lookup_neg 0 (-1) (by simp)]
  rw [h0]
  dsimp only
  unfold mlInsert
  rw [if_pos ha, mlNumber_length, show (((c :: l).length : ℤ) - -1).toNat = l.length + 1 + 1 by simp; omega, hfin]
  exact ⟨rfl, mlNumber_holds _⟩

/-! ## A case -/

/-- Modules are numbers, the equivariant ones are even: a program which uses all methods. -/
example : MLOp.AllMeant (fun m : ℕ => m % 2 == 0) [2, 4] [.append 6, .insert 1 8, .set (-1) 10, .del 0, .extend [12, 14]] ∧
    [.append 6, .insert 1 8, .set (-1) 10, .del 0, .extend [12, 14]].foldl MLOp.onList [2, 4] = [8, 4, 10, 12, 14] := by
  constructor
  · simp [MLOp.AllMeant, MLOp.Meant, MLOp.onList]
  · rfl

/-- `c105_export` and `c105_list` for this program. -/
example := c105_export (fun m : ℕ => m % 2 == 0) (fun m => some (m + 1)) [2, 4] (by simp) [.append 6, .insert 1 8, .set (-1) 10, .del 0, .extend [12, 14]]
  (by simp [MLOp.AllMeant, MLOp.Meant, MLOp.onList])

/-- `c105_only_equivariant_partial`: a program with calls which raise. -/
example := c105_only_equivariant_partial (fun m : ℕ => m % 2 == 0) [2, 3] [.append 5, .insert 7 8, .set 9 10, .insert (-1) 2, .del 0, .extend [12, 13]] (by simp)

/-- `c105_extend_stops`. -/
example := c105_extend_stops (fun m : ℕ => m % 2 == 0) [2] [4, 6] [8] 5 (by simp) rfl (by simp)

/-- `c105_rejected`, `c105_add_wrong`, `c105_insert_gap_wrong` and `c105_insert_negative_wrong`. -/
example := And.intro (c105_rejected (fun m : ℕ => m % 2 == 0) 5 rfl [(.idx 0, 2)] 0) <| And.intro (c105_add_wrong (fun m : ℕ => m % 2 == 0) 5 rfl (fun m => if m % 2 = 0 then some m else none) rfl [2, 4] "x") <|
  And.intro (c105_insert_gap_wrong (fun m : ℕ => m % 2 == 0) [2, 4] (by simp) 6 8 rfl rfl) (c105_insert_negative_wrong (fun m : ℕ => m % 2 == 0) 2 [4] (by simp) 6 rfl)

end E2
