import Verif.Model.Layout
import Verif.Props.LayoutSpec
import Verif.Lemmas.Bdiag
import Mathlib.Tactic.Linarith
import Mathlib.Tactic.Ring
import Mathlib.Tactic.FieldSimp
import Mathlib.Data.Nat.Cast.Order.Field
import Mathlib.Data.List.Flatten

/-!
# Lemmas about layouts, gathering and scattering channels
-/

namespace E2

open Mat

variable {R L V W : Type*}

/-! ## Starts and ends -/

theorem fieldsStartFrom_length (p : ℕ) (s : List ℕ) : (fieldsStartFrom p s).length = s.length := by
  induction s generalizing p with
  | nil => rfl
  | cons a s ih => simp [fieldsStartFrom, ih]

theorem fieldsEndFrom_length (p : ℕ) (s : List ℕ) : (fieldsEndFrom p s).length = s.length := by
  induction s generalizing p with
  | nil => rfl
  | cons a s ih => simp [fieldsEndFrom, ih]

theorem fieldsStartFrom_get (p : ℕ) (s : List ℕ) {i : ℕ} (h : i < s.length) :
    (fieldsStartFrom p s)[i]? = some (p + offset s i) := by
  induction s generalizing p i with
  | nil => simp at h
  | cons a s ih =>
    cases i with
    | zero => simp [fieldsStartFrom, offset]
    | succ i =>
      rw [fieldsStartFrom, List.getElem?_cons_succ, ih _ (by simpa using h), offset_cons_succ]
      congr 1; omega

theorem fieldsEndFrom_get (p : ℕ) (s : List ℕ) {i : ℕ} (h : i < s.length) :
    (fieldsEndFrom p s)[i]? = some (p + offset s (i + 1)) := by
  induction s generalizing p i with
  | nil => simp at h
  | cons a s ih =>
    cases i with
    | zero => simp [fieldsEndFrom, offset]
    | succ i =>
      rw [fieldsEndFrom, List.getElem?_cons_succ, ih _ (by simpa using h), offset_cons_succ a s (i + 1)]
      congr 1; omega

theorem fieldsStartFrom_append (p : ℕ) (s t : List ℕ) :
    fieldsStartFrom p (s ++ t) = fieldsStartFrom p s ++ fieldsStartFrom (p + s.sum) t := by
  induction s generalizing p with
  | nil => simp [fieldsStartFrom]
  | cons a s ih => simp [fieldsStartFrom, ih, Nat.add_assoc]

theorem fieldsEndFrom_append (p : ℕ) (s t : List ℕ) :
    fieldsEndFrom p (s ++ t) = fieldsEndFrom p s ++ fieldsEndFrom (p + s.sum) t := by
  induction s generalizing p with
  | nil => simp [fieldsEndFrom]
  | cons a s ih => simp [fieldsEndFrom, ih, Nat.add_assoc]

theorem fieldsStartFrom_shift (p : ℕ) (s : List ℕ) :
    fieldsStartFrom p s = (fieldsStartFrom 0 s).map (p + ·) := by
  apply List.ext_getElem?
  intro i
  by_cases h : i < s.length
  · rw [List.getElem?_map, fieldsStartFrom_get _ _ h, fieldsStartFrom_get _ _ h]; simp
  · rw [List.getElem?_eq_none (by simpa [fieldsStartFrom_length] using h),
      List.getElem?_eq_none (by simpa [fieldsStartFrom_length] using h)]

theorem fieldsEndFrom_shift (p : ℕ) (s : List ℕ) :
    fieldsEndFrom p s = (fieldsEndFrom 0 s).map (p + ·) := by
  apply List.ext_getElem?
  intro i
  by_cases h : i < s.length
  · rw [List.getElem?_map, fieldsEndFrom_get _ _ h, fieldsEndFrom_get _ _ h]; simp
  · rw [List.getElem?_eq_none (by simpa [fieldsEndFrom_length] using h),
      List.getElem?_eq_none (by simpa [fieldsEndFrom_length] using h)]

/-! ## Chunks -/

theorem chunks_length (s : List ℕ) (x : List V) : (chunks s x).length = s.length := by
  induction s generalizing x with
  | nil => rfl
  | cons a s ih => simp [chunks, ih]

theorem chunks_flatten (s : List ℕ) (x : List V) (h : x.length = s.sum) : (chunks s x).flatten = x := by
  induction s generalizing x with
  | nil => simp [chunks, List.length_eq_zero_iff.1 (by simpa using h)]
  | cons a s ih =>
    rw [chunks, List.flatten_cons, ih _ (by simp only [List.length_drop, h, List.sum_cons]; omega),
      List.take_append_drop]

theorem chunks_of_flatten (fs : List (List V)) : chunks (fs.map List.length) fs.flatten = fs := by
  induction fs with
  | nil => rfl
  | cons f fs ih => simp [chunks, ih]

theorem chunks_of_flatten' {s : List ℕ} (fs : List (List V)) (h : fs.map List.length = s) :
    chunks s fs.flatten = fs := by subst h; exact chunks_of_flatten fs

theorem chunks_get (s : List ℕ) (x : List V) {i : ℕ} (h : i < s.length) :
    (chunks s x)[i]? = some ((x.drop (offset s i)).take s[i]) := by
  induction s generalizing x i with
  | nil => simp at h
  | cons a s ih =>
    cases i with
    | zero => simp [chunks, offset]
    | succ i =>
      rw [chunks, List.getElem?_cons_succ, ih _ (by simpa using h), offset_cons_succ, List.drop_drop]
      simp

theorem chunks_map_length (s : List ℕ) (x : List V) (h : x.length = s.sum) :
    (chunks s x).map List.length = s := by
  induction s generalizing x with
  | nil => rfl
  | cons a s ih =>
    rw [chunks, List.map_cons, ih _ (by simp only [List.length_drop, h, List.sum_cons]; omega)]
    congr 1
    simp only [List.length_take, h, List.sum_cons]; omega

theorem chunks_append (s t : List ℕ) (x y : List V) (h : x.length = s.sum) :
    chunks (s ++ t) (x ++ y) = chunks s x ++ chunks t y := by
  induction s generalizing x with
  | nil => simp [chunks, List.length_eq_zero_iff.1 (by simpa using h)]
  | cons a s ih =>
    have h' : a ≤ x.length := by rw [h, List.sum_cons]; omega
    rw [List.cons_append, chunks, chunks, List.drop_append_of_le_length h', List.take_append_of_le_length h',
      ih _ (by simp only [List.length_drop, h, List.sum_cons]; omega), List.cons_append]

/-- Two lists of channels with the same fields are equal. -/
theorem eq_of_chunks {s : List ℕ} {x y : List V} (hx : x.length = s.sum) (hy : y.length = s.sum)
    (h : chunks s x = chunks s y) : x = y := by
  rw [← chunks_flatten s x hx, ← chunks_flatten s y hy, h]

/-- The slice from the start of the field `a` to the start of the field `b` holds the fields `a .. b-1`. -/
theorem chunks_slice (s : List ℕ) (x : List V) (hx : x.length = s.sum) (a b : ℕ) :
    chunks ((s.take b).drop a) (pySlice x (offset s a) (offset s b)) = pySlice (chunks s x) a b := by
  have key : ∀ b, chunks (s.take b) (x.take (offset s b)) = (chunks s x).take b := by
    intro b
    induction s generalizing x b with
    | nil => simp [chunks]
    | cons c s ih =>
      cases b with
      | zero => simp [chunks]
      | succ b =>
        rw [List.take_succ_cons, offset_cons_succ, chunks, chunks, List.take_succ_cons, List.take_take,
          Nat.min_eq_left (by omega), List.drop_take, Nat.add_sub_cancel_left,
          ih _ (by simp only [List.length_drop, hx, List.sum_cons]; omega)]
  have key2 : ∀ (t : List ℕ) (y : List V) (a : ℕ), chunks (t.drop a) (y.drop (offset t a)) = (chunks t y).drop a := by
    intro t
    induction t with
    | nil => intro y a; simp [chunks]
    | cons c t ih =>
      intro y a
      cases a with
      | zero => simp [offset]
      | succ a =>
        rw [List.drop_succ_cons, offset_cons_succ, chunks, List.drop_succ_cons, ← ih, List.drop_drop]
  unfold pySlice
  by_cases hab : a ≤ b
  · rw [← key b, ← key2]
    congr 2
    simp only [offset, List.take_take, Nat.min_eq_left hab]
  · have h1 : (s.take b).drop a = [] := List.drop_eq_nil_of_le (by simp; omega)
    have h2 : ((chunks s x).take b).drop a = [] := List.drop_eq_nil_of_le (by simp; omega)
    rw [h1, h2]; rfl

/-! ## Gathering -/

theorem gather_nil (x : List V) : gather x [] = some [] := rfl

theorem gather_cons (x : List V) (i : ℕ) (l : List ℕ) :
    gather x (i :: l) = (x[i]?).bind fun v => (gather x l).map (v :: ·) := by
  simp only [gather, List.mapM_cons, Option.bind_eq_bind, Option.pure_def]
  rcases x[i]? with _ | v
  · rfl
  · rcases List.mapM (fun i => x[i]?) l with _ | r <;> rfl

theorem gather_append (x : List V) (a b : List ℕ) :
    gather x (a ++ b) = (gather x a).bind fun u => (gather x b).map (u ++ ·) := by
  induction a with
  | nil =>
    rw [gather_nil, List.nil_append]
    rcases gather x b with _ | r <;> simp
  | cons i a ih =>
    rw [List.cons_append, gather_cons, gather_cons, ih]
    rcases x[i]? with _ | v
    · rfl
    · rcases gather x a with _ | u
      · rfl
      · rcases gather x b with _ | w <;> simp

theorem gather_range' (x : List V) (a n : ℕ) (h : a + n ≤ x.length) :
    gather x (List.range' a n) = some ((x.drop a).take n) := by
  induction n generalizing a with
  | zero => simp [gather_nil]
  | succ n ih =>
    rw [List.range'_succ, gather_cons, ih (a + 1) (by omega), List.getElem?_eq_getElem (by omega : a < x.length)]
    conv_rhs => rw [List.drop_eq_getElem_cons (by omega : a < x.length), List.take_succ_cons]
    rfl

theorem gather_some_iff (x : List V) (idx : List ℕ) (y : List V) :
    gather x idx = some y ↔ idx.map (fun i => x[i]?) = y.map some := by
  induction idx generalizing y with
  | nil => rw [gather_nil]; cases y <;> simp
  | cons i idx ih =>
    rw [gather_cons]
    rcases hi : x[i]? with _ | v
    · cases y <;> simp [hi]
    · cases y with
      | nil => simp
      | cons w y =>
        have := ih y
        rcases hg : gather x idx with _ | u
        · rw [hg] at this
          simp only [List.map_cons, List.cons.injEq, ← this, hi]
          simp
        · rw [hg] at this
          simp only [List.map_cons, List.cons.injEq, ← this, hi]
          simp

/-- The channel indices of a list of fields. -/
def chanIdx (s : List ℕ) (fs : List ℕ) : List ℕ := fs.flatMap fun c => List.range' (offset s c) (s[c]?.getD 0)

/-- Gathering the channels of some fields gathers these fields. -/
theorem gather_chanIdx (s : List ℕ) (x : List V) (hx : x.length = s.sum) (fs : List ℕ) (hf : ∀ c ∈ fs, c < s.length) :
    gather x (chanIdx s fs) = (gather (chunks s x) fs).map List.flatten ∧ (gather (chunks s x) fs).isSome := by
  induction fs with
  | nil => simp [chanIdx, gather_nil]
  | cons c fs ih =>
    have hc : c < s.length := hf c (by simp)
    obtain ⟨ih1, ih2⟩ := ih fun d hd => hf d (by simp [hd])
    rw [Option.isSome_iff_exists] at ih2
    obtain ⟨r, hr⟩ := ih2
    rw [gather_cons, chunks_get s x hc, hr]
    refine ⟨?_, by simp⟩
    rw [chanIdx, List.flatMap_cons, gather_append]
    change (gather x (List.range' (offset s c) (s[c]?.getD 0))).bind (fun u => (gather x (chanIdx s fs)).map (u ++ ·)) = _
    rw [ih1, hr, List.getElem?_eq_getElem hc, Option.getD_some, gather_range' _ _ _ (by rw [hx]; exact offset_add_le s hc)]
    simp

/-- The fields of the gathered channels are the gathered fields. -/
theorem chunks_gather (s : List ℕ) (x : List V) (hx : x.length = s.sum) (fs : List ℕ) (hf : ∀ c ∈ fs, c < s.length) :
    ∃ y, gather x (chanIdx s fs) = some y ∧
      gather (chunks s x) fs = some (chunks (fs.map fun c => s[c]?.getD 0) y) ∧
      y.length = (fs.map fun c => s[c]?.getD 0).sum := by
  obtain ⟨h1, h2⟩ := gather_chanIdx s x hx fs hf
  obtain ⟨r, hr⟩ := Option.isSome_iff_exists.1 h2
  have hlen : r.map List.length = fs.map fun c => s[c]?.getD 0 := by
    have := (gather_some_iff _ _ _).1 hr
    have hl : fs.length = r.length := by simpa using congrArg List.length this
    apply List.ext_getElem (by simp [hl])
    intro i hi hi'
    have hi1 : i < r.length := by simpa using hi
    have hi2 : i < fs.length := by omega
    have := congrArg (·[i]?) this
    simp only [List.getElem?_map, List.getElem?_eq_getElem hi1, List.getElem?_eq_getElem hi2, Option.map_some,
      Option.some.injEq] at this
    have hc := hf fs[i] (List.getElem_mem _)
    rw [chunks_get s x hc, Option.some.injEq] at this
    rw [List.getElem_map, List.getElem_map, ← this, List.getElem?_eq_getElem hc, Option.getD_some]
    have := offset_add_le s hc
    simp only [List.length_take, List.length_drop, hx]
    omega
  refine ⟨r.flatten, by rw [h1, hr]; rfl, ?_, ?_⟩
  · rw [← hlen, chunks_of_flatten, hr]
  · rw [List.length_flatten, hlen]

/-! ## Writing -/

theorem writeIdx_append (x : List V) (a b : List ℕ) (u v : List V) (h : a.length = u.length) :
    writeIdx x (a ++ b) (u ++ v) = writeIdx (writeIdx x a u) b v := by
  rw [writeIdx, List.zip_append h, List.foldl_append]; rfl

theorem writeIdx_cons (x : List V) (i : ℕ) (idx : List ℕ) (v : V) (vals : List V) :
    writeIdx x (i :: idx) (v :: vals) = writeIdx (x.set i v) idx vals := rfl

theorem writeIdx_length (x : List V) (idx : List ℕ) (vals : List V) : (writeIdx x idx vals).length = x.length := by
  induction idx generalizing x vals with
  | nil => rfl
  | cons i idx ih =>
    cases vals with
    | nil => rfl
    | cons v vals => rw [writeIdx_cons, ih, List.length_set]

theorem writeIdx_range' (x : List V) (a : ℕ) (vals : List V) (h : a + vals.length ≤ x.length) :
    writeIdx x (List.range' a vals.length) vals = writeSlice x a (a + vals.length) vals := by
  induction vals generalizing x a with
  | nil => simp [writeIdx, writeSlice]
  | cons v vals ih =>
    rw [List.length_cons] at h
    rw [List.length_cons, List.range'_succ, writeIdx_cons, ih _ _ (by simp; omega)]
    unfold writeSlice
    have e : (x.set a v).take (a + 1) = x.take a ++ [v] := by
      rw [List.take_succ_eq_append_getElem (by simp; omega)]
      simp [List.take_set_of_le (Nat.le_refl a)]
    rw [e, List.drop_set_of_lt (by omega)]
    simp [Nat.add_assoc, Nat.add_comm 1]

theorem writeSlice_length (x : List V) (a b : ℕ) (vals : List V) (h : a + vals.length = b) (hb : b ≤ x.length) :
    (writeSlice x a b vals).length = x.length := by
  simp only [writeSlice, List.length_append, List.length_take, List.length_drop]; omega

/-- Overwriting the channels of a field replaces this field. -/
theorem chunks_writeSlice (s : List ℕ) (x : List V) (hx : x.length = s.sum) {c : ℕ} (hc : c < s.length)
    (v : List V) (hv : v.length = s[c]) :
    chunks s (writeSlice x (offset s c) (offset s c + v.length) v) = (chunks s x).set c v := by
  induction s generalizing x c with
  | nil => simp at hc
  | cons a s ih =>
    rw [List.sum_cons] at hx
    cases c with
    | zero =>
      simp only [List.getElem_cons_zero] at hv
      simp [writeSlice, offset, chunks, hv]
    | succ c =>
      simp only [List.getElem_cons_succ] at hv
      rw [offset_cons_succ, chunks, chunks, List.set_cons_succ]
      have hcl : c < s.length := by simpa using hc
      have hle := offset_add_le s hcl
      have e1 : (writeSlice x (a + offset s c) (a + offset s c + v.length) v).take a = x.take a := by
        rw [writeSlice, List.append_assoc, List.take_append_of_le_length (by simp; omega), List.take_take,
          Nat.min_eq_left (by omega)]
      have e2 : (writeSlice x (a + offset s c) (a + offset s c + v.length) v).drop a
          = writeSlice (x.drop a) (offset s c) (offset s c + v.length) v := by
        rw [writeSlice, writeSlice, List.append_assoc, List.drop_append_of_le_length (by simp; omega), List.drop_take,
          Nat.add_sub_cancel_left, List.drop_drop, ← Nat.add_assoc, List.append_assoc]
      rw [e1, e2, ih _ (by simp; omega) hcl hv]

/-- Scattering values to the channels of some fields scatters the fields. -/
theorem chunks_writeIdx (s : List ℕ) (x : List V) (hx : x.length = s.sum) (fs : List ℕ) (hf : ∀ c ∈ fs, c < s.length)
    (vals : List (List V)) (hv : vals.map List.length = fs.map fun c => s[c]?.getD 0) :
    chunks s (writeIdx x (chanIdx s fs) vals.flatten) = writeIdx (chunks s x) fs vals := by
  induction fs generalizing x vals with
  | nil =>
    have : vals = [] := by simpa using hv
    subst this; rfl
  | cons c fs ih =>
    cases vals with
    | nil => simp at hv
    | cons v vals =>
      have hc : c < s.length := hf c (by simp)
      simp only [List.map_cons, List.cons.injEq, List.getElem?_eq_getElem hc, Option.getD_some] at hv
      rw [chanIdx, List.flatMap_cons, List.flatten_cons, List.getElem?_eq_getElem hc, Option.getD_some,
        writeIdx_append _ _ _ _ _ (by simp [hv.1]), ← hv.1, writeIdx_range' _ _ _ (by
          rw [hx, hv.1]; exact offset_add_le s hc)]
      have hle : offset s c + v.length ≤ x.length := by rw [hx, hv.1]; exact offset_add_le s hc
      change chunks s (writeIdx _ (chanIdx s fs) _) = _
      rw [ih _ (by rw [writeSlice_length _ _ _ _ rfl hle, hx]) (fun d hd => hf d (by simp [hd])) _ hv.2,
        chunks_writeSlice s x hx hc v hv.1, writeIdx_cons]

/-- Entries after writing at distinct indices. -/
theorem writeIdx_get (x : List V) (idx : List ℕ) (vals : List V) (hn : idx.Nodup) (hl : idx.length = vals.length)
    (hi : ∀ i ∈ idx, i < x.length) (j : ℕ) :
    (writeIdx x idx vals)[j]? = if j ∈ idx then vals[idx.idxOf j]? else x[j]? := by
  induction idx generalizing x vals with
  | nil => simp [writeIdx]
  | cons i idx ih =>
    cases vals with
    | nil => simp at hl
    | cons v vals =>
      obtain ⟨hni, hn⟩ := List.nodup_cons.1 hn
      rw [writeIdx_cons, ih (x.set i v) vals hn (by simpa using hl) (by
        intro k hk; rw [List.length_set]; exact hi k (by simp [hk]))]
      by_cases hj : j = i
      · subst hj
        have := hi j (by simp)
        simp [hni, this]
      · have hj' : ¬ i = j := fun h => hj h.symm
        by_cases hm : j ∈ idx
        · simp [hm, List.idxOf_cons_ne _ hj']
        · simp [hm, hj, hj']

/-! ## Dictionaries of fields -/

theorem labelFieldsFrom_eq [DecidableEq L] (c : ℕ) (ls : List L) (d : L → List ℕ) (k : L) :
    labelFieldsFrom c ls d k = d k ++ (List.range' c ls.length).filter fun i => ls[i - c]? = some k := by
  induction ls generalizing c d with
  | nil => simp [labelFieldsFrom]
  | cons l ls ih =>
    rw [labelFieldsFrom, ih, List.length_cons, List.range'_succ, List.filter_cons]
    have e : ((List.range' (c + 1) ls.length).filter fun i => decide (ls[i - (c + 1)]? = some k))
        = (List.range' (c + 1) ls.length).filter fun i => decide ((l :: ls)[i - c]? = some k) := by
      apply List.filter_congr
      intro i hi
      rw [List.mem_range'_1] at hi
      have : i - c = (i - (c + 1)) + 1 := by omega
      rw [this, List.getElem?_cons_succ]
    rw [e]
    by_cases hk : k = l
    · simp [dictAppend, hk]
    · have hk' : ¬ l = k := fun h => hk h.symm
      simp [dictAppend, hk, hk']

/-- The positions holding the label `l`, in increasing order. -/
def posOf [DecidableEq L] (labels : List L) (l : L) : List ℕ :=
  (List.range labels.length).filter fun i => labels[i]? = some l

theorem labelFields_eq [DecidableEq L] (labels : List L) (l : L) : labelFields labels l = posOf labels l := by
  rw [labelFields, labelFieldsFrom_eq, posOf, List.range_eq_range']; simp

theorem mem_posOf [DecidableEq L] {labels : List L} {l : L} {i : ℕ} : i ∈ posOf labels l ↔ labels[i]? = some l := by
  simp only [posOf, List.mem_filter, List.mem_range, decide_eq_true_eq, and_iff_right_iff_imp]
  intro h
  exact (List.getElem?_eq_some_iff.1 h).1

theorem posOf_lt [DecidableEq L] {labels : List L} {l : L} {i : ℕ} (h : i ∈ posOf labels l) : i < labels.length :=
  (List.getElem?_eq_some_iff.1 (mem_posOf.1 h)).1

theorem posOf_pairwise [DecidableEq L] (labels : List L) (l : L) : (posOf labels l).Pairwise (· < ·) :=
  List.Pairwise.filter _ List.pairwise_lt_range

theorem posOf_nodup [DecidableEq L] (labels : List L) (l : L) : (posOf labels l).Nodup :=
  List.Nodup.filter _ List.nodup_range

theorem labelIdxFrom_eq [DecidableEq L] (c p : ℕ) (ls : List (L × ℕ)) (d : (L → List ℕ) × (L → List ℕ)) (k : L) :
    (labelIdxFrom c p ls d).1 k = d.1 k ++ ((List.range' c ls.length).filter
        fun i => (ls.map Prod.fst)[i - c]? = some k).flatMap (fun i =>
          List.range' (p + offset (ls.map Prod.snd) (i - c)) ((ls.map Prod.snd)[i - c]?.getD 0)) ∧
    (labelIdxFrom c p ls d).2 k = d.2 k ++ (List.range' c ls.length).filter
        fun i => (ls.map Prod.fst)[i - c]? = some k := by
  induction ls generalizing c p d with
  | nil => simp [labelIdxFrom]
  | cons a ls ih =>
    obtain ⟨l, s⟩ := a
    obtain ⟨ix, fs⟩ := d
    rw [labelIdxFrom]
    obtain ⟨h1, h2⟩ := ih (c + 1) (p + s) (dictAppend ix l (List.range' p s), dictAppend fs l [c])
    have e : ((List.range' (c + 1) ls.length).filter fun i => decide ((ls.map Prod.fst)[i - (c + 1)]? = some k))
        = (List.range' (c + 1) ls.length).filter fun i => decide ((((l, s) :: ls).map Prod.fst)[i - c]? = some k) := by
      apply List.filter_congr
      intro i hi
      rw [List.mem_range'_1] at hi
      have : i - c = (i - (c + 1)) + 1 := by omega
      rw [this, List.map_cons, List.getElem?_cons_succ]
    have e2 : ∀ m : List ℕ, (∀ i ∈ m, c + 1 ≤ i) →
        m.flatMap (fun i => List.range' (p + s + offset (ls.map Prod.snd) (i - (c + 1)))
            ((ls.map Prod.snd)[i - (c + 1)]?.getD 0))
        = m.flatMap (fun i => List.range' (p + offset (((l, s) :: ls).map Prod.snd) (i - c))
            ((((l, s) :: ls).map Prod.snd)[i - c]?.getD 0)) := by
      intro m hm
      rw [List.flatMap_def, List.flatMap_def]
      congr 1
      apply List.map_congr_left
      intro i hi
      have : i - c = (i - (c + 1)) + 1 := by have := hm i hi; omega
      rw [this, List.map_cons, List.getElem?_cons_succ, offset_cons_succ, Nat.add_assoc]
    rw [h1, h2, e2 _ (by
      intro i hi
      have := (List.mem_filter.1 hi).1
      rw [List.mem_range'_1] at this; omega), e, List.length_cons, List.range'_succ, List.filter_cons]
    by_cases hk : k = l
    · subst hk
      simp [dictAppend, offset]
    · have hk' : ¬ l = k := fun h => hk h.symm
      simp [dictAppend, hk, hk']

theorem labelIdx_eq [DecidableEq L] (labels : List L) (sizes : List ℕ) (h : labels.length = sizes.length) (k : L) :
    (labelIdxFrom 0 0 (labels.zip sizes) (fun _ => [], fun _ => [])).1 k = chanIdx sizes (posOf labels k) ∧
    (labelIdxFrom 0 0 (labels.zip sizes) (fun _ => [], fun _ => [])).2 k = posOf labels k := by
  obtain ⟨h1, h2⟩ := labelIdxFrom_eq 0 0 (labels.zip sizes) (fun _ => [], fun _ => []) k
  rw [List.map_fst_zip (by omega), List.map_snd_zip (by omega)] at h1
  rw [List.map_fst_zip (by omega)] at h2
  have hl : (labels.zip sizes).length = labels.length := by simp [h]
  rw [h1, h2, hl, ← List.range_eq_range']
  simp [chanIdx, posOf]

/-- The channel indices of fields in increasing order are increasing. -/
theorem chanIdx_pairwise (s : List ℕ) (fs : List ℕ) (hf : ∀ c ∈ fs, c < s.length) (h : fs.Pairwise (· < ·)) :
    (chanIdx s fs).Pairwise (· < ·) := by
  induction fs with
  | nil => simp [chanIdx]
  | cons c fs ih =>
    obtain ⟨h1, h2⟩ := List.pairwise_cons.1 h
    have hc : c < s.length := hf c (by simp)
    rw [chanIdx, List.flatMap_cons, List.pairwise_append]
    refine ⟨List.pairwise_lt_range', ih (fun d hd => hf d (by simp [hd])) h2, ?_⟩
    intro a ha b hb
    rw [List.mem_range'_1, List.getElem?_eq_getElem hc, Option.getD_some] at ha
    obtain ⟨d, hd, hb⟩ := List.mem_flatMap.1 hb
    rw [List.mem_range'_1] at hb
    have := offset_mono s (show c + 1 ≤ d from h1 d hd)
    rw [offset_succ s hc] at this
    omega

theorem chanIdx_lt (s : List ℕ) (fs : List ℕ) (hf : ∀ c ∈ fs, c < s.length) : ∀ i ∈ chanIdx s fs, i < s.sum := by
  intro i hi
  obtain ⟨c, hc, hi⟩ := List.mem_flatMap.1 hi
  have hc' := hf c hc
  rw [List.mem_range'_1, List.getElem?_eq_getElem hc', Option.getD_some] at hi
  have := offset_add_le s hc'
  omega

/-! ## The contiguity test -/

theorem consecutiveLoop_eq (l : List ℕ) (m M : ℕ) (s : ℤ) (hm : m ≤ M) (h : (M :: l).Pairwise (· < ·)) :
    consecutiveLoop (l.map Int.ofNat) ((m : ℤ), (M : ℤ), s)
      = some ((m : ℤ), (((M :: l).getLast (by simp) : ℕ) : ℤ), s + ((l.sum : ℕ) : ℤ)) := by
  induction l generalizing M s with
  | nil => simp [consecutiveLoop]
  | cons a l ih =>
    obtain ⟨h1, h2⟩ := List.pairwise_cons.1 h
    have ha : M < a := h1 a (by simp)
    rw [List.map_cons, consecutiveLoop, if_pos (by simp)]
    have e1 : min (m : ℤ) (Int.ofNat a) = (m : ℤ) := by simp only [Int.ofNat_eq_natCast]; omega
    have e2 : max (M : ℤ) (Int.ofNat a) = (a : ℤ) := by simp only [Int.ofNat_eq_natCast]; omega
    rw [e1, e2, ih a _ (by omega) h2]
    simp [List.getLast_cons, Int.add_assoc]

theorem tri_ge (l : List ℕ) (M : ℕ) (h : (M :: l).Pairwise (· < ·)) :
    let e : ℤ := (((M :: l).getLast (by simp) : ℕ) : ℤ)
    0 ≤ e * e + e - M * M - M - 2 * ((l.sum : ℕ) : ℤ) ∧
      (e * e + e - M * M - M - 2 * ((l.sum : ℕ) : ℤ) = 0 ↔ l = List.range' (M + 1) l.length) := by
  induction l generalizing M with
  | nil => simp
  | cons a l ih =>
    obtain ⟨h1, h2⟩ := List.pairwise_cons.1 h
    have ha : (M : ℤ) + 1 ≤ a := by exact_mod_cast h1 a (by simp)
    obtain ⟨i1, i2⟩ := ih a h2
    have hM : (0 : ℤ) ≤ M := by positivity
    rw [List.getLast_cons (by simp)]
    dsimp only at i1 i2 ⊢
    generalize (((a :: l).getLast (by simp) : ℕ) : ℤ) = e at *
    have hs : (((a :: l).sum : ℕ) : ℤ) = a + ((l.sum : ℕ) : ℤ) := by simp
    rw [hs]
    have hstep : (0 : ℤ) ≤ (a - 1) * a - M * M - M := by nlinarith
    refine ⟨by nlinarith, ?_⟩
    rw [List.length_cons, List.range'_succ, List.cons.injEq]
    constructor
    · intro he
      have z1 : e * e + e - a * a - a - 2 * ((l.sum : ℕ) : ℤ) = 0 := by nlinarith
      have z2 : ((a : ℤ) - 1) * a - M * M - M = 0 := by nlinarith
      have z3 : ((a : ℤ) - 1 - M) * (a + M) = 0 := by linarith
      have z4 : (a : ℤ) = M + 1 := by
        rcases mul_eq_zero.1 z3 with z | z <;> linarith
      have z5 : a = M + 1 := by exact_mod_cast z4
      refine ⟨z5, ?_⟩
      rw [← z5]; exact i2.1 z1
    · rintro ⟨z5, hl⟩
      rw [← z5] at hl
      have z1 := i2.2 hl
      have z4 : (a : ℤ) = M + 1 := by exact_mod_cast z5
      have : e * e + e = a * a + a + 2 * ((l.sum : ℕ) : ℤ) := by linarith
      rw [this, z4]; ring

/-- On increasing lists the test is true exactly for ranges. -/
theorem checkConsecutive_iff (l : List ℕ) (hl : l ≠ []) (h : l.Pairwise (· < ·)) :
    ∃ b, checkConsecutive (l.map Int.ofNat) = some b ∧ (b = true ↔ ∃ a, l = List.range' a l.length) := by
  obtain ⟨a, l, rfl⟩ := List.exists_cons_of_ne_nil hl
  refine ⟨decide (((((a :: l).getLast (by simp) : ℕ) : ℤ) * ((((a :: l).getLast (by simp) : ℕ) : ℤ) + 1) : ℤ) / (2 : ℚ)
    - ((((a : ℤ) - 1) * a : ℤ) : ℚ) / 2 = ((0 + (a : ℤ) + ((l.sum : ℕ) : ℤ) : ℤ) : ℚ)), ?_, ?_⟩
  · simp only [List.map_cons, checkConsecutive, consecutiveLoop]
    rw [if_pos (by simp)]
    have := consecutiveLoop_eq l a a (0 + (a : ℤ)) le_rfl h
    simp only [Int.ofNat_eq_natCast, min_self, max_self] at this ⊢
    rw [this]
    rfl
  · obtain ⟨_, t⟩ := tri_ge l a h
    generalize (((a :: l).getLast (by simp) : ℕ) : ℤ) = e at *
    rw [decide_eq_true_eq]
    constructor
    · intro hq
      refine ⟨a, ?_⟩
      rw [List.length_cons, List.range'_succ, List.cons.injEq]
      refine ⟨rfl, t.1 ?_⟩
      have : (((e * e + e - a * a - a - 2 * ((l.sum : ℕ) : ℤ) : ℤ)) : ℚ) = 0 := by
        push_cast at hq ⊢
        linarith
      exact_mod_cast this
    · rintro ⟨b, hb⟩
      rw [List.length_cons, List.range'_succ, List.cons.injEq] at hb
      obtain ⟨rfl, hb⟩ := hb
      have := t.2 hb
      have : (((e * e + e - a * a - a - 2 * ((l.sum : ℕ) : ℤ) : ℤ)) : ℚ) = 0 := by rw [this]; simp
      push_cast at this ⊢
      linarith

theorem min?_range' (a n : ℕ) : (List.range' a (n + 1)).min? = some a := by
  rw [List.min?_eq_some_iff]
  constructor
  · simp
  · intro b hb; rw [List.mem_range'_1] at hb; exact hb.1

theorem max?_range' (a n : ℕ) : (List.range' a (n + 1)).max? = some (a + n) := by
  rw [List.max?_eq_some_iff]
  constructor
  · rw [List.mem_range'_1]; omega
  · intro b hb; rw [List.mem_range'_1] at hb; omega

/-! ## The action on the fields -/

section act
variable [AddCommMonoid V] [Module ℝ V]

theorem chAct_length (n : ℕ) (M : Mat) (x : List V) : (chAct n M x).length = n := by simp [chAct]

theorem chAct_get (n : ℕ) (M : Mat) (x : List V) {c : ℕ} (h : c < n) :
    (chAct n M x)[c]? = some (∑ j ∈ Finset.range n, M c j • (x[j]?.getD 0)) := by
  simp [chAct, h]

theorem chAct_take (n : ℕ) (M : Mat) (x : List V) : chAct n M (x.take n) = chAct n M x := by
  apply List.map_congr_left
  intro c _
  apply Finset.sum_congr rfl
  intro j hj
  rw [List.getElem?_take_of_lt (Finset.mem_range.1 hj)]

/-- A block diagonal array acts on each field by its block. -/
theorem chunks_chAct (bl : List (ℕ × Mat)) (x : List V) :
    chunks (bl.map Prod.fst) (chAct (bl.map Prod.fst).sum (bdiag bl) x)
      = List.zipWith (fun b f => chAct b.1 b.2 f) bl (chunks (bl.map Prod.fst) x) := by
  induction bl generalizing x with
  | nil => rfl
  | cons b bl ih =>
    obtain ⟨s, A⟩ := b
    rw [List.map_cons, List.sum_cons, chunks, chunks, List.zipWith_cons_cons, ← ih]
    have e1 : (chAct (s + (bl.map Prod.fst).sum) (bdiag ((s, A) :: bl)) x).take s = chAct s A (x.take s) := by
      rw [chAct_take]
      apply List.ext_getElem (by simp [chAct_length])
      intro i hi hi'
      rw [chAct_length] at hi'
      simp only [chAct, List.getElem_take, List.getElem_map, List.getElem_range, Finset.sum_range_add]
      have z : ∑ j ∈ Finset.range (bl.map Prod.fst).sum,
          bdiag ((s, A) :: bl) i (s + j) • (x[s + j]?.getD (0 : V)) = 0 := by
        apply Finset.sum_eq_zero
        intro j _
        simp only [bdiag]
        rw [if_pos hi', if_neg (by omega), zero_smul]
      rw [z, add_zero]
      apply Finset.sum_congr rfl
      intro j hj
      simp only [bdiag]
      rw [if_pos hi', if_pos (Finset.mem_range.1 hj)]
    have e2 : (chAct (s + (bl.map Prod.fst).sum) (bdiag ((s, A) :: bl)) x).drop s
        = chAct (bl.map Prod.fst).sum (bdiag bl) (x.drop s) := by
      apply List.ext_getElem (by simp [chAct_length])
      intro i hi hi'
      rw [chAct_length] at hi'
      simp only [chAct, List.getElem_drop, List.getElem_map, List.getElem_range, Finset.sum_range_add]
      have z : ∑ j ∈ Finset.range s, bdiag ((s, A) :: bl) (s + i) j • (x[j]?.getD (0 : V)) = 0 := by
        apply Finset.sum_eq_zero
        intro j hj
        simp only [bdiag]
        rw [if_neg (by omega), if_pos (Finset.mem_range.1 hj), zero_smul]
      rw [z, zero_add]
      apply Finset.sum_congr rfl
      intro j _
      simp only [bdiag]
      rw [if_neg (by omega), if_neg (by omega)]
      simp
    rw [e1, e2]

end act

end E2
