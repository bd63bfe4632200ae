import Verif.Lemmas.Layout
import Verif.Props.TensorSpec
import Verif.Props.Layout

/-!
# Lemmas about selections of fields and the action on them
-/

namespace E2

open Mat

variable {R L V : Type}

theorem mapM_eq_gather (l : List V) (fs : List ℕ) : (fs.mapM fun i => l[i]?) = gather l fs := rfl

theorem gather_length {l : List V} {fs : List ℕ} {y : List V} (h : gather l fs = some y) : y.length = fs.length := by
  have := congrArg List.length ((gather_some_iff _ _ _).1 h)
  simpa using this.symm

theorem gather_isSome (l : List V) (fs : List ℕ) (h : ∀ i ∈ fs, i < l.length) : ∃ y, gather l fs = some y := by
  induction fs with
  | nil => exact ⟨[], rfl⟩
  | cons i fs ih =>
    obtain ⟨y, hy⟩ := ih fun j hj => h j (by simp [hj])
    exact ⟨l[i]'(h i (by simp)) :: y, by
      rw [gather_cons, hy, List.getElem?_eq_getElem (h i (by simp))]; rfl⟩

theorem gather_lt {l : List V} {fs : List ℕ} {y : List V} (h : gather l fs = some y) : ∀ i ∈ fs, i < l.length := by
  intro i hi
  have := (gather_some_iff _ _ _).1 h
  have hm : l[i]? ∈ fs.map (fun i => l[i]?) := List.mem_map_of_mem hi
  rw [this] at hm
  obtain ⟨a, _, ha⟩ := List.mem_map.1 hm
  exact (List.getElem?_eq_some_iff.1 ha.symm).1

theorem gather_map {A B : Type*} (f : A → B) (l : List A) (fs : List ℕ) :
    gather (l.map f) fs = (gather l fs).map (List.map f) := by
  induction fs with
  | nil => rfl
  | cons i fs ih =>
    rw [gather_cons, gather_cons, ih, List.getElem?_map]
    rcases l[i]? with _ | v
    · rfl
    · rcases gather l fs with _ | y <;> rfl

theorem gather_zipWith {A B C : Type*} (f : A → B → C) (l : List A) (m : List B) (fs : List ℕ) (h : l.length = m.length) :
    gather (List.zipWith f l m) fs
      = (gather l fs).bind fun u => (gather m fs).map fun v => List.zipWith f u v := by
  induction fs with
  | nil => rfl
  | cons i fs ih =>
    rw [gather_cons, gather_cons, gather_cons, ih, List.getElem?_zipWith]
    by_cases hi : i < l.length
    · rw [List.getElem?_eq_getElem hi, List.getElem?_eq_getElem (h ▸ hi)]
      rcases gather l fs with _ | u
      · rfl
      · rcases gather m fs with _ | v <;> rfl
    · rw [List.getElem?_eq_none (by omega), List.getElem?_eq_none (by omega)]
      rfl

theorem gather_range (l : List V) : gather l (List.range l.length) = some l := by
  rw [List.range_eq_range', gather_range' l 0 l.length (by omega)]; simp

namespace GTensor

theorem fields_length (sz : R → ℕ) (x : GTensor R V) : (x.fields sz).length = x.ty.length := by
  rw [fields, chunks_length, List.length_map]

theorem fields_map_length {sz : R → ℕ} {x : GTensor R V} (h : x.WF sz) : (x.fields sz).map List.length = x.ty.map sz :=
  chunks_map_length _ _ h.2

theorem fields_flatten {sz : R → ℕ} {x : GTensor R V} (h : x.WF sz) : (x.fields sz).flatten = x.data :=
  chunks_flatten _ _ h.2

/-- A tensor is determined by its type and its fields. -/
theorem ext_fields {sz : R → ℕ} {x y : GTensor R V} (hx : x.WF sz) (hy : y.WF sz) (ht : x.ty = y.ty)
    (hf : x.fields sz = y.fields sz) : x = y := by
  have := fields_flatten hx
  rw [hf, fields_flatten hy] at this
  cases x; cases y; simp_all

theorem select_eq_some {sz : R → ℕ} {x : GTensor R V} {fs : List ℕ} {y : GTensor R V} (hx : x.WF sz) :
    x.select sz fs = some y ↔ fs ≠ [] ∧ gather x.ty fs = some y.ty ∧ gather (x.fields sz) fs = some (y.fields sz) ∧
      y.WF sz := by
  unfold select
  simp only [mapM_eq_gather]
  constructor
  · intro h
    split_ifs at h with h0
    rw [Option.bind_eq_some_iff] at h
    obtain ⟨t, ht, h⟩ := h
    rw [Option.map_eq_some_iff] at h
    obtain ⟨f, hf, rfl⟩ := h
    have hl : f.map List.length = t.map sz := by
      have h1 := gather_map List.length (x.fields sz) fs
      rw [hf, fields_map_length hx] at h1
      have h2 := gather_map sz x.ty fs
      rw [ht, h1] at h2
      simpa using h2
    refine ⟨h0, ht, ?_, ?_, ?_⟩
    · rw [hf, fields, chunks_of_flatten' f hl]
    · intro h
      simp only at h
      subst h
      have := gather_length ht
      exact h0 (List.length_eq_zero_iff.1 this.symm)
    · simp only [List.length_flatten, hl, typeSize]
  · rintro ⟨h0, h1, h2, h3⟩
    rw [if_neg h0, h1, h2]
    simp only [Option.bind_some, Option.map_some, Option.some.injEq]
    rw [fields_flatten h3]

theorem select_exists {sz : R → ℕ} {x : GTensor R V} {fs : List ℕ} (_hx : x.WF sz) (h0 : fs ≠ [])
    (h : ∀ i ∈ fs, i < x.ty.length) : ∃ y, x.select sz fs = some y := by
  obtain ⟨t, ht⟩ := gather_isSome x.ty fs h
  obtain ⟨f, hf⟩ := gather_isSome (x.fields sz) fs (by rwa [fields_length])
  refine ⟨⟨t, f.flatten⟩, ?_⟩
  unfold select
  simp only [mapM_eq_gather, if_neg h0, ht, hf, Option.bind_some, Option.map_some]

theorem select_lt {sz : R → ℕ} {x : GTensor R V} {fs : List ℕ} {y : GTensor R V} (hx : x.WF sz)
    (h : x.select sz fs = some y) : ∀ i ∈ fs, i < x.ty.length :=
  gather_lt ((select_eq_some hx).1 h).2.1

/-- Selecting fields through the list of their channels. -/
theorem select_of_gather {sz : R → ℕ} {x : GTensor R V} {fs : List ℕ} (hx : x.WF sz) (h0 : fs ≠ [])
    (h : ∀ i ∈ fs, i < x.ty.length) :
    ∃ y, x.select sz fs = some y ∧ gather x.data (chanIdx (x.ty.map sz) fs) = some y.data ∧
      gather x.ty fs = some y.ty ∧ y.WF sz := by
  obtain ⟨y, hy⟩ := select_exists hx h0 h
  obtain ⟨_, h1, h2, h3⟩ := (select_eq_some hx).1 hy
  refine ⟨y, hy, ?_, h1, h3⟩
  have := (gather_chanIdx (x.ty.map sz) x.data hx.2 fs (by simpa using h)).1
  rw [this]
  change (gather (x.fields sz) fs).map _ = _
  rw [h2, Option.map_some, fields_flatten h3]

theorem select_range {sz : R → ℕ} {x : GTensor R V} (hx : x.WF sz) : x.select sz (List.range x.ty.length) = some x := by
  rw [select_eq_some hx]
  refine ⟨?_, gather_range _, ?_, hx⟩
  · intro h
    have := congrArg List.length h
    simp only [List.length_range, List.length_nil] at this
    exact hx.1 (List.length_eq_zero_iff.1 this)
  · conv_lhs => rw [← fields_length sz x]
    exact gather_range _

/-- A range of fields is a slice of the channels. -/
theorem select_slice {sz : R → ℕ} {x : GTensor R V} (hx : x.WF sz) {a b : ℕ} (hab : a < b) (hb : b ≤ x.ty.length) :
    x.select sz (List.range' a (b - a))
      = some ⟨pySlice x.ty a b, pySlice x.data (offset (x.ty.map sz) a) (offset (x.ty.map sz) b)⟩ := by
  rw [select_eq_some hx]
  have hne : List.range' a (b - a) ≠ [] := by
    intro h
    have := congrArg List.length h
    simp at this; omega
  have e : ∀ {W : Type} (l : List W), l.length = x.ty.length → gather l (List.range' a (b - a)) = some (pySlice l a b) := by
    intro W l hl
    rw [gather_range' _ _ _ (by omega), pySlice, List.drop_take]
  have hs : (pySlice x.ty a b).map sz = ((x.ty.map sz).take b).drop a := by
    rw [pySlice, List.map_drop, List.map_take]
  refine ⟨hne, e _ rfl, ?_, ?_, ?_⟩
  · rw [e _ (fields_length sz x), fields, fields]
    simp only [hs]
    rw [chunks_slice _ _ hx.2]
  · intro h
    have := congrArg List.length h
    simp [pySlice] at this; omega
  · change (pySlice x.data _ _).length = ((pySlice x.ty a b).map sz).sum
    rw [hs, pySlice, List.length_drop, List.length_take, hx.2]
    have h1 : offset (x.ty.map sz) b ≤ (x.ty.map sz).sum := by
      rw [← offset_length]; exact offset_mono _ (by simpa using hb)
    have h2 : offset (x.ty.map sz) a + (((x.ty.map sz).take b).drop a).sum = offset (x.ty.map sz) b := by
      have := List.sum_take_add_sum_drop ((x.ty.map sz).take b) a
      rw [List.take_take, Nat.min_eq_left (by omega)] at this
      exact this
    unfold typeSize at *
    omega

theorem select_append {sz : R → ℕ} {x : GTensor R V} {f g : List ℕ} {y z : GTensor R V} (hx : x.WF sz)
    (hy : x.select sz f = some y) (hz : x.select sz g = some z) :
    x.select sz (f ++ g) = some ⟨y.ty ++ z.ty, y.data ++ z.data⟩ := by
  obtain ⟨a1, a2, a3, a4⟩ := (select_eq_some hx).1 hy
  obtain ⟨b1, b2, b3, b4⟩ := (select_eq_some hx).1 hz
  rw [select_eq_some hx]
  refine ⟨by simp [a1], by rw [gather_append, a2, b2]; rfl, ?_, by simp [a4.1], ?_⟩
  · rw [gather_append, a3, b3]
    change some (chunks (y.ty.map sz) y.data ++ chunks (z.ty.map sz) z.data)
      = some (chunks ((y.ty ++ z.ty).map sz) (y.data ++ z.data))
    rw [List.map_append, chunks_append _ _ _ _ a4.2]
  · simp only [List.length_append, typeSize, List.map_append, List.sum_append, a4.2, b4.2]

section act
variable [AddCommMonoid V] [Module ℝ V]

@[simp] theorem act_ty (sz : R → ℕ) (ρ : R → Mat) (x : GTensor R V) : (x.act sz ρ).ty = x.ty := rfl

theorem act_wf {sz : R → ℕ} {x : GTensor R V} (ρ : R → Mat) (h : x.WF sz) : (x.act sz ρ).WF sz :=
  ⟨h.1, by simp [act, chAct_length]⟩

/-- The action on each field. -/
theorem act_fields (sz : R → ℕ) (ρ : R → Mat) (x : GTensor R V) :
    (x.act sz ρ).fields sz = List.zipWith (fun r f => chAct (sz r) (ρ r) f) x.ty (x.fields sz) := by
  have := chunks_chAct (x.ty.map fun r => (sz r, ρ r)) x.data
  rw [List.map_map] at this
  have e : (Prod.fst ∘ fun r : R => (sz r, ρ r)) = sz := rfl
  rw [e] at this
  rw [fields, act]
  simp only [typeSize]
  rw [this, List.zipWith_map_left]; rfl

/-- Selecting fields commutes with the action of the fiber group. -/
theorem select_act (sz : R → ℕ) (ρ : R → Mat) {x : GTensor R V} (hx : x.WF sz) (fs : List ℕ) :
    (x.act sz ρ).select sz fs = (x.select sz fs).map (GTensor.act sz ρ) := by
  by_cases h0 : fs = []
  · simp [select, h0]
  rcases h : x.select sz fs with _ | y
  · have : ¬ ∀ i ∈ fs, i < x.ty.length := by
      intro hlt
      obtain ⟨y, hy⟩ := select_exists hx h0 hlt
      rw [h] at hy; cases hy
    rw [Option.map_none]
    rcases h' : (x.act sz ρ).select sz fs with _ | y
    · rfl
    · exact absurd (select_lt (act_wf ρ hx) h') this
  · rw [Option.map_some, select_eq_some (act_wf ρ hx)]
    obtain ⟨_, h1, h2, h3⟩ := (select_eq_some hx).1 h
    refine ⟨h0, h1, ?_, act_wf ρ h3⟩
    rw [act_fields, act_fields, gather_zipWith _ _ _ _ (fields_length sz x).symm, h1, h2]; rfl

end act
end GTensor

theorem positionsFrom_get (p : ℕ) (s : List ℕ) {i : ℕ} (h : i ≤ s.length) :
    (positionsFrom p s)[i]? = some (p + offset s i) := by
  induction s generalizing p i with
  | nil =>
    have : i = 0 := by simpa using h
    subst this; simp [positionsFrom, offset]
  | cons a s ih =>
    cases i with
    | zero => simp [positionsFrom, offset]
    | succ i =>
      rw [positionsFrom, List.getElem?_cons_succ, ih _ (by simpa using h), offset_cons_succ]
      congr 1; omega

theorem positionsFrom_none (p : ℕ) (s : List ℕ) {i : ℕ} (h : s.length < i) : (positionsFrom p s)[i]? = none := by
  apply List.getElem?_eq_none
  have : ∀ p, (positionsFrom p s).length = s.length + 1 := by
    induction s with
    | nil => intro p; rfl
    | cons a s ih => intro p; simp [positionsFrom, ih (by simp at h; omega)]
  rw [this]; omega

theorem mkGT_eq_some {sz : R → ℕ} {d : List V} {t : List R} {y : GTensor R V} :
    mkGT sz d t = some y ↔ d.length = typeSize sz t ∧ y = ⟨t, d⟩ := by
  unfold mkGT
  split_ifs with h
  · simp [h, eq_comm]
  · simp [h]

end E2
