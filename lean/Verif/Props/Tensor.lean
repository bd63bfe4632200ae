import Verif.Lemmas.Tensor
import Mathlib.Tactic.IntervalCases

/-!
# C29 and C30: splitting, concatenating and indexing geometric tensors
-/

namespace E2

open Mat

variable {R L V : Type}

/-! ## C29 -/

/-- The pairs of consecutive cuts. -/
def cutPairs (last : ℕ) : List ℤ → List (ℕ × ℕ)
  | [] => []
  | b :: bs => (last, b.toNat) :: cutPairs b.toNat bs

theorem mkType_eq_some {t u : List R} : mkType t = some u ↔ t ≠ [] ∧ u = t := by
  unfold mkType
  split_ifs with h
  · simp [h]
  · simp [h, eq_comm]

theorem select_none_of_not {sz : R → ℕ} {x : GTensor R V} {fs : List ℕ} (hx : x.WF sz) {i : ℕ} (hi : i ∈ fs)
    (h : x.ty.length ≤ i) : x.select sz fs = none := by
  rcases hs : x.select sz fs with _ | y
  · rfl
  · have := GTensor.select_lt hx hs i hi; omega

theorem splitLoop_eq (sz : R → ℕ) {x : GTensor R V} (hx : x.WF sz) (last : ℕ) (bs : List ℤ) :
    splitLoop sz x last bs
      = (cutPairs last bs).mapM fun p => x.select sz (List.range' p.1 (p.2 - p.1)) := by
  induction bs generalizing last with
  | nil => rfl
  | cons b bs ih =>
    rw [splitLoop, cutPairs, List.mapM_cons, ← ih]
    dsimp only
    split_ifs with hb
    · have hb' : last < b.toNat := by omega
      by_cases hn : b.toNat ≤ x.ty.length
      · have hs := GTensor.select_slice hx hb' hn
        obtain ⟨_, _, _, hw⟩ := (GTensor.select_eq_some hx).1 hs
        rw [hs, (mkType_eq_some (t := pySlice x.ty last b.toNat)).2 ⟨hw.1, rfl⟩,
          positionsFrom_get 0 _ (by simp; omega), positionsFrom_get 0 _ (by simp; omega), Nat.zero_add, Nat.zero_add]
        simp only [Option.bind_eq_bind, Option.bind_some]
        rw [(mkGT_eq_some (sz := sz)).2 ⟨hw.2, rfl⟩]
        rfl
      · rw [select_none_of_not hx (i := b.toNat - 1) (by rw [List.mem_range'_1]; omega) (by omega),
          positionsFrom_none 0 _ (i := b.toNat) (by simp; omega)]
        rcases mkType (pySlice x.ty last b.toNat) with _ | t
        · rfl
        · rcases (positionsFrom 0 (x.ty.map sz))[last]? with _ | p <;> rfl
    · have : b.toNat - last = 0 := by omega
      rw [this]
      simp [GTensor.select]

theorem mapM_append_some {A B : Type*} (f : A → Option B) (l m : List A) (u : List B) :
    (l ++ m).mapM f = some u ↔ ∃ a b, l.mapM f = some a ∧ m.mapM f = some b ∧ u = a ++ b := by
  rw [mapM_some_iff]
  simp only [mapM_some_iff, List.map_append]
  constructor
  · intro h
    obtain ⟨a, b, rfl, h1, h2⟩ := List.map_eq_append_iff.1 h.symm
    exact ⟨a, b, h1.symm, h2.symm, rfl⟩
  · rintro ⟨a, b, h1, h2, rfl⟩
    rw [h1, h2, List.map_append]

theorem mapM_map_comm {A B C : Type*} (f : A → Option B) (f' : A → Option C) (g : B → C)
    (h : ∀ a, f' a = (f a).map g) (l : List A) : l.mapM f' = (l.mapM f).map (List.map g) := by
  induction l with
  | nil => rfl
  | cons a l ih =>
    rw [List.mapM_cons, List.mapM_cons, ih, h]
    cases f a with
    | none => rfl
    | some b =>
      cases l.mapM f with
      | none => rfl
      | some c => rfl

/-- Concatenating the pieces between the cuts gives the fields between the first and the last cut. -/
theorem select_cuts {sz : R → ℕ} {x : GTensor R V} (hx : x.WF sz) (last : ℕ) (b : ℤ) (bs : List ℤ) (ys : List (GTensor R V))
    (h : ((cutPairs last (b :: bs)).mapM fun p => x.select sz (List.range' p.1 (p.2 - p.1))) = some ys) :
    last < ((b :: bs).getLast (by simp)).toNat ∧
    x.select sz (List.range' last (((b :: bs).getLast (by simp)).toNat - last))
      = some ⟨ys.flatMap GTensor.ty, ys.flatMap GTensor.data⟩ := by
  induction bs generalizing last b ys with
  | nil =>
    rw [mapM_some_iff] at h
    simp only [cutPairs, List.map_cons, List.map_nil] at h
    obtain ⟨y, rfl, hy⟩ : ∃ y, ys = [y] ∧ x.select sz (List.range' last (b.toNat - last)) = some y := by
      cases ys with
      | nil => simp at h
      | cons y ys =>
        simp only [List.map_cons, List.cons.injEq] at h
        have : ys = [] := by simpa using h.2.symm
        exact ⟨y, by rw [this], h.1⟩
    have hne := ((GTensor.select_eq_some hx).1 hy).1
    refine ⟨?_, by simpa using hy⟩
    by_contra hlt
    apply hne
    rw [show b.toNat - last = 0 by simp only [List.getLast_singleton] at hlt; omega]; rfl
  | cons c bs ih =>
    rw [cutPairs, show ((last, b.toNat) :: cutPairs b.toNat (c :: bs)) = [(last, b.toNat)] ++ cutPairs b.toNat (c :: bs) from rfl,
      mapM_append_some] at h
    obtain ⟨u, v, hu, hv, rfl⟩ := h
    obtain ⟨y, rfl, hy⟩ : ∃ y, u = [y] ∧ x.select sz (List.range' last (b.toNat - last)) = some y := by
      rw [mapM_some_iff] at hu
      cases u with
      | nil => simp at hu
      | cons y ys =>
        simp only [List.map_cons, List.map_nil, List.cons.injEq] at hu
        have : ys = [] := by simpa using hu.2.symm
        exact ⟨y, by rw [this], hu.1⟩
    obtain ⟨h1, h2⟩ := ih b.toNat c v hv
    rw [List.getLast_cons (by simp)]
    have hne := ((GTensor.select_eq_some hx).1 hy).1
    have hlt : last < b.toNat := by
      by_contra hlt
      apply hne
      rw [show b.toNat - last = 0 by omega]; rfl
    refine ⟨by omega, ?_⟩
    have := GTensor.select_append hx hy h2
    rw [show b.toNat = last + (b.toNat - last) by omega, show last + (b.toNat - last) - last = b.toNat - last by omega,
      List.range'_append_1] at this
    rw [show ((c :: bs).getLast (by simp)).toNat - last = b.toNat - last + (((c :: bs).getLast (by simp)).toNat - (last + (b.toNat - last))) by omega,
      this]
    simp

/-- The pieces: piece number `k` holds the fields from the `k`-th cut to the next, where the cuts are
`0`, the breakpoints, and the number of fields. -/
theorem c29_pieces_partial (sz : R → ℕ) (x : GTensor R V) (hx : x.WF sz) (breaks : List ℤ) (ys : List (GTensor R V))
    (h : (splitGT sz x (some breaks)).1 = some ys) :
    ys.length = breaks.length + 1 ∧
    ∀ k (hk : k < ys.length), ∃ a b : ℤ, (0 :: breaks)[k]? = some a ∧ (breaks ++ [(x.ty.length : ℤ)])[k]? = some b ∧
      x.select sz (List.range' a.toNat (b.toNat - a.toNat)) = some ys[k] := by
  simp only [splitGT] at h
  rw [splitLoop_eq sz hx, mapM_some_iff] at h
  have hlen : ∀ (l : List ℤ) (a : ℕ), (cutPairs a l).length = l.length := by
    intro l
    induction l with
    | nil => intro a; rfl
    | cons b l ih => intro a; simp [cutPairs, ih]
  have hget : ∀ (l : List ℤ) (a : ℕ) (k : ℕ) (hk : k < l.length), ∃ a' b' : ℤ, ((a : ℤ) :: l)[k]? = some a' ∧ l[k]? = some b' ∧
      (cutPairs a l)[k]? = some (a'.toNat, b'.toNat) := by
    intro l
    induction l with
    | nil => intro a k hk; simp at hk
    | cons b l ih =>
      intro a k hk
      cases k with
      | zero => exact ⟨a, b, rfl, rfl, by simp [cutPairs]⟩
      | succ k =>
        obtain ⟨a', b', h1, h2, h3⟩ := ih b.toNat k (by simpa using hk)
        cases k with
        | zero =>
          simp only [List.getElem?_cons_zero, Option.some.injEq] at h1
          subst h1
          refine ⟨b, b', rfl, by simpa using h2, ?_⟩
          rw [cutPairs, List.getElem?_cons_succ, h3]
          simp only [Int.toNat_natCast]
        | succ k =>
          refine ⟨a', b', ?_, by simpa using h2, ?_⟩
          · simpa using h1
          · rw [cutPairs, List.getElem?_cons_succ, h3]
  have hl : ys.length = breaks.length + 1 := by
    have := congrArg List.length h
    simpa [hlen] using this.symm
  refine ⟨hl, fun k hk => ?_⟩
  obtain ⟨a, b, h1, h2, h3⟩ := hget (breaks ++ [(x.ty.length : ℤ)]) 0 k (by simp; omega)
  refine ⟨a, b, ?_, h2, ?_⟩
  · rw [← h1, ← List.cons_append, List.getElem?_append_left (by simp; omega)]; rfl
  · have := congrArg (·[k]?) h
    simp only [List.getElem?_map, h3, List.getElem?_eq_getElem hk, Option.map_some, Option.some.injEq] at this
    exact this

theorem directsumGT_eq (sz : R → ℕ) (ys : List (GTensor R V)) (hne : ys ≠ []) (hw : ∀ y ∈ ys, y.WF sz) :
    directsumGT sz ys = some ⟨ys.flatMap GTensor.ty, ys.flatMap GTensor.data⟩ ∧
    (⟨ys.flatMap GTensor.ty, ys.flatMap GTensor.data⟩ : GTensor R V).WF sz := by
  have h1 : ys.flatMap GTensor.ty ≠ [] := by
    obtain ⟨y, ys, rfl⟩ := List.exists_cons_of_ne_nil hne
    simp [(hw y (by simp)).1]
  have h2 : (ys.flatMap GTensor.data).length = typeSize sz (ys.flatMap GTensor.ty) := by
    clear hne h1
    induction ys with
    | nil => rfl
    | cons y ys ih =>
      have := ih fun z hz => hw z (by simp [hz])
      have h3 := (hw y (by simp)).2
      simp only [List.flatMap_cons, List.length_append, typeSize, List.map_append, List.sum_append] at this h3 ⊢
      omega
  refine ⟨?_, h1, h2⟩
  rw [directsumGT, if_neg hne, mkType_eq_some.2 ⟨h1, rfl⟩, Option.bind_some, mkGT_eq_some.2 ⟨h2, rfl⟩]

/-- **C29**: splitting and concatenating gives back the tensor and its type. -/
theorem c29_split_directsum_partial (sz : R → ℕ) (x : GTensor R V) (hx : x.WF sz) (breaks : Option (List ℤ))
    (ys : List (GTensor R V)) (h : (splitGT sz x breaks).1 = some ys) : directsumGT sz ys = some x := by
  have hmain : ∀ bs : List ℤ, splitLoop sz x 0 (bs ++ [(x.ty.length : ℤ)]) = some ys → directsumGT sz ys = some x := by
    intro bs h
    rw [splitLoop_eq sz hx] at h
    obtain ⟨b, l, hbl⟩ : ∃ b l, bs ++ [(x.ty.length : ℤ)] = b :: l :=
      List.exists_cons_of_ne_nil (by simp)
    have hlast : (b :: l).getLast (by simp) = (x.ty.length : ℤ) := by
      have : (bs ++ [(x.ty.length : ℤ)]).getLast (by simp) = (x.ty.length : ℤ) := by simp
      simpa [hbl] using this
    rw [hbl] at h
    obtain ⟨_, h2⟩ := select_cuts hx 0 b l ys h
    rw [hlast, Int.toNat_natCast, Nat.sub_zero, ← List.range_eq_range', GTensor.select_range hx, Option.some.injEq] at h2
    have hw : ∀ y ∈ ys, y.WF sz := by
      intro y hy
      rw [mapM_some_iff] at h
      have : some y ∈ ys.map some := List.mem_map_of_mem hy
      rw [← h] at this
      obtain ⟨p, _, hp⟩ := List.mem_map.1 this
      exact ((GTensor.select_eq_some hx).1 hp).2.2.2
    have hne : ys ≠ [] := by
      rintro rfl
      rw [mapM_some_iff] at h
      simp [cutPairs] at h
    rw [(directsumGT_eq sz ys hne hw).1, ← h2]
  cases breaks with
  | none => exact hmain _ h
  | some b => exact hmain _ h

/-- **C29**: splitting succeeds exactly for increasing lists of breakpoints strictly between `0` and the
number of fields. -/
theorem c29_split_succeeds_partial (sz : R → ℕ) (x : GTensor R V) (hx : x.WF sz) (breaks : List ℤ) :
    (splitGT sz x (some breaks)).1.isSome ↔ ((0 : ℤ) :: breaks ++ [(x.ty.length : ℤ)]).IsChain (· < ·) := by
  simp only [splitGT]
  rw [splitLoop_eq sz hx]
  have key : ∀ (bs : List ℤ) (a : ℕ), (∀ b ∈ bs, b ≤ x.ty.length → True) →
      ((((cutPairs a (bs ++ [(x.ty.length : ℤ)])).mapM fun p => x.select sz (List.range' p.1 (p.2 - p.1))).isSome
        ↔ ((a : ℤ) :: bs ++ [(x.ty.length : ℤ)]).IsChain (· < ·))) := by
    intro bs
    induction bs with
    | nil =>
      intro a _
      simp only [List.nil_append, cutPairs, List.mapM_cons, List.mapM_nil, List.cons_append, List.isChain_cons_cons,
        List.isChain_singleton, and_true, Int.toNat_natCast]
      by_cases ha : a < x.ty.length
      · rw [GTensor.select_slice hx ha le_rfl]
        simpa using ha
      · rw [show x.ty.length - a = 0 by omega]
        simp [GTensor.select]; omega
    | cons b bs ih =>
      intro a _
      rw [List.cons_append, cutPairs, List.mapM_cons, List.cons_append, List.cons_append, List.isChain_cons_cons]
      have ih' := ih b.toNat (by simp)
      by_cases hab : (a : ℤ) < b
      · have hbt : ((b.toNat : ℕ) : ℤ) = b := by omega
        rw [hbt, List.cons_append] at ih'
        by_cases hbn : b.toNat ≤ x.ty.length
        · rw [GTensor.select_slice hx (by omega) hbn]
          simp only [hab, true_and, ← ih']
          rcases (cutPairs b.toNat (bs ++ [(x.ty.length : ℤ)])).mapM _ with _ | r <;> simp
        · rw [select_none_of_not hx (i := b.toNat - 1) (by rw [List.mem_range'_1]; omega) (by omega)]
          simp only [Option.bind_eq_bind, Option.bind_none, Option.isSome_none, Bool.false_eq_true, hab, true_and, false_iff]
          intro hch
          have := List.isChain_iff_pairwise.1 hch
          rw [List.pairwise_cons] at this
          have := this.1 (x.ty.length : ℤ) (by simp)
          omega
      · rw [show b.toNat - a = 0 by omega]
        simp [GTensor.select, hab]
  simpa using key breaks 0 (by simp)

/-- **C29**: without breakpoints every field is a piece of its own. -/
theorem c29_split_all_partial (sz : R → ℕ) (x : GTensor R V) (hx : x.WF sz) :
    ∃ ys, (splitGT sz x none).1 = some ys ∧ ys.length = x.ty.length ∧
      ∀ k (h : k < ys.length), x.select sz [k] = some ys[k] := by
  have hpos : 0 < x.ty.length := List.length_pos_iff.2 hx.1
  have e : (splitGT sz x none).1 = (splitGT sz x (some ((List.range' 1 (x.ty.length - 1)).map Int.ofNat))).1 := rfl
  have hcuts : (0 : ℤ) :: (List.range' 1 (x.ty.length - 1)).map Int.ofNat = (List.range x.ty.length).map Int.ofNat := by
    obtain ⟨n, hn⟩ : ∃ n, x.ty.length = n + 1 := ⟨x.ty.length - 1, by omega⟩
    rw [hn, List.range_eq_range', List.range'_succ]; rfl
  have hcuts2 : (List.range' 1 (x.ty.length - 1)).map Int.ofNat ++ [(x.ty.length : ℤ)] = (List.range' 1 x.ty.length).map Int.ofNat := by
    obtain ⟨n, hn⟩ : ∃ n, x.ty.length = n + 1 := ⟨x.ty.length - 1, by omega⟩
    rw [hn, List.range'_concat]
    simp [Nat.add_comm]
  have hs : (splitGT sz x none).1.isSome := by
    rw [e, c29_split_succeeds_partial sz x hx]
    have : (0 : ℤ) :: (List.range' 1 (x.ty.length - 1)).map Int.ofNat ++ [(x.ty.length : ℤ)]
        = (List.range (x.ty.length + 1)).map Int.ofNat := by
      rw [List.cons_append, hcuts2, List.range_eq_range', List.range'_succ]; rfl
    rw [this, List.isChain_iff_pairwise, List.pairwise_map]
    exact List.pairwise_lt_range.imp (by intro a b h; simpa using h)
  obtain ⟨ys, hys⟩ := Option.isSome_iff_exists.1 hs
  obtain ⟨hl, hk⟩ := c29_pieces_partial sz x hx _ ys (e ▸ hys)
  simp only [List.length_map, List.length_range'] at hl
  refine ⟨ys, hys, by omega, fun k h => ?_⟩
  obtain ⟨a, b, ha, hb, hsel⟩ := hk k h
  rw [hcuts, List.getElem?_map, List.getElem?_range (by omega)] at ha
  rw [hcuts2, List.getElem?_map, List.getElem?_eq_getElem (by simp; omega)] at hb
  simp only [Option.map_some, Option.some.injEq, List.getElem_range', Int.ofNat_eq_natCast] at ha hb
  rw [← ha, ← hb, Int.toNat_natCast, Int.toNat_natCast, show 1 + 1 * k - k = 1 by omega] at hsel
  exact hsel

section act
variable [AddCommMonoid V] [Module ℝ V]

/-- **C29**: splitting commutes with transforming the fibers. -/
theorem c29_split_act_partial (sz : R → ℕ) (ρ : R → Mat) (x : GTensor R V) (hx : x.WF sz) (breaks : Option (List ℤ)) :
    (splitGT sz (x.act sz ρ) breaks).1 = (splitGT sz x breaks).1.map (List.map (GTensor.act sz ρ)) := by
  have key : ∀ l : List (ℕ × ℕ), (l.mapM fun p => (x.act sz ρ).select sz (List.range' p.1 (p.2 - p.1)))
      = (l.mapM fun p => x.select sz (List.range' p.1 (p.2 - p.1))).map (List.map (GTensor.act sz ρ)) := by
    intro l
    exact mapM_map_comm _ _ _ (fun p => GTensor.select_act sz ρ hx _) l
  cases breaks with
  | none =>
    simp only [splitGT]
    rw [splitLoop_eq sz hx, splitLoop_eq sz (GTensor.act_wf ρ hx), key]; rfl
  | some b =>
    simp only [splitGT]
    rw [splitLoop_eq sz hx, splitLoop_eq sz (GTensor.act_wf ρ hx), key]; rfl

/-- **C29**: concatenating commutes with transforming the fibers. -/
theorem c29_directsum_act_partial (sz : R → ℕ) (ρ : R → Mat) (ys : List (GTensor R V)) (hne : ys ≠ [])
    (hw : ∀ y ∈ ys, y.WF sz) :
    directsumGT sz (ys.map (GTensor.act sz ρ)) = (directsumGT sz ys).map (GTensor.act sz ρ) := by
  obtain ⟨h1, h2⟩ := directsumGT_eq sz ys hne hw
  obtain ⟨h3, h4⟩ := directsumGT_eq sz (ys.map (GTensor.act sz ρ)) (by simpa using hne) (by
    intro y hy
    obtain ⟨z, hz, rfl⟩ := List.mem_map.1 hy
    exact GTensor.act_wf ρ (hw z hz))
  rw [h1, h3, Option.map_some, Option.some.injEq]
  have hty : (ys.map (GTensor.act sz ρ)).flatMap GTensor.ty = ys.flatMap GTensor.ty := by
    rw [List.flatMap_map]; rfl
  refine GTensor.ext_fields h4 (GTensor.act_wf ρ h2) hty ?_
  rw [GTensor.act_fields]
  have hf : ∀ zs : List (GTensor R V), (∀ z ∈ zs, z.WF sz) →
      (⟨zs.flatMap GTensor.ty, zs.flatMap GTensor.data⟩ : GTensor R V).fields sz = zs.flatMap (GTensor.fields sz) := by
    intro zs hz
    induction zs with
    | nil => rfl
    | cons z zs ih =>
      have := ih fun w hw => hz w (by simp [hw])
      simp only [GTensor.fields, List.flatMap_cons, List.map_append] at this ⊢
      rw [chunks_append _ _ _ _ (hz z (by simp)).2, this]
  rw [hf _ hw, hf _ (by
    intro y hy
    obtain ⟨z, hz, rfl⟩ := List.mem_map.1 hy
    exact GTensor.act_wf ρ (hw z hz)), List.flatMap_map]
  clear h1 h2 h3 h4 hty hf hne
  induction ys with
  | nil => rfl
  | cons y ys ih =>
    rw [List.flatMap_cons, ih fun z hz => hw z (by simp [hz]), GTensor.act_fields]
    simp only [List.flatMap_cons]
    rw [List.zipWith_append (GTensor.fields_length sz y).symm]

end act

/-- **C29 is false as far as the argument is concerned**: the list of breakpoints is changed by every call, and
a second call with the same list fails. -/
theorem c29_argument_changed (sz : R → ℕ) (x : GTensor R V) (hx : x.WF sz) (breaks : List ℤ) :
    (splitGT sz x (some breaks)).2 ≠ some breaks ∧
    (splitGT sz x (splitGT sz x (some breaks)).2).1 = none := by
  constructor
  · simp [splitGT]
  · have := c29_split_succeeds_partial sz x hx (breaks ++ [(x.ty.length : ℤ)])
    rw [← Option.not_isSome_iff_eq_none]
    intro hs
    have := this.1 hs
    rw [List.isChain_iff_pairwise, ← List.cons_append, List.append_assoc, List.pairwise_append] at this
    have := this.2.1
    simp at this

/-- Fields of sizes 2, 1, 3 split before field 1: pieces of 2 and 4 channels. -/
example : (⟨[2, 1, 3], [10, 11, 12, 13, 14, 15]⟩ : GTensor ℕ ℕ).WF id ∧
    (splitGT id (⟨[2, 1, 3], [10, 11, 12, 13, 14, 15]⟩ : GTensor ℕ ℕ) (some [1])).1
      = some [⟨[2], [10, 11]⟩, ⟨[1, 3], [12, 13, 14, 15]⟩] := by
  refine ⟨⟨by simp, rfl⟩, by rfl⟩

/-! ## C30 -/

/-- The fields that Python indexing selects from a list of `n` representations: an integer gives the one
field it names (`IndexError` outside `-n .. n-1`). -/
def pySel (n : ℕ) : PyIndex → Option (List ℕ)
  | .int i => if -(n : ℤ) ≤ i ∧ i < n then some [(if i < 0 then n + i else i).toNat] else none
  | .slice s => s.select n
  | .ellipsis => some (List.range n)

/-- What a slice with step 1 selects. -/
theorem select_step_one (s : PySlice) (hs : s.step = none ∨ s.step = some 1) (n : ℕ) :
    s.select n = some (
      let clip (i : ℤ) : ℤ := if i < 0 then (if i + n < 0 then 0 else i + n) else if (n : ℤ) < i then n else i
      List.range' (clip (s.start.getD 0)).toNat (clip (s.stop.getD n) - clip (s.start.getD 0)).toNat) := by
  have h1 : s.step.getD 1 = 1 := by rcases hs with h | h <;> rw [h] <;> rfl
  unfold PySlice.select
  simp only [h1, one_ne_zero, if_false, if_true, zero_lt_one, Option.some.injEq]
  generalize hA : (if s.start.getD 0 < 0 then (if s.start.getD 0 + n < 0 then 0 else s.start.getD 0 + n)
    else if (n : ℤ) < s.start.getD 0 then (n : ℤ) else s.start.getD 0) = A
  generalize (if s.stop.getD (n : ℤ) < 0 then (if s.stop.getD (n : ℤ) + n < 0 then 0 else s.stop.getD (n : ℤ) + n)
    else if (n : ℤ) < s.stop.getD (n : ℤ) then (n : ℤ) else s.stop.getD (n : ℤ)) = B
  have hA0 : 0 ≤ A := by rw [← hA]; split_ifs <;> omega
  rw [show B - A + 1 - 1 = B - A by ring, Int.ediv_one]
  apply List.ext_getElem (by simp)
  intro k h1 h2
  simp only [List.getElem_map, List.getElem_range, List.getElem_range', mul_one, one_mul]
  omega

/-- The condition under which `__getitem__` does not raise for a slice with step 1. -/
def inRange (n : ℕ) (s : PySlice) : Prop :=
  -(n : ℤ) ≤ s.start.getD 0 ∧ s.start.getD 0 < n ∧ -(n : ℤ) < s.stop.getD n ∧ s.stop.getD n ≤ n

theorem pyGet_starts (sz : R → ℕ) (t : List R) (i : ℤ) :
    pyGet (fieldsStart sz t) i = if -(t.length : ℤ) ≤ i ∧ i < t.length then
      some (offset (t.map sz) (if i < 0 then t.length + i else i).toNat) else none := by
  have hl : (fieldsStart sz t).length = t.length := by rw [fieldsStart, fieldsStartFrom_length, List.length_map]
  unfold pyGet
  rw [hl]
  split_ifs with h1 h2 h3 h4 <;> try omega
  · rw [fieldsStart, fieldsStartFrom_get 0 _ (by simp; omega), Nat.zero_add]
  · exact List.getElem?_eq_none (by omega)
  · rw [fieldsStart, fieldsStartFrom_get 0 _ (by simp; omega), Nat.zero_add]
  · rfl

theorem pyGet_ends (sz : R → ℕ) (t : List R) (i : ℤ) :
    pyGet (fieldsEnd sz t) i = if -(t.length : ℤ) ≤ i ∧ i < t.length then
      some (offset (t.map sz) ((if i < 0 then t.length + i else i).toNat + 1)) else none := by
  have hl : (fieldsEnd sz t).length = t.length := by rw [fieldsEnd, fieldsEndFrom_length, List.length_map]
  unfold pyGet
  rw [hl]
  split_ifs with h1 h2 h3 h4 <;> try omega
  · rw [fieldsEnd, fieldsEndFrom_get 0 _ (by simp; omega), Nat.zero_add]
  · exact List.getElem?_eq_none (by omega)
  · rw [fieldsEnd, fieldsEndFrom_get 0 _ (by simp; omega), Nat.zero_add]
  · rfl

theorem getFields_one (sz : R → ℕ) {x : GTensor R V} (hx : x.WF sz) (s : PySlice) (hs : s.step = none ∨ s.step = some 1) :
    (inRange x.ty.length s → getFields sz x s = (s.select x.ty.length).bind (x.select sz)) ∧
    (¬ inRange x.ty.length s → getFields sz x s = none) := by
  have hpos : 0 < x.ty.length := List.length_pos_iff.2 hx.1
  unfold getFields
  rw [if_pos hs]
  dsimp only
  · constructor
    intro hin
    simp only [inRange] at hin
    rw [pyGet_starts, pyGet_ends, select_step_one s hs]
    simp only [Option.bind_eq_bind, Option.bind_some]
    generalize s.start.getD 0 = A at *
    generalize s.stop.getD (x.ty.length : ℤ) = B at *
    · obtain ⟨h1, h2, h3, h4⟩ := hin
      rw [if_pos ⟨h1, h2⟩, if_pos (⟨by omega, by omega⟩ : -(x.ty.length : ℤ) ≤ B - 1 ∧ B - 1 < x.ty.length)]
      simp only [Option.bind_some]
      have hA : (if A < 0 then (if A + x.ty.length < 0 then 0 else A + x.ty.length)
          else if (x.ty.length : ℤ) < A then (x.ty.length : ℤ) else A) = (if A < 0 then (x.ty.length : ℤ) + A else A) := by
        split_ifs <;> omega
      have hB : (if B < 0 then (if B + x.ty.length < 0 then 0 else B + x.ty.length)
          else if (x.ty.length : ℤ) < B then (x.ty.length : ℤ) else B) = (if B < 0 then (x.ty.length : ℤ) + B else B) := by
        split_ifs <;> omega
      rw [hA, hB]
      have hA0 : 0 ≤ (if A < 0 then (x.ty.length : ℤ) + A else A) := by split_ifs <;> omega
      obtain ⟨a, ha⟩ := Int.eq_ofNat_of_zero_le hA0
      have hB0 : 0 ≤ (if B < 0 then (x.ty.length : ℤ) + B else B) := by split_ifs <;> omega
      obtain ⟨b, hb⟩ := Int.eq_ofNat_of_zero_le hB0
      rw [ha, hb, Int.toNat_natCast, show ((b : ℤ) - (a : ℤ)).toNat = b - a by omega]
      have hbn : b ≤ x.ty.length := by split_ifs at hb <;> omega
      by_cases hab : a < b
      · have hend : (if B - 1 < 0 then (x.ty.length : ℤ) + (B - 1) else B - 1).toNat + 1 = b := by
          split_ifs at hb ⊢ <;> omega
        rw [hend, GTensor.select_slice hx hab hbn]
        obtain ⟨_, g1, _, hw⟩ := (GTensor.select_eq_some hx).1 (GTensor.select_slice hx hab hbn)
        have hty : sliceType x.ty A B (List.range' a (b - a)) = some (pySlice x.ty a b) := by
          unfold sliceType
          split_ifs with hfull
          · have ea : a = 0 := by split_ifs at ha <;> omega
            have eb : b = x.ty.length := by split_ifs at hb <;> omega
            rw [ea, eb]; simp [pySlice]
          · rw [mapM_eq_gather, g1, Option.bind_some]
            exact mkType_eq_some.2 ⟨hw.1, rfl⟩
        rw [hty, Option.bind_some]
        exact mkGT_eq_some.2 ⟨hw.2, rfl⟩
      · rw [show b - a = 0 by omega]
        have hnf : ¬ (A = 0 ∧ B = (x.ty.length : ℤ)) := by
          rintro ⟨h5, h6⟩
          split_ifs at ha hb <;> omega
        rw [show sliceType x.ty A B (List.range' a 0) = none by rw [sliceType, if_neg hnf]; rfl]
        rfl
    · intro hin
      simp only [inRange] at hin
      rw [pyGet_starts, pyGet_ends]
      simp only [Option.bind_eq_bind]
      generalize s.start.getD 0 = A at *
      generalize s.stop.getD (x.ty.length : ℤ) = B at *
      by_cases h1 : -(x.ty.length : ℤ) ≤ A ∧ A < x.ty.length
      · rw [if_neg (by omega : ¬ (-(x.ty.length : ℤ) ≤ B - 1 ∧ B - 1 < x.ty.length))]
        rw [if_pos h1]; rfl
      · rw [if_neg h1]; rfl

theorem getFields_step (sz : R → ℕ) {x : GTensor R V} (hx : x.WF sz) (s : PySlice) (hs : ¬ (s.step = none ∨ s.step = some 1)) :
    getFields sz x s = (s.select x.ty.length).bind (x.select sz) := by
  unfold getFields
  · rw [if_neg hs]
    simp only [Option.bind_eq_bind]
    rcases s.select x.ty.length with _ | sel
    · rfl
    · simp only [Option.bind_some, mapM_eq_gather]
      by_cases h0 : sel = []
      · subst h0
        simp [gather_nil, mkType, GTensor.select]
      · by_cases hlt : ∀ i ∈ sel, i < x.ty.length
        · obtain ⟨y, h1, h2, h3, h4⟩ := GTensor.select_of_gather hx h0 hlt
          have hr : (sel.mapM fun i => ((fieldsStart sz x.ty)[i]?).bind fun a =>
              ((fieldsEnd sz x.ty)[i]?).bind fun b => some (List.range' a (b - a)))
              = some (sel.map fun c => List.range' (offset (x.ty.map sz) c) ((x.ty.map sz)[c]?.getD 0)) := by
            rw [mapM_some_iff, List.map_map]
            apply List.map_congr_left
            intro c hc
            have hc' : c < (x.ty.map sz).length := by simpa using hlt c hc
            rw [fieldsStart, fieldsEnd, fieldsStartFrom_get 0 _ hc', fieldsEndFrom_get 0 _ hc']
            simp only [Option.bind_some, Function.comp, Option.some.injEq, Nat.zero_add]
            rw [offset_succ _ hc', List.getElem?_eq_getElem hc', Option.getD_some, Nat.add_sub_cancel_left]
          rw [h3, hr, h1]
          simp only [Option.bind_some]
          rw [mkType_eq_some.2 ⟨h4.1, rfl⟩, Option.bind_some, ← List.flatMap_def]
          change (gather x.data (chanIdx (x.ty.map sz) sel)).bind _ = _
          rw [h2, Option.bind_some]
          exact mkGT_eq_some.2 ⟨h4.2, rfl⟩
        · push Not at hlt
          obtain ⟨i, hi, hn⟩ := hlt
          rw [select_none_of_not hx hi hn]
          rcases hg : gather x.ty sel with _ | r
          · rfl
          · have := gather_lt hg i hi; omega

open Classical in
/-- Indexing the fields is the selection of the fields given by Python's slices, or raises. -/
theorem getFields_eq (sz : R → ℕ) {x : GTensor R V} (hx : x.WF sz) (s : PySlice) :
    getFields sz x s = if (s.step = none ∨ s.step = some 1) → inRange x.ty.length s then
      (s.select x.ty.length).bind (x.select sz) else none := by
  by_cases hs : s.step = none ∨ s.step = some 1
  · by_cases hin : inRange x.ty.length s
    · rw [if_pos fun _ => hin, (getFields_one sz hx s hs).1 hin]
    · rw [if_neg fun h => hin (h hs), (getFields_one sz hx s hs).2 hin]
  · rw [if_pos fun h => absurd h hs, getFields_step sz hx s hs]

/-- **C30, slices**: indexing the fields with a slice with any start, stop and step returns exactly the fields
that the slice selects from the list of representations, or raises; for a slice whose bounds are in range it
returns them whenever there are any. -/
theorem c30_slice_partial (sz : R → ℕ) (x : GTensor R V) (hx : x.WF sz) (s : PySlice) :
    (∀ y, getFields sz x s = some y → ∃ sel, s.select x.ty.length = some sel ∧ x.select sz sel = some y) ∧
    (inRange x.ty.length s → getFields sz x s = (s.select x.ty.length).bind (x.select sz)) := by
  rw [getFields_eq sz hx]
  constructor
  · intro y h
    split_ifs at h
    rwa [Option.bind_eq_some_iff] at h
  · intro h
    rw [if_pos fun _ => h]

/-- **C30, integers**: an integer index `i >= -n-1` returns exactly the field it names, or raises when there is
no such field. -/
theorem c30_int_partial (sz : R → ℕ) (x : GTensor R V) (hx : x.WF sz) (i : ℤ) (hi : -(x.ty.length : ℤ) - 1 ≤ i) :
    getFields sz x (fieldSlice x.ty.length (.int i)) = (pySel x.ty.length (.int i)).bind (x.select sz) := by
  have hpos : 0 < x.ty.length := List.length_pos_iff.2 hx.1
  rw [getFields_eq sz hx]
  by_cases hin : -(x.ty.length : ℤ) ≤ i ∧ i < x.ty.length
  · have hp : pySel x.ty.length (.int i) = some [(if i < 0 then (x.ty.length : ℤ) + i else i).toNat] := by
      simp only [pySel]; rw [if_pos hin]
    have hv : 0 ≤ (if i < 0 then (x.ty.length : ℤ) + i else i) ∧ (if i < 0 then (x.ty.length : ℤ) + i else i) < x.ty.length := by
      split_ifs <;> omega
    have hsel : (fieldSlice x.ty.length (.int i)).select x.ty.length
        = some [(if i < 0 then (x.ty.length : ℤ) + i else i).toNat] := by
      rw [fieldSlice, intToSlice, select_step_one _ (Or.inr rfl)]
      simp only [Option.getD_some]
      generalize (if i < 0 then (x.ty.length : ℤ) + i else i) = v at *
      rw [if_neg (by omega), if_neg (by omega), if_neg (by omega), if_neg (by omega), show v + 1 - v = 1 by ring]
      rfl
    rw [if_pos, hsel, hp]
    intro _
    simp only [inRange, fieldSlice, intToSlice, Option.getD_some]
    omega
  · have hp : pySel x.ty.length (.int i) = none := by
      simp only [pySel]; rw [if_neg hin]
    rw [hp, Option.bind_none]
    by_cases h2 : i < x.ty.length
    · have hi' : i = -(x.ty.length : ℤ) - 1 := by omega
      have hsel : (fieldSlice x.ty.length (.int i)).select x.ty.length = some [] := by
        rw [fieldSlice, intToSlice, select_step_one _ (Or.inr rfl)]
        simp only [Option.getD_some]
        rw [if_pos (by omega : i < 0), show (x.ty.length : ℤ) + i = -1 by omega]
        rw [if_pos (by omega : (-1 : ℤ) < 0), if_neg (by omega : ¬ (-1 + (x.ty.length : ℤ) < 0)),
          if_neg (by omega : ¬ ((-1 : ℤ) + 1 < 0)), if_neg (by omega : ¬ ((x.ty.length : ℤ) < -1 + 1)),
          show (-1 + 1 - (-1 + (x.ty.length : ℤ))).toNat = 0 by omega]
        rfl
      rw [hsel]
      split_ifs <;> rfl
    · rw [if_neg]
      simp only [inRange, fieldSlice, intToSlice, Option.getD_some, or_true, true_imp_iff]
      rw [if_neg (by omega : ¬ i < 0)]
      omega

/-- **C30 is false for integers below `-n-1`**: an index that is out of range for the list of representations
(Python raises `IndexError`) returns a field instead. -/
theorem c30_int_out_of_range (sz : R → ℕ) (x : GTensor R V) (hx : x.WF sz) (i : ℤ)
    (h1 : -(2 * (x.ty.length : ℤ)) ≤ i) (h2 : i ≤ -(x.ty.length : ℤ) - 2) :
    pySel x.ty.length (.int i) = none ∧
    getFields sz x (fieldSlice x.ty.length (.int i)) = x.select sz [(i + 2 * x.ty.length).toNat] ∧
    (getFields sz x (fieldSlice x.ty.length (.int i))).isSome := by
  have hval : getFields sz x (fieldSlice x.ty.length (.int i)) = x.select sz [(i + 2 * x.ty.length).toNat] := by
    rw [getFields_eq sz hx]
    simp only [fieldSlice, intToSlice, inRange, Option.getD_some, or_true, true_imp_iff]
    rw [select_step_one _ (Or.inr rfl)]
    simp only [Option.getD_some, Option.bind_some]
    rw [if_pos (by omega : i < 0), if_pos (by omega : -(x.ty.length : ℤ) ≤ (x.ty.length : ℤ) + i ∧ (x.ty.length : ℤ) + i < x.ty.length ∧
        -(x.ty.length : ℤ) < (x.ty.length : ℤ) + i + 1 ∧ (x.ty.length : ℤ) + i + 1 ≤ x.ty.length),
      if_pos (by omega), if_neg (by omega), if_pos (by omega), if_neg (by omega),
      show (x.ty.length : ℤ) + i + 1 + x.ty.length - ((x.ty.length : ℤ) + i + x.ty.length) = 1 by ring,
      show (x.ty.length : ℤ) + i + x.ty.length = i + 2 * x.ty.length by ring]
    rfl
  refine ⟨by simp only [pySel]; rw [if_neg (by omega)], hval, ?_⟩
  rw [hval, Option.isSome_iff_exists]
  exact GTensor.select_exists hx (by simp) (by intro j hj; simp only [List.mem_singleton] at hj; omega)

/-- **C30, ellipsis**: the first ellipsis stands for the axes without an index. -/
theorem c30_ellipsis (naxes : ℕ) (pre post : List PyIndex) (h1 : ∀ i ∈ pre, i.isAxis) (h2 : ∀ i ∈ post, i.isAxis)
    (h : pre.length + 1 + post.length ≤ naxes) :
    ∃ full, expandIdx naxes (pre ++ [.ellipsis] ++ post) = some (pre ++ full ++ post) ∧
      (∀ i ∈ full, i = .slice ⟨none, none, none⟩) ∧ (pre ++ full ++ post).length = naxes := by
  have hf : ((pre ++ [PyIndex.ellipsis] ++ post).filter PyIndex.isAxis).length = pre.length + post.length := by
    rw [List.filter_append, List.filter_append, List.filter_eq_self.2 h1, List.filter_eq_self.2 h2]
    simp [PyIndex.isAxis]
  refine ⟨List.replicate (naxes - (pre.length + post.length)) (.slice ⟨none, none, none⟩), ?_, ?_, ?_⟩
  · rw [expandIdx, if_neg (by simp; omega), hf, Option.some.injEq]
    generalize naxes - (pre.length + post.length) = m
    have hpost : ∀ b, expandLoop m post b = post := by
      intro b
      clear hf h
      induction post with
      | nil => rfl
      | cons i post ih =>
        have hi := h2 i (by simp)
        cases i with
        | ellipsis => simp [PyIndex.isAxis] at hi
        | int i => rw [expandLoop, ih (fun j hj => h2 j (by simp [hj]))] <;> simp
        | slice s => rw [expandLoop, ih (fun j hj => h2 j (by simp [hj]))] <;> simp
    clear hf h
    induction pre with
    | nil => simp [expandLoop, hpost]
    | cons i pre ih =>
      have hi := h1 i (by simp)
      have ih' := ih (fun j hj => h1 j (by simp [hj]))
      simp only [List.cons_append] at ih' ⊢
      cases i with
      | ellipsis => simp [PyIndex.isAxis] at hi
      | int i => rw [expandLoop, ih'] <;> simp
      | slice s => rw [expandLoop, ih'] <;> simp
  · intro i hi
    exact List.eq_of_mem_replicate hi
  · simp; omega

/-- **C30, several ellipses**: the first one stands for the axes without an index, all others are ignored; without an ellipsis the indices are kept. -/
theorem c30_ellipses (naxes : ℕ) (pre post : List PyIndex) (h1 : ∀ i ∈ pre, i.isAxis) (h : pre.length + 1 + post.length ≤ naxes) :
    expandIdx naxes (pre ++ [.ellipsis] ++ post) =
      some (pre ++ List.replicate (naxes - (pre.length + (post.filter PyIndex.isAxis).length)) (.slice ⟨none, none, none⟩) ++ post.filter PyIndex.isAxis) ∧
    expandIdx naxes pre = some pre := by
  have hpre : ∀ m l, expandLoop m (pre ++ l) false = pre ++ expandLoop m l false := by
    intro m l
    clear h
    induction pre with
    | nil => rfl
    | cons i pre ih =>
      have hi := h1 i (by simp)
      cases i with
      | ellipsis => simp [PyIndex.isAxis] at hi
      | int i => rw [List.cons_append, expandLoop, ih (fun j hj => h1 j (by simp [hj]))] <;> simp
      | slice s => rw [List.cons_append, expandLoop, ih (fun j hj => h1 j (by simp [hj]))] <;> simp
  have hpost : ∀ m, expandLoop m post true = post.filter PyIndex.isAxis := by
    intro m
    clear h
    induction post with
    | nil => rfl
    | cons i post ih =>
      cases i with
      | ellipsis => rw [expandLoop, ih]; rfl
      | int i => rw [expandLoop, ih, List.filter_cons_of_pos rfl] <;> simp
      | slice s => rw [expandLoop, ih, List.filter_cons_of_pos rfl] <;> simp
  constructor
  · rw [expandIdx, if_neg (by simp; omega), List.append_assoc, hpre, List.singleton_append, expandLoop, hpost, List.filter_append, List.filter_cons_of_neg (by simp [PyIndex.isAxis]),
      List.filter_eq_self.2 h1, List.length_append, List.append_assoc]
  · rw [expandIdx, if_neg (by omega)]
    have := hpre (naxes - (pre.filter PyIndex.isAxis).length) []
    rw [List.append_nil] at this
    rw [this]
    simp [expandLoop]

/-- A full slice selects all fields, a slice with step -1 reverses them. -/
theorem c30_full_and_reversed (n : ℕ) :
    (⟨none, none, none⟩ : PySlice).select n = some (List.range n) ∧
    (⟨none, none, some (-1)⟩ : PySlice).select n = some (List.range n).reverse := by
  constructor
  · rw [select_step_one _ (Or.inl rfl)]
    simp only [Option.getD_none]
    rw [if_neg (by omega), if_neg (by omega), if_neg (by omega), if_neg (by omega), Int.sub_zero, Int.toNat_natCast,
      List.range_eq_range']
    rfl
  · unfold PySlice.select
    simp only [Option.getD_some, Option.map_none, Option.getD_none]
    rw [if_neg (by omega), if_neg (by omega), Option.some.injEq]
    apply List.ext_getElem (by simp)
    intro k h1 h2
    simp only [List.length_reverse, List.length_range] at h2
    simp only [List.getElem_map, List.getElem_range, List.getElem_reverse, List.length_range]
    omega

/-- **C30**: indexing commutes with the action of the fiber group: the result transforms according to its type. -/
theorem c30_act [AddCommMonoid V] [Module ℝ V] (sz : R → ℕ) (ρ : R → Mat) (naxes : ℕ) (x : GTensor R V) (hx : x.WF sz)
    (idx : List PyIndex) :
    getItemGT sz naxes (x.act sz ρ) idx = (getItemGT sz naxes x idx).map (GTensor.act sz ρ) := by
  unfold getItemGT
  rcases expandIdx naxes idx with _ | e
  · rfl
  · simp only [Option.bind_eq_bind, Option.bind_some]
    by_cases h : e.length = 1
    · simp [h]
    · rw [if_neg h, if_neg h]
      rcases e[1]? with _ | i
      · rfl
      · simp only [Option.bind_some, GTensor.act_ty]
        rw [getFields_eq sz hx, getFields_eq sz (GTensor.act_wf ρ hx), GTensor.act_ty]
        split_ifs
        · rcases (fieldSlice x.ty.length i).select x.ty.length with _ | sel
          · rfl
          · exact GTensor.select_act sz ρ hx sel
        · rfl

/-- **C30**: the index on the second axis decides; with an index on the batch axis only, the type and channels
stay. -/
theorem c30_axes (sz : R → ℕ) (naxes : ℕ) (x : GTensor R V) (idx e : List PyIndex) (he : expandIdx naxes idx = some e) :
    (e.length = 1 → getItemGT sz naxes x idx = some x) ∧
    (∀ i, e[1]? = some i → getItemGT sz naxes x idx = getFields sz x (fieldSlice x.ty.length i)) := by
  constructor
  · intro h; simp [getItemGT, he, h]
  · intro i hi
    have : e.length ≠ 1 := by
      have := (List.getElem?_eq_some_iff.1 hi).1; omega
    simp [getItemGT, he, this, hi]

/-- `x[:, -1]`, `x[:, ::-2]` and `x[:, -5]` on three fields: the last returns field 1 instead of raising. -/
example : getFields id (⟨[2, 1, 3], [10, 11, 12, 13, 14, 15]⟩ : GTensor ℕ ℕ) (fieldSlice 3 (.int (-1)))
      = some ⟨[3], [13, 14, 15]⟩ ∧
    getFields id (⟨[2, 1, 3], [10, 11, 12, 13, 14, 15]⟩ : GTensor ℕ ℕ) ⟨none, none, some (-2)⟩
      = some ⟨[3, 2], [13, 14, 15, 10, 11]⟩ ∧
    getFields id (⟨[2, 1, 3], [10, 11, 12, 13, 14, 15]⟩ : GTensor ℕ ℕ) (fieldSlice 3 (.int (-5)))
      = some ⟨[1], [12]⟩ := by
  refine ⟨by rfl, by rfl, by rfl⟩

end E2
