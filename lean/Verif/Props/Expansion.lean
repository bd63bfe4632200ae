import Mathlib.Algebra.BigOperators.Field
import Verif.Lemmas.Forward
import Verif.Props.Steerable

/-!
# C23, C24: expanded filters
-/

set_option linter.unusedSectionVars false

namespace E2

open Finset Mat

variable {F A I X El : Type} [LinearOrder F] [DecidableEq I]

/-! ## Specification -/

/-- A matrix `M` put in the block of the fields which the `k`-th entry of `get_basis_info` names: the rows of its output
field and the columns of its input field. -/
def Exp.inBlock (E : Exp F A I) (k : ℕ) (M : Mat) : Mat :=
  match E.basisInfo[k]? with
  | some info => Mat.place (offset (E.outT.map E.sz) info.outField) (E.sz info.outRepr)
      (offset (E.inT.map E.sz) info.inField) (E.sz info.inRepr) M
  | none => fun _ _ => 0

/-- The representation of a type: block diagonal, one block for each field. -/
def typeMat (rep : F → Repr El) (t : List F) (g : El) : Mat := bdiag (t.map fun n => ((rep n).size, (rep n).mat g))

/-- One point of a filter. -/
def Arr3.at (f : Arr3) (s : ℕ) : Mat := fun a b => f a b s

/-! ## C24 -/

/-- **C24**: the ranges of the parameters are consecutive, one for each pair with a basis, from `0` to the dimension. -/
theorem c24_ranges (E : Exp F A I) (hE : E.WF) :
    E.ranges.map Prod.fst = E.pairs ∧ E.pairs.Nodup ∧
    (∀ p, p ∈ E.pairs ↔ p.1 ∈ E.inT ∧ p.2 ∈ E.outT ∧ (E.gen p.1 p.2).isSome) ∧
    (∀ j p a b, E.ranges[j]? = some (p, a, b) → a < b ∧ b ≤ E.dimension ∧
      b - a = E.outT.count p.2 * E.inT.count p.1 * ((E.gen p.1 p.2).getD []).length ∧
      (j = 0 → a = 0) ∧ (∀ q a' b', E.ranges[j + 1]? = some (q, a', b') → a' = b) ∧
      (j + 1 = E.ranges.length → b = E.dimension)) ∧
    ∀ k < E.dimension, ∃! r, r ∈ E.ranges ∧ r.2.1 ≤ k ∧ k < r.2.2 := by
  have hget : ∀ {j : ℕ} {p : F × F} {a b : ℕ}, E.ranges[j]? = some (p, a, b) → E.pairs[j]? = some p ∧ a = E.start j ∧ b = E.start j + E.len p := by
    intro j p a b h
    rw [E.ranges_get, Option.map_eq_some_iff] at h
    obtain ⟨q, hq, he⟩ := h
    simp only [Prod.mk.injEq] at he
    obtain ⟨rfl, rfl, rfl⟩ := he
    exact ⟨hq, rfl, rfl⟩
  have hlen : ∀ {j : ℕ} {p : F × F}, E.pairs[j]? = some p → 0 < E.len p := by
    intro j p hj
    have hp := List.mem_of_getElem? hj
    obtain ⟨h1, h2, _⟩ := (E.mem_pairs p).1 hp
    exact Nat.mul_pos (List.count_pos_iff.2 h2) (Nat.mul_pos (List.count_pos_iff.2 h1) (hE.block_pos hp))
  have hrl : E.ranges.length = E.pairs.length := by
    have key : ∀ ps last, (E.rangesLoop ps last).length = ps.length := by
      intro ps
      induction ps with
      | nil => intro _; rfl
      | cons p ps ih => intro last; simp [Exp.rangesLoop, ih]
    exact key _ _
  refine ⟨?_, E.pairs_nodup, E.mem_pairs, ?_, ?_⟩
  · apply List.ext_getElem?
    intro j
    rw [List.getElem?_map, E.ranges_get, Option.map_map]
    simp [Function.comp_def]
  · intro j p a b h
    obtain ⟨h1, rfl, rfl⟩ := hget h
    have := hlen h1
    refine ⟨by omega, by rw [hE.dimension_eq]; exact E.start_add_le h1, ?_, ?_, ?_, ?_⟩
    · rw [Nat.add_sub_cancel_left, Exp.len, Nat.mul_assoc]; rfl
    · rintro rfl; rfl
    · intro q a' b' h'
      obtain ⟨_, h3, _⟩ := hget h'
      rw [h3, E.start_add_len h1]
    · intro he
      rw [← E.start_add_len h1, he, hrl, hE.dimension_eq, Exp.start, Exp.total, ← offset_length]
      simp
  · intro k hk
    rw [hE.dimension_eq] at hk
    obtain ⟨j, hj, x, hx, he⟩ := exists_offset _ hk
    rw [List.getElem_map] at hx
    have hj' : j < E.pairs.length := by simpa using hj
    have hr := E.ranges_get j
    rw [List.getElem?_eq_getElem hj', Option.map_some] at hr
    refine ⟨_, ⟨List.mem_of_getElem? hr, ?_, ?_⟩, ?_⟩
    · change E.start j ≤ k; rw [Exp.start]; omega
    · change k < E.start j + _; rw [Exp.start]; omega
    · rintro ⟨q, a, b⟩ ⟨hm, h1, h2⟩
      obtain ⟨j2, hj2⟩ := List.mem_iff_getElem?.1 hm
      obtain ⟨h3, rfl, rfl⟩ := hget hj2
      obtain ⟨h4, h5⟩ := List.getElem?_eq_some_iff.1 h3
      simp only at h1 h2
      have := (offset_inj (E.pairs.map E.len) (k := j) (l := j2) (x := x) (y := k - E.start j2) hj (by simpa using h4)
        (by rw [List.getElem_map]; exact hx) (by rw [List.getElem_map, h5]; omega) (by rw [Exp.start] at h1 ⊢; omega)).1
      subst this
      rw [hr] at hj2
      exact (Option.some.inj hj2).symm

/-- **C24**: every parameter is reported exactly once, at its own position, by `get_basis_info`, `get_element_info` agrees with
it, and looking up the name of a parameter gives its index. -/
theorem c24_reported (E : Exp F A I) (hE : E.WF) :
    E.basisInfo.length = E.dimension ∧ (∀ (k : ℕ) info, E.basisInfo[k]? = some info → info.idx = k) ∧
    (∀ k, E.elementInfo k = E.basisInfo[k]?) ∧
    E.basisToIds.length = E.dimension ∧ (∀ (k : ℕ) name, E.basisToIds[k]? = some name → E.idIndex name = some k) := by
  refine ⟨by rw [E.basisInfo_length, hE.dimension_eq], ?_, E.elementInfo_eq, by rw [E.basisToIds_length, hE.dimension_eq], ?_⟩
  · intro k info h
    have hk : k < E.total := by rw [← E.basisInfo_length]; exact (List.getElem?_eq_some_iff.1 h).1
    obtain ⟨j, po, pi, e, o, i, p, b, hj, ho, hi, he, _, rfl⟩ := E.decode hk
    rw [E.basisInfo_get hj ho hi he] at h
    rw [← Option.some.inj h]; rfl
  · intro k name h
    have hn := hE.ids_nodup
    rw [Exp.idIndex]
    have hmem : (name, k) ∈ E.basisToIds.zipIdx.reverse := by
      rw [List.mem_reverse, List.mem_zipIdx_iff_getElem?]; exact h
    rcases hf : E.basisToIds.zipIdx.reverse.find? fun p => p.1 = name with _ | q
    · rw [List.find?_eq_none] at hf
      have := hf _ hmem
      simp at this
    · have h1 := List.find?_some hf
      have h2 := List.mem_of_find?_eq_some hf
      rw [List.mem_reverse, List.mem_zipIdx_iff_getElem?] at h2
      simp only [decide_eq_true_eq] at h1
      rw [h1] at h2
      obtain ⟨x1, x2⟩ := List.getElem?_eq_some_iff.1 h
      obtain ⟨x3, x4⟩ := List.getElem?_eq_some_iff.1 h2
      have hq : q.2 = k := hn.getElem_inj_iff.1 (x4.trans x2.symm)
      exact (congrArg (Option.map Prod.snd) hf).trans (by rw [Option.map_some, hq])

/-- **C24**: what the attributes of a parameter say: the names are those of the fields at the given positions, the element
belongs to the basis of this pair, and the positions of the irreps count all irreps of the preceding fields. -/
theorem c24_attributes (E : Exp F A I) (hE : E.WF) (k : ℕ) (hk : k < E.dimension) :
    ∃ info bl b, E.elementInfo k = some info ∧ E.inT[info.inField]? = some info.inRepr ∧ E.outT[info.outField]? = some info.outRepr ∧
      E.gen info.inRepr info.outRepr = some bl ∧ b ∈ bl ∧ b.attr = info.attr ∧
      info.inIrrPos = ((E.inT.map E.nIrr).take info.inField).sum + E.inIdx info.attr ∧
      info.outIrrPos = ((E.outT.map E.nIrr).take info.outField).sum + E.outIdx info.attr := by
  rw [hE.dimension_eq] at hk
  obtain ⟨j, po, pi, e, o, i, p, b, hj, ho, hi, he, _, rfl⟩ := E.decode hk
  exact ⟨_, _, b, E.elementInfo_get hj ho hi he, (posOf_get_lt hi).2, (posOf_get_lt ho).2, E.block_eq (List.mem_of_getElem? hj),
    List.mem_of_getElem? he, rfl, rfl, rfl⟩

/-- The kernel of the `k`-th parameter. -/
noncomputable def Exp.kerAt (E : Exp F A I) (k : ℕ) : Arr3 :=
  (E.pairs.flatMap fun p => (posOf E.outT p.2).flatMap fun _ => (posOf E.inT p.1).flatMap fun _ =>
    (E.block p).map Elem.ker)[k]?.getD fun _ _ _ => 0

theorem Exp.kerAt_get (E : Exp F A I) {j po pi e o i : ℕ} {p : F × F} {b : Elem A} (hj : E.pairs[j]? = some p)
    (ho : (posOf E.outT p.2)[po]? = some o) (hi : (posOf E.inT p.1)[pi]? = some i) (he : (E.block p)[e]? = some b) :
    E.kerAt (E.start j + ((po * E.inT.count p.1 + pi) * (E.block p).length + e)) = b.ker := by
  have hl : ∀ q : F × F, ((posOf E.outT q.2).flatMap fun _ => (posOf E.inT q.1).flatMap fun _ => (E.block q).map Elem.ker).length = E.len q :=
    fun q => E.nest_length q fun _ _ e => e.ker
  have := flatMap_offset_get E.pairs (fun p => (posOf E.outT p.2).flatMap fun _ => (posOf E.inT p.1).flatMap fun _ => (E.block p).map Elem.ker)
    j ((po * E.inT.count p.1 + pi) * (E.block p).length + e) p hj (by rw [hl]; exact E.nest_lt ho hi he)
  simp only [hl] at this
  rw [Exp.kerAt, Exp.start, this, E.nest_get p (fun _ _ e => e.ker) ho hi he]; rfl

theorem Exp.inBlock_get (E : Exp F A I) {j po pi e o i : ℕ} {p : F × F} {b : Elem A} (hj : E.pairs[j]? = some p)
    (ho : (posOf E.outT p.2)[po]? = some o) (hi : (posOf E.inT p.1)[pi]? = some i) (he : (E.block p)[e]? = some b) (M : Mat) :
    E.inBlock (E.start j + ((po * E.inT.count p.1 + pi) * (E.block p).length + e)) M
      = Mat.place (offset (E.outT.map E.sz) o) (E.sz p.2) (offset (E.inT.map E.sz) i) (E.sz p.1) M := by
  rw [Exp.inBlock, E.basisInfo_get hj ho hi he]; rfl

theorem place_other (sz : F → ℕ) (t : List F) {o o' r : ℕ} {n n' : F} (ho : t[o]? = some n) (ho' : t[o']? = some n') (hr : r < sz n)
    (hne : o' ≠ o) : ¬ (offset (t.map sz) o' ≤ offset (t.map sz) o + r ∧ offset (t.map sz) o + r < offset (t.map sz) o' + sz n') := by
  rintro ⟨h1, h2⟩
  obtain ⟨x1, x2⟩ := List.getElem?_eq_some_iff.1 ho
  obtain ⟨x3, x4⟩ := List.getElem?_eq_some_iff.1 ho'
  have := (offset_inj (t.map sz) (k := o) (l := o') (x := r) (y := offset (t.map sz) o + r - offset (t.map sz) o')
    (by simpa using x1) (by simpa using x3) (by rw [List.getElem_map, x2]; exact hr) (by rw [List.getElem_map, x4]; omega) (by omega)).1
  exact hne this.symm

/-- **C24 / C23**: the filter is the sum over the parameters of the weight times the kernel of the parameter, put in the
block of the fields which `get_element_info` names.  The kernels do not depend on the weights. -/
theorem c24_filter (E : Exp F A I) (hE : E.WF) (hone : E.nPairs = 1 → E.pairs ≠ []) :
    ∃ ker : ℕ → Arr3, (∀ (k : ℕ) info, E.elementInfo k = some info →
        ∃ bl b, E.gen info.inRepr info.outRepr = some bl ∧ b ∈ bl ∧ b.attr = info.attr ∧ ker k = b.ker) ∧
      ∀ w : List ℝ, w.length = E.dimension → ∃ f, E.forward w = some f ∧
        ∀ s, MEq (typeSize E.sz E.outT) (typeSize E.sz E.inT) (f.at s)
          fun a b => ∑ k ∈ range E.dimension, w.getD k 0 * E.inBlock k ((ker k).at s) a b := by
  refine ⟨E.kerAt, ?_, ?_⟩
  · intro k info h
    have hk : k < E.total := by
      rw [E.elementInfo_eq] at h
      rw [← E.basisInfo_length]; exact (List.getElem?_eq_some_iff.1 h).1
    obtain ⟨j, po, pi, e, o, i, p, b, hj, ho, hi, he, _, rfl⟩ := E.decode hk
    rw [E.elementInfo_get hj ho hi he] at h
    rw [← Option.some.inj h]
    exact ⟨_, b, E.block_eq (List.mem_of_getElem? hj), List.mem_of_getElem? he, rfl, E.kerAt_get hj ho hi he⟩
  · intro w hw
    obtain ⟨f, hf, hf'⟩ := Exp.forward_eq hE hone w hw
    refine ⟨f, hf, ?_⟩
    intro s a ha b hb
    obtain ⟨o, ho, r, hr, rfl⟩ := exists_offset _ ha
    obtain ⟨i, hi, c, hc, rfl⟩ := exists_offset _ hb
    rw [List.getElem_map] at hr hc
    rw [List.length_map] at ho hi
    have ho' := List.getElem?_eq_getElem ho
    have hi' := List.getElem?_eq_getElem hi
    generalize E.outT[o] = n at *
    generalize E.inT[i] = m at *
    obtain ⟨g1, g2⟩ := hf' o i r c s n m ho' hi' hr hc
    rw [hE.dimension_eq]
    -- terms of other fields vanish
    have hzero : ∀ {j po pi e o' i' : ℕ} {p : F × F} {b : Elem A}, E.pairs[j]? = some p → (posOf E.outT p.2)[po]? = some o' →
        (posOf E.inT p.1)[pi]? = some i' → (E.block p)[e]? = some b → (o' ≠ o ∨ i' ≠ i) → ∀ M : Mat,
        E.inBlock (E.start j + ((po * E.inT.count p.1 + pi) * (E.block p).length + e)) M
          (offset (E.outT.map E.sz) o + r) (offset (E.inT.map E.sz) i + c) = 0 := by
      intro j po pi e o' i' p b hj hpo hpi he hne M
      rw [E.inBlock_get hj hpo hpi he, Mat.place, if_neg]
      rintro ⟨q1, q2⟩
      rcases hne with hne | hne
      · exact place_other E.sz E.outT ho' (posOf_get_lt hpo).2 hr hne q1
      · exact place_other E.sz E.inT hi' (posOf_get_lt hpi).2 hc hne q2
    by_cases hp : (m, n) ∈ E.pairs
    · obtain ⟨j, hj⟩ : ∃ j : ℕ, E.pairs[j]? = some (m, n) := List.mem_iff_getElem?.1 hp
      obtain ⟨po, hpo⟩ := posOf_rank ho'
      obtain ⟨pi, hpi⟩ := posOf_rank hi'
      rw [Arr3.at, g2 j po pi hj hpo hpi, Exp.val, blockForward]
      have hbase : ∀ e < (E.block (m, n)).length, E.start j + ((po * E.inT.count m + pi) * (E.block (m, n)).length + e) < E.total := by
        intro e he
        have := E.nest_lt (p := (m, n)) hpo hpi (List.getElem?_eq_getElem he)
        have := E.start_add_le hj
        simp only at *
        omega
      beta_reduce
      refine Eq.trans ?_ (Finset.sum_subset (s₁ := (range (E.block (m, n)).length).image
        fun e => E.start j + ((po * E.inT.count m + pi) * (E.block (m, n)).length + e)) ?_ ?_)
      · rw [Finset.sum_image (by intro x _ y _ h; simp only at h; omega)]
        apply Finset.sum_congr rfl
        intro e he
        have he' := Finset.mem_range.1 he
        have hb := List.getElem?_eq_getElem he'
        have k1 := E.kerAt_get hj hpo hpi hb
        have k2 := E.inBlock_get hj hpo hpi hb ((E.kerAt (E.start j + ((po * E.inT.count m + pi) * (E.block (m, n)).length + e))).at s)
        simp only at k1 k2
        rw [k2, k1, hb, Mat.place, if_pos (by constructor <;> constructor <;> omega), Arr3.at, mul_comm]
        simp only [Nat.add_sub_cancel_left]
      · intro k hk
        obtain ⟨e, he, rfl⟩ := Finset.mem_image.1 hk
        exact Finset.mem_range.2 (hbase e (Finset.mem_range.1 he))
      · intro k hk hnot
        obtain ⟨j', po', pi', e', o', i', p', b', hj', hpo', hpi', he', _, rfl⟩ := E.decode (Finset.mem_range.1 hk)
        rw [hzero hj' hpo' hpi' he', mul_zero]
        by_contra hcon
        rw [not_or, not_not, not_not] at hcon
        obtain ⟨rfl, rfl⟩ := hcon
        have e1 := (posOf_get_lt hpo').2
        have e2 := (posOf_get_lt hpi').2
        rw [ho', Option.some.injEq] at e1
        rw [hi', Option.some.injEq] at e2
        have hpp : p' = (m, n) := Prod.ext e2.symm e1.symm
        subst hpp
        have hjj : j' = j := by
          obtain ⟨x1, x2⟩ := List.getElem?_eq_some_iff.1 hj'
          obtain ⟨x3, x4⟩ := List.getElem?_eq_some_iff.1 hj
          exact E.pairs_nodup.getElem_inj_iff.1 (x2.trans x4.symm)
        have h3 := posOf_get_inj hpo hpo'
        have h4 := posOf_get_inj hpi hpi'
        subst hjj; subst h3; subst h4
        exact hnot (Finset.mem_image.2 ⟨e', Finset.mem_range.2 (List.getElem?_eq_some_iff.1 he').1, rfl⟩)
    · rw [Arr3.at, g1 hp]
      symm
      apply Finset.sum_eq_zero
      intro k hk
      obtain ⟨j', po', pi', e', o', i', p', b', hj', hpo', hpi', he', _, rfl⟩ := E.decode (Finset.mem_range.1 hk)
      rw [hzero hj' hpo' hpi' he', mul_zero]
      by_contra hcon
      rw [not_or, not_not, not_not] at hcon
      obtain ⟨rfl, rfl⟩ := hcon
      have e1 := (posOf_get_lt hpo').2
      have e2 := (posOf_get_lt hpi').2
      rw [ho', Option.some.injEq] at e1
      rw [hi', Option.some.injEq] at e2
      have hpp : p' = (m, n) := Prod.ext e2.symm e1.symm
      subst hpp
      exact hp (List.mem_of_getElem? hj')

/-- **C24**: changing the weight number `k` changes the filter only in the rows of the output field and the columns of the input
field which `get_element_info(k)` names. -/
theorem c24_weight_effect (E : Exp F A I) (hE : E.WF) (hone : E.nPairs = 1 → E.pairs ≠ []) (w : List ℝ) (hw : w.length = E.dimension)
    (k : ℕ) (v : ℝ) (info : Info F A) (hinfo : E.elementInfo k = some info) :
    ∃ f f', E.forward w = some f ∧ E.forward (w.set k v) = some f' ∧
      ∀ a < typeSize E.sz E.outT, ∀ b < typeSize E.sz E.inT, ∀ s,
        ¬ ((((E.outT.map E.sz).take info.outField).sum ≤ a ∧ a < ((E.outT.map E.sz).take info.outField).sum + E.sz info.outRepr) ∧
          (((E.inT.map E.sz).take info.inField).sum ≤ b ∧ b < ((E.inT.map E.sz).take info.inField).sum + E.sz info.inRepr)) →
        f' a b s = f a b s := by
  obtain ⟨ker, -, h⟩ := c24_filter E hE hone
  obtain ⟨f, hf, h1⟩ := h w hw
  obtain ⟨f', hf', h2⟩ := h (w.set k v) (by simpa using hw)
  refine ⟨f, f', hf, hf', ?_⟩
  intro a ha b hb s hout
  have e1 := h1 s a ha b hb
  have e2 := h2 s a ha b hb
  simp only [Arr3.at] at e1 e2
  rw [e1, e2]
  apply Finset.sum_congr rfl
  intro l _
  by_cases hl : l = k
  · subst hl
    have : ∀ M : Mat, E.inBlock l M a b = 0 := by
      intro M
      rw [E.elementInfo_eq] at hinfo
      rw [Exp.inBlock, hinfo]
      simp only
      exact if_neg hout
    rw [this]; simp
  · congr 1
    rw [List.getD_eq_getElem?_getD, List.getD_eq_getElem?_getD, List.getElem?_set_ne (fun e => hl e.symm)]

/-- One field of size 1, with a basis of two elements with the same identifier. -/
noncomputable def dupExp : Exp ℕ ℕ ℕ :=
  ⟨fun _ => 1, fun _ => 1, [0], [0], fun _ _ => some [⟨0, fun _ _ _ => 1⟩, ⟨0, fun _ _ _ => 2⟩], id, id, id⟩

theorem dupExp_pairs : dupExp.pairs = [(0, 0)] := by simp [Exp.pairs, Exp.pairsRaw, dupExp]

theorem dupExp_block : dupExp.block (0, 0) = [⟨0, fun _ _ _ => 1⟩, ⟨0, fun _ _ _ => 2⟩] := rfl

theorem dupExp_ids : dupExp.basisIds (0, 0) = [⟨0, 0, 0, 0, 0⟩, ⟨0, 0, 0, 0, 0⟩] := by
  rw [Exp.basisIds, dupExp_block]; simp [dupExp]

/-- Two parameters can have the same identifier (for instance when a radius occurs twice in `rings`): the
dimension is then smaller than the number of parameters reported, and no weight vector is accepted. -/
theorem c24_repeated_identifiers : dupExp.basisInfo.length = 2 ∧ dupExp.dimension = 1 ∧ ∀ w, dupExp.forward w = none := by
  have hd : dupExp.dimension = 1 := by
    rw [Exp.dimension, Exp.basisToIds, dupExp_pairs, List.flatMap_cons, List.flatMap_nil, dupExp_ids]; decide
  refine ⟨?_, hd, ?_⟩
  · rw [Exp.basisInfo_length, Exp.total, dupExp_pairs, List.map_cons, List.map_nil, ← Exp.basisIds_length, dupExp_ids]; rfl
  · intro w
    unfold Exp.forward
    split_ifs with h1 h2
    · rw [hd] at h1
      rw [dupExp_pairs]
      simp only
      have hx : dupExp.expandBlock w (0, 0) = none := by
        have hr : dupExp.ranges = [((0, 0), 0, 2)] := by
          rw [Exp.ranges, dupExp_pairs, Exp.rangesLoop, Exp.rangesLoop, dupExp_ids]; rfl
        unfold Exp.expandBlock
        rw [hr]
        simp only [List.find?_cons, decide_true]
        refine if_neg ?_
        rw [dupExp_block]
        rintro ⟨h3, -⟩
        have hl : (pySlice w 0 2).length = 1 := by simp [pySlice, h1]
        rw [hl] at h3
        exact absurd h3 (by decide)
      rw [hx]
      generalize dupExp.contig dupExp.inT 0 = ca
      generalize dupExp.contig dupExp.outT 0 = cb
      cases ca <;> cases cb <;> simp
    · exact absurd (by simp [Exp.nPairs, dupExp]) h2
    · rfl

/-! ## C23 -/

theorem singleBlock_spec {so si S : ℕ} {keep : A → Bool} {shape0 : A → ℕ} {basis bl : List (Elem A)}
    (h : singleBlock so si S keep shape0 basis = some bl) :
    bl ≠ [] ∧ (bl.map Elem.attr).Sublist (basis.map Elem.attr) ∧
    ∀ e ∈ bl, ∃ b ∈ basis, ∃ c : ℝ, keep b.attr = true ∧ e.attr = b.attr ∧ ∀ o i s, e.ker o i s = b.ker o i s / c := by
  unfold singleBlock at h
  dsimp only at h
  split_ifs at h with h1 h2
  rw [Option.some.injEq] at h
  subst h
  refine ⟨h2, ?_, ?_⟩
  · refine ((List.filter_sublist).map _).trans ?_
    rw [List.map_map]
    exact (List.filter_sublist).map _
  · intro e he
    obtain ⟨b, hb, rfl⟩ := List.mem_map.1 (List.mem_of_mem_filter he)
    obtain ⟨hb1, hb2⟩ := List.mem_filter.1 hb
    exact ⟨b, hb1, _, hb2, rfl, fun _ _ _ => rfl⟩

/-- The arguments of the expansion of filters for representations `rep`, with the bases `basis i o` (attributes and kernels on the
base space) sampled at `points`, a filter `keep`, and the processing of `SingleBlockBasisExpansion`. -/
noncomputable def filterExp (rep : F → Repr El) (inT outT : List F) (S : ℕ) (points : ℕ → X) (basis : F → F → List (A × (X → Mat)))
    (keep : A → Bool) (shape0 : A → ℕ) (ident : A → I) (inIdx outIdx : A → ℕ) : Exp F A I where
  sz n := (rep n).size
  nIrr n := (rep n).irreps.length
  inT := inT
  outT := outT
  gen i o := singleBlock (rep o).size (rep i).size S keep shape0
    ((basis i o).map fun b => ⟨b.1, fun r c s => b.2 (points s) r c⟩)
  ident := ident
  inIdx := inIdx
  outIdx := outIdx

/-- The inputs are admissible: fields of positive size, and distinct identifiers in each basis. -/
structure FilterInput (rep : F → Repr El) (inT outT : List F) (basis : F → F → List (A × (X → Mat))) (ident : A → I) : Prop where
  inNe : inT ≠ []
  outNe : outT ≠ []
  inSz : ∀ n ∈ inT, 0 < (rep n).size
  outSz : ∀ n ∈ outT, 0 < (rep n).size
  ids : ∀ i ∈ inT, ∀ o ∈ outT, ((basis i o).map fun b => ident b.1).Nodup

theorem filterExp_wf {rep : F → Repr El} {inT outT : List F} {basis : F → F → List (A × (X → Mat))} {ident : A → I}
    (h : FilterInput rep inT outT basis ident) (S : ℕ) (points : ℕ → X) (keep : A → Bool) (shape0 inIdx outIdx : A → ℕ) :
    (filterExp rep inT outT S points basis keep shape0 ident inIdx outIdx).WF where
  inNe := h.inNe
  outNe := h.outNe
  inSz := h.inSz
  outSz := h.outSz
  blkNe := fun _ _ _ _ bl hbl => (singleBlock_spec hbl).1
  ids := by
    intro i hi o ho bl hbl
    have h1 := (singleBlock_spec hbl).2.1.map ident
    rw [List.map_map, List.map_map, List.map_map] at h1
    exact h1.nodup (h.ids i hi o ho)

theorem mul_sum_left' (n : ℕ) (A : Mat) (K : ℕ) (w : ℕ → ℝ) (M : ℕ → Mat) :
    Mat.mul n A (fun a b => ∑ k ∈ range K, w k * M k a b) = fun a b => ∑ k ∈ range K, w k * Mat.mul n A (M k) a b := by
  funext a b
  simp only [Mat.mul, Finset.mul_sum]
  rw [Finset.sum_comm]
  apply Finset.sum_congr rfl; intro k _
  apply Finset.sum_congr rfl; intro l _
  ring

theorem mul_sum_right' (n : ℕ) (B : Mat) (K : ℕ) (w : ℕ → ℝ) (M : ℕ → Mat) :
    Mat.mul n (fun a b => ∑ k ∈ range K, w k * M k a b) B = fun a b => ∑ k ∈ range K, w k * Mat.mul n (M k) B a b := by
  funext a b
  simp only [Mat.mul, Finset.mul_sum, Finset.sum_mul]
  rw [Finset.sum_comm]
  apply Finset.sum_congr rfl; intro k _
  apply Finset.sum_congr rfl; intro l _
  ring

/-- **C23**: for all weights the expanded filter exists and satisfies the kernel constraint between the full types at the
points of the grid: whenever the point `s'` is the image of the point `s` under `g`, the filter at `s'` is
`ρ_out(g) · filter at s · ρ_in(g)⁻¹`.  It holds for all types, all filters `keep`, and all bases of kernels satisfying the constraint. -/
theorem c23_filter_constraint (G : Grp El) (act : El → X → X) (rep : F → Repr El) (inT outT : List F) (S : ℕ) (points : ℕ → X)
    (basis : F → F → List (A × (X → Mat))) (keep : A → Bool) (shape0 : A → ℕ) (ident : A → I) (inIdx outIdx : A → ℕ)
    (h : FilterInput rep inT outT basis ident)
    (hK : ∀ i ∈ inT, ∀ o ∈ outT, ∀ b ∈ basis i o,
      KernelConstraint G act (rep o).size (rep i).size (rep o).mat (rep i).mat b.2)
    (E : Exp F A I) (hE : E = filterExp rep inT outT S points basis keep shape0 ident inIdx outIdx)
    (hone : E.nPairs = 1 → E.pairs ≠ []) (w : List ℝ) (hw : w.length = E.dimension) :
    ∃ f, E.forward w = some f ∧ ∀ g, G.isEl g → ∀ s s', points s' = act g (points s) →
      MEq (typeSize (fun n => (rep n).size) outT) (typeSize (fun n => (rep n).size) inT) (f.at s')
        (Mat.mul (typeSize (fun n => (rep n).size) inT) (Mat.mul (typeSize (fun n => (rep n).size) outT) (typeMat rep outT g) (f.at s))
          (typeMat rep inT (G.inv g))) := by
  have hwf : E.WF := hE ▸ filterExp_wf h S points keep shape0 inIdx outIdx
  obtain ⟨ker, hker, hf⟩ := c24_filter E hwf hone
  obtain ⟨f, hfw, hf⟩ := hf w hw
  refine ⟨f, hfw, ?_⟩
  intro g hg s s' hs
  have hsz : E.sz = fun n => (rep n).size := by rw [hE]; rfl
  have hin : E.inT = inT := by rw [hE]; rfl
  have hout : E.outT = outT := by rw [hE]; rfl
  have hs1 := hf s
  have hs2 := hf s'
  rw [hsz, hin, hout] at hs1 hs2
  have e1 : MEq (typeSize (fun n => (rep n).size) outT) (typeSize (fun n => (rep n).size) inT)
      (Mat.mul (typeSize (fun n => (rep n).size) inT) (Mat.mul (typeSize (fun n => (rep n).size) outT) (typeMat rep outT g) (f.at s))
          (typeMat rep inT (G.inv g)))
      (Mat.mul (typeSize (fun n => (rep n).size) inT) (Mat.mul (typeSize (fun n => (rep n).size) outT) (typeMat rep outT g)
        (fun a b => ∑ k ∈ range E.dimension, w.getD k 0 * E.inBlock k ((ker k).at s) a b)) (typeMat rep inT (G.inv g))) :=
    ((MEq.refl _).mul hs1).mul (MEq.refl _)
  refine hs2.trans (MEq.trans ?_ e1.symm)
  rw [mul_sum_left', mul_sum_right']
  intro a ha b hb
  apply Finset.sum_congr rfl
  intro k hk
  congr 1
  obtain ⟨info, bl, e, h1, h2, h3, h4, h5, h6, -, -⟩ := c24_attributes E hwf k (Finset.mem_range.1 hk)
  obtain ⟨bl', e', h4', h5', h6', h7'⟩ := hker k info h1
  have h1' := h1
  rw [E.elementInfo_eq] at h1'
  have hib : ∀ M, E.inBlock k M = Mat.place (offset (outT.map fun n => (rep n).size) info.outField) (rep info.outRepr).size
      (offset (inT.map fun n => (rep n).size) info.inField) (rep info.inRepr).size M := by
    intro M
    rw [Exp.inBlock, h1', hsz, hin, hout]
  rw [hin] at h2
  rw [hout] at h3
  rw [hib, hib]
  obtain ⟨x1, x2⟩ := List.getElem?_eq_some_iff.1 h2
  obtain ⟨x3, x4⟩ := List.getElem?_eq_some_iff.1 h3
  have hm1 : info.inRepr ∈ inT := List.mem_of_getElem? h2
  have hm2 : info.outRepr ∈ outT := List.mem_of_getElem? h3
  have lem1 := bdiag_mul_place (outT.map fun n => ((rep n).size, (rep n).mat g)) (k := info.outField) (by simpa using x3)
    (offset (inT.map fun n => (rep n).size) info.inField) (rep info.inRepr).size ((ker k).at s)
  have lem2 := fun M => place_mul_bdiag (inT.map fun n => ((rep n).size, (rep n).mat (G.inv g))) (k := info.inField) (by simpa using x1)
    (offset (outT.map fun n => (rep n).size) info.outField) (rep info.outRepr).size M
  simp only [List.map_map, Function.comp_def, List.getElem_map, x2, x4] at lem1 lem2
  have hsum : ∀ t : List F, (t.map fun n => (rep n).size).sum = typeSize (fun n => (rep n).size) t := fun t => rfl
  rw [hsum] at lem1 lem2
  rw [typeMat, typeMat, lem1, lem2]
  refine MEq_place ?_ a ha b hb
  have hgen : E.gen info.inRepr info.outRepr = singleBlock (rep info.outRepr).size (rep info.inRepr).size S keep shape0
      ((basis info.inRepr info.outRepr).map fun b => ⟨b.1, fun r c s => b.2 (points s) r c⟩) := by rw [hE]; rfl
  rw [hgen] at h4'
  obtain ⟨b0, hb0, c0, -, -, hc0⟩ := (singleBlock_spec h4').2.2 e' h5'
  obtain ⟨b1, hb1, rfl⟩ := List.mem_map.1 hb0
  have hcon := hK _ hm1 _ hm2 b1 hb1 g hg (points s)
  rw [← hs] at hcon
  intro r hr c hc
  have := hcon r hr c hc
  simp only [h7', Arr3.at, Mat.mul, hc0] at this ⊢
  rw [this, Finset.sum_div]
  apply Finset.sum_congr rfl
  intro l _
  rw [Finset.sum_mul, Finset.sum_mul, Finset.sum_div]
  apply Finset.sum_congr rfl
  intro l' _
  ring

/-! ### The bases of the library -/

/-- The kernels on the plane for a pair of representations, with the attributes which `attr` gives them by index
(`build_kernel_basis`, gspaces/r2/general_r2.py:96-126, with the functions of kernels/r2.py). -/
noncomputable def planeBasis (axis : ℝ) (radials : List (ℝ → ℝ)) (bas : Irrep El → Irrep El → Option (List AngElem))
    (attr : F → F → ℕ → A) (rep : F → Repr El) (i o : F) : List (A × (ℝ × ℝ → Mat)) :=
  match steerable bas (rep i) (rep o) with
  | none => []
  | some S => (List.range (radials.length * S.dim)).map fun k => (attr i o k, planeKernel axis radials S k)

/-- The constraint for all filters expanded in the basis `basis` between the types. -/
def FiltersConstrained (G : Grp El) (act : El → ℝ × ℝ → ℝ × ℝ) (rep : F → Repr El) (inT outT : List F)
    (basis : F → F → List (A × (ℝ × ℝ → Mat))) (ident : A → I) : Prop :=
  FilterInput rep inT outT basis ident → ∀ (S : ℕ) (points : ℕ → ℝ × ℝ) (keep : A → Bool) (shape0 inIdx outIdx : A → ℕ)
    (E : Exp F A I), E = filterExp rep inT outT S points basis keep shape0 ident inIdx outIdx →
    (E.nPairs = 1 → E.pairs ≠ []) → ∀ w : List ℝ, w.length = E.dimension →
    ∃ f, E.forward w = some f ∧ ∀ g, G.isEl g → ∀ s s', points s' = act g (points s) →
      MEq (typeSize (fun n => (rep n).size) outT) (typeSize (fun n => (rep n).size) inT) (f.at s')
        (Mat.mul (typeSize (fun n => (rep n).size) inT) (Mat.mul (typeSize (fun n => (rep n).size) outT) (typeMat rep outT g) (f.at s))
          (typeMat rep inT (G.inv g)))

theorem filtersConstrained_of (G : Grp El) (act : El → ℝ × ℝ → ℝ × ℝ) (axis : ℝ) (radials : List (ℝ → ℝ))
    (bas : Irrep El → Irrep El → Option (List AngElem)) (attr : F → F → ℕ → A) (rep : F → Repr El) (inT outT : List F) (ident : A → I)
    (h : ∀ i ∈ inT, ∀ o ∈ outT, ∃ S, steerable bas (rep i) (rep o) = some S ∧ ∀ k < radials.length * S.dim,
      KernelConstraint G act (rep o).size (rep i).size (rep o).mat (rep i).mat (planeKernel axis radials S k)) :
    FiltersConstrained G act rep inT outT (planeBasis axis radials bas attr rep) ident := by
  intro hi S points keep shape0 inIdx outIdx E hE hone w hw
  refine c23_filter_constraint G act rep inT outT S points _ keep shape0 ident inIdx outIdx hi ?_ E hE hone w hw
  intro i hi o ho b hb
  obtain ⟨S, hS, hk⟩ := h i hi o ho
  rw [planeBasis, hS] at hb
  obtain ⟨k, hk1, rfl⟩ := List.mem_map.1 hb
  exact hk k (List.mem_range.1 hk1)

variable (radials : List (ℝ → ℝ)) (attr : F → F → ℕ → A) (ident : A → I) (inT outT : List F)

/-- **C23 for SO(2)**: all types with all representations. -/
theorem c23_so2 (rep : F → Repr ℝ) (hr : ∀ n ∈ inT ++ outT, (rep n).WF ∧ ∀ i ∈ (rep n).irreps, ∃ k, i = SO2.irrep k) :
    FiltersConstrained SO2.grp rot rep inT outT (planeBasis 0 radials contBasis attr rep) ident := by
  refine filtersConstrained_of _ _ _ _ _ _ _ _ _ _ fun i hi o ho => ?_
  have h1 := hr i (List.mem_append_left _ hi)
  have h2 := hr o (List.mem_append_right _ ho)
  obtain ⟨S, hS, -, -, hk⟩ := c21_so2_kernels (rep i) (rep o) h1.1 h2.1 h1.2 h2.2 radials
  exact ⟨S, hS, hk⟩

/-- **C23 for the cyclic groups** (and the trivial group, `N = 1`). -/
theorem c23_cyclic (N : ℕ) (hN : 0 < N) (rep : F → Repr ℤ)
    (hr : ∀ n ∈ inT ++ outT, (rep n).WF ∧ ∀ i ∈ (rep n).irreps, ∃ k, Cyclic.irrep N k = some i)
    (maxFreq maxOff : Option ℕ) (hb : ¬ (maxFreq = none ∧ maxOff = none)) :
    FiltersConstrained (Cyclic.grp N) (fun g => rot (g * (2 * Real.pi / N))) rep inT outT
      (planeBasis 0 radials (fun i o => rotBasis N i o maxFreq maxOff) attr rep) ident := by
  refine filtersConstrained_of _ _ _ _ _ _ _ _ _ _ fun i hi o ho => ?_
  have h1 := hr i (List.mem_append_left _ hi)
  have h2 := hr o (List.mem_append_right _ ho)
  obtain ⟨S, hS, -, -, hk⟩ := c21_cyclic_kernels N hN (rep i) (rep o) h1.1 h2.1 h1.2 h2.2 maxFreq maxOff hb radials
  exact ⟨S, hS, hk⟩

/-- **C23 for the group of flips**, with respect to any axis. -/
theorem c23_flip (axis : ℝ) (rep : F → Repr ℤ)
    (hr : ∀ n ∈ inT ++ outT, (rep n).WF ∧ ∀ i ∈ (rep n).irreps, ∃ k, Cyclic.irrep 2 k = some i)
    (maxFreq maxOff : Option ℕ) (hb : ¬ (maxFreq = none ∧ maxOff = none)) :
    FiltersConstrained (Cyclic.grp 2) (fun g p => if g = 0 then p else refl axis p) rep inT outT
      (planeBasis axis radials (fun i o => flipsBasis i o maxFreq maxOff) attr rep) ident := by
  refine filtersConstrained_of _ _ _ _ _ _ _ _ _ _ fun i hi o ho => ?_
  have h1 := hr i (List.mem_append_left _ hi)
  have h2 := hr o (List.mem_append_right _ ho)
  obtain ⟨S, hS, -, -, hk⟩ := c21_flip_kernels axis (rep i) (rep o) h1.1 h2.1 h1.2 h2.2 maxFreq maxOff hb radials
  exact ⟨S, hS, hk⟩

/-- **C23 for the dihedral groups**, with respect to any axis. -/
theorem c23_dihedral (N : ℕ) (hN : 0 < N) (axis : ℝ) (rep : F → Repr (ℤ × ℤ))
    (hr : ∀ n ∈ inT ++ outT, (rep n).WF ∧ ∀ i ∈ (rep n).irreps, ∃ j k, Dihedral.irrep N j k = some i)
    (maxFreq maxOff : Option ℕ) (hb : ¬ (maxFreq = none ∧ maxOff = none)) :
    FiltersConstrained (Dihedral.grp N) (fun g => planeAct axis (g.1, g.2 * (2 * Real.pi / N))) rep inT outT
      (planeBasis axis radials (fun i o => flipRotBasis N i o maxFreq maxOff) attr rep) ident := by
  refine filtersConstrained_of _ _ _ _ _ _ _ _ _ _ fun i hi o ho => ?_
  have h1 := hr i (List.mem_append_left _ hi)
  have h2 := hr o (List.mem_append_right _ ho)
  obtain ⟨S, hS, -, -, hk⟩ := c21_dihedral_kernels N hN axis (rep i) (rep o) h1.1 h2.1 h1.2 h2.2 maxFreq maxOff hb radials
  exact ⟨S, hS, hk⟩

/-- **C23 for O(2)**, with respect to any axis. -/
theorem c23_o2 (axis : ℝ) (rep : F → Repr (ℤ × ℝ))
    (hr : ∀ n ∈ inT ++ outT, (rep n).WF ∧ ∀ i ∈ (rep n).irreps, ∃ j k, O2.irrep j k = some i) :
    FiltersConstrained O2.grp (planeAct axis) rep inT outT (planeBasis axis radials flipContBasis attr rep) ident := by
  refine filtersConstrained_of _ _ _ _ _ _ _ _ _ _ fun i hi o ho => ?_
  have h1 := hr i (List.mem_append_left _ hi)
  have h2 := hr o (List.mem_append_right _ ho)
  obtain ⟨S, hS, -, -, hk⟩ := c21_o2_kernels axis (rep i) (rep o) h1.1 h2.1 h1.2 h2.2 radials
  exact ⟨S, hS, hk⟩

/-! ### The identifiers of the library's bases are distinct -/

theorem iterLoop_triples {E : Type} (bases : Irrep El → Irrep El → List E) (ps : List ((ℕ × Irrep El) × (ℕ × Irrep El))) (n : ℕ) :
    (SBasis.iterLoop bases ps n).map (fun a => (a.inIdx, a.outIdx, a.innerIdx)) =
      ps.flatMap fun p => (List.range (bases p.1.2 p.2.2).length).map fun e => (p.1.1, p.2.1, e) := by
  induction ps generalizing n with
  | nil => rfl
  | cons p ps ih =>
    obtain ⟨⟨ii, i⟩, oo, o⟩ := p
    rw [SBasis.iterLoop, List.map_append, ih, List.flatMap_cons]
    congr 1
    apply List.ext_getElem?
    intro k
    rw [List.map_map, List.getElem?_map, SBasis.enum_getElem?, List.getElem?_map]
    by_cases hk : k < (bases i o).length
    · rw [List.getElem?_range hk, List.getElem?_eq_getElem hk]; rfl
    · rw [List.getElem?_eq_none (by omega), List.getElem?_eq_none (by rw [List.length_range]; exact Nat.le_of_not_lt hk)]; rfl

theorem iter_triples_nodup {E : Type} (S : SBasis El E) :
    (S.iter.map fun a => (a.inIdx, a.outIdx, a.innerIdx)).Nodup := by
  rw [SBasis.iter, iterLoop_triples]
  have hp : S.pairs.Pairwise fun p q => (p.1.1, p.2.1) ≠ (q.1.1, q.2.1) := by
    have he : ∀ l : List (Irrep El), (SBasis.enum l).Pairwise fun p q => p.1 ≠ q.1 := by
      intro l
      rw [List.pairwise_iff_getElem]
      intro i j hi hj hij
      have h1 := List.getElem?_eq_getElem hi
      have h2 := List.getElem?_eq_getElem hj
      rw [SBasis.enum_getElem?, Option.map_eq_some_iff] at h1 h2
      obtain ⟨a, -, h1⟩ := h1
      obtain ⟨b, -, h2⟩ := h2
      rw [← h1, ← h2]
      simp only
      omega
    rw [SBasis.pairs, List.pairwise_flatMap]
    refine ⟨fun p _ => ?_, ?_⟩
    · rw [List.pairwise_map]
      exact (he S.outs).imp fun h => by simp [h]
    · exact (he S.ins).imp fun {p q} h x hx y hy => by
        obtain ⟨a, -, rfl⟩ := List.mem_map.1 hx
        obtain ⟨b, -, rfl⟩ := List.mem_map.1 hy
        simp [h]
  rw [List.Nodup, List.pairwise_flatMap]
  refine ⟨fun p _ => ?_, ?_⟩
  · rw [List.pairwise_map]
    exact (List.nodup_range).imp fun h => by simp [h]
  · exact hp.imp fun {p q} h x hx y hy => by
      obtain ⟨a, -, rfl⟩ := List.mem_map.1 hx
      obtain ⟨b, -, rfl⟩ := List.mem_map.1 hy
      intro he
      simp only [Prod.mk.injEq] at he
      exact h (by simp [he.1, he.2.1])

/-- The attributes of the kernel at index `k` for a pair of representations (`PolarBasis.__getitem__`). -/
noncomputable def planeAttr (rings : List (ℝ × ℝ)) (bas : Irrep El → Irrep El → Option (List AngElem)) (rep : F → Repr El) (i o : F) (k : ℕ) :
    Option (PolarAttr ((ℝ × ℝ) × ℕ) (SBasis.Attr El AngElem)) :=
  match steerable bas (rep i) (rep o) with
  | none => none
  | some S => polarGet rings.length S.dim (gaussianGet rings) S.getItem k

/-- The identifier of an element (basisexpansion_singleblock.py:96-105): the indices of the irreps, the radius and the index in the basis
of the pair of irreps.  The names of the irreps and the frequency, which the other entries determine, are left out. -/
def planeIdent (a : Option (PolarAttr ((ℝ × ℝ) × ℕ) (SBasis.Attr El AngElem))) : Option (ℕ × ℕ × ℝ × ℕ) :=
  a.map fun a => (a.angular.inIdx, a.angular.outIdx, a.radial.1.1, a.angular.innerIdx)

/-- If the radii of the rings are distinct then so are the identifiers, for all representations: the hypothesis on the
identifiers in C23 and C24 is met by the bases of the library. -/
theorem c24_identifiers_distinct (axis : ℝ) (rings : List (ℝ × ℝ)) (hr : (rings.map Prod.fst).Nodup)
    (bas : Irrep El → Irrep El → Option (List AngElem)) (rep : F → Repr El) (i o : F) :
    ((planeBasis axis (rings.map fun q => gaussian q.1 q.2) bas (planeAttr rings bas rep) rep i o).map fun b => planeIdent b.1).Nodup := by
  rw [planeBasis]
  cases hS : steerable bas (rep i) (rep o) with
  | none => exact List.nodup_nil
  | some S =>
    rw [List.map_map, List.length_map]
    refine List.Nodup.map_on ?_ List.nodup_range
    intro k hk k' hk' he
    rw [List.mem_range] at hk hk'
    simp only [Function.comp_def, planeAttr, hS] at he
    obtain ⟨a, h1, h2, h3, h4, -⟩ := (c22_plane_basis_indexing rings S axis).2 k hk
    obtain ⟨a', h1', h2', h3', h4', -⟩ := (c22_plane_basis_indexing rings S axis).2 k' hk'
    rw [h1, h1'] at he
    simp only [planeIdent, Option.map_some, Option.some.injEq, Prod.mk.injEq] at he
    have hdef : ∀ {k a}, polarGet rings.length S.dim (gaussianGet rings) S.getItem k = some a →
        a.idx1 = k / S.dim ∧ a.idx2 = k % S.dim := by
      intro k a h
      unfold polarGet at h
      split_ifs at h
      split at h
      · cases h; exact ⟨rfl, rfl⟩
      · cases h
    obtain ⟨d1, d2⟩ := hdef h1
    obtain ⟨d1', d2'⟩ := hdef h1'
    have e1 : a.idx1 = a'.idx1 := by
      have x1 : (rings.map Prod.fst)[a.idx1]? = some a.radial.1.1 := by rw [List.getElem?_map, h3]; rfl
      have x2 : (rings.map Prod.fst)[a'.idx1]? = some a.radial.1.1 := by rw [List.getElem?_map, h3', he.2.2.1]; rfl
      obtain ⟨l1, -⟩ := List.getElem?_eq_some_iff.1 x1
      exact (List.getElem?_inj l1 hr).1 (x1.trans x2.symm)
    have e2 : a.idx2 = a'.idx2 := by
      rw [S.getItem_eq] at h4 h4'
      have x1 : (S.iter.map fun a => (a.inIdx, a.outIdx, a.innerIdx))[a.idx2]? = some (a.angular.inIdx, a.angular.outIdx, a.angular.innerIdx) := by
        rw [List.getElem?_map, h4]; rfl
      have x2 : (S.iter.map fun a => (a.inIdx, a.outIdx, a.innerIdx))[a'.idx2]? = some (a.angular.inIdx, a.angular.outIdx, a.angular.innerIdx) := by
        rw [List.getElem?_map, h4', he.1, he.2.1, he.2.2.2]; rfl
      obtain ⟨l1, -⟩ := List.getElem?_eq_some_iff.1 x1
      exact (List.getElem?_inj l1 (iter_triples_nodup S)).1 (x1.trans x2.symm)
    rw [d1, d1'] at e1
    rw [d2, d2'] at e2
    rw [← Nat.div_add_mod k S.dim, ← Nat.div_add_mod k' S.dim, e1, e2]

/-! ### A concrete expansion -/

/-- One input field and two output fields with the irrep of frequency 1 of SO(2), and the basis with only the identity. -/
noncomputable def idExp : Exp ℕ ℕ ℕ :=
  filterExp (fun _ => ⟨[SO2.irrep 1], Mat.one, Mat.one⟩) [0] [0, 0] 1 (fun _ => ((0 : ℝ), (0 : ℝ)))
    (fun _ _ => [(0, fun _ => Mat.one)]) (fun _ => true) (fun _ => 2) id id id

theorem idExp_gen : ∃ e, idExp.gen 0 0 = some [e] ∧ e.attr = 0 := by
  have hs : (SO2.irrep 1).size = 2 := rfl
  have hn : elemNorm 2 2 1 2 (fun r c _ => Mat.one r c) = 1 := by
    have : (∑ s ∈ range 1, ∑ o ∈ range 2, ∑ p ∈ range 2, (Mat.one o p : ℝ) * Mat.one o p) / (2 : ℕ) = 1 := by
      rw [Finset.sum_range_one, Finset.sum_range_succ, Finset.sum_range_one, Finset.sum_range_succ, Finset.sum_range_one,
        Finset.sum_range_succ, Finset.sum_range_one]; simp [Mat.one]
    rw [elemNorm]
    simp only [this]
    norm_num
  refine ⟨⟨0, normalizeElem 2 2 1 2 fun r c _ => Mat.one r c⟩, ?_, rfl⟩
  have hq : sqNorm 2 2 1 (normalizeElem 2 2 1 2 fun r c _ => Mat.one r c) > 1e-2 := by
    have : sqNorm 2 2 1 (normalizeElem 2 2 1 2 fun r c _ => Mat.one r c) = 2 := by
      simp only [sqNorm, normalizeElem, hn]
      rw [Finset.sum_range_succ, Finset.sum_range_one, Finset.sum_range_succ, Finset.sum_range_one,
        Finset.sum_range_succ, Finset.sum_range_one]; simp [Mat.one]; norm_num
    rw [this]; norm_num
  simp only [idExp, filterExp, singleBlock, Repr.size, List.map_cons, List.map_nil, List.sum_cons, List.sum_nil, hs, Nat.add_zero,
    List.filter_cons, List.filter_nil, if_true, hq, decide_true, reduceCtorEq, if_false]

/-- The hypotheses of `c23_filter_constraint` hold for this expansion, which has two parameters. -/
example : FilterInput (fun _ : ℕ => (⟨[SO2.irrep 1], Mat.one, Mat.one⟩ : Repr ℝ)) [0] [0, 0]
      (fun _ _ => [((0 : ℕ), fun _ : ℝ × ℝ => Mat.one)]) (id : ℕ → ℕ) ∧ idExp.pairs ≠ [] ∧ idExp.dimension = 2 ∧
    KernelConstraint SO2.grp rot 2 2 (SO2.irrep 1).mat (SO2.irrep 1).mat fun _ => Mat.one := by
  have hf : FilterInput (fun _ : ℕ => (⟨[SO2.irrep 1], Mat.one, Mat.one⟩ : Repr ℝ)) [0] [0, 0]
      (fun _ _ => [((0 : ℕ), fun _ : ℝ × ℝ => Mat.one)]) (id : ℕ → ℕ) :=
    ⟨by simp, by simp, fun _ _ => by decide, fun _ _ => by decide, fun _ _ _ _ => by simp⟩
  obtain ⟨e, he, ha⟩ := idExp_gen
  have hp : idExp.pairs = [(0, 0)] := by
    have : idExp.pairsRaw = [(0, 0)] := by
      have h1 : idExp.inT = [0] := rfl
      have h2 : idExp.outT = [0, 0] := rfl
      simp [Exp.pairsRaw, h1, h2, he]
    rw [Exp.pairs, this, List.mergeSort_singleton]
  have hb : idExp.block (0, 0) = [e] := by rw [Exp.block, he]; rfl
  refine ⟨hf, by simp [hp], ?_, ?_⟩
  · have hw : idExp.WF := filterExp_wf hf 1 (fun _ => ((0 : ℝ), (0 : ℝ))) (fun _ => true) (fun _ => 2) id id
    rw [Exp.WF.dimension_eq hw, Exp.total]
    change ((idExp.pairs.map idExp.len).sum) = 2
    rw [hp, List.map_cons, List.map_nil, Exp.len, hb]
    rfl
  · intro g hg p
    refine MEq.symm (MEq.trans (MEq.mul (MEq_mul_one _ _ _) (MEq.refl _)) ?_)
    exact (c05_so2_irreps 1).1.toIsRep.mul_inv SO2.invOk g hg

end E2
