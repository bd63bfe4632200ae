import Verif.Model.FieldLoop
import Verif.Lemmas.Tensor
import Mathlib.Data.List.Induction

/-!
# The loop over the groups of fields
-/

namespace E2

open Mat

variable {L V W : Type}

/-! ### The flags -/

theorem posOf_snoc [DecidableEq L] (ls : List L) (m l : L) : posOf (ls ++ [m]) l = posOf ls l ++ if m = l then [ls.length] else [] := by
  unfold posOf
  rw [List.length_append, List.length_singleton, List.range_succ, List.filter_append]
  congr 1
  · apply List.filter_congr
    intro i hi
    rw [List.mem_range] at hi
    rw [List.getElem?_append_left hi]
  · by_cases h : m = l <;> simp [h]

theorem posOf_length_eq [DecidableEq L] (labels : List L) (l : L) : (posOf labels l).length = labelCount labels l := by
  induction labels using List.reverseRecOn with
  | nil => rfl
  | append_singleton ls m ih =>
    rw [posOf_snoc, List.length_append, ih, labelCount, labelCount, List.count_append]
    congr 1
    by_cases h : m = l <;> simp [h]

theorem contigFlags_spec [DecidableEq L] (labels : List L) :
    (labels.foldl contigStep (none, fun _ => none)).1 = labels.getLast? ∧
    ∀ l, (contigFlags labels l = none ↔ l ∉ labels) ∧ (contigFlags labels l = some true → ∃ a n, posOf labels l = List.range' a (n + 1) ∧
      (labels.getLast? = some l → a + (n + 1) = labels.length)) := by
  induction labels using List.reverseRecOn with
  | nil => exact ⟨rfl, fun l => ⟨by simp [contigFlags], by simp [contigFlags]⟩⟩
  | append_singleton ls m ih =>
    obtain ⟨i1, i2⟩ := ih
    have hst : (ls ++ [m]).foldl contigStep (none, fun _ => none) = contigStep (ls.foldl contigStep (none, fun _ => none)) m := by simp
    unfold contigFlags at i2 ⊢
    rw [hst, contigStep]
    by_cases hm : some m ≠ (ls.foldl contigStep (none, fun _ => none)).1
    · rw [if_pos hm]
      refine ⟨by simp, fun l => ?_⟩
      dsimp only
      by_cases hl : l = m
      · subst hl
        rw [if_pos rfl]
        refine ⟨by simp, fun h => ?_⟩
        have hno : l ∉ ls := by
          have : ((ls.foldl contigStep (none, fun _ => none)).2 l).isNone = true := by simpa using h
          exact (i2 l).1.1 (Option.isNone_iff_eq_none.1 this)
        have hp : posOf ls l = [] := by
          apply List.eq_nil_iff_forall_not_mem.2
          intro i hi
          exact hno (List.mem_of_getElem? (mem_posOf.1 hi))
        refine ⟨ls.length, 0, ?_, fun _ => by simp⟩
        rw [posOf_snoc, hp]; simp
      · rw [if_neg hl]
        refine ⟨by rw [(i2 l).1]; simp [hl], fun h => ?_⟩
        obtain ⟨a, n, h1, -⟩ := (i2 l).2 h
        refine ⟨a, n, by rw [posOf_snoc, if_neg (Ne.symm hl), List.append_nil, h1], fun h => ?_⟩
        simp at h
        exact absurd h.symm hl
    · rw [if_neg hm]
      have hm : some m = ls.getLast? := by rw [← i1]; exact not_not.1 hm
      refine ⟨by rw [i1, ← hm]; simp, fun l => ?_⟩
      have hmem : m ∈ ls := List.mem_of_getLast? hm.symm
      refine ⟨by rw [(i2 l).1]; by_cases h : l = m <;> simp [h, hmem], fun h => ?_⟩
      obtain ⟨a, n, h1, h2⟩ := (i2 l).2 h
      by_cases hl : l = m
      · subst hl
        have := h2 hm.symm
        refine ⟨a, n + 1, ?_, fun _ => by simp; omega⟩
        rw [posOf_snoc, if_pos rfl, h1, List.range'_concat (s := a) (n := n + 1), Nat.one_mul, this]
      · refine ⟨a, n, by rw [posOf_snoc, if_neg (Ne.symm hl), List.append_nil, h1], fun h => ?_⟩
        simp at h
        exact absurd h.symm hl

/-- The flag is only true for lists of consecutive indices. -/
def FlagOk (b : Bool) (idx : List ℕ) : Prop := b = true → ∃ a n, idx = List.range' a (n + 1)

theorem readGroup_ok {x : List V} {b : Bool} {idx : List ℕ} (h : FlagOk b idx) (hlt : ∀ i ∈ idx, i < x.length) :
    readGroup x b idx = gather x idx := by
  cases b with
  | false => rfl
  | true =>
    obtain ⟨a, n, rfl⟩ := h rfl
    have hb := hlt (a + n) (by rw [List.mem_range'_1]; omega)
    rw [readGroup, if_pos rfl, min?_range', max?_range', gather_range' x a (n + 1) (by omega)]
    dsimp only
    rw [pySlice, List.drop_take]
    congr 2
    omega

theorem writeGroup_ok {x : List V} {b : Bool} {idx : List ℕ} (h : FlagOk b idx) (hlt : ∀ i ∈ idx, i < x.length) {vals : List V}
    (hv : vals.length = idx.length) : writeGroup x b idx vals = some (writeIdx x idx vals) := by
  rw [writeGroup, if_pos hv]
  cases b with
  | false => rw [if_neg (by simp), if_pos hlt]
  | true =>
    obtain ⟨a, n, rfl⟩ := h rfl
    have hb := hlt (a + n) (by rw [List.mem_range'_1]; omega)
    rw [if_pos rfl, min?_range', max?_range']
    rw [List.length_range'] at hv
    rw [← hv, writeIdx_range' x a vals (by omega)]
    dsimp only
    congr 2
    omega

theorem chanIdx_run (s : List ℕ) (a n : ℕ) (h : a + n ≤ s.length) :
    chanIdx s (List.range' a n) = List.range' (offset s a) (offset s (a + n) - offset s a) := by
  induction n generalizing a with
  | zero => simp [chanIdx]
  | succ n ih =>
    have h1 : offset s (a + 1) = offset s a + s[a] := offset_succ s (by omega)
    have h2 : offset s (a + 1) ≤ offset s (a + 1 + n) := offset_mono s (by omega)
    rw [List.range'_succ, chanIdx, List.flatMap_cons, ← chanIdx, ih (a + 1) (by omega), List.getElem?_eq_getElem (by omega), Option.getD_some]
    rw [show a + (n + 1) = a + 1 + n by omega]
    rw [show offset s (a + 1 + n) - offset s a = s[a] + (offset s (a + 1 + n) - offset s (a + 1)) by omega, h1]
    rw [List.range'_append_1]

theorem flagOk_contig [DecidableEq L] (labels : List L) (sizes : List ℕ) (hl : labels.length = sizes.length) (hpos : ∀ s ∈ sizes, 0 < s) (l : L)
    (b : Bool) (hb : contigFlags labels l = some b) : FlagOk b (chanIdx sizes (posOf labels l)) ∧ FlagOk b (posOf labels l) := by
  constructor
  · rintro rfl
    obtain ⟨a, n, h1, -⟩ := ((contigFlags_spec labels).2 l).2 hb
    have hlt : a + n < sizes.length := by
      have : a + n ∈ posOf labels l := by rw [h1, List.mem_range'_1]; omega
      rw [← hl]; exact posOf_lt this
    rw [h1, chanIdx_run _ _ _ (by omega)]
    have e : offset sizes (a + 1) = offset sizes a + sizes[a] := offset_succ sizes (by omega)
    have e2 : offset sizes (a + 1) ≤ offset sizes (a + (n + 1)) := offset_mono sizes (by omega)
    have e3 := hpos _ (List.getElem_mem (h := (by omega : a < sizes.length)))
    refine ⟨offset sizes a, offset sizes (a + (n + 1)) - offset sizes a - 1, ?_⟩
    congr 1
    omega
  · rintro rfl
    obtain ⟨a, n, h1, -⟩ := ((contigFlags_spec labels).2 l).2 hb
    exact ⟨a, n, h1⟩

/-! ### The loop -/

theorem viewFields_eq (s n : ℕ) (hs : 0 < s) (g : List V) (hg : g.length = n * s) : viewFields s g = chunks (List.replicate n s) g := by
  rw [viewFields, hg, Nat.mul_div_cancel _ hs]

/-- The values which the loop writes, field by field, from the fields of the input. -/
def loopVals (fx : List (List V)) (pin : L → List ℕ) (nf : L → ℕ) (φ : L → ℕ → List V → List W) : List L → ℕ → List (List W)
  | [], _ => []
  | l :: ls, next => (((gather fx (pin l)).getD []).mapIdx fun k fld => φ l (next + k) fld) ++ loopVals fx pin nf φ ls (next + nf l)

theorem fieldLoop_vals (x : List V) (si so : List ℕ) (hx : x.length = si.sum) (contig : L → Bool) (pin pout : L → List ℕ) (s os : L → ℕ)
    (φ : L → ℕ → List V → List W) (order : List L)
    (hs : ∀ l ∈ order, 0 < s l) (hpin : ∀ l ∈ order, ∀ c ∈ pin l, si[c]? = some (s l)) (hpout : ∀ l ∈ order, ∀ c ∈ pout l, so[c]? = some (os l))
    (hlen : ∀ l ∈ order, (pin l).length = (pout l).length)
    (hfi : ∀ l ∈ order, FlagOk (contig l) (chanIdx si (pin l))) (hfo : ∀ l ∈ order, FlagOk (contig l) (chanIdx so (pout l)))
    (hφ : ∀ l ∈ order, ∀ k fld, fld.length = s l → (φ l k fld).length = os l) (next : ℕ) (out : List W) (hout : out.length = so.sum) :
    ∃ y, fieldLoop x contig (fun l => chanIdx si (pin l)) (fun l => chanIdx so (pout l)) (fun l => (pin l).length)
        (fun l => eachField (s l) (φ l)) order next out = some y ∧ y.length = so.sum ∧
      chunks so y = writeIdx (chunks so out) (order.flatMap pout) (loopVals (chunks si x) pin (fun l => (pin l).length) φ order next) ∧
      (loopVals (chunks si x) pin (fun l => (pin l).length) φ order next).length = (order.flatMap pout).length := by
  induction order generalizing next out with
  | nil => exact ⟨out, rfl, hout, rfl, rfl⟩
  | cons l order ih =>
    have hlt : ∀ c ∈ pin l, c < si.length := fun c hc => (List.getElem?_eq_some_iff.1 (hpin l (by simp) c hc)).1
    have hlto : ∀ c ∈ pout l, c < so.length := fun c hc => (List.getElem?_eq_some_iff.1 (hpout l (by simp) c hc)).1
    obtain ⟨g, hg1, hg2, hg3⟩ := chunks_gather si x hx (pin l) hlt
    have hsz : (pin l).map (fun c => si[c]?.getD 0) = List.replicate (pin l).length (s l) := by
      rw [List.eq_replicate_iff]
      refine ⟨by simp, fun b hb => ?_⟩
      obtain ⟨c, hc, rfl⟩ := List.mem_map.1 hb
      rw [hpin l (by simp) c hc]; rfl
    have hsz' : (pout l).map (fun c => so[c]?.getD 0) = List.replicate (pout l).length (os l) := by
      rw [List.eq_replicate_iff]
      refine ⟨by simp, fun b hb => ?_⟩
      obtain ⟨c, hc, rfl⟩ := List.mem_map.1 hb
      rw [hpout l (by simp) c hc]; rfl
    rw [hsz] at hg2 hg3
    have hgl : g.length = (pin l).length * s l := by rw [hg3]; simp
    have hread : readGroup x (contig l) (chanIdx si (pin l)) = some g := by
      rw [readGroup_ok (hfi l (by simp)) fun i hi => by rw [hx]; exact chanIdx_lt si _ hlt i hi, hg1]
    set vals := (chunks (List.replicate (pin l).length (s l)) g).mapIdx (fun k fld => φ l (next + k) fld) with hvals
    have hef : eachField (s l) (φ l) next g = vals.flatten := by
      rw [eachField, viewFields_eq _ _ (hs l (by simp)) g hgl]
    have hvlen : vals.map List.length = (pout l).map fun c => so[c]?.getD 0 := by
      rw [hsz', List.eq_replicate_iff]
      refine ⟨by simp [hvals, chunks_length, hlen l (by simp)], fun b hb => ?_⟩
      obtain ⟨v, hv, rfl⟩ := List.mem_map.1 hb
      obtain ⟨k, hk, rfl⟩ := List.mem_iff_getElem.1 hv
      simp only [hvals, List.getElem_mapIdx]
      apply hφ l (by simp)
      have h1 := chunks_map_length (List.replicate (pin l).length (s l)) g hg3
      have h2 := List.eq_replicate_iff.1 h1
      exact h2.2 _ (List.mem_map_of_mem (List.getElem_mem _))
    have hfl : vals.flatten.length = (chanIdx so (pout l)).length := by
      rw [List.length_flatten, hvlen, chanIdx, List.length_flatMap]
      simp
    have hwrite : writeGroup out (contig l) (chanIdx so (pout l)) vals.flatten = some (writeIdx out (chanIdx so (pout l)) vals.flatten) :=
      writeGroup_ok (hfo l (by simp)) (fun i hi => by rw [hout]; exact chanIdx_lt so _ hlto i hi) hfl
    obtain ⟨y, h1, h2, h3, h4⟩ := ih (fun m hm => hs m (by simp [hm])) (fun m hm => hpin m (by simp [hm])) (fun m hm => hpout m (by simp [hm]))
      (fun m hm => hlen m (by simp [hm])) (fun m hm => hfi m (by simp [hm])) (fun m hm => hfo m (by simp [hm]))
      (fun m hm => hφ m (by simp [hm])) (next + (pin l).length) (writeIdx out (chanIdx so (pout l)) vals.flatten)
      (by rw [writeIdx_length, hout])
    have hvl : vals.length = (pout l).length := by simpa using congrArg List.length hvlen
    refine ⟨y, ?_, h2, ?_, ?_⟩
    · rw [fieldLoop, hread]
      dsimp only
      rw [hef, hwrite]
      exact h1
    · rw [h3, chunks_writeIdx so out hout (pout l) hlto vals hvlen, List.flatMap_cons, loopVals, hg2, Option.getD_some, writeIdx_append _ _ _ _ _ hvl.symm]
    · rw [List.flatMap_cons, loopVals, hg2, Option.getD_some, List.length_append, List.length_append, h4, ← hvl]

/-- The value for each field of the output. -/
theorem loopVals_get (fx : List (List V)) (pin pout : L → List ℕ) (φ : L → ℕ → List V → List W) (order : List L)
    (hlt : ∀ l ∈ order, ∀ c ∈ pin l, c < fx.length) (hlen : ∀ l ∈ order, (pin l).length = (pout l).length) (next : ℕ) {j p q : ℕ} 
    (hp : (order.flatMap pin)[j]? = some p) (hq : (order.flatMap pout)[j]? = some q) :
    ∃ l ∈ order, p ∈ pin l ∧ q ∈ pout l ∧
      (loopVals fx pin (fun l => (pin l).length) φ order next)[j]? = (fx[p]?).map (φ l (next + j)) := by
  induction order generalizing next j with
  | nil => simp at hp
  | cons l order ih =>
    rw [List.flatMap_cons] at hp hq
    obtain ⟨y, hy⟩ := gather_isSome fx (pin l) (hlt l (by simp))
    have hyl := gather_length hy
    have hl := hlen l (by simp)
    rw [loopVals, hy, Option.getD_some]
    by_cases hj : j < (pin l).length
    · rw [List.getElem?_append_left hj] at hp
      rw [List.getElem?_append_left (by omega)] at hq
      refine ⟨l, by simp, List.mem_of_getElem? hp, List.mem_of_getElem? hq, ?_⟩
      rw [List.getElem?_append_left (by simp [hyl, hj]), List.getElem?_mapIdx]
      have := congrArg (·[j]?) ((gather_some_iff _ _ _).1 hy)
      simp only [List.getElem?_map, hp, Option.map_some] at this
      rw [List.getElem?_eq_getElem (by omega : j < y.length)] at this ⊢
      simp only [Option.map_some, Option.some.injEq] at this
      rw [this]
    · rw [List.getElem?_append_right (by omega)] at hp
      rw [List.getElem?_append_right (by omega)] at hq
      obtain ⟨m, hm, h1, h2, h3⟩ := ih (fun m hm => hlt m (by simp [hm])) (fun m hm => hlen m (by simp [hm])) (next + (pin l).length) hp (hl ▸ hq)
      refine ⟨m, by simp [hm], h1, h2, ?_⟩
      rw [List.getElem?_append_right (by simp [hyl]; omega)]
      simp only [List.length_mapIdx, hyl]
      rw [h3]
      congr 2
      omega

/-- The fields in the order in which a loop over the labels `order` visits them. -/
def fieldOrder [DecidableEq L] (labels : List L) (order : List L) : List ℕ := order.flatMap (posOf labels)

theorem fieldOrder_nodup [DecidableEq L] (labels order : List L) (hn : order.Nodup) : (fieldOrder labels order).Nodup := by
  rw [fieldOrder, List.nodup_flatMap]
  refine ⟨fun l _ => posOf_nodup _ _, ?_⟩
  refine hn.imp fun {a b} hab => ?_
  intro i hi hj
  rw [mem_posOf] at hi hj
  rw [hi] at hj
  exact hab (Option.some.inj hj)

theorem fieldOrder_perm [DecidableEq L] (labels order : List L) (hn : order.Nodup) (hm : ∀ l ∈ labels, l ∈ order) :
    (fieldOrder labels order).Perm (List.range labels.length) := by
  rw [List.perm_ext_iff_of_nodup (fieldOrder_nodup labels order hn) List.nodup_range]
  intro i
  rw [fieldOrder, List.mem_flatMap, List.mem_range]
  constructor
  · rintro ⟨l, -, h⟩; exact posOf_lt h
  · intro h
    exact ⟨labels[i], hm _ (List.getElem_mem h), mem_posOf.2 (List.getElem?_eq_getElem h)⟩

/-- What the loop computes: field `c` of the output is `φ` of field `c` of the input, with the number of the field in the order of the loop. -/
theorem fieldLoop_spec [DecidableEq L] (x : List V) (labels : List L) (si so : List ℕ) (hx : x.length = si.sum) (hli : labels.length = si.length)
    (hlo : labels.length = so.length) (contig : L → Bool) (s os : L → ℕ) (φ : L → ℕ → List V → List W) (order : List L)
    (hn : order.Nodup) (hs : ∀ l ∈ order, 0 < s l)
    (hsi : ∀ (c : ℕ) l, labels[c]? = some l → si[c]? = some (s l)) (hso : ∀ (c : ℕ) l, labels[c]? = some l → so[c]? = some (os l))
    (hfi : ∀ l ∈ order, FlagOk (contig l) (labelChannels labels si l)) (hfo : ∀ l ∈ order, FlagOk (contig l) (labelChannels labels so l))
    (hφ : ∀ l ∈ order, ∀ k fld, fld.length = s l → (φ l k fld).length = os l) (out : List W) (hout : out.length = so.sum) :
    ∃ y, fieldLoop x contig (labelChannels labels si) (labelChannels labels so) (labelCount labels) (fun l => eachField (s l) (φ l)) order 0 out
        = some y ∧ y.length = so.sum ∧
      ∀ j c : ℕ, (fieldOrder labels order)[j]? = some c → ∃ l, labels[c]? = some l ∧ (chunks so y)[c]? = ((chunks si x)[c]?).map (φ l j) := by
  have e1 : labelChannels labels si = fun l => chanIdx si (posOf labels l) := by funext l; exact (labelIdx_eq labels si hli l).1
  have e2 : labelChannels labels so = fun l => chanIdx so (posOf labels l) := by funext l; exact (labelIdx_eq labels so hlo l).1
  have e3 : labelCount labels = fun l => (posOf labels l).length := by funext l; exact (posOf_length_eq labels l).symm
  rw [e1] at hfi
  rw [e2] at hfo
  obtain ⟨y, h1, h2, h3, h4⟩ := fieldLoop_vals x si so hx contig (posOf labels) (posOf labels) s os φ order hs
    (fun l _ c hc => hsi c l (mem_posOf.1 hc)) (fun l _ c hc => hso c l (mem_posOf.1 hc)) (fun _ _ => rfl) hfi hfo hφ 0 out hout
  rw [e1, e2, e3]
  refine ⟨y, h1, h2, fun j c hc => ?_⟩
  obtain ⟨l, hl, hcl, -, h5⟩ := loopVals_get (chunks si x) (posOf labels) (posOf labels) φ order
    (fun l _ c hc => by rw [chunks_length, ← hli]; exact posOf_lt hc) (fun _ _ => rfl) 0 hc hc
  refine ⟨l, mem_posOf.1 hcl, ?_⟩
  rw [Nat.zero_add] at h5
  rw [h3, ← h5]
  have hcx : c < (chunks so out).length := by rw [chunks_length, ← hlo]; exact posOf_lt hcl
  have hnd := fieldOrder_nodup labels order hn
  rw [← fieldOrder] at h4 ⊢
  rw [writeIdx_get _ _ _ hnd h4.symm ?_, if_pos (List.mem_of_getElem? hc)]
  · congr 1
    obtain ⟨hj, rfl⟩ := List.getElem?_eq_some_iff.1 hc
    exact hnd.idxOf_getElem j hj
  · intro i hi
    obtain ⟨m, -, hm⟩ := List.mem_flatMap.1 hi
    rw [chunks_length, ← hlo]; exact posOf_lt hm

end E2
