import Verif.Model.ExpansionEq
import Verif.Lemmas.Forward
import Verif.Props.Init

/-!
# C86: expansions which compare equal have the same initialisation and the same filters

`c60_he_cache` assumed that expansions which compare equal have the same standard deviations.  Here this is proved for `BlocksBasisExpansion.__eq__`: the
two expansions may belong to layers with different types, for instance when a field has no basis element.
-/

set_option linter.unusedSectionVars false

namespace E2

open Finset Mat

variable {F A I Nm : Type} [DecidableEq Nm]

/-! ## The standard deviations depend only on the grouping of the parameters -/

theorem heVars_congr (n : ℕ) (L : List (WInfo Nm × WInfo Nm)) (hin : ∀ q ∈ L, q.1.inIrr = q.2.inIrr)
    (hout : ∀ q ∈ L, ∀ r ∈ L, (q.1.outPos = r.1.outPos ↔ q.2.outPos = r.2.outPos)) :
    heVars n (L.map Prod.fst) = heVars n (L.map Prod.snd) := by
  have hlen : ∀ l : List (WInfo Nm), ∀ o, ((heCounts l).inputs o).length = (inputTypes l o).card := fun l o => by
    rw [← (heCounts_inputs l o).2, List.toFinset_card_of_nodup (heCounts_inputs l o).1]
  have h1 : ∀ q ∈ L, inputTypes (L.map Prod.fst) q.1.outPos = inputTypes (L.map Prod.snd) q.2.outPos := by
    intro q hq
    unfold inputTypes
    congr 1
    rw [List.filter_map, List.filter_map, List.map_map, List.map_map]
    rw [show (L.filter ((fun a : WInfo Nm => decide (a.outPos = q.1.outPos)) ∘ Prod.fst)) = L.filter ((fun a : WInfo Nm => decide (a.outPos = q.2.outPos)) ∘ Prod.snd) from
      List.filter_congr fun r hr => by simp only [Function.comp, decide_eq_decide]; exact hout r hr q hq]
    exact List.map_congr_left fun r hr => hin r (List.mem_of_mem_filter hr)
  have h2 : ∀ q ∈ L, (heCounts (L.map Prod.fst)).basis q.1.inIrr q.1.outPos = (heCounts (L.map Prod.snd)).basis q.2.inIrr q.2.outPos := by
    intro q hq
    rw [heCounts_basis, heCounts_basis, List.filter_map, List.filter_map, List.length_map, List.length_map]
    congr 1
    apply List.filter_congr
    intro r hr
    simp only [Function.comp, decide_eq_decide]
    rw [hout r hr q hq, hin r hr, hin q hq]
  unfold heVars
  simp only [List.length_map]
  congr 2
  rw [List.map_map, List.map_map]
  congr 1
  apply List.map_congr_left
  intro q hq
  simp only [Function.comp]
  rw [hlen, hlen, h1 q hq, h2 q hq]

namespace Exp

variable [LinearOrder F] [DecidableEq I]

/-! ## Equal expansions have equal index lists -/

theorem mem_meshIn (a b : List ℕ) (h : a ≠ []) (x : ℕ) : x ∈ meshIn a b ↔ x ∈ b := by
  rw [meshIn, List.mem_flatMap]
  obtain ⟨y, hy⟩ := List.exists_mem_of_ne_nil _ h
  exact ⟨fun ⟨_, _, h⟩ => h, fun h => ⟨y, hy, h⟩⟩

theorem mem_meshOut (a b : List ℕ) (h : b ≠ []) (x : ℕ) : x ∈ meshOut a b ↔ x ∈ a := by
  rw [meshOut, List.mem_flatMap]
  obtain ⟨y, hy⟩ := List.exists_mem_of_ne_nil _ h
  constructor
  · rintro ⟨z, hz, hx⟩
    obtain ⟨_, _, rfl⟩ := List.mem_map.1 hx
    exact hz
  · exact fun h => ⟨x, h, List.mem_map.2 ⟨y, hy, rfl⟩⟩

theorem sorted_ext {a b : List ℕ} (ha : a.Pairwise (· < ·)) (hb : b.Pairwise (· < ·)) (h : ∀ x, x ∈ a ↔ x ∈ b) : a = b :=
  List.Perm.eq_of_pairwise (fun _ _ _ _ h1 h2 => absurd h1 (Nat.lt_asymm h2)) ha hb
    ((List.perm_ext_iff_of_nodup (ha.imp fun h => Nat.ne_of_lt h) (hb.imp fun h => Nat.ne_of_lt h)).2 h)

theorem range'_of_rectIdx {a m a' m' : ℕ} (hm : 0 < m) (hm' : 0 < m') (h : rectIdx (List.range' a m) = rectIdx (List.range' a' m')) :
    a = a' ∧ m = m' := by
  obtain ⟨m, rfl⟩ : ∃ k, m = k + 1 := ⟨m - 1, by omega⟩
  obtain ⟨m', rfl⟩ : ∃ k, m' = k + 1 := ⟨m' - 1, by omega⟩
  rw [rectIdx, rectIdx, min?_range', max?_range', min?_range', max?_range'] at h
  simp only [Option.getD_some, List.cons.injEq] at h
  omega

variable {S : ℕ} {E E' : Exp F A I}

theorem eqv.idx (h : eqv S E E') (hE : E.WF) (hE' : E'.WF) {p : F × F} (hp : p ∈ E.pairs) :
    E.indices E.inT p.1 = E'.indices E'.inT p.1 ∧ E.indices E.outT p.2 = E'.indices E'.outT p.2 := by
  obtain ⟨hc, _, hi, ho, _⟩ := h.2.2 p hp
  obtain ⟨m1, m2, _⟩ := (E.mem_pairs p).1 hp
  obtain ⟨m1', m2', _⟩ := (E'.mem_pairs p).1 (h.2.1 ▸ hp)
  have n1 := E.indices_ne m1 (hE.inSz _ m1)
  have n2 := E.indices_ne m2 (hE.outSz _ m2)
  have n1' := E'.indices_ne m1' (hE'.inSz _ m1')
  have n2' := E'.indices_ne m2' (hE'.outSz _ m2')
  unfold inBuf at hi
  unfold outBuf at ho
  by_cases hcc : E.pairContig p
  · rw [if_pos hcc, if_pos (hc.1 hcc)] at hi ho
    have key : ∀ (E : Exp F A I) (t : List F) (n : F), n ∈ t → 0 < E.sz n → E.contig t n = some true →
        ∃ a m, 0 < m ∧ E.indices t n = List.range' a m := by
      intro E t n hn hs hct
      obtain ⟨b, hb, hb'⟩ := E.contig_eq hn hs
      rw [hct, Option.some.injEq] at hb
      obtain ⟨a, m, he⟩ := hb'.1 hb.symm
      refine ⟨a, m, Nat.pos_of_ne_zero fun h => E.indices_ne hn hs (by rw [he, h]; rfl), he⟩
    obtain ⟨a1, k1, p1, e1⟩ := key E _ _ m1 (hE.inSz _ m1) hcc.1
    obtain ⟨a2, k2, p2, e2⟩ := key E _ _ m2 (hE.outSz _ m2) hcc.2
    obtain ⟨a3, k3, p3, e3⟩ := key E' _ _ m1' (hE'.inSz _ m1') (hc.1 hcc).1
    obtain ⟨a4, k4, p4, e4⟩ := key E' _ _ m2' (hE'.outSz _ m2') (hc.1 hcc).2
    rw [e1, e3] at hi
    rw [e2, e4] at ho
    obtain ⟨r1, r2⟩ := range'_of_rectIdx p1 p3 hi
    obtain ⟨r3, r4⟩ := range'_of_rectIdx p2 p4 ho
    rw [e1, e2, e3, e4, r1, r2, r3, r4]
    exact ⟨rfl, rfl⟩
  · rw [if_neg hcc, if_neg fun h => hcc (hc.2 h)] at hi ho
    refine ⟨sorted_ext (E.indices_pairwise _ _) (E'.indices_pairwise _ _) fun x => ?_,
      sorted_ext (E.indices_pairwise _ _) (E'.indices_pairwise _ _) fun x => ?_⟩
    · rw [← mem_meshIn _ _ n2, hi, mem_meshIn _ _ n2']
    · rw [← mem_meshOut _ _ n1, ho, mem_meshOut _ _ n1']

theorem eqv.counts (h : eqv S E E') (hE : E.WF) (hE' : E'.WF) {p : F × F} (hp : p ∈ E.pairs) :
    E.inT.count p.1 = E'.inT.count p.1 ∧ E.outT.count p.2 = E'.outT.count p.2 ∧ (E.block p).length = (E'.block p).length := by
  obtain ⟨_, _, _, _, ⟨s1, s2⟩, _, hb⟩ := h.2.2 p hp
  obtain ⟨h1, h2⟩ := h.idx hE hE' hp
  obtain ⟨m1, m2, _⟩ := (E.mem_pairs p).1 hp
  have l1 := congrArg List.length h1
  have l2 := congrArg List.length h2
  rw [indices_eq, indices_eq, chanIdx_posOf_length, chanIdx_posOf_length, ← s1] at l1
  rw [indices_eq, indices_eq, chanIdx_posOf_length, chanIdx_posOf_length, ← s2] at l2
  exact ⟨Nat.eq_of_mul_eq_mul_right (hE.inSz _ m1) l1, Nat.eq_of_mul_eq_mul_right (hE.outSz _ m2) l2, hb.length_eq⟩

theorem eqv.len (h : eqv S E E') (hE : E.WF) (hE' : E'.WF) {p : F × F} (hp : p ∈ E.pairs) : E.len p = E'.len p := by
  obtain ⟨h1, h2, h3⟩ := h.counts hE hE' hp
  rw [Exp.len, Exp.len, h1, h2, h3]

theorem eqv.lens (h : eqv S E E') (hE : E.WF) (hE' : E'.WF) : E.pairs.map E.len = E'.pairs.map E'.len := by
  rw [← h.2.1]
  exact List.map_congr_left fun p hp => h.len hE hE' hp

theorem eqv.start (h : eqv S E E') (hE : E.WF) (hE' : E'.WF) (j : ℕ) : E.start j = E'.start j := by
  rw [Exp.start, Exp.start, h.lens hE hE']

theorem eqv.total (h : eqv S E E') (hE : E.WF) (hE' : E'.WF) : E.total = E'.total := by
  rw [Exp.total, Exp.total, h.lens hE hE']

/-- A parameter belongs to corresponding elements of the two bases. -/
theorem eqv.info (h : eqv S E E') (hE : E.WF) (hE' : E'.WF) {k : ℕ} (hk : k < E.total) :
    ∃ (j po : ℕ) (p : F × F) (o i o' i' : ℕ) (b b' : Elem A), E.pairs[j]? = some p ∧ b ∈ E.block p ∧
      (posOf E.outT p.2)[po]? = some o ∧ (posOf E'.outT p.2)[po]? = some o' ∧ b.attr = b'.attr ∧
      E.basisInfo[k]? = some (E.infoAt p o i b k) ∧ E'.basisInfo[k]? = some (E'.infoAt p o' i' b' k) := by
  obtain ⟨j, po, pi, e, o, i, p, b, hj, ho, hi, he, _, rfl⟩ := E.decode hk
  have hp := List.mem_of_getElem? hj
  obtain ⟨c1, c2, c3⟩ := h.counts hE hE' hp
  obtain ⟨_, _, _, _, _, _, hb⟩ := h.2.2 p hp
  have lo : po < (posOf E'.outT p.2).length := by rw [posOf_length, ← c2, ← posOf_length]; exact (List.getElem?_eq_some_iff.1 ho).1
  have li : pi < (posOf E'.inT p.1).length := by rw [posOf_length, ← c1, ← posOf_length]; exact (List.getElem?_eq_some_iff.1 hi).1
  obtain ⟨le, hbe⟩ := List.getElem?_eq_some_iff.1 he
  have le' : e < (E'.block p).length := c3 ▸ le
  have hbb := ((List.forall₂_iff_get.1 hb).2 e le le').1
  refine ⟨j, po, p, o, i, (posOf E'.outT p.2)[po], (posOf E'.inT p.1)[pi], b, (E'.block p)[e], hj, List.mem_of_getElem? he, ho,
    List.getElem?_eq_getElem lo, by rw [← hbe]; exact hbb, E.basisInfo_get hj ho hi he, ?_⟩
  rw [h.start hE hE' j, c1, c3]
  exact E'.basisInfo_get (h.2.1 ▸ hj) (List.getElem?_eq_getElem lo) (List.getElem?_eq_getElem li) (List.getElem?_eq_getElem le')

/-- Positions of irreps: the same irrep of the same field. -/
theorem irr_inj (E : Exp F A I) {t : List F} {n m : F} {po po' o o' a a' : ℕ} (ho : (posOf t n)[po]? = some o) (ho' : (posOf t m)[po']? = some o')
    (ha : a < E.nIrr n) (ha' : a' < E.nIrr m) :
    (offset (t.map E.nIrr) o + a = offset (t.map E.nIrr) o' + a' ↔ n = m ∧ po = po' ∧ a = a') := by
  obtain ⟨l1, g1⟩ := posOf_get_lt ho
  obtain ⟨l2, g2⟩ := posOf_get_lt ho'
  constructor
  · intro he
    obtain ⟨q1, g1'⟩ := List.getElem?_eq_some_iff.1 g1
    obtain ⟨q2, g2'⟩ := List.getElem?_eq_some_iff.1 g2
    obtain ⟨e1, e2⟩ := offset_inj (t.map E.nIrr) (k := o) (l := o') (x := a) (y := a') (by simpa using l1) (by simpa using l2)
      (by rw [List.getElem_map, g1']; exact ha) (by rw [List.getElem_map, g2']; exact ha') he
    subst e1
    rw [g1, Option.some.injEq] at g2
    subst g2
    refine ⟨rfl, ?_, e2⟩
    obtain ⟨x1, x2⟩ := List.getElem?_eq_some_iff.1 ho
    obtain ⟨x3, x4⟩ := List.getElem?_eq_some_iff.1 ho'
    exact (posOf_nodup t n).getElem_inj_iff.1 (x2.trans x4.symm)
  · rintro ⟨rfl, rfl, rfl⟩
    rw [ho, Option.some.injEq] at ho'
    rw [ho']

/-! ## The filters -/

/-- The entry of the filter at two channels. -/
theorem forward_at {E : Exp F A I} (hE : E.WF) (hone : E.nPairs = 1 → E.pairs ≠ []) (w : List ℝ) (hw : w.length = E.dimension) :
    ∃ f, E.forward w = some f ∧ ∀ a b s, a < (E.outT.map E.sz).sum → b < (E.inT.map E.sz).sum →
      (∀ (j : ℕ) (p : F × F) (x y : ℕ), E.pairs[j]? = some p → (E.indices E.outT p.2)[x]? = some a → (E.indices E.inT p.1)[y]? = some b →
        f a b s = E.val w j p (x / E.sz p.2) (y / E.sz p.1) (x % E.sz p.2) (y % E.sz p.1) s) ∧
      ((∀ p ∈ E.pairs, ¬ (a ∈ E.indices E.outT p.2 ∧ b ∈ E.indices E.inT p.1)) → f a b s = 0) := by
  obtain ⟨f, hf, H⟩ := forward_eq hE hone w hw
  refine ⟨f, hf, ?_⟩
  intro a b s ha hb
  obtain ⟨o, ho, r, hr, rfl⟩ := exists_offset _ ha
  obtain ⟨i, hi, c, hc, rfl⟩ := exists_offset _ hb
  have ho' : o < E.outT.length := by simpa using ho
  have hi' : i < E.inT.length := by simpa using hi
  rw [List.getElem_map] at hr hc
  have go := List.getElem?_eq_getElem ho'
  have gi := List.getElem?_eq_getElem hi'
  obtain ⟨H1, H2⟩ := H o i r c s _ _ go gi hr hc
  have mo : ∀ n, offset (E.outT.map E.sz) o + r ∈ E.indices E.outT n ↔ E.outT[o] = n := fun n => by
    rw [indices_eq]; exact mem_chanIdx_posOf E.sz E.outT n go hr
  have mi : ∀ n, offset (E.inT.map E.sz) i + c ∈ E.indices E.inT n ↔ E.inT[i] = n := fun n => by
    rw [indices_eq]; exact mem_chanIdx_posOf E.sz E.inT n gi hc
  constructor
  · intro j p x y hj hx hy
    have e1 := (mo _).1 (List.mem_of_getElem? hx)
    have e2 := (mi _).1 (List.mem_of_getElem? hy)
    have hp : p = (E.inT[i], E.outT[o]) := Prod.ext e2.symm e1.symm
    subst hp
    obtain ⟨po, hpo⟩ := posOf_rank go
    obtain ⟨pi, hpi⟩ := posOf_rank gi
    have uniq : ∀ (l : List ℕ), l.Pairwise (· < ·) → ∀ (u v z : ℕ), l[u]? = some z → l[v]? = some z → u = v := by
      intro l hl u v z hu hv
      obtain ⟨u1, u2⟩ := List.getElem?_eq_some_iff.1 hu
      obtain ⟨v1, v2⟩ := List.getElem?_eq_some_iff.1 hv
      have hn : l.Nodup := hl.imp fun h => Nat.ne_of_lt h
      exact hn.getElem_inj_iff.1 (u2.trans v2.symm)
    have hx' : x = po * E.sz E.outT[o] + r := uniq _ (E.indices_pairwise _ _) _ _ _ hx (by rw [indices_eq]; exact chanIdx_get E.sz E.outT _ hpo hr)
    have hy' : y = pi * E.sz E.inT[i] + c := uniq _ (E.indices_pairwise _ _) _ _ _ hy (by rw [indices_eq]; exact chanIdx_get E.sz E.inT _ hpi hc)
    rw [H2 j po pi hj hpo hpi, hx', hy']
    dsimp only
    rw [(divmod po _ _ hr).1, (divmod po _ _ hr).2, (divmod pi _ _ hc).1, (divmod pi _ _ hc).2]
  · intro h
    apply H1
    intro hp
    exact h _ hp ⟨(mo _).2 rfl, (mi _).2 rfl⟩

theorem eqv.val (h : eqv S E E') (hE : E.WF) (hE' : E'.WF) (w : List ℝ) {j : ℕ} {p : F × F} (hp : p ∈ E.pairs) {po pi r c s : ℕ} (hr : r < E.sz p.2)
    (hc : c < E.sz p.1) (hs : s < S) : E.val w j p po pi r c s = E'.val w j p po pi r c s := by
  obtain ⟨c1, c2, c3⟩ := h.counts hE hE' hp
  obtain ⟨_, _, _, _, _, _, hb⟩ := h.2.2 p hp
  unfold Exp.val blockForward
  rw [c3]
  apply Finset.sum_congr rfl
  intro e he
  have he' := Finset.mem_range.1 he
  rw [List.getElem?_eq_getElem he', List.getElem?_eq_getElem (c3 ▸ he'), c1, h.start hE hE' j]
  dsimp only
  have := ((List.forall₂_iff_get.1 hb).2 e (c3 ▸ he') he').2 r c s hr hc hs
  rw [List.get_eq_getElem, List.get_eq_getElem] at this
  rw [this]

end Exp

/-! ## The claims -/

section

variable [LinearOrder F] [DecidableEq I]

/-- The index of the output irrep of an element is the index of an irrep of the output representation. -/
def Exp.IdxOk (E : Exp F A I) : Prop := ∀ p ∈ E.pairs, ∀ b ∈ E.block p, E.outIdx b.attr < E.nIrr p.2

/-- Expansions which compare equal get the same standard deviations. -/
theorem c86_same_deviations (S : ℕ) (E E' : Exp F A I) (hE : E.WF) (hE' : E'.WF) (hout : E.outIdx = E'.outIdx) (hidx : E.IdxOk)
    (inIrr outIrr : A → Nm) (rad : A → Option ℝ) (h : E.eqv S E') :
    heVars E.dimension (E.winfos inIrr outIrr rad) = heVars E'.dimension (E'.winfos inIrr outIrr rad) := by
  have hl : (E.winfos inIrr outIrr rad).length = (E'.winfos inIrr outIrr rad).length := by
    rw [Exp.winfos, Exp.winfos, List.length_map, List.length_map, Exp.basisInfo_length, Exp.basisInfo_length, h.total hE hE']
  have key : ∀ q ∈ (E.winfos inIrr outIrr rad).zip (E'.winfos inIrr outIrr rad), ∃ (po : ℕ) (p : F × F) (o i o' i' k : ℕ) (b b' : Elem A), p ∈ E.pairs ∧ b ∈ E.block p ∧
      (posOf E.outT p.2)[po]? = some o ∧ (posOf E'.outT p.2)[po]? = some o' ∧ b.attr = b'.attr ∧
      q.1.inIrr = inIrr b.attr ∧ q.2.inIrr = inIrr b'.attr ∧
      q.1.outPos = (E.infoAt p o i b k).outIrrPos ∧ q.2.outPos = (E'.infoAt p o' i' b' k).outIrrPos := by
    intro q hq
    obtain ⟨k, hk⟩ := List.mem_iff_getElem?.1 hq
    rw [List.getElem?_zip_eq_some] at hk
    obtain ⟨k1, k2⟩ := hk
    have hlt : k < E.total := by
      have := (List.getElem?_eq_some_iff.1 k1).1
      rwa [Exp.winfos, List.length_map, Exp.basisInfo_length] at this
    obtain ⟨j, po, p, o, i, o', i', b, b', hj, hb, ho, ho', hbb, i1, i2⟩ := h.info hE hE' hlt
    rw [Exp.winfos, List.getElem?_map, i1, Option.map_some, Option.some.injEq] at k1
    rw [Exp.winfos, List.getElem?_map, i2, Option.map_some, Option.some.injEq] at k2
    refine ⟨po, p, o, i, o', i', k, b, b', List.mem_of_getElem? hj, hb, ho, ho', hbb, ?_, ?_, ?_, ?_⟩
    · rw [← k1]; rfl
    · rw [← k2]; rfl
    · rw [← k1]
    · rw [← k2]
  have := heVars_congr E.dimension ((E.winfos inIrr outIrr rad).zip (E'.winfos inIrr outIrr rad)) (by
    intro q hq
    obtain ⟨po, p, o, i, o', i', k, b, b', hp, hb, ho, ho', hbb, e1, e2, _, _⟩ := key q hq
    rw [e1, e2, hbb]) (by
    intro q hq r hr
    obtain ⟨po, p, o, i, o', i', k, b, b', hp, hb, ho, ho', hbb, _, _, e1, e2⟩ := key q hq
    obtain ⟨po2, p2, o2, i2, o2', i2', k2, b2, b2', hp2, hb2, ho2, ho2', hbb2, _, _, e3, e4⟩ := key r hr
    rw [e1, e2, e3, e4]
    unfold Exp.infoAt
    dsimp only
    have n1 := (h.2.2 p hp).2.2.2.2.2.1.2
    have n2 := (h.2.2 p2 hp2).2.2.2.2.2.1.2
    have x1 := hidx p hp b hb
    have x2 := hidx p2 hp2 b2 hb2
    rw [E.irr_inj ho ho2 x1 x2, E'.irr_inj ho' ho2' (by rw [← hbb, ← hout, ← n1]; exact x1) (by rw [← hbb2, ← hout, ← n2]; exact x2), ← hbb, ← hbb2, hout])
  rw [List.map_fst_zip hl.le, List.map_snd_zip hl.ge] at this
  rw [this, h.1]

/-- The cache of `generalized_he_init` is transparent: a sequence of calls, with or without `cache`, on well formed expansions gives what each call alone gives.
`same` is the test made by the dictionary, which besides `==` compares the hash values. -/
theorem c86_cache (S : ℕ) (inIrr outIrr : A → Nm) (rad : A → Option ℝ) (outIdx : A → ℕ)
    (same : {E : Exp F A I // E.WF ∧ E.IdxOk ∧ E.outIdx = outIdx} → {E : Exp F A I // E.WF ∧ E.IdxOk ∧ E.outIdx = outIdx} → Prop)
    (hsame : ∀ E E', same E E' → E.1.eqv S E'.1) (cs : List (HeCall {E : Exp F A I // E.WF ∧ E.IdxOk ∧ E.outIdx = outIdx})) :
    heRun same (fun E => E.1.dimension) (fun E => E.1.winfos inIrr outIrr rad) [] cs = cs.map fun c =>
      if c.len = c.exp.1.dimension then
        (heVars c.exp.1.dimension (c.exp.1.winfos inIrr outIrr rad)).map fun v => List.zipWith (· * ·) v c.noise
      else none :=
  c60_he_cache same (fun E => E.1.dimension) (fun E => E.1.winfos inIrr outIrr rad)
    (fun E E' h => c86_same_deviations S E.1 E'.1 E.2.1 E'.2.1 (E.2.2.2.trans E'.2.2.2.symm) E.2.2.1 inIrr outIrr rad (hsame E E' h)) cs

/-- Expansions which compare equal map the same weights to the same filter, on the channels which both filters have. -/
theorem c86_same_filter (S : ℕ) (E E' : Exp F A I) (hE : E.WF) (hE' : E'.WF) (h1 : E.nPairs = 1 → E.pairs ≠ []) (h1' : E'.nPairs = 1 → E'.pairs ≠ [])
    (h : E.eqv S E') (w : List ℝ) (hw : w.length = E.dimension) :
    ∃ f f', E.forward w = some f ∧ E'.forward w = some f' ∧
      ∀ a b s, a < (E.outT.map E.sz).sum → a < (E'.outT.map E'.sz).sum → b < (E.inT.map E.sz).sum → b < (E'.inT.map E'.sz).sum → s < S →
        f a b s = f' a b s := by
  obtain ⟨f, hf, H⟩ := Exp.forward_at hE h1 w hw
  obtain ⟨f', hf', H'⟩ := Exp.forward_at hE' h1' w (hw.trans h.1)
  refine ⟨f, f', hf, hf', ?_⟩
  intro a b s ha ha' hb hb' hs
  obtain ⟨A1, A2⟩ := H a b s ha hb
  obtain ⟨B1, B2⟩ := H' a b s ha' hb'
  by_cases hex : ∃ p ∈ E.pairs, a ∈ E.indices E.outT p.2 ∧ b ∈ E.indices E.inT p.1
  · obtain ⟨p, hp, m1, m2⟩ := hex
    obtain ⟨j, hj⟩ := List.mem_iff_getElem?.1 hp
    obtain ⟨x, hx⟩ := List.mem_iff_getElem?.1 m1
    obtain ⟨y, hy⟩ := List.mem_iff_getElem?.1 m2
    obtain ⟨i1, i2⟩ := h.idx hE hE' hp
    obtain ⟨n1, n2, _⟩ := (E.mem_pairs p).1 hp
    have hsz := (h.2.2 p hp).2.2.2.2.1
    rw [A1 j p x y hj hx hy, B1 j p x y (h.2.1 ▸ hj) (i2 ▸ hx) (i1 ▸ hy), ← hsz.1, ← hsz.2]
    exact h.val hE hE' w hp (Nat.mod_lt _ (hE.outSz _ n2)) (Nat.mod_lt _ (hE.inSz _ n1)) hs
  · rw [A2 fun p hp hm => hex ⟨p, hp, hm⟩, B2]
    intro p hp hm
    rw [← h.2.1] at hp
    obtain ⟨i1, i2⟩ := h.idx hE hE' hp
    exact hex ⟨p, hp, i2 ▸ hm.1, i1 ▸ hm.2⟩

end

/-! ## A concrete case, and the shape of the filter -/

/-- One trivial input field with one kernel of one point, and `extra` more input fields without a basis. -/
noncomputable def eqExp (extra : ℕ) : Exp ℕ Unit Unit where
  sz _ := 1
  nIrr _ := 1
  inT := 0 :: List.replicate extra 1
  outT := [0]
  gen i o := if i = 0 ∧ o = 0 then some [⟨(), fun _ _ _ => 1⟩] else none
  ident := id
  inIdx _ := 0
  outIdx _ := 0

theorem eqExp_pairs (extra : ℕ) : (eqExp extra).pairs = [(0, 0)] := by
  have hp : (eqExp extra).pairs.Perm [(0, 0)] := by
    rw [List.perm_ext_iff_of_nodup (eqExp extra).pairs_nodup (by simp)]
    intro p
    rw [Exp.mem_pairs]
    obtain ⟨x, y⟩ := p
    by_cases hx : x = 0 <;> by_cases hy : y = 0 <;> simp [eqExp, hx, hy]
  exact List.perm_singleton.1 hp

theorem eqExp_wf (extra : ℕ) : (eqExp extra).WF := by
  refine ⟨by simp [eqExp], by simp [eqExp], by simp [eqExp], by simp [eqExp], ?_, ?_⟩ <;>
  · intro i _ o _ bl h
    by_cases hx : i = 0 <;> by_cases hy : o = 0 <;> simp [eqExp, hx, hy] at h
    subst h
    simp

theorem eqExp_indices (extra : ℕ) : (eqExp extra).indices (eqExp extra).inT 0 = [0] ∧ (eqExp extra).indices (eqExp extra).outT 0 = [0] := by
  have h : ∀ n, posOf (0 :: List.replicate n 1) 0 = [0] := by
    intro n
    have : (posOf (0 :: List.replicate n 1) 0) = [0] := by
      apply Exp.sorted_ext (posOf_pairwise _ _) (by simp)
      intro x
      rw [mem_posOf, List.mem_singleton]
      cases x with
      | zero => simp
      | succ x => simp [List.getElem?_replicate]
    exact this
  constructor
  · rw [Exp.indices_eq]
    change chanIdx _ (posOf (0 :: List.replicate extra 1) 0) = _
    rw [h]
    simp [chanIdx, eqExp, offset_zero]
  · rw [Exp.indices_eq]
    change chanIdx _ (posOf (0 :: List.replicate 0 1) 0) = _
    rw [h]
    simp [chanIdx, eqExp, offset_zero]

theorem eqExp_eqv (S m n : ℕ) : (eqExp m).eqv S (eqExp n) := by
  have hb : ∀ n, (eqExp n).block (0, 0) = [⟨(), fun _ _ _ => 1⟩] := fun n => by simp [Exp.block, eqExp]
  have hcnt : ∀ n, (eqExp n).inT.count 0 = 1 ∧ (eqExp n).outT.count 0 = 1 := fun n => by
    constructor
    · simp [eqExp, List.count_replicate]
    · simp [eqExp]
  have hlen : ∀ n, (eqExp n).len (0, 0) = 1 := fun n => by
    rw [Exp.len]
    dsimp only
    rw [(hcnt n).1, (hcnt n).2, hb]; rfl
  have hc : ∀ n, (eqExp n).pairContig (0, 0) := fun n => by
    unfold Exp.pairContig Exp.contig
    dsimp only
    rw [(eqExp_indices n).1, (eqExp_indices n).2]
    refine ⟨?_, ?_⟩ <;> norm_num [checkConsecutive, consecutiveLoop]
  refine ⟨?_, by rw [eqExp_pairs, eqExp_pairs], ?_⟩
  · rw [(eqExp_wf m).dimension_eq, (eqExp_wf n).dimension_eq, Exp.total, Exp.total, eqExp_pairs, eqExp_pairs]
    simp [hlen]
  · intro p hp
    rw [eqExp_pairs, List.mem_singleton] at hp
    subst hp
    have hj : ∀ n, (eqExp n).pairs[0]? = some (0, 0) := fun n => by rw [eqExp_pairs]; rfl
    refine ⟨iff_of_true (hc m) (hc n), ?_, ?_, ?_, ⟨rfl, rfl⟩, ⟨rfl, rfl⟩, ?_⟩
    · rw [Exp.wRange, Exp.wRange, Exp.ranges_find_pair _ (hj m), Exp.ranges_find_pair _ (hj n), hlen, hlen, Exp.start, Exp.start, offset_zero, offset_zero]
    · unfold Exp.inBuf
      rw [if_pos (hc m), if_pos (hc n)]
      dsimp only
      rw [(eqExp_indices m).1, (eqExp_indices n).1]
    · unfold Exp.outBuf
      rw [if_pos (hc m), if_pos (hc n)]
      dsimp only
      rw [(eqExp_indices m).2, (eqExp_indices n).2]
    · rw [hb, hb]
      exact List.Forall₂.cons ⟨rfl, fun _ _ _ _ _ _ => rfl⟩ List.Forall₂.nil

theorem eqExp_idx (n : ℕ) : (eqExp n).IdxOk := by
  intro p _ b _
  exact Nat.one_pos

/-- Equality does not imply equal shapes: the sizes of the types are not compared, so the expansion of a layer with one more input field without a basis compares equal, although
its filter has one more column. -/
theorem c86_shape_differs : ∃ E E' : Exp ℕ Unit Unit, E.WF ∧ E'.WF ∧ (∀ S, E.eqv S E') ∧ (E.inT.map E.sz).sum ≠ (E'.inT.map E'.sz).sum :=
  ⟨eqExp 0, eqExp 1, eqExp_wf 0, eqExp_wf 1, fun S => eqExp_eqv S 0 1, by simp [eqExp]⟩

/-- The hypotheses of the two theorems hold for different expansions. -/
example : heVars (eqExp 0).dimension ((eqExp 0).winfos (fun _ => (0 : ℕ)) (fun _ => 0) fun _ => none)
    = heVars (eqExp 3).dimension ((eqExp 3).winfos (fun _ => (0 : ℕ)) (fun _ => 0) fun _ => none) :=
  c86_same_deviations 1 (eqExp 0) (eqExp 3) (eqExp_wf 0) (eqExp_wf 3) rfl (eqExp_idx 0) _ _ _ (eqExp_eqv 1 0 3)

example (w : ℝ) : ∃ f f', (eqExp 2).forward [w] = some f ∧ (eqExp 3).forward [w] = some f' ∧ f 0 2 0 = f' 0 2 0 := by
  obtain ⟨f, f', h1, h2, h3⟩ := c86_same_filter 1 (eqExp 2) (eqExp 3) (eqExp_wf 2) (eqExp_wf 3) (fun _ => by rw [eqExp_pairs]; simp) (fun _ => by rw [eqExp_pairs]; simp)
    (eqExp_eqv 1 2 3) [w] (by
      rw [(eqExp_wf 2).dimension_eq, Exp.total, eqExp_pairs]
      simp [Exp.len, Exp.block, eqExp])
  exact ⟨f, f', h1, h2, h3 0 2 0 (by simp [eqExp]) (by simp [eqExp]) (by simp [eqExp]) (by simp [eqExp]) (by simp)⟩

end E2
