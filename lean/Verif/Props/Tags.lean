import Verif.Lemmas.TagsGood
import Verif.Props.Nonlin
import Verif.Props.Gated
import Verif.Props.Pointwise

/-!
# C73: the strings in `supported_nonlinearities` are true

By induction over the construction of a representation: whatever functions of `e2cnn/group` it is built with, the strings it carries are
promises which its matrices keep, so that the modules which look them up are equivariant.
-/

namespace E2

open Mat

/-- The invariant. -/
structure Good (cut : Bool) (g : GName) (r : Repr g.El) (tags : List Tag) : Prop where
  ok : g.Ok
  wf : r.WF
  irr : ∀ i ∈ r.irreps, g.IsIrr i
  pos : 0 < r.size
  tagOk : ∀ t ∈ tags, (cut = true → t.Divisible) → TagOk g.grp r.size r.mat t
  one : Tag.concatenated ∈ tags → ∀ t ∈ tags, t.Divisible

theorem Good.isRep {cut : Bool} {g : GName} {r : Repr g.El} {tags : List Tag} (h : Good cut g r tags) : IsRep g.grp r.size r.mat :=
  Repr.mat_isRep g.grp r h.wf fun i hi => (GName.isOrthRep h.ok (h.irr i hi)).toIsRep

theorem sPerm_single {S : Set ℝ} {M : Mat} (h : M 0 0 ∈ S) : SPerm 1 S M :=
  ⟨1, fun _ => M 0 0, fun _ => h, fun i j => by
    have hi : i = 0 := Subsingleton.elim _ _
    have hj : j = 0 := Subsingleton.elim _ _
    subst hi hj
    simp⟩

theorem good_irrep {cut : Bool} {g : GName} {i : Irrep g.El} {tags : List Tag} (hg : g.Ok) (h : LibIrrep g i tags) : Good cut g i.repr tags := by
  have ht := h.tagsOk
  have hO := GName.isOrthRep hg h.isIrr
  have hone : ∀ e, g.grp.isEl e → Orth i.size (i.mat e) := fun e he => hO.orth (GName.invOk hg) e he
  refine ⟨hg, i.repr_wf, ?_, by rw [Irrep.repr_size]; exact GName.irr_pos h.isIrr, ?_, ?_⟩
  · intro j hj
    obtain rfl : j = i := by simpa [Irrep.repr] using hj
    exact h.isIrr
  · intro t htt _
    rw [Irrep.repr_size]
    refine TagOk.congr (ρ := i.mat) ?_ fun e _ => (i.repr_mat e).symm
    cases t with
    | pointwise =>
      obtain ⟨h1, h2⟩ := ht.trivial (Or.inl htt)
      rw [h1]
      exact fun e _ => isPerm_trivial (h2 e)
    | norm => exact hone
    | gated => trivial
    | gate =>
      obtain ⟨h1, h2⟩ := ht.trivial (Or.inr htt)
      rw [h1]
      intro e _ a ha b hb
      obtain rfl : a = 0 := by omega
      obtain rfl : b = 0 := by omega
      rw [h2 e]
      rfl
    | concatenated =>
      have h1 := ht.one htt
      rw [h1] at hone ⊢
      exact fun e he => isSignedPerm_iff_sPerm.2 (sPerm_single (orth_one_iff.1 (hone e he)))
    | vectorfield => trivial
    | inducedGate => exact absurd htt ht.inducedGate
    | inducedNorm k => exact absurd htt (ht.inducedNorm k)
    | inducedGated k => exact absurd htt (ht.inducedGated k)
  · intro _ t htt
    cases t with
    | inducedNorm k => exact absurd htt (ht.inducedNorm k)
    | inducedGated k => exact absurd htt (ht.inducedGated k)
    | _ => trivial

theorem good_perm {cut : Bool} {g : GName} {r : Repr g.El} {tags : List Tag} (hg : g.Ok) (hw : r.WF) (hi : ∀ i ∈ r.irreps, g.IsIrr i) (hp : 0 < r.size)
    (h : ∀ e, g.grp.isEl e → IsPerm r.size (r.mat e)) (ht : Tag.gate ∉ tags) (hd : ∀ t ∈ tags, t.Divisible) : Good cut g r tags :=
  ⟨hg, hw, hi, hp, fun t htt _ => tagOk_of_perm h (by rintro rfl; exact ht htt) (hd t htt), fun _ => hd⟩

theorem good_cycRegular {cut : Bool} {N : ℕ} {r : Repr ℤ} (hN : 0 < N) (h : Cyclic.regular N = some r) : Good cut (.cyc N) r Cyclic.regularTags := by
  obtain ⟨r', h1, h2, h3⟩ := c12_cyclic_regular N hN
  obtain rfl : r' = r := by rw [h1] at h; exact Option.some.inj h
  have hmem : ∀ e, e ∈ Cyclic.elements N ↔ (Cyclic.grp N).isEl e := fun e => (Cyclic.mem_elements N e).trans (Cyclic.isElement_iff N e).symm
  refine good_perm hN h2.wf (fun i hi => ?_) ?_ (fun e he => c33_regular_isPerm (Cyclic.lawful hN) (Cyclic.elements_nodup N) hmem h2 he) (by simp [Cyclic.regularTags, regularTags]) ?_
  · rw [h3] at hi
    exact Cyclic.exists_of_mem_irreps hi
  · rw [h2.size]
    exact List.length_pos_of_mem ((hmem _).2 (Cyclic.lawful hN).one_mem)
  · simp [Cyclic.regularTags, regularTags, Tag.Divisible]

theorem good_dihRegular {cut : Bool} {N : ℕ} {r : Repr (ℤ × ℤ)} (hN : 0 < N) (h : Dihedral.regular N = some r) :
    Good cut (.dih N) r regularTags := by
  obtain ⟨r', h1, h2, h3⟩ := c12_dihedral_regular N hN
  obtain rfl : r' = r := by rw [h1] at h; exact Option.some.inj h
  have hmem : ∀ e, e ∈ Dihedral.elements N ↔ (Dihedral.grp N).isEl e := fun e => (Dihedral.mem_elements N e).trans (Dihedral.isElement_iff N e).symm
  refine good_perm hN h2.wf (fun i hi => ?_) ?_ (fun e he => c33_regular_isPerm (Dihedral.lawful hN) (Dihedral.elements_nodup N) hmem h2 he) (by simp [regularTags]) ?_
  · rw [h3] at hi
    obtain ⟨j, hj, hi⟩ := List.mem_flatMap.1 hi
    rw [List.eq_of_mem_replicate hi]
    exact Dihedral.exists_of_mem_irreps hj
  · rw [h2.size]
    exact List.length_pos_of_mem ((hmem _).2 (Dihedral.lawful hN).one_mem)
  · simp [regularTags, Tag.Divisible]

theorem good_induced {cut : Bool} {g h : GName} {ρ : Irrep h.El} {r : Repr g.El} {tags : List Tag} (hg : g.Ok) (hρ : LibIrrep h ρ tags)
    (hr : LibInduced g h ρ r) : Good cut g r (inducedTags ρ.size tags) := by
  obtain ⟨hw, hi, ho, horth, q, hq, hs, hb⟩ := hr.ok hg hρ
  have ht := hρ.tagsOk
  have hρpos := GName.irr_pos hρ.isIrr
  have hfg : tags.find? Tag.isInducedGated = none := List.find?_eq_none.2 fun t htt => by
    cases t with
    | inducedGated k => exact absurd htt (ht.inducedGated k)
    | _ => simp [Tag.isInducedGated]
  have hfn : tags.find? Tag.isInducedNorm = none := List.find?_eq_none.2 fun t htt => by
    cases t with
    | inducedNorm k => exact absurd htt (ht.inducedNorm k)
    | _ => simp [Tag.isInducedNorm]
  have hperm : ρ.size = 1 ∧ (∀ e, ρ.mat e 0 0 = 1) → ∀ e, g.grp.isEl e → IsPerm r.size (r.mat e) := by
    rintro ⟨h1, h2⟩ e he
    have := hb e he
    rw [h1] at this
    rw [hs, h1, mul_one]
    refine isPerm_iff_sPerm.2 (sPerm_iff_blockMono.2 (this.mono ?_))
    rintro O ⟨e', -, rfl⟩
    exact h2 e'
  have hdiv : r.size / ρ.size = q := by rw [hs]; exact Nat.mul_div_cancel _ hρpos
  refine ⟨hg, hw, hi, by rw [hs]; exact Nat.mul_pos hq hρpos, ?_, ?_⟩
  · intro t htt _
    simp only [inducedTags, hfg, hfn, Option.getD_none, List.mem_append, or_assoc] at htt
    rcases htt with h1 | h1 | h1 | h1 | h1
    · split_ifs at h1 with h2
      · obtain rfl := List.mem_singleton.1 h1
        exact hperm (ht.trivial (Or.inl h2))
      · cases h1
    · split_ifs at h1 with h2
      · obtain rfl := List.mem_singleton.1 h1
        have h3 := ht.one h2
        intro e he
        have := hb e he
        rw [h3] at this
        rw [hs, h3, mul_one]
        refine isSignedPerm_iff_sPerm.2 (sPerm_iff_blockMono.2 (this.mono ?_))
        rintro O ⟨e', he', rfl⟩
        have := horth e' he'
        rw [h3] at this
        exact orth_one_iff.1 this
      · cases h1
    · split_ifs at h1 with h2
      · rcases List.mem_cons.1 h1 with rfl | h1
        · trivial
        · obtain rfl := List.mem_singleton.1 h1
          rw [tagOk_inducedGated, hdiv]
          exact ⟨hρpos, ⟨q, by rw [hs, mul_comm]⟩, fun e he => (hb e he).mono fun _ _ => trivial⟩
      · cases h1
    · split_ifs at h1 with h2
      · rcases List.mem_cons.1 h1 with rfl | h1
        · exact fun e he => (Repr.isOrthRep hw ho fun i h => GName.isOrthRep hg (hi i h)).orth (GName.invOk hg) e he
        · obtain rfl := List.mem_singleton.1 h1
          rw [tagOk_inducedNorm, hdiv]
          refine ⟨hρpos, ⟨q, by rw [hs, mul_comm]⟩, fun e he => (hb e he).mono ?_⟩
          rintro O ⟨e', he', rfl⟩
          exact horth e' he'
      · cases h1
    · split_ifs at h1 with h2
      · obtain rfl := List.mem_singleton.1 h1
        exact hperm (ht.trivial (Or.inr (h2.resolve_right ht.inducedGate)))
      · cases h1
  · intro hc t htt
    have h1 : ρ.size = 1 := by
      simp only [inducedTags, hfg, hfn, Option.getD_none, List.mem_append, or_assoc] at hc
      by_cases h2 : Tag.concatenated ∈ tags
      · exact ht.one h2
      · rw [if_neg h2] at hc
        exfalso
        split_ifs at hc <;> simp at hc
    simp only [inducedTags, hfg, hfn, Option.getD_none, h1] at htt
    cases t with
    | inducedNorm k =>
      show k = 1
      split_ifs at htt <;> simpa using htt
    | inducedGated k =>
      show k = 1
      split_ifs at htt <;> simpa using htt
    | _ => trivial

theorem mem_directsumTags {l : List (List Tag)} {tags : List Tag} (h : directsumTags l = some tags) : l ≠ [] ∧ ∀ t ∈ tags, ∀ s ∈ l, t ∈ s := by
  cases l with
  | nil => cases h
  | cons a l =>
    cases h
    refine ⟨by simp, fun t ht s hs => ?_⟩
    obtain ⟨h1, h2⟩ := List.mem_filter.1 ht
    rcases List.mem_cons.1 hs with rfl | hs
    · exact h1
    · exact of_decide_eq_true h2 s hs

theorem good_directsum {cut : Bool} {g : GName} {l : List (Repr g.El × List Tag)} {tags : List Tag} (h : ∀ p ∈ l, Good cut g p.1 p.2)
    (ht : directsumTags (l.map Prod.snd) = some tags) : Good cut g (Repr.directsum (l.map Prod.fst)) tags := by
  obtain ⟨hne, hmem⟩ := mem_directsumTags ht
  have hne' : l ≠ [] := by rintro rfl; exact hne rfl
  obtain ⟨p0, hp0⟩ := List.exists_mem_of_ne_nil l hne'
  have hwf : ∀ r ∈ l.map Prod.fst, r.WF := fun r hr => by
    obtain ⟨p, hp, rfl⟩ := List.mem_map.1 hr
    exact (h p hp).wf
  obtain ⟨h1, h2, h3, -, -⟩ := c10_directsum (l.map Prod.fst) p0.1 hwf
  refine ⟨(h p0 hp0).ok, h1, ?_, ?_, ?_, ?_⟩
  · intro i hi
    rw [h3, List.map_map, List.mem_flatten] at hi
    obtain ⟨is, his, hi⟩ := hi
    obtain ⟨p, hp, rfl⟩ := List.mem_map.1 his
    exact (h p hp).irr i hi
  · rw [h2]
    refine lt_of_lt_of_le (h p0 hp0).pos (List.single_le_sum (by simp) _ ?_)
    exact List.mem_map.2 ⟨p0.1, List.mem_map.2 ⟨p0, hp0, rfl⟩, rfl⟩
  · intro t htt hd
    have := tagOk_bdiag (G := g.grp) (l := l.map Prod.fst) (by simpa using hne') (t := t) fun r hr => by
      obtain ⟨p, hp, rfl⟩ := List.mem_map.1 hr
      exact (h p hp).tagOk t (hmem t htt _ (List.mem_map.2 ⟨p, hp, rfl⟩)) hd
    have e : (Repr.directsum (l.map Prod.fst)).mat = fun e => bdiag ((l.map Prod.fst).map fun r => (r.size, r.mat e)) := funext fun e => Repr.directsum_mat _ e
    have e' : (Repr.directsum (l.map Prod.fst)).size = total ((l.map Prod.fst).map fun r => (r.size, Mat.one)) := by
      rw [h2]; simp [total, Function.comp_def]
    rw [e, e']
    exact this
  · intro hc t htt
    exact (h p0 hp0).one (hmem _ hc _ (List.mem_map.2 ⟨p0, hp0, rfl⟩)) t (hmem t htt _ (List.mem_map.2 ⟨p0, hp0, rfl⟩))

theorem good_changeBasis {cut : Bool} {g : GName} {r : Repr g.El} {tags : List Tag} (h : Good cut g r tags) (Q Q' : Mat) (hQ : IsInv r.size Q Q') :
    Good cut g (r.changeBasis Q) [] := by
  obtain ⟨h1, h2, -⟩ := c10_change_basis r h.wf Q Q' hQ
  exact ⟨h.ok, h1, by rw [h2]; exact h.irr, h.pos, fun t ht => absurd ht (by simp), fun hc => absurd hc (by simp)⟩

/-- A representation for which `is_trivial()` holds is trivial. -/
theorem isTrivial_mat {g : GName} {r : Repr g.El} (hw : r.WF) (hi : ∀ i ∈ r.irreps, g.IsIrr i) (h : r.IsTrivial) :
    r.size = 1 ∧ ∀ e, r.mat e 0 0 = 1 := by
  obtain ⟨⟨h1, h2⟩, h3⟩ := h
  obtain ⟨i, hir⟩ := List.length_eq_one_iff.1 h1
  have hi0 := hi i (by rw [hir]; simp)
  obtain ⟨hf, hj⟩ := h3 i (by rw [hir]; rfl)
  obtain ⟨h4, h5⟩ := GName.irr_trivial hi0 hf hj
  have hs : r.size = 1 := by rw [Repr.size, hir]; simpa using h4
  refine ⟨hs, fun e => ?_⟩
  have hc : r.cob 0 0 = 1 := by
    have := h2 0 (by omega) 0 (by omega)
    rw [this]; rfl
  have hc' : r.cobInv 0 0 = 1 := by
    have := hw.1 0 (by omega) 0 (by omega)
    rw [hs] at this
    simp only [Mat.mul, Finset.sum_range_one, hc, one_mul, Mat.one, if_true] at this
    exact this
  rw [Repr.mat, hs]
  simp only [Mat.mul, Finset.sum_range_one, hc, hc', one_mul, mul_one, hir]
  rw [blocks_singleton i e 0 (by omega) 0 (by omega), h5]

theorem good_restrict {cut : Bool} {g h : GName} {r : Repr g.El} {tags : List Tag} {p : h.El → g.El}
    {restr : Irrep g.El → Option (Mat × List (Irrep h.El))} {r' : Repr h.El} (hr : Good cut g r tags) (hs : LibSub g h p restr)
    (h' : r.restrict restr = some r') : Good cut h r' (restrictTags r' tags) := by
  obtain ⟨h1, h2, h3⟩ := hs.ok hr.ok
  obtain ⟨r'', h4, h5⟩ := h3 r hr.wf hr.irr
  obtain rfl : r'' = r' := by rw [h4] at h'; exact Option.some.inj h'
  have hold : ∀ t ∈ tags, (cut = true → t.Divisible) → TagOk h.grp r''.size r''.mat t := by
    intro t htt hd
    have := (hr.tagOk t htt hd).pull h2
    rw [h5.size]
    exact this.congr fun e he => (h5.mat e he).symm
  refine ⟨h1, h5.wf, h5.irreps, by rw [h5.size]; exact hr.pos, ?_, ?_⟩
  · intro t htt hd
    unfold restrictTags at htt
    split_ifs at htt with hT
    · rcases List.mem_cons.1 htt with rfl | htt
      · obtain ⟨h6, h7⟩ := isTrivial_mat h5.wf h5.irreps hT.1
        intro e _
        rw [h6]
        exact isPerm_trivial (h7 e)
      · exact hold t htt hd
    · exact hold t htt hd
  · intro hc t htt
    unfold restrictTags at htt hc
    split_ifs at htt hc with hT
    · have hc' : Tag.concatenated ∈ tags := by simpa using hc
      rcases List.mem_cons.1 htt with rfl | htt
      · trivial
      · exact hr.one hc' t htt
    · exact hr.one hc t htt

theorem good_disentangle {g : GName} {r : Repr g.El} {tags : List Tag} (hr : Good true g r tags) {n : ℕ} {lab : ℕ → ℕ}
    (hc : IsComponents (r.irreps.length + r.size) r.entangled n lab) {Q : Mat} {reps : List (Repr g.El)}
    (hd : r.disentangle n lab = some (Q, reps)) {s : Repr g.El} (hs : s ∈ reps) : Good true g s tags := by
  obtain ⟨Q', reps', σ, h1, h2, -, h3, h4, h5, h6⟩ := c11_disentangle r hr.wf n lab hc
  obtain ⟨rfl, rfl⟩ : Q' = Q ∧ reps' = reps := by
    rw [h1] at hd
    have := Option.some.inj hd
    exact ⟨congrArg Prod.fst this, congrArg Prod.snd this⟩
  have hinv : ∀ e, g.grp.isEl e → ∃ B, MEq r.size r.size (Mat.mul r.size (r.mat e) B) Mat.one := by
    intro e he
    have hR := hr.isRep
    have hI := GName.invOk hr.ok
    refine ⟨r.mat (g.grp.inv e), ?_⟩
    have := hR.mul e (g.grp.inv e) he (hI e he).1
    rw [(hI e he).2] at this
    exact this.symm.trans hR.one
  refine ⟨hr.ok, h3 s hs, ?_, ?_, ?_, hr.one⟩
  · intro i hi
    refine hr.irr i (h5.mem_iff.1 ?_)
    rw [Repr.directsum]
    exact List.mem_flatMap.2 ⟨s, hs, hi⟩
  · unfold Repr.disentangle at hd
    split_ifs at hd with hsz
    obtain rfl : _ = reps' := congrArg Prod.snd (Option.some.inj hd)
    obtain ⟨b, hb, rfl⟩ := List.mem_map.1 hs
    rw [List.mem_range] at hb
    show 0 < ((r.irrepSel lab b).map Irrep.size).sum
    obtain ⟨v, hv, hvb⟩ := hc.surj b hb
    by_cases hvl : v < r.irreps.length
    · have hmem : r.irreps[v] ∈ r.irrepSel lab b := by
        refine List.mem_filterMap.2 ⟨v, List.mem_filter.2 ⟨List.mem_range.2 hvl, by simpa using hvb⟩, ?_⟩
        exact List.getElem?_eq_getElem hvl
      refine lt_of_lt_of_le (GName.irr_pos (hr.irr _ (List.getElem_mem hvl))) (List.single_le_sum (by simp) _ ?_)
      exact List.mem_map.2 ⟨_, hmem, rfl⟩
    · rw [(hsz b hb).1]
      refine List.length_pos_of_mem (a := v - r.irreps.length) (List.mem_filter.2 ⟨List.mem_range.2 (by omega), ?_⟩)
      rw [show r.irreps.length + (v - r.irreps.length) = v by omega]
      simpa using hvb
  · intro t htt hdv
    exact tagOk_of_bdiag h4 h2.1 h2.2.1 (fun e _ i hi j hj => (h6 e i hi j hj).trans (h2.conj _ hi hj)) hinv (hdv rfl) (hr.tagOk t htt hdv) s hs

theorem good_concat {cut : Bool} {g : GName} {r r' : Repr g.El} {tags : List Tag} (hr : Good cut g r tags) (ht : Tag.concatenated ∈ tags)
    (h : LibConcat g r r') : Good cut g r' (concatTags tags) := by
  have hsp : ∀ e, g.grp.isEl e → IsSignedPerm r.size (r.mat e) := hr.tagOk _ ht fun _ => trivial
  obtain ⟨h1, h2, h3, h4⟩ := h.ok hr.ok hr.isRep hsp
  have hperm : ∀ e, g.grp.isEl e → IsPerm r'.size (r'.mat e) := fun e he => by
    rw [h2]
    exact isPerm_iff_sPerm.2 ((isPerm_iff_sPerm.1 (hsp e he).concatMat).congr (h4 e he).symm)
  have hdiv : ∀ t ∈ concatTags tags, t.Divisible := by
    intro t htt
    rcases List.mem_append.1 htt with htt | htt
    · exact hr.one ht t htt
    · obtain rfl := List.mem_singleton.1 htt
      trivial
  refine ⟨hr.ok, h1, h3, by rw [h2]; exact Nat.mul_pos two_pos hr.pos, ?_, fun _ => hdiv⟩
  intro t htt _
  by_cases hgt : t = .gate
  · subst hgt
    have hg : Tag.gate ∈ tags := by simpa [concatTags] using htt
    have := hr.tagOk _ hg fun _ => trivial
    intro e he
    rw [h2]
    exact (h4 e he).trans ((concatMat_congr (this e he)).trans concatMat_one)
  · exact tagOk_of_perm hperm hgt (hdiv t htt)

theorem lib_good {cut : Bool} {g : GName} {r : Repr g.El} {tags : List Tag} (h : Lib cut g r tags) : Good cut g r tags := by
  induction h with
  | irrep hg h => exact good_irrep hg h
  | cycRegular hN h => exact good_cycRegular hN h
  | dihRegular hN h => exact good_dihRegular hN h
  | induced hg hρ hr => exact good_induced hg hρ hr
  | directsum h ht ih => exact good_directsum ih ht
  | changeBasis h Q Q' hQ ih => exact good_changeBasis ih Q Q' hQ
  | restrict hr hs h' ih => exact good_restrict ih hs h'
  | disentangle hcut hr hc hd hs ih => subst hcut; exact good_disentangle ih hc hd hs
  | concat hr ht h ih => exact good_concat ih ht h

/-- **C73.** A representation built by the library, in any number of steps, is a representation of its group and keeps the promise of every
string it carries. -/
theorem c73_supported_partial {g : GName} {r : Repr g.El} {tags : List Tag} (h : Lib false g r tags) :
    IsRep g.grp r.size r.mat ∧ ∀ t ∈ tags, TagOk g.grp r.size r.mat t :=
  ⟨(lib_good h).isRep, fun t ht => (lib_good h).tagOk t ht fun hc => by cases hc⟩

/-- **C73, with `disentangle`.** The same for representations built also with `disentangle`, except for `induced_norm_k` and `induced_gated_k`
with `k > 1`. -/
theorem c73_supported_disentangle_partial {g : GName} {r : Repr g.El} {tags : List Tag} (h : Lib true g r tags) :
    IsRep g.grp r.size r.mat ∧ ∀ t ∈ tags, t.Divisible → TagOk g.grp r.size r.mat t :=
  ⟨(lib_good h).isRep, fun t ht hd => (lib_good h).tagOk t ht fun _ => hd⟩

/-- **C73, `is_trivial()`.** The gates accepted by the gated nonlinearities are trivial. -/
theorem c73_is_trivial {cut : Bool} {g : GName} {r : Repr g.El} {tags : List Tag} (h : Lib cut g r tags) (ht : r.IsTrivial) :
    r.size = 1 ∧ ∀ e, r.mat e 0 0 = 1 := isTrivial_mat (lib_good h).wf (lib_good h).irr ht

/-! ### The modules which look the strings up -/

section Modules

variable {R P : Type} {cut : Bool} {g : GName} (rep : R → Repr g.El) (tags : R → List Tag)

theorem accepts_mem {tag : Tag} {t : List R} (h : accepts tags tag t = true) : ∀ r ∈ t, tag ∈ tags r := fun r hr =>
  of_decide_eq_true (List.all_eq_true.1 h r hr)

/-- **C73, pointwise.** A pointwise nonlinearity on fields which its constructor accepts is equivariant under every element of the group. -/
theorem c73_pointwise [DecidableEq R] (hlib : ∀ r, Lib cut g (rep r) (tags r)) (t : List R) (hacc : accepts tags .pointwise t = true) (f : ℝ → ℝ) (e : g.El)
    (he : g.grp.isEl e) (π : P → P) (x : GTensor R (P → ℝ)) (hx : x.WF fun r => (rep r).size) (hxt : x.ty = t) :
    ∃ y, pointwise (fun r => (rep r).size) t f x = some y ∧ y.ty = t ∧
      pointwise (fun r => (rep r).size) t f (x.transform (fun r => (rep r).size) (fun r => (rep r).mat e) π)
        = some (y.transform (fun r => (rep r).size) (fun r => (rep r).mat e) π) :=
  c33_pointwise _ t f (fun r => (rep r).mat e) (fun r hr => (lib_good (hlib r)).tagOk _ (accepts_mem tags hacc r hr) (fun _ => trivial) e he) π x hx hxt

/-- **C73, norm.** -/
theorem c73_norm [DecidableEq R] (hlib : ∀ r, Lib cut g (rep r) (tags r)) (t : List R) (hacc : accepts tags .norm t = true) (f : ℝ → ℝ) (eps : ℝ)
    (bias : List ℝ) (e : g.El) (he : g.grp.isEl e) (π : P → P) (junk junk' : List (P → ℝ)) (hj : junk.length = typeSize (fun r => (rep r).size) t)
    (hj' : junk'.length = typeSize (fun r => (rep r).size) t) (x : GTensor R (P → ℝ)) (hx : x.WF fun r => (rep r).size) (hxt : x.ty = t) :
    ∃ y, normNonlin (fun r => (rep r).size) t f eps bias junk x = some y ∧
      normNonlin (fun r => (rep r).size) t f eps bias junk' (x.transform (fun r => (rep r).size) (fun r => (rep r).mat e) π)
        = some (y.transform (fun r => (rep r).size) (fun r => (rep r).mat e) π) :=
  c34_norm_equivariant _ t (fun r _ => (lib_good (hlib r)).pos) f eps bias (fun r => (rep r).mat e)
    (fun r hr => (lib_good (hlib r)).tagOk _ (accepts_mem tags hacc r hr) (fun _ => trivial) e he) π junk junk' hj hj' x hx hxt

open Classical in
/-- **C73, gated.** The gates are fields for which `is_trivial()` holds, the others carry `gated` (gated1.py:88-97). -/
theorem c73_gated [DecidableEq R] (hlib : ∀ r, Lib cut g (rep r) (tags r)) (t : List R) (gates : List Bool) (drop : Bool)
    (hcheck : gated1Check (fun r => decide (rep r).IsTrivial) (fun r => decide (Tag.gated ∈ tags r)) t gates = true) (σ : ℝ → ℝ) (bias : List ℝ)
    (hb : bias.length = gates.count true) (e : g.El) (π : P → P) (junk junk' : List (P → ℝ))
    (hj : junk.length = typeSize (fun r => (rep r).size) (gated1Out t gates drop))
    (hj' : junk'.length = typeSize (fun r => (rep r).size) (gated1Out t gates drop)) (x : GTensor R (P → ℝ)) (hx : x.WF fun r => (rep r).size)
    (hxt : x.ty = t) :
    ∃ y, gated1 (fun r => (rep r).size) (fun r => decide (rep r).IsTrivial) (fun r => decide (Tag.gated ∈ tags r)) t gates drop σ bias junk x = some y ∧
      gated1 (fun r => (rep r).size) (fun r => decide (rep r).IsTrivial) (fun r => decide (Tag.gated ∈ tags r)) t gates drop σ bias junk'
          (x.transform (fun r => (rep r).size) (fun r => (rep r).mat e) π)
        = some (y.transform (fun r => (rep r).size) (fun r => (rep r).mat e) π) :=
  c34_gated1_equivariant _ _ _ t (fun r _ => (lib_good (hlib r)).pos) gates drop hcheck σ bias hb (fun r => (rep r).mat e) π
    (fun r hr => ⟨(c73_is_trivial (hlib r) (of_decide_eq_true hr)).1, (c73_is_trivial (hlib r) (of_decide_eq_true hr)).2 e⟩)
    junk junk' hj hj' x hx hxt

/-- **C73, norms of subfields.** The constructor reads the size of the subfields from the string `induced_norm_k` (nonlinearities/induced_norm.py:84-88). -/
theorem c73_induced_norm [DecidableEq R] (hlib : ∀ r, Lib false g (rep r) (tags r)) (t : List R)
    (hcheck : inducedNormCheck (fun r => (rep r).size) (fun r => inducedNormSizes (tags r)) t = true) (f : ℝ → ℝ) (eps : ℝ) (bias : List ℝ) (e : g.El)
    (he : g.grp.isEl e) (π : P → P) (junk junk' : List (P → ℝ)) (hj : junk.length = typeSize (fun r => (rep r).size) t)
    (hj' : junk'.length = typeSize (fun r => (rep r).size) t) (x : GTensor R (P → ℝ)) (hx : x.WF fun r => (rep r).size) (hxt : x.ty = t) :
    ∃ y, inducedNorm (fun r => (rep r).size) (fun r => inducedNormSizes (tags r)) t f eps bias junk x = some y ∧
      inducedNorm (fun r => (rep r).size) (fun r => inducedNormSizes (tags r)) t f eps bias junk'
          (x.transform (fun r => (rep r).size) (fun r => (rep r).mat e) π)
        = some (y.transform (fun r => (rep r).size) (fun r => (rep r).mat e) π) := by
  refine c55_norm_equivariant _ _ t (fun r _ => (lib_good (hlib r)).pos) hcheck f eps bias (fun r => (rep r).mat e) (fun r hr => ?_) π junk junk' hj hj' x hx hxt
  have h := List.all_eq_true.1 hcheck r hr
  simp only [Bool.and_eq_true, beq_iff_eq] at h
  obtain ⟨k, hk⟩ := List.length_eq_one_iff.1 h.1
  have hsub : subSize (fun r => inducedNormSizes (tags r)) r = k := by simp [subSize, hk]
  rw [hsub]
  have hmem : Tag.inducedNorm k ∈ tags r := by
    have : k ∈ inducedNormSizes (tags r) := by rw [hk]; simp
    obtain ⟨t, ht, h'⟩ := List.mem_filterMap.1 this
    cases t with
    | inducedNorm k' => cases h'; exact ht
    | _ => cases h'
  exact ((c73_supported_partial (hlib r)).2 _ hmem).2.2 e he

/-- **C73, concatenated.** For fields which the constructor accepts the representation of the output can be built: the checks of the matrices
pass and the matrices form a representation; and the module is equivariant with it. -/
theorem c73_concatenated [DecidableEq R] (hlib : ∀ r, Lib cut g (rep r) (tags r)) (t : List R) (hacc : accepts tags .concatenated t = true) :
    (∀ r ∈ t, (∀ e, g.grp.isEl e → ConcatOk (rep r).size ((rep r).mat e)) ∧ IsRep g.grp (2 * (rep r).size) fun e => concatMat ((rep r).mat e)) ∧
      ∀ outRep : R → R, (∀ r ∈ t, LibConcat g (rep r) (rep (outRep r))) → ∀ (f : ℝ → ℝ) (e : g.El), g.grp.isEl e → ∀ (π : P → P)
        (x : GTensor R (P → ℝ)), x.WF (fun r => (rep r).size) → x.ty = t →
        ∃ y, concatenated (fun r => (rep r).size) outRep t f x = some y ∧ y.ty = t.map outRep ∧
          concatenated (fun r => (rep r).size) outRep t f (x.transform (fun r => (rep r).size) (fun r => (rep r).mat e) π)
            = some (y.transform (fun r => (rep r).size) (fun r => (rep r).mat e) π) := by
  have hsp : ∀ r ∈ t, ∀ e, g.grp.isEl e → IsSignedPerm (rep r).size ((rep r).mat e) := fun r hr =>
    (lib_good (hlib r)).tagOk _ (accepts_mem tags hacc r hr) fun _ => trivial
  have hok : ∀ r ∈ t, ∀ e, g.grp.isEl e → ConcatOk (rep r).size ((rep r).mat e) := fun r hr e he => by
    obtain ⟨σ, ε, hε, h⟩ := hsp r hr e he
    exact concatOk_signed σ ε hε h
  refine ⟨fun r hr => ⟨hok r hr, concat_isRep (lib_good (hlib r)).isRep (hsp r hr)⟩, fun outRep hout f e he π x hx hxt => ?_⟩
  have hs := fun r hr => (hout r hr).ok (lib_good (hlib r)).ok (lib_good (hlib r)).isRep (hsp r hr)
  refine c33_concatenated _ _ outRep t (fun r hr => (hs r hr).2.1) f (fun r => (rep r).mat e) (fun r => (rep r).mat e) (fun r hr => hok r hr e he) ?_
    (fun r hr => (hs r hr).2.2.2 e he) π x hx hxt
  intro r hr i hi
  obtain ⟨j, ε, h1, h2, h3⟩ := (hsp r hr e he).row i hi
  refine ⟨j, h1, ?_⟩
  rw [h3 j h1, if_pos rfl]
  rcases h2 with h2 | h2 <;> rw [h2] <;> norm_num

end Modules

/-- `directsum` with a change of basis keeps the strings (representation.py:459-468), which are then wrong: the sum of the two irreps of `C_2` in
the basis given by an invertible matrix carries `norm` and `concatenated`, but its matrix is not orthogonal. -/
theorem c73_directsum_cob_wrong : ∃ (i0 i1 : Irrep ℤ) (t0 t1 tags : List Tag) (Q Q' : Mat), LibIrrep (.cyc 2) i0 t0 ∧ LibIrrep (.cyc 2) i1 t1 ∧
    directsumTags [t0, t1] = some tags ∧ Tag.norm ∈ tags ∧ Tag.concatenated ∈ tags ∧ IsInv 2 Q Q' ∧
    (Repr.directsumCob [i0.repr, i1.repr] Q).WF ∧ (Repr.directsumCob [i0.repr, i1.repr] Q).size = 2 ∧
    ¬ TagOk (Cyclic.grp 2) 2 (Repr.directsumCob [i0.repr, i1.repr] Q).mat .norm ∧
    ¬ TagOk (Cyclic.grp 2) 2 (Repr.directsumCob [i0.repr, i1.repr] Q).mat .concatenated := by
  obtain ⟨i0, h0⟩ : ∃ i, Cyclic.irrep 2 0 = some i := by simp [Cyclic.irrep, Cyclic.order, Cyclic.elements]
  obtain ⟨i1, h1⟩ : ∃ i, Cyclic.irrep 2 1 = some i := by simp [Cyclic.irrep, Cyclic.order, Cyclic.elements]
  have hQ : IsInv 2 (m2 1 1 0 1) (m2 1 (-1) 0 1) := by
    constructor <;> intro i hi j hj <;> interval_cases i <;> interval_cases j <;> simp [Mat.mul, Finset.sum_range_succ, m2, Mat.one]
  have s0 : i0.size = 1 := by
    simp [Cyclic.irrep, Cyclic.order, Cyclic.elements] at h0; rw [← h0]
  have s1 : i1.size = 1 := by
    simp [Cyclic.irrep, Cyclic.order, Cyclic.elements] at h1; rw [← h1]
  have m0 : i0.mat 1 0 0 = 1 := by
    simp [Cyclic.irrep, Cyclic.order, Cyclic.elements] at h0; rw [← h0]; rfl
  have m1' : i1.mat 1 0 0 = -1 := by
    simp [Cyclic.irrep, Cyclic.order, Cyclic.elements] at h1; rw [← h1]; simp [m1]
  have hw : ∀ r ∈ [i0.repr, i1.repr], r.WF := by
    intro r hr
    rcases List.mem_cons.1 hr with rfl | hr
    · exact i0.repr_wf
    · obtain rfl := List.mem_singleton.1 hr
      exact i1.repr_wf
  have hsum : ([i0.repr, i1.repr].map Repr.size).sum = 2 := by simp [Irrep.repr_size, s0, s1]
  obtain ⟨h2, h3, -, h4⟩ := c10_directsum_change_of_basis [i0.repr, i1.repr] hw (m2 1 1 0 1) (m2 1 (-1) 0 1) (by rw [hsum]; exact hQ)
  rw [hsum] at h3 h4
  have hm := h4 1
  have hd : (Repr.directsum [i0.repr, i1.repr]).mat 1 0 0 = 1 ∧ (Repr.directsum [i0.repr, i1.repr]).mat 1 0 1 = 0 ∧
      (Repr.directsum [i0.repr, i1.repr]).mat 1 1 0 = 0 ∧ (Repr.directsum [i0.repr, i1.repr]).mat 1 1 1 = -1 := by
    rw [Repr.directsum_mat]
    have e0 := i0.repr_mat 1 0 (by omega) 0 (by omega)
    have e1 := i1.repr_mat 1 0 (by omega) 0 (by omega)
    refine ⟨?_, ?_, ?_, ?_⟩ <;> simp [bdiag, Irrep.repr_size, s0, s1, e0, e1, m0, m1']
  have e01 : (Repr.directsumCob [i0.repr, i1.repr] (m2 1 1 0 1)).mat 1 0 1 = -2 := by
    rw [hm 0 (by omega) 1 (by omega)]
    simp [conj, Mat.mul, Finset.sum_range_succ, m2, hd]
    norm_num
  have hnot : ¬ TagOk (Cyclic.grp 2) 2 (Repr.directsumCob [i0.repr, i1.repr] (m2 1 1 0 1)).mat .norm := by
    intro h
    have h5 : Orth 2 _ := h 1 (by show Cyclic.isElement 2 1 = true; rfl)
    have h6 := h5 1 (by omega) 1 (by omega)
    have e11 : (Repr.directsumCob [i0.repr, i1.repr] (m2 1 1 0 1)).mat 1 1 1 = -1 := by
      rw [hm 1 (by omega) 1 (by omega)]
      simp [conj, Mat.mul, Finset.sum_range_succ, m2, hd]
    simp [Mat.mul, Finset.sum_range_succ, tr, e01, e11, Mat.one] at h6
  refine ⟨i0, i1, _, _, _, m2 1 1 0 1, m2 1 (-1) 0 1, .cyc h0, .cyc h1, rfl, ?_, ?_, hQ, h2, h3, hnot, ?_⟩
  · simp [Cyclic.irrepTags, Cyclic.order, Cyclic.elements]
  · simp [Cyclic.irrepTags, Cyclic.order, Cyclic.elements]
  · exact fun h => hnot fun e he => (h e he).orth

/-! ### Examples -/

/-- A representation built in three steps: the regular representation of `D_4`, restricted to the rotations, and the sum of the result with an
induced representation of `C_4`. -/
example : ∃ (r : Repr ℤ) (tags : List Tag), Lib false (.cyc 4) r tags ∧ 8 < r.size ∧ Tag.pointwise ∈ tags ∧ Tag.norm ∈ tags := by
  obtain ⟨r1, h1, h2, -⟩ := c12_dihedral_regular 4 (by norm_num)
  obtain ⟨m, p, c, hs⟩ : ∃ m p c, Dihedral.subgroup 4 none 4 = some (.cyc m p c) := by simp [Dihedral.subgroup]
  have hL : Lib false (.dih 4) r1 regularTags := .dihRegular (by norm_num) h1
  have hsub := LibSub.dihCyc hs
  obtain ⟨-, -, h3⟩ := hsub.ok (show GName.Ok (.dih 4) from by norm_num [GName.Ok])
  obtain ⟨r2, h4, h5⟩ := h3 r1 (lib_good hL).wf (lib_good hL).irr
  have hL2 := Lib.restrict hL hsub h4
  obtain ⟨r3, h6, h7, -⟩ := c12_cyclic_regular 4 (by norm_num)
  have hL3 : Lib false (.cyc 4) r3 Cyclic.regularTags := .cycRegular (by norm_num) h6
  have hmem : ∀ t ∈ regularTags, t ∈ restrictTags r2 regularTags := by
    intro t ht
    unfold restrictTags
    split_ifs
    · exact List.mem_cons_of_mem _ ht
    · exact ht
  have hmem' : ∀ t ∈ regularTags, t ∈ Cyclic.regularTags := fun t ht => List.mem_append_left _ ht
  have hd := Lib.directsum (cut := false) (g := .cyc 4) (l := [(r3, Cyclic.regularTags), (r2, restrictTags r2 regularTags)])
    (tags := Cyclic.regularTags.filter fun x => decide (∀ s ∈ [restrictTags r2 regularTags], x ∈ s)) (by
      intro p hp
      rcases List.mem_cons.1 hp with rfl | hp
      · exact hL3
      · obtain rfl := List.mem_singleton.1 hp
        exact hL2) rfl
  refine ⟨_, _, hd, ?_, ?_, ?_⟩
  · rw [Repr.directsum_size]
    have : r2.size = r1.size := h5.size
    simp only [List.map_cons, List.map_nil, List.sum_cons, List.sum_nil, this, h2.size, h7.size]
    simp [Cyclic.elements, Dihedral.elements]
  · exact List.mem_filter.2 ⟨hmem' _ (by simp [regularTags]), decide_eq_true (by simpa using hmem _ (by simp [regularTags]))⟩
  · exact List.mem_filter.2 ⟨hmem' _ (by simp [regularTags]), decide_eq_true (by simpa using hmem _ (by simp [regularTags]))⟩

/-- The concatenated nonlinearity builds a representation of size 2 from the irrep of `C_2` with the sign, which carries `pointwise`. -/
example : ∃ (r : Repr ℤ) (tags : List Tag), Lib false (.cyc 2) r tags ∧ r.size = 2 ∧ Tag.pointwise ∈ tags := by
  obtain ⟨i, hi⟩ : ∃ i, Cyclic.irrep 2 1 = some i := by simp [Cyclic.irrep, Cyclic.order, Cyclic.elements]
  have hs : i.size = 1 := by
    simp [Cyclic.irrep, Cyclic.order, Cyclic.elements] at hi; rw [← hi]
  have hL : Lib false (.cyc 2) i.repr (Cyclic.irrepTags 2 1) := .irrep (show 0 < 2 by norm_num) (.cyc hi)
  have ht : Tag.concatenated ∈ Cyclic.irrepTags 2 1 := by simp [Cyclic.irrepTags, Cyclic.order, Cyclic.elements]
  have hsp : ∀ e, (Cyclic.grp 2).isEl e → IsSignedPerm i.repr.size (i.repr.mat e) := (c73_supported_partial hL).2 _ ht
  have hR := concat_isRep (c73_supported_partial hL).1 hsp
  have hB := c58_cyclic_build 2 (by norm_num) id (fun l => List.Perm.refl l) _ _ hR
  obtain ⟨ms, hms, ⟨x, hx⟩, -⟩ := hB.solvable
  obtain ⟨r', χ, hr'⟩ := hB.builds (fun _ => x) fun ms' hms' => by
    obtain rfl : ms = ms' := by rw [hms] at hms'; exact Option.some.inj hms'
    exact Or.inr hx
  have hC : LibConcat (.cyc 2) i.repr r' := .cyc id (fun l => List.Perm.refl l) (fun _ => x) (fun e he => by
    obtain ⟨σ, ε, hε, h⟩ := hsp e ((Cyclic.mem_elements 2 e).trans (Cyclic.isElement_iff 2 e).symm |>.1 he)
    exact concatOk_signed σ ε hε h) hr'
  refine ⟨r', _, Lib.concat hL ht hC, ?_, by simp [concatTags]⟩
  rw [(hC.ok (show 0 < 2 by norm_num) (c73_supported_partial hL).1 hsp).2.1, Irrep.repr_size, hs]

/-- `disentangle` can be applied to every representation. -/
example (N : ℕ) (hN : 0 < N) : ∃ (r s : Repr ℤ), Lib true (.cyc N) r Cyclic.regularTags ∧ Lib true (.cyc N) s Cyclic.regularTags ∧
    ∃ Q reps n lab, r.disentangle n lab = some (Q, reps) ∧ s ∈ reps := by
  obtain ⟨r, h1, h2, -⟩ := c12_cyclic_regular N hN
  have hL : Lib true (.cyc N) r Cyclic.regularTags := .cycRegular hN h1
  obtain ⟨n, lab, hc⟩ := exists_components (r.irreps.length + r.size) r.entangled
  obtain ⟨Q, reps, σ, h3, -, -, -, h4, -⟩ := c11_disentangle r h2.wf n lab hc
  cases reps with
  | nil =>
    exfalso
    have := (lib_good hL).pos
    rw [← h4] at this
    simp [Repr.directsum_size] at this
  | cons s reps => exact ⟨r, s, hL, Lib.disentangle rfl hL hc h3 (by simp), Q, s :: reps, n, lab, h3, by simp⟩

end E2
