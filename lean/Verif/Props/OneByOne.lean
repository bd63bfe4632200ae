import Verif.Lemmas.OneByOne

/-!
# C78: the convolutions of kernel size 1 are exactly the linear maps which commute with the group, each for exactly one choice of the weights
-/

set_option linter.unusedSectionVars false

namespace E2

open Finset Mat Real

variable {El F : Type} [LinearOrder F]

/-- The parameters computed by the constructor for kernel size 1. -/
theorem one_params (a : ConvArgs El) (ha : a.Default 0) : ∃ (σ : ℝ) (f : ℕ), 0 < σ ∧
    computeBasisParams a.kernelSize a.dilation a.cutoff a.rings a.sigma = some ([0], [σ], cutoffFun a.kernelSize a.cutoff, (f : ℤ)) := by
  obtain ⟨h1, h2, h3, h4, h5, h6, h7⟩ := ha
  obtain ⟨rings, sigma, mf, hp, hlen, hsl, hs0, hmf⟩ := c52_defaults a.kernelSize a.dilation (by omega) a.cutoff
  have hr : rings = basisRings a.kernelSize a.dilation none := by
    unfold computeBasisParams at hp
    dsimp only at hp
    split_ifs at hp
    obtain ⟨F', -, h⟩ := Option.map_eq_some_iff.1 hp
    exact (Prod.ext_iff.1 h).1.symm
  have hr0 : rings = [0] := by
    rw [hr, h1, basisRings_default]
    simp
  subst hr0
  obtain ⟨σ, rfl⟩ := List.length_eq_one_iff.1 hsl
  obtain ⟨f, rfl⟩ := Int.eq_ofNat_of_zero_le (maximumFrequency_nonneg hmf (by simp) h7)
  exact ⟨σ, f, hs0 σ (by simp), by rw [h3, h4]; exact hp⟩

/-- The blocks of a matrix which commutes with two types. -/
theorem Intertwines.block {grp : Grp El} {rep : F → Repr El} {inT outT : List F} {M : Mat}
    (hM : Intertwines grp (typeSize (fun n => (rep n).size) outT) (typeSize (fun n => (rep n).size) inT) (typeMat rep outT) (typeMat rep inT) M)
    {o i : ℕ} {n m : F} (ho : outT[o]? = some n) (hi : inT[i]? = some m) :
    Intertwines grp (rep n).size (rep m).size (rep n).mat (rep m).mat fun r c =>
      M (offset (outT.map fun n => (rep n).size) o + r) (offset (inT.map fun n => (rep n).size) i + c) := by
  intro g hg r hr c hc
  obtain ⟨lo, eo⟩ := List.getElem?_eq_some_iff.1 ho
  obtain ⟨li, ei⟩ := List.getElem?_eq_some_iff.1 hi
  have b1 : offset (outT.map fun n => (rep n).size) o + r < typeSize (fun n => (rep n).size) outT := by
    have := offset_add_le (outT.map fun n => (rep n).size) (k := o) (by simpa using lo)
    simp only [List.getElem_map, eo] at this
    unfold typeSize
    omega
  have b2 : offset (inT.map fun n => (rep n).size) i + c < typeSize (fun n => (rep n).size) inT := by
    have := offset_add_le (inT.map fun n => (rep n).size) (k := i) (by simpa using li)
    simp only [List.getElem_map, ei] at this
    unfold typeSize
    omega
  have h := hM g hg _ b1 _ b2
  have r1 := bdiag_mul_row (outT.map fun n => ((rep n).size, (rep n).mat g)) (k := o) (by simpa using lo) M (a := r) (by simpa [eo] using hr)
    (offset (inT.map fun n => (rep n).size) i + c)
  have r2 := mul_bdiag_col (inT.map fun n => ((rep n).size, (rep n).mat g)) (k := i) (by simpa using li) M (a := c) (by simpa [ei] using hc)
    (offset (outT.map fun n => (rep n).size) o + r)
  simp only [List.map_map, List.getElem_map, eo, total] at r1
  simp only [List.map_map, List.getElem_map, ei, total] at r2
  exact r1.symm.trans (h.trans r2)

/-- What the constructor builds for kernel size 1, and the facts about the bases. -/
theorem one_setup {G : KernelGen El} {grp : Grp El} {act : El → ℝ × ℝ → ℝ × ℝ} {P : Irrep El → Prop} (hG : PlaneGroup G grp act P) (a : ConvArgs El)
    (ha : a.Default 0) (rep : F → Repr El) (inT outT inG : List F) (hg : convGroups a.groups inT outT = some inG)
    (hin : ∀ n ∈ inG, (rep n).Plane P) (hout : ∀ n ∈ outT, (rep n).Plane P) :
    ∃ (fco : ℝ → ℝ) (basis : F → F → List (BasisAttr El × (ℝ × ℝ → Mat))),
      (((a.cfg fco).exp rep inG outT basis).dimension = 0 → r2convInit G a rep inT outT = none) ∧
      (∀ M, r2convInit G a rep inT outT = some M → M = ⟨a.cfg fco, basis, ((a.cfg fco).exp rep inG outT basis).dimension⟩) ∧
      (r2convInit G a rep inT outT = none → ((a.cfg fco).exp rep inG outT basis).dimension = 0) ∧
      (∀ i ∈ inG, ∀ o ∈ outT, ((basis i o).map fun b => attrId b.1).Nodup) ∧
      (∀ i ∈ inG, ∀ o ∈ outT, ∀ b ∈ basis i o, KernelConstraint grp act (rep o).size (rep i).size (rep o).mat (rep i).mat b.2) ∧
      ∀ i ∈ inG, ∀ o ∈ outT, ∃ L : List (Elem (BasisAttr El)),
        ((a.cfg fco).exp rep inG outT basis).gen i o = singleBlock (rep o).size (rep i).size 1 (a.cfg fco).keep (a.cfg fco).shape0 L ∧
        (∀ e ∈ L, Clear (rep o).size (rep i).size 1 (a.cfg fco).keep (a.cfg fco).shape0 e) ∧
        (∀ M, Intertwines grp (rep o).size (rep i).size (rep o).mat (rep i).mat M →
          ∃ c, ∀ x < (rep o).size, ∀ y < (rep i).size, M x y = blockForward L c x y 0) ∧
        (∀ c, (∀ x < (rep o).size, ∀ y < (rep i).size, blockForward L c x y 0 = 0) → ∀ k e, L[k]? = some e →
          ¬ (∀ x < (rep o).size, ∀ y < (rep i).size, ∀ s < 1, e.ker x y s = 0) → c k = 0) := by
  classical
  obtain ⟨σ, f, hσ, hp⟩ := one_params a ha
  have hk : a.kernelSize = 1 := ha.size
  set fco := cutoffFun a.kernelSize a.cutoff with hfco
  have hpts : gridCoords a.kernelSize a.dilation 0 = (0, 0) := by
    rw [hk]
    simpa using gridCoords_centre 0 a.dilation
  have hpair : ∀ i ∈ inG, ∀ o ∈ outT, _ := fun i hi o ho =>
    pair_centre hG f (hin i hi) (hout o ho) hσ hpts (keep := (a.cfg fco).keep) (shape0 := (a.cfg fco).shape0)
      (fun t h1 h2 => by simp [ConvArgs.cfg, ha.filter, blFilter, h1, h2, hfco, ha.cut]) (fun t => rfl)
  set basis := fun i o => (buildKernelBasis G [σ] [0] (some (f : ℤ)) a.maximumOffset (rep i) (rep o)).getD [] with hbasis
  have hb : ∀ i ∈ inG, ∀ o ∈ outT, buildKernelBasis G [σ] [0] (some (f : ℤ)) a.maximumOffset (rep i) (rep o) = some (basis i o) := by
    intro i hi o ho
    obtain ⟨l, hl, -⟩ := hpair i hi o ho
    have : basis i o = l := by
      show (buildKernelBasis G [σ] [0] (some (f : ℤ)) a.maximumOffset (rep i) (rep o)).getD [] = l
      rw [ha.off, hl]
      rfl
    rw [this, ha.off, hl]
  have hall : ∀ i ∈ inG, ∀ o ∈ outT, buildKernelBasis G [σ] [0] (some (f : ℤ)) a.maximumOffset (rep i) (rep o) ≠ none := fun i hi o ho => by
    rw [hb i hi o ho]
    simp
  have hinit : r2convInit G a rep inT outT = if ((a.cfg fco).exp rep inG outT basis).dimension = 0 then none
      else some ⟨a.cfg fco, basis, ((a.cfg fco).exp rep inG outT basis).dimension⟩ := by
    unfold r2convInit
    rw [hg]
    dsimp only
    rw [hp]
    dsimp only
    rw [if_pos hall]
  refine ⟨fco, basis, ?_, ?_, ?_, ?_, ?_, ?_⟩
  · intro h
    rw [hinit, if_pos h]
  · intro M hM
    rw [hinit] at hM
    split_ifs at hM
    exact (Option.some.inj hM).symm
  · intro h
    rw [hinit] at h
    split_ifs at h with h0
    exact h0
  · intro i hi o ho
    exact buildKernelBasis_ids (hb i hi o ho) (by simp)
  · intro i hi o ho b hbm
    obtain ⟨l, hl, h1, -⟩ := hpair i hi o ho
    have := hb i hi o ho
    rw [ha.off, hl] at this
    exact h1 b (by rw [Option.some.inj this]; exact hbm)
  · intro i hi o ho
    obtain ⟨l, hl, -, h1⟩ := hpair i hi o ho
    have := hb i hi o ho
    rw [ha.off, hl] at this
    obtain ⟨q1, q2, q3⟩ := h1 _ rfl
    refine ⟨_, ?_, q1, q2, q3⟩
    have hkk : a.kernelSize * a.kernelSize = 1 := by rw [hk]
    show singleBlock (rep o).size (rep i).size (a.kernelSize * a.kernelSize) (a.cfg fco).keep (a.cfg fco).shape0
      ((basis i o).map fun b => ⟨b.1, fun r c s => b.2 (gridCoords a.kernelSize a.dilation s) r c⟩) = _
    rw [hkk, ← Option.some.inj this]

/-! ## The statements -/

/-- The filter of the layer `M` with weights `w` has, at its only point, the matrix `A`. -/
def ConvModule.Realises (M : ConvModule El F) (rep : F → Repr El) (inG outT : List F) (w : List ℝ) (A : Mat) : Prop :=
  ∃ f, (M.cfg.exp rep inG outT M.basis).forward w = some f ∧
    MEq (typeSize (fun n => (rep n).size) outT) (typeSize (fun n => (rep n).size) inG) (f.at 0) A

/-- **C78.** With kernel size 1 (any dilation, groups and frequency cutoff), for all types: the filter of any weights commutes with the group, and every matrix
which commutes with the group is the filter of exactly one choice of the weights. -/
theorem c78_one_by_one {G : KernelGen El} {grp : Grp El} {act : El → ℝ × ℝ → ℝ × ℝ} {P : Irrep El → Prop} (hG : PlaneGroup G grp act P) (a : ConvArgs El)
    (ha : a.Default 0) (rep : F → Repr El) (inT outT inG : List F) (hg : convGroups a.groups inT outT = some inG)
    (hin : ∀ n ∈ inG, (rep n).Plane P) (hout : ∀ n ∈ outT, (rep n).Plane P) (M : ConvModule El F) (hM : r2convInit G a rep inT outT = some M) :
    (∀ w : List ℝ, w.length = M.dim → ∃ A, M.Realises rep inG outT w A ∧
      Intertwines grp (typeSize (fun n => (rep n).size) outT) (typeSize (fun n => (rep n).size) inG) (typeMat rep outT) (typeMat rep inG) A) ∧
    ∀ A, Intertwines grp (typeSize (fun n => (rep n).size) outT) (typeSize (fun n => (rep n).size) inG) (typeMat rep outT) (typeMat rep inG) A →
      ∃! w : List ℝ, w.length = M.dim ∧ M.Realises rep inG outT w A := by
  classical
  obtain ⟨fco, basis, s1, s2, s3, s4, s5, s6⟩ := one_setup hG a ha rep inT outT inG hg hin hout
  have hdim : ((a.cfg fco).exp rep inG outT basis).dimension ≠ 0 := fun h => by rw [s1 h] at hM; exact absurd hM (by simp)
  obtain rfl := s2 M hM
  set E := (a.cfg fco).exp rep inG outT basis with hEdef
  have hpne : E.pairs ≠ [] := Exp.pairs_ne_nil hdim
  obtain ⟨⟨i0, o0⟩, hio0⟩ := List.exists_mem_of_ne_nil _ hpne
  obtain ⟨hi0, ho0, -⟩ := (Exp.mem_pairs _ _).1 hio0
  have hinp : FilterInput rep inG outT basis attrId :=
    ⟨List.ne_nil_of_mem hi0, List.ne_nil_of_mem ho0, fun n hn => (hin n hn).pos, fun n hn => (hout n hn).pos, s4⟩
  have hE : E.WF := filterExp_wf hinp _ _ _ _ _ _
  have hone : E.nPairs = 1 → E.pairs ≠ [] := fun _ => hpne
  have hsz : E.sz = fun n => (rep n).size := rfl
  have hT : E.inT = inG ∧ E.outT = outT := ⟨rfl, rfl⟩
  have hgen : ∀ i ∈ inG, ∀ o ∈ outT, ∀ L : List (Elem (BasisAttr El)),
      E.gen i o = singleBlock (rep o).size (rep i).size 1 (a.cfg fco).keep (a.cfg fco).shape0 L →
      ((i, o) ∉ E.pairs → picked (rep o).size (rep i).size 1 (a.cfg fco).keep (a.cfg fco).shape0 L = []) ∧
      ((i, o) ∈ E.pairs → E.block (i, o) = picked (rep o).size (rep i).size 1 (a.cfg fco).keep (a.cfg fco).shape0 L) := by
    intro i hi o ho L hL
    rcases singleBlock_picked (rep o).size (rep i).size 1 (a.cfg fco).keep (a.cfg fco).shape0 L with ⟨h1, h2⟩ | h1
    · refine ⟨fun _ => h2, fun hp => ?_⟩
      have := E.block_eq hp
      rw [hL, h1] at this
      exact absurd this (by simp)
    · rw [h1] at hL
      refine ⟨fun hp => absurd ((E.mem_pairs (i, o)).2 ⟨hi, ho, by rw [hL]; rfl⟩) hp, fun hp => ?_⟩
      have := E.block_eq hp
      rw [hL] at this
      exact (Option.some.inj this).symm
  refine ⟨fun w hw => ?_, fun A hA => ?_⟩
  · obtain ⟨f, hf, hc⟩ := c23_filter_constraint grp act rep inG outT _ (gridCoords a.kernelSize a.dilation) basis _ _ attrId _ _ hinp s5 E rfl hone w hw
    have hpts : gridCoords a.kernelSize a.dilation 0 = (0, 0) := by
      rw [ha.size]
      simpa using gridCoords_centre 0 a.dilation
    refine ⟨f.at 0, ⟨f, hf, MEq.refl _⟩, Intertwines.of_constraint hG.invOk (typeMat_isRep grp rep inG fun n hn => hG.isRep (hin n hn).wf (hin n hn).irr) ?_⟩
    intro g hg'
    exact hc g hg' 0 0 (by rw [hpts, hG.act_zero])
  · obtain ⟨w, hw, f, hf, hfA⟩ := Exp.forward_surj hE hone 1 (fun x y _ => A x y) (fun o i n m ho hi => by
      have hi' := List.mem_of_getElem? hi
      have ho' := List.mem_of_getElem? ho
      obtain ⟨L, hL, l1, l2, l3⟩ := s6 m hi' n ho'
      obtain ⟨c, hc⟩ := l2 _ (hA.block ho hi)
      obtain ⟨v, hv⟩ := picked_surj L l1 c
      obtain ⟨g1, g2⟩ := hgen m hi' n ho' L hL
      refine ⟨fun hp r hr q hq s hs => ?_, fun hp => ⟨v, fun r hr q hq s hs => ?_⟩⟩
      · have := (hc r hr q hq).trans (hv r hr q hq 0 one_pos)
        rw [g1 hp, blockForward_nil] at this
        exact this
      · obtain rfl : s = 0 := by omega
        rw [g2 hp]
        exact (hc r hr q hq).trans (hv r hr q hq 0 one_pos))
    refine ⟨w, ⟨hw, f, hf, hfA 0 one_pos⟩, ?_⟩
    rintro w' ⟨hw', f', hf', hfA'⟩
    refine Exp.forward_inj hE hone 1 (fun p hp v hv e he => ?_) hw' hw hf' hf (fun s hs => ?_)
    · obtain ⟨hi', ho', -⟩ := (E.mem_pairs p).1 hp
      obtain ⟨L, hL, l1, l2, l3⟩ := s6 p.1 hi' p.2 ho'
      obtain ⟨g1, g2⟩ := hgen p.1 hi' p.2 ho' L hL
      rw [g2 hp] at hv he
      obtain ⟨c, hc, hz⟩ := picked_inj L l1 v
      exact hz (l3 c fun x hx y hy => (hc x hx y hy 0 one_pos).trans (hv x hx y hy 0 one_pos)) e he
    · obtain rfl : s = 0 := by omega
      exact hfA'.trans (hfA 0 one_pos).symm

/-- **C78, no layer.** If the constructor refuses kernel size 1 then no matrix but zero commutes with the group. -/
theorem c78_none {G : KernelGen El} {grp : Grp El} {act : El → ℝ × ℝ → ℝ × ℝ} {P : Irrep El → Prop} (hG : PlaneGroup G grp act P) (a : ConvArgs El)
    (ha : a.Default 0) (rep : F → Repr El) (inT outT inG : List F) (hg : convGroups a.groups inT outT = some inG)
    (hin : ∀ n ∈ inG, (rep n).Plane P) (hout : ∀ n ∈ outT, (rep n).Plane P) (hM : r2convInit G a rep inT outT = none) :
    ∀ A, Intertwines grp (typeSize (fun n => (rep n).size) outT) (typeSize (fun n => (rep n).size) inG) (typeMat rep outT) (typeMat rep inG) A →
      MEq (typeSize (fun n => (rep n).size) outT) (typeSize (fun n => (rep n).size) inG) A fun _ _ => 0 := by
  classical
  obtain ⟨fco, basis, s1, s2, s3, s4, s5, s6⟩ := one_setup hG a ha rep inT outT inG hg hin hout
  have hdim := s3 hM
  intro A hA x hx y hy
  obtain ⟨o, lo, r, hr, rfl⟩ := exists_offset (outT.map fun n => (rep n).size) hx
  obtain ⟨i, li, q, hq, rfl⟩ := exists_offset (inG.map fun n => (rep n).size) hy
  rw [List.length_map] at lo li
  rw [List.getElem_map] at hr hq
  have hi' : inG[i] ∈ inG := List.getElem_mem li
  have ho' : outT[o] ∈ outT := List.getElem_mem lo
  have hinp : FilterInput rep inG outT basis attrId :=
    ⟨List.ne_nil_of_mem hi', List.ne_nil_of_mem ho', fun n hn => (hin n hn).pos, fun n hn => (hout n hn).pos, s4⟩
  have hE : ((a.cfg fco).exp rep inG outT basis).WF := filterExp_wf hinp _ _ _ _ _ _
  obtain ⟨L, hL, l1, l2, l3⟩ := s6 _ hi' _ ho'
  obtain ⟨c, hc⟩ := l2 _ (hA.block (List.getElem?_eq_getElem lo) (List.getElem?_eq_getElem li))
  obtain ⟨v, hv⟩ := picked_surj L l1 c
  have := (hc r hr q hq).trans (hv r hr q hq 0 one_pos)
  rcases singleBlock_picked (rep outT[o]).size (rep inG[i]).size 1 (a.cfg fco).keep (a.cfg fco).shape0 L with ⟨-, h2⟩ | h1
  · rw [h2, blockForward_nil] at this
    exact this
  · exact absurd hdim (hE.dimension_ne_zero hi' ho' (by rw [hL, h1]; rfl))

/-- **C78, exactly when.** The constructor accepts kernel size 1 exactly when some matrix other than zero commutes with the group. -/
theorem c78_iff {G : KernelGen El} {grp : Grp El} {act : El → ℝ × ℝ → ℝ × ℝ} {P : Irrep El → Prop} (hG : PlaneGroup G grp act P) (a : ConvArgs El)
    (ha : a.Default 0) (rep : F → Repr El) (inT outT inG : List F) (hg : convGroups a.groups inT outT = some inG)
    (hin : ∀ n ∈ inG, (rep n).Plane P) (hout : ∀ n ∈ outT, (rep n).Plane P) :
    (∃ M, r2convInit G a rep inT outT = some M) ↔
      ∃ A, Intertwines grp (typeSize (fun n => (rep n).size) outT) (typeSize (fun n => (rep n).size) inG) (typeMat rep outT) (typeMat rep inG) A ∧
        ¬ MEq (typeSize (fun n => (rep n).size) outT) (typeSize (fun n => (rep n).size) inG) A fun _ _ => 0 := by
  constructor
  · rintro ⟨M, hM⟩
    obtain ⟨h1, h2⟩ := c78_one_by_one hG a ha rep inT outT inG hg hin hout M hM
    have hd : M.dim ≠ 0 := by
      obtain ⟨fco, basis, s1, s2, s3, -⟩ := one_setup hG a ha rep inT outT inG hg hin hout
      obtain rfl := s2 M hM
      intro h
      rw [s1 h] at hM
      exact absurd hM (by simp)
    by_contra hno
    push Not at hno
    obtain ⟨A1, r1, i1⟩ := h1 (List.replicate M.dim 0) (by simp)
    obtain ⟨A2, r2, i2⟩ := h1 (List.replicate M.dim 1) (by simp)
    obtain ⟨f1, e1, m1⟩ := r1
    obtain ⟨f2, e2, m2⟩ := r2
    have hz : Intertwines grp (typeSize (fun n => (rep n).size) outT) (typeSize (fun n => (rep n).size) inG) (typeMat rep outT) (typeMat rep inG)
        fun _ _ => 0 := by
      intro g _ x _ y _
      simp [Mat.mul]
    have := (h2 _ hz).unique ⟨by simp, f1, e1, m1.trans (hno A1 i1)⟩ ⟨by simp, f2, e2, m2.trans (hno A2 i2)⟩
    obtain ⟨k, hk⟩ := Nat.exists_eq_succ_of_ne_zero hd
    rw [hk] at this
    simp [List.replicate_succ] at this
  · rintro ⟨A, hA, hne⟩
    by_contra hno
    exact hne (c78_none hG a ha rep inT outT inG hg hin hout (by
      by_contra h
      exact hno (Option.ne_none_iff_exists'.1 h)) A hA)

/-- **C78, the layer.** With one group and without padding the layer applies the matrix to the channels of each pixel (those which the stride selects) and adds
the bias. -/
theorem c78_layer (M : ConvModule El F) {G : KernelGen El} (a : ConvArgs El) (ha : a.Default 0) (hgr : a.groups = 1) (hpad : a.padding = 0)
    (rep : F → Repr El) (inT outT : List F) (hM : r2convInit G a rep inT outT = some M) (w b : List ℝ) (A : Mat) (hA : M.Realises rep inT outT w A)
    (n : ℕ) (x : Fmap) :
    ∃ y, M.forward rep inT outT w b n x = some y ∧ ∀ o < typeSize (fun n => (rep n).size) outT, ∀ i j, i * a.stride < n → j * a.stride < n →
      y o i j = (∑ c ∈ range (typeSize (fun n => (rep n).size) inT), A o c * x c (i * a.stride) (j * a.stride)) + outBias rep outT b o := by
  classical
  obtain ⟨f, hf, hfA⟩ := hA
  have hcfg : ∃ fco, M.cfg = a.cfg fco := by
    unfold r2convInit at hM
    split at hM
    · exact absurd hM (by simp)
    split at hM
    · exact absurd hM (by simp)
    dsimp only at hM
    split_ifs at hM
    all_goals exact ⟨_, (congrArg ConvModule.cfg (Option.some.inj hM)).symm⟩
  obtain ⟨fco, hcfg⟩ := hcfg
  have hk : a.kernelSize = 1 := ha.size
  have hg : convGroups M.cfg.groups inT outT = some inT := by
    rw [hcfg]
    show convGroups a.groups inT outT = some inT
    rw [hgr]
    rfl
  refine ⟨_, by unfold ConvModule.forward r2conv; rw [hg]; dsimp only; rw [hf], fun o ho i j hi hj => ?_⟩
  have e1 : M.cfg.k = 1 := by rw [hcfg]; exact hk
  have e2 : M.cfg.p = 0 := by rw [hcfg]; exact hpad
  have e3 : M.cfg.s = a.stride := by rw [hcfg]; rfl
  have e4 : M.cfg.groups = 1 := by rw [hcfg]; exact hgr
  unfold conv2d
  rw [e1, e2, e3, e4]
  congr 1
  refine Finset.sum_congr rfl fun c hc => ?_
  rw [Finset.sum_range_one, Finset.sum_range_one, zero_mul, add_zero, add_zero, Nat.div_one, Nat.div_eq_of_lt ho, zero_mul, zero_add]
  have q1 : reshapeFilter 1 f o c 0 0 = A o c := hfA o ho c (Finset.mem_range.1 hc)
  rw [q1]
  congr 1
  simp [readPad, padIdx, hi, hj]

/-- The hypotheses can be met: between two regular fields of `C_N` there is a layer, and some weights of it give twice the identity. -/
example (N : ℕ) (hN : 0 < N) : ∃ r, Cyclic.regular N = some r ∧ ∃ M : ConvModule ℤ ℕ, r2convInit (rot2dGen N) (plainArgs ℤ 1) (fun _ => r) [0] [0] = some M ∧
    ∃! w : List ℝ, w.length = M.dim ∧ M.Realises (fun _ => r) [0] [0] w fun x y => 2 * Mat.one x y := by
  obtain ⟨r, h1, h2, h3⟩ := c12_cyclic_regular N hN
  have hp : r.Plane fun i => ∃ k, Cyclic.irrep N k = some i := by
    refine ⟨?_, h2.wf, h2.orth, fun i hi => ?_⟩
    · rw [h2.size]
      show 0 < Cyclic.order N
      rw [Cyclic.order_eq]
      exact hN
    · rw [h3] at hi
      obtain ⟨k, -, hk⟩ := List.mem_filterMap.1 hi
      exact ⟨k, hk⟩
  have hne : r.irreps ≠ [] := by
    intro h0
    have := hp.pos
    simp [Repr.size, h0] at this
  obtain ⟨ψ, hψ⟩ := List.exists_mem_of_ne_nil _ hne
  obtain ⟨M, hM, -⟩ := c75_conv (PlaneGen.rot hN) (plainArgs ℤ 1) 0 (plainArgs_default 0) (fun _ : ℕ => r) [0] [0] [0] rfl (fun _ _ => hp) (fun _ _ => hp)
    ⟨0, by simp, 0, by simp, ψ, hψ, hψ⟩
  refine ⟨r, h1, M, hM, (c78_one_by_one (PlaneGroup.rot hN) (plainArgs ℤ 1) (plainArgs_default 0) (fun _ : ℕ => r) [0] [0] [0] rfl (fun _ _ => hp)
    (fun _ _ => hp) M hM).2 _ fun g _ x hx y hy => ?_⟩
  have e1 := MEq_mul_one (typeSize (fun _ : ℕ => r.size) [0]) (typeSize (fun _ : ℕ => r.size) [0]) (typeMat (fun _ : ℕ => r) [0] g) x hx y hy
  have e2 := MEq_one_mul (typeSize (fun _ : ℕ => r.size) [0]) (typeSize (fun _ : ℕ => r.size) [0]) (typeMat (fun _ : ℕ => r) [0] g) x hx y hy
  simp only [Mat.mul] at e1 e2 ⊢
  simp only [mul_left_comm _ (2 : ℝ), _root_.mul_assoc, ← Finset.mul_sum, e1, e2]

/-- The hypotheses of `c78_none` can be met: between two different frequencies of SO(2) there is no layer, and only the zero matrix commutes with all the rotations. -/
example (n m : ℕ) (h : n ≠ m) (A : Mat)
    (hA : Intertwines SO2.grp (typeSize (fun k => (⟨[SO2.irrep k], Mat.one, Mat.one⟩ : Repr ℝ).size) [m]) (typeSize (fun k => (⟨[SO2.irrep k], Mat.one, Mat.one⟩ : Repr ℝ).size) [n])
      (typeMat (fun k : ℕ => ⟨[SO2.irrep k], Mat.one, Mat.one⟩) [m]) (typeMat (fun k : ℕ => ⟨[SO2.irrep k], Mat.one, Mat.one⟩) [n]) A) :
    MEq (typeSize (fun k => (⟨[SO2.irrep k], Mat.one, Mat.one⟩ : Repr ℝ).size) [m]) (typeSize (fun k => (⟨[SO2.irrep k], Mat.one, Mat.one⟩ : Repr ℝ).size) [n]) A fun _ _ => 0 := by
  have hpl : ∀ k, (⟨[SO2.irrep k], Mat.one, Mat.one⟩ : Repr ℝ).Plane fun i => ∃ k, SO2.irrep k = i := fun k =>
    irrep_plane (by rcases SO2.size12 k with h | h <;> omega) ⟨k, rfl⟩
  refine c78_none PlaneGroup.so2 (plainArgs ℝ 1) (plainArgs_default 0) (fun k : ℕ => ⟨[SO2.irrep k], Mat.one, Mat.one⟩) [n] [m] [n] rfl (fun k _ => hpl k)
    (fun k _ => hpl k) ?_ A hA
  by_contra h0
  obtain ⟨M, hM⟩ := Option.ne_none_iff_exists'.1 h0
  obtain ⟨i, hi, o, ho, ψ, h1, h2⟩ := (c75_one_by_one PlaneGen.so2 (plainArgs ℝ 1) (plainArgs_default 0) _ [n] [m] [n] rfl (fun k _ => hpl k) (fun k _ => hpl k)).1 ⟨M, hM⟩
  obtain rfl := List.mem_singleton.1 hi
  obtain rfl := List.mem_singleton.1 ho
  have e := (List.mem_singleton.1 h1).symm.trans (List.mem_singleton.1 h2)
  have hf : ∀ k, (SO2.irrep k).freq = k := fun k => by by_cases hk : k = 0 <;> simp [SO2.irrep, hk]
  have := congrArg Irrep.freq e
  rw [hf, hf] at this
  exact h this

end E2
