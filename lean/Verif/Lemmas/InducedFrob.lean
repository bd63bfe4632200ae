import Verif.Lemmas.InducedBlock

/-!
# Existence of the induced representations: multiplicities, and the construction succeeds
-/

namespace E2

set_option linter.unusedSectionVars false

open Finset Mat

section
variable {El El' : Type} [DecidableEq El] [DecidableEq El'] {G : Grp El} {els : List El} {H : Grp El'} {S : SubData El El'}

theorem trace_congr {n : ℕ} {A B : Mat} (h : MEq n n A B) : Mat.trace n A = Mat.trace n B :=
  Finset.sum_congr rfl fun i hi => h i (mem_range.1 hi) i (mem_range.1 hi)

theorem IsOrthRep.trace_comm {n : ℕ} {σ : El → Mat} (h1 : IsOrthRep G n σ) {a b : El} (ha : G.isEl a) (hb : G.isEl b) :
    Mat.trace n (σ (G.op a b)) = Mat.trace n (σ (G.op b a)) := by
  rw [trace_congr (h1.mul a b ha hb), trace_congr (h1.mul b a hb ha), Mat.trace, Mat.trace]
  simp only [Mat.mul]
  rw [Finset.sum_comm]
  exact Finset.sum_congr rfl fun i _ => Finset.sum_congr rfl fun j _ => _root_.mul_comm _ _

theorem IsOrthRep.trace_inv {n : ℕ} {σ : El → Mat} (h1 : IsOrthRep G n σ) {a : El} (ha : G.isEl a) :
    Mat.trace n (σ (G.inv a)) = Mat.trace n (σ a) := (trace_congr (h1.inv a ha)).trans rfl

/-- Frobenius reciprocity for characters. -/
theorem sum_inducedChar (ok : SubOk G els H S) (ρ : Irrep El') {irr : Irrep El} (h1 : IsOrthRep G irr.size irr.mat) :
    (els.map fun g => (∑ i ∈ range ((cosetLoop G els S).reps.length * ρ.size), inducedMat G S (cosetLoop G els S) ρ g i i) *
        Mat.trace irr.size (irr.mat (G.inv g))).sum
      = (cosetLoop G els S).reps.length * (S.els.map fun h => Mat.trace ρ.size (ρ.mat h) * Mat.trace irr.size (irr.mat (S.parent h))).sum := by
  have L := ok.lawG
  have hdiag : ∀ g, G.isEl g → ∑ i ∈ range ((cosetLoop G els S).reps.length * ρ.size), inducedMat G S (cosetLoop G els S) ρ g i i
      = ∑ k ∈ range (cosetLoop G els S).reps.length, Mat.trace ρ.size (subMat S ρ (G.op (G.inv ((cosetLoop G els S).reps.getD k G.one))
        (G.op g ((cosetLoop G els S).reps.getD k G.one)))) := by
    intro g hg
    rw [sum_range_blocks]
    refine Finset.sum_congr rfl fun k hk => Finset.sum_congr rfl fun c hc => ?_
    exact inducedMat_entry ok ρ hg (mem_range.1 hk) (mem_range.1 hk) (mem_range.1 hc) (mem_range.1 hc)
  have e0 : (S.els.map fun h => Mat.trace ρ.size (ρ.mat h) * Mat.trace irr.size (irr.mat (S.parent h))).sum
      = ∑ y ∈ els.toFinset, Mat.trace ρ.size (subMat S ρ y) * Mat.trace irr.size (irr.mat y) := by
    classical
    rw [← List.sum_toFinset _ ok.nodupH]
    rw [← Finset.sum_filter_add_sum_filter_not els.toFinset (fun y => ∃ h, H.isEl h ∧ S.parent h = y)]
    rw [Finset.sum_eq_zero (s := els.toFinset.filter fun y => ¬ ∃ h, H.isEl h ∧ S.parent h = y), add_zero]
    · refine Finset.sum_bij (fun h _ => S.parent h) ?_ ?_ ?_ ?_
      · intro h hh
        have hh := (ok.memH h).1 (List.mem_toFinset.1 hh)
        rw [Finset.mem_filter, List.mem_toFinset, ok.mem]
        exact ⟨ok.emb.mem h hh, h, hh, rfl⟩
      · intro a ha b hb e
        exact ok.emb.inj a b ((ok.memH a).1 (List.mem_toFinset.1 ha)) ((ok.memH b).1 (List.mem_toFinset.1 hb)) e
      · intro g hg
        obtain ⟨-, h, hh, e⟩ := Finset.mem_filter.1 hg
        exact ⟨h, List.mem_toFinset.2 ((ok.memH h).2 hh), e⟩
      · intro h hh
        rw [subMat_parent ok ρ ((ok.memH h).1 (List.mem_toFinset.1 hh))]
    · intro y hy
      rw [Finset.mem_filter, List.mem_toFinset, ok.mem] at hy
      rw [subMat_out ok ρ hy.1 hy.2]
      simp [Mat.trace]
  rw [e0, ← List.sum_toFinset _ ok.nodup]
  rw [Finset.sum_congr rfl (g := fun g => ∑ k ∈ range (cosetLoop G els S).reps.length,
    Mat.trace ρ.size (subMat S ρ (G.op (G.inv ((cosetLoop G els S).reps.getD k G.one)) (G.op g ((cosetLoop G els S).reps.getD k G.one)))) *
      Mat.trace irr.size (irr.mat g)) (fun g hg => by
    have hg := (ok.mem g).1 (List.mem_toFinset.1 hg)
    rw [hdiag g hg, h1.trace_inv hg, Finset.sum_mul])]
  rw [Finset.sum_comm, Finset.sum_congr rfl (g := fun _ => ∑ y ∈ els.toFinset, Mat.trace ρ.size (subMat S ρ y) * Mat.trace irr.size (irr.mat y))]
  · simp
  · intro k hk
    have hri := rep_mem ok (mem_range.1 hk)
    generalize (cosetLoop G els S).reps.getD k G.one = r at hri
    have hinv := L.inv_mem _ hri
    refine Finset.sum_bij (fun g _ => G.op (G.inv r) (G.op g r)) ?_ ?_ ?_ ?_
    · intro g hg
      rw [List.mem_toFinset, ok.mem] at hg ⊢
      exact L.op_mem _ _ hinv (L.op_mem _ _ hg hri)
    · intro a ha b hb e
      rw [List.mem_toFinset, ok.mem] at ha hb
      have h2 : ∀ y, G.isEl y → G.op (G.op r (G.op (G.inv r) (G.op y r))) (G.inv r) = y := by
        intro y hy
        have hyr := L.op_mem _ _ hy hri
        rw [← L.assoc _ _ _ hri hinv hyr, L.op_inv _ hri, L.one_op _ hyr, L.assoc _ _ _ hy hri hinv, L.op_inv _ hri,
          L.op_one _ hy]
      rw [← h2 a ha, ← h2 b hb]
      exact congrArg (fun z => G.op (G.op r z) (G.inv r)) e
    · intro y hy
      rw [List.mem_toFinset, ok.mem] at hy
      have e3 : G.op (G.inv r) (G.op (G.op (G.op r y) (G.inv r)) r) = y := by
        have hry := L.op_mem _ _ hri hy
        rw [L.assoc _ _ _ hry hinv hri, L.inv_op _ hri, L.op_one _ hry, ← L.assoc _ _ _ hinv hri hy, L.inv_op _ hri,
          L.one_op _ hy]
      refine ⟨G.op (G.op r y) (G.inv r), ?_, e3⟩
      rw [List.mem_toFinset, ok.mem]
      exact L.op_mem _ _ (L.op_mem _ _ hri hy) hinv
    · intro g hg
      rw [List.mem_toFinset, ok.mem] at hg
      rw [h1.trace_comm hinv (L.op_mem _ _ hg hri), L.assoc _ _ _ hg hri hinv, L.op_inv _ hri, L.op_one _ hg]

theorem posList_count (ρ : Irrep El') (l : List (Irrep El')) (hl : ∀ τ ∈ l, sameIrrep τ ρ → τ = ρ) (x0 : ℕ) (F : Irrep El' → ℝ) (c : ℝ) (hF : F ρ = c)
    (hF0 : ∀ τ ∈ l, τ ≠ ρ → F τ = 0) : (l.map F).sum = (posList ρ x0 l).length * c := by
  induction l generalizing x0 with
  | nil => simp [posList]
  | cons τ l ih =>
    rw [List.map_cons, List.sum_cons, ih (fun τ' h => hl τ' (List.mem_cons_of_mem _ h)) (x0 + τ.size) (fun τ' h => hF0 τ' (List.mem_cons_of_mem _ h)),
      posList, List.length_append]
    by_cases h : sameIrrep τ ρ
    · rw [hl τ List.mem_cons_self h, hF, if_pos (by simp [sameIrrep])]
      simp
      ring
    · rw [if_neg h, hF0 τ List.mem_cons_self fun e => h (by rw [e]; simp [sameIrrep])]
      simp

/-- The multiplicity of an irrep in the induced representation, from the copies of the inducing irrep in its restriction. -/
theorem inducedMult_frob (ok : SubOk G els H S) {irreps : List (Irrep El)} {irrepsH : List (Irrep El')} (tG : IrrepTable G els irreps)
    (tH : IrrepTable H S.els irrepsH) {ρ : Irrep El'} (hρ : ρ ∈ irrepsH) {κ : ℝ} {irr : Irrep El} (hirr : irr ∈ irreps) {cob : Mat} {irs : List (Irrep El')}
    (h : IrrOk G H S ρ κ irr cob irs) (hirs : ∀ τ ∈ irs, τ ∈ irrepsH) :
    inducedMult G els S ρ (cosetLoop G els S) ((cosetLoop G els S).reps.length * ρ.size) irr * irr.socs = ρ.socs * (posList ρ 0 irs).length := by
  have hs : (irr.socs : ℝ) ≠ 0 := by have := tG.socs irr hirr; positivity
  have hcard := cosetLoop_card ok
  have hpos : (els.length : ℝ) ≠ 0 := by
    have := List.length_pos_of_mem ((ok.mem _).2 ok.lawG.one_mem)
    positivity
  have hlen : (els.length : ℝ) = (cosetLoop G els S).reps.length * S.els.length := by exact_mod_cast hcard.symm
  have hch : ∀ x, H.isEl x → Mat.trace irr.size (irr.mat (S.parent x)) = (irs.map fun k => Mat.trace k.size (k.mat x)).sum := by
    intro x hx
    have hi : IsInv irr.size cob (tr cob) := isInv_of_right h.cobOrth
    have e1 : MEq irr.size irr.size (irr.mat (S.parent x)) (mul irr.size (mul irr.size cob (Repr.blocks irs x)) (tr cob)) := by
      refine MEq.trans ?_ ((h.comm x hx).mul (MEq.refl (tr cob)))
      rw [Mat.mul_assoc]
      exact ((MEq_mul_one _ _ _).symm.trans ((MEq.refl _).mul hi.1.symm))
    rw [trace_conj hi e1]
    have e2 := trace_blocks irs x
    rw [h.size] at e2
    exact e2
  have hsum : (S.els.map fun x => Mat.trace ρ.size (ρ.mat x) * Mat.trace irr.size (irr.mat (S.parent x))).sum
      = (posList ρ 0 irs).length * (S.els.length * ρ.socs) := by
    have e1 : (S.els.map fun x => Mat.trace ρ.size (ρ.mat x) * Mat.trace irr.size (irr.mat (S.parent x)))
        = S.els.map fun x => (irs.map fun k => ρ.character x * k.character x).sum := by
      refine List.map_congr_left fun x hx => ?_
      rw [hch x ((ok.memH x).1 hx), tH.char ρ hρ, ← List.sum_map_mul_left]
      exact congrArg List.sum (List.map_congr_left fun k hk => by rw [tH.char k (hirs k hk)])
    rw [e1, sum_map_list_sum]
    exact posList_count ρ irs h.same 0 (fun k => (S.els.map fun x => ρ.character x * k.character x).sum) _ (tH.rel ρ hρ)
      fun τ hτ hne => tH.rel' ρ hρ τ (hirs τ hτ) (Ne.symm hne)
  have hmain := sum_inducedChar ok ρ h.orth
  rw [hsum] at hmain
  rw [inducedMult, multiplicity]
  have e3 : (els.map fun e => (∑ i ∈ range ((cosetLoop G els S).reps.length * ρ.size), inducedMat G S (cosetLoop G els S) ρ e i i) * irr.character (G.inv e))
      = els.map fun g => (∑ i ∈ range ((cosetLoop G els S).reps.length * ρ.size), inducedMat G S (cosetLoop G els S) ρ g i i) *
        Mat.trace irr.size (irr.mat (G.inv g)) := List.map_congr_left fun g _ => by rw [tG.char irr hirr]
  rw [e3, hmain, hlen]
  rw [hlen] at hpos
  have hr0 := left_ne_zero_of_mul hpos
  have hS0 := right_ne_zero_of_mul hpos
  field_simp

/-! ## The construction succeeds -/

/-- The blocks of `v`, with their irreps. -/
noncomputable def blkList (ρ : Irrep El') (cobF : Irrep El → Mat) (irsF : Irrep El → List (Irrep El')) (ms : List (Irrep El × ℕ)) : List (Irrep El × Mat) :=
  ms.flatMap fun p => (List.range p.2).map fun sh => (p.1, vBlock ρ p.1 (cobF p.1) (posList ρ 0 (irsF p.1)) p.2 sh)

theorem blkList_fst (ρ : Irrep El') (cobF : Irrep El → Mat) (irsF : Irrep El → List (Irrep El')) (ms : List (Irrep El × ℕ)) :
    (blkList ρ cobF irsF ms).map Prod.fst = ms.flatMap fun p => List.replicate p.2 p.1 := by
  rw [blkList, List.map_flatMap]
  congr 1
  funext p
  rw [List.map_map]
  rw [List.eq_replicate_iff]
  refine ⟨by simp, ?_⟩
  intro b hb
  obtain ⟨_, _, rfl⟩ := List.mem_map.1 hb
  rfl

theorem vLoop_blk {ρ : Irrep El'} {κ : ℝ} {cobF : Irrep El → Mat} {irsF : Irrep El → List (Irrep El')} (ms : List (Irrep El × ℕ))
    (h : ∀ p ∈ ms, S.restr p.1 = some (cobF p.1, irsF p.1) ∧ ρ.socs * (posList ρ 0 (irsF p.1)).length = p.2 * p.1.socs ∧
      (0 < p.2 → BlkOk H S ρ κ p.1 (cobF p.1) (irsF p.1) p.2)) :
    vLoop S ρ ms = some ((blkList ρ cobF irsF ms).map fun p => (p.1.size, p.2), κ * (ms.map fun p => ((p.2 : ℝ) * p.1.size)).sum) := by
  induction ms with
  | nil => simp [vLoop, blkList]
  | cons p ms ih =>
    have ih := ih fun p hp => h p (List.mem_cons_of_mem _ hp)
    obtain ⟨irr, m⟩ := p
    obtain ⟨h1, h2, h3⟩ := h (irr, m) List.mem_cons_self
    simp only at h1 h2 h3
    rcases Nat.eq_zero_or_pos m with rfl | hm
    · simp only [vLoop]
      rw [if_neg (by omega), if_pos trivial, ih]
      simp [blkList]
    · have hb := h3 hm
      simp only [vLoop]
      rw [if_neg (not_not.2 hb.le), if_neg (by omega), h1]
      simp only
      rw [if_neg (not_not.2 h2), ih]
      simp only [hb.norm, blkList, List.flatMap_cons, List.map_append, List.map_map, List.map_cons, List.sum_cons, Option.some.injEq, Prod.mk.injEq]
      refine ⟨rfl, by ring⟩

theorem sum_size_replicate (irreps : List (Irrep El)) (m : Irrep El → ℕ) :
    ((irreps.flatMap fun i => List.replicate (m i) i).map Irrep.size).sum = (irreps.map fun i => m i * i.size).sum := by
  induction irreps with
  | nil => simp
  | cons i l ih => simp [ih]

/-- **The construction of the induced representation succeeds.** -/
theorem induced_exists (ok : SubOk G els H S) {irreps : List (Irrep El)} {irrepsH : List (Irrep El')} (tG : IrrepTable G els irreps)
    (tH : IrrepTable H S.els irrepsH) {ρ : Irrep El'} (hρm : ρ ∈ irrepsH) (hρ : RhoOk H ρ)
    (hineq : ∀ i ∈ irreps, ∀ j ∈ irreps, i ≠ j → Inequivalent G i j)
    (hcom : ∀ i ∈ irreps, i.socs = 1 → Module.finrank ℝ (intertwiners G i i) = 1) {κ : ℝ} (hκ : 0 < κ)
    (hirr : ∀ i ∈ irreps, ∃ cob irs, S.restr i = some (cob, irs) ∧ IrrOk G H S ρ κ i cob irs ∧ ∀ τ ∈ irs, τ ∈ irrepsH) :
    ∃ r, induced G els irreps S ρ = some r := by
  classical
  have L := ok.lawG
  have hHpos : 0 < S.els.length := List.length_pos_of_mem ((ok.memH _).2 ok.lawH.one_mem)
  have hGpos : 0 < els.length := List.length_pos_of_mem ((ok.mem _).2 L.one_mem)
  have hcard := cosetLoop_card ok
  have hq : els.length / S.els.length = (cosetLoop G els S).reps.length := by
    rw [← hcard]; exact Nat.mul_div_cancel _ hHpos
  have hsize : ρ.size * (els.length / S.els.length) = (cosetLoop G els S).reps.length * ρ.size := by rw [hq, _root_.mul_comm]
  have hqpos : 0 < (cosetLoop G els S).reps.length := by
    rcases Nat.eq_zero_or_pos (cosetLoop G els S).reps.length with h | h
    · rw [h, zero_mul] at hcard; omega
    · exact h
  have hInd := inducedMat_isOrthRep ok hρ.orth
  -- the multiplicities
  obtain ⟨m, hm, hms⟩ : ∃ m : Irrep El → ℕ, (∀ i ∈ irreps, inducedMult G els S ρ (cosetLoop G els S) ((cosetLoop G els S).reps.length * ρ.size) i = m i) ∧
      (irreps.map fun i => m i * i.size).sum = (cosetLoop G els S).reps.length * ρ.size := by
    obtain ⟨r, hr, hri⟩ := tG.reg
    obtain ⟨ks, D, hks, hs, hD, hint⟩ := exists_decomposition tG.lawful tG.nodup tG.mem hr (fun i hi => tG.irred i (hri i hi)) hInd.toIsRep
    have hks' : ∀ i ∈ ks, i ∈ irreps := fun i hi => hri i (hks i hi)
    have hdec : IsDecomposition G ((cosetLoop G els S).reps.length * ρ.size) (inducedMat G S (cosetLoop G els S) ρ) ks D (Mat.inv _ D) :=
      ⟨hs, hD, fun g hg => hint.eq_conj hD hg⟩
    obtain ⟨-, h2⟩ := decomposeMult_of tG hks' hdec
    refine ⟨fun i => ks.count i, fun i hi => multiplicity_count tG hks' (fun g hg => hdec.character tG hks' hg) hi, ?_⟩
    rw [← hs, lsize, (h2.map Irrep.size).sum_eq, expandMult, List.flatMap_map, ← sum_size_replicate]
    simp
  choose! cobF irsF hres hok hirs using hirr
  set st := cosetLoop G els S with hst
  have hfrob : ∀ i ∈ irreps, ρ.socs * (posList ρ 0 (irsF i)).length = m i * i.socs := by
    intro i hi
    have := inducedMult_frob ok tG tH hρm hi (hok i hi) (hirs i hi)
    rw [← hst, hm i hi] at this
    exact_mod_cast this.symm
  have hblk : ∀ i ∈ irreps, 0 < m i → BlkOk H S ρ κ i (cobF i) (irsF i) (m i) := fun i hi hmi =>
    (hok i hi).blk hρ (tG.irred i hi).1 (hfrob i hi) hmi (tG.socs i hi)
  set n := st.reps.length * ρ.size with hn
  set l := blkList ρ cobF irsF (irreps.map fun i => (i, m i)) with hl
  have hvl := vLoop_blk (H := H) (S := S) (ρ := ρ) (κ := κ) (cobF := cobF) (irsF := irsF) (irreps.map fun i => (i, m i)) (by
    intro p hp
    obtain ⟨i, hi, rfl⟩ := List.mem_map.1 hp
    exact ⟨hres i hi, hfrob i hi, hblk i hi⟩)
  rw [← hl] at hvl
  have hmsR : ((irreps.map fun i => (i, m i)).map fun p => ((p.2 : ℝ) * p.1.size)).sum = n := by
    rw [List.map_map, ← hms, ← Nat.coe_castAddMonoidHom, map_list_sum, List.map_map]
    congr 1
    refine List.map_congr_left fun i _ => ?_
    simp
  rw [hmsR] at hvl
  have hls : lsize (l.map Prod.fst) = n := by
    rw [hl, blkList_fst, List.flatMap_map, lsize, sum_size_replicate, hms]
  have hlmem : ∀ p ∈ l, p.1 ∈ irreps ∧ ∃ sh < m p.1, p.2 = vBlock ρ p.1 (cobF p.1) (posList ρ 0 (irsF p.1)) (m p.1) sh := by
    intro p hp
    rw [hl, blkList, List.mem_flatMap] at hp
    obtain ⟨q, hq, hp⟩ := hp
    obtain ⟨i, hi, rfl⟩ := List.mem_map.1 hq
    obtain ⟨sh, hsh, rfl⟩ := List.mem_map.1 hp
    exact ⟨hi, sh, List.mem_range.1 hsh, rfl⟩
  have hnpos : (0 : ℝ) < κ * n := by
    have : 0 < n := Nat.mul_pos hqpos hρ.pos
    positivity
  set c := (Real.sqrt (κ * n))⁻¹ with hc
  have hcc : c * c = (κ * n)⁻¹ := by
    rw [hc, ← mul_inv, Real.mul_self_sqrt hnpos.le]
  have hinter : ∀ p ∈ l, Inter G n (inducedMat G S st ρ) p.1.size p.1.mat (colBlock G st.reps ρ.size c p.1 p.2) := by
    intro p hp
    obtain ⟨hi, sh, hsh, e⟩ := hlmem p hp
    refine colBlock_inter ok hρ.orth (tG.orth _ hi) ?_ c
    rw [e]
    exact (hblk _ hi (by omega)).inter sh hsh
  have hfst : ∀ p ∈ l, OrthCols n p.1.size (colBlock G st.reps ρ.size c p.1 p.2) := by
    intro p hp
    obtain ⟨hi, sh, hsh, e⟩ := hlmem p hp
    refine orthCols_of_trace L (tG.irred _ hi) (tG.orth _ hi) hInd (hinter p hp) ?_
    rw [hn, hst, colBlock_trace ok ρ.size (tG.orth _ hi), e, (hblk _ hi (by omega)).self sh hsh, hcc, hn]
    push_cast
    rw [← hst]
    have h1 : (st.reps.length : ℝ) ≠ 0 := by positivity
    have h2 : (ρ.size : ℝ) ≠ 0 := by have := hρ.pos; positivity
    field_simp
  have hpair : l.Pairwise fun p p' => MEq p'.1.size p.1.size (mul n (tr (colBlock G st.reps ρ.size c p'.1 p'.2)) (colBlock G st.reps ρ.size c p.1 p.2))
      fun _ _ => 0 := by
    have hsub : ∀ p ∈ l, ∀ p' ∈ l, p.1 ≠ p'.1 → MEq p'.1.size p.1.size
        (mul n (tr (colBlock G st.reps ρ.size c p'.1 p'.2)) (colBlock G st.reps ρ.size c p.1 p.2)) fun _ _ => 0 := by
      intro p hp p' hp' hne
      exact gram_zero_of_inequivalent L (hineq _ (hlmem p' hp').1 _ (hlmem p hp).1 (Ne.symm hne)) (tG.orth _ (hlmem p' hp').1) hInd (hinter p' hp') (hinter p hp)
    have hsame : ∀ i ∈ irreps, ∀ sh < m i, ∀ sh' < m i, sh < sh' → MEq i.size i.size
        (mul n (tr (colBlock G st.reps ρ.size c i (vBlock ρ i (cobF i) (posList ρ 0 (irsF i)) (m i) sh')))
          (colBlock G st.reps ρ.size c i (vBlock ρ i (cobF i) (posList ρ 0 (irsF i)) (m i) sh))) fun _ _ => 0 := by
      intro i hi sh hsh sh' hsh' hlt
      have hb := hblk i hi (by omega)
      have h1 : i.socs = 1 := by
        rcases hb.cross with h | h
        · exact h
        · omega
      have hin : ∀ t < m i, Inter G n (inducedMat G S st ρ) i.size i.mat
          (colBlock G st.reps ρ.size c i (vBlock ρ i (cobF i) (posList ρ 0 (irsF i)) (m i) t)) := fun t ht =>
        colBlock_inter ok hρ.orth (tG.orth _ hi) (hb.inter t ht) c
      refine gram_zero_of_trace L (hcom i hi h1) (tG.irred i hi).1 (tG.orth i hi) hInd (hin sh' hsh') (hin sh hsh) ?_
      rw [hn, hst, colBlock_trace ok ρ.size (tG.orth _ hi), hb.zero h1 sh' hsh' sh hsh (by omega), mul_zero]
    rw [hl, blkList, List.pairwise_flatMap]
    constructor
    · intro p hp
      obtain ⟨i, hi, rfl⟩ := List.mem_map.1 hp
      rw [List.pairwise_map]
      refine List.Pairwise.imp_of_mem ?_ List.pairwise_lt_range
      intro a b ha hb hab
      exact hsame i hi a (List.mem_range.1 ha) b (List.mem_range.1 hb) hab
    · rw [List.pairwise_map]
      refine List.Pairwise.imp_of_mem ?_ tG.irr_nodup
      intro i j hi hj hne p hp p' hp'
      have hpl : p ∈ l := by
        rw [hl, blkList, List.mem_flatMap]
        exact ⟨(i, m i), List.mem_map.2 ⟨i, hi, rfl⟩, hp⟩
      have hpl' : p' ∈ l := by
        rw [hl, blkList, List.mem_flatMap]
        exact ⟨(j, m j), List.mem_map.2 ⟨j, hj, rfl⟩, hp'⟩
      refine hsub p hpl p' hpl' ?_
      obtain ⟨_, _, rfl⟩ := List.mem_map.1 hp
      obtain ⟨_, _, rfl⟩ := List.mem_map.1 hp'
      exact hne
  have hOC := hcols_orth n st.reps ρ.size c l hfst hpair
  have hIn := hcols_inter st.reps ρ.size c l hinter
  rw [hls] at hOC hIn
  -- the matrices of the code
  set irrs := (irreps.map fun i => (i, m i)).flatMap (fun p => List.replicate p.2 p.1) with hirrs
  have hlf : l.map Prod.fst = irrs := blkList_fst ρ cobF irsF _
  rw [hlf] at hls hIn
  set cobInv := inducedCobInv st ρ n irrs (l.map fun p => (p.1.size, p.2)) (κ * n) with hcobInv
  have hcobE : MEq n n cobInv (tr (hcols G st.reps ρ.size c l)) := by
    intro i hi x hx
    have hk : x / ρ.size < st.reps.length := (Nat.div_lt_iff_lt_mul hρ.pos).2 (by rw [← hn]; exact hx)
    have e := blocks_vstack (G := G) st.reps ρ.size (Real.sqrt (κ * n)) l x (j := i) (by rw [hlf, hls]; exact hi)
    rw [hlf, hls] at e
    rw [tr, ← e, hcobInv, inducedCobInv, List.getElem?_eq_getElem hk, List.getD_eq_getElem?_getD, List.getElem?_eq_getElem hk]
    rfl
  have h1 : MEq n n (mul n cobInv (tr cobInv)) one := by
    refine (hcobE.mul hcobE.tr).trans ?_
    exact hOC
  have hinv : IsInv n cobInv (tr cobInv) := isInv_of_left h1
  have hmat : ∀ g, G.isEl g → MEq n n (mul n (mul n (tr cobInv) (Repr.blocks irrs g)) cobInv) (inducedMat G S st ρ g) := by
    intro g hg
    have e1 : MEq n n (mul n (tr cobInv) (Repr.blocks irrs g)) (mul n (inducedMat G S st ρ g) (tr cobInv)) :=
      (hcobE.tr.mul (MEq.refl _)).trans ((hIn g hg).symm.trans ((MEq.refl _).mul hcobE.tr.symm))
    refine (e1.mul (MEq.refl _)).trans ?_
    rw [Mat.mul_assoc]
    exact ((MEq.refl _).mul hinv.2).trans (MEq_mul_one _ _ _)
  refine ⟨⟨irrs, tr cobInv, cobInv⟩, ?_⟩
  unfold induced
  simp only
  rw [if_neg (not_not.2 fun g hg => cosetLoop_ok ok ((ok.mem g).1 hg)), if_neg (not_not.2 hq.symm), hsize]
  rw [if_neg (not_not.2 fun i hi => by rw [hm i hi]; simp)]
  have hmsE : (irreps.map fun irr => (irr, (round (inducedMult G els S ρ st n irr)).toNat)) = irreps.map fun i => (i, m i) := by
    refine List.map_congr_left fun i hi => ?_
    rw [hm i hi]; simp
  rw [hmsE]
  unfold inducedFrom
  have hls' : (irrs.map Irrep.size).sum = n := hls
  rw [← hirrs, if_neg (not_not.2 hls'), hvl]
  simp only
  rw [if_neg (not_not.2 ⟨hinv.1, hinv.2⟩), if_neg (not_not.2 fun g hg => hmat g ((ok.mem g).1 hg))]

end
end E2
