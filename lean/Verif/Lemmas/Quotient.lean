import Verif.Lemmas.Induced

namespace E2

set_option linter.unusedSectionVars false

open Finset Mat

section
variable {El El' : Type} [DecidableEq El]

/-- Specification: `r` is the representation of `G` induced from the representation `ρ` of the subgroup, with the blocks of axes
labelled by the representatives `reps` of the cosets. -/
structure IsInducedRep (G : Grp El) (H : Grp El') (S : SubData El El') (ρ : Irrep El') (reps : List El)
    (r : Repr El) : Prop where
  transversal : IsTransversal G H S reps
  wf : r.WF
  orth : MEq r.size r.size r.cobInv (tr r.cob)
  size : r.size = reps.length * ρ.size
  mat : ∀ g, G.isEl g → ∀ i (hi : i < reps.length) j (hj : j < reps.length) a b, a < ρ.size → b < ρ.size →
    r.mat g (j * ρ.size + a) (i * ρ.size + b)
      = match S.child (G.op (G.inv reps[j]) (G.op g reps[i])) with
        | none => 0
        | some h => ρ.mat h a b

/-- Specification: `r` permutes the axes labelled by the cosets of the representatives: the axis of the coset `reps[i] H` goes to
the axis of the coset of `g reps[i]`. -/
structure IsQuotientRep (G : Grp El) (H : Grp El') (S : SubData El El') (reps : List El) (r : Repr El) : Prop where
  transversal : IsTransversal G H S reps
  wf : r.WF
  orth : MEq r.size r.size r.cobInv (tr r.cob)
  size : r.size = reps.length
  mat : ∀ g, G.isEl g → ∀ i (hi : i < reps.length) j (hj : j < reps.length),
    (InCoset G H S reps[j] (G.op g reps[i]) → r.mat g j i = 1) ∧
    (¬ InCoset G H S reps[j] (G.op g reps[i]) → r.mat g j i = 0)

variable {G : Grp El} {els : List El} {H : Grp El'} {S : SubData El El'}

theorem IsInducedRep.quotient (ok : SubOk G els H S) {ρ : Irrep El'} (hs : ρ.size = 1)
    (hρ : ∀ h, ρ.mat h 0 0 = 1) {reps : List El} {r : Repr El} (h : IsInducedRep G H S ρ reps r) :
    IsQuotientRep G H S reps r := by
  have L := ok.lawG
  refine ⟨h.transversal, h.wf, h.orth, by rw [h.size, hs, mul_one], fun g hg i hi j hj => ?_⟩
  have hm := h.mat g hg i hi j hj 0 0 (by omega) (by omega)
  have hri := h.transversal.mem _ (List.getElem_mem hi)
  have hrj := h.transversal.mem _ (List.getElem_mem hj)
  have hgr := L.op_mem _ _ hg hri
  have key := (inCoset_iff ok hrj hgr).trans (child_isSome ok (L.op_mem _ _ (L.inv_mem _ hrj) hgr)).symm
  simp only [hs, mul_one, add_zero] at hm
  rw [key, hm]
  constructor
  · intro hx
    obtain ⟨k, hk⟩ := Option.isSome_iff_exists.1 hx
    simp only [hk, hρ]
  · intro hx
    simp only [Option.not_isSome_iff_eq_none.1 hx]

/-- Whenever the construction returns, the result is the induced representation. -/
theorem induced_spec (ok : SubOk G els H S) {irreps : List (Irrep El)} {ρ : Irrep El'} {r : Repr El}
    (h : induced G els irreps S ρ = some r) :
    IsInducedRep G H S ρ (cosetLoop G els S).reps r := by
  unfold induced at h
  dsimp only at h
  split_ifs at h with h1 h2 h3
  generalize (irreps.map fun irr => (irr, (round (inducedMult G els S ρ (cosetLoop G els S)
    (ρ.size * (els.length / S.els.length)) irr)).toNat)) = ms at h
  generalize (ms.flatMap fun p => List.replicate p.2 p.1) = irrs at h
  unfold inducedFrom at h
  split_ifs at h with h4
  cases hv : vLoop S ρ ms with
  | none => rw [hv] at h; cases h
  | some p =>
    obtain ⟨bs, n⟩ := p
    rw [hv] at h
    simp only at h
    split_ifs at h with h5 h6
    cases h
    have hsize : (irrs.map Irrep.size).sum = ρ.size * (els.length / S.els.length) := h4
    refine ⟨cosetLoop_transversal ok, ?_, ?_, ?_, ?_⟩
    · rw [Repr.WF, Repr.size]
      simp only [hsize]
      exact ⟨h5.2, h5.1⟩
    · exact MEq.of_eq rfl
    · rw [Repr.size, hsize, h2, _root_.mul_comm]
    · intro g hg i hi j hj a b ha hb
      refine Eq.trans ?_ (inducedMat_eq ok ρ hg hi hj ha hb)
      rw [← h6 g ((ok.mem g).2 hg)]
      · rw [Repr.mat, Repr.size]
        simp only [hsize]
      · calc j * ρ.size + a < j * ρ.size + ρ.size := by omega
          _ = (j + 1) * ρ.size := by ring
          _ ≤ (cosetLoop G els S).reps.length * ρ.size := Nat.mul_le_mul_right _ hj
          _ = _ := by rw [h2, _root_.mul_comm]
      · calc i * ρ.size + b < i * ρ.size + ρ.size := by omega
          _ = (i + 1) * ρ.size := by ring
          _ ≤ (cosetLoop G els S).reps.length * ρ.size := Nat.mul_le_mul_right _ hi
          _ = _ := by rw [h2, _root_.mul_comm]

/-! ### Success of the construction for the trivial representation -/

/-- What has to be known about one irrep with multiplicity `m`. -/
structure VOk (S : SubData El El') (ρ : Irrep El') (irr : Irrep El) (m : ℕ) (contrib : El → ℝ) : Prop where
  le : m ≤ irr.size
  zero : m = 0 → ∀ x, contrib x = 0
  pos : 0 < m → ∃ cob irs, S.restr irr = some (cob, irs) ∧
    ρ.socs * (posList ρ 0 irs).length = m * irr.socs ∧
    ((if m = (posList ρ 0 irs).length then m else ρ.socs * (posList ρ 0 irs).length : ℕ) : ℝ) * irr.size / irr.socs
      = m * irr.size ∧
    ∀ x, ∑ sh ∈ range m, quad irr.size (irr.mat x) (fun i => vBlock ρ irr cob (posList ρ 0 irs) m sh i 0) = contrib x

theorem quad_vstack_cons (irr : Irrep El) (A : Mat) (bs : List (ℕ × Mat)) (x : El) (l : List (Irrep El)) :
    quad ((irr :: l).map Irrep.size).sum (Repr.blocks (irr :: l) x) (fun i => vstack ((irr.size, A) :: bs) i 0)
      = quad irr.size (irr.mat x) (fun i => A i 0)
        + quad (l.map Irrep.size).sum (Repr.blocks l x) (fun i => vstack bs i 0) := by
  have t : (l.map Irrep.size).sum = total (l.map fun i => (i.size, i.mat x)) := by
    rw [total, List.map_map]; rfl
  rw [List.map_cons, List.sum_cons, t]
  unfold Repr.blocks
  rw [List.map_cons, quad_bdiag_cons]
  congr 1
  · exact quad_congr_vec _ fun i hi => by simp [vstack, hi]
  · exact quad_congr_vec _ fun i _ => by simp [vstack]

theorem quad_vstack_replicate (irr : Irrep El) (f : ℕ → Mat) (m : ℕ) (s0 : ℕ) (bs : List (ℕ × Mat)) (x : El)
    (l : List (Irrep El)) :
    quad ((List.replicate m irr ++ l).map Irrep.size).sum (Repr.blocks (List.replicate m irr ++ l) x)
        (fun i => vstack ((List.range' s0 m).map (fun sh => (irr.size, f sh)) ++ bs) i 0)
      = ∑ sh ∈ range m, quad irr.size (irr.mat x) (fun i => f (s0 + sh) i 0)
        + quad (l.map Irrep.size).sum (Repr.blocks l x) (fun i => vstack bs i 0) := by
  induction m generalizing s0 with
  | zero => simp
  | succ m ih =>
    rw [List.replicate_succ, List.range'_succ, List.map_cons, List.cons_append, List.cons_append, quad_vstack_cons, ih,
      Finset.sum_range_succ']
    simp only [add_zero]
    have : ∀ sh, s0 + 1 + sh = s0 + (sh + 1) := fun sh => by omega
    simp only [this]
    ring

theorem vLoop_spec {ρ : Irrep El'} (contrib : Irrep El → El → ℝ) (ms : List (Irrep El × ℕ))
    (h : ∀ p ∈ ms, VOk S ρ p.1 p.2 (contrib p.1)) :
    ∃ bs n, vLoop S ρ ms = some (bs, n) ∧ n = (ms.map fun p => (p.2 : ℝ) * p.1.size).sum ∧
      ∀ x, quad ((ms.flatMap fun p => List.replicate p.2 p.1).map Irrep.size).sum
        (Repr.blocks (ms.flatMap fun p => List.replicate p.2 p.1) x) (fun i => vstack bs i 0)
        = (ms.map fun p => contrib p.1 x).sum := by
  induction ms with
  | nil => exact ⟨[], 0, rfl, by simp, by simp [quad]⟩
  | cons p ms ih =>
    obtain ⟨bs, n, h1, h2, h3⟩ := ih fun p hp => h p (List.mem_cons_of_mem _ hp)
    obtain ⟨irr, m⟩ := p
    have hp := h (irr, m) (by simp)
    simp only at hp
    by_cases hm : m = 0
    · refine ⟨bs, n, ?_, ?_, ?_⟩
      · simp only [vLoop]
        rw [if_neg (not_not.2 hp.le), if_pos hm, h1]
      · simp [h2, hm]
      · intro x
        rw [List.map_cons, List.sum_cons, ← h3 x, hp.zero hm x, hm]
        simp
    · obtain ⟨cob, irs, e1, e2, e3, e4⟩ := hp.pos (by omega)
      refine ⟨(List.range m).map (fun sh => (irr.size, vBlock ρ irr cob (posList ρ 0 irs) m sh)) ++ bs,
        ((if m = (posList ρ 0 irs).length then m else ρ.socs * (posList ρ 0 irs).length : ℕ) : ℝ) * irr.size / irr.socs + n, ?_, ?_, ?_⟩
      · simp only [vLoop]
        rw [if_neg (not_not.2 hp.le), if_neg hm, e1]
        simp only
        rw [if_neg (not_not.2 e2), h1]
      · rw [e3, h2]; simp
      · intro x
        rw [List.flatMap_cons, List.range_eq_range', quad_vstack_replicate, h3, List.map_cons, List.sum_cons, ← e4 x]
        simp

/-- The multiplicities in the quotient representation (Frobenius reciprocity). -/
theorem multiplicity_quotient (ok : SubOk G els H S) {ρ : Irrep El'} (hs : ρ.size = 1) (hρ : ∀ h, ρ.mat h 0 0 = 1)
    {irr : Irrep El} (h1 : IsOrthRep G irr.size irr.mat) (hc : ∀ g, irr.character g = Mat.trace irr.size (irr.mat g))
    (hsocs : 0 < irr.socs) {m : ℕ}
    (hm : (S.els.map fun h => Mat.trace irr.size (irr.mat (S.parent h))).sum = m * irr.socs * S.els.length) :
    inducedMult G els S ρ (cosetLoop G els S) (cosetLoop G els S).reps.length irr = m := by
  classical
  rw [inducedMult]
  have L := ok.lawG
  have T := cosetLoop_transversal ok
  have hcard := cosetLoop_card ok
  set reps := (cosetLoop G els S).reps with hreps
  have hdiag : ∀ g ∈ els, ∀ i (hi : i < reps.length), inducedMat G S (cosetLoop G els S) ρ g i i
      = if ∃ h, H.isEl h ∧ S.parent h = G.op (G.inv reps[i]) (G.op g reps[i]) then 1 else 0 := by
    intro g hg i hi
    have hge := (ok.mem g).1 hg
    have := inducedMat_eq ok ρ hge hi hi (a := 0) (b := 0) (by omega) (by omega)
    simp only [hs, mul_one, add_zero] at this
    rw [this]
    have hri := T.mem _ (List.getElem_mem hi)
    have hx := L.op_mem _ _ (L.inv_mem _ hri) (L.op_mem _ _ hge hri)
    have key := child_isSome ok hx
    by_cases hex : ∃ h, H.isEl h ∧ S.parent h = G.op (G.inv reps[i]) (G.op g reps[i])
    · rw [if_pos hex]
      obtain ⟨k, hk⟩ := Option.isSome_iff_exists.1 (key.2 hex)
      simp only [hreps] at hk
      simp only [hk, hρ]
    · rw [if_neg hex]
      have hk := Option.not_isSome_iff_eq_none.1 (fun h => hex (key.1 h))
      simp only [hreps] at hk
      simp only [hk]
  -- trace is invariant under conjugation and inversion
  have htr : ∀ a b, G.isEl a → G.isEl b → Mat.trace irr.size (irr.mat (G.op a b)) = Mat.trace irr.size (irr.mat (G.op b a)) := by
    intro a b ha hb
    have t : ∀ A B : Mat, MEq irr.size irr.size A B → Mat.trace irr.size A = Mat.trace irr.size B :=
      fun A B hAB => Finset.sum_congr rfl fun i hi => hAB i (mem_range.1 hi) i (mem_range.1 hi)
    rw [t _ _ (h1.mul a b ha hb), t _ _ (h1.mul b a hb ha), Mat.trace, Mat.trace]
    simp only [Mat.mul]
    rw [Finset.sum_comm]
    exact Finset.sum_congr rfl fun i _ => Finset.sum_congr rfl fun j _ => _root_.mul_comm _ _
  have hti : ∀ a, G.isEl a → Mat.trace irr.size (irr.mat (G.inv a)) = Mat.trace irr.size (irr.mat a) := by
    intro a ha
    refine Finset.sum_congr rfl fun i hi => ?_
    rw [h1.inv a ha i (mem_range.1 hi) i (mem_range.1 hi), tr]
  have hone : ∀ i (hi : i < reps.length), (els.map fun g => inducedMat G S (cosetLoop G els S) ρ g i i *
      irr.character (G.inv g)).sum = (S.els.map fun h => Mat.trace irr.size (irr.mat (S.parent h))).sum := by
    intro i hi
    have hri := T.mem _ (List.getElem_mem hi)
    set r := reps[i]
    have e1 : (els.map fun g => inducedMat G S (cosetLoop G els S) ρ g i i * irr.character (G.inv g)).sum
        = ∑ g ∈ els.toFinset with ∃ h, H.isEl h ∧ S.parent h = G.op (G.inv r) (G.op g r),
          Mat.trace irr.size (irr.mat g) := by
      rw [Finset.sum_filter, List.sum_toFinset _ ok.nodup]
      congr 1
      refine List.map_congr_left fun g hg => ?_
      rw [hdiag g hg i hi, hc, hti g ((ok.mem g).1 hg)]
      split_ifs <;> simp
    have e2 : (S.els.map fun h => Mat.trace irr.size (irr.mat (S.parent h))).sum
        = ∑ g ∈ els.toFinset with ∃ h, H.isEl h ∧ S.parent h = g, Mat.trace irr.size (irr.mat g) := by
      classical
      have : DecidableEq El' := Classical.decEq _
      rw [← List.sum_toFinset _ ok.nodupH]
      refine Finset.sum_bij (fun h _ => S.parent h) ?_ ?_ ?_ ?_
      · intro h hh
        have hh := (ok.memH h).1 (List.mem_toFinset.1 hh)
        rw [Finset.mem_filter, List.mem_toFinset, ok.mem]
        exact ⟨ok.emb.mem h hh, h, hh, rfl⟩
      · intro a ha b hb e
        exact ok.emb.inj a b ((ok.memH a).1 (List.mem_toFinset.1 ha)) ((ok.memH b).1 (List.mem_toFinset.1 hb)) e
      · intro g hg
        obtain ⟨-, h, hh, e⟩ := Finset.mem_filter.1 hg
        exact ⟨h, List.mem_toFinset.2 ((ok.memH h).2 hh), e⟩
      · intro h _; rfl
    rw [e1, e2]
    have hinv := L.inv_mem _ hri
    refine Finset.sum_bij (fun g _ => G.op (G.inv r) (G.op g r)) ?_ ?_ ?_ ?_
    · intro g hg
      rw [Finset.mem_filter, List.mem_toFinset, ok.mem] at hg ⊢
      exact ⟨L.op_mem _ _ hinv (L.op_mem _ _ hg.1 hri), hg.2⟩
    · intro a ha b hb e
      rw [Finset.mem_filter, List.mem_toFinset, ok.mem] at ha hb
      have h2 : ∀ y, G.isEl y → G.op (G.op r (G.op (G.inv r) (G.op y r))) (G.inv r) = y := by
        intro y hy
        have hyr := L.op_mem _ _ hy hri
        rw [← L.assoc _ _ _ hri hinv hyr, L.op_inv _ hri, L.one_op _ hyr, L.assoc _ _ _ hy hri hinv, L.op_inv _ hri,
          L.op_one _ hy]
      rw [← h2 a ha.1, ← h2 b hb.1]
      exact congrArg (fun z => G.op (G.op r z) (G.inv r)) e
    · intro y hy
      rw [Finset.mem_filter, List.mem_toFinset, ok.mem] at hy
      have e3 : G.op (G.inv r) (G.op (G.op (G.op r y) (G.inv r)) r) = y := by
        have hry := L.op_mem _ _ hri hy.1
        rw [L.assoc _ _ _ hry hinv hri, L.inv_op _ hri, L.op_one _ hry, ← L.assoc _ _ _ hinv hri hy.1, L.inv_op _ hri,
          L.one_op _ hy.1]
      refine ⟨G.op (G.op r y) (G.inv r), ?_, e3⟩
      rw [Finset.mem_filter, List.mem_toFinset, ok.mem]
      refine ⟨L.op_mem _ _ (L.op_mem _ _ hri hy.1) hinv, ?_⟩
      rw [e3]
      exact hy.2
    · intro g hg
      rw [Finset.mem_filter, List.mem_toFinset, ok.mem] at hg
      rw [htr _ _ hinv (L.op_mem _ _ hg.1 hri), L.assoc _ _ _ hg.1 hri hinv, L.op_inv _ hri, L.op_one _ hg.1]
  have htot : (els.map fun g => (∑ i ∈ range reps.length, inducedMat G S (cosetLoop G els S) ρ g i i) *
      irr.character (G.inv g)).sum = reps.length * (m * irr.socs * S.els.length) := by
    rw [← List.sum_toFinset _ ok.nodup]
    simp only [Finset.sum_mul]
    rw [Finset.sum_comm, Finset.sum_congr rfl (g := fun _ => ((m * irr.socs * S.els.length : ℝ)))]
    · simp
    · intro i hi
      rw [List.sum_toFinset _ ok.nodup, hone i (mem_range.1 hi), hm]
  rw [multiplicity, htot]
  have hl : (els.length : ℝ) = reps.length * S.els.length := by exact_mod_cast hcard.symm
  have hpos : (els.length : ℝ) ≠ 0 := by
    have := List.length_pos_of_mem ((ok.mem _).2 L.one_mem)
    positivity
  have hs' : (irr.socs : ℝ) ≠ 0 := by positivity
  rw [hl] at hpos ⊢
  have hr0 := left_ne_zero_of_mul hpos
  have hS0 := right_ne_zero_of_mul hpos
  field_simp

/-- The construction of the quotient representation succeeds. -/
theorem quotient_success (ok : SubOk G els H S) {ρ : Irrep El'} (hs : ρ.size = 1)
    (hρ : ∀ h, ρ.mat h 0 0 = 1) {irreps : List (Irrep El)}
    (horth : ∀ i ∈ irreps, IsOrthRep G i.size i.mat)
    (hc : ∀ i ∈ irreps, ∀ g, i.character g = Mat.trace i.size (i.mat g))
    (m : Irrep El → ℕ) (contrib : Irrep El → El → ℝ)
    (hm : ∀ i ∈ irreps, 0 < i.socs ∧
      (S.els.map fun h => Mat.trace i.size (i.mat (S.parent h))).sum = m i * i.socs * S.els.length)
    (hv : ∀ i ∈ irreps, VOk S ρ i (m i) (contrib i))
    (hsum : (irreps.map fun i => m i * i.size).sum * S.els.length = els.length)
    (hφ1 : ∀ x, G.isEl x → (∃ h, H.isEl h ∧ S.parent h = x) →
      (irreps.map fun i => contrib i x).sum * S.els.length = els.length)
    (hφ0 : ∀ x, G.isEl x → (¬ ∃ h, H.isEl h ∧ S.parent h = x) → (irreps.map fun i => contrib i x).sum = 0) :
    ∃ r, induced G els irreps S ρ = some r ∧ r.irreps = irreps.flatMap fun i => List.replicate (m i) i := by
  have L := ok.lawG
  have T := cosetLoop_transversal ok
  have hcard := cosetLoop_card ok
  have hHpos : 0 < S.els.length := List.length_pos_of_mem ((ok.memH _).2 ok.lawH.one_mem)
  have hGpos : 0 < els.length := List.length_pos_of_mem ((ok.mem _).2 L.one_mem)
  have hq : els.length / S.els.length = (cosetLoop G els S).reps.length := by
    rw [← hcard]; exact Nat.mul_div_cancel _ hHpos
  have hsize : ρ.size * (els.length / S.els.length) = (cosetLoop G els S).reps.length := by rw [hs, one_mul, hq]
  have hmult : ∀ i ∈ irreps, inducedMult G els S ρ (cosetLoop G els S) (cosetLoop G els S).reps.length i = m i := fun i hi =>
    multiplicity_quotient ok hs hρ (horth i hi) (hc i hi) (hm i hi).1 (hm i hi).2
  have hms : (irreps.map fun irr => (irr, (round (inducedMult G els S ρ (cosetLoop G els S)
      (cosetLoop G els S).reps.length irr)).toNat))
      = irreps.map fun irr => (irr, m irr) := by
    refine List.map_congr_left fun i hi => ?_
    rw [hmult i hi]; simp
  obtain ⟨bs, n, hvl, hn, hquad⟩ := vLoop_spec (S := S) (ρ := ρ) contrib (irreps.map fun irr => (irr, m irr))
    (by
      intro p hp
      obtain ⟨i, hi, rfl⟩ := List.mem_map.1 hp
      exact hv i hi)
  set ms := irreps.map fun irr => (irr, m irr) with hmsdef
  set irrs := ms.flatMap fun p => List.replicate p.2 p.1 with hirrs
  set st := cosetLoop G els S with hst
  set reps := st.reps with hreps
  have hsum' : (irrs.map Irrep.size).sum = reps.length := by
    have h3 : (irrs.map Irrep.size).sum = (irreps.map fun i => m i * i.size).sum := by
      rw [hirrs, Repr.sum_size_flatMap, hmsdef, List.map_map]
      congr 1
      refine List.map_congr_left fun i _ => ?_
      simp
    rw [h3]
    exact Nat.eq_of_mul_eq_mul_right hHpos (hsum.trans hcard.symm)
  have hn' : n = reps.length := by
    have h4 : ((irreps.map fun i => m i * i.size).sum : ℕ) = (irreps.map fun i => (m i : ℝ) * i.size).sum := by
      rw [← Nat.coe_castAddMonoidHom, map_list_sum, List.map_map]
      congr 1
      refine List.map_congr_left fun i _ => ?_
      simp
    rw [hn, hmsdef, List.map_map]
    have h5 : (irreps.map fun i => m i * i.size).sum = reps.length :=
      Nat.eq_of_mul_eq_mul_right hHpos (hsum.trans hcard.symm)
    rw [← h5, h4]
    rfl
  have hqpos : (0 : ℝ) < reps.length := by
    have : 0 < reps.length := by
      rcases Nat.eq_zero_or_pos reps.length with h | h
      · rw [h, zero_mul] at hcard; omega
      · exact h
    exact_mod_cast this
  have hlen : (reps.length : ℝ) * S.els.length = els.length := by exact_mod_cast hcard
  have hHne : (S.els.length : ℝ) ≠ 0 := by positivity
  rw [hsum'] at hquad
  have hcontrib : ∀ x, (ms.map fun p => contrib p.1 x).sum = (irreps.map fun i => contrib i x).sum := by
    intro x; rw [hmsdef, List.map_map]; rfl
  have horth' : ∀ i ∈ irrs, IsOrthRep G i.size i.mat := by
    intro i hi
    rw [hirrs, List.mem_flatMap] at hi
    obtain ⟨p, hp, hi⟩ := hi
    rw [List.mem_replicate] at hi
    rw [hmsdef, List.mem_map] at hp
    obtain ⟨i', hi', rfl⟩ := hp
    rw [hi.2]
    exact horth i' hi'
  have hP := Repr.blocks_isRep G irrs fun i hi => (horth' i hi).toIsRep
  rw [hsum'] at hP
  set v : ℕ → ℝ := fun i => vstack bs i 0
  set cobInv : Mat := inducedCobInv st ρ reps.length irrs bs n with hcobInv
  have hcobE : ∀ i c (hc : c < reps.length), cobInv i c
      = mulVec reps.length (Repr.blocks irrs reps[c]) v i / Real.sqrt reps.length := by
    intro i c hc
    have hget : st.reps[c]? = some reps[c] := List.getElem?_eq_getElem hc
    simp only [hcobInv, inducedCobInv, hs, Nat.div_one, Nat.mod_one, hget, Mat.mul, mulVec, hn', Finset.sum_div]
    refine Finset.sum_congr rfl fun k _ => ?_
    rw [mul_div_assoc]
  -- the matrix entries
  have hmat : ∀ g, G.isEl g → MEq reps.length reps.length
      (Mat.mul reps.length (Mat.mul reps.length (tr cobInv) (Repr.blocks irrs g)) cobInv) (inducedMat G S st ρ g) := by
    intro g hg j hj i hi
    have hri := T.mem _ (List.getElem_mem hi)
    have hrj := T.mem _ (List.getElem_mem hj)
    have hinv := L.inv_mem _ hrj
    have hgr := L.op_mem _ _ hg hri
    have hx := L.op_mem _ _ hinv hgr
    have e1 : Mat.mul reps.length (Mat.mul reps.length (tr cobInv) (Repr.blocks irrs g)) cobInv j i
        = (∑ a ∈ range reps.length, mulVec reps.length (Repr.blocks irrs reps[j]) v a *
        mulVec reps.length (Repr.blocks irrs g) (mulVec reps.length (Repr.blocks irrs reps[i]) v) a)
        / reps.length := by
      show ∑ b ∈ range reps.length, (∑ a ∈ range reps.length, cobInv a j * Repr.blocks irrs g a b) * cobInv b i = _
      simp only [hcobE _ i hi, hcobE _ j hj]
      rw [Finset.sum_div]
      simp only [Finset.sum_mul]
      rw [Finset.sum_comm]
      refine Finset.sum_congr rfl fun a _ => ?_
      set V := mulVec reps.length (Repr.blocks irrs reps[j]) v a
      rw [mulVec, Finset.mul_sum, Finset.sum_div]
      refine Finset.sum_congr rfl fun b _ => ?_
      have hs := Real.mul_self_sqrt hqpos.le
      rw [div_mul_eq_mul_div, div_mul_div_comm, hs]
      ring
    rw [e1, quad_mul, ← blocks_inv horth' hrj]
    have e2 : MEq reps.length reps.length
        (Mat.mul reps.length (Repr.blocks irrs (G.inv reps[j])) (Mat.mul reps.length (Repr.blocks irrs g) (Repr.blocks irrs reps[i])))
        (Repr.blocks irrs (G.op (G.inv reps[j]) (G.op g reps[i]))) :=
      ((hP.mul _ _ hinv hgr).trans (MEq.mul (MEq.refl _) (hP.mul _ _ hg hri))).symm
    rw [quad_congr e2, hquad, hcontrib]
    have hI := inducedMat_eq ok ρ hg hi hj (a := 0) (b := 0) (by omega) (by omega)
    simp only [hs, mul_one, add_zero] at hI
    rw [hI]
    have key := child_isSome ok hx
    by_cases hex : ∃ h, H.isEl h ∧ S.parent h = G.op (G.inv reps[j]) (G.op g reps[i])
    · obtain ⟨k, hk⟩ := Option.isSome_iff_exists.1 (key.2 hex)
      have hk' : S.child (G.op (G.inv (cosetLoop G els S).reps[j]) (G.op g (cosetLoop G els S).reps[i])) = some k := hk
      simp only [hk', hρ]
      have := hφ1 _ hx hex
      rw [← hlen] at this
      rw [mul_right_cancel₀ hHne this, div_self hqpos.ne']
    · have hk := Option.not_isSome_iff_eq_none.1 (fun h => hex (key.1 h))
      have hk' : S.child (G.op (G.inv (cosetLoop G els S).reps[j]) (G.op g (cosetLoop G els S).reps[i])) = none := hk
      simp only [hk']
      rw [hφ0 _ hx hex, zero_div]
  have hone : MEq reps.length reps.length (Mat.mul reps.length (tr cobInv) cobInv) Mat.one := by
    intro j hj i hi
    have h1 := hmat G.one L.one_mem j hj i hi
    have h2 := (MEq.mul ((MEq.mul (MEq.refl (tr cobInv)) hP.one).trans (MEq_mul_one _ _ _)) (MEq.refl cobInv) j hj i hi)
    rw [← h2, h1]
    have hri := T.mem _ (List.getElem_mem hi)
    have hrj := T.mem _ (List.getElem_mem hj)
    have hI := inducedMat_eq ok ρ L.one_mem hi hj (a := 0) (b := 0) (by omega) (by omega)
    simp only [hs, mul_one, add_zero] at hI
    rw [hI, Mat.one]
    have hx := L.op_mem _ _ (L.inv_mem _ hrj) (L.op_mem _ _ L.one_mem hri)
    have key := child_isSome ok hx
    have hii := L.one_op _ hri
    by_cases hji : j = i
    · rw [if_pos hji]
      subst hji
      have : (S.child (G.op (G.inv reps[j]) (G.op G.one reps[j]))).isSome := by
        rw [key]
        exact ⟨H.one, ok.lawH.one_mem, by rw [ok.emb.one, hii, L.inv_op _ hri]⟩
      obtain ⟨k, hk⟩ := Option.isSome_iff_exists.1 this
      have hk' : S.child (G.op (G.inv (cosetLoop G els S).reps[j]) (G.op G.one (cosetLoop G els S).reps[j])) = some k := hk
      simp only [hk', hρ]
    · rw [if_neg hji]
      have : ¬ (S.child (G.op (G.inv reps[j]) (G.op G.one reps[i]))).isSome := by
        rw [key, hii]
        intro hex
        have := (inCoset_iff ok hrj hri).2 hex
        have hu := (T.exists_unique reps[i] hri).unique ⟨List.getElem_mem hj, this⟩
          ⟨List.getElem_mem hi, inCoset_self ok hri⟩
        exact hji ((T.nodup.getElem_inj_iff).1 hu)
      have hk' : S.child (G.op (G.inv (cosetLoop G els S).reps[j]) (G.op G.one (cosetLoop G els S).reps[i])) = none :=
        Option.not_isSome_iff_eq_none.1 this
      simp only [hk']
  have hinv : IsInv reps.length (tr cobInv) cobInv := isInv_of_left hone
  refine ⟨⟨irrs, tr cobInv, cobInv⟩, ?_, ?_⟩
  · unfold induced
    simp only
    rw [if_neg (not_not.2 fun g hg => cosetLoop_ok ok ((ok.mem g).1 hg)), if_neg (not_not.2 hq.symm), hsize,
      if_neg (not_not.2 fun i hi => by rw [hmult i hi]; simp), hms]
    unfold inducedFrom
    rw [if_neg (not_not.2 hsum'), hvl]
    simp only
    rw [if_neg (not_not.2 ⟨hinv.2, hinv.1⟩), if_neg (not_not.2 fun g hg => hmat g ((ok.mem g).1 hg))]
  · show ms.flatMap _ = _
    rw [hmsdef, List.flatMap_map]

end
end E2
