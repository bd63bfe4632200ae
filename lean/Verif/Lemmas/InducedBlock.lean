import Verif.Lemmas.InducedGram

/-!
# Existence of the induced representations: the blocks of the vector `v`
-/

namespace E2

set_option linter.unusedSectionVars false

open Finset Mat

section
variable {El El' : Type} [DecidableEq El] {G : Grp El} {els : List El} {H : Grp El'} {S : SubData El El'}

/-- A block of rows, zero elsewhere. -/
def plc (x s : ℕ) (E : Mat) : Mat := setRows x s E fun _ _ => 0

theorem plc_apply (x s : ℕ) (E : Mat) (i j : ℕ) : plc x s E i j = if x ≤ i ∧ i < x + s then E (i - x) j else 0 := rfl

theorem posList_spec (ρ : Irrep El') (l : List (Irrep El')) (hl : ∀ τ ∈ l, sameIrrep τ ρ → τ = ρ) (x0 : ℕ) :
    (posList ρ x0 l).Pairwise (fun x y => x + ρ.size ≤ y) ∧ ∀ x ∈ posList ρ x0 l, x0 ≤ x ∧ x + ρ.size ≤ x0 + lsize l := by
  induction l generalizing x0 with
  | nil => simp [posList]
  | cons τ l ih =>
    obtain ⟨h1, h2⟩ := ih (fun τ' h => hl τ' (List.mem_cons_of_mem _ h)) (x0 + τ.size)
    rw [posList, lsize_cons]
    by_cases h : sameIrrep τ ρ
    · have e := hl τ List.mem_cons_self h
      rw [if_pos h]
      constructor
      · rw [List.singleton_append, List.pairwise_cons]
        refine ⟨fun y hy => ?_, h1⟩
        have := h2 y hy
        rw [e] at this
        omega
      · intro x hx
        rcases List.mem_append.1 hx with hx | hx
        · rw [List.mem_singleton] at hx
          subst hx
          rw [e]
          omega
        · have := h2 x hx
          omega
    · rw [if_neg h, List.nil_append]
      refine ⟨h1, fun x hx => ?_⟩
      have := h2 x hx
      omega

theorem posList_length (ρ : Irrep El') (l : List (Irrep El')) (hl : ∀ τ ∈ l, sameIrrep τ ρ → τ = ρ) (x0 : ℕ) :
    (posList ρ x0 l).length * ρ.size ≤ lsize l := by
  induction l generalizing x0 with
  | nil => simp [posList]
  | cons τ l ih =>
    have h1 := ih (fun τ' h => hl τ' (List.mem_cons_of_mem _ h)) (x0 + τ.size)
    rw [posList, lsize_cons, List.length_append, Nat.add_mul]
    by_cases h : sameIrrep τ ρ
    · rw [if_pos h]
      rw [hl τ List.mem_cons_self h] at h1 ⊢
      simp only [List.length_singleton, one_mul]
      omega
    · rw [if_neg h]
      simp only [List.length_nil, zero_mul]
      omega

theorem plc_comm (ρ : Irrep El') (l : List (Irrep El')) (hl : ∀ τ ∈ l, sameIrrep τ ρ → τ = ρ) (x0 : ℕ) (h : El') (E : Mat) :
    ∀ x ∈ posList ρ x0 l, ∀ i < lsize l, ∀ j, mul (lsize l) (Repr.blocks l h) (plc (x - x0) ρ.size E) i j
      = plc (x - x0) ρ.size (mul ρ.size (ρ.mat h) E) i j := by
  induction l generalizing x0 with
  | nil => intro x hx; simp [posList] at hx
  | cons τ l ih =>
    intro x hx i hi j
    have hl' := fun τ' h => hl τ' (List.mem_cons_of_mem _ h)
    have h2 := (posList_spec ρ l hl' (x0 + τ.size)).2
    rw [posList] at hx
    rw [lsize_cons] at hi ⊢
    simp only [mul, Repr.blocks, List.map_cons, bdiag]
    rw [Finset.sum_range_add]
    rcases List.mem_append.1 hx with hx | hx
    · by_cases hs : sameIrrep τ ρ
      · have e := hl τ List.mem_cons_self hs
        rw [if_pos hs, List.mem_singleton] at hx
        subst hx
        rw [e] at hi ⊢
        rw [Nat.sub_self]
        rw [Finset.sum_eq_zero (s := range (lsize l)) (fun k _ => by rw [plc_apply, if_neg (c := 0 ≤ ρ.size + k ∧ _) (by omega), mul_zero]), add_zero]
        by_cases hi' : i < ρ.size
        · rw [plc_apply, if_pos ⟨Nat.zero_le _, by omega⟩]
          refine Finset.sum_congr rfl fun k hk => ?_
          have hk := mem_range.1 hk
          rw [if_pos hi', if_pos hk, plc_apply, if_pos ⟨Nat.zero_le _, by omega⟩]
          rfl
        · rw [plc_apply, if_neg (by omega)]
          refine Finset.sum_eq_zero fun k hk => ?_
          rw [if_neg hi', if_pos (mem_range.1 hk), zero_mul]
      · rw [if_neg hs] at hx
        cases hx
    · have hb := h2 x hx
      rw [Finset.sum_eq_zero (s := range τ.size) (fun k hk => by
        have := mem_range.1 hk
        rw [plc_apply, if_neg (c := x - x0 ≤ k ∧ _) (by omega), mul_zero]), zero_add]
      have hsh : ∀ (E : Mat) k, plc (x - x0) ρ.size E (τ.size + k) j = plc (x - (x0 + τ.size)) ρ.size E k j := by
        intro E k
        rw [plc_apply, plc_apply]
        have e1 : τ.size + k - (x - x0) = k - (x - (x0 + τ.size)) := by omega
        rw [e1]
        simp only [show (x - x0 ≤ τ.size + k ∧ τ.size + k < x - x0 + ρ.size) = (x - (x0 + τ.size) ≤ k ∧ k < x - (x0 + τ.size) + ρ.size) from propext (by omega)]
      by_cases hi' : i < τ.size
      · rw [plc_apply, if_neg (c := x - x0 ≤ i ∧ _) (by omega)]
        refine Finset.sum_eq_zero fun k _ => ?_
        rw [if_pos hi', if_neg (by omega), zero_mul]
      · have e2 : i = τ.size + (i - τ.size) := by omega
        rw [e2, hsh, ← ih hl' (x0 + τ.size) x hx (i - τ.size) (by omega) j]
        refine Finset.sum_congr rfl fun k _ => ?_
        rw [if_neg (by omega), if_neg (by omega), hsh, Nat.add_sub_cancel_left, Nat.add_sub_cancel_left]
        rfl

theorem plc_mul (x s m : ℕ) (E R : Mat) (i j : ℕ) : mul m (plc x s E) R i j = plc x s (mul m E R) i j := by
  simp only [mul, plc_apply]
  split_ifs
  · rfl
  · simp

/-- An array of blocks at positions of `ρ`, on which the commuting matrices act, commutes with the representation. -/
theorem plc_inter {ρ : Irrep El'} {l : List (Irrep El')} (hl : ∀ τ ∈ l, sameIrrep τ ρ → τ = ρ) {h : El'} {E : Mat}
    (hE : MEq ρ.size ρ.size (mul ρ.size (ρ.mat h) E) (mul ρ.size E (ρ.mat h))) {x : ℕ} (hx : x ∈ posList ρ 0 l) :
    MEq (lsize l) ρ.size (mul (lsize l) (Repr.blocks l h) (plc x ρ.size E)) (mul ρ.size (plc x ρ.size E) (ρ.mat h)) := by
  intro i hi j hj
  rw [plc_mul]
  refine (plc_comm ρ l hl 0 h E x hx i hi j).trans ?_
  rw [plc_apply, plc_apply, Nat.sub_zero]
  split_ifs with hc
  · exact hE _ (by omega) j hj
  · rfl

theorem frob_plc_same {n x s m : ℕ} (hx : x + s ≤ n) (E E' : Mat) : frob n m (plc x s E) (plc x s E') = frob s m E E' := by
  obtain ⟨t, rfl⟩ : ∃ t, n = x + s + t := ⟨n - (x + s), by omega⟩
  rw [frob, Finset.sum_range_add, Finset.sum_range_add, frob]
  rw [Finset.sum_eq_zero (s := range x) (fun i hi => Finset.sum_eq_zero fun j _ => by
    have := mem_range.1 hi
    rw [plc_apply, if_neg (by omega), zero_mul]), zero_add,
    Finset.sum_eq_zero (s := range t) (fun i hi => Finset.sum_eq_zero fun j _ => by rw [plc_apply, if_neg (by omega), zero_mul]), add_zero]
  refine Finset.sum_congr rfl fun i hi => Finset.sum_congr rfl fun j _ => ?_
  have := mem_range.1 hi
  rw [plc_apply, plc_apply, if_pos (by omega), if_pos (by omega), Nat.add_sub_cancel_left]

theorem frob_plc_disj {n x y s m : ℕ} (hxy : x + s ≤ y ∨ y + s ≤ x) (E E' : Mat) : frob n m (plc x s E) (plc y s E') = 0 := by
  refine Finset.sum_eq_zero fun i _ => Finset.sum_eq_zero fun j _ => ?_
  rw [plc_apply, plc_apply]
  split_ifs
  · omega
  · simp
  · simp
  · simp

theorem frob_add_add (n m : ℕ) (A B A' B' : Mat) :
    frob n m (fun i j => A i j + B i j) (fun i j => A' i j + B' i j) = frob n m A A' + frob n m A B' + frob n m B A' + frob n m B B' := by
  simp only [frob, ← Finset.sum_add_distrib]
  refine Finset.sum_congr rfl fun i _ => Finset.sum_congr rfl fun j _ => ?_
  ring

theorem frob_smul (n m : ℕ) (c : ℝ) (A B : Mat) : frob n m (fun i j => c * A i j) (fun i j => c * B i j) = c * c * frob n m A B := by
  simp only [frob, Finset.mul_sum]
  refine Finset.sum_congr rfl fun i _ => Finset.sum_congr rfl fun j _ => ?_
  ring

/-- What is needed of the inducing irrep. -/
structure RhoOk (H : Grp El') (ρ : Irrep El') : Prop where
  orth : IsOrthRep H ρ.size ρ.mat
  pos : 0 < ρ.size
  socs : ρ.socs = 1 ∨ (ρ.socs = 2 ∧ ρ.size = 2 ∧ ∀ h, H.isEl h → MEq 2 2 (mul 2 (ρ.mat h) (m2 0 (-1) 1 0)) (mul 2 (m2 0 (-1) 1 0) (ρ.mat h)))

theorem commutingMat_comm {ρ : Irrep El'} (hρ : RhoOk H ρ) (t : ℕ) {h : El'} (hh : H.isEl h) :
    MEq ρ.size ρ.size (mul ρ.size (ρ.mat h) (commutingMat ρ t)) (mul ρ.size (commutingMat ρ t) (ρ.mat h)) := by
  unfold commutingMat
  rcases hρ.socs with h1 | ⟨h2, hs, hc⟩
  · rw [if_pos h1]
    exact (MEq_mul_one _ _ _).trans (MEq_one_mul _ _ _).symm
  · rw [if_neg (by omega), hs]
    split_ifs
    · exact ((MEq.refl _).mul m2_one).trans ((MEq_mul_one _ _ _).trans ((MEq_one_mul _ _ _).symm.trans (m2_one.symm.mul (MEq.refl _))))
    · exact hc h hh

theorem frob_commuting {ρ : Irrep El'} (hρ : RhoOk H ρ) (t : ℕ) : frob ρ.size ρ.size (commutingMat ρ t) (commutingMat ρ t) = ρ.size := by
  unfold commutingMat
  rcases hρ.socs with h1 | ⟨h2, hs, hc⟩
  · rw [if_pos h1]
    simp only [frob, Mat.one, mul_ite, mul_one, mul_zero]
    rw [Finset.sum_congr rfl (g := fun _ => (1 : ℝ))]
    · simp
    · intro i hi
      rw [Finset.sum_eq_single i]
      · simp
      · intro j _ hj
        rw [if_neg (fun h => hj h.symm)]
      · intro h; exact absurd hi h
  · rw [if_neg (by omega), hs]
    split_ifs <;> simp [frob, Finset.sum_range_succ, m2] <;> norm_num

theorem frob_commuting_ne {ρ : Irrep El'} (hρ : RhoOk H ρ) {t t' : ℕ} (ht : t < ρ.socs) (ht' : t' < ρ.socs) (hne : t ≠ t') :
    frob ρ.size ρ.size (commutingMat ρ t) (commutingMat ρ t') = 0 := by
  rcases hρ.socs with h1 | ⟨h2, hs, hc⟩
  · omega
  · have hE : ∀ t, commutingMat ρ t = if t % 2 = 0 then m2 1 0 0 1 else m2 0 (-1) 1 0 := fun t => by
      unfold commutingMat
      rw [if_neg (by omega)]
    rw [hE, hE, hs]
    obtain ⟨rfl, rfl⟩ | ⟨rfl, rfl⟩ : (t = 0 ∧ t' = 1) ∨ (t = 1 ∧ t' = 0) := by omega
    · simp [frob, Finset.sum_range_succ, m2]
    · simp [frob, Finset.sum_range_succ, m2]

/-- What is needed of an irrep of the group with its restriction; `κ` is the ratio `dr / socs` of the code, the same for all irreps. -/
structure IrrOk (G : Grp El) (H : Grp El') (S : SubData El El') (ρ : Irrep El') (κ : ℝ) (irr : Irrep El) (cob : Mat) (irs : List (Irrep El')) : Prop where
  orth : IsOrthRep G irr.size irr.mat
  cobOrth : MEq irr.size irr.size (mul irr.size (tr cob) cob) one
  size : lsize irs = irr.size
  same : ∀ τ ∈ irs, sameIrrep τ ρ → τ = ρ
  comm : ∀ h, H.isEl h → MEq irr.size irr.size (mul irr.size (irr.mat (S.parent h)) cob) (mul irr.size cob (Repr.blocks irs h))
  shape : 0 < (posList ρ 0 irs).length → (irr.socs = 1 ∧ κ = 1) ∨ (irr.socs = 2 ∧ irr.size = 2 ∧ ρ.socs = 1 ∧ κ = 1) ∨
    (irr.socs = 2 ∧ irr.size = 2 ∧ ρ.socs = 2 ∧ ρ.size = 2 ∧ κ = 1 / 2)

/-- The conclusions about the block of `v` of an irrep with multiplicity `m`. -/
structure BlkOk (H : Grp El') (S : SubData El El') (ρ : Irrep El') (κ : ℝ) (irr : Irrep El) (cob : Mat) (irs : List (Irrep El')) (m : ℕ) : Prop where
  le : m ≤ irr.size
  norm : ((if m = (posList ρ 0 irs).length then m else ρ.socs * (posList ρ 0 irs).length : ℕ) : ℝ) * irr.size / irr.socs = κ * (m * irr.size)
  inter : ∀ sh < m, ∀ h, H.isEl h → MEq irr.size ρ.size (mul irr.size (irr.mat (S.parent h)) (vBlock ρ irr cob (posList ρ 0 irs) m sh))
    (mul ρ.size (vBlock ρ irr cob (posList ρ 0 irs) m sh) (ρ.mat h))
  self : ∀ sh < m, frob irr.size ρ.size (vBlock ρ irr cob (posList ρ 0 irs) m sh) (vBlock ρ irr cob (posList ρ 0 irs) m sh) = κ * (irr.size * ρ.size)
  cross : irr.socs = 1 ∨ m = 1
  zero : irr.socs = 1 → ∀ sh < m, ∀ sh' < m, sh ≠ sh' →
    frob irr.size ρ.size (vBlock ρ irr cob (posList ρ 0 irs) m sh) (vBlock ρ irr cob (posList ρ 0 irs) m sh') = 0

theorem smul_mul_inter {n s m : ℕ} {A cob P B R : Mat} (c : ℝ) (h1 : MEq n n (mul n A cob) (mul n cob P)) (h2 : MEq n s (mul n P B) (mul m B R)) :
    MEq n s (mul n A fun i j => c * mul n cob B i j) (mul m (fun i j => c * mul n cob B i j) R) := by
  have h3 : MEq n s (mul n A (mul n cob B)) (mul m (mul n cob B) R) := by
    rw [← Mat.mul_assoc, Mat.mul_assoc (A := cob) (B := B) (C := R)]
    refine (h1.mul (MEq.refl B)).trans ?_
    rw [Mat.mul_assoc]
    exact (MEq.refl cob).mul h2
  intro i hi j hj
  have e := h3 i hi j hj
  have e1 : mul n A (fun i j => c * mul n cob B i j) i j = c * mul n A (mul n cob B) i j := by
    simp only [mul, Finset.mul_sum]
    exact Finset.sum_congr rfl fun k _ => Finset.sum_congr rfl fun l _ => by ring
  have e2 : mul m (fun i j => c * mul n cob B i j) R i j = c * mul m (mul n cob B) R i j := by
    simp only [mul, Finset.mul_sum, Finset.sum_mul]
    exact Finset.sum_congr rfl fun k _ => Finset.sum_congr rfl fun l _ => by ring
  rw [e1, e2, e]

theorem mul_add_left (n : ℕ) (A B C : Mat) (i j : ℕ) : mul n A (fun i j => B i j + C i j) i j = mul n A B i j + mul n A C i j := by
  simp only [mul, ← Finset.sum_add_distrib]
  exact Finset.sum_congr rfl fun k _ => by ring

theorem mul_add_right (n : ℕ) (A B C : Mat) (i j : ℕ) : mul n (fun i j => B i j + C i j) A i j = mul n B A i j + mul n C A i j := by
  simp only [mul, ← Finset.sum_add_distrib]
  exact Finset.sum_congr rfl fun k _ => by ring

theorem IrrOk.blk {ρ : Irrep El'} (hρ : RhoOk H ρ) {κ : ℝ} {irr : Irrep El} {cob : Mat} {irs : List (Irrep El')} (h : IrrOk G H S ρ κ irr cob irs)
    (hpos : 0 < irr.size) {m : ℕ} (hm : ρ.socs * (posList ρ 0 irs).length = m * irr.socs) (hm0 : 0 < m) (hsoc : 0 < irr.socs) :
    BlkOk H S ρ κ irr cob irs m := by
  obtain ⟨hpw, hbd⟩ := posList_spec ρ irs h.same 0
  have hlen := posList_length ρ irs h.same 0
  rw [h.size] at hlen
  have hJ : 0 < (posList ρ 0 irs).length := by
    rcases Nat.eq_zero_or_pos (posList ρ 0 irs).length with h0 | h0
    · rw [h0, mul_zero] at hm
      have := Nat.mul_pos hm0 hsoc
      omega
    · exact h0
  have hρp := hρ.pos
  generalize hJd : posList ρ 0 irs = J at *
  have hbd' : ∀ x ∈ J, x + ρ.size ≤ irr.size := fun x hx => by
    have := (hbd x hx).2
    rw [h.size] at this
    omega
  have hgetD : ∀ k (hk : k < J.length), J.getD k 0 = J[k] := fun k hk => by
    rw [List.getD_eq_getElem?_getD, List.getElem?_eq_getElem hk, Option.getD_some]
  have hmemD : ∀ k, k < J.length → J.getD k 0 ∈ J := fun k hk => by rw [hgetD k hk]; exact List.getElem_mem hk
  have hsep : ∀ k l, k < J.length → l < J.length → k ≠ l → J.getD k 0 + ρ.size ≤ J.getD l 0 ∨ J.getD l 0 + ρ.size ≤ J.getD k 0 := by
    intro k l hk hl hne
    rw [hgetD k hk, hgetD l hl]
    rcases Nat.lt_or_gt_of_ne hne with hlt | hlt
    · exact Or.inl (List.pairwise_iff_getElem.1 hpw k l hk hl hlt)
    · exact Or.inr (List.pairwise_iff_getElem.1 hpw l k hl hk hlt)
  have hd0 : (0 : ℝ) ≤ (irr.size : ℝ) / irr.socs := by positivity
  have hinter1 : ∀ x ∈ J, ∀ t h', H.isEl h' → MEq irr.size ρ.size (mul irr.size (Repr.blocks irs h') (plc x ρ.size (commutingMat ρ t)))
      (mul ρ.size (plc x ρ.size (commutingMat ρ t)) (ρ.mat h')) := by
    intro x hx t h' hh'
    have := plc_inter h.same (commutingMat_comm hρ t hh') (x := x) (by rw [hJd]; exact hx)
    rw [h.size] at this
    exact this
  rcases h.shape (by rw [hJd]; exact hJ) with ⟨h1, hκ⟩ | ⟨h1, h2, h3, hκ⟩ | ⟨h1, h2, h3, h4, hκ⟩
  · -- irreps with one constituent
    have hv : ∀ sh, vBlock ρ irr cob J m sh = fun i j => Real.sqrt (irr.size / irr.socs) * mul irr.size cob
        (plc (J.getD (sh % J.length) 0) ρ.size (commutingMat ρ (sh / J.length))) i j := by
      intro sh
      unfold vBlock
      rw [h1]
      simp only [ite_self, List.range_one, List.foldl_cons, List.foldl_nil, mul_one, add_zero]
      rfl
    have hmeq : m = ρ.socs * J.length := by rw [hm, h1, mul_one]
    have hsz : ρ.socs ≤ ρ.size := by
      rcases hρ.socs with e | ⟨e, e2, -⟩ <;> omega
    have hfr : ∀ sh sh', frob irr.size ρ.size (vBlock ρ irr cob J m sh) (vBlock ρ irr cob J m sh') = irr.size * frob irr.size ρ.size
        (plc (J.getD (sh % J.length) 0) ρ.size (commutingMat ρ (sh / J.length)))
        (plc (J.getD (sh' % J.length) 0) ρ.size (commutingMat ρ (sh' / J.length))) := by
      intro sh sh'
      rw [hv, hv, frob_smul, frob_mul_orth h.cobOrth, Real.mul_self_sqrt hd0, h1, Nat.cast_one, div_one]
    refine ⟨?_, ?_, ?_, ?_, Or.inl h1, ?_⟩
    · rw [hmeq]
      calc ρ.socs * J.length ≤ ρ.size * J.length := Nat.mul_le_mul_right _ hsz
        _ = J.length * ρ.size := _root_.mul_comm _ _
        _ ≤ irr.size := hlen
    · rw [hκ, h1, hJd, ← hmeq, ite_self]
      simp
    · intro sh hsh h' hh'
      rw [hJd, hv]
      exact smul_mul_inter _ (h.comm h' hh') (hinter1 _ (hmemD _ (Nat.mod_lt _ hJ)) _ h' hh')
    · intro sh hsh
      rw [hJd, hfr, frob_plc_same (hbd' _ (hmemD _ (Nat.mod_lt _ hJ))), frob_commuting hρ, hκ, one_mul]
    · intro _ sh hsh sh' hsh' hne
      rw [hJd, hfr]
      by_cases hmod : sh % J.length = sh' % J.length
      · rw [hmod, frob_plc_same (hbd' _ (hmemD _ (Nat.mod_lt _ hJ))), frob_commuting_ne hρ, mul_zero]
        · exact (Nat.div_lt_iff_lt_mul hJ).2 (by rw [← hmeq]; exact hsh)
        · exact (Nat.div_lt_iff_lt_mul hJ).2 (by rw [← hmeq]; exact hsh')
        · intro hdiv
          apply hne
          rw [← Nat.div_add_mod sh J.length, ← Nat.div_add_mod sh' J.length, hmod, hdiv]
      · rw [frob_plc_disj (hsep _ _ (Nat.mod_lt _ hJ) (Nat.mod_lt _ hJ) hmod), mul_zero]
  · -- two copies of a real one-dimensional irrep in an irrep with two constituents
    have hJle : J.length ≤ 2 := by
      calc J.length = J.length * 1 := (mul_one _).symm
        _ ≤ J.length * ρ.size := Nat.mul_le_mul_left _ hρp
        _ ≤ 2 := by rw [← h2]; exact hlen
    have hm1 : m = 1 ∧ J.length = 2 := by rw [h1, h3] at hm; omega
    have hρ1 : ρ.size = 1 := by rw [hm1.2, h2] at hlen; omega
    have hsep01 : J.getD 0 0 + ρ.size ≤ J.getD 1 0 := by
      rw [hgetD 0 (by omega), hgetD 1 (by omega)]
      exact List.pairwise_iff_getElem.1 hpw 0 1 (by omega) (by omega) (by omega)
    have hv : ∀ sh < m, vBlock ρ irr cob J m sh = fun i j => Real.sqrt (irr.size / irr.socs) * mul irr.size cob
        (fun i j => plc (J.getD 0 0) ρ.size (commutingMat ρ 0) i j + plc (J.getD 1 0) ρ.size (commutingMat ρ 0) i j) i j := by
      intro sh hsh
      obtain rfl : sh = 0 := by omega
      unfold vBlock
      rw [h1, hm1.1, hm1.2]
      funext i j
      simp only [if_neg (show ¬ 1 = 2 by omega), List.range_succ, List.range_zero, List.nil_append, List.foldl_append, List.foldl_cons,
        List.foldl_nil, zero_mul, zero_add, Nat.zero_mod, Nat.zero_div, Nat.one_mod]
      have hdv : (1 : ℕ) / 2 = 0 := by norm_num
      rw [hdv]
      congr 2
      funext i j
      simp only [plc_apply, setRows]
      by_cases c1 : J.getD 1 0 ≤ i ∧ i < J.getD 1 0 + ρ.size
      · rw [if_pos c1, if_neg (by omega), zero_add, if_pos c1]
      · rw [if_neg c1, if_neg c1, add_zero]
    have hvf : frob irr.size ρ.size
        (fun i j => plc (J.getD 0 0) ρ.size (commutingMat ρ 0) i j + plc (J.getD 1 0) ρ.size (commutingMat ρ 0) i j)
        (fun i j => plc (J.getD 0 0) ρ.size (commutingMat ρ 0) i j + plc (J.getD 1 0) ρ.size (commutingMat ρ 0) i j) = 2 * ρ.size := by
      rw [frob_add_add, frob_plc_same (hbd' _ (hmemD 0 (by omega))), frob_plc_same (hbd' _ (hmemD 1 (by omega))),
        frob_plc_disj (Or.inl hsep01), frob_plc_disj (Or.inr hsep01), frob_commuting hρ]
      ring
    refine ⟨by omega, ?_, ?_, ?_, Or.inr hm1.1, fun e => by omega⟩
    · rw [hJd, if_neg (by omega), hm1.1, hm1.2, h1, h2, h3, hκ]
      norm_num
    · intro sh hsh h' hh'
      rw [hJd, hv sh hsh]
      refine smul_mul_inter _ (h.comm h' hh') fun i hi j hj => ?_
      rw [mul_add_left, mul_add_right, hinter1 _ (hmemD 0 (by omega)) 0 h' hh' i hi j hj, hinter1 _ (hmemD 1 (by omega)) 0 h' hh' i hi j hj]
    · intro sh hsh
      rw [hJd, hv sh hsh, frob_smul, frob_mul_orth h.cobOrth, Real.mul_self_sqrt hd0, hvf, h1, hκ]
      push_cast
      ring
  · -- an irrep with two constituents that restricts to one
    have hmJ : m = J.length := by rw [h1, h3, _root_.mul_comm] at hm; omega
    have hm1 : m = 1 := by rw [h4, h2] at hlen; omega
    have hv : ∀ sh < m, vBlock ρ irr cob J m sh = fun i j => Real.sqrt (irr.size / irr.socs) * mul irr.size cob
        (plc (J.getD 0 0) ρ.size (commutingMat ρ 0)) i j := by
      intro sh hsh
      obtain rfl : sh = 0 := by omega
      unfold vBlock
      rw [if_pos hmJ]
      simp only [List.range_one, List.foldl_cons, List.foldl_nil, zero_mul, add_zero, Nat.zero_mod, Nat.zero_div]
      rfl
    refine ⟨by omega, ?_, ?_, ?_, Or.inr hm1, fun e => by omega⟩
    · rw [hJd, if_pos hmJ, h1, hκ]
      push_cast
      ring
    · intro sh hsh h' hh'
      rw [hJd, hv sh hsh]
      exact smul_mul_inter _ (h.comm h' hh') (hinter1 _ (hmemD 0 hJ) _ h' hh')
    · intro sh hsh
      rw [hJd, hv sh hsh, frob_smul, frob_mul_orth h.cobOrth, Real.mul_self_sqrt hd0, frob_plc_same (hbd' _ (hmemD 0 hJ)), frob_commuting hρ, h1, hκ]
      push_cast
      ring

end
end E2
