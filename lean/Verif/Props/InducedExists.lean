import Verif.Lemmas.InducedFrob
import Verif.Props.QuotientDihedral
import Verif.Props.Restriction

/-!
# C13: the induced representation of every irrep of every subgroup of `C_N` and of `D_N` is built

`build_induced_representation` (group/representation.py:779-988) contains many assertions: the multiplicities are integers, they
add up to the size, the change of basis is orthogonal, and the change of basis block-diagonalises the representation.  None of
them fails, for any irrep of any subgroup.
-/

namespace E2

open Finset Mat Real

theorem cob_one (n : ℕ) : MEq n n (mul n (tr Mat.one) Mat.one) one :=
  (MEq_mul_one _ _ _).trans fun i _ j _ => by simp only [tr, one, eq_comm]

theorem cob_refl : MEq 2 2 (mul 2 (tr (m2 1 0 0 (-1))) (m2 1 0 0 (-1))) one := by
  rw [m2_tr, m2_mul]
  norm_num
  exact m2_one

theorem cob_chi : MEq 2 2 (mul 2 (tr (chi 1)) (chi 1)) one := by
  have : (chi 1 : Mat) = m2 1 0 0 (-1) := by simp [chi]
  rw [this]
  exact cob_refl

theorem cob_psi (θ k : ℝ) : MEq 2 2 (mul 2 (tr (psi θ k 0)) (psi θ k 0)) one := by
  rw [psi_tr, psi_mul, neg_add_cancel]
  simp only [psi, mul_zero, zero_add, cos_zero, sin_zero, neg_zero]
  exact m2_one

theorem cob_mul {n : ℕ} {A B : Mat} (hA : MEq n n (mul n (tr A) A) one) (hB : MEq n n (mul n (tr B) B) one) :
    MEq n n (mul n (tr (mul n A B)) (mul n A B)) one := by
  rw [Mat.tr_mul, Mat.mul_assoc, ← Mat.mul_assoc n n (tr A)]
  exact ((MEq.refl _).mul ((hA.mul (MEq.refl _)).trans (MEq_one_mul _ _ _))).trans hB

theorem Cyclic.reduceFreq_orth {M f size f' : ℕ} {Q C : Mat} (hQ : MEq 2 2 (mul 2 (tr Q) Q) one)
    (h : Cyclic.reduceFreq M f size Q = some (f', C)) : MEq size size (mul size (tr C) C) one := by
  unfold Cyclic.reduceFreq at h
  split_ifs at h with h1 h2
  · cases h; subst h2; exact hQ
  · cases h; exact cob_one _

theorem Cyclic.restrict_orth {N M : ℕ} {i : Irrep ℤ} {p : Mat × List (Irrep ℤ)} (h : Cyclic.restrictIrrep N i M = some p) :
    MEq i.size i.size (mul i.size (tr p.1) p.1) one := by
  unfold Cyclic.restrictIrrep at h
  split at h
  · cases h
  · split at h
    · cases h
    · rename_i q hq
      split at h
      · cases h
      · cases h
        exact Cyclic.reduceFreq_orth (f' := q.1) cob_refl hq

theorem Dihedral.restrictCyc_orth {N M : ℕ} {i : Irrep (ℤ × ℤ)} {p : Mat × List (Irrep ℤ)} (h : Dihedral.restrictCyc N i M = some p) :
    MEq i.size i.size (mul i.size (tr p.1) p.1) one := by
  unfold Dihedral.restrictCyc at h
  split at h
  · cases h
  · split at h
    · cases h
    · rename_i q hq
      split at h
      · cases h
      · cases h
        exact Cyclic.reduceFreq_orth (f' := q.1) cob_chi hq

theorem Dihedral.restrictFlip_orth {N a : ℕ} {i : Irrep (ℤ × ℤ)} (hi : i.size ≤ 2) {p : Mat × List (Irrep ℤ)}
    (h : Dihedral.restrictFlip N i a = some p) : MEq i.size i.size (mul i.size (tr p.1) p.1) one := by
  unfold Dihedral.restrictFlip at h
  split at h
  · cases h
  · dsimp only at h
    split at h
    · split_ifs at h with h1
      · cases h
        have : i.size = 2 := by omega
        rw [this]
        exact cob_psi _ _
      · cases h
        exact cob_one _
    · cases h

theorem Dihedral.restrictDih_orth {N a M : ℕ} {i : Irrep (ℤ × ℤ)} {p : Mat × List (Irrep (ℤ × ℤ))}
    (h : Dihedral.restrictDih N i a M = some p) : MEq i.size i.size (mul i.size (tr p.1) p.1) one := by
  unfold Dihedral.restrictDih at h
  split at h
  · cases h
  · dsimp only at h
    split at h
    · cases h
    · rename_i q hq
      have hq' := Cyclic.reduceFreq_orth (f' := q.1) (C := q.2) cob_chi hq
      have key : MEq i.size i.size (mul i.size (tr (if i.size = 2 then Mat.mul 2 (psi ((0.5 * a) * 2 * π / N) i.freq 0) q.2 else q.2))
          (if i.size = 2 then Mat.mul 2 (psi ((0.5 * a) * 2 * π / N) i.freq 0) q.2 else q.2)) one := by
        split_ifs with h2
        · rw [h2] at hq' ⊢
          exact cob_mul (cob_psi _ _) hq'
        · exact hq'
      generalize (if i.size = 2 then Mat.mul 2 (psi ((0.5 * a) * 2 * π / N) i.freq 0) q.2 else q.2) = C at key h
      split at h
      · cases h
      · split at h
        · split at h
          · cases h
          · cases h; exact key
        · cases h; exact key

theorem Cyclic.mem_irreps_of {M k : ℕ} {r : Irrep ℤ} (h : Cyclic.irrep M k = some r) : r ∈ Cyclic.irreps M := by
  refine List.mem_filterMap.2 ⟨k, List.mem_range.2 ?_, h⟩
  have := (Cyclic.irrep_freq' h).2
  rw [Cyclic.order_eq]
  omega

theorem Cyclic.rhoOk {M k : ℕ} (hM : 0 < M) {ρ : Irrep ℤ} (h : Cyclic.irrep M k = some ρ) : RhoOk (Cyclic.grp M) ρ where
  orth := Cyclic.irrep_isOrthRep hM h
  pos := ((Cyclic.complete hM).irred ρ (Cyclic.mem_irreps_of h)).1
  socs := by
    unfold Cyclic.irrep at h
    split_ifs at h with h1 h2 h3
    · cases h; exact Or.inl rfl
    · cases h; exact Or.inl rfl
    · cases h
      refine Or.inr ⟨rfl, rfl, fun x _ => ?_⟩
      simp only [psi, m2_mul]
      refine MEq.of_eq ?_
      congr 1 <;> ring

theorem Cyclic.socs_size {M k : ℕ} {ρ : Irrep ℤ} (h : Cyclic.irrep M k = some ρ) : (ρ.socs = 1 ∧ ρ.size = 1) ∨ (ρ.socs = 2 ∧ ρ.size = 2) := by
  unfold Cyclic.irrep at h
  split_ifs at h with h1 h2 h3 <;> cases h <;> simp

theorem Cyclic.irrep_same {M : ℕ} {τ ρ : Irrep ℤ} (h1 : Cyclic.IsIrrep M τ) (h2 : Cyclic.IsIrrep M ρ) (h : sameIrrep τ ρ) : τ = ρ := by
  obtain ⟨k, hk⟩ := h1
  obtain ⟨l, hl⟩ := h2
  simp only [sameIrrep, Bool.and_eq_true, decide_eq_true_eq] at h
  rw [(Cyclic.irrep_freq' hk).1, (Cyclic.irrep_freq' hl).1] at h
  rw [h.1, hl] at hk
  exact (Option.some.inj hk).symm

theorem Dihedral.irrep_same {M : ℕ} {τ ρ : Irrep (ℤ × ℤ)} (h1 : Dihedral.IsIrrep M τ) (h2 : Dihedral.IsIrrep M ρ) (h : sameIrrep τ ρ) :
    τ = ρ := by
  obtain ⟨j, k, hk⟩ := h1
  obtain ⟨j', l, hl⟩ := h2
  simp only [sameIrrep, Bool.and_eq_true, decide_eq_true_eq] at h
  rw [(Dihedral.irrep_freq' hk).1, (Dihedral.irrep_freq' hl).1, (Dihedral.irrep_freq' hk).2.1, (Dihedral.irrep_freq' hl).2.1] at h
  rw [h.1, h.2, hl] at hk
  exact (Option.some.inj hk).symm

theorem Dihedral.mem_irreps_of {M j k : ℕ} {r : Irrep (ℤ × ℤ)} (h : Dihedral.irrep M j k = some r) : r ∈ Dihedral.irreps M := by
  refine List.mem_filterMap.2 ⟨(j, k), ?_, h⟩
  obtain ⟨h1, h2⟩ := (Dihedral.irrep_isSome M j k).1 (by rw [h]; rfl)
  simp only [List.mem_append, List.mem_map, List.mem_range, List.mem_singleton, Prod.mk.injEq]
  rcases h2 with ⟨rfl, rfl | h2⟩ | rfl
  · exact Or.inl (Or.inl ⟨rfl, rfl⟩)
  · refine Or.inr ?_
    rw [if_pos (by omega), List.mem_singleton, Prod.mk.injEq]
    exact ⟨rfl, by omega⟩
  · exact Or.inl (Or.inr ⟨k, by omega, rfl, rfl⟩)

theorem Dihedral.rhoOk {M j k : ℕ} (hM : 0 < M) {ρ : Irrep (ℤ × ℤ)} (h : Dihedral.irrep M j k = some ρ) : RhoOk (Dihedral.grp M) ρ where
  orth := Dihedral.irrep_isOrthRep hM h
  pos := ((Dihedral.complete hM).irred ρ (Dihedral.mem_irreps_of h)).1
  socs := Or.inl (Dihedral.irrep_socs h)

theorem Cyclic.ineq {N : ℕ} (hN : 0 < N) : ∀ i ∈ Cyclic.irreps N, ∀ j ∈ Cyclic.irreps N, i ≠ j → Inequivalent (Cyclic.grp N) i j := by
  intro i hi j hj hne
  obtain ⟨k, hk⟩ := Cyclic.exists_of_mem_irreps hi
  obtain ⟨l, hl⟩ := Cyclic.exists_of_mem_irreps hj
  refine (c57_cyclic N hN k i hk).2.2 l j hl fun e => hne ?_
  rw [e, hk] at hl
  exact Option.some.inj hl

theorem Cyclic.comm_one {N : ℕ} (hN : 0 < N) : ∀ i ∈ Cyclic.irreps N, i.socs = 1 → Module.finrank ℝ (intertwiners (Cyclic.grp N) i i) = 1 := by
  intro i hi h
  obtain ⟨k, hk⟩ := Cyclic.exists_of_mem_irreps hi
  rw [(c57_cyclic N hN k i hk).2.1, h]

theorem Dihedral.ineq {N : ℕ} (hN : 0 < N) : ∀ i ∈ Dihedral.irreps N, ∀ j ∈ Dihedral.irreps N, i ≠ j → Inequivalent (Dihedral.grp N) i j := by
  intro i hi j hj hne
  obtain ⟨a, k, hk⟩ := Dihedral.exists_of_mem_irreps hi
  obtain ⟨b, l, hl⟩ := Dihedral.exists_of_mem_irreps hj
  refine (c57_dihedral N hN a k i hk).2.2 b l j hl fun e => hne ?_
  rw [Prod.mk.injEq] at e
  rw [e.1, e.2, hk] at hl
  exact Option.some.inj hl

theorem Dihedral.comm_one {N : ℕ} (hN : 0 < N) : ∀ i ∈ Dihedral.irreps N, i.socs = 1 → Module.finrank ℝ (intertwiners (Dihedral.grp N) i i) = 1 := by
  intro i hi h
  obtain ⟨a, k, hk⟩ := Dihedral.exists_of_mem_irreps hi
  rw [(c57_dihedral N hN a k i hk).2.1, h]

/-- **C13, induction from every irrep of every subgroup of `C_N`.** For every divisor `M` of `N` and every irrep of `C_M` the call
`induced_representation(M, irrep(k))` returns (no assertion fails), and the result is the induced representation. -/
theorem c13_cyclic_induced_exists (N : ℕ) (hN : 0 < N) (M : ℕ) (hd : M ∣ N) (k : ℕ) (hk : 2 * k ≤ M) :
    ∃ S ρ r, Cyclic.subData N M = some S ∧ Cyclic.irrep M k = some ρ ∧ Cyclic.inducedRepr N M k = some r ∧
      IsInducedRep (Cyclic.grp N) (Cyclic.grp M) S ρ (cosetLoop (Cyclic.grp N) (Cyclic.elements N) S).reps r := by
  have hM : 0 < M := Nat.pos_of_dvd_of_pos hd hN
  obtain ⟨sub, hsub⟩ := Option.isSome_iff_exists.1 ((c06_cyclic_subgroup N hN M).1.2 ⟨hM, hd⟩)
  obtain ⟨ρ, hρ⟩ := Cyclic.irrep_some hk
  set S : SubData ℤ ℤ := ⟨Cyclic.elements M, sub.parent, sub.child, fun irr => Cyclic.restrictIrrep N irr M⟩ with hSdef
  have hS : Cyclic.subData N M = some S := by
    unfold Cyclic.subData; rw [hsub]
  have ok := Cyclic.subData_ok hN hS
  obtain ⟨r, hr⟩ := induced_exists ok (Cyclic.complete hN) (irrepsH := Cyclic.irreps M) (Cyclic.complete hM) (Cyclic.mem_irreps_of hρ)
    (Cyclic.rhoOk hM hρ) (Cyclic.ineq hN) (Cyclic.comm_one hN) (κ := if ρ.socs = 1 then 1 else 1 / 2) (by split_ifs <;> norm_num) (by
      intro i hi
      obtain ⟨l, hl⟩ := Cyclic.exists_of_mem_irreps hi
      obtain ⟨⟨cob, irs⟩, hq, hR⟩ := cyclic_irrep_restricts hN hsub i ⟨l, hl⟩
      have hsame : ∀ τ ∈ irs, sameIrrep τ ρ → τ = ρ := fun τ hτ => Cyclic.irrep_same (hR.irr τ hτ) ⟨k, hρ⟩
      refine ⟨cob, irs, hq, ⟨Cyclic.irrep_isOrthRep hN hl, Cyclic.restrict_orth hq, hR.size, hsame, hR.comm, fun hJ => ?_⟩,
        fun τ hτ => ?_⟩
      · have hlen := posList_length ρ irs hsame 0
        have hsz : lsize irs = i.size := hR.size
        rw [hsz] at hlen
        rcases Cyclic.socs_size hρ with ⟨h1, h1'⟩ | ⟨h1, h1'⟩ <;> rcases Cyclic.socs_size hl with ⟨h2, h2'⟩ | ⟨h2, h2'⟩
        · simp [h1, h2]
        · simp [h1, h2, h2']
        · rw [h1', h2'] at hlen; omega
        · simp [h1, h1', h2, h2']
      · obtain ⟨t, ht⟩ := hR.irr τ hτ
        exact Cyclic.mem_irreps_of ht)
  have hr' : Cyclic.inducedRepr N M k = some r := by
    unfold Cyclic.inducedRepr; rw [hS, hρ]; exact hr
  exact ⟨S, ρ, r, hS, hρ, hr', c13_cyclic_induced N hN M k S ρ r hS hρ hr'⟩

/-- **C13, induction from every irrep of the rotations `C_M` to `D_N`.** -/
theorem c13_dihedral_induced_cyclic_exists (N : ℕ) (hN : 0 < N) (M : ℕ) (hd : M ∣ N) (k : ℕ) (hk : 2 * k ≤ M) :
    ∃ S ρ r, Dihedral.subDataCyc N M = some S ∧ Cyclic.irrep M k = some ρ ∧ Dihedral.inducedRepr N S ρ = some r ∧
      IsInducedRep (Dihedral.grp N) (Cyclic.grp M) S ρ (cosetLoop (Dihedral.grp N) (Dihedral.elements N) S).reps r := by
  have hM : 0 < M := Nat.pos_of_dvd_of_pos hd hN
  obtain ⟨ρ, hρ⟩ := Cyclic.irrep_some hk
  have hsub : ∃ p c, Dihedral.subgroup N none M = some (.cyc M p c) := by
    obtain ⟨Q, rfl⟩ := hd
    exact ⟨_, _, Dihedral.sub_cyc hM⟩
  obtain ⟨p, c, hsub⟩ := hsub
  set S : SubData (ℤ × ℤ) ℤ := ⟨Cyclic.elements M, p, c, fun irr => Dihedral.restrictCyc N irr M⟩ with hSdef
  have hS : Dihedral.subDataCyc N M = some S := by
    unfold Dihedral.subDataCyc; rw [hsub]
  have ok := Dihedral.subData_ok_cyc hN hS
  obtain ⟨r, hr⟩ := induced_exists ok (Dihedral.complete hN) (irrepsH := Cyclic.irreps M) (Cyclic.complete hM) (Cyclic.mem_irreps_of hρ)
    (Cyclic.rhoOk hM hρ) (Dihedral.ineq hN) (Dihedral.comm_one hN) (κ := 1) one_pos (by
      intro i hi
      obtain ⟨j, l, hl⟩ := Dihedral.exists_of_mem_irreps hi
      obtain ⟨⟨cob, irs⟩, hq, hR⟩ := dihedral_cyc_restricts hN hsub i ⟨j, l, hl⟩
      refine ⟨cob, irs, hq, ⟨Dihedral.irrep_isOrthRep hN hl, Dihedral.restrictCyc_orth hq, hR.size,
        fun τ hτ => Cyclic.irrep_same (hR.irr τ hτ) ⟨k, hρ⟩, hR.comm, fun _ => Or.inl ⟨Dihedral.irrep_socs hl, rfl⟩⟩, fun τ hτ => ?_⟩
      obtain ⟨t, ht⟩ := hR.irr τ hτ
      exact Cyclic.mem_irreps_of ht)
  exact ⟨S, ρ, r, hS, hρ, hr, (c13_dihedral_induced N hN M 0 r).1 S ρ hS hr⟩

/-- **C13, induction from both irreps of a reflection to `D_N`.** -/
theorem c13_dihedral_induced_flip_exists (N : ℕ) (hN : 0 < N) (axis : ℕ) (ha : axis < N) (k : ℕ) (hk : k ≤ 1) :
    ∃ S ρ r, Dihedral.subDataFlip N axis = some S ∧ Cyclic.irrep 2 k = some ρ ∧ Dihedral.inducedRepr N S ρ = some r ∧
      IsInducedRep (Dihedral.grp N) (Cyclic.grp 2) S ρ (cosetLoop (Dihedral.grp N) (Dihedral.elements N) S).reps r := by
  obtain ⟨ρ, hρ⟩ := Cyclic.irrep_some (M := 2) (f := k) (by omega)
  obtain ⟨p, c, hsub⟩ : ∃ p c, Dihedral.subgroup N (some axis) 1 = some (.cyc 2 p c) := ⟨_, _, Dihedral.sub_flip ha⟩
  set S : SubData (ℤ × ℤ) ℤ := ⟨Cyclic.elements 2, p, c, fun irr => Dihedral.restrictFlip N irr axis⟩ with hSdef
  have hS : Dihedral.subDataFlip N axis = some S := by
    unfold Dihedral.subDataFlip; rw [hsub]
  have ok := Dihedral.subData_ok_flip hN hS
  obtain ⟨r, hr⟩ := induced_exists ok (Dihedral.complete hN) (irrepsH := Cyclic.irreps 2) (Cyclic.complete two_pos) (Cyclic.mem_irreps_of hρ)
    (Cyclic.rhoOk two_pos hρ) (Dihedral.ineq hN) (Dihedral.comm_one hN) (κ := 1) one_pos (by
      intro i hi
      obtain ⟨j, l, hl⟩ := Dihedral.exists_of_mem_irreps hi
      obtain ⟨⟨cob, irs⟩, hq, hR⟩ := dihedral_flip_restricts hN hsub i ⟨j, l, hl⟩
      have hi2 : i.size ≤ 2 := by rw [Dihedral.irrep_size hl]; split_ifs <;> omega
      refine ⟨cob, irs, hq, ⟨Dihedral.irrep_isOrthRep hN hl, Dihedral.restrictFlip_orth hi2 hq, hR.size,
        fun τ hτ => Cyclic.irrep_same (hR.irr τ hτ) ⟨k, hρ⟩, hR.comm, fun _ => Or.inl ⟨Dihedral.irrep_socs hl, rfl⟩⟩, fun τ hτ => ?_⟩
      obtain ⟨t, ht⟩ := hR.irr τ hτ
      exact Cyclic.mem_irreps_of ht)
  exact ⟨S, ρ, r, hS, hρ, hr, (c13_dihedral_induced N hN 1 axis r).2.1 S ρ hS hr⟩

/-- **C13, induction from every irrep of every dihedral subgroup to `D_N`.** -/
theorem c13_dihedral_induced_dihedral_exists (N : ℕ) (hN : 0 < N) (M axis : ℕ) (hM1 : 1 < M) (hd : M ∣ N) (ha : axis < N / M)
    (j k : ℕ) (ρ : Irrep (ℤ × ℤ)) (hρ : Dihedral.irrep M j k = some ρ) :
    ∃ S r, Dihedral.subDataDih N axis M = some S ∧ Dihedral.inducedRepr N S ρ = some r ∧
      IsInducedRep (Dihedral.grp N) (Dihedral.grp M) S ρ (cosetLoop (Dihedral.grp N) (Dihedral.elements N) S).reps r := by
  have hM : 0 < M := by omega
  have hsub : ∃ p c, Dihedral.subgroup N (some axis) M = some (.dih M p c) := by
    obtain ⟨Q, rfl⟩ := hd
    rw [Nat.mul_div_cancel_left _ hM] at ha
    exact ⟨_, _, Dihedral.sub_dih hM1 ha⟩
  obtain ⟨p, c, hsub⟩ := hsub
  set S : SubData (ℤ × ℤ) (ℤ × ℤ) := ⟨Dihedral.elements M, p, c, fun irr => Dihedral.restrictDih N irr axis M⟩ with hSdef
  have hS : Dihedral.subDataDih N axis M = some S := by
    unfold Dihedral.subDataDih; rw [hsub]
  have ok := Dihedral.subData_ok_dih hN hS
  obtain ⟨r, hr⟩ := induced_exists ok (Dihedral.complete hN) (irrepsH := Dihedral.irreps M) (Dihedral.complete hM) (Dihedral.mem_irreps_of hρ)
    (Dihedral.rhoOk hM hρ) (Dihedral.ineq hN) (Dihedral.comm_one hN) (κ := 1) one_pos (by
      intro i hi
      obtain ⟨b, l, hl⟩ := Dihedral.exists_of_mem_irreps hi
      obtain ⟨⟨cob, irs⟩, hq, hR⟩ := dihedral_dih_restricts hN hM1 hsub i ⟨b, l, hl⟩
      refine ⟨cob, irs, hq, ⟨Dihedral.irrep_isOrthRep hN hl, Dihedral.restrictDih_orth hq, hR.size,
        fun τ hτ => Dihedral.irrep_same (hR.irr τ hτ) ⟨j, k, hρ⟩, hR.comm, fun _ => Or.inl ⟨Dihedral.irrep_socs hl, rfl⟩⟩, fun τ hτ => ?_⟩
      obtain ⟨t, u, ht⟩ := hR.irr τ hτ
      exact Dihedral.mem_irreps_of ht)
  exact ⟨S, r, hS, hr, (c13_dihedral_induced N hN M axis r).2.2 S ρ hS hr⟩

/-- The two-dimensional irrep of `C_4` induced to `C_8` (a representation of size 4, the case of a complex irrep), to `D_4`, the
sign of a reflection induced to `D_3` and the two-dimensional irrep of `D_3` induced to `D_6`. -/
example : (∃ r, Cyclic.inducedRepr 8 4 1 = some r ∧ r.size = 4) ∧
    (∃ S ρ r, Dihedral.subDataCyc 4 4 = some S ∧ Cyclic.irrep 4 1 = some ρ ∧ Dihedral.inducedRepr 4 S ρ = some r) ∧
    (∃ S ρ r, Dihedral.subDataFlip 3 2 = some S ∧ Cyclic.irrep 2 1 = some ρ ∧ Dihedral.inducedRepr 3 S ρ = some r) ∧
    (∃ S ρ r, Dihedral.subDataDih 6 1 3 = some S ∧ Dihedral.irrep 3 1 1 = some ρ ∧ Dihedral.inducedRepr 6 S ρ = some r) := by
  refine ⟨?_, ?_, ?_, ?_⟩
  · obtain ⟨S, ρ, r, hS, hρ, h, hI⟩ := c13_cyclic_induced_exists 8 (by norm_num) 4 (by norm_num) 1 (by norm_num)
    refine ⟨r, h, ?_⟩
    have hc := cosetLoop_card (Cyclic.subData_ok (by norm_num) hS)
    have hl : S.els.length = 4 := by
      unfold Cyclic.subData at hS
      split at hS
      · cases hS
      · cases hS; rfl
    have hρ2 : ρ.size = 2 := by rw [Cyclic.irrep_size hρ]; norm_num
    rw [hl, show (Cyclic.elements 8).length = 8 from rfl] at hc
    rw [hI.size, hρ2]
    omega
  · obtain ⟨S, ρ, r, h1, h2, h3, -⟩ := c13_dihedral_induced_cyclic_exists 4 (by norm_num) 4 (by norm_num) 1 (by norm_num)
    exact ⟨S, ρ, r, h1, h2, h3⟩
  · obtain ⟨S, ρ, r, h1, h2, h3, -⟩ := c13_dihedral_induced_flip_exists 3 (by norm_num) 2 (by norm_num) 1 (by norm_num)
    exact ⟨S, ρ, r, h1, h2, h3⟩
  · obtain ⟨ρ, hρ⟩ := Dihedral.irrep_some (M := 3) (f := 1) (by norm_num)
    obtain ⟨S, r, h1, h2, -⟩ := c13_dihedral_induced_dihedral_exists 6 (by norm_num) 3 1 (by norm_num) (by norm_num) (by norm_num) 1 1 ρ hρ
    exact ⟨S, ρ, r, h1, hρ, h2⟩

end E2
