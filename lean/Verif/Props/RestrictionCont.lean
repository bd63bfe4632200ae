import Verif.Props.Restriction
import Mathlib.Analysis.Real.Pi.Bounds

/-!
# C09: restriction of representations of SO(2) and O(2)
-/

namespace E2

open Finset Mat Real

open _root_.E2.Repr

/-- An irrep of `SO(2)`. -/
def SO2.IsIrrep (i : Irrep ℝ) : Prop := ∃ k, SO2.irrep k = i

/-- An irrep of `O(2)`. -/
def O2.IsIrrep (i : Irrep (ℤ × ℝ)) : Prop := ∃ j k, O2.irrep j k = some i

theorem SO2.IsIrrep.isRep (i : Irrep ℝ) (h : SO2.IsIrrep i) : IsRep SO2.grp i.size i.mat := by
  obtain ⟨k, rfl⟩ := h
  exact (c05_so2_irreps k).1.toIsRep

theorem O2.IsIrrep.isRep (i : Irrep (ℤ × ℝ)) (h : O2.IsIrrep i) : IsRep O2.grp i.size i.mat := by
  obtain ⟨j, k, h⟩ := h
  exact ((c05_o2_irreps j k).2 i h).1.toIsRep

theorem step_angle {M : ℕ} (e : ℤ) : (e : ℝ) * 2 * π / M = e * (2 * π / M) := by ring

theorem so2_irrep_restricts {M : ℕ} {S : SO2.Sub} (hS : SO2.subgroup M = some S) (i : Irrep ℝ)
    (hi : SO2.IsIrrep i) :
    ∃ p, SO2.restrictIrrep i M = some p ∧
      RestrictsTo (Cyclic.grp M).isEl S.parent i.size i.mat (Cyclic.IsIrrep M) p := by
  have hM : 0 < M := (c07_so2_subgroup M).1.1 (by rw [hS]; rfl)
  obtain ⟨k, rfl⟩ := hi
  have hpar : ∀ h, S.parent h = h * (2 * π / M) := by
    intro h
    rw [SO2.subgroup, if_neg (by omega)] at hS
    cases hS
    exact step_angle h
  rw [SO2.restrictIrrep, hS]
  simp only [(c05_so2_irreps k).2.2.2.1]
  by_cases h0 : k = 0
  · have hsz : (SO2.irrep k).size = 1 := by rw [(c05_so2_irreps k).2.2.1, if_pos h0]
    obtain ⟨r', h1, h2, h3⟩ := Cyclic.reduce1 hM k (by simp [h0]) (m2 1 0 0 (-1))
    simp only [hsz, h1, h2]
    refine ⟨_, rfl, Repr.RestrictsTo.weaken (isEl := fun _ => True) (h3.of_eq ?_) fun _ _ => trivial⟩
    intro h _
    simp only [SO2.irrep, h0, if_true]
    exact MEq.of_eq (by simp)
  · have hsz : (SO2.irrep k).size = 2 := by rw [(c05_so2_irreps k).2.2.1, if_neg h0]
    obtain ⟨p, r', h1, h2, h3⟩ := Cyclic.reduce2 hM k
    simp only [hsz, h1, h2]
    refine ⟨_, rfl, Repr.RestrictsTo.weaken (isEl := fun _ => True) (h3.of_eq ?_) fun _ _ => trivial⟩
    intro h _
    simp only [SO2.irrep, h0, if_false, hpar, id]
    exact MEq.refl _

/-- **C09, SO(2) to C_M.** -/
theorem c09_so2_to_cyclic (M : ℕ) (S : SO2.Sub) (hS : SO2.subgroup M = some S) (r : Repr ℝ) (hr : r.WF)
    (hi : ∀ i ∈ r.irreps, SO2.IsIrrep i) :
    ∃ r', r.restrict (fun i => SO2.restrictIrrep i M) = some r' ∧
      IsRestriction (Cyclic.grp M) S.parent (Cyclic.IsIrrep M) r r' :=
  have hM : 0 < M := (c07_so2_subgroup M).1.1 (by rw [hS]; rfl)
  isRestriction_of (Cyclic.IsIrrep.isRep hM) r hr fun i hi' => so2_irrep_restricts hS i (hi i hi')

theorem O2.irrep_cases {j k : ℕ} {i : Irrep (ℤ × ℝ)} (h : O2.irrep j k = some i) :
    (j = 0 ∨ j = 1) ∧ i.freq = k ∧ i.flip = j ∧
    ((k = 0 ∧ i.size = 1 ∧ ∀ e, i.mat e = m1 (if j = 1 ∧ e.1 ≠ 0 then -1 else 1)) ∨
     (k ≠ 0 ∧ j = 1 ∧ i.size = 2 ∧ ∀ e, i.mat e = psichi e.2 e.1 k 0)) := by
  unfold O2.irrep at h
  split_ifs at h with h1 h2 h3 h4
  · cases h
    exact ⟨h1, rfl, rfl, Or.inl ⟨h3, rfl, fun e => by simp [h2]⟩⟩
  · cases h
    have : j = 1 := by omega
    exact ⟨h1, rfl, rfl, Or.inl ⟨h4, rfl, fun e => by simp [this]⟩⟩
  · cases h
    have : j = 1 := by omega
    exact ⟨h1, rfl, rfl, Or.inr ⟨h4, this, rfl, fun e => rfl⟩⟩

theorem o2_o2_restricts {a : ℝ} {p : ℤ × ℝ → ℤ × ℝ} {c : ℤ × ℝ → Option (ℤ × ℝ)}
    (hS : O2.subgroup (some a) (-1) = some (.o2 p c)) (i : Irrep (ℤ × ℝ)) (hi : O2.IsIrrep i) :
    ∃ q, O2.restrictO2 i a = some q ∧ RestrictsTo O2.grp.isEl p i.size i.mat O2.IsIrrep q := by
  have hp : ∀ e, p e = (e.1, e.2 + e.1 * a) := by
    intro e
    rw [O2.subgroup] at hS
    norm_num at hS
    rw [← hS.1]
  have hok := hi
  obtain ⟨j, k, h⟩ := hi
  obtain ⟨_, hfr, _, ⟨hk, hsz, hm⟩ | ⟨hk, hj, hsz, hm⟩⟩ := O2.irrep_cases h
  · rw [O2.restrictO2, hsz, if_neg (by norm_num)]
    refine ⟨_, rfl, RestrictsTo.ident (by simp [hsz]) (by intro x hx; simp at hx; rw [hx]; exact hok) ?_⟩
    intro e _
    refine MEq.symm ((blocks_single1 i hsz e).trans ?_)
    rw [hm, hm, hp]
    exact MEq.refl _
  · rw [O2.restrictO2, hsz, if_pos rfl]
    refine ⟨_, rfl, RestrictsTo.comp (parent := id) (p := (Mat.one, [i])) (ρ := i.mat)
      (RestrictsTo.ident (by simp [hsz]) (by intro x hx; simp at hx; rw [hx]; exact hok) ?_) ⟨_, psi_inv _ _⟩ ?_⟩
    · intro e _
      exact (blocks_single2 i hsz e).symm
    · intro e he
      rw [hp, hm, hfr, id, hm]
      exact MEq.of_eq (Dihedral.psichi_axis he _ _ _)

theorem o2_so2_restricts {p : ℝ → ℤ × ℝ} {c : ℤ × ℝ → Option ℝ}
    (hS : O2.subgroup none (-1) = some (.so2 p c)) (i : Irrep (ℤ × ℝ)) (hi : O2.IsIrrep i) :
    ∃ q, O2.restrictSO2 i = some q ∧ RestrictsTo SO2.grp.isEl p i.size i.mat SO2.IsIrrep q := by
  have hp : ∀ e, p e = (0, e) := by
    intro e
    rw [O2.subgroup] at hS
    norm_num at hS
    rw [← hS.1]
  obtain ⟨j, k, h⟩ := hi
  obtain ⟨_, hfr, _, ⟨hk, hsz, hm⟩ | ⟨hk, hj, hsz, hm⟩⟩ := O2.irrep_cases h
  · rw [O2.restrictSO2, hfr, hsz]
    have h1 : (SO2.irrep k).size = 1 := by rw [(c05_so2_irreps k).2.2.1, if_pos hk]
    refine ⟨_, rfl, RestrictsTo.ident (by simp [h1]) (by intro x hx; simp at hx; exact ⟨k, hx.symm⟩) ?_⟩
    intro e _
    refine MEq.symm ((blocks_single1 _ h1 e).trans ?_)
    rw [hm, hp]
    simp only [SO2.irrep, hk, if_true]
    exact MEq.of_eq (by simp)
  · rw [O2.restrictSO2, hfr, hsz]
    have h1 : (SO2.irrep k).size = 2 := by rw [(c05_so2_irreps k).2.2.1, if_neg hk]
    refine ⟨_, rfl, RestrictsTo.ident (by simp [h1]) (by intro x hx; simp at hx; exact ⟨k, hx.symm⟩) ?_⟩
    intro e _
    refine MEq.symm ((blocks_single2 _ h1 e).trans ?_)
    rw [hm, hp, psichi_zero]
    simp only [SO2.irrep, hk, if_false]
    exact MEq.refl _

theorem o2_flip_restricts {a : ℝ} {m : ℕ} {p : ℤ → ℤ × ℝ} {c : ℤ × ℝ → Option ℤ}
    (hS : O2.subgroup (some a) 1 = some (.cyc m p c)) (i : Irrep (ℤ × ℝ)) (hi : O2.IsIrrep i) :
    ∃ q, O2.restrictFlip i a = some q ∧
      RestrictsTo (Cyclic.grp 2).isEl p i.size i.mat (Cyclic.IsIrrep 2) q := by
  have hp : ∀ e, p e = (e, a * e) := by
    intro e
    rw [O2.subgroup] at hS
    simp only at hS
    split_ifs at hS
    all_goals first | (cases hS; rfl) | contradiction
  have hel : ∀ e, (Cyclic.grp 2).isEl e → e = 0 ∨ e = 1 := by
    intro e he; rw [Cyclic.isEl_iff] at he; push_cast at he; omega
  obtain ⟨j, k, h⟩ := hi
  obtain ⟨hj, hfr, hfl, hc⟩ := O2.irrep_cases h
  obtain ⟨r0, h0, hs0, hm0⟩ := c2_irrep (Or.inl rfl : 0 = 0 ∨ 0 = 1)
  obtain ⟨r1, h1, hs1, hm1⟩ := c2_irrep hj
  rw [O2.restrictFlip, hS]
  simp only [hfr, hfl, h0, h1]
  obtain ⟨hk, hsz, hm⟩ | ⟨hk, hj, hsz, hm⟩ := hc
  · rw [hsz, if_neg (by norm_num)]
    refine ⟨_, rfl, RestrictsTo.ident (by simp [hs1]) (by intro x hx; simp at hx; exact ⟨j, by rw [hx, h1]⟩) ?_⟩
    intro e he
    refine MEq.symm ((blocks_single1 r1 hs1 e).trans ?_)
    rw [hm1 e (hel e he), hm, hp]
    exact MEq.refl _
  · subst hj
    rw [hsz, if_pos (by norm_num)]
    have key := RestrictsTo.comp (isEl := (Cyclic.grp 2).isEl) (parent := fun e : ℤ => e) (n := 2)
      (ρ := fun e => psichi 0 e k 0) (ρ' := i.mat) (parent' := p) (ok := Cyclic.IsIrrep 2)
      (p := (Mat.one, [r0, r1])) (Q := psi (0.5 * a) k 0)
      (RestrictsTo.ident (by simp [hs0, hs1])
        (by intro x hx; simp at hx; rcases hx with rfl | rfl; exacts [⟨_, h0⟩, ⟨_, h1⟩])
        (fun e he => c2_blocks h0 h1 k (hel e he))) ⟨_, psi_inv _ _⟩
      (by
        intro e he
        rw [hp, hm]
        have := Dihedral.psichi_axis (hel e he) 0 a k
        refine MEq.of_eq ?_
        rw [← this]
        congr 2
        ring)
    refine ⟨_, rfl, ⟨key.size, ⟨_, psi_inv _ _⟩, ?_, key.irr⟩⟩
    intro e he
    exact (MEq.mul (MEq.refl _) (MEq_mul_one 2 2 _).symm).trans ((key.comm e he).trans
      (MEq.mul (MEq_mul_one 2 2 _) (MEq.refl _)))

theorem o2_cyc_restricts {M : ℕ} {m : ℕ} {p : ℤ → ℤ × ℝ} {c : ℤ × ℝ → Option ℤ}
    (hS : O2.subgroup none M = some (.cyc m p c)) (i : Irrep (ℤ × ℝ)) (hi : O2.IsIrrep i) :
    0 < M ∧ ∃ q, O2.restrictCyc i M = some q ∧
      RestrictsTo (Cyclic.grp M).isEl p i.size i.mat (Cyclic.IsIrrep M) q := by
  have hM : 0 < M := by
    have := (c07_o2_subgroup_partial none M).1.1 (by rw [hS]; rfl)
    omega
  have hp : ∀ e, p e = (0, e * (2 * π / M)) := by
    intro e
    rw [O2.subgroup] at hS
    rw [if_neg (by omega), if_neg (by omega)] at hS
    cases hS
    simp only [Int.cast_natCast, step_angle]
  obtain ⟨j, k, h⟩ := hi
  obtain ⟨hj, hfr, hfl, hc⟩ := O2.irrep_cases h
  refine ⟨hM, ?_⟩
  rw [O2.restrictCyc, hS]
  simp only [hfr, chi_one]
  obtain ⟨hk, hsz, hm⟩ | ⟨hk, hj, hsz, hm⟩ := hc
  · obtain ⟨r', h1, h2, h3⟩ := Cyclic.reduce1 hM k (by simp [hk]) (m2 1 0 0 (-1))
    simp only [hsz, h1, h2]
    refine ⟨_, rfl, Repr.RestrictsTo.weaken (isEl := fun _ => True) (h3.of_eq ?_) fun _ _ => trivial⟩
    intro h _
    rw [hm, hp, hk]
    exact MEq.of_eq (by simp)
  · obtain ⟨p', r', h1, h2, h3⟩ := Cyclic.reduce2 hM k
    simp only [hsz, h1, h2]
    refine ⟨_, rfl, Repr.RestrictsTo.weaken (isEl := fun _ => True) (h3.of_eq ?_) fun _ _ => trivial⟩
    intro h _
    rw [hm, hp, psichi_zero, id]
    exact MEq.refl _

theorem o2_dih_restricts {M : ℕ} (hM : 1 < M) {a : ℝ} {m : ℕ} {p : ℤ × ℤ → ℤ × ℝ}
    {c : ℤ × ℝ → Option (ℤ × ℤ)} (hS : O2.subgroup (some a) M = some (.dih m p c))
    (i : Irrep (ℤ × ℝ)) (hi : O2.IsIrrep i) :
    ∃ q, O2.restrictDih i a M = some q ∧
      RestrictsTo (Dihedral.grp M).isEl p i.size i.mat (Dihedral.IsIrrep M) q := by
  have hp : ∀ e, p e = (e.1, e.2 * (2 * π / M) + e.1 * a) := by
    intro e
    rw [O2.subgroup] at hS
    by_cases h1 : ¬ ((0 ≤ a ∧ a < 2 * π / (M : ℤ)) ∨ (M : ℤ) < 0) ∨ (M : ℤ) = 0
    · rw [if_pos h1] at hS
      cases hS
    rw [if_neg h1, if_neg (by omega), if_neg (by omega), if_pos (by omega)] at hS
    cases hS
    simp only [Int.cast_natCast, step_angle]
  obtain ⟨j, k, h⟩ := hi
  obtain ⟨hj, hfr, hfl, hc⟩ := O2.irrep_cases h
  rw [O2.restrictDih, hS]
  simp only [hfr, hfl]
  obtain ⟨hk, hsz, hm⟩ | ⟨hk, hj, hsz, hm⟩ := hc
  · have hred : Cyclic.reduceFreq M (k % M) i.size (m2 1 0 0 (-1)) = some (0, Mat.one) := by
      rw [Cyclic.reduceFreq, hk, Nat.zero_mod, if_neg (by omega)]
    have hex : ∃ r', Dihedral.irrep M j 0 = some r' := by
      refine Option.isSome_iff_exists.1 ((Dihedral.irrep_isSome M j 0).2 ⟨by omega, ?_⟩)
      rcases hj with h | h
      · exact Or.inl ⟨h, Or.inl rfl⟩
      · exact Or.inr h
    obtain ⟨r', hr1⟩ := hex
    have hs1 := Dihedral.irrep_size hr1
    rw [if_pos (Or.inl rfl)] at hs1
    simp only [hred, hr1]
    rw [hsz, hs1, if_neg (by norm_num), if_neg (by norm_num)]
    refine ⟨_, rfl, RestrictsTo.ident (by simp [hs1]) ?_ ?_⟩
    · intro x hx; simp at hx; exact ⟨_, _, by rw [hx, hr1]⟩
    · intro e _
      refine MEq.symm ((blocks_single1 r' hs1 e).trans ?_)
      rw [Dihedral.irrep_mat1 hr1 (Or.inl rfl), hm, hp]
      exact MEq.of_eq (by simp)
  · subst hj
    obtain ⟨p', r', L, h1, h2, h3, h4⟩ := Dihedral.reduce2 (by omega : 0 < M) k
    simp only [hsz, h1, h2, if_true]
    refine ⟨(Mat.mul 2 (psi (0.5 * a) k 0) p'.2, L), ?_, ?_⟩
    · by_cases hlt : r'.size < 2
      · rw [if_pos hlt] at h3 ⊢
        cases h5 : Dihedral.irrep M 0 p'.1 with
        | none => rw [h5] at h3; cases h3
        | some r0 => rw [h5] at h3; cases h3; rfl
      · rw [if_neg hlt] at h3 ⊢
        cases h3; rfl
    · refine RestrictsTo.comp (h4.weaken (isEl' := (Dihedral.grp M).isEl) fun _ _ => trivial) ⟨_, psi_inv _ _⟩ ?_
      intro e he
      rw [hp, hm]
      exact MEq.of_eq (Dihedral.psichi_axis ((Dihedral.isEl_iff M e).1 he).1 (e.2 * (2 * π / M)) a k)

/-- **C09, O(2) to O(2) with another reflection axis.** -/
theorem c09_o2_to_o2 (a : ℝ) (p : ℤ × ℝ → ℤ × ℝ) (c : ℤ × ℝ → Option (ℤ × ℝ))
    (hS : O2.subgroup (some a) (-1) = some (.o2 p c))
    (r : Repr (ℤ × ℝ)) (hr : r.WF) (hi : ∀ i ∈ r.irreps, O2.IsIrrep i) :
    ∃ r', r.restrict (fun i => O2.restrictO2 i a) = some r' ∧ IsRestriction O2.grp p O2.IsIrrep r r' :=
  isRestriction_of O2.IsIrrep.isRep r hr fun i hi' => o2_o2_restricts hS i (hi i hi')

/-- **C09, O(2) to SO(2).** -/
theorem c09_o2_to_so2 (p : ℝ → ℤ × ℝ) (c : ℤ × ℝ → Option ℝ)
    (hS : O2.subgroup none (-1) = some (.so2 p c))
    (r : Repr (ℤ × ℝ)) (hr : r.WF) (hi : ∀ i ∈ r.irreps, O2.IsIrrep i) :
    ∃ r', r.restrict O2.restrictSO2 = some r' ∧ IsRestriction SO2.grp p SO2.IsIrrep r r' :=
  isRestriction_of SO2.IsIrrep.isRep r hr fun i hi' => o2_so2_restricts hS i (hi i hi')

/-- **C09, O(2) to a flip group.** -/
theorem c09_o2_to_flip (a : ℝ) (m : ℕ) (p : ℤ → ℤ × ℝ) (c : ℤ × ℝ → Option ℤ)
    (hS : O2.subgroup (some a) 1 = some (.cyc m p c))
    (r : Repr (ℤ × ℝ)) (hr : r.WF) (hi : ∀ i ∈ r.irreps, O2.IsIrrep i) :
    ∃ r', r.restrict (fun i => O2.restrictFlip i a) = some r' ∧
      IsRestriction (Cyclic.grp 2) p (Cyclic.IsIrrep 2) r r' :=
  isRestriction_of (Cyclic.IsIrrep.isRep (by norm_num)) r hr fun i hi' => o2_flip_restricts hS i (hi i hi')

/-- **C09, O(2) to C_M.** -/
theorem c09_o2_to_cyclic (M m : ℕ) (p : ℤ → ℤ × ℝ) (c : ℤ × ℝ → Option ℤ)
    (hS : O2.subgroup none M = some (.cyc m p c))
    (r : Repr (ℤ × ℝ)) (hr : r.WF) (hi : ∀ i ∈ r.irreps, O2.IsIrrep i) :
    ∃ r', r.restrict (fun i => O2.restrictCyc i M) = some r' ∧
      IsRestriction (Cyclic.grp M) p (Cyclic.IsIrrep M) r r' :=
  have hM : 0 < M := by
    have := (c07_o2_subgroup_partial none M).1.1 (by rw [hS]; rfl)
    omega
  isRestriction_of (Cyclic.IsIrrep.isRep hM) r hr fun i hi' => (o2_cyc_restricts hS i (hi i hi')).2

/-- **C09, O(2) to D_M about any admissible axis.** -/
theorem c09_o2_to_dihedral (a : ℝ) (M : ℕ) (hM : 1 < M) (m : ℕ) (p : ℤ × ℤ → ℤ × ℝ) (c : ℤ × ℝ → Option (ℤ × ℤ))
    (hS : O2.subgroup (some a) M = some (.dih m p c))
    (r : Repr (ℤ × ℝ)) (hr : r.WF) (hi : ∀ i ∈ r.irreps, O2.IsIrrep i) :
    ∃ r', r.restrict (fun i => O2.restrictDih i a M) = some r' ∧
      IsRestriction (Dihedral.grp M) p (Dihedral.IsIrrep M) r r' :=
  isRestriction_of (Dihedral.IsIrrep.isRep (by omega)) r hr fun i hi' => o2_dih_restricts hM hS i (hi i hi')

/-- The subgroup hypotheses are met (for instance) by the axis `1/2` and the orders 3, 1 and -1, and
there are representations: one irrep of size 2 and one of size 1 with a non-trivial change of basis. -/
example : (O2.subgroup (some (1 / 2)) 3).isSome ∧ (O2.subgroup (some (1 / 2)) 1).isSome ∧
    (O2.subgroup (some (1 / 2)) (-1)).isSome ∧ (O2.subgroup none (-1)).isSome ∧
    (O2.subgroup none 5).isSome := by
  have hpi := Real.pi_gt_three
  refine ⟨?_, ?_, ?_, ?_, ?_⟩ <;> rw [(c07_o2_subgroup_partial _ _).1]
  · right
    refine ⟨by norm_num, fun a h => ?_⟩
    cases h
    constructor
    · norm_num
    · push_cast; linarith
  · right
    refine ⟨by norm_num, fun a h => ?_⟩
    cases h
    constructor
    · norm_num
    · push_cast; linarith
  · left; rfl
  · left; rfl
  · right; exact ⟨by norm_num, fun a h => by cases h⟩

example : ∃ i j, O2.irrep 1 4 = some i ∧ O2.irrep 1 0 = some j ∧
    (Repr.mk [j] (fun _ _ => 2) (fun _ _ => 1 / 2)).WF := by
  obtain ⟨i, hi⟩ := Option.isSome_iff_exists.1 ((c05_o2_irreps 1 4).1.2 (by omega))
  obtain ⟨j, hj⟩ := Option.isSome_iff_exists.1 ((c05_o2_irreps 1 0).1.2 (by omega))
  refine ⟨i, j, hi, hj, isInv_of_left ?_⟩
  have hs := ((c05_o2_irreps 1 0).2 j hj).2.2.1
  rw [if_pos rfl] at hs
  have : (Repr.mk [j] (fun _ _ => 2) (fun _ _ => 1 / 2)).size = 1 := by simp [Repr.size, hs]
  rw [this]
  exact MEq_m1 (by simp [Mat.mul, Mat.one])

end E2
