import Verif.Props.Quotient

/-!
# C13 for the dihedral groups
-/

namespace E2

open Finset Mat Real

namespace Dihedral

theorem sum_irreps (N : ℕ) (hN : 0 < N) (F : Irrep (ℤ × ℤ) → ℝ) :
    ((irreps N).map F).sum = ∑ k ∈ range (N / 2 + 1), ((irrep N 1 k).elim 0 F +
      if k = 0 ∨ (N % 2 = 0 ∧ k = N / 2) then (irrep N 0 k).elim 0 F else 0) := by
  have hsplit : ∀ F : ℕ → ℝ, (∑ k ∈ range (N / 2 + 1), if k = 0 ∨ (N % 2 = 0 ∧ k = N / 2) then F k else 0)
          = F 0 + if N % 2 = 0 then F (N / 2) else 0 := by
        intro F
        rw [Finset.sum_range_succ']
        rw [if_pos (Or.inl rfl), add_comm]
        congr 1
        by_cases h : N % 2 = 0
        · obtain ⟨q, hq⟩ : ∃ q, N / 2 = q + 1 := ⟨N / 2 - 1, by omega⟩
          rw [if_pos h, hq, Finset.sum_range_succ, if_pos (Or.inr ⟨h, rfl⟩), Finset.sum_eq_zero, zero_add]
          intro k hk
          rw [if_neg]
          have := mem_range.1 hk
          omega
        · rw [if_neg h, Finset.sum_eq_zero]
          intro k hk
          rw [if_neg]
          omega
  rw [irreps, sum_map_filterMap, List.map_append, List.map_append, List.sum_append, List.sum_append,
        List.map_map, sum_map_range, Finset.sum_add_distrib, hsplit]
  simp only [Function.comp_apply, List.map_cons, List.map_nil, List.sum_cons, List.sum_nil, add_zero]
  have : ((if N % 2 = 0 then [((0 : ℕ), N / 2)] else []).map fun p : ℕ × ℕ => (irrep N p.1 p.2).elim 0 F).sum
      = if N % 2 = 0 then (irrep N 0 (N / 2)).elim 0 F else 0 := by
    split_ifs <;> simp
  rw [this]; ring

/-- What is needed of the irreps in the list. -/
theorem mem_irreps {N : ℕ} {i : Irrep (ℤ × ℤ)} (h : i ∈ irreps N) : ∃ j k, irrep N j k = some i := by
  obtain ⟨p, -, hp⟩ := List.mem_filterMap.1 h
  exact ⟨p.1, p.2, hp⟩

/-- The flip frequency of the restriction of a 1-dimensional irrep to a subgroup with a reflection (dihedralgroup.py:252-255
and 280-283). -/
def rflip (N axis : ℕ) (i : Irrep (ℤ × ℤ)) : ℕ := if 2 * i.freq = N then (i.flip + axis) % 2 else i.flip

/-- Multiplicity of an irrep in the quotient by the dihedral subgroup. -/
def axMult (N M axis : ℕ) (i : Irrep (ℤ × ℤ)) : ℕ :=
  if M ∣ i.freq ∧ (i.size = 2 ∨ rflip N axis i = 0) then 1 else 0

noncomputable def axContrib (N M axis : ℕ) (i : Irrep (ℤ × ℤ)) (x : ℤ × ℤ) : ℝ :=
  if M ∣ i.freq ∧ (i.size = 2 ∨ rflip N axis i = 0) then i.size * cos (i.freq * (x.2 - x.1 * axis : ℤ) * (2 * π / N)) else 0

theorem irrep_one_size {N k : ℕ} {i : Irrep (ℤ × ℤ)} (h : irrep N 1 k = some i) :
    (i.size : ℝ) = freqWeight N k ∧ i.freq = k ∧ i.flip = 1 ∧ (i.size = 2 ↔ ¬ (k = 0 ∨ (N % 2 = 0 ∧ k = N / 2))) := by
  have h1 := irrep_size h
  have h2 := irrep_freq h
  refine ⟨?_, h2.1, h2.2, ?_⟩
  · rw [h1, freqWeight]
    by_cases h3 : k = 0 ∨ 2 * k = N
    · rw [if_pos h3, if_pos (by omega)]; simp
    · rw [if_neg h3, if_neg (by omega)]; simp
  · rw [h1]; split_ifs <;> omega

/-- Any function of the frequency summed over the irreps with a nonzero multiplicity. -/
theorem ax_sum {M Q axis : ℕ} (hM : 0 < M) (hQ : 0 < Q) (c : ℕ → ℝ) :
    ((irreps (M * Q)).map fun i =>
      if M ∣ i.freq ∧ (i.size = 2 ∨ rflip (M * Q) axis i = 0) then (i.size : ℝ) * c i.freq else 0).sum
      = ∑ k ∈ range (M * Q / 2 + 1), freqWeight (M * Q) k * (if M ∣ k then c k else 0) := by
  have hN : 0 < M * Q := Nat.mul_pos hM hQ
  rw [sum_irreps _ hN]
  refine Finset.sum_congr rfl fun k hk => ?_
  have hk : k ≤ M * Q / 2 := by have := mem_range.1 hk; omega
  obtain ⟨i1, h1⟩ := Option.isSome_iff_exists.1 ((irrep_isSome (M * Q) 1 k).2 ⟨hk, Or.inr rfl⟩)
  obtain ⟨hs1, hf1, hl1, hz1⟩ := irrep_one_size h1
  rw [h1]
  simp only [Option.elim_some, hf1]
  by_cases hsp : k = 0 ∨ (M * Q % 2 = 0 ∧ k = M * Q / 2)
  · obtain ⟨i0, h0⟩ := Option.isSome_iff_exists.1 ((irrep_isSome (M * Q) 0 k).2 ⟨hk, Or.inl ⟨rfl, by omega⟩⟩)
    have hf0 := irrep_freq h0
    have hs0 := irrep_size h0
    rw [if_pos (by omega)] at hs0
    have hs1' : i1.size = 1 := by have := irrep_size h1; rw [if_pos (by omega)] at this; exact this
    have hw : freqWeight (M * Q) k = 1 := if_pos hsp
    rw [if_pos hsp, h0, hw]
    simp only [Option.elim_some, hf0.1, hs0, hs1', rflip, hf0.2, hl1, hf1]
    by_cases hd : M ∣ k
    · simp only [hd, true_and, if_true, show ¬ ((1 : ℕ) = 2) by omega, false_or]
      by_cases h2 : 2 * k = M * Q
      · simp only [h2, if_true]
        rcases Nat.mod_two_eq_zero_or_one axis with ha | ha
        · rw [if_neg (by omega), if_pos (by omega)]; simp
        · rw [if_pos (by omega), if_neg (by omega)]; simp
      · simp only [h2, if_false]
        simp
    · simp [hd]
  · rw [if_neg hsp, add_zero, hs1]
    have : i1.size = 2 := hz1.2 hsp
    by_cases hd : M ∣ k
    · simp [hd, this]
    · simp [hd]

theorem ax_contrib_sum {M Q axis : ℕ} (hM : 0 < M) (hQ : 0 < Q) (x : ℤ × ℤ) :
    ((irreps (M * Q)).map fun i => axContrib (M * Q) M axis i x).sum
      = if (Q : ℤ) ∣ x.2 - x.1 * axis then (Q : ℝ) else 0 := by
  rw [← sum_weight_dvd M Q hM hQ (x.2 - x.1 * axis)]
  exact ax_sum hM hQ fun k => cos (k * (x.2 - x.1 * axis : ℤ) * (2 * π / (M * Q : ℕ)))

theorem ax_size_sum {M Q axis : ℕ} (hM : 0 < M) (hQ : 0 < Q) :
    ((irreps (M * Q)).map fun i => axMult (M * Q) M axis i * i.size).sum = Q := by
  have h := ax_contrib_sum (axis := axis) hM hQ (0, 0)
  rw [if_pos (by simp)] at h
  have h2 : (((irreps (M * Q)).map fun i => axMult (M * Q) M axis i * i.size).sum : ℕ) = (Q : ℝ) := by
    rw [← h, ← Nat.coe_castAddMonoidHom, map_list_sum, List.map_map]
    congr 1
    refine List.map_congr_left fun i _ => ?_
    simp only [Function.comp, Nat.coe_castAddMonoidHom, axMult, axContrib]
    split_ifs <;> simp
  exact_mod_cast h2

/-- The value of a 1-dimensional irrep whose restriction is trivial. -/
theorem one_dim_val {N j k axis : ℕ} (hN : 0 < N) {i : Irrep (ℤ × ℤ)} (h : irrep N j k = some i) (hs : ¬ i.size = 2)
    (x : ℤ × ℤ) (hx : x.1 = 0 ∨ x.1 = 1) :
    i.mat x 0 0 = (if x.1 ≠ 0 ∧ rflip N axis i ≠ 0 then -1 else 1) * cos (i.freq * (x.2 - x.1 * axis : ℤ) * (2 * π / N)) := by
  have hsz := irrep_size h
  have hsp : k = 0 ∨ 2 * k = N := by
    by_contra h1; rw [if_neg h1] at hsz; exact hs hsz
  unfold irrep at h
  split_ifs at h with h1 h2 h3 h4 h5 h6 h7
  · cases h
    simp [m1, h4, rflip, h3, show ¬ (0 : ℕ) = N by omega]
  · cases h
    have e : 2 * k = N := by omega
    simp only [m1, and_self, if_true, rflip, e, h3, zero_add]
    rw [cos_half h5.1 h5.2 hN, cos_half h5.1 h5.2 hN, sub_eq_add_neg, neg_one_pow_natAbs_add, Int.natAbs_neg]
    rcases hx with hx | hx
    · simp [hx]
    · simp only [hx, one_mul, ne_eq, one_ne_zero, not_false_eq_true, true_and, Int.natAbs_natCast]
      rcases Nat.mod_two_eq_zero_or_one axis with ha | ha
      · rw [if_neg (by omega), (Nat.even_iff.2 ha).neg_one_pow]; ring
      · rw [if_pos (by omega), (Nat.odd_iff.2 ha).neg_one_pow]; ring
  · cases h
    have hj : j = 1 := by omega
    have e : ¬ 2 * k = N := by omega
    simp [m1, h6, rflip, hj, show ¬ (0 : ℕ) = N by omega]
  · cases h
    have hj : j = 1 := by omega
    have e : 2 * k = N := by omega
    simp only [m1, and_self, if_true, rflip, e, hj]
    rw [cos_half h7.1 h7.2 hN, cos_half h7.1 h7.2 hN, sub_eq_add_neg, neg_one_pow_natAbs_add, Int.natAbs_neg]
    rcases hx with hx | hx
    · simp [hx]
    · simp only [hx, one_mul, ne_eq, one_ne_zero, not_false_eq_true, true_and, Int.natAbs_natCast, if_true]
      rcases Nat.mod_two_eq_zero_or_one axis with ha | ha
      · rw [if_pos (by omega), (Nat.even_iff.2 ha).neg_one_pow]; ring
      · rw [if_neg (by omega), (Nat.odd_iff.2 ha).neg_one_pow]; ring
  · cases h
    exact absurd rfl hs

theorem two_dim {N j k : ℕ} {i : Irrep (ℤ × ℤ)} (h : irrep N j k = some i) (hs : i.size = 2) :
    i.socs = 1 ∧ i.freq = k ∧ i.flip = 1 ∧ ¬ 2 * k = N ∧ ¬ k = 0 ∧
      i.mat = fun e => psichi (e.2 * (2 * π / N)) e.1 k 0 := by
  have hsz := irrep_size h
  unfold irrep at h
  split_ifs at h with h1 h2 h3 h4 h5 h6 h7 <;> cases h
  all_goals simp at hs
  refine ⟨rfl, rfl, (show j = 1 by omega), by omega, h6, rfl⟩

/-- The common part of the two kinds of subgroups with reflections. -/
theorem ax_vok {El' : Type} {N j k M axis : ℕ} (hN : 0 < N) {i : Irrep (ℤ × ℤ)} (h : irrep N j k = some i)
    (S : SubData (ℤ × ℤ) El') {ρ : Irrep El'} (hρ1 : ρ.size = 1) (hρ2 : ρ.socs = 1)
    (hr2 : M ∣ k → i.size = 2 → ∃ cob irs, S.restr i = some (cob, irs) ∧ posList ρ 0 irs = [0] ∧
      MEq 2 2 cob (psi ((0.5 * axis) * 2 * π / N) k 0))
    (hr1 : M ∣ k → i.size = 1 → rflip N axis i = 0 → ∃ cob irs, S.restr i = some (cob, irs) ∧ posList ρ 0 irs = [0] ∧
      MEq 1 1 cob Mat.one)
    : ∃ c : ℤ × ℤ → ℝ, VOk S ρ i (axMult N M axis i) c ∧
      ∀ x : ℤ × ℤ, (x.1 = 0 ∨ x.1 = 1) → c x = axContrib N M axis i x := by
  have hsz := irrep_size h
  have hfr := irrep_freq h
  by_cases hz : M ∣ i.freq ∧ (i.size = 2 ∨ rflip N axis i = 0)
  · rw [axMult, if_pos hz]
    simp only [axContrib, if_pos hz]
    by_cases h2 : i.size = 2
    · obtain ⟨cob, irs, e1, e2, e3⟩ := hr2 (hfr.1 ▸ hz.1) h2
      obtain ⟨t1, t2, t3, t4, t5, t6⟩ := two_dim h h2
      refine ⟨fun x => quad 2 (i.mat x) (fun a => vBlock ρ i cob [0] 1 0 a 0), ⟨by omega, by simp, fun _ => ?_⟩, ?_⟩
      · refine ⟨cob, irs, e1, ?_, ?_, ?_⟩
        · rw [e2, hρ2, t1]; simp
        · rw [e2, t1]; simp
        · intro x
          rw [e2, Finset.sum_range_one, h2]
      · intro x hx
        have hB : ∀ a < 2, vBlock ρ i cob [0] 1 0 a 0 = Real.sqrt 2 * psi ((0.5 * axis) * 2 * π / N) k 0 a 0 := by
          intro a ha
          simp only [vBlock, h2, t1, hρ1, commutingMat, hρ2]
          simp [setRows, Mat.mul, Mat.one, e3 a ha 0 (by omega)]
        show quad 2 (i.mat x) (fun a => vBlock ρ i cob [0] 1 0 a 0) = _
        rw [quad_congr_vec _ hB, t6, h2, t2]
        have hs2 : Real.sqrt 2 * Real.sqrt 2 = 2 := Real.mul_self_sqrt (by norm_num)
        have hN' : (N : ℝ) ≠ 0 := by positivity
        set α := (k : ℝ) * ((0.5 * axis) * 2 * π / N) + 0 with hα
        set θ := (k : ℝ) * (x.2 * (2 * π / N)) + 0 with hθ
        rcases hx with hx | hx
        · have hgoal : (k : ℝ) * ((x.2 - x.1 * axis : ℤ) : ℝ) * (2 * π / N) = θ := by
            rw [hx, hθ]; push_cast; ring
          rw [hgoal]
          simp only [quad, mulVec, hx, psichi_zero, psi, m2, Finset.sum_range_succ, Finset.sum_range_zero, zero_add,
            ← hα, ← hθ]
          have hcs := Real.cos_sq_add_sin_sq α
          linear_combination (cos θ * (cos α ^ 2 + sin α ^ 2)) * hs2 + 2 * cos θ * hcs
        · have hgoal : (k : ℝ) * ((x.2 - x.1 * axis : ℤ) : ℝ) * (2 * π / N) = θ - (α + α) := by
            rw [hx, hθ, hα]; push_cast; field_simp; ring
          rw [hgoal, Real.cos_sub θ (α + α), Real.cos_add α α, Real.sin_add α α]
          simp only [quad, mulVec, hx, psichi_one, psi, m2, Finset.sum_range_succ, Finset.sum_range_zero, zero_add,
            ← hα, ← hθ]
          linear_combination (cos θ * (cos α ^ 2 - sin α ^ 2) + 2 * sin θ * sin α * cos α) * hs2
    · have h1 : i.size = 1 := by rw [hsz] at h2 ⊢; split_ifs at * <;> omega
      have hz0 : rflip N axis i = 0 := by tauto
      obtain ⟨cob, irs, e1, e2, e3⟩ := hr1 (hfr.1 ▸ hz.1) h1 hz0
      have ht1 : i.socs = 1 := by
        unfold irrep at h
        split_ifs at h <;> cases h <;> rfl
      refine ⟨fun x => i.mat x 0 0, ⟨by omega, by simp, fun _ => ?_⟩, ?_⟩
      · refine ⟨cob, irs, e1, ?_, ?_, ?_⟩
        · rw [e2, hρ2, ht1]; simp
        · rw [e2, ht1]; simp
        · intro x
          rw [e2, Finset.sum_range_one, h1]
          have hB : vBlock ρ i cob [0] 1 0 0 0 = 1 := by
            simp only [vBlock, h1, ht1, hρ1, commutingMat, hρ2]
            simp [setRows, Mat.mul, Mat.one, e3 0 (by omega) 0 (by omega)]
          simp [quad, mulVec, hB]
      · intro x hx
        show i.mat x 0 0 = _
        rw [one_dim_val (axis := axis) hN h h2 x hx, hz0, h1]
        simp
  · rw [axMult, if_neg hz]
    refine ⟨fun _ => 0, ⟨by omega, fun _ _ => rfl, fun h => absurd h (by omega)⟩, ?_⟩
    intro x _
    rw [axContrib, if_neg hz]

/-- Sums of a 2-dimensional or 1-dimensional irrep over a dihedral subgroup. -/
theorem sum_cos_shift (M : ℕ) (hM : 0 < M) (k : ℤ) (a : ℝ) :
    ∑ y ∈ range M, cos (y * k * (2 * π / M) + a) = if (M : ℤ) ∣ k then M * cos a else 0 := by
  simp only [Real.cos_add]
  rw [Finset.sum_sub_distrib, ← Finset.sum_mul, ← Finset.sum_mul, sum_cos_int M hM, sum_sin_int M hM]
  split_ifs <;> simp

theorem dih_mult {M Q j k axis : ℕ} (hM : 0 < M) (hQ : 0 < Q) {i : Irrep (ℤ × ℤ)} (h : irrep (M * Q) j k = some i) :
    ((elements M).map fun y : ℤ × ℤ => Mat.trace i.size (i.mat (y.1, y.2 * (Q : ℤ) + y.1 * axis))).sum
      = axMult (M * Q) M axis i * i.socs * (elements M).length := by
  have hN : 0 < M * Q := Nat.mul_pos hM hQ
  have hM' : (M : ℝ) ≠ 0 := by positivity
  have hQ' : (Q : ℝ) ≠ 0 := by positivity
  rw [elements, List.map_append, List.sum_append, List.map_map, List.map_map, sum_map_range, sum_map_range,
    ← elements, elements_length]
  simp only [Function.comp_def, zero_mul, add_zero, one_mul]
  have hang : ∀ y : ℕ, (k : ℝ) * (((y : ℤ) * (Q : ℤ) : ℤ) : ℝ) * (2 * π / (M * Q : ℕ)) = y * (k : ℤ) * (2 * π / M) := by
    intro y; push_cast; field_simp
  have hcos : ∑ y ∈ range M, cos ((k : ℝ) * (((y : ℤ) * (Q : ℤ) : ℤ) : ℝ) * (2 * π / (M * Q : ℕ)))
      = if M ∣ k then (M : ℝ) else 0 := by
    simp only [hang]
    rw [sum_cos_int M hM]
    simp only [Int.natCast_dvd_natCast]
  by_cases h2 : i.size = 2
  · obtain ⟨t1, t2, t3, t4, t5, t6⟩ := two_dim h h2
    have ht0 : ∀ z : ℤ, Mat.trace 2 (psichi (z * (2 * π / (M * Q : ℕ))) 0 k 0) = 2 * cos (k * z * (2 * π / (M * Q : ℕ))) := by
      intro z
      simp only [Mat.trace, Finset.sum_range_succ, Finset.sum_range_zero, psichi_zero, psi, m2, add_zero, zero_add]
      rw [_root_.mul_assoc (k : ℝ)]; ring
    have ht1 : ∀ z : ℤ, Mat.trace 2 (psichi (z * (2 * π / (M * Q : ℕ))) 1 k 0) = 0 := by
      intro z
      simp [Mat.trace, Finset.sum_range_succ, psichi_one, m2]
    simp only [t6, h2, ht0, ht1, Finset.sum_const_zero, add_zero]
    rw [← Finset.mul_sum, hcos, t1, axMult]
    simp only [h2, true_or, and_true, t2]
    split_ifs <;> simp
  · have h1 : i.size = 1 := by
      have := irrep_size h
      rw [this] at h2 ⊢; split_ifs at * <;> omega
    have ht1 : i.socs = 1 := by
      unfold irrep at h
      split_ifs at h <;> cases h <;> rfl
    have hf := (irrep_freq h).1
    have htr : ∀ x, Mat.trace i.size (i.mat x) = i.mat x 0 0 := by intro x; rw [h1, Mat.trace, Finset.sum_range_one]
    simp only [htr]
    rw [Finset.sum_congr rfl fun y _ => one_dim_val (axis := axis) hN h h2 (0, _) (Or.inl rfl),
      Finset.sum_congr rfl fun y _ => one_dim_val (axis := axis) hN h h2 (1, _) (Or.inr rfl)]
    simp only [zero_mul, sub_zero, one_mul, add_sub_cancel_right, ne_eq, not_true_eq_false, false_and, if_false, hf,
      one_ne_zero, not_false_eq_true, true_and]
    rw [hcos, ← Finset.mul_sum, hcos, ht1, axMult, hf, h1]
    by_cases hd : M ∣ k <;> by_cases hr : rflip (M * Q) axis i = 0 <;> simp [hd, hr]
    ring

theorem subData_ok_dih {N M axis : ℕ} (hN : 0 < N) {S : SubData (ℤ × ℤ) (ℤ × ℤ)} (h : subDataDih N axis M = some S) :
    SubOk (grp N) (elements N) (grp M) S := by
  unfold subDataDih at h
  cases hs : subgroup N (some axis) M with
  | none => rw [hs] at h; cases h
  | some s =>
    rw [hs] at h
    cases s with
    | cyc _ _ _ => cases h
    | dih M' p c =>
      cases h
      have hadm := (c06_dihedral_subgroup N hN (some axis) M).1.1 (by rw [hs]; rfl)
      obtain ⟨hc, h1, h2, h3⟩ := (c06_dihedral_subgroup N hN (some axis) M).2 _ hs
      have hM' : M' = M := by
        unfold subgroup at hs
        simp only at hs
        split_ifs at hs
        · cases hs
        · injection Option.some.inj hs with e
          exact e.symm
      subst hM'
      exact ⟨lawful hN, elements_nodup N, fun e => (mem_elements N e).trans (isElement_iff N e).symm,
        lawful hadm.1, elements_nodup _, fun e => (mem_elements _ e).trans (isElement_iff _ e).symm, hc.1, hc.2⟩

theorem subData_ok_flip {N axis : ℕ} (hN : 0 < N) {S : SubData (ℤ × ℤ) ℤ} (h : subDataFlip N axis = some S) :
    SubOk (grp N) (elements N) (Cyclic.grp 2) S := by
  unfold subDataFlip at h
  cases hs : subgroup N (some axis) 1 with
  | none => rw [hs] at h; cases h
  | some s =>
    rw [hs] at h
    cases s with
    | dih _ _ _ => cases h
    | cyc M' p c =>
      cases h
      obtain ⟨hc, h1, h2, h3⟩ := (c06_dihedral_subgroup N hN (some axis) 1).2 _ hs
      have hM' : M' = 2 := by
        unfold subgroup at hs
        simp only at hs
        split_ifs at hs
        cases hs; rfl
      subst hM'
      exact ⟨lawful hN, elements_nodup N, fun e => (mem_elements N e).trans (isElement_iff N e).symm,
        Cyclic.lawful (by omega), Cyclic.elements_nodup _, fun e => (Cyclic.mem_elements _ e).trans (Cyclic.isElement_iff _ e).symm,
        hc.1, hc.2⟩

theorem subData_ok_cyc {N M : ℕ} (hN : 0 < N) {S : SubData (ℤ × ℤ) ℤ} (h : subDataCyc N M = some S) :
    SubOk (grp N) (elements N) (Cyclic.grp M) S := by
  unfold subDataCyc at h
  cases hs : subgroup N none M with
  | none => rw [hs] at h; cases h
  | some s =>
    rw [hs] at h
    cases s with
    | dih _ _ _ => cases h
    | cyc M' p c =>
      cases h
      have hadm := (c06_dihedral_subgroup N hN none M).1.1 (by rw [hs]; rfl)
      obtain ⟨hc, h1, h2, h3⟩ := (c06_dihedral_subgroup N hN none M).2 _ hs
      have hM' : M' = M := by
        unfold subgroup at hs
        simp only at hs
        split_ifs at hs
        cases hs; rfl
      subst hM'
      exact ⟨lawful hN, elements_nodup N, fun e => (mem_elements N e).trans (isElement_iff N e).symm,
        Cyclic.lawful hadm.1, Cyclic.elements_nodup _, fun e => (Cyclic.mem_elements _ e).trans (Cyclic.isElement_iff _ e).symm,
        hc.1, hc.2⟩

theorem sub_dih {M Q axis : ℕ} (hM : 1 < M) (ha : axis < Q) : subgroup (M * Q) (some axis) M =
    some (.dih M (fun e => (e.1, e.2 * ((Q : ℕ) : ℤ) + e.1 * axis))
          (fun e => if (e.2 - e.1 * axis) % ((Q : ℕ) : ℤ) > 0 then none
            else some (e.1, (e.2 - e.1 * axis) / ((Q : ℕ) : ℤ)))) := by
  unfold subgroup
  simp only [Nat.mul_div_cancel_left Q (by omega : 0 < M)]
  rw [if_neg (by omega), if_neg (by simp), if_neg (by omega), if_neg (by omega)]

theorem sub_flip {N axis : ℕ} (ha : axis < N) : subgroup N (some axis) 1 =
    some (.cyc 2 (fun e => (e, axis * e)) (fun e => if e.2 ≠ e.1 * axis then none else some e.1)) := by
  unfold subgroup
  rw [if_neg (by omega), if_neg (by simp [Nat.mod_one])]
  simp only [Nat.div_one]
  rw [if_neg (by omega)]
  simp

theorem sub_cyc {M Q : ℕ} (hM : 0 < M) : subgroup (M * Q) none M =
    some (.cyc M (fun e => (0, e * ((Q : ℕ) : ℤ)))
        (fun e => if e.1 ≠ 0 ∨ e.2 % ((Q : ℕ) : ℤ) > 0 then none else some (e.2 / ((Q : ℕ) : ℤ)))) := by
  unfold subgroup
  simp only [Nat.mul_div_cancel_left Q hM]
  rw [if_neg (by omega), if_neg (by simp)]

/-- The elements of a subgroup with a reflection. -/
theorem dih_image {M Q axis : ℕ} (ha : axis < Q) {x : ℤ × ℤ} (hx : (grp (M * Q)).isEl x) :
    (∃ h, (grp M).isEl h ∧ (h.1, h.2 * ((Q : ℕ) : ℤ) + h.1 * axis) = x) ↔ (Q : ℤ) ∣ x.2 - x.1 * axis := by
  have hQ : (0 : ℤ) < Q := by exact_mod_cast (by omega : 0 < Q)
  have ha' : (axis : ℤ) < Q := by exact_mod_cast ha
  have hx := (isElement_iff _ x).1 hx
  constructor
  · rintro ⟨h, -, rfl⟩
    simp
  · rintro ⟨y, hy⟩
    refine ⟨(x.1, y), (isElement_iff _ _).2 ⟨hx.1, ?_⟩, Prod.ext rfl ?_⟩
    · have h2 := hx.2
      have e : x.2 = Q * y + x.1 * axis := by linarith
      push_cast at h2
      rw [e] at h2
      have hxa : 0 ≤ x.1 * axis ∧ x.1 * axis < Q := by
        rcases hx.1 with h | h <;> rw [h] <;> constructor <;> simp <;> omega
      constructor
      · by_contra hneg
        push Not at hneg
        nlinarith
      · show y < M
        by_contra hge
        push Not at hge
        nlinarith
    · show y * (Q : ℤ) + x.1 * axis = x.2
      linarith

theorem irrep_zero_zero (N : ℕ) : irrep N 0 0 =
    some { size := 1, socs := 1, mat := fun _ => m1 1, freq := 0, flip := 0, char := some fun _ => 1 } := by
  simp [irrep]

end Dihedral

/-- **C13, D_N by D_M.** For every admissible id `(axis, M)` with `M > 1`. -/
theorem c13_dihedral_quotient_dihedral (N : ℕ) (hN : 0 < N) (M axis : ℕ) (hM : 1 < M) (hd : M ∣ N) (ha : axis < N / M) :
    ∃ S ρ r, Dihedral.subDataDih N axis M = some S ∧ Dihedral.irrep M 0 0 = some ρ ∧
      Dihedral.inducedRepr N S ρ = some r ∧
      IsQuotientRep (Dihedral.grp N) (Dihedral.grp M) S (cosetLoop (Dihedral.grp N) (Dihedral.elements N) S).reps r := by
  obtain ⟨Q, rfl⟩ := hd
  have hM0 : 0 < M := by omega
  rw [Nat.mul_div_cancel_left _ hM0] at ha
  have hQ : 0 < Q := by omega
  have hsub := Dihedral.sub_dih hM ha
  obtain ⟨S, hS, hSels, hSpar, hSres⟩ : ∃ S, Dihedral.subDataDih (M * Q) axis M = some S ∧
      S.els = Dihedral.elements M ∧ S.parent = (fun e => (e.1, e.2 * ((Q : ℕ) : ℤ) + e.1 * axis)) ∧
      S.restr = fun irr => Dihedral.restrictDih (M * Q) irr axis M := by
    unfold Dihedral.subDataDih
    rw [hsub]
    exact ⟨_, rfl, rfl, rfl, rfl⟩
  have ok := Dihedral.subData_ok_dih hN hS
  have hρ := Dihedral.irrep_zero_zero M
  generalize hρ' : Irrep.mk _ _ _ _ _ _ = ρ at hρ
  have hρf : ρ.freq = 0 ∧ ρ.flip = 0 ∧ ρ.size = 1 ∧ ρ.socs = 1 ∧ ∀ h, ρ.mat h 0 0 = 1 := by
    rw [← hρ']; simp [m1]
  have hc : ∀ i : Irrep (ℤ × ℤ), ∃ c : ℤ × ℤ → ℝ, i ∈ Dihedral.irreps (M * Q) →
      VOk S ρ i (Dihedral.axMult (M * Q) M axis i) c ∧
      ∀ x : ℤ × ℤ, (x.1 = 0 ∨ x.1 = 1) → c x = Dihedral.axContrib (M * Q) M axis i x := by
    intro i
    by_cases hi : i ∈ Dihedral.irreps (M * Q)
    · obtain ⟨j, k, h⟩ := Dihedral.mem_irreps hi
      have hf := Dihedral.irrep_freq h
      obtain ⟨c, hc⟩ := Dihedral.ax_vok (M := M) (axis := axis) hN h S (ρ := ρ) hρf.2.2.1 hρf.2.2.2.1
        (by
          intro hd h2
          obtain ⟨t1, t2, t3, t4, t5, t6⟩ := Dihedral.two_dim h h2
          obtain ⟨ρ1, h1⟩ := Option.isSome_iff_exists.1 ((Dihedral.irrep_isSome M 1 0).2 ⟨by omega, Or.inr rfl⟩)
          have hf1 := Dihedral.irrep_freq h1
          have hs1 := Dihedral.irrep_size h1
          rw [if_pos (Or.inl rfl)] at hs1
          refine ⟨Mat.mul 2 (psi ((0.5 * axis) * 2 * π / (M * Q : ℕ)) k 0) Mat.one, [ρ, ρ1], ?_, ?_, ?_⟩
          · rw [hSres]
            simp only [Dihedral.restrictDih, hsub, t2, Nat.mod_eq_zero_of_dvd hd, Cyclic.reduceFreq, t3]
            rw [if_neg (by omega)]
            simp only [h2, if_true, t4, if_false, h1, hs1, hρ]
            simp
          · simp [posList, sameIrrep, hf1, hρf]
          · exact MEq_mul_one _ _ _)
        (by
          intro hd h2 hz
          refine ⟨Mat.one, [ρ], ?_, ?_, MEq.refl _⟩
          · rw [hSres]
            unfold Dihedral.rflip at hz
            simp only [Dihedral.restrictDih, hsub, hf.1, Nat.mod_eq_zero_of_dvd hd, Cyclic.reduceFreq]
            rw [if_neg (by omega)]
            rw [hf.1] at hz
            simp only [hz, h2, hρ, hρf.2.2.1]
            simp
          · simp [posList, sameIrrep])
      exact ⟨c, fun _ => hc⟩
    · exact ⟨fun _ => 0, fun h => absurd h hi⟩
  choose c hcs using hc
  have hcx : ∀ x, (Dihedral.grp (M * Q)).isEl x → ((Dihedral.irreps (M * Q)).map fun i => c i x).sum
      = if (Q : ℤ) ∣ x.2 - x.1 * axis then (Q : ℝ) else 0 := by
    intro x hx
    rw [← Dihedral.ax_contrib_sum hM0 hQ]
    congr 1
    refine List.map_congr_left fun i hi => ?_
    exact (hcs i hi).2 x (Dihedral.isEl_flip hx)
  have hlen : (Dihedral.elements (M * Q)).length = Q * (Dihedral.elements M).length := by
    rw [Dihedral.elements_length, Dihedral.elements_length]; ring
  obtain ⟨r, hr, -⟩ := quotient_success ok hρf.2.2.1 hρf.2.2.2.2 (irreps := Dihedral.irreps (M * Q))
    (fun i hi => by
      obtain ⟨j, k, hk⟩ := Dihedral.mem_irreps hi
      exact Dihedral.irrep_isOrthRep hN hk)
    (fun i hi g => by
      obtain ⟨j, k, hk⟩ := Dihedral.mem_irreps hi
      exact Dihedral.irrep_char hk g)
    (Dihedral.axMult (M * Q) M axis) c
    (fun i hi => by
      obtain ⟨j, k, hk⟩ := Dihedral.mem_irreps hi
      refine ⟨(Dihedral.irrep_mult hk).2, ?_⟩
      rw [hSels, hSpar]
      exact Dihedral.dih_mult hM0 hQ hk)
    (fun i hi => (hcs i hi).1)
    (by rw [Dihedral.ax_size_sum hM0 hQ, hSels, hlen])
    (fun x hx hex => by
      rw [hSpar] at hex
      rw [hcx x hx, if_pos ((Dihedral.dih_image ha hx).1 hex), hSels, hlen, Nat.cast_mul])
    (fun x hx hex => by
      rw [hSpar] at hex
      rw [hcx x hx, if_neg fun h => hex ((Dihedral.dih_image ha hx).2 h)])
  exact ⟨S, ρ, r, hS, hρ, hr, (induced_spec ok hr).quotient ok hρf.2.2.1 hρf.2.2.2.2⟩

/-- **C13, D_N by a reflection.** For every admissible id `(axis, 1)`. -/
theorem c13_dihedral_quotient_flip (N : ℕ) (hN : 0 < N) (axis : ℕ) (ha : axis < N) :
    ∃ S ρ r, Dihedral.subDataFlip N axis = some S ∧ Cyclic.irrep 2 0 = some ρ ∧
      Dihedral.inducedRepr N S ρ = some r ∧
      IsQuotientRep (Dihedral.grp N) (Cyclic.grp 2) S (cosetLoop (Dihedral.grp N) (Dihedral.elements N) S).reps r := by
  have hsub := Dihedral.sub_flip ha
  obtain ⟨S, hS, hSels, hSpar, hSres⟩ : ∃ S, Dihedral.subDataFlip N axis = some S ∧
      S.els = Cyclic.elements 2 ∧ S.parent = (fun e : ℤ => (e, (axis : ℤ) * e)) ∧
      S.restr = fun irr => Dihedral.restrictFlip N irr axis := by
    unfold Dihedral.subDataFlip
    rw [hsub]
    exact ⟨_, rfl, rfl, rfl, rfl⟩
  have ok := Dihedral.subData_ok_flip hN hS
  have hρ := Cyclic.trivial_irrep 2
  generalize hρ' : Irrep.mk _ _ _ _ _ _ = ρ at hρ
  have hρf : ρ.freq = 0 ∧ ρ.flip = 0 ∧ ρ.size = 1 ∧ ρ.socs = 1 ∧ ∀ h, ρ.mat h 0 0 = 1 := by
    rw [← hρ']; simp [m1]
  obtain ⟨ρ1, h1, -, -, hs1, hf1⟩ := (c04_cyclic_irreps 2 (by omega) 1).1 (by omega)
  have hc : ∀ i : Irrep (ℤ × ℤ), ∃ c : ℤ × ℤ → ℝ, i ∈ Dihedral.irreps N →
      VOk S ρ i (Dihedral.axMult N 1 axis i) c ∧
      ∀ x : ℤ × ℤ, (x.1 = 0 ∨ x.1 = 1) → c x = Dihedral.axContrib N 1 axis i x := by
    intro i
    by_cases hi : i ∈ Dihedral.irreps N
    · obtain ⟨j, k, h⟩ := Dihedral.mem_irreps hi
      have hf := Dihedral.irrep_freq h
      obtain ⟨c, hc⟩ := Dihedral.ax_vok (M := 1) (axis := axis) hN h S (ρ := ρ) hρf.2.2.1 hρf.2.2.2.1
        (by
          intro hd h2
          obtain ⟨t1, t2, t3, t4, t5, t6⟩ := Dihedral.two_dim h h2
          refine ⟨psi ((0.5 * axis) * 2 * π / N) k 0, [ρ, ρ1], ?_, ?_, MEq.refl _⟩
          · rw [hSres]
            simp only [Dihedral.restrictFlip, hsub, t2, t3, t4, if_false, hρ, h1, h2]
            simp
          · simp [posList, sameIrrep, hf1, hρf])
        (by
          intro hd h2 hz
          refine ⟨Mat.one, [ρ], ?_, ?_, MEq.refl _⟩
          · rw [hSres]
            unfold Dihedral.rflip at hz
            simp only [Dihedral.restrictFlip, hsub, hz, hρ, h2]
            simp
          · simp [posList, sameIrrep])
      exact ⟨c, fun _ => hc⟩
    · exact ⟨fun _ => 0, fun h => absurd h hi⟩
  choose c hcs using hc
  have hN1 : 1 * N = N := one_mul N
  have hcx : ∀ x, (Dihedral.grp N).isEl x → ((Dihedral.irreps N).map fun i => c i x).sum
      = if (N : ℤ) ∣ x.2 - x.1 * axis then (N : ℝ) else 0 := by
    intro x hx
    have := Dihedral.ax_contrib_sum (M := 1) (axis := axis) (by omega) hN x
    rw [hN1] at this
    rw [← this]
    congr 1
    refine List.map_congr_left fun i hi => ?_
    exact (hcs i hi).2 x (Dihedral.isEl_flip hx)
  have hlen2 : (Cyclic.elements 2).length = 2 := Cyclic.order_eq 2
  have hlen : (Dihedral.elements N).length = N * (Cyclic.elements 2).length := by
    rw [Dihedral.elements_length, hlen2]; ring
  have himg : ∀ x, (Dihedral.grp N).isEl x → ((∃ h, (Cyclic.grp 2).isEl h ∧ ((h, (axis : ℤ) * h) : ℤ × ℤ) = x) ↔
      (N : ℤ) ∣ x.2 - x.1 * axis) := by
    intro x hx
    have := Dihedral.dih_image (M := 1) (axis := axis) ha (x := x) (by rw [hN1]; exact hx)
    rw [← this]
    have hxf := Dihedral.isEl_flip hx
    constructor
    · rintro ⟨h, hh, rfl⟩
      refine ⟨(h, 0), (Dihedral.isElement_iff _ _).2 ⟨hxf, by simp, by simp⟩, by simp [_root_.mul_comm]⟩
    · rintro ⟨h, hh, rfl⟩
      have hh := (Dihedral.isElement_iff _ _).1 hh
      have h0 : h.2 = 0 := by have := hh.2; push_cast at this; omega
      refine ⟨h.1, (Cyclic.isElement_iff _ _).2 (by push_cast; have := hh.1; omega), by simp [h0, _root_.mul_comm]⟩
  obtain ⟨r, hr, -⟩ := quotient_success ok hρf.2.2.1 hρf.2.2.2.2 (irreps := Dihedral.irreps N)
    (fun i hi => by
      obtain ⟨j, k, hk⟩ := Dihedral.mem_irreps hi
      exact Dihedral.irrep_isOrthRep hN hk)
    (fun i hi g => by
      obtain ⟨j, k, hk⟩ := Dihedral.mem_irreps hi
      exact Dihedral.irrep_char hk g)
    (Dihedral.axMult N 1 axis) c
    (fun i hi => by
      obtain ⟨j, k, hk⟩ := Dihedral.mem_irreps hi
      refine ⟨(Dihedral.irrep_mult hk).2, ?_⟩
      rw [hSels, hSpar]
      have := Dihedral.dih_mult (M := 1) (Q := N) (axis := axis) (by omega) hN (by rw [hN1]; exact hk)
      rw [hN1] at this
      simp only [Dihedral.elements, Cyclic.elements, List.range_succ, List.range_zero] at this ⊢
      simp at this ⊢
      rw [← this])
    (fun i hi => (hcs i hi).1)
    (by
      have := Dihedral.ax_size_sum (M := 1) (axis := axis) (by omega) hN
      rw [hN1] at this
      rw [this, hSels, hlen])
    (fun x hx hex => by
      rw [hSpar] at hex
      rw [hcx x hx, if_pos ((himg x hx).1 hex), hSels, hlen, Nat.cast_mul])
    (fun x hx hex => by
      rw [hSpar] at hex
      rw [hcx x hx, if_neg fun h => hex ((himg x hx).2 h)])
  exact ⟨S, ρ, r, hS, hρ, hr, (induced_spec ok hr).quotient ok hρf.2.2.1 hρf.2.2.2.2⟩

namespace Dihedral

/-- Multiplicity of an irrep in the quotient by the rotations of order `M`. -/
def cycMult (M : ℕ) (i : Irrep (ℤ × ℤ)) : ℕ := if M ∣ i.freq then i.size else 0

noncomputable def cycContrib (M : ℕ) (i : Irrep (ℤ × ℤ)) (x : ℤ × ℤ) : ℝ :=
  if M ∣ i.freq then i.size * Mat.trace i.size (i.mat x) else 0

theorem irrep_socs {N j k : ℕ} {i : Irrep (ℤ × ℤ)} (h : irrep N j k = some i) : i.socs = 1 := by
  unfold irrep at h
  split_ifs at h <;> cases h <;> rfl

theorem size_one {N j k : ℕ} {i : Irrep (ℤ × ℤ)} (h : irrep N j k = some i) (h2 : ¬ i.size = 2) : i.size = 1 := by
  have := irrep_size h
  rw [this] at h2 ⊢; split_ifs at * <;> omega

theorem trace_two {N k : ℕ} (z : ℤ) {s : ℤ} (hs : s = 0 ∨ s = 1) :
    Mat.trace 2 (psichi (z * (2 * π / N)) s k 0) = if s = 0 then 2 * cos (k * z * (2 * π / N)) else 0 := by
  rcases hs with rfl | rfl
  · simp only [Mat.trace, Finset.sum_range_succ, Finset.sum_range_zero, psichi_zero, psi, m2, add_zero, zero_add, if_true]
    rw [_root_.mul_assoc (k : ℝ)]; ring
  · simp [Mat.trace, Finset.sum_range_succ, psichi_one, m2]

/-- The trace of an irrep. -/
theorem trace_irrep {N j k : ℕ} (hN : 0 < N) {i : Irrep (ℤ × ℤ)} (h : irrep N j k = some i) (x : ℤ × ℤ)
    (hx : x.1 = 0 ∨ x.1 = 1) : Mat.trace i.size (i.mat x)
      = (if x.1 = 0 then (i.size : ℝ) else if i.size = 2 then 0 else if j = 0 then 1 else -1) * cos (k * x.2 * (2 * π / N)) := by
  by_cases h2 : i.size = 2
  · obtain ⟨t1, t2, t3, t4, t5, t6⟩ := two_dim h h2
    rw [t6, h2]
    simp only []
    rw [trace_two _ hx]
    split_ifs <;> simp
  · have hf := irrep_freq h
    have hj : j = 0 ∨ j = 1 := by
      have := (irrep_isSome N j k).1 (by rw [h]; rfl)
      tauto
    have hr : rflip N 0 i = j := by
      unfold rflip
      rw [hf.1, hf.2]
      split_ifs <;> omega
    rw [if_neg h2, size_one h h2, Mat.trace, Finset.sum_range_one, one_dim_val (axis := 0) hN h h2 x hx, hr, hf.1]
    simp only [Nat.cast_zero, mul_zero, sub_zero]
    rcases hx with hx | hx <;> rcases hj with hj | hj <;> simp [hx, hj]

theorem cyc_contrib_sum {M Q : ℕ} (hM : 0 < M) (hQ : 0 < Q) (x : ℤ × ℤ) (hx : x.1 = 0 ∨ x.1 = 1) :
    ((irreps (M * Q)).map fun i => cycContrib M i x).sum
      = if x.1 = 0 ∧ (Q : ℤ) ∣ x.2 then 2 * (Q : ℝ) else 0 := by
  have hN : 0 < M * Q := Nat.mul_pos hM hQ
  rw [sum_irreps _ hN]
  have key : ∀ k ∈ range (M * Q / 2 + 1), ((irrep (M * Q) 1 k).elim 0 (fun i => cycContrib M i x) +
      if k = 0 ∨ (M * Q % 2 = 0 ∧ k = M * Q / 2) then (irrep (M * Q) 0 k).elim 0 (fun i => cycContrib M i x) else 0)
      = if x.1 = 0 then 2 * (freqWeight (M * Q) k * (if M ∣ k then cos (k * x.2 * (2 * π / (M * Q : ℕ))) else 0)) else 0 := by
    intro k hk
    have hk : k ≤ M * Q / 2 := by have := mem_range.1 hk; omega
    obtain ⟨i1, h1⟩ := Option.isSome_iff_exists.1 ((irrep_isSome (M * Q) 1 k).2 ⟨hk, Or.inr rfl⟩)
    obtain ⟨hs1, hf1, hl1, hz1⟩ := irrep_one_size h1
    rw [h1]
    simp only [Option.elim_some, cycContrib, hf1]
    by_cases hd : M ∣ k
    · rw [if_pos hd, trace_irrep hN h1 x hx, if_pos hd]
      by_cases hsp : k = 0 ∨ (M * Q % 2 = 0 ∧ k = M * Q / 2)
      · obtain ⟨i0, h0⟩ := Option.isSome_iff_exists.1 ((irrep_isSome (M * Q) 0 k).2 ⟨hk, Or.inl ⟨rfl, by omega⟩⟩)
        have hs0 := irrep_size h0
        rw [if_pos (by omega)] at hs0
        have hs1' : i1.size = 1 := by have := irrep_size h1; rw [if_pos (by omega)] at this; exact this
        have hw : freqWeight (M * Q) k = 1 := if_pos hsp
        rw [if_pos hsp, h0, hw]
        simp only [Option.elim_some, (irrep_freq h0).1]
        rw [if_pos hd, trace_irrep hN h0 x hx, hs0, hs1']
        rcases hx with hx | hx
        · simp only [hx, if_true]; push_cast; ring
        · simp [hx]
      · rw [if_neg hsp, ← hs1, hz1.2 hsp]
        rcases hx with hx | hx
        · simp only [hx, if_true]; push_cast; ring
        · simp [hx]
    · rw [if_neg hd, if_neg hd]
      have : (irrep (M * Q) 0 k).elim 0 (fun i => if M ∣ i.freq then (i.size : ℝ) * Mat.trace i.size (i.mat x) else 0) = 0 := by
        cases h0 : irrep (M * Q) 0 k with
        | none => rfl
        | some i0 =>
          rw [Option.elim_some, (irrep_freq h0).1, if_neg hd]
      rw [this]
      simp
  rw [Finset.sum_congr rfl key]
  rcases hx with hx | hx
  · simp only [hx, if_true, true_and]
    rw [← Finset.mul_sum, sum_weight_dvd M Q hM hQ]
    split_ifs <;> simp
  · simp [hx]

theorem cyc_size_sum {M Q : ℕ} (hM : 0 < M) (hQ : 0 < Q) :
    ((irreps (M * Q)).map fun i => cycMult M i * i.size).sum = 2 * Q := by
  have h := cyc_contrib_sum hM hQ (0, 0) (Or.inl rfl)
  rw [if_pos (by simp)] at h
  have h2 : (((irreps (M * Q)).map fun i => cycMult M i * i.size).sum : ℕ) = (2 * Q : ℝ) := by
    rw [← h, ← Nat.coe_castAddMonoidHom, map_list_sum, List.map_map]
    congr 1
    refine List.map_congr_left fun i hi => ?_
    obtain ⟨j, k, hk⟩ := mem_irreps hi
    simp only [Function.comp, Nat.coe_castAddMonoidHom, cycMult, cycContrib]
    rw [trace_irrep (Nat.mul_pos hM hQ) hk _ (Or.inl rfl)]
    simp only [if_true]
    split_ifs <;> simp
  exact_mod_cast h2

theorem cyc_mult {M Q j k : ℕ} (hM : 0 < M) (hQ : 0 < Q) {i : Irrep (ℤ × ℤ)} (h : irrep (M * Q) j k = some i) :
    ((Cyclic.elements M).map fun y : ℤ => Mat.trace i.size (i.mat (0, y * (Q : ℤ)))).sum
      = cycMult M i * i.socs * (Cyclic.elements M).length := by
  have hN : 0 < M * Q := Nat.mul_pos hM hQ
  have hM' : (M : ℝ) ≠ 0 := by positivity
  have hQ' : (Q : ℝ) ≠ 0 := by positivity
  have hlen : (Cyclic.elements M).length = M := Cyclic.order_eq M
  rw [hlen, Cyclic.elements, List.map_map, sum_map_range]
  have : ∀ y ∈ range M, ((fun y : ℤ => Mat.trace i.size (i.mat (0, y * (Q : ℤ)))) ∘ fun n : ℕ => (n : ℤ)) y
      = i.size * cos (y * (k : ℤ) * (2 * π / M)) := by
    intro y _
    simp only [Function.comp]
    rw [trace_irrep hN h _ (Or.inl rfl)]
    simp only [if_true]
    congr 2
    push_cast; field_simp
  rw [Finset.sum_congr rfl this, ← Finset.mul_sum, sum_cos_int M hM, irrep_socs h, cycMult, (irrep_freq h).1]
  simp only [Int.natCast_dvd_natCast]
  split_ifs <;> simp

theorem cyc_vok {M Q j k : ℕ} (hM : 0 < M) {i : Irrep (ℤ × ℤ)} (h : irrep (M * Q) j k = some i)
    (S : SubData (ℤ × ℤ) ℤ) (hS : S.restr = fun irr => restrictCyc (M * Q) irr M) {ρ : Irrep ℤ} (hρ : Cyclic.irrep M 0 = some ρ) :
    VOk S ρ i (cycMult M i) (cycContrib M i) := by
  have hr : M ∣ i.freq → S.restr i = some (Mat.one, if 1 < i.size then [ρ, ρ] else [ρ]) := by
    intro hd
    rw [hS]
    simp only [restrictCyc, sub_cyc hM, Nat.mod_eq_zero_of_dvd hd, Cyclic.reduceFreq]
    rw [if_neg (by omega)]
    simp only [hρ]
    rw [Cyclic.trivial_irrep] at hρ
    cases hρ
    rfl
  rw [Cyclic.trivial_irrep] at hρ
  cases hρ
  have hso := irrep_socs h
  constructor
  · unfold cycMult; split_ifs <;> omega
  · intro hm x
    have hsz := irrep_size h
    rw [cycContrib, if_neg]
    intro hd
    rw [cycMult, if_pos hd] at hm
    rw [hm] at hsz
    split_ifs at hsz
  · intro hm
    have hd : M ∣ i.freq := by
      by_contra hn
      rw [cycMult, if_neg hn] at hm
      exact absurd hm (by omega)
    refine ⟨_, _, hr hd, ?_⟩
    simp only [cycMult, cycContrib, if_pos hd]
    by_cases h2 : i.size = 2
    · have hs2 : Real.sqrt 2 * Real.sqrt 2 = 2 := Real.mul_self_sqrt (by norm_num)
      simp [h2, hso, posList, sameIrrep, vBlock, setRows, commutingMat, quad, mulVec, Mat.mul, Mat.one,
        Finset.sum_range_succ, List.range_succ, Mat.trace]
      intro x y
      linear_combination (i.mat (x, y) 0 0 + i.mat (x, y) 1 1) * hs2
    · have h1 := size_one h h2
      simp [h1, hso, posList, sameIrrep, vBlock, setRows, commutingMat, quad, mulVec, Mat.mul, Mat.one, Mat.trace]

end Dihedral

/-- **C13, D_N by C_M.** For every admissible id `(None, M)`. -/
theorem c13_dihedral_quotient_cyclic (N : ℕ) (hN : 0 < N) (M : ℕ) (hM : 0 < M) (hd : M ∣ N) :
    ∃ S ρ r, Dihedral.subDataCyc N M = some S ∧ Cyclic.irrep M 0 = some ρ ∧
      Dihedral.inducedRepr N S ρ = some r ∧
      IsQuotientRep (Dihedral.grp N) (Cyclic.grp M) S (cosetLoop (Dihedral.grp N) (Dihedral.elements N) S).reps r := by
  obtain ⟨Q, rfl⟩ := hd
  have hQ : 0 < Q := Nat.pos_of_mul_pos_left hN
  have hsub := Dihedral.sub_cyc (M := M) (Q := Q) hM
  obtain ⟨S, hS, hSels, hSpar, hSres⟩ : ∃ S, Dihedral.subDataCyc (M * Q) M = some S ∧
      S.els = Cyclic.elements M ∧ S.parent = (fun e : ℤ => ((0 : ℤ), e * ((Q : ℕ) : ℤ))) ∧
      S.restr = fun irr => Dihedral.restrictCyc (M * Q) irr M := by
    unfold Dihedral.subDataCyc
    rw [hsub]
    exact ⟨_, rfl, rfl, rfl, rfl⟩
  have ok := Dihedral.subData_ok_cyc hN hS
  have hρ := Cyclic.trivial_irrep M
  generalize hρ' : Irrep.mk _ _ _ _ _ _ = ρ at hρ
  have hρf : ρ.size = 1 ∧ ∀ h, ρ.mat h 0 0 = 1 := by
    rw [← hρ']; simp [m1]
  have hlen : (Dihedral.elements (M * Q)).length = 2 * Q * (Cyclic.elements M).length := by
    rw [Dihedral.elements_length, show (Cyclic.elements M).length = M from Cyclic.order_eq M]; ring
  have hQz : (0 : ℤ) < Q := by exact_mod_cast hQ
  have himg : ∀ x, (Dihedral.grp (M * Q)).isEl x → ((∃ h, (Cyclic.grp M).isEl h ∧ (((0 : ℤ), h * (Q : ℤ)) : ℤ × ℤ) = x) ↔
      x.1 = 0 ∧ (Q : ℤ) ∣ x.2) := by
    intro x hx
    have hx := (Dihedral.isElement_iff _ x).1 hx
    constructor
    · rintro ⟨h, -, rfl⟩; exact ⟨rfl, Dvd.intro_left _ rfl⟩
    · rintro ⟨h0, y, hy⟩
      refine ⟨y, (Cyclic.isElement_iff _ y).2 ?_, Prod.ext h0.symm (by rw [hy, _root_.mul_comm])⟩
      have h2 := hx.2
      rw [hy] at h2
      push_cast at h2
      constructor
      · exact nonneg_of_mul_nonneg_right h2.1 hQz
      · have := h2.2
        rw [_root_.mul_comm] at this
        exact lt_of_mul_lt_mul_right this hQz.le
  obtain ⟨r, hr, -⟩ := quotient_success ok hρf.1 hρf.2 (irreps := Dihedral.irreps (M * Q))
    (fun i hi => by
      obtain ⟨j, k, hk⟩ := Dihedral.mem_irreps hi
      exact Dihedral.irrep_isOrthRep hN hk)
    (fun i hi g => by
      obtain ⟨j, k, hk⟩ := Dihedral.mem_irreps hi
      exact Dihedral.irrep_char hk g)
    (Dihedral.cycMult M) (Dihedral.cycContrib M)
    (fun i hi => by
      obtain ⟨j, k, hk⟩ := Dihedral.mem_irreps hi
      refine ⟨(Dihedral.irrep_mult hk).2, ?_⟩
      rw [hSels, hSpar]
      exact Dihedral.cyc_mult hM hQ hk)
    (fun i hi => by
      obtain ⟨j, k, hk⟩ := Dihedral.mem_irreps hi
      exact Dihedral.cyc_vok hM hk S hSres hρ)
    (by rw [Dihedral.cyc_size_sum hM hQ, hSels, hlen])
    (fun x hx hex => by
      rw [hSpar] at hex
      rw [Dihedral.cyc_contrib_sum hM hQ x (Dihedral.isEl_flip hx), if_pos ((himg x hx).1 hex), hSels, hlen]
      push_cast; ring)
    (fun x hx hex => by
      rw [hSpar] at hex
      rw [Dihedral.cyc_contrib_sum hM hQ x (Dihedral.isEl_flip hx), if_neg fun h => hex ((himg x hx).2 h)])
  exact ⟨S, ρ, r, hS, hρ, hr, (induced_spec ok hr).quotient ok hρf.1 hρf.2⟩

/-- **C13, induction from any irrep of `C_M` to `C_N`.** Whenever the call returns, the result is the induced representation. -/
theorem c13_cyclic_induced (N : ℕ) (hN : 0 < N) (M k : ℕ) (S : SubData ℤ ℤ) (ρ : Irrep ℤ) (r : Repr ℤ)
    (hS : Cyclic.subData N M = some S) (hρ : Cyclic.irrep M k = some ρ) (hr : Cyclic.inducedRepr N M k = some r) :
    IsInducedRep (Cyclic.grp N) (Cyclic.grp M) S ρ (cosetLoop (Cyclic.grp N) (Cyclic.elements N) S).reps r := by
  unfold Cyclic.inducedRepr at hr
  rw [hS, hρ] at hr
  exact induced_spec (Cyclic.subData_ok hN hS) hr

/-- **C13, induction to `D_N`** from the rotations, a reflection, or a dihedral subgroup, and any representation of it. -/
theorem c13_dihedral_induced (N : ℕ) (hN : 0 < N) (M axis : ℕ) (r : Repr (ℤ × ℤ)) :
    (∀ S (ρ : Irrep ℤ), Dihedral.subDataCyc N M = some S → Dihedral.inducedRepr N S ρ = some r →
      IsInducedRep (Dihedral.grp N) (Cyclic.grp M) S ρ (cosetLoop (Dihedral.grp N) (Dihedral.elements N) S).reps r) ∧
    (∀ S (ρ : Irrep ℤ), Dihedral.subDataFlip N axis = some S → Dihedral.inducedRepr N S ρ = some r →
      IsInducedRep (Dihedral.grp N) (Cyclic.grp 2) S ρ (cosetLoop (Dihedral.grp N) (Dihedral.elements N) S).reps r) ∧
    (∀ S (ρ : Irrep (ℤ × ℤ)), Dihedral.subDataDih N axis M = some S → Dihedral.inducedRepr N S ρ = some r →
      IsInducedRep (Dihedral.grp N) (Dihedral.grp M) S ρ (cosetLoop (Dihedral.grp N) (Dihedral.elements N) S).reps r) :=
  ⟨fun _ _ hS hr => induced_spec (Dihedral.subData_ok_cyc hN hS) hr,
    fun _ _ hS hr => induced_spec (Dihedral.subData_ok_flip hN hS) hr,
    fun _ _ hS hr => induced_spec (Dihedral.subData_ok_dih hN hS) hr⟩

/-- The quotients of `D_6` by `D_3` with the reflection of axis 1, by one reflection, and by its rotations of order 3. -/
example : (∃ S ρ r, Dihedral.subDataDih 6 1 3 = some S ∧ Dihedral.irrep 3 0 0 = some ρ ∧ Dihedral.inducedRepr 6 S ρ = some r) ∧
    (∃ S ρ r, Dihedral.subDataFlip 6 5 = some S ∧ Cyclic.irrep 2 0 = some ρ ∧ Dihedral.inducedRepr 6 S ρ = some r) ∧
    (∃ S ρ r, Dihedral.subDataCyc 6 3 = some S ∧ Cyclic.irrep 3 0 = some ρ ∧ Dihedral.inducedRepr 6 S ρ = some r) := by
  refine ⟨?_, ?_, ?_⟩
  · obtain ⟨S, ρ, r, h1, h2, h3, -⟩ := c13_dihedral_quotient_dihedral 6 (by norm_num) 3 1 (by norm_num) (by norm_num) (by norm_num)
    exact ⟨S, ρ, r, h1, h2, h3⟩
  · obtain ⟨S, ρ, r, h1, h2, h3, -⟩ := c13_dihedral_quotient_flip 6 (by norm_num) 5 (by norm_num)
    exact ⟨S, ρ, r, h1, h2, h3⟩
  · obtain ⟨S, ρ, r, h1, h2, h3, -⟩ := c13_dihedral_quotient_cyclic 6 (by norm_num) 3 (by norm_num) (by norm_num)
    exact ⟨S, ρ, r, h1, h2, h3⟩

end E2
