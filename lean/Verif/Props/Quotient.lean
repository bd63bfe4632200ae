import Verif.Lemmas.Quotient
import Verif.Props.Regular
import Verif.Props.Subgroups

/-!
# C13: quotient and induced representations
-/

namespace E2

open Finset Mat Real

theorem sum_dvd (M Q : ℕ) (hM : 0 < M) (c : ℕ → ℝ) :
    ∑ k ∈ range (M * Q), (if M ∣ k then c k else 0) = ∑ j ∈ range Q, c (M * j) := by
  induction Q with
  | zero => simp
  | succ Q ih =>
    rw [Nat.mul_succ, Finset.sum_range_add, ih, Finset.sum_range_succ]
    congr 1
    obtain ⟨p, rfl⟩ : ∃ p, M = p + 1 := ⟨M - 1, by omega⟩
    rw [Finset.sum_range_succ', Finset.sum_eq_zero, zero_add, add_zero, if_pos (Dvd.intro _ rfl)]
    intro k hk
    rw [if_neg]
    intro h
    have h2 := (Nat.dvd_add_right (Dvd.intro Q rfl)).1 h
    have := Nat.le_of_dvd (by omega) h2
    have := mem_range.1 hk
    omega

/-- The weighted sum over the frequencies divisible by `M`. -/
theorem sum_weight_dvd (M Q : ℕ) (hM : 0 < M) (hQ : 0 < Q) (x : ℤ) :
    ∑ k ∈ range (M * Q / 2 + 1), freqWeight (M * Q) k * (if M ∣ k then cos (k * x * (2 * π / (M * Q : ℕ))) else 0)
      = if (Q : ℤ) ∣ x then (Q : ℝ) else 0 := by
  have hN : 0 < M * Q := Nat.mul_pos hM hQ
  rw [sum_fold (M * Q) hN (fun k => if M ∣ k then cos (k * x * (2 * π / (M * Q : ℕ))) else 0), sum_dvd M Q hM,
    ← sum_cos_int Q hQ x]
  · refine Finset.sum_congr rfl fun j _ => ?_
    congr 1
    have : (M : ℝ) ≠ 0 := by positivity
    have : (Q : ℝ) ≠ 0 := by positivity
    push_cast
    field_simp
  · intro k h0 hk
    have hd : M ∣ M * Q - k ↔ M ∣ k := by
      constructor
      · intro h
        have := Nat.dvd_sub (Dvd.intro Q rfl) h
        rwa [Nat.sub_sub_self hk.le] at this
      · intro h; exact Nat.dvd_sub (Dvd.intro Q rfl) h
    simp only [hd]
    by_cases h : M ∣ k
    · rw [if_pos h, if_pos h, cos_fold _ hN x k hk]
    · rw [if_neg h, if_neg h]

namespace Cyclic

theorem subData_ok {N M : ℕ} (hN : 0 < N) {S : SubData ℤ ℤ} (h : subData N M = some S) :
    SubOk (grp N) (elements N) (grp M) S := by
  unfold subData at h
  cases hs : subgroup N M with
  | none => rw [hs] at h; cases h
  | some s =>
    rw [hs] at h
    cases h
    have hM := ((c06_cyclic_subgroup N hN M).1.1 (by rw [hs]; rfl)).1
    obtain ⟨ho, h1, h2⟩ := (c06_cyclic_subgroup N hN M).2 s hs
    rw [ho] at h1 h2
    exact ⟨lawful hN, elements_nodup N, fun e => (mem_elements N e).trans (isElement_iff N e).symm,
      lawful hM, elements_nodup M, fun e => (mem_elements M e).trans (isElement_iff M e).symm, h1, h2⟩

theorem trivial_irrep (M : ℕ) : irrep M 0 = some { size := 1, socs := 1, mat := fun _ => m1 1, freq := 0, flip := 0 } := by
  simp [irrep]

theorem quot_mult {M Q k : ℕ} (hM : 0 < M) (hQ : 0 < Q) {i : Irrep ℤ} (h : irrep (M * Q) k = some i) :
    0 < i.socs ∧ ((elements M).map fun y : ℤ => Mat.trace i.size (i.mat (y * (Q : ℤ)))).sum
      = (if M ∣ i.freq then 1 else 0 : ℕ) * i.socs * (elements M).length := by
  have key : ((elements M).map fun y : ℤ => cos (k * (y * (Q : ℤ) : ℤ) * (2 * π / (M * Q : ℕ)))).sum
      = (if M ∣ k then 1 else 0 : ℕ) * M := by
    rw [elements, List.map_map, sum_map_range]
    have := sum_cos_int M hM k
    rw [Finset.sum_congr rfl fun y _ => ?_] at this
    · rw [this]
      simp only [Int.natCast_dvd_natCast]
      split_ifs <;> simp
    · simp only [Function.comp]
      congr 1
      have : (M : ℝ) ≠ 0 := by positivity
      have : (Q : ℝ) ≠ 0 := by positivity
      push_cast
      field_simp
  have hlen : (elements M).length = M := order_eq M
  rw [hlen]
  unfold irrep at h
  rw [order_eq] at h
  split_ifs at h with h1 h2 h3
  · cases h
    refine ⟨by simp, ?_⟩
    simp [Mat.trace, m1, hlen, h2]
  · cases h
    refine ⟨by simp, ?_⟩
    simp only [Mat.trace, Finset.sum_range_one, m1, and_self, if_true]
    rw [key]; simp
  · cases h
    refine ⟨by simp, ?_⟩
    have : ∀ y : ℤ, Mat.trace 2 (psi ((y * (Q : ℤ) : ℤ) * (2 * π / (M * Q : ℕ))) k 0)
        = 2 * cos (k * (y * (Q : ℤ) : ℤ) * (2 * π / (M * Q : ℕ))) := by
      intro y
      simp only [Mat.trace, Finset.sum_range_succ, Finset.sum_range_zero, psi, m2, add_zero, zero_add]
      rw [_root_.mul_assoc (k : ℝ)]; ring
    simp only [this, List.sum_map_mul_left, key]
    push_cast
    ring

theorem quot_vok {M Q k : ℕ} (hM : 0 < M) (hQ : 0 < Q) {i : Irrep ℤ} (h : irrep (M * Q) k = some i)
    (S : SubData ℤ ℤ) (hS : S.restr = fun irr => restrictIrrep (M * Q) irr M) {ρ : Irrep ℤ} (hρ : irrep M 0 = some ρ) :
    VOk S ρ i (if M ∣ i.freq then 1 else 0)
      (fun x => if M ∣ i.freq then freqWeight (M * Q) i.freq * cos (i.freq * x * (2 * π / (M * Q : ℕ))) else 0) := by
  have hN : 0 < M * Q := Nat.mul_pos hM hQ
  rw [trivial_irrep] at hρ
  cases hρ
  have hsub : ∃ s, subgroup (M * Q) M = some s := by
    rw [← Option.isSome_iff_exists, (c06_cyclic_subgroup _ hN M).1]
    exact ⟨hM, Dvd.intro _ rfl⟩
  obtain ⟨s, hs⟩ := hsub
  have hr : M ∣ i.freq → S.restr i = some (Mat.one, if 1 < i.size then
      [⟨1, 1, fun _ => m1 1, 0, 0, none⟩, ⟨1, 1, fun _ => m1 1, 0, 0, none⟩] else [⟨1, 1, fun _ => m1 1, 0, 0, none⟩]) := by
    intro hd
    rw [hS]
    simp only [restrictIrrep, hs, Nat.mod_eq_zero_of_dvd hd, reduceFreq]
    rw [if_neg (by omega)]
    simp only [trivial_irrep]
  constructor
  · have := irrep_size h
    split_ifs at * <;> omega
  · intro hm x
    have : ¬ M ∣ i.freq := by
      intro h; rw [if_pos h] at hm; cases hm
    rw [if_neg this]
  · intro hm
    have hd : M ∣ i.freq := by
      by_contra h
      rw [if_neg h] at hm
      exact absurd hm (by omega)
    refine ⟨_, _, hr hd, ?_⟩
    rw [if_pos hd]
    unfold irrep at h
    rw [order_eq] at h
    split_ifs at h with h1 h2 h3
    · cases h
      simp [posList, sameIrrep, h2, freqWeight, vBlock, setRows, commutingMat, quad, mulVec, Mat.mul, Mat.one, m1]
    · cases h
      have hw : freqWeight (M * Q) k = 1 := if_pos (Or.inr h3)
      simp [posList, sameIrrep, hw, vBlock, setRows, commutingMat, quad, mulVec, Mat.mul, Mat.one, m1]
      intro _ h; exact absurd hd h
    · cases h
      have hw : freqWeight (M * Q) k = 2 := if_neg (by tauto)
      simp [posList, sameIrrep, hw, vBlock, setRows, commutingMat, quad, mulVec, Mat.mul, Mat.one, psi, m2,
        Finset.sum_range_succ, List.range_succ]
      intro x
      have hd' : M ∣ k := hd
      rw [if_pos hd', _root_.mul_assoc]; ring

theorem quot_sum {M Q : ℕ} (hM : 0 < M) (hQ : 0 < Q) (x : ℤ) :
    ((irreps (M * Q)).map fun i => if M ∣ i.freq then
      freqWeight (M * Q) i.freq * cos (i.freq * x * (2 * π / (M * Q : ℕ))) else 0).sum
      = if (Q : ℤ) ∣ x then (Q : ℝ) else 0 := by
  rw [← sum_weight_dvd M Q hM hQ x, irreps, sum_map_filterMap, sum_map_range, order_eq]
  refine Finset.sum_congr rfl fun k hk => ?_
  obtain ⟨r, hr, -, -, -, hf⟩ := (c04_cyclic_irreps (M * Q) (Nat.mul_pos hM hQ) k).1 (by have := mem_range.1 hk; omega)
  rw [hr]
  simp only [Option.elim_some, hf]
  split_ifs <;> simp

theorem quot_size {M Q : ℕ} (hM : 0 < M) (hQ : 0 < Q) :
    ((irreps (M * Q)).map fun i => (if M ∣ i.freq then 1 else 0) * i.size).sum = Q := by
  have h := quot_sum hM hQ 0
  rw [if_pos (dvd_zero _)] at h
  have h2 : (((irreps (M * Q)).map fun i => (if M ∣ i.freq then 1 else 0) * i.size).sum : ℕ) = (Q : ℝ) := by
    rw [← h, ← Nat.coe_castAddMonoidHom, map_list_sum, List.map_map]
    congr 1
    refine List.map_congr_left fun i hi => ?_
    obtain ⟨k, hk, hi⟩ := List.mem_filterMap.1 hi
    have h1 := irrep_size hi
    have hle : k ≤ M * Q / 2 := by rw [List.mem_range, order_eq] at hk; omega
    obtain ⟨r, hr, -, -, -, hf⟩ := (c04_cyclic_irreps (M * Q) (Nat.mul_pos hM hQ) k).1 hle
    rw [hi] at hr
    cases hr
    have hw : (i.size : ℝ) = freqWeight (M * Q) i.freq := by
      rw [h1, freqWeight, hf]
      by_cases h3 : k = 0 ∨ 2 * k = M * Q
      · rw [if_pos h3, if_pos (by omega)]; simp
      · rw [if_neg h3, if_neg (by omega)]; simp
    simp [hw]
  exact_mod_cast h2

end Cyclic

/-- **C13, C_N.** For every admissible subgroup `C_M` the construction succeeds, the representatives form a transversal of the
cosets, and `g` maps the axis of the coset `r H` to the axis of the coset `g r H`. -/
theorem c13_cyclic_quotient (N : ℕ) (hN : 0 < N) (M : ℕ) (hM : 0 < M) (hd : M ∣ N) :
    ∃ S r, Cyclic.subData N M = some S ∧ Cyclic.quotient N M = some r ∧ r.size = N / M ∧
      IsQuotientRep (Cyclic.grp N) (Cyclic.grp M) S (cosetLoop (Cyclic.grp N) (Cyclic.elements N) S).reps r := by
  obtain ⟨Q, rfl⟩ := hd
  have hQ : 0 < Q := Nat.pos_of_mul_pos_left hN
  have hsub : ∃ s, Cyclic.subgroup (M * Q) M = some s := by
    rw [← Option.isSome_iff_exists, (c06_cyclic_subgroup _ hN M).1]
    exact ⟨hM, Dvd.intro _ rfl⟩
  obtain ⟨s, hs⟩ := hsub
  have hS : Cyclic.subData (M * Q) M = some ⟨Cyclic.elements M, s.parent, s.child,
      fun irr => Cyclic.restrictIrrep (M * Q) irr M⟩ := by
    unfold Cyclic.subData; rw [hs]
  have hpar : s.parent = fun e => e * (Q : ℤ) := by
    unfold Cyclic.subgroup at hs
    rw [Cyclic.order_eq] at hs
    split_ifs at hs
    cases hs
    simp only [Nat.mul_div_cancel_left _ hM]
  have ok := Cyclic.subData_ok hN hS
  have hρ := Cyclic.trivial_irrep M
  have hlenM : (Cyclic.elements M).length = M := Cyclic.order_eq M
  have hlenN : (Cyclic.elements (M * Q)).length = M * Q := Cyclic.order_eq _
  have himg : ∀ x : ℤ, (Cyclic.grp (M * Q)).isEl x → ((∃ h, (Cyclic.grp M).isEl h ∧ s.parent h = x) ↔ (Q : ℤ) ∣ x) := by
    intro x hx
    have hx := (Cyclic.isElement_iff _ x).1 hx
    rw [hpar]
    constructor
    · rintro ⟨h, -, rfl⟩; exact Dvd.intro_left _ rfl
    · rintro ⟨y, rfl⟩
      refine ⟨y, (Cyclic.isElement_iff _ y).2 ?_, mul_comm _ _⟩
      have hQz : (0 : ℤ) < Q := by exact_mod_cast hQ
      push_cast at hx
      constructor
      · exact nonneg_of_mul_nonneg_right hx.1 hQz
      · have := hx.2
        rw [_root_.mul_comm] at this
        exact lt_of_mul_lt_mul_right this hQz.le
  obtain ⟨r, hr, -⟩ := quotient_success ok (ρ := { size := 1, socs := 1, mat := fun _ => m1 1, freq := 0, flip := 0 }) rfl
    (fun _ => by simp [m1]) (irreps := Cyclic.irreps (M * Q))
    (fun i hi => by
      obtain ⟨k, -, hk⟩ := List.mem_filterMap.1 hi
      exact Cyclic.irrep_isOrthRep hN hk)
    (fun i hi g => by
      obtain ⟨k, -, hk⟩ := List.mem_filterMap.1 hi
      exact Cyclic.irrep_char hk g)
    (fun i => if M ∣ i.freq then 1 else 0)
    (fun i x => if M ∣ i.freq then freqWeight (M * Q) i.freq * cos (i.freq * x * (2 * π / (M * Q : ℕ))) else 0)
    (fun i hi => by
      obtain ⟨k, -, hk⟩ := List.mem_filterMap.1 hi
      have := Cyclic.quot_mult hM hQ hk
      simp only [hpar]
      exact this)
    (fun i hi => by
      obtain ⟨k, -, hk⟩ := List.mem_filterMap.1 hi
      exact Cyclic.quot_vok hM hQ hk _ rfl hρ)
    (by rw [Cyclic.quot_size hM hQ, hlenM, hlenN, _root_.mul_comm])
    (fun x hx hex => by
      rw [Cyclic.quot_sum hM hQ x, if_pos ((himg x hx).1 hex), hlenM, hlenN, Nat.cast_mul, _root_.mul_comm])
    (fun x hx hex => by
      rw [Cyclic.quot_sum hM hQ x, if_neg fun h => hex ((himg x hx).2 h)])
  have hres : Cyclic.quotient (M * Q) M = some r := by
    unfold Cyclic.quotient
    rw [hS, hρ]
    exact hr
  have hspec := (induced_spec ok hr).quotient ok rfl (fun _ => by simp [m1])
  refine ⟨_, r, hS, hres, ?_, hspec⟩
  rw [hspec.size]
  have := cosetLoop_card ok
  rw [hlenN] at this
  simp only [hlenM] at this
  rw [Nat.mul_div_cancel_left _ hM]
  exact Nat.eq_of_mul_eq_mul_right hM (this.trans (_root_.mul_comm M Q))

/-- The quotient of `C_6` by `C_2`. -/
example : ∃ S r, Cyclic.subData 6 2 = some S ∧ Cyclic.quotient 6 2 = some r ∧ r.size = 3 := by
  obtain ⟨S, r, h1, h2, h3, -⟩ := c13_cyclic_quotient 6 (by norm_num) 2 (by norm_num) (by norm_num)
  exact ⟨S, r, h1, h2, h3⟩

end E2
