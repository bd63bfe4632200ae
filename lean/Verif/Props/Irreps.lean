import Verif.Lemmas.Psi

/-!
# C04, C05: the irreps are orthogonal representations
-/

namespace E2

open Finset Mat Real

namespace Cyclic

/-- Every irrep of `C_N` is an orthogonal representation. -/
theorem irrep_isOrthRep {N k : ℕ} (hN : 0 < N) {r : Irrep ℤ} (h : irrep N k = some r) :
    IsOrthRep (grp N) r.size r.mat := by
  unfold irrep at h
  rw [order_eq] at h
  split_ifs at h with h1 h2 h3
  · cases h
    exact ⟨⟨m1_one, fun a b _ _ => by rw [m1_mul, one_mul]; exact MEq.refl _⟩,
      fun a _ => by rw [m1_tr]; exact MEq.refl _⟩
  · cases h
    have key : ∀ a : ℤ, ((k : ℝ) * ((a % (N : ℤ) : ℤ) : ℝ) * (2 * π / N)).cos
        = ((k : ℝ) * a * (2 * π / N)).cos := by
      intro a
      obtain ⟨n, hn⟩ := emod_angle N hN k a
      push_cast at hn
      rw [_root_.mul_assoc, _root_.mul_assoc, hn, cos_add_int]
    refine ⟨⟨?_, ?_⟩, ?_⟩
    · refine MEq_m1 ?_; simp [m1, grp, identity, Mat.one]
    · intro a b _ _
      simp only [m1_mul, grp, combine, order_eq]
      rw [key, cos_half h3.1 h3.2 hN, cos_half h3.1 h3.2 hN, cos_half h3.1 h3.2 hN,
        neg_one_pow_natAbs_add]
      exact MEq.refl _
    · intro a _
      simp only [m1_tr, grp, inverse, order_eq]
      rw [key]; push_cast
      rw [mul_neg, neg_mul, cos_neg]
      exact MEq.refl _
  · cases h
    refine ⟨⟨?_, ?_⟩, ?_⟩
    · have := psi_one k
      simpa [grp, identity] using this
    · intro a b _ _
      simp only [grp, combine, order_eq]
      rw [psi_mul]
      obtain ⟨n, hn⟩ := emod_angle N hN k (a + b)
      refine MEq.of_eq (psi_congr n ?_)
      push_cast at hn
      rw [add_zero, add_zero, hn]; ring
    · intro a _
      simp only [grp, inverse, order_eq]
      rw [psi_tr]
      obtain ⟨n, hn⟩ := emod_angle N hN k (-a)
      refine MEq.of_eq (psi_congr n ?_)
      push_cast at hn
      rw [add_zero, add_zero, hn]; ring


theorem irrep_size {N k : ℕ} {r : Irrep ℤ} (h : irrep N k = some r) :
    r.size = if k = 0 ∨ 2 * k = N then 1 else 2 := by
  unfold irrep at h
  rw [order_eq] at h
  split_ifs at h with h1 h2 h3
  · cases h; simp [h2]
  · cases h; have : 2 * k = N := by omega
    simp [this]
  · cases h; have : ¬ 2 * k = N := by omega
    simp [this, h2]

theorem irrep_char {N k : ℕ} {r : Irrep ℤ} (h : irrep N k = some r) (g : ℤ) :
    r.character g = Mat.trace r.size (r.mat g) := by
  unfold irrep at h
  split_ifs at h <;> cases h <;> rfl

end Cyclic

/-- **C04.** For every `N ≥ 1`: `irrep(k)` is accepted exactly for `0 ≤ k ≤ N//2`; then it is an
orthogonal representation (identity to identity matrix, `combine` to the product, `inverse` to the
transpose), its character is the trace, and it has size 1 exactly for `k = 0` and `k = N/2`. -/
theorem c04_cyclic_irreps (N : ℕ) (hN : 0 < N) (k : ℕ) :
    (k ≤ N / 2 → ∃ r, Cyclic.irrep N k = some r ∧
      IsOrthRep (Cyclic.grp N) r.size r.mat ∧
      (∀ g, r.character g = Mat.trace r.size (r.mat g)) ∧
      r.size = (if k = 0 ∨ 2 * k = N then 1 else 2) ∧ r.freq = k) ∧
    (¬ k ≤ N / 2 → Cyclic.irrep N k = none) := by
  constructor
  · intro hk
    have : ∃ r, Cyclic.irrep N k = some r ∧ r.freq = k := by
      unfold Cyclic.irrep
      rw [Cyclic.order_eq, if_neg (not_not.2 hk)]
      split_ifs <;> exact ⟨_, rfl, rfl⟩
    obtain ⟨r, hr, hf⟩ := this
    exact ⟨r, hr, Cyclic.irrep_isOrthRep hN hr, Cyclic.irrep_char hr, Cyclic.irrep_size hr, hf⟩
  · intro hk
    unfold Cyclic.irrep
    rw [Cyclic.order_eq, if_pos hk]

/-- `irrep(1)` of `C_4` is the 2-dimensional rotation representation, and it is not constant. -/
example : ∃ r, Cyclic.irrep 4 1 = some r ∧ r.size = 2 ∧ r.mat 1 0 0 = 0 ∧ r.mat 1 1 0 = 1 := by
  refine ⟨_, by rw [Cyclic.irrep, Cyclic.order_eq]; norm_num; rfl, rfl, ?_, ?_⟩
  · simp only [psi, m2]
    rw [show (1 : ℝ) * (((1 : ℤ) : ℝ) * (2 * π / 4)) + 0 = π / 2 by push_cast; ring]
    exact cos_pi_div_two
  · simp only [psi, m2]
    rw [show (1 : ℝ) * (((1 : ℤ) : ℝ) * (2 * π / 4)) + 0 = π / 2 by push_cast; ring]
    exact sin_pi_div_two

namespace Dihedral

theorem isEl_flip {N : ℕ} {e : ℤ × ℤ} (h : (grp N).isEl e) : e.1 = 0 ∨ e.1 = 1 := by
  simp only [grp, isElement, Bool.and_eq_true, Bool.or_eq_true, decide_eq_true_eq] at h
  exact h.1

/-- The sign of a flip bit is multiplicative. -/
theorem sign_mul {s s' : ℤ} (hs : s = 0 ∨ s = 1) (hs' : s' = 0 ∨ s' = 1) :
    (if (s + s') % 2 ≠ 0 then (-1 : ℝ) else 1)
      = (if s ≠ 0 then -1 else 1) * (if s' ≠ 0 then -1 else 1) := by
  rcases hs with rfl | rfl <;> rcases hs' with rfl | rfl <;> norm_num

theorem key_half {N k : ℕ} (hN : 0 < N) (a : ℤ) :
    ((k : ℝ) * ((a % (N : ℤ) : ℤ) : ℝ) * (2 * π / N)).cos = ((k : ℝ) * a * (2 * π / N)).cos := by
  obtain ⟨n, hn⟩ := emod_angle N hN k a
  push_cast at hn
  rw [_root_.mul_assoc, _root_.mul_assoc, hn, cos_add_int]

theorem half_mul {N k : ℕ} (hN : 0 < N) (h2 : N % 2 = 0) (hk : k = N / 2) {s : ℤ} (hs : s = 0 ∨ s = 1) (a b : ℤ) :
    ((k : ℝ) * ((((a + (if s ≠ 0 then -1 else 1) * b) % (N : ℤ) : ℤ)) : ℝ) * (2 * π / N)).cos
      = ((k : ℝ) * a * (2 * π / N)).cos * ((k : ℝ) * b * (2 * π / N)).cos := by
  rw [key_half hN, cos_half h2 hk hN, cos_half h2 hk hN, cos_half h2 hk hN, neg_one_pow_natAbs_add]
  rcases hs with rfl | rfl
  · simp
  · simp

theorem half_inv {N k : ℕ} (hN : 0 < N) {s : ℤ} (hs : s = 0 ∨ s = 1) (a : ℤ) :
    ((k : ℝ) * (((-a * (if s ≠ 0 then -1 else 1)) % (N : ℤ) : ℤ) : ℝ) * (2 * π / N)).cos
      = ((k : ℝ) * a * (2 * π / N)).cos := by
  rw [key_half hN]
  rcases hs with rfl | rfl
  · simp
  · simp

/-- Every irrep of `D_N` is an orthogonal representation. -/
theorem irrep_isOrthRep {N j k : ℕ} (hN : 0 < N) {r : Irrep (ℤ × ℤ)} (h : irrep N j k = some r) :
    IsOrthRep (grp N) r.size r.mat := by
  unfold irrep at h
  split_ifs at h with h1 h2 h3 h4 h5 h6 h7
  · cases h
    exact ⟨⟨m1_one, fun a b _ _ => by rw [m1_mul, one_mul]; exact MEq.refl _⟩,
      fun a _ => by rw [m1_tr]; exact MEq.refl _⟩
  · cases h
    refine ⟨⟨?_, ?_⟩, ?_⟩
    · refine MEq_m1 ?_; simp [m1, grp, identity, Mat.one]
    · intro a b ha _
      simp only [m1_mul, grp, combine]
      rw [half_mul hN h5.1 h5.2 (isEl_flip ha)]
      exact MEq.refl _
    · intro a ha
      simp only [m1_tr, grp, inverse]
      rw [half_inv hN (isEl_flip ha)]
      exact MEq.refl _
  · cases h
    refine ⟨⟨?_, ?_⟩, ?_⟩
    · refine MEq_m1 ?_; simp [m1, grp, identity, Mat.one]
    · intro a b ha hb
      rw [m1_mul]
      exact MEq.of_eq (congrArg m1 (sign_mul (isEl_flip ha) (isEl_flip hb)))
    · intro a ha
      simp only [m1_tr, grp, inverse]
      exact MEq.refl _
  · cases h
    refine ⟨⟨?_, ?_⟩, ?_⟩
    · refine MEq_m1 ?_; simp [m1, grp, identity, Mat.one]
    · intro a b ha hb
      rw [m1_mul, mul_mul_mul_comm]
      exact MEq.of_eq (congrArg m1 (congrArg₂ (· * ·)
        (half_mul hN h7.1 h7.2 (isEl_flip ha) a.2 b.2) (sign_mul (isEl_flip ha) (isEl_flip hb))))
    · intro a ha
      simp only [m1_tr, grp, inverse]
      rw [half_inv hN (isEl_flip ha)]
      exact MEq.refl _
  · cases h
    refine ⟨⟨?_, ?_⟩, ?_⟩
    · have := psi_one k
      simpa [grp, identity, psichi_zero] using this
    · intro a b ha hb
      simp only [grp, combine]
      rw [psichi_mul _ _ _ (isEl_flip ha) (isEl_flip hb)]
      obtain ⟨n, hn⟩ := emod_angle N hN k (a.2 + (if a.1 ≠ 0 then -1 else 1) * b.2)
      refine MEq.of_eq (psichi_congr _ n ?_)
      push_cast at hn
      rw [add_zero, add_zero, hn]; ring
    · intro a ha
      simp only [grp, inverse]
      rw [psichi_tr _ _ (isEl_flip ha)]
      obtain ⟨n, hn⟩ := emod_angle N hN k (-a.2 * (if a.1 ≠ 0 then -1 else 1))
      refine MEq.of_eq (psichi_congr _ n ?_)
      push_cast at hn
      rw [add_zero, add_zero, hn]; ring

theorem irrep_char {N j k : ℕ} {r : Irrep (ℤ × ℤ)} (h : irrep N j k = some r) (g : ℤ × ℤ) :
    r.character g = Mat.trace r.size (r.mat g) := by
  unfold irrep at h
  split_ifs at h <;> cases h <;> simp [Irrep.character, Mat.trace, m1]

theorem irrep_size {N j k : ℕ} {r : Irrep (ℤ × ℤ)} (h : irrep N j k = some r) :
    r.size = if k = 0 ∨ 2 * k = N then 1 else 2 := by
  unfold irrep at h
  split_ifs at h with h1 h2 h3 h4 h5 h6 h7
  · cases h; simp [h4]
  · cases h; have : 2 * k = N := by omega
    simp [this]
  · cases h; simp [h6]
  · cases h; have : 2 * k = N := by omega
    simp [this]
  · cases h; have : ¬ 2 * k = N := by omega
    simp [this, h6]

theorem irrep_freq {N j k : ℕ} {r : Irrep (ℤ × ℤ)} (h : irrep N j k = some r) :
    r.freq = k ∧ r.flip = j := by
  unfold irrep at h
  split_ifs at h <;> cases h <;> simp

theorem irrep_isSome (N j k : ℕ) : (irrep N j k).isSome ↔
    k ≤ N / 2 ∧ ((j = 0 ∧ (k = 0 ∨ 2 * k = N)) ∨ j = 1) := by
  unfold irrep
  split_ifs with h1 h2 h3 h4 h5 h6 h7 <;> simp <;> omega

end Dihedral

/-- **C05, D_N.** `irrep(j, k)` is accepted exactly for `k ≤ N//2` and `j = 1`, or `j = 0` with
`k = 0` or `k = N/2`; it is an orthogonal representation, its character is the trace, its size is 1
for `k = 0`, `k = N/2` and 2 otherwise. -/
theorem c05_dihedral_irreps (N : ℕ) (hN : 0 < N) (j k : ℕ) :
    ((Dihedral.irrep N j k).isSome ↔ k ≤ N / 2 ∧ ((j = 0 ∧ (k = 0 ∨ 2 * k = N)) ∨ j = 1)) ∧
    ∀ r, Dihedral.irrep N j k = some r →
      IsOrthRep (Dihedral.grp N) r.size r.mat ∧
      (∀ g, r.character g = Mat.trace r.size (r.mat g)) ∧
      r.size = (if k = 0 ∨ 2 * k = N then 1 else 2) ∧ r.freq = k ∧ r.flip = j :=
  ⟨Dihedral.irrep_isSome N j k, fun _ hr => ⟨Dihedral.irrep_isOrthRep hN hr, Dihedral.irrep_char hr,
    Dihedral.irrep_size hr, Dihedral.irrep_freq hr⟩⟩

example : (Dihedral.irrep 4 0 1).isSome = false ∧ (Dihedral.irrep 4 0 2).isSome = true ∧
    (Dihedral.irrep 4 1 1).isSome = true := by
  refine ⟨by rw [Bool.eq_false_iff, ne_eq, Dihedral.irrep_isSome]; omega, ?_, ?_⟩
  · rw [Dihedral.irrep_isSome]; omega
  · rw [Dihedral.irrep_isSome]; omega

/-- Reducing an angle modulo `2π` shifts it by a multiple of `2π`. -/
theorem fmod_angle (k : ℤ) (x : ℝ) :
    ∃ n : ℤ, (k : ℝ) * fmod x (2 * π) = k * x + n * (2 * π) := by
  refine ⟨-k * ⌊x / (2 * π)⌋, ?_⟩
  rw [fmod]; push_cast; ring

/-- **C05, SO(2).** Every `irrep(k)` is an orthogonal representation whose explicit character is the
trace; moreover it gives the same matrix for angles that agree modulo `2π`. -/
theorem c05_so2_irreps (k : ℕ) :
    IsOrthRep SO2.grp (SO2.irrep k).size (SO2.irrep k).mat ∧
    (∀ g, (SO2.irrep k).character g = Mat.trace (SO2.irrep k).size ((SO2.irrep k).mat g)) ∧
    (SO2.irrep k).size = (if k = 0 then 1 else 2) ∧ (SO2.irrep k).freq = k ∧
    (∀ g g', SO2.equal g g' → (SO2.irrep k).mat g = (SO2.irrep k).mat g') := by
  unfold SO2.irrep
  split_ifs with h
  · refine ⟨⟨⟨m1_one, fun a b _ _ => by rw [m1_mul, one_mul]; exact MEq.refl _⟩,
      fun a _ => by rw [m1_tr]; exact MEq.refl _⟩, ?_, rfl, h.symm, fun _ _ _ => rfl⟩
    intro g; simp [Irrep.character, Mat.trace, m1]
  · refine ⟨⟨⟨psi_one k, ?_⟩, ?_⟩, ?_, rfl, rfl, ?_⟩
    · intro a b _ _
      simp only [SO2.grp, SO2.combine]
      rw [psi_mul]
      obtain ⟨n, hn⟩ := fmod_angle k (a + b)
      refine MEq.of_eq (psi_congr n ?_)
      push_cast at hn
      rw [add_zero, add_zero, hn]
    · intro a _
      simp only [SO2.grp, SO2.inverse]
      rw [psi_tr]
      obtain ⟨n, hn⟩ := fmod_angle k (-a)
      refine MEq.of_eq (psi_congr n ?_)
      push_cast at hn
      rw [add_zero, add_zero, hn]
    · intro g
      simp [Irrep.character, Mat.trace, psi, Finset.sum_range_succ, m2]
    · intro g g' hg
      rw [SO2.equal, cycleEq_iff _ _ two_pi_pos'] at hg
      obtain ⟨n, hn⟩ := hg
      refine psi_congr (k * n) ?_
      have : g = g' + n * (2 * π) := by linarith
      rw [this]; push_cast; ring

/-- **C05, O(2).** `irrep(j, k)` is accepted exactly for `j = 1`, and for `(0, 0)`; it is an orthogonal
representation whose explicit character is the trace. -/
theorem c05_o2_irreps (j k : ℕ) :
    ((O2.irrep j k).isSome ↔ (j = 0 ∧ k = 0) ∨ j = 1) ∧
    ∀ r, O2.irrep j k = some r →
      IsOrthRep O2.grp r.size r.mat ∧
      (∀ g, O2.grp.isEl g → r.character g = Mat.trace r.size (r.mat g)) ∧
      r.size = (if k = 0 then 1 else 2) ∧ r.freq = k ∧ r.flip = j ∧
      (∀ g g', O2.equal g g' → r.mat g = r.mat g') := by
  constructor
  · unfold O2.irrep
    split_ifs <;> simp <;> omega
  · intro r h
    unfold O2.irrep at h
    split_ifs at h with h1 h2 h3 h4
    · cases h
      refine ⟨⟨⟨m1_one, fun a b _ _ => by rw [m1_mul, one_mul]; exact MEq.refl _⟩,
        fun a _ => by rw [m1_tr]; exact MEq.refl _⟩, ?_, by simp [h3], rfl, rfl, fun _ _ _ => rfl⟩
      intro g _; simp [Irrep.character, Mat.trace, m1]
    · cases h
      refine ⟨⟨⟨?_, ?_⟩, ?_⟩, ?_, by simp [h4], rfl, rfl, ?_⟩
      · refine MEq_m1 ?_; simp [m1, O2.grp, Mat.one]
      · intro a b ha hb
        rw [m1_mul]
        exact MEq.of_eq (congrArg m1 (Dihedral.sign_mul ha hb))
      · intro a ha
        simp only [m1_tr, O2.grp, O2.inverse]
        exact MEq.refl _
      · intro g _; simp [Irrep.character, Mat.trace, m1]
      · intro g g' hg
        simp only [hg.1]
    · cases h
      refine ⟨⟨⟨?_, ?_⟩, ?_⟩, ?_, by simp [h4], rfl, rfl, ?_⟩
      · have := psi_one k
        simpa [O2.grp, psichi_zero] using this
      · intro a b ha hb
        simp only [O2.grp, O2.combine]
        rw [psichi_mul _ _ _ ha hb]
        exact MEq.refl _
      · intro a ha
        simp only [O2.grp, O2.inverse]
        rw [psichi_tr _ _ ha]
        exact MEq.refl _
      · intro g hg
        rcases hg with hg | hg
        · simp [Irrep.character, Mat.trace, psichi, Finset.sum_range_succ, m2, hg]; ring
        · simp [Irrep.character, Mat.trace, psichi, Finset.sum_range_succ, m2, hg]
      · intro g g' hg
        obtain ⟨h0, hg⟩ := hg
        rw [cycleEq_iff _ _ two_pi_pos'] at hg
        obtain ⟨n, hn⟩ := hg
        simp only [h0]
        refine psichi_congr _ (k * n) ?_
        have : g.2 = g'.2 + n * (2 * π) := by linarith
        rw [this]; push_cast; ring

example : (O2.irrep 0 3).isSome = false ∧ (O2.irrep 1 3).isSome = true := by
  refine ⟨by rw [Bool.eq_false_iff, ne_eq, (c05_o2_irreps 0 3).1]; omega, ?_⟩
  rw [(c05_o2_irreps 1 3).1]; omega

end E2
