import Verif.Lemmas.Irreducible
import Verif.Props.Irreps

/-!
# C57: the irreps are irreducible and pairwise inequivalent, with the right commutant
-/

namespace E2

open Mat Real

/-! ## Auxiliary facts on angles -/

theorem cos_two_pi_div_ne {N k l : ℕ} (hN : 0 < N) (hk : 2 * k ≤ N) (hl : 2 * l ≤ N) (h : k ≠ l) :
    2 * cos (k * (2 * π / N)) ≠ 2 * cos (l * (2 * π / N)) := by
  intro e
  have e' : cos (k * (2 * π / N)) = cos (l * (2 * π / N)) := by linarith
  have hN' : (0 : ℝ) < N := by exact_mod_cast hN
  have key : ∀ m : ℕ, 2 * m ≤ N → (m : ℝ) * (2 * π / N) ∈ Set.Icc 0 π := by
    intro m hm
    have hm' : (2 : ℝ) * m ≤ N := by exact_mod_cast hm
    constructor
    · positivity
    · rw [← mul_div_assoc, div_le_iff₀ hN']
      nlinarith [pi_pos]
  have := injOn_cos (key k hk) (key l hl) e'
  have h0 : (2 * π / N : ℝ) ≠ 0 := by positivity
  exact h (by exact_mod_cast mul_right_cancel₀ h0 this)

theorem sin_two_pi_div_ne {N k : ℕ} (h0 : 0 < k) (hk : 2 * k < N) : sin (k * (2 * π / N)) ≠ 0 := by
  have hN' : (0 : ℝ) < N := by exact_mod_cast (by omega : 0 < N)
  have hk' : (2 : ℝ) * k < N := by exact_mod_cast hk
  have h0' : (0 : ℝ) < k := by exact_mod_cast h0
  apply ne_of_gt
  apply sin_pos_of_pos_of_lt_pi
  · positivity
  · rw [← mul_div_assoc, div_lt_iff₀ hN']
    nlinarith [pi_pos]

theorem cos_back {N : ℕ} (hN : 0 < N) (k : ℕ) : cos (k * (((N : ℝ) - 1) * (2 * π / N))) = cos (k * (2 * π / N)) := by
  have hN' : (N : ℝ) ≠ 0 := by exact_mod_cast hN.ne'
  have : (k : ℝ) * (((N : ℝ) - 1) * (2 * π / N)) = -(k * (2 * π / N)) + (k : ℤ) * (2 * π) := by
    field_simp
    push_cast
    ring
  rw [this, cos_add_int, cos_neg]

theorem sin_back {N : ℕ} (hN : 0 < N) (k : ℕ) : sin (k * (((N : ℝ) - 1) * (2 * π / N))) = -sin (k * (2 * π / N)) := by
  have hN' : (N : ℝ) ≠ 0 := by exact_mod_cast hN.ne'
  have : (k : ℝ) * (((N : ℝ) - 1) * (2 * π / N)) = -(k * (2 * π / N)) + (k : ℤ) * (2 * π) := by
    field_simp
    push_cast
    ring
  rw [this, sin_add_int, sin_neg]

theorem MEq_smul_one_one {A : Mat} {a : ℝ} (h : A 0 0 = a) : MEq 1 1 A (fun i j => a * Mat.one i j) :=
  MEq_m1 (by simp [Mat.one, h])

theorem MEq_smul_one_two {A : Mat} {a : ℝ} (h00 : A 0 0 = a) (h01 : A 0 1 = 0) (h10 : A 1 0 = 0) (h11 : A 1 1 = a) :
    MEq 2 2 A (fun i j => a * Mat.one i j) :=
  MEq_m2 (by simp [Mat.one, h00]) (by simp [Mat.one, h01]) (by simp [Mat.one, h10]) (by simp [Mat.one, h11])

namespace Cyclic

theorem isEl_one {N : ℕ} (h : 1 < N) : (grp N).isEl 1 ∧ (grp N).isEl ((N : ℤ) - 1) := by
  simp only [grp, isElement, order_eq, Bool.and_eq_true, decide_eq_true_eq]
  omega

/-- The sum of the matrices of the generator and its inverse. -/
theorem irrep_sum {N k : ℕ} (hN : 0 < N) {r : Irrep ℤ} (h : irrep N k = some r) :
    MEq r.size r.size (fun i j => r.mat 1 i j + r.mat ((N : ℤ) - 1) i j) (fun i j => 2 * cos (k * (2 * π / N)) * Mat.one i j) := by
  have hb := cos_back hN k
  have hb' := sin_back hN k
  unfold irrep at h
  rw [order_eq] at h
  split_ifs at h with h1 h2 h3
  · cases h
    refine MEq_smul_one_one ?_
    simp [m1, h2]
    norm_num
  · cases h
    refine MEq_smul_one_one ?_
    simp only [m1, and_self, if_true]
    push_cast
    rw [mul_one, _root_.mul_assoc, hb]
    ring
  · cases h
    refine MEq_smul_one_two ?_ ?_ ?_ ?_ <;> simp only [psi, m2] <;> push_cast <;> rw [add_zero, add_zero, one_mul]
    · rw [hb]; ring
    · rw [hb']; ring
    · rw [hb']; ring
    · rw [hb]; ring

end Cyclic

/-- **C57, C_N.** Every irrep of `C_N` is irreducible, the dimension of its commutant is `sum_of_squares_constituents`, and irreps of
different frequencies are inequivalent. -/
theorem c57_cyclic (N : ℕ) (hN : 0 < N) (k : ℕ) (r : Irrep ℤ) (h : Cyclic.irrep N k = some r) :
    IsIrreducible (Cyclic.grp N) r ∧ Module.finrank ℝ (intertwiners (Cyclic.grp N) r r) = r.socs ∧
      ∀ l s, Cyclic.irrep N l = some s → l ≠ k → Inequivalent (Cyclic.grp N) r s := by
  have hbound : ∀ {m : ℕ} {q : Irrep ℤ}, Cyclic.irrep N m = some q → 2 * m ≤ N := by
    intro m q hq
    by_contra hc
    rw [(c04_cyclic_irreps N hN m).2 (by omega)] at hq
    cases hq
  have hk := hbound h
  refine ⟨?_, ?_, ?_⟩
  · by_cases h1 : k = 0 ∨ 2 * k = N
    · exact irreducible_one (by rw [Cyclic.irrep_size h, if_pos h1])
    · have hs := sin_two_pi_div_ne (N := N) (k := k) (by omega) (by omega)
      refine irreducible_two (by rw [Cyclic.irrep_size h, if_neg h1]) (Cyclic.isEl_one (by omega)).1 hs (c := cos (k * (2 * π / N))) ?_
      unfold Cyclic.irrep at h
      rw [Cyclic.order_eq] at h
      rw [if_neg (by omega), if_neg (by omega), if_neg (by omega)] at h
      cases h
      simp [psi]
  · by_cases h1 : k = 0 ∨ 2 * k = N
    · rw [commutant_one (by rw [Cyclic.irrep_size h, if_pos h1])]
      unfold Cyclic.irrep at h
      rw [Cyclic.order_eq] at h
      split_ifs at h with h2 h3 h4
      · cases h; rfl
      · cases h; rfl
      · omega
    · have hs := sin_two_pi_div_ne (N := N) (k := k) (by omega) (by omega)
      unfold Cyclic.irrep at h
      rw [Cyclic.order_eq] at h
      rw [if_neg (by omega), if_neg (by omega), if_neg (by omega)] at h
      cases h
      refine commutant_rot rfl (fun g _ => ⟨_, _, rfl⟩) (Cyclic.isEl_one (by omega)).1 hs (c := cos (k * (2 * π / N))) ?_
      simp [psi]
  · intro l s hs hlk
    have hl := hbound hs
    have hel := Cyclic.isEl_one (N := N) (by omega)
    exact ⟨intertwiners_bot hel.1 hel.2 (cos_two_pi_div_ne hN hk hl hlk.symm) (Cyclic.irrep_sum hN h) (Cyclic.irrep_sum hN hs),
      intertwiners_bot hel.1 hel.2 (cos_two_pi_div_ne hN hl hk hlk) (Cyclic.irrep_sum hN hs) (Cyclic.irrep_sum hN h)⟩

namespace Dihedral

theorem isEl_one {N : ℕ} (h : 1 < N) : (grp N).isEl (0, 1) ∧ (grp N).isEl (0, (N : ℤ) - 1) := by
  simp only [grp, isElement, Bool.and_eq_true, Bool.or_eq_true, decide_eq_true_eq]
  refine ⟨⟨Or.inl trivial, ?_⟩, ⟨Or.inl trivial, ?_⟩⟩ <;> constructor <;> omega

theorem isEl_refl {N : ℕ} (h : 0 < N) : (grp N).isEl (1, 0) := by
  simp only [grp, isElement, Bool.and_eq_true, Bool.or_eq_true, decide_eq_true_eq]
  refine ⟨Or.inr trivial, ?_⟩
  constructor <;> omega

theorem irrep_sum {N j k : ℕ} (hN : 0 < N) {r : Irrep (ℤ × ℤ)} (h : irrep N j k = some r) :
    MEq r.size r.size (fun i j => r.mat (0, 1) i j + r.mat (0, (N : ℤ) - 1) i j) (fun i j => 2 * cos (k * (2 * π / N)) * Mat.one i j) := by
  have hb := cos_back hN k
  have hb' := sin_back hN k
  unfold irrep at h
  split_ifs at h with h1 h2 h3 h4 h5 h6 h7
  · cases h
    refine MEq_smul_one_one ?_
    simp [m1, h4]
    norm_num
  · cases h
    refine MEq_smul_one_one ?_
    simp only [m1, and_self, if_true]
    push_cast
    rw [mul_one, _root_.mul_assoc, hb]
    ring
  · cases h
    refine MEq_smul_one_one ?_
    simp [m1, h6]
    norm_num
  · cases h
    refine MEq_smul_one_one ?_
    simp only [m1, and_self, if_true]
    push_cast
    rw [_root_.mul_assoc (k : ℝ) ((N : ℝ) - 1), hb]
    simp
    ring
  · cases h
    refine MEq_smul_one_two ?_ ?_ ?_ ?_ <;> simp only [psichi_zero, psi, m2] <;> push_cast <;> rw [add_zero, add_zero, one_mul]
    · rw [hb]; ring
    · rw [hb']; ring
    · rw [hb']; ring
    · rw [hb]; ring

/-- Twice the matrix of the reflection, for the irreps of size one. -/
theorem irrep_refl {N j k : ℕ} {r : Irrep (ℤ × ℤ)} (h : irrep N j k = some r) (hk : k = 0 ∨ 2 * k = N) :
    MEq r.size r.size (fun i j => r.mat (1, 0) i j + r.mat (1, 0) i j) (fun i j' => (if j = 0 then 2 else -2) * Mat.one i j') := by
  unfold irrep at h
  split_ifs at h with h1 h2 h3 h4 h5 h6 h7
  · cases h
    refine MEq_smul_one_one ?_
    simp [m1, h3]; norm_num
  · cases h
    refine MEq_smul_one_one ?_
    simp [m1, h3]; norm_num
  · cases h
    refine MEq_smul_one_one ?_
    simp [m1, h3]; norm_num
  · cases h
    refine MEq_smul_one_one ?_
    simp [m1, h3]; norm_num
  · omega

end Dihedral

/-- **C57, D_N.** Every irrep of `D_N` is irreducible, the dimension of its commutant is `sum_of_squares_constituents`, and irreps with
different indices are inequivalent. -/
theorem c57_dihedral (N : ℕ) (hN : 0 < N) (j k : ℕ) (r : Irrep (ℤ × ℤ)) (h : Dihedral.irrep N j k = some r) :
    IsIrreducible (Dihedral.grp N) r ∧ Module.finrank ℝ (intertwiners (Dihedral.grp N) r r) = r.socs ∧
      ∀ i l s, Dihedral.irrep N i l = some s → (i, l) ≠ (j, k) → Inequivalent (Dihedral.grp N) r s := by
  have hbound : ∀ {i m : ℕ} {q : Irrep (ℤ × ℤ)}, Dihedral.irrep N i m = some q →
      m ≤ N / 2 ∧ ((i = 0 ∧ (m = 0 ∨ 2 * m = N)) ∨ i = 1) := by
    intro i m q hq
    exact (Dihedral.irrep_isSome N i m).1 (by rw [hq]; rfl)
  have hk := hbound h
  refine ⟨?_, ?_, ?_⟩
  · by_cases h1 : k = 0 ∨ 2 * k = N
    · exact irreducible_one (by rw [Dihedral.irrep_size h, if_pos h1])
    · have hs := sin_two_pi_div_ne (N := N) (k := k) (by omega) (by omega)
      refine irreducible_two (by rw [Dihedral.irrep_size h, if_neg h1]) (Dihedral.isEl_one (by omega)).1 hs (c := cos (k * (2 * π / N))) ?_
      unfold Dihedral.irrep at h
      rw [if_neg (by omega), if_neg (by omega), if_neg (by omega), if_neg (by omega), if_neg (by omega)] at h
      cases h
      simp [psichi_zero, psi]
  · by_cases h1 : k = 0 ∨ 2 * k = N
    · rw [commutant_one (by rw [Dihedral.irrep_size h, if_pos h1])]
      unfold Dihedral.irrep at h
      split_ifs at h with h2 h3 h4 h5 h6 h7 h8
      · cases h; rfl
      · cases h; rfl
      · cases h; rfl
      · cases h; rfl
      · omega
    · have hs := sin_two_pi_div_ne (N := N) (k := k) (by omega) (by omega)
      unfold Dihedral.irrep at h
      rw [if_neg (by omega), if_neg (by omega), if_neg (by omega), if_neg (by omega), if_neg (by omega)] at h
      cases h
      refine commutant_refl rfl (Dihedral.isEl_one (by omega)).1 hs (c := cos (k * (2 * π / N))) ?_ (Dihedral.isEl_refl hN) ?_
      · simp [psichi_zero, psi]
      · simp [psichi_one]
  · intro i l s hs hlk
    have hl := hbound hs
    by_cases hkl : l = k
    · subst hkl
      have hij : i ≠ j := fun h => hlk (by rw [h])
      have hsize : l = 0 ∨ 2 * l = N := by omega
      have hrefl := Dihedral.isEl_refl hN
      have hne : (if j = 0 then (2 : ℝ) else -2) ≠ (if i = 0 then 2 else -2) := by
        split_ifs with a b b
        · omega
        · norm_num
        · norm_num
        · omega
      exact ⟨intertwiners_bot hrefl hrefl hne (Dihedral.irrep_refl h hsize) (Dihedral.irrep_refl hs hsize),
        intertwiners_bot hrefl hrefl hne.symm (Dihedral.irrep_refl hs hsize) (Dihedral.irrep_refl h hsize)⟩
    · have hel := Dihedral.isEl_one (N := N) (by omega)
      exact ⟨intertwiners_bot hel.1 hel.2 (cos_two_pi_div_ne hN (by omega) (by omega) (Ne.symm hkl)) (Dihedral.irrep_sum hN h)
          (Dihedral.irrep_sum hN hs),
        intertwiners_bot hel.1 hel.2 (cos_two_pi_div_ne hN (by omega) (by omega) hkl) (Dihedral.irrep_sum hN hs) (Dihedral.irrep_sum hN h)⟩

/-! ## The continuous groups -/

/-- An angle at which two frequencies differ. -/
theorem exists_angle {k l : ℕ} (h : k ≠ l) : ∃ θ : ℝ, 2 * cos (k * θ) ≠ 2 * cos (l * θ) := by
  have hpos : 0 < 2 * (k + l) := by omega
  refine ⟨2 * π / (2 * (k + l) : ℕ), ?_⟩
  exact cos_two_pi_div_ne hpos (by omega) (by omega) h

theorem exists_sin {k : ℕ} (h : 0 < k) : ∃ θ : ℝ, sin (k * θ) ≠ 0 := by
  refine ⟨2 * π / (3 * k : ℕ), ?_⟩
  exact sin_two_pi_div_ne h (by omega)

theorem so2_sum (k : ℕ) (θ : ℝ) : MEq (SO2.irrep k).size (SO2.irrep k).size
    (fun i j => (SO2.irrep k).mat θ i j + (SO2.irrep k).mat (-θ) i j) (fun i j => 2 * cos (k * θ) * Mat.one i j) := by
  unfold SO2.irrep
  split_ifs with h
  · refine MEq_smul_one_one ?_
    simp [m1, h]; norm_num
  · refine MEq_smul_one_two ?_ ?_ ?_ ?_ <;> simp only [psi, m2] <;> rw [add_zero, add_zero, mul_neg]
    · rw [cos_neg]; ring
    · rw [sin_neg]; ring
    · rw [sin_neg]; ring
    · rw [cos_neg]; ring

/-- **C57, SO(2).** -/
theorem c57_so2 (k : ℕ) :
    IsIrreducible SO2.grp (SO2.irrep k) ∧ Module.finrank ℝ (intertwiners SO2.grp (SO2.irrep k) (SO2.irrep k)) = (SO2.irrep k).socs ∧
      ∀ l, l ≠ k → Inequivalent SO2.grp (SO2.irrep k) (SO2.irrep l) := by
  refine ⟨?_, ?_, ?_⟩
  · by_cases h : k = 0
    · exact irreducible_one (by simp [SO2.irrep, h])
    · obtain ⟨θ, hθ⟩ := exists_sin (Nat.pos_of_ne_zero h)
      refine irreducible_two (g := θ) (by simp [SO2.irrep, h]) trivial hθ (c := cos (k * θ)) ?_
      simp [SO2.irrep, h, psi]
  · by_cases h : k = 0
    · rw [commutant_one (by simp [SO2.irrep, h])]
      simp [SO2.irrep, h]
    · obtain ⟨θ, hθ⟩ := exists_sin (Nat.pos_of_ne_zero h)
      rw [commutant_rot (g := θ) (by simp [SO2.irrep, h]) (fun g _ => ⟨cos (k * g), sin (k * g), by simp [SO2.irrep, h, psi]⟩) trivial hθ
        (c := cos (k * θ)) (by simp [SO2.irrep, h, psi])]
      simp [SO2.irrep, h]
  · intro l hl
    obtain ⟨θ, hθ⟩ := exists_angle hl
    exact ⟨intertwiners_bot (g := θ) (g' := -θ) trivial trivial hθ.symm (so2_sum k θ) (so2_sum l θ),
      intertwiners_bot (g := θ) (g' := -θ) trivial trivial hθ (so2_sum l θ) (so2_sum k θ)⟩

theorem o2_sum {j k : ℕ} {r : Irrep (ℤ × ℝ)} (h : O2.irrep j k = some r) (θ : ℝ) :
    MEq r.size r.size (fun i j => r.mat (0, θ) i j + r.mat (0, -θ) i j) (fun i j => 2 * cos (k * θ) * Mat.one i j) := by
  unfold O2.irrep at h
  split_ifs at h with h1 h2 h3 h4
  · cases h
    refine MEq_smul_one_one ?_
    simp [m1, h3]; norm_num
  · cases h
    refine MEq_smul_one_one ?_
    simp [m1, h4]; norm_num
  · cases h
    refine MEq_smul_one_two ?_ ?_ ?_ ?_ <;> simp only [psichi_zero, psi, m2] <;> rw [add_zero, add_zero, mul_neg]
    · rw [cos_neg]; ring
    · rw [sin_neg]; ring
    · rw [sin_neg]; ring
    · rw [cos_neg]; ring

theorem o2_refl {j : ℕ} {r : Irrep (ℤ × ℝ)} (h : O2.irrep j 0 = some r) :
    MEq r.size r.size (fun i j => r.mat (1, 0) i j + r.mat (1, 0) i j) (fun i j' => (if j = 0 then 2 else -2) * Mat.one i j') := by
  unfold O2.irrep at h
  split_ifs at h with h1 h2 h3 h4
  · cases h
    refine MEq_smul_one_one ?_
    simp [m1, h2]; norm_num
  · cases h
    refine MEq_smul_one_one ?_
    simp [m1, h2]; norm_num
  · exact absurd rfl h4

/-- **C57, O(2).** -/
theorem c57_o2 (j k : ℕ) (r : Irrep (ℤ × ℝ)) (h : O2.irrep j k = some r) :
    IsIrreducible O2.grp r ∧ Module.finrank ℝ (intertwiners O2.grp r r) = r.socs ∧
      ∀ i l s, O2.irrep i l = some s → (i, l) ≠ (j, k) → Inequivalent O2.grp r s := by
  have hbound : ∀ {i m : ℕ} {q : Irrep (ℤ × ℝ)}, O2.irrep i m = some q → (i = 0 ∧ m = 0) ∨ i = 1 := by
    intro i m q hq
    exact (c05_o2_irreps i m).1.1 (by rw [hq]; rfl)
  have hk := hbound h
  have hsize := ((c05_o2_irreps j k).2 r h).2.2.1
  refine ⟨?_, ?_, ?_⟩
  · by_cases h1 : k = 0
    · exact irreducible_one (by rw [hsize, if_pos h1])
    · obtain ⟨θ, hθ⟩ := exists_sin (Nat.pos_of_ne_zero h1)
      refine irreducible_two (g := (0, θ)) (by rw [hsize, if_neg h1]) (Or.inl rfl) hθ (c := cos (k * θ)) ?_
      unfold O2.irrep at h
      rw [if_neg (by omega), if_neg (by omega), if_neg (by omega)] at h
      cases h
      simp [psichi_zero, psi]
  · by_cases h1 : k = 0
    · rw [commutant_one (by rw [hsize, if_pos h1])]
      unfold O2.irrep at h
      split_ifs at h with h2 h3
      · cases h; rfl
      · cases h; rfl
    · obtain ⟨θ, hθ⟩ := exists_sin (Nat.pos_of_ne_zero h1)
      unfold O2.irrep at h
      rw [if_neg (by omega), if_neg (by omega), if_neg (by omega)] at h
      cases h
      refine commutant_refl (g := (0, θ)) (f := (1, 0)) rfl (Or.inl rfl) hθ (c := cos (k * θ)) ?_ (Or.inr rfl) ?_
      · simp [psichi_zero, psi]
      · simp [psichi_one]
  · intro i l s hs hlk
    have hl := hbound hs
    by_cases hkl : l = k
    · subst hkl
      have hij : i ≠ j := fun h => hlk (by rw [h])
      obtain rfl : l = 0 := by omega
      have hrefl : O2.grp.isEl (1, 0) := Or.inr rfl
      have hne : (if j = 0 then (2 : ℝ) else -2) ≠ (if i = 0 then 2 else -2) := by
        split_ifs with a b b
        · omega
        · norm_num
        · norm_num
        · omega
      exact ⟨intertwiners_bot hrefl hrefl hne (o2_refl h) (o2_refl hs), intertwiners_bot hrefl hrefl hne.symm (o2_refl hs) (o2_refl h)⟩
    · obtain ⟨θ, hθ⟩ := exists_angle hkl
      have a1 : O2.grp.isEl (0, θ) := Or.inl rfl
      have a2 : O2.grp.isEl (0, -θ) := Or.inl rfl
      exact ⟨intertwiners_bot a1 a2 hθ.symm (o2_sum h θ) (o2_sum hs θ), intertwiners_bot a1 a2 hθ (o2_sum hs θ) (o2_sum h θ)⟩

/-- The theorems are about existing irreps of both sizes: in `D_4` the irreps `(1, 1)` of size 2 and `(1, 2)` of size 1, and in `C_5` the
irrep 2 with a commutant of dimension two. -/
example : (∃ r, Dihedral.irrep 4 1 1 = some r ∧ r.size = 2 ∧ r.socs = 1) ∧ (∃ r, Dihedral.irrep 4 1 2 = some r ∧ r.size = 1) ∧
    ∃ r, Cyclic.irrep 5 2 = some r ∧ r.size = 2 ∧ r.socs = 2 := by
  refine ⟨⟨_, by rw [Dihedral.irrep]; simp; rfl, rfl, rfl⟩, ⟨_, by rw [Dihedral.irrep]; simp; rfl, rfl⟩,
    ⟨_, by rw [Cyclic.irrep]; simp [Cyclic.order_eq]; rfl, rfl, rfl⟩⟩

end E2
