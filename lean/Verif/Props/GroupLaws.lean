import Verif.Model.Continuous
import Verif.Props.Spec
import Mathlib.Tactic.IntervalCases

/-!
# C01, C02, C03: group laws
-/

namespace E2

open Finset Mat Real

namespace Cyclic

theorem order_eq (N : ℕ) : order N = N := by simp [order, elements]

theorem isElement_iff (N : ℕ) (e : ℤ) : isElement N e = true ↔ 0 ≤ e ∧ e < (N : ℤ) := by
  simp [isElement, order_eq]

theorem mem_elements (N : ℕ) (e : ℤ) : e ∈ elements N ↔ 0 ≤ e ∧ e < (N : ℤ) := by
  simp only [elements, List.mem_map, List.mem_range]
  constructor
  · rintro ⟨i, hi, rfl⟩; omega
  · rintro ⟨h0, h1⟩; exact ⟨e.toNat, by omega, by omega⟩

theorem lawful {N : ℕ} (hN : 0 < N) : (grp N).Lawful where
  one_mem := (isElement_iff _ _).2 ⟨le_refl _, Int.natCast_pos.2 hN⟩
  op_mem a b _ _ := by
    refine (isElement_iff _ _).2 ?_
    show 0 ≤ (a + b) % (order N : ℤ) ∧ (a + b) % (order N : ℤ) < N
    rw [order_eq]
    exact ⟨Int.emod_nonneg _ (by omega), Int.emod_lt_of_pos _ (by omega)⟩
  inv_mem a _ := by
    refine (isElement_iff _ _).2 ?_
    show 0 ≤ (-a) % (order N : ℤ) ∧ (-a) % (order N : ℤ) < N
    rw [order_eq]
    exact ⟨Int.emod_nonneg _ (by omega), Int.emod_lt_of_pos _ (by omega)⟩
  assoc a b c _ _ _ := by
    show ((a + b) % (order N : ℤ) + c) % (order N : ℤ) = (a + (b + c) % (order N : ℤ)) % (order N : ℤ)
    simp [add_assoc]
  one_op a ha := by
    have ha := (isElement_iff _ _).1 ha
    show ((0 : ℤ) + a) % (order N : ℤ) = a
    rw [order_eq, zero_add, Int.emod_eq_of_lt ha.1 ha.2]
  op_one a ha := by
    have ha := (isElement_iff _ _).1 ha
    show (a + (0 : ℤ)) % (order N : ℤ) = a
    rw [order_eq, add_zero, Int.emod_eq_of_lt ha.1 ha.2]
  inv_op a _ := by
    show ((-a) % (order N : ℤ) + a) % (order N : ℤ) = 0
    simp
  op_inv a _ := by
    show (a + (-a) % (order N : ℤ)) % (order N : ℤ) = 0
    simp

end Cyclic

/-- **C01** Group laws of `CyclicGroup(N)`, for every `N > 0`. -/
theorem c01_cyclic_group_laws (N : ℕ) (hN : 0 < N) :
    (Cyclic.grp N).Lawful ∧
    (∀ a b : ℤ, Cyclic.combine N a b = Cyclic.combine N b a) ∧
    (Cyclic.elements N).Nodup ∧ (Cyclic.elements N).length = N ∧ Cyclic.order N = N ∧
    (∀ e : ℤ, Cyclic.isElement N e = true ↔ e ∈ Cyclic.elements N) := by
  refine ⟨Cyclic.lawful hN, ?_, ?_, ?_, Cyclic.order_eq N, ?_⟩
  · intro a b; simp [Cyclic.combine, add_comm]
  · exact (List.nodup_range).map fun a b h => by simpa using h
  · simp [Cyclic.elements]
  · intro e; rw [Cyclic.isElement_iff, Cyclic.mem_elements]

/-- The hypothesis is met, and the group is not trivial: in `C_4`, `3 * 2 = 1` and `3⁻¹ = 1`. -/
example : (0 < 4) ∧ Cyclic.combine 4 3 2 = 1 ∧ Cyclic.inverse 4 3 = 1 := by decide

namespace Dihedral

theorem isElement_iff (N : ℕ) (e : ℤ × ℤ) :
    isElement N e = true ↔ (e.1 = 0 ∨ e.1 = 1) ∧ 0 ≤ e.2 ∧ e.2 < (N : ℤ) := by
  simp [isElement]

theorem mem_elements (N : ℕ) (e : ℤ × ℤ) :
    e ∈ elements N ↔ (e.1 = 0 ∨ e.1 = 1) ∧ 0 ≤ e.2 ∧ e.2 < (N : ℤ) := by
  obtain ⟨a, b⟩ := e
  simp only [elements, List.mem_append, List.mem_map, List.mem_range, Prod.mk.injEq]
  constructor
  · rintro (⟨i, hi, rfl, rfl⟩ | ⟨i, hi, rfl, rfl⟩) <;> constructor <;> omega
  · rintro ⟨h | h, h0, h1⟩
    · exact .inl ⟨b.toNat, by omega, by omega, by omega⟩
    · exact .inr ⟨b.toNat, by omega, by omega, by omega⟩

theorem emod_lin (x s y n : ℤ) : (x + s * (y % n)) % n = (x + s * y) % n := by
  rw [Int.emod_def y n, show x + s * (y - n * (y / n)) = x + s * y + n * (-s * (y / n)) by ring,
    Int.add_mul_emod_self_left]

theorem lawful {N : ℕ} (hN : 0 < N) : (grp N).Lawful where
  one_mem := (isElement_iff _ _).2 ⟨.inl rfl, le_refl _, Int.natCast_pos.2 hN⟩
  op_mem a b _ _ := by
    refine (isElement_iff _ _).2 ⟨?_, ?_, ?_⟩
    · show (a.1 + b.1) % 2 = 0 ∨ (a.1 + b.1) % 2 = 1; omega
    · exact Int.emod_nonneg _ (by omega)
    · exact Int.emod_lt_of_pos _ (by omega)
  inv_mem a ha := by
    have ha := (isElement_iff _ _).1 ha
    refine (isElement_iff _ _).2 ⟨ha.1, ?_, ?_⟩
    · exact Int.emod_nonneg _ (by omega)
    · exact Int.emod_lt_of_pos _ (by omega)
  assoc a b c ha hb hc := by
    have ha := (isElement_iff _ _).1 ha
    have hb := (isElement_iff _ _).1 hb
    have hc := (isElement_iff _ _).1 hc
    obtain ⟨a0, a1⟩ := a; obtain ⟨b0, b1⟩ := b; obtain ⟨c0, c1⟩ := c
    obtain ⟨ha, -⟩ := ha; obtain ⟨hb, -⟩ := hb; obtain ⟨hc, -⟩ := hc
    simp only at ha hb hc
    refine Prod.ext ?_ ?_
    · show ((a0 + b0) % 2 + c0) % 2 = (a0 + (b0 + c0) % 2) % 2
      omega
    · simp only [grp, combine]
      rw [emod_lin, Int.emod_add_emod]
      congr 1
      rcases ha with rfl | rfl <;> rcases hb with rfl | rfl <;> simp <;> ring
  one_op a ha := by
    have ha := (isElement_iff _ _).1 ha
    obtain ⟨a0, a1⟩ := a
    rcases ha with ⟨rfl | rfl, h0, h1⟩ <;>
      simp [grp, combine, identity] <;> exact Int.emod_eq_of_lt h0 h1
  op_one a ha := by
    have ha := (isElement_iff _ _).1 ha
    obtain ⟨a0, a1⟩ := a
    rcases ha with ⟨rfl | rfl, h0, h1⟩ <;>
      simp [grp, combine, identity] <;> exact Int.emod_eq_of_lt h0 h1
  inv_op a ha := by
    have ha := (isElement_iff _ _).1 ha
    obtain ⟨a0, a1⟩ := a
    rcases ha with ⟨rfl | rfl, h0, h1⟩
    · simp [grp, combine, inverse, identity]
    · simp [grp, combine, inverse, identity]
  op_inv a ha := by
    have ha := (isElement_iff _ _).1 ha
    obtain ⟨a0, a1⟩ := a
    rcases ha with ⟨rfl | rfl, h0, h1⟩
    · simp [grp, combine, inverse, identity]
    · have := emod_lin a1 (-1) a1 N
      simp only [grp, combine, inverse, identity]
      simp at this ⊢
      exact this

end Dihedral

/-- **C02** Group laws of `DihedralGroup(N)`, for every `N > 0`. -/
theorem c02_dihedral_group_laws (N : ℕ) (hN : 0 < N) :
    (Dihedral.grp N).Lawful ∧
    Dihedral.combine N Dihedral.reflection Dihedral.reflection = Dihedral.identity ∧
    (∀ k : ℤ, Dihedral.combine N (Dihedral.combine N Dihedral.reflection (0, k)) Dihedral.reflection
      = Dihedral.inverse N (0, k)) ∧
    (Dihedral.elements N).Nodup ∧ (Dihedral.elements N).length = 2 * N ∧
    (∀ e : ℤ × ℤ, Dihedral.isElement N e = true ↔ e ∈ Dihedral.elements N) := by
  refine ⟨Dihedral.lawful hN, ?_, ?_, ?_, ?_, ?_⟩
  · simp [Dihedral.combine, Dihedral.reflection, Dihedral.identity]
  · intro k; simp [Dihedral.combine, Dihedral.reflection, Dihedral.inverse]
  · rw [Dihedral.elements, List.nodup_append]
    refine ⟨(List.nodup_range).map fun a b h => by simpa using h,
      (List.nodup_range).map fun a b h => by simpa using h, ?_⟩
    intro a ha b hb
    simp only [List.mem_map] at ha hb
    obtain ⟨i, -, rfl⟩ := ha
    obtain ⟨j, -, rfl⟩ := hb
    simp
  · simp [Dihedral.elements]; omega
  · intro e; rw [Dihedral.isElement_iff, Dihedral.mem_elements]

/-- In `D_5`, `(f r^2) * r = f r` and `D_5` is not commutative. -/
example : (0 < 5) ∧ Dihedral.combine 5 (1, 2) (0, 1) = (1, 1) ∧
    Dihedral.combine 5 (0, 1) (1, 2) = (1, 3) := by decide

/-! ## Continuous groups -/

theorem fmod_eq_add (x S : ℝ) : ∃ n : ℤ, fmod x S = x + n * S :=
  ⟨-⌊x / S⌋, by simp [fmod]; ring⟩

theorem fmod_nonneg (x : ℝ) {S : ℝ} (hS : 0 < S) : 0 ≤ fmod x S := by
  have h := Int.floor_le (x / S)
  have : (⌊x / S⌋ : ℝ) * S ≤ x := by
    have := mul_le_mul_of_nonneg_right h hS.le
    rwa [div_mul_cancel₀ _ hS.ne'] at this
  unfold fmod; linarith [mul_comm S (⌊x / S⌋ : ℝ)]

theorem fmod_lt (x : ℝ) {S : ℝ} (hS : 0 < S) : fmod x S < S := by
  have h := Int.lt_floor_add_one (x / S)
  have : x < ((⌊x / S⌋ : ℝ) + 1) * S := by
    have := mul_lt_mul_of_pos_right h hS
    rwa [div_mul_cancel₀ _ hS.ne'] at this
  unfold fmod; linarith [mul_comm S (⌊x / S⌋ : ℝ)]

/-- `x % S` is the only number in `[0, S)` that differs from `x` by a multiple of `S`. -/
theorem fmod_unique {x y S : ℝ} (hS : 0 < S) (h0 : 0 ≤ y) (h1 : y < S) {n : ℤ}
    (h : y = x + n * S) : fmod x S = y := by
  obtain ⟨m, hm⟩ := fmod_eq_add x S
  have hd : fmod x S - y = ((m - n : ℤ) : ℝ) * S := by rw [hm, h]; push_cast; ring
  have a := fmod_nonneg x hS
  have b := fmod_lt x hS
  have hz : m - n = 0 := by
    have h3 : ((m - n : ℤ) : ℝ) * S < 1 * S := by rw [← hd]; linarith
    have h4 : (-1 : ℝ) * S < ((m - n : ℤ) : ℝ) * S := by rw [← hd]; linarith
    have h5 := lt_of_mul_lt_mul_right h3 hS.le
    have h6 := lt_of_mul_lt_mul_right h4 hS.le
    have h7 : m - n < 1 := by exact_mod_cast h5
    have h8 : -1 < m - n := by exact_mod_cast h6
    omega
  rw [hz] at hd; simp at hd; linarith

/-- `cycle_isclose` with zero tolerance is equality modulo `S`. -/
theorem cycleEq_iff (a b : ℝ) {S : ℝ} (hS : 0 < S) : cycleEq a b S ↔ ∃ n : ℤ, a = b + n * S := by
  constructor
  · rintro (h | h)
    · obtain ⟨m, hm⟩ := fmod_eq_add (a - b) S
      exact ⟨-m, by push_cast; linarith⟩
    · exact absurd h (fmod_lt _ hS).ne
  · rintro ⟨n, rfl⟩
    exact .inl (fmod_unique (n := -n) hS le_rfl hS (by push_cast; ring))

theorem two_pi_pos' : (0 : ℝ) < 2 * π := by positivity

theorem cycleEq_equivalence {S : ℝ} (hS : 0 < S) : Equivalence fun a b => cycleEq a b S where
  refl a := (cycleEq_iff _ _ hS).2 ⟨0, by simp⟩
  symm h := by
    obtain ⟨n, rfl⟩ := (cycleEq_iff _ _ hS).1 h
    exact (cycleEq_iff _ _ hS).2 ⟨-n, by push_cast; ring⟩
  trans h h' := by
    obtain ⟨n, rfl⟩ := (cycleEq_iff _ _ hS).1 h
    obtain ⟨m, rfl⟩ := (cycleEq_iff _ _ hS).1 h'
    exact (cycleEq_iff _ _ hS).2 ⟨n + m, by push_cast; ring⟩

/-- **C03** (SO(2)) `combine` and `inverse` return angles in `[0, 2π)` for all angles, and satisfy the
group laws exactly there. -/
theorem c03_so2_group_laws :
    (∀ a b : ℝ, 0 ≤ SO2.combine a b ∧ SO2.combine a b < 2 * π) ∧
    (∀ a : ℝ, 0 ≤ SO2.inverse a ∧ SO2.inverse a < 2 * π) ∧
    ({ SO2.grp with isEl := fun e => 0 ≤ e ∧ e < 2 * π } : Grp ℝ).Lawful := by
  have hp := two_pi_pos'
  have h1 : ∀ a b : ℝ, 0 ≤ SO2.combine a b ∧ SO2.combine a b < 2 * π := fun a b =>
    ⟨fmod_nonneg _ hp, fmod_lt _ hp⟩
  have h2 : ∀ a : ℝ, 0 ≤ SO2.inverse a ∧ SO2.inverse a < 2 * π := fun a =>
    ⟨fmod_nonneg _ hp, fmod_lt _ hp⟩
  refine ⟨h1, h2, ?_⟩
  constructor
  · exact ⟨le_rfl, hp⟩
  · intro a b _ _; exact h1 a b
  · intro a _; exact h2 a
  · intro a b c _ _ _
    obtain ⟨n, hn⟩ := fmod_eq_add (a + b) (2 * π)
    obtain ⟨m, hm⟩ := fmod_eq_add (b + c) (2 * π)
    obtain ⟨l, hl⟩ := fmod_eq_add (a + SO2.combine b c) (2 * π)
    refine fmod_unique (n := l + m - n) hp (h1 _ _).1 (h1 _ _).2 ?_
    show fmod (a + SO2.combine b c) (2 * π) = _
    rw [hl]
    simp only [SO2.combine, SO2.grp, hn, hm]
    push_cast; ring
  · intro a ha; exact fmod_unique (n := 0) hp ha.1 ha.2 (by simp [SO2.grp])
  · intro a ha; exact fmod_unique (n := 0) hp ha.1 ha.2 (by simp [SO2.grp])
  · intro a _
    obtain ⟨n, hn⟩ := fmod_eq_add (-a) (2 * π)
    refine fmod_unique (n := -n) hp le_rfl hp ?_
    simp only [SO2.inverse, SO2.grp, hn]; push_cast; ring
  · intro a _
    obtain ⟨n, hn⟩ := fmod_eq_add (-a) (2 * π)
    refine fmod_unique (n := -n) hp le_rfl hp ?_
    simp only [SO2.inverse, SO2.grp, hn]; push_cast; ring

/-- **C03** (SO(2), all floats) up to `equal` the group laws hold for every accepted element. -/
theorem c03_so2_group_laws_up_to : SO2.grp.LawfulUpTo SO2.equal := by
  have hp := two_pi_pos'
  have key : ∀ a b, SO2.equal a b ↔ ∃ n : ℤ, a = b + n * (2 * π) := fun a b => cycleEq_iff a b hp
  constructor
  · exact cycleEq_equivalence hp
  · intro a a' b b' _ _ ha hb
    obtain ⟨n, rfl⟩ := (key _ _).1 ha
    obtain ⟨m, rfl⟩ := (key _ _).1 hb
    obtain ⟨k, hk⟩ := fmod_eq_add (a' + n * (2 * π) + (b' + m * (2 * π))) (2 * π)
    obtain ⟨l, hl⟩ := fmod_eq_add (a' + b') (2 * π)
    exact (key _ _).2 ⟨n + m + k - l, by simp only [SO2.grp, SO2.combine, hk, hl]; push_cast; ring⟩
  · intro a a' _ _ ha
    obtain ⟨n, rfl⟩ := (key _ _).1 ha
    obtain ⟨k, hk⟩ := fmod_eq_add (-(a' + n * (2 * π))) (2 * π)
    obtain ⟨l, hl⟩ := fmod_eq_add (-a') (2 * π)
    exact (key _ _).2 ⟨-n + k - l, by simp only [SO2.grp, SO2.inverse, hk, hl]; push_cast; ring⟩
  · trivial
  · intros; trivial
  · intros; trivial
  · intro a b c _ _ _
    obtain ⟨n, hn⟩ := fmod_eq_add (a + b) (2 * π)
    obtain ⟨m, hm⟩ := fmod_eq_add (b + c) (2 * π)
    obtain ⟨k, hk⟩ := fmod_eq_add (a + b + n * (2 * π) + c) (2 * π)
    obtain ⟨l, hl⟩ := fmod_eq_add (a + (b + c + m * (2 * π))) (2 * π)
    exact (key _ _).2 ⟨n + k - m - l, by
      simp only [SO2.grp, SO2.combine, hn, hm, hk, hl]; push_cast; ring⟩
  · intro a _
    obtain ⟨n, hn⟩ := fmod_eq_add (0 + a) (2 * π)
    exact (key _ _).2 ⟨n, by simp only [SO2.grp, SO2.combine, hn]; ring⟩
  · intro a _
    obtain ⟨n, hn⟩ := fmod_eq_add (a + 0) (2 * π)
    exact (key _ _).2 ⟨n, by simp only [SO2.grp, SO2.combine, hn]; ring⟩
  · intro a _
    obtain ⟨m, hm⟩ := fmod_eq_add (-a) (2 * π)
    obtain ⟨n, hn⟩ := fmod_eq_add (-a + m * (2 * π) + a) (2 * π)
    exact (key _ _).2 ⟨n + m, by
      simp only [SO2.grp, SO2.combine, SO2.inverse, hm, hn]; push_cast; ring⟩
  · intro a _
    obtain ⟨m, hm⟩ := fmod_eq_add (-a) (2 * π)
    obtain ⟨n, hn⟩ := fmod_eq_add (a + (-a + m * (2 * π))) (2 * π)
    exact (key _ _).2 ⟨n + m, by
      simp only [SO2.grp, SO2.combine, SO2.inverse, hm, hn]; push_cast; ring⟩

/-- **C03** (O(2)) the group laws hold up to `equal`, which `combine` and `inverse` respect. -/
theorem c03_o2_group_laws_up_to : O2.grp.LawfulUpTo O2.equal := by
  have hp := two_pi_pos'
  have key : ∀ a b, O2.equal a b ↔ a.1 = b.1 ∧ ∃ n : ℤ, a.2 = b.2 + n * (2 * π) := fun a b =>
    and_congr_right fun _ => cycleEq_iff _ _ hp
  have of_eq : ∀ {a b : ℤ × ℝ}, a.1 = b.1 → a.2 = b.2 → O2.equal a b := fun h h' =>
    (key _ _).2 ⟨h, 0, by simp [h']⟩
  constructor
  · exact ⟨fun a => of_eq rfl rfl,
      fun h => ⟨h.1.symm, (cycleEq_equivalence hp).symm h.2⟩,
      fun h h' => ⟨h.1.trans h'.1, (cycleEq_equivalence hp).trans h.2 h'.2⟩⟩
  · intro a a' b b' _ _ ha hb
    obtain ⟨ha, n, hn⟩ := (key _ _).1 ha
    obtain ⟨hb, m, hm⟩ := (key _ _).1 hb
    refine (key _ _).2 ⟨?_, ?_⟩
    · simp only [O2.grp, O2.combine, ha, hb]
    · simp only [O2.grp, O2.combine, ha, hn, hm]
      by_cases h : a'.1 = 0
      · exact ⟨n + m, by simp [h]; ring⟩
      · exact ⟨n - m, by simp [h]; ring⟩
  · intro a a' _ _ ha
    obtain ⟨ha, n, hn⟩ := (key _ _).1 ha
    refine (key _ _).2 ⟨ha, ?_⟩
    simp only [O2.grp, O2.inverse, ha, hn]
    by_cases h : a'.1 = 0
    · exact ⟨-n, by simp [h]; ring⟩
    · exact ⟨n, by simp [h]⟩
  · exact .inl rfl
  · intro a b _ _
    show (a.1 + b.1) % 2 = 0 ∨ (a.1 + b.1) % 2 = 1
    omega
  · intro a ha; exact ha
  · intro a b c ha hb hc
    refine of_eq ?_ ?_
    · show ((a.1 + b.1) % 2 + c.1) % 2 = (a.1 + (b.1 + c.1) % 2) % 2
      omega
    · simp only [O2.grp, O2.combine]
      obtain ⟨a0, a1⟩ := a; obtain ⟨b0, b1⟩ := b
      rcases ha with ha | ha <;> rcases hb with hb | hb <;> simp only at ha hb <;> subst ha <;>
        subst hb <;> simp <;> ring
  · intro a ha
    refine of_eq ?_ ?_
    · show (0 + a.1) % 2 = a.1
      rcases ha with h | h <;> rw [h] <;> rfl
    · simp [O2.grp, O2.combine]
  · intro a ha
    refine of_eq ?_ ?_
    · show (a.1 + 0) % 2 = a.1
      rcases ha with h | h <;> rw [h] <;> rfl
    · simp [O2.grp, O2.combine]
  · intro a ha
    refine of_eq ?_ ?_
    · show (a.1 + a.1) % 2 = 0; omega
    · rcases ha with h | h <;> simp [O2.grp, O2.combine, O2.inverse, h]
  · intro a ha
    refine of_eq ?_ ?_
    · show (a.1 + a.1) % 2 = 0; omega
    · rcases ha with h | h <;> simp [O2.grp, O2.combine, O2.inverse, h]

/-- Elements on which the laws are not trivial: a reflection and a rotation are accepted, and
`O2.combine` really leaves `[0, 2π)`. -/
example : O2.grp.isEl (1, π / 3) ∧ O2.grp.isEl (0, 3 * π / 2) ∧
    (O2.combine (0, 3 * π / 2) (0, 3 * π / 2)).2 = 3 * π := by
  refine ⟨.inr rfl, .inl rfl, ?_⟩
  simp [O2.combine]

end E2
