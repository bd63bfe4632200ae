import Verif.Props.Irreps

/-!
# C06, C07: subgroup maps
-/

namespace E2

open Finset Mat Real

namespace Cyclic

theorem isEl_iff (N : ℕ) (e : ℤ) : (grp N).isEl e ↔ 0 ≤ e ∧ e < N := by
  simp [grp, isElement, order_eq]

theorem op_eq (N : ℕ) (a b : ℤ) : (grp N).op a b = (a + b) % (N : ℤ) := by
  simp [grp, combine, order_eq]

end Cyclic

namespace Dihedral

theorem isEl_iff (N : ℕ) (e : ℤ × ℤ) :
    (grp N).isEl e ↔ (e.1 = 0 ∨ e.1 = 1) ∧ 0 ≤ e.2 ∧ e.2 < N := by
  simp [grp, isElement]

theorem op_eq (N : ℕ) (a b : ℤ × ℤ) :
    (grp N).op a b = ((a.1 + b.1) % 2, (a.2 + (if a.1 ≠ 0 then -1 else 1) * b.2) % (N : ℤ)) := rfl

end Dihedral

/-- Multiplication by the index turns reduction modulo `M` into reduction modulo `N = M * r`. -/
theorem emod_scale {r : ℤ} (hr : 0 < r) (M x : ℤ) : (x % M) * r = (x * r) % (M * r) := by
  rw [_root_.mul_comm x, _root_.mul_comm M, Int.mul_emod_mul_of_pos _ _ hr, _root_.mul_comm]

/-- Adding a remainder smaller than the index commutes with the reduction. -/
theorem emod_scale_add {r : ℤ} (hr : 0 < r) {M : ℤ} (hM : 0 < M) (x a : ℤ) (ha : 0 ≤ a) (har : a < r) :
    (x % M) * r + a = (x * r + a) % (M * r) := by
  have h0 : 0 ≤ x % M := Int.emod_nonneg _ hM.ne'
  have h1 : x % M < M := Int.emod_lt_of_pos _ hM
  have h2 : (x % M) * r + a < M * r := by nlinarith
  have h3 : 0 ≤ (x % M) * r + a := by positivity
  rw [← Int.emod_eq_of_lt h3 h2, emod_scale hr, Int.emod_add_emod]

theorem scale_lt {r M e : ℤ} (hr : 0 < r) (h1 : e < M) {a : ℤ} (har : a < r) : e * r + a < M * r := by
  nlinarith

/-- The image of the index-`r` embedding: multiples of `r` below `M * r`. -/
theorem scale_bounds {r M q : ℤ} (hr : 0 < r) (h0 : 0 ≤ q * r) (h1 : q * r < M * r) : 0 ≤ q ∧ q < M :=
  ⟨by by_contra h; push Not at h; nlinarith, lt_of_mul_lt_mul_right h1 hr.le⟩

/-- **C06, C_N.** The accepted ids are the positive divisors of `N`; the parent map is an injective
homomorphism and the child map is its exact partial inverse. -/
theorem c06_cyclic_subgroup (N : ℕ) (hN : 0 < N) (M : ℕ) :
    ((Cyclic.subgroup N M).isSome ↔ 0 < M ∧ M ∣ N) ∧
    ∀ S, Cyclic.subgroup N M = some S → S.order = M ∧
      IsEmbedding (Cyclic.grp S.order) (Cyclic.grp N) S.parent ∧
      IsPartialInverse (Cyclic.grp S.order) (Cyclic.grp N) S.parent S.child := by
  unfold Cyclic.subgroup
  simp only [Cyclic.order_eq]
  constructor
  · split_ifs with h
    · simp only [Option.isSome_none, Bool.false_eq_true, false_iff, not_and, Nat.dvd_iff_mod_eq_zero]
      omega
    · simp only [Option.isSome_some, true_iff, Nat.dvd_iff_mod_eq_zero]
      omega
  · intro S h
    split_ifs at h with h1
    cases h
    push Not at h1
    obtain ⟨hM, hd⟩ := h1
    obtain ⟨r, rfl⟩ := Nat.dvd_of_mod_eq_zero hd
    have hM : 0 < M := by omega
    rw [Nat.mul_div_cancel_left _ hM]
    have hr : (0 : ℤ) < r := by exact_mod_cast Nat.pos_of_mul_pos_left hN
    have hMz : (0 : ℤ) < M := by exact_mod_cast hM
    refine ⟨rfl, ⟨?_, ?_, ?_, ?_⟩, ⟨?_, ?_, ?_⟩⟩
    · intro a ha
      simp only [Cyclic.isEl_iff] at ha ⊢
      push_cast
      refine ⟨by have := ha.1; positivity, ?_⟩
      simpa using scale_lt hr ha.2 hr
    · simp [Cyclic.grp, Cyclic.identity]
    · intro a b _ _
      simp only [Cyclic.op_eq]
      push_cast
      rw [emod_scale hr, _root_.add_mul]
    · intro a b _ _ hab
      exact mul_right_cancel₀ hr.ne' hab
    · intro a _
      simp only [Int.mul_emod_left, ne_eq, not_true_eq_false, if_false]
      rw [Int.mul_ediv_cancel _ hr.ne']
    · intro g a hg h
      simp only at h
      split_ifs at h with h2
      simp only [Option.some.injEq] at h
      have h3 : a * r = g := by
        rw [← h]; exact Int.ediv_mul_cancel (Int.dvd_of_emod_eq_zero (not_not.1 h2))
      refine ⟨?_, h3⟩
      simp only [Cyclic.isEl_iff] at hg ⊢
      push_cast at hg
      rw [← h3] at hg
      exact scale_bounds hr hg.1 hg.2
    · intro g hg
      simp only [ite_eq_left_iff, ne_eq, not_not, not_exists, not_and, reduceCtorEq, imp_false]
      constructor
      · rintro h a _ rfl
        exact h (by simp)
      · intro h h2
        have h3 : g / r * r = g := Int.ediv_mul_cancel (Int.dvd_of_emod_eq_zero h2)
        refine h (g / r) ?_ h3
        simp only [Cyclic.isEl_iff] at hg ⊢
        push_cast at hg
        rw [← h3] at hg
        exact scale_bounds hr hg.1 hg.2

example : ∃ S, Cyclic.subgroup 12 4 = some S ∧ S.parent 3 = 9 ∧ S.child 9 = some 3 ∧ S.child 4 = none :=
  ⟨_, rfl, by decide, by decide, by decide⟩

/-- The group named by the result of `DihedralGroup.subgroup`, together with the two properties of
its maps. -/
def Dihedral.Sub.Correct (N : ℕ) : Dihedral.Sub → Prop
  | .cyc m parent child => IsEmbedding (Cyclic.grp m) (Dihedral.grp N) parent ∧
      IsPartialInverse (Cyclic.grp m) (Dihedral.grp N) parent child
  | .dih m parent child => IsEmbedding (Dihedral.grp m) (Dihedral.grp N) parent ∧
      IsPartialInverse (Dihedral.grp m) (Dihedral.grp N) parent child

/-- Is the returned group `C_m`? -/
def Dihedral.Sub.isCyc (m : ℕ) : Dihedral.Sub → Prop
  | .cyc m' _ _ => m' = m
  | .dih _ _ _ => False

/-- Is the returned group `D_m`? -/
def Dihedral.Sub.isDih (m : ℕ) : Dihedral.Sub → Prop
  | .cyc _ _ _ => False
  | .dih m' _ _ => m' = m

theorem Dihedral.cyc_correct {M r : ℕ} (hM : 0 < M) (hr : 0 < r) :
    (Dihedral.Sub.cyc M (fun e => (0, e * (r : ℤ)))
        (fun e => if e.1 ≠ 0 ∨ e.2 % (r : ℤ) > 0 then none else some (e.2 / (r : ℤ)))).Correct (M * r) := by
  have hr : (0 : ℤ) < r := by exact_mod_cast hr
  have hMz : (0 : ℤ) < M := by exact_mod_cast hM
  refine ⟨⟨?_, ?_, ?_, ?_⟩, ⟨?_, ?_, ?_⟩⟩
  · intro a ha
    simp only [Cyclic.isEl_iff, Dihedral.isEl_iff] at ha ⊢
    push_cast
    refine ⟨Or.inl trivial, by have := ha.1; positivity, ?_⟩
    simpa using scale_lt hr ha.2 hr
  · simp [Cyclic.grp, Cyclic.identity, Dihedral.grp, Dihedral.identity]
  · intro a b _ _
    simp only [Cyclic.op_eq, Dihedral.op_eq]
    push_cast
    rw [emod_scale hr, _root_.add_mul]
    simp
  · intro a b _ _ hab
    simp only [Prod.mk.injEq, true_and] at hab
    exact mul_right_cancel₀ hr.ne' hab
  · intro a _
    simp only [Int.mul_emod_left, ne_eq, not_true_eq_false, gt_iff_lt, lt_self_iff_false, or_self, if_false]
    rw [Int.mul_ediv_cancel _ hr.ne']
  · intro g a hg h
    split_ifs at h with h2
    push Not at h2
    simp only [Option.some.injEq] at h
    have h4 : g.2 % (r : ℤ) = 0 := le_antisymm h2.2 (Int.emod_nonneg _ hr.ne')
    have h3 : a * r = g.2 := by
      rw [← h]; exact Int.ediv_mul_cancel (Int.dvd_of_emod_eq_zero h4)
    refine ⟨?_, Prod.ext h2.1.symm h3⟩
    simp only [Cyclic.isEl_iff, Dihedral.isEl_iff] at hg ⊢
    push_cast at hg
    rw [← h3] at hg
    exact scale_bounds hr hg.2.1 hg.2.2
  · intro g hg
    simp only [ite_eq_left_iff, not_or, not_exists, not_and, reduceCtorEq, imp_false, not_not, ne_eq,
      gt_iff_lt]
    constructor
    · rintro h a _ rfl
      exact absurd (h rfl) (by simp)
    · intro h h2
      by_contra h5
      have h4 : g.2 % (r : ℤ) = 0 := le_antisymm (not_lt.1 h5) (Int.emod_nonneg _ hr.ne')
      have h3 : g.2 / r * r = g.2 := Int.ediv_mul_cancel (Int.dvd_of_emod_eq_zero h4)
      refine h (g.2 / r) ?_ (Prod.ext h2.symm h3)
      simp only [Cyclic.isEl_iff, Dihedral.isEl_iff] at hg ⊢
      push_cast at hg
      rw [← h3] at hg
      exact scale_bounds hr hg.2.1 hg.2.2

theorem Dihedral.flip_correct {N a : ℕ} (ha : a < N) :
    (Dihedral.Sub.cyc 2 (fun e => (e, (a : ℤ) * e))
      (fun e => if e.2 ≠ e.1 * (a : ℤ) then none else some e.1)).Correct N := by
  refine ⟨⟨?_, ?_, ?_, ?_⟩, ⟨?_, ?_, ?_⟩⟩
  · intro e he
    simp only [Cyclic.isEl_iff, Dihedral.isEl_iff] at he ⊢
    push_cast at he
    obtain rfl | rfl : e = 0 ∨ e = 1 := by omega
    · simp; omega
    · simp; omega
  · simp [Cyclic.grp, Cyclic.identity, Dihedral.grp, Dihedral.identity]
  · intro e e' he he'
    simp only [Cyclic.op_eq, Dihedral.op_eq, Cyclic.isEl_iff] at *
    push_cast at he he' ⊢
    have hm : (a : ℤ) % N = a := Int.emod_eq_of_lt (by positivity) (by exact_mod_cast ha)
    obtain rfl | rfl : e = 0 ∨ e = 1 := by omega
    all_goals obtain rfl | rfl : e' = 0 ∨ e' = 1 := by omega
    all_goals simp [hm]
  · intro e e' _ _ h
    exact (Prod.mk.inj h).1
  · intro e _
    simp [_root_.mul_comm]
  · intro g e hg h
    split_ifs at h with h2
    push Not at h2
    simp only [Option.some.injEq] at h
    subst h
    refine ⟨?_, Prod.ext rfl (by rw [h2, _root_.mul_comm])⟩
    simp only [Cyclic.isEl_iff, Dihedral.isEl_iff] at hg ⊢
    push_cast
    omega
  · intro g hg
    simp only [ite_eq_left_iff, not_exists, not_and, reduceCtorEq, imp_false, not_not, ne_eq]
    constructor
    · rintro h e _ rfl
      exact h (by simp [_root_.mul_comm])
    · intro h h2
      refine h g.1 ?_ (Prod.ext rfl (by rw [h2, _root_.mul_comm]))
      simp only [Cyclic.isEl_iff, Dihedral.isEl_iff] at hg ⊢
      push_cast
      omega

theorem Dihedral.dih_correct {M r a : ℕ} (hM : 0 < M) (ha : a < r) :
    (Dihedral.Sub.dih M (fun e => (e.1, e.2 * (r : ℤ) + e.1 * (a : ℤ)))
        (fun e => if (e.2 - e.1 * (a : ℤ)) % (r : ℤ) > 0 then none
          else some (e.1, (e.2 - e.1 * (a : ℤ)) / (r : ℤ)))).Correct (M * r) := by
  have hr : (0 : ℤ) < r := by exact_mod_cast (by omega : 0 < r)
  have hMz : (0 : ℤ) < M := by exact_mod_cast hM
  have ha' : (a : ℤ) < r := by exact_mod_cast ha
  have ha0 : (0 : ℤ) ≤ a := by positivity
  -- bounds of the preimage
  have key : ∀ (s x q : ℤ), (s = 0 ∨ s = 1) → 0 ≤ x → x < M * r → q * r = x - s * a → 0 ≤ q ∧ q < M := by
    intro s x q hs h0 h1 hq
    have h2 : x = q * r + s * a := by linarith
    rcases hs with rfl | rfl
    · constructor
      · by_contra h; push Not at h; nlinarith
      · by_contra h; push Not at h; nlinarith
    · constructor
      · by_contra h; push Not at h; nlinarith
      · by_contra h; push Not at h; nlinarith
  refine ⟨⟨?_, ?_, ?_, ?_⟩, ⟨?_, ?_, ?_⟩⟩
  · intro e he
    simp only [Dihedral.isEl_iff] at he ⊢
    push_cast
    refine ⟨he.1, ?_, ?_⟩
    · have := he.2.1
      rcases he.1 with h | h <;> rw [h] <;> positivity
    · rcases he.1 with h | h <;> rw [h]
      · simpa using scale_lt hr he.2.2 hr
      · simpa using scale_lt hr he.2.2 ha'
  · simp [Dihedral.grp, Dihedral.identity]
  · intro e e' he he'
    simp only [Dihedral.op_eq, Dihedral.isEl_iff] at *
    push_cast
    refine Prod.ext rfl ?_
    simp only
    rcases he.1 with h | h <;> rcases he'.1 with h' | h' <;> simp only [h, h'] <;> norm_num
    · rw [emod_scale hr, _root_.add_mul]
    · rw [emod_scale_add hr hMz _ _ ha0 ha']; congr 1; ring
    · rw [emod_scale_add hr hMz _ _ ha0 ha']; congr 1; ring
    · rw [emod_scale hr]; congr 1; ring
  · intro e e' _ _ hab
    simp only [Prod.mk.injEq] at hab
    obtain ⟨h1, h2⟩ := hab
    rw [h1] at h2
    exact Prod.ext h1 (mul_right_cancel₀ hr.ne' (by linarith))
  · intro e _
    simp only [add_sub_cancel_right, Int.mul_emod_left, gt_iff_lt, lt_self_iff_false, if_false]
    rw [Int.mul_ediv_cancel _ hr.ne']
  · intro g e hg h
    split_ifs at h with h2
    simp only [Option.some.injEq] at h
    have h4 : (g.2 - g.1 * a) % (r : ℤ) = 0 := le_antisymm (not_lt.1 h2) (Int.emod_nonneg _ hr.ne')
    have h3 : (g.2 - g.1 * a) / r * r = g.2 - g.1 * a := Int.ediv_mul_cancel (Int.dvd_of_emod_eq_zero h4)
    subst h
    simp only [Dihedral.isEl_iff] at hg ⊢
    push_cast at hg
    exact ⟨⟨hg.1, key g.1 g.2 _ hg.1 hg.2.1 hg.2.2 h3⟩, Prod.ext rfl (by simp only; rw [h3]; ring)⟩
  · intro g hg
    simp only [ite_eq_left_iff, not_exists, not_and, reduceCtorEq, imp_false, not_not, gt_iff_lt]
    constructor
    · rintro h e _ rfl
      simp at h
    · intro h
      by_contra h5
      have h4 : (g.2 - g.1 * a) % (r : ℤ) = 0 := le_antisymm (not_lt.1 h5) (Int.emod_nonneg _ hr.ne')
      have h3 : (g.2 - g.1 * a) / r * r = g.2 - g.1 * a := Int.ediv_mul_cancel (Int.dvd_of_emod_eq_zero h4)
      refine h (g.1, (g.2 - g.1 * a) / r) ?_ (Prod.ext rfl (by simp only; rw [h3]; ring))
      simp only [Dihedral.isEl_iff] at hg ⊢
      push_cast at hg
      exact ⟨hg.1, key g.1 g.2 _ hg.1 hg.2.1 hg.2.2 h3⟩

/-- **C06, D_N.** `(None, M)` and `(axis, M)` are accepted exactly for a positive divisor `M` of `N`
and `0 ≤ axis < N/M`; they give `C_M`, and `D_M` (`C_2` if `M = 1`); the parent map is an injective
homomorphism and the child map its exact partial inverse. -/
theorem c06_dihedral_subgroup (N : ℕ) (hN : 0 < N) (axis : Option ℕ) (M : ℕ) :
    ((Dihedral.subgroup N axis M).isSome ↔ 0 < M ∧ M ∣ N ∧ ∀ a, axis = some a → a < N / M) ∧
    ∀ S, Dihedral.subgroup N axis M = some S →
      S.Correct N ∧
      (axis = none → S.isCyc M) ∧
      (axis.isSome → M = 1 → S.isCyc 2) ∧
      (axis.isSome → 1 < M → S.isDih M) := by
  constructor
  · unfold Dihedral.subgroup
    cases axis with
    | none =>
      simp only [Nat.dvd_iff_mod_eq_zero]
      split_ifs <;> simp <;> omega
    | some a =>
      simp only [Nat.dvd_iff_mod_eq_zero]
      split_ifs <;> simp <;> omega
  · intro S h
    unfold Dihedral.subgroup at h
    rw [ite_eq_iff] at h
    obtain ⟨_, h⟩ | ⟨h1, h⟩ := h
    · cases h
    rw [ite_eq_iff] at h
    obtain ⟨_, h⟩ | ⟨h2, h⟩ := h
    · cases h
    obtain ⟨r, rfl⟩ := Nat.dvd_of_mod_eq_zero (not_not.1 h2)
    have hM : 0 < M := by omega
    have hr : 0 < r := Nat.pos_of_mul_pos_left hN
    rw [Nat.mul_div_cancel_left _ hM] at h
    cases axis with
    | none =>
      simp only [Option.some.injEq] at h
      subst h
      exact ⟨Dihedral.cyc_correct hM hr, fun _ => rfl, by simp, by simp⟩
    | some a =>
      simp only at h
      split_ifs at h with h3 h4
      · subst h4
        simp only [Option.some.injEq] at h
        subst h
        exact ⟨Dihedral.flip_correct (by omega), by simp, fun _ _ => rfl, fun _ h => absurd h (by omega)⟩
      · simp only [Option.some.injEq] at h
        subst h
        exact ⟨Dihedral.dih_correct hM (by omega), by simp, fun _ h => absurd h h4, fun _ _ => rfl⟩

example : ∃ p c, Dihedral.subgroup 6 (some 1) 3 = some (.dih 3 p c) ∧ p (1, 2) = (1, 5) ∧
    c (1, 5) = some (1, 2) ∧ c (1, 2) = none :=
  ⟨_, _, rfl, by decide, by decide, by decide⟩

end E2
