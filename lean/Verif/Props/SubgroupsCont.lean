import Verif.Props.Subgroups

/-!
# C07: subgroup maps of the continuous groups
-/

namespace E2

open Finset Mat Real

/-- Reduced angles: those every operation of `SO2` returns. -/
def Reduced (θ : ℝ) : Prop := 0 ≤ θ ∧ θ < 2 * π

theorem equal_iff (a b : ℝ) : SO2.equal a b ↔ ∃ n : ℤ, a = b + n * (2 * π) := cycleEq_iff a b two_pi_pos'

theorem o2_equal_iff (a b : ℤ × ℝ) : O2.equal a b ↔ a.1 = b.1 ∧ ∃ n : ℤ, a.2 = b.2 + n * (2 * π) := by
  rw [O2.equal, cycleEq_iff _ _ two_pi_pos']

/-- Angles of the index embedding. -/
theorem step_pos {M : ℕ} (hM : 0 < M) : 0 < 2 * π / (M : ℝ) := by positivity

theorem step_mul {M : ℕ} (hM : 0 < M) (n : ℤ) : (n * M : ℝ) * (2 * π / M) = n * (2 * π) := by
  have : (M : ℝ) ≠ 0 := by positivity
  field_simp

theorem round_step {M : ℕ} (hM : 0 < M) (n : ℤ) : round ((n * (2 * π / M)) * M / (2 * π)) = n := by
  have : (M : ℝ) ≠ 0 := by positivity
  have hpi := Real.pi_pos.ne'
  rw [show (n : ℝ) * (2 * π / M) * M / (2 * π) = n by field_simp]
  exact round_intCast n

/-- Two multiples of the step are equal modulo `2π` exactly if the integers agree modulo `M`. -/
theorem step_congr {M : ℕ} (hM : 0 < M) (a b : ℤ) :
    (∃ n : ℤ, (a : ℝ) * (2 * π / M) = b * (2 * π / M) + n * (2 * π)) ↔ a % M = b % M := by
  have h0 : (2 * π / (M : ℝ)) ≠ 0 := (step_pos hM).ne'
  constructor
  · rintro ⟨n, hn⟩
    rw [← step_mul hM, ← _root_.add_mul] at hn
    have := mul_right_cancel₀ h0 hn
    have h : a = b + n * M := by exact_mod_cast this
    rw [h]; simp
  · intro h
    have h2 : (M : ℤ) ∣ a - b := Int.ModEq.dvd (Eq.symm h)
    obtain ⟨n, hn⟩ := h2
    refine ⟨n, ?_⟩
    rw [← step_mul hM, ← _root_.add_mul]
    congr 1
    have : a = b + n * M := by linarith
    exact_mod_cast this

theorem step_mem {M : ℕ} (hM : 0 < M) (n : ℤ) (h : Reduced (n * (2 * π / M))) : 0 ≤ n ∧ n < M := by
  have h0 := step_pos hM
  constructor
  · have : (0 : ℝ) ≤ n := by
      by_contra hn; push Not at hn; nlinarith [h.1]
    exact_mod_cast this
  · have h1 := h.2
    have h2 := step_mul hM 1
    have : (n : ℝ) < M := by
      by_contra hn; push Not at hn
      push_cast at h2
      nlinarith
    exact_mod_cast this

theorem emod_self_of_mem {M : ℕ} {a : ℤ} (h : 0 ≤ a ∧ a < M) : a % M = a := Int.emod_eq_of_lt h.1 h.2

/-- **C07, SO(2).** Every positive `M` is accepted; the parent map is a homomorphism modulo `2π`,
injective; `child(parent(h)) = h`; `child` is defined exactly on the image, its value maps to the given
element, and it is an element of `C_M` for every reduced angle (see `c07_so2_reduced`). -/
theorem c07_so2_subgroup (M : ℕ) :
    ((SO2.subgroup M).isSome ↔ 0 < M) ∧
    ∀ S, SO2.subgroup M = some S → S.order = M ∧
      IsEmbeddingUpTo (Cyclic.grp M) SO2.grp Eq SO2.equal S.parent ∧
      IsPartialInverseUpTo (Cyclic.grp M) SO2.grp Eq SO2.equal Reduced S.parent S.child := by
  unfold SO2.subgroup
  constructor
  · split_ifs <;> simp <;> omega
  · intro S h
    split_ifs at h with h1
    cases h
    have hM : 0 < M := Nat.pos_of_ne_zero h1
    have hp : ∀ e : ℤ, (e : ℝ) * 2 * π / M = e * (2 * π / M) := fun e => by ring
    simp only [hp]
    have hm : ∀ e, (Cyclic.grp M).isEl e ↔ 0 ≤ e ∧ e < M := Cyclic.isEl_iff M
    refine ⟨trivial, ⟨fun _ _ => trivial, ?_, ?_, ?_⟩, ⟨?_, ?_, ?_, ?_⟩⟩
    · rw [equal_iff]; exact ⟨0, by simp [Cyclic.grp, Cyclic.identity, SO2.grp]⟩
    · intro a b _ _
      obtain ⟨m, hm⟩ := fmod_eq_add (a * (2 * π / M) + b * (2 * π / M)) (2 * π)
      simp only [SO2.grp, SO2.combine]
      rw [Cyclic.op_eq, equal_iff]
      obtain ⟨n, hn⟩ := (step_congr hM ((a + b) % M) (a + b)).2 (by simp)
      refine ⟨n - m, ?_⟩
      rw [hn, hm]; push_cast; ring
    · intro a b ha hb
      rw [equal_iff, step_congr hM, emod_self_of_mem ((hm a).1 ha), emod_self_of_mem ((hm b).1 hb)]
    · intro a _
      refine ⟨a, ?_, rfl⟩
      have : cycleEq ((a : ℝ) * (2 * π / M)) 0 (2 * π / M) :=
        (cycleEq_iff _ _ (step_pos hM)).2 ⟨a, by simp⟩
      rw [if_neg (not_not.2 this), round_step hM]
    · intro g a _ h
      split_ifs at h with h2
      obtain ⟨n, hn⟩ := (cycleEq_iff _ _ (step_pos hM)).1 h2
      rw [zero_add] at hn
      rw [hn, round_step hM] at h
      simp only [Option.some.injEq] at h
      rw [equal_iff]
      exact ⟨0, by rw [hn, h]; simp⟩
    · intro g a _ hd h
      split_ifs at h with h2
      obtain ⟨n, hn⟩ := (cycleEq_iff _ _ (step_pos hM)).1 h2
      rw [zero_add] at hn
      rw [hn] at hd
      rw [hn, round_step hM] at h
      simp only [Option.some.injEq] at h
      rw [hm, ← h]
      exact step_mem hM n hd
    · intro g _
      simp only [ite_eq_left_iff, reduceCtorEq, imp_false, not_not]
      rw [cycleEq_iff _ _ (step_pos hM)]
      constructor
      · rintro h ⟨a, _, ha⟩
        rw [equal_iff] at ha
        obtain ⟨n, hn⟩ := ha
        refine h ⟨a - n * M, ?_⟩
        have := step_mul hM n
        push_cast
        rw [_root_.sub_mul, this]
        linarith
      · rintro h ⟨n, hn⟩
        refine h ⟨n % M, (hm _).2 ⟨Int.emod_nonneg _ (by positivity), Int.emod_lt_of_pos _ (by positivity)⟩, ?_⟩
        rw [equal_iff, hn, zero_add]
        exact (step_congr hM _ _).2 (by simp)

/-- Every value of the operations of `SO2` is a reduced angle, so `child` always returns an element
on them. -/
theorem c07_so2_reduced (a b : ℝ) : Reduced SO2.grp.one ∧ Reduced (SO2.grp.inv a) ∧ Reduced (SO2.grp.op a b) :=
  ⟨⟨le_refl _, two_pi_pos'⟩, ⟨fmod_nonneg _ two_pi_pos', fmod_lt _ two_pi_pos'⟩,
    ⟨fmod_nonneg _ two_pi_pos', fmod_lt _ two_pi_pos'⟩⟩

/-- For an angle outside `[0, 2π)` given by the user, `child` may return a value that is not an
element of the subgroup: `-π/2` gives `-1` in `C_4`. -/
theorem c07_so2_child_unreduced : ∃ S a, SO2.subgroup 4 = some S ∧ SO2.grp.isEl (-(π / 2)) ∧
    S.child (-(π / 2)) = some a ∧ ¬ (Cyclic.grp 4).isEl a := by
  have h : -(π / 2) = ((-1 : ℤ) : ℝ) * (2 * π / ((4 : ℕ) : ℝ)) := by push_cast; ring
  refine ⟨_, -1, by rw [SO2.subgroup, if_neg (by norm_num)], trivial, ?_, by rw [Cyclic.isEl_iff]; omega⟩
  have h2 : cycleEq (((-1 : ℤ) : ℝ) * (2 * π / ((4 : ℕ) : ℝ))) 0 (2 * π / ((4 : ℕ) : ℝ)) :=
    (cycleEq_iff _ _ (step_pos (by norm_num))).2 ⟨-1, by simp⟩
  simp only
  rw [h, if_neg (not_not.2 h2), round_step (by norm_num)]

/-- The properties of the maps returned by `O2.subgroup`: the parent map is an injective homomorphism,
and the child map its partial inverse, where angles are compared modulo `2π`. -/
def O2.Sub.Correct (dom : ℤ × ℝ → Prop) : O2.Sub → Prop
  | .o2 parent child => IsEmbeddingUpTo O2.grp O2.grp O2.equal O2.equal parent ∧
      IsPartialInverseUpTo O2.grp O2.grp O2.equal O2.equal dom parent child
  | .so2 parent child => IsEmbeddingUpTo SO2.grp O2.grp SO2.equal O2.equal parent ∧
      IsPartialInverseUpTo SO2.grp O2.grp SO2.equal O2.equal dom parent child
  | .cyc m parent child => IsEmbeddingUpTo (Cyclic.grp m) O2.grp Eq O2.equal parent ∧
      IsPartialInverseUpTo (Cyclic.grp m) O2.grp Eq O2.equal dom parent child
  | .dih m parent child => IsEmbeddingUpTo (Dihedral.grp m) O2.grp Eq O2.equal parent ∧
      IsPartialInverseUpTo (Dihedral.grp m) O2.grp Eq O2.equal dom parent child

/-- The group returned by `O2.subgroup((axis, order))` according to its documentation. -/
def O2.Sub.Named (axis : Option ℝ) (order : ℤ) : O2.Sub → Prop
  | .o2 _ _ => axis.isSome ∧ order = -1
  | .so2 _ _ => axis = none ∧ order = -1
  | .cyc m _ _ => (axis = none ∧ order = m) ∨ (axis.isSome ∧ order = 1 ∧ m = 2)
  | .dih m _ _ => axis.isSome ∧ 1 < order ∧ order = m

theorem O2.o2_correct (a : ℝ) (dom : ℤ × ℝ → Prop) :
    (O2.Sub.o2 (fun e => (e.1, e.2 + e.1 * a)) (fun e => some (e.1, e.2 - e.1 * a))).Correct dom := by
  refine ⟨⟨fun e he => he, ?_, ?_, ?_⟩, ⟨?_, ?_, ?_, ?_⟩⟩
  · rw [o2_equal_iff]; exact ⟨rfl, 0, by simp [O2.grp]⟩
  · intro e e' he he'
    rw [o2_equal_iff]
    refine ⟨rfl, 0, ?_⟩
    simp only [O2.grp, O2.combine]
    rcases he with h | h <;> rcases he' with h' | h' <;> simp only [h, h'] <;> norm_num <;> ring
  · intro e e' _ _
    rw [o2_equal_iff, o2_equal_iff]
    constructor
    · rintro ⟨h1, n, hn⟩
      simp only at h1 hn
      exact ⟨h1, n, by rw [h1] at hn; linarith⟩
    · rintro ⟨h1, n, hn⟩
      exact ⟨h1, n, by simp only; rw [h1, hn]; ring⟩
  · intro e _
    exact ⟨_, rfl, (o2_equal_iff _ _).2 ⟨rfl, 0, by simp⟩⟩
  · intro g e _ h
    cases h
    exact (o2_equal_iff _ _).2 ⟨rfl, 0, by simp⟩
  · intro g e hg _ h
    cases h
    exact hg
  · intro g hg
    simp only [reduceCtorEq, false_iff, not_not]
    exact ⟨(g.1, g.2 - g.1 * a), hg, (o2_equal_iff _ _).2 ⟨rfl, 0, by simp⟩⟩

theorem O2.so2_correct (dom : ℤ × ℝ → Prop) :
    (O2.Sub.so2 (fun e => (0, e)) (fun e => if e.1 ≠ 0 then none else some e.2)).Correct dom := by
  refine ⟨⟨fun e he => Or.inl rfl, ?_, ?_, ?_⟩, ⟨?_, ?_, ?_, ?_⟩⟩
  · rw [o2_equal_iff]; exact ⟨rfl, 0, by simp [O2.grp, SO2.grp]⟩
  · intro e e' _ _
    rw [o2_equal_iff]
    obtain ⟨m, hm⟩ := fmod_eq_add (e + e') (2 * π)
    refine ⟨rfl, m, ?_⟩
    simp [O2.grp, O2.combine, SO2.grp, SO2.combine, hm]
  · intro e e' _ _
    rw [o2_equal_iff, equal_iff]
    simp
  · intro e _
    exact ⟨e, by simp, (equal_iff _ _).2 ⟨0, by simp⟩⟩
  · intro g e _ h
    split_ifs at h with h2
    cases h
    exact (o2_equal_iff _ _).2 ⟨(not_not.1 h2).symm, 0, by simp⟩
  · intro g e _ _ _
    trivial
  · intro g hg
    simp only [ite_eq_left_iff, reduceCtorEq, imp_false, not_not, ne_eq]
    constructor
    · rintro h ⟨e, _, he⟩
      exact h ((o2_equal_iff _ _).1 he).1.symm
    · intro h h2
      exact h ⟨g.2, trivial, (o2_equal_iff _ _).2 ⟨h2.symm, 0, by simp⟩⟩

theorem O2.flip_correct (a : ℝ) (dom : ℤ × ℝ → Prop) :
    (O2.Sub.cyc 2 (fun e => (e, a * e))
        (fun e => if ¬ cycleEq e.2 (a * e.1) (2 * π) then none else some e.1)).Correct dom := by
  refine ⟨⟨?_, ?_, ?_, ?_⟩, ⟨?_, ?_, ?_, ?_⟩⟩
  · intro e he
    rw [Cyclic.isEl_iff] at he
    show e = 0 ∨ e = 1
    push_cast at he; omega
  · rw [o2_equal_iff]; exact ⟨rfl, 0, by simp [O2.grp, Cyclic.grp, Cyclic.identity]⟩
  · intro e e' he he'
    rw [o2_equal_iff]
    simp only [Cyclic.op_eq, Cyclic.isEl_iff, O2.grp, O2.combine] at *
    push_cast at he he' ⊢
    refine ⟨rfl, 0, ?_⟩
    obtain rfl | rfl : e = 0 ∨ e = 1 := by omega
    all_goals obtain rfl | rfl : e' = 0 ∨ e' = 1 := by omega
    all_goals norm_num
  · intro e e' _ _
    rw [o2_equal_iff]
    constructor
    · exact fun h => h.1
    · rintro rfl; exact ⟨rfl, 0, by simp⟩
  · intro e _
    refine ⟨e, ?_, rfl⟩
    have : cycleEq (a * e) (a * e) (2 * π) := (cycleEq_iff _ _ two_pi_pos').2 ⟨0, by simp⟩
    simp [this]
  · intro g e _ h
    split_ifs at h with h2
    cases h
    obtain ⟨n, hn⟩ := (cycleEq_iff _ _ two_pi_pos').1 h2
    exact (o2_equal_iff _ _).2 ⟨rfl, -n, by simp only; rw [hn]; push_cast; ring⟩
  · intro g e hg _ h
    split_ifs at h with h2
    cases h
    rw [Cyclic.isEl_iff]; push_cast
    have : g.1 = 0 ∨ g.1 = 1 := hg
    omega
  · intro g hg
    simp only [ite_eq_left_iff, reduceCtorEq, imp_false, not_not]
    rw [cycleEq_iff _ _ two_pi_pos']
    constructor
    · rintro h ⟨e, _, he⟩
      obtain ⟨h1, n, hn⟩ := (o2_equal_iff _ _).1 he
      simp only at h1 hn
      exact h ⟨-n, by rw [← h1, hn]; push_cast; ring⟩
    · rintro h ⟨n, hn⟩
      refine h ⟨g.1, ?_, (o2_equal_iff _ _).2 ⟨rfl, -n, by simp only; rw [hn]; push_cast; ring⟩⟩
      rw [Cyclic.isEl_iff]; push_cast
      have : g.1 = 0 ∨ g.1 = 1 := hg
      omega

theorem O2.cyc_correct {M : ℕ} (hM : 0 < M) :
    (O2.Sub.cyc M (fun e => (0, e * 2 * π / M))
        (fun e => if e.1 ≠ 0 ∨ ¬ cycleEq e.2 0 (2 * π / M) then none
          else some (round (e.2 * M / (2 * π))))).Correct (fun g => Reduced g.2) := by
  have hp : ∀ e : ℤ, (e : ℝ) * 2 * π / M = e * (2 * π / M) := fun e => by ring
  simp only [hp]
  have hm : ∀ e, (Cyclic.grp M).isEl e ↔ 0 ≤ e ∧ e < M := Cyclic.isEl_iff M
  refine ⟨⟨fun _ _ => Or.inl rfl, ?_, ?_, ?_⟩, ⟨?_, ?_, ?_, ?_⟩⟩
  · rw [o2_equal_iff]; exact ⟨rfl, 0, by simp [Cyclic.grp, Cyclic.identity, O2.grp]⟩
  · intro a b _ _
    rw [Cyclic.op_eq, o2_equal_iff]
    obtain ⟨n, hn⟩ := (step_congr hM ((a + b) % M) (a + b)).2 (by simp)
    refine ⟨rfl, n, ?_⟩
    simp only [O2.grp, O2.combine]
    rw [hn]; push_cast; norm_num; ring
  · intro a b ha hb
    rw [o2_equal_iff]
    simp only [true_and]
    rw [step_congr hM, emod_self_of_mem ((hm a).1 ha), emod_self_of_mem ((hm b).1 hb)]
  · intro a _
    refine ⟨a, ?_, rfl⟩
    have : cycleEq ((a : ℝ) * (2 * π / M)) 0 (2 * π / M) :=
      (cycleEq_iff _ _ (step_pos hM)).2 ⟨a, by simp⟩
    rw [if_neg (by simp [this]), round_step hM]
  · intro g a _ h
    split_ifs at h with h2
    push Not at h2
    obtain ⟨n, hn⟩ := (cycleEq_iff _ _ (step_pos hM)).1 h2.2
    rw [zero_add] at hn
    rw [hn, round_step hM] at h
    simp only [Option.some.injEq] at h
    rw [o2_equal_iff]
    exact ⟨h2.1.symm, 0, by rw [hn, h]; simp⟩
  · intro g a _ hd h
    split_ifs at h with h2
    push Not at h2
    obtain ⟨n, hn⟩ := (cycleEq_iff _ _ (step_pos hM)).1 h2.2
    rw [zero_add] at hn
    rw [hn] at hd
    rw [hn, round_step hM] at h
    simp only [Option.some.injEq] at h
    rw [hm, ← h]
    exact step_mem hM n hd
  · intro g _
    simp only [ite_eq_left_iff, reduceCtorEq, imp_false, not_not]
    rw [cycleEq_iff _ _ (step_pos hM)]
    constructor
    · rintro h ⟨a, _, ha⟩
      rw [o2_equal_iff] at ha
      obtain ⟨h1, n, hn⟩ := ha
      simp only at h1 hn
      rcases h with h | h
      · exact h h1.symm
      refine h ⟨a - n * M, ?_⟩
      have := step_mul hM n
      push_cast
      rw [_root_.sub_mul, this]
      linarith
    · intro h
      by_contra hc
      push Not at hc
      obtain ⟨h1, n, hn⟩ := hc
      refine h ⟨n % M, (hm _).2 ⟨Int.emod_nonneg _ (by positivity), Int.emod_lt_of_pos _ (by positivity)⟩, ?_⟩
      rw [o2_equal_iff, hn, zero_add]
      exact ⟨h1.symm, (step_congr hM _ _).2 (by simp)⟩

theorem O2.dih_correct {M : ℕ} (hM : 0 < M) {a : ℝ} (ha : 0 ≤ a ∧ a < 2 * π / M) :
    (O2.Sub.dih M (fun e => (e.1, e.2 * 2 * π / M + e.1 * a))
        (fun e => if ¬ cycleEq (e.2 - e.1 * a) 0 (2 * π / M) then none
          else some (e.1, round ((e.2 - e.1 * a) * M / (2 * π))))).Correct (fun g => Reduced g.2) := by
  have hp : ∀ e : ℤ, (e : ℝ) * 2 * π / M = e * (2 * π / M) := fun e => by ring
  simp only [hp]
  have hm : ∀ e, (Dihedral.grp M).isEl e ↔ (e.1 = 0 ∨ e.1 = 1) ∧ 0 ≤ e.2 ∧ e.2 < M := Dihedral.isEl_iff M
  refine ⟨⟨fun e he => ((hm e).1 he).1, ?_, ?_, ?_⟩, ⟨?_, ?_, ?_, ?_⟩⟩
  · rw [o2_equal_iff]; exact ⟨rfl, 0, by simp [Dihedral.grp, Dihedral.identity, O2.grp]⟩
  · intro e e' he he'
    rw [Dihedral.op_eq, o2_equal_iff]
    refine ⟨rfl, ?_⟩
    obtain ⟨n, hn⟩ := (step_congr hM ((e.2 + (if e.1 ≠ 0 then -1 else 1) * e'.2) % M)
      (e.2 + (if e.1 ≠ 0 then -1 else 1) * e'.2)).2 (by simp)
    refine ⟨n, ?_⟩
    simp only [O2.grp, O2.combine]
    rw [hn]
    rcases ((hm e).1 he).1 with h | h <;> rcases ((hm e').1 he').1 with h' | h' <;>
      simp only [h, h'] <;> norm_num <;> ring
  · intro e e' he he'
    rw [o2_equal_iff]
    simp only
    constructor
    · rintro ⟨h1, n, hn⟩
      rw [h1] at hn
      have := (step_congr hM e.2 e'.2).1 ⟨n, by linarith⟩
      rw [emod_self_of_mem ((hm e).1 he).2, emod_self_of_mem ((hm e').1 he').2] at this
      exact Prod.ext h1 this
    · rintro rfl; exact ⟨rfl, 0, by simp⟩
  · intro e _
    refine ⟨e, ?_, rfl⟩
    have : cycleEq ((e.2 : ℝ) * (2 * π / M)) 0 (2 * π / M) :=
      (cycleEq_iff _ _ (step_pos hM)).2 ⟨e.2, by simp⟩
    simp only [add_sub_cancel_right]
    rw [if_neg (by simp [this]), round_step hM]
  · intro g e _ h
    split_ifs at h with h2
    obtain ⟨n, hn⟩ := (cycleEq_iff _ _ (step_pos hM)).1 h2
    rw [zero_add] at hn
    rw [hn, round_step hM] at h
    simp only [Option.some.injEq] at h
    rw [o2_equal_iff, ← h]
    exact ⟨rfl, 0, by simp only; rw [← hn]; simp⟩
  · intro g e hg hd h
    split_ifs at h with h2
    obtain ⟨n, hn⟩ := (cycleEq_iff _ _ (step_pos hM)).1 h2
    rw [zero_add] at hn
    rw [hn, round_step hM] at h
    simp only [Option.some.injEq] at h
    rw [hm, ← h]
    have hg' : g.1 = 0 ∨ g.1 = 1 := hg
    refine ⟨hg', ?_⟩
    have hs := step_pos hM
    have h2 := step_mul hM 1
    push_cast at h2
    have hd1 := hd.1
    have hd2 := hd.2
    rcases hg' with h0 | h0
    · rw [h0] at hn
      norm_num at hn
      exact step_mem hM n (hn ▸ hd)
    · rw [h0] at hn
      norm_num at hn
      constructor
      · have : (-1 : ℝ) < n := by
          by_contra hc; push Not at hc; nlinarith
        have : -1 < n := by exact_mod_cast this
        omega
      · have : (n : ℝ) < M := by
          by_contra hc; push Not at hc; nlinarith
        exact_mod_cast this
  · intro g hg
    simp only [ite_eq_left_iff, reduceCtorEq, imp_false, not_not]
    rw [cycleEq_iff _ _ (step_pos hM)]
    constructor
    · rintro h ⟨e, _, he⟩
      rw [o2_equal_iff] at he
      obtain ⟨h1, n, hn⟩ := he
      simp only at h1 hn
      refine h ⟨e.2 - n * M, ?_⟩
      have := step_mul hM n
      push_cast
      rw [_root_.sub_mul, this, ← h1]
      linarith
    · rintro h ⟨n, hn⟩
      refine h ⟨(g.1, n % M), (hm _).2 ⟨hg, Int.emod_nonneg _ (by positivity), Int.emod_lt_of_pos _ (by positivity)⟩, ?_⟩
      rw [o2_equal_iff]
      obtain ⟨m, hm'⟩ := (step_congr hM (n % M) n).2 (by simp)
      refine ⟨rfl, m, ?_⟩
      simp only
      rw [hm']
      linarith

/-- **C07, O(2).** The accepted ids are `(None, -1)`, `(None, M)`, `(axis, -1)` and `(axis, M)` with
`M ≥ 1` and `0 ≤ axis < 2π/M`; they return `SO(2)`, `C_M`, `O(2)`, `D_M` (`C_2` for `M = 1`); the
parent map is an injective homomorphism and the child map its partial inverse modulo `2π`.

Partial: the value of `child` is shown to be an element of the subgroup only if the angle of the argument lies in
`[0, 2π)`; the angles produced by `combine` and `inverse` need not (`c07_o2_child_unreduced`). -/
theorem c07_o2_subgroup_partial (axis : Option ℝ) (order : ℤ) :
    ((O2.subgroup axis order).isSome ↔
      order = -1 ∨ (0 < order ∧ ∀ a, axis = some a → 0 ≤ a ∧ a < 2 * π / order)) ∧
    ∀ S, O2.subgroup axis order = some S → S.Named axis order ∧ S.Correct (fun g => Reduced g.2) := by
  constructor
  · unfold O2.subgroup
    cases axis with
    | none =>
      simp only [reduceCtorEq, false_implies, implies_true, and_true]
      split_ifs <;> simp <;> omega
    | some a =>
      simp only [Option.some.injEq, forall_eq']
      by_cases h : 0 ≤ a ∧ a < 2 * π / order
      · simp only [h, true_or, not_true_eq_false, false_or, and_true]
        split_ifs <;> simp <;> omega
      · simp only [h, false_or, and_false, or_false]
        split_ifs <;> simp <;> omega
  · intro S h
    unfold O2.subgroup at h
    cases axis with
    | none =>
      simp only at h
      split_ifs at h with h1 h2
      · cases h
        exact ⟨⟨rfl, h1⟩, O2.so2_correct _⟩
      · cases h
        obtain ⟨M, rfl⟩ := Int.eq_ofNat_of_zero_le (by omega : 0 ≤ order)
        exact ⟨Or.inl ⟨rfl, by simp⟩, by simpa using O2.cyc_correct (by omega : 0 < M)⟩
    | some a =>
      simp only at h
      split_ifs at h with h1 h2 h3 h4
      · cases h
        exact ⟨⟨rfl, h2⟩, O2.o2_correct a _⟩
      · cases h
        exact ⟨Or.inr ⟨rfl, h3, rfl⟩, O2.flip_correct a _⟩
      · cases h
        obtain ⟨M, rfl⟩ := Int.eq_ofNat_of_zero_le (by omega : 0 ≤ order)
        push Not at h1
        have h5 : 0 ≤ a ∧ a < 2 * π / (M : ℤ) := by
          rcases h1.1 with h | h
          · exact h
          · omega
        exact ⟨⟨rfl, h4, by simp⟩, by simpa using O2.dih_correct (by omega : 0 < M) (by simpa using h5)⟩

example : ∃ p c, O2.subgroup (some (π / 4)) 3 = some (.dih 3 p c) ∧ p (1, 0) = (1, π / 4) := by
  have h : (O2.subgroup (some (π / 4)) 3).isSome := (c07_o2_subgroup_partial _ _).1.2
    (Or.inr ⟨by norm_num, by
      rintro a h; cases h
      constructor
      · positivity
      · have := Real.pi_pos; push_cast; linarith⟩)
  obtain ⟨S, hS⟩ := Option.isSome_iff_exists.1 h
  have hS' := hS
  unfold O2.subgroup at hS
  simp only at hS
  rw [if_neg (by intro hc; rw [if_pos hc] at hS; cases hS), if_neg (by norm_num), if_neg (by norm_num),
    if_pos (by norm_num)] at hS
  cases hS
  exact ⟨_, _, hS', by simp⟩

/-- The elements of `O(2)` are not reduced by `combine`, and then `child` can return a value that is
not an element of the subgroup: the square of the rotation by `3π/2` is `(0, 3π)`, to which the
subgroup `C_4` assigns `6`. -/
theorem c07_o2_child_unreduced : ∃ p c a, O2.subgroup none 4 = some (.cyc 4 p c) ∧
    c (O2.combine (p 3) (p 3)) = some a ∧ ¬ (Cyclic.grp 4).isEl a := by
  have hS : O2.subgroup none 4 = some (.cyc 4 (fun e => (0, e * 2 * π / (4 : ℤ)))
        (fun e => if e.1 ≠ 0 ∨ ¬ cycleEq e.2 0 (2 * π / (4 : ℤ)) then none
          else some (round (e.2 * (4 : ℤ) / (2 * π))))) := by
    simp [O2.subgroup]
  refine ⟨_, _, 6, hS, ?_, by rw [Cyclic.isEl_iff]; omega⟩
  have h : (O2.combine ((0 : ℤ), ((3 : ℤ) : ℝ) * 2 * π / (4 : ℤ)) ((0 : ℤ), ((3 : ℤ) : ℝ) * 2 * π / (4 : ℤ)))
      = ((0 : ℤ), ((6 : ℤ) : ℝ) * (2 * π / ((4 : ℕ) : ℝ))) := by
    refine Prod.ext (by simp [O2.combine]) ?_
    simp only [O2.combine]; push_cast; norm_num; ring
  simp only [h]
  have h2 : cycleEq (((6 : ℤ) : ℝ) * (2 * π / ((4 : ℕ) : ℝ))) 0 (2 * π / ((4 : ℕ) : ℝ)) :=
    (cycleEq_iff _ _ (step_pos (by norm_num))).2 ⟨6, by simp⟩
  have h3 := round_step (M := 4) (by norm_num) 6
  push_cast at h2 h3 ⊢
  rw [if_neg (by simp [h2]), h3]

end E2
