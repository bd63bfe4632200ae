import Verif.Model.Kernels
import Mathlib.Tactic.Positivity

/-!
# C14: the frequencies enumerated for a kernel basis
-/

namespace E2

theorem mem_pyRange (a b t : ℤ) : t ∈ pyRange a b ↔ a ≤ t ∧ t < b := by
  simp only [pyRange, List.mem_map, List.mem_range]
  constructor
  · rintro ⟨i, hi, rfl⟩; omega
  · rintro ⟨h1, h2⟩
    exact ⟨(t - a).toNat, by omega, by omega⟩

theorem nodup_pyRange (a b : ℤ) : (pyRange a b).Nodup :=
  List.Nodup.map (fun i j h => by simpa using h) List.nodup_range

/-- Bounds on the offsets, as bounds on the frequencies. -/
theorem offset_bounds {k N : ℤ} (hN : 0 < N) (a b : ℤ) (t : ℤ) :
    ((((a - k : ℤ) : ℚ) / N ≤ t) ↔ a ≤ k + t * N) ∧ (((t : ℚ) ≤ ((b - k : ℤ) : ℚ) / N) ↔ k + t * N ≤ b) := by
  have h : (0 : ℚ) < N := by exact_mod_cast hN
  rw [div_le_iff₀ h, le_div_iff₀ h]
  constructor
  · rw [show ((t : ℚ) * N) = ((t * N : ℤ) : ℚ) by push_cast; ring, Int.cast_le]
    constructor <;> intro h <;> linarith
  · rw [show ((t : ℚ) * N) = ((t * N : ℤ) : ℚ) by push_cast; ring, Int.cast_le]
    constructor <;> intro h <;> linarith

/-- **C14.** With a maximum frequency `F`, the frequencies `k + t N` of the yielded offsets are exactly the integers congruent to
`k` modulo `N` of absolute value at most `F` (non-negative ones only if required), with an offset bounded by the maximum offset if there
is one, and each of them appears once. -/
theorem c14_offsets (k N : ℤ) (hN : 0 < N) (maxOff : Option ℕ) (F : ℕ) (nonneg : Bool) :
    ∃ l, offsets k N maxOff (some F) nonneg = some l ∧ (l.map fun t => k + t * N).Nodup ∧
      ∀ mu : ℤ, mu ∈ l.map (fun t => k + t * N) ↔
        mu ≡ k [ZMOD N] ∧ |mu| ≤ F ∧ (nonneg = true → 0 ≤ mu) ∧ ∀ O, maxOff = some O → |(mu - k) / N| ≤ (O : ℤ) := by
  have hmem : ∃ l, offsets k N maxOff (some F) nonneg = some l ∧ l.Nodup ∧ ∀ t, t ∈ l ↔
      ((if nonneg then 0 else -(F : ℤ)) ≤ k + t * N ∧ k + t * N ≤ F) ∧ ∀ O, maxOff = some O → |t| ≤ (O : ℤ) := by
    unfold offsets
    rw [if_neg (by omega), if_neg (by simp)]
    refine ⟨_, rfl, nodup_pyRange _ _, fun t => ?_⟩
    rw [mem_pyRange, Int.lt_add_one_iff]
    cases maxOff with
    | none =>
      simp only
      rw [Int.ceil_le, Int.le_floor, (offset_bounds hN _ F t).1, (offset_bounds hN 0 F t).2]
      simp
    | some O =>
      simp only
      rw [Int.ceil_le, Int.le_floor, max_le_iff, le_min_iff, (offset_bounds hN _ F t).1, (offset_bounds hN 0 F t).2]
      have e1 : (-(O : ℚ) ≤ t) ↔ -(O : ℤ) ≤ t := by
        rw [← Int.cast_natCast, ← Int.cast_neg, Int.cast_le]
      have e2 : ((t : ℚ) ≤ O) ↔ t ≤ (O : ℤ) := by
        rw [← Int.cast_natCast, Int.cast_le]
      rw [e1, e2]
      simp only [Option.some.injEq, forall_eq', abs_le]
      tauto
  obtain ⟨l, h1, h2, h3⟩ := hmem
  refine ⟨l, h1, h2.map fun a b h => ?_, fun mu => ?_⟩
  · exact Int.eq_of_mul_eq_mul_right hN.ne' (add_left_cancel h)
  · rw [List.mem_map]
    constructor
    · rintro ⟨t, ht, rfl⟩
      obtain ⟨⟨ha, hb⟩, hc⟩ := (h3 t).1 ht
      refine ⟨?_, ?_, ?_, ?_⟩
      · exact Int.ModEq.symm ((Int.modEq_iff_dvd).2 ⟨t, by ring⟩)
      · rw [abs_le]
        refine ⟨?_, hb⟩
        split_ifs at ha <;> omega
      · intro hn; rw [hn] at ha; simpa using ha
      · intro O hO
        rw [add_sub_cancel_left, Int.mul_ediv_cancel _ hN.ne']
        exact hc O hO
    · rintro ⟨ha, hb, hc, hd⟩
      obtain ⟨t, ht⟩ := (Int.modEq_iff_dvd).1 ha.symm
      refine ⟨t, (h3 t).2 ⟨?_, ?_⟩, by rw [_root_.mul_comm]; omega⟩
      · have e : k + t * N = mu := by rw [_root_.mul_comm]; omega
        rw [e]
        rw [abs_le] at hb
        refine ⟨?_, hb.2⟩
        split_ifs with h
        · exact hc h
        · exact hb.1
      · intro O hO
        have := hd O hO
        rwa [ht, Int.mul_ediv_cancel_left _ hN.ne'] at this

/-- **C14, no maximum frequency.** Then the offsets are those of absolute value at most the maximum offset, capped at 10000; the
non-negativity requirement has no effect. -/
theorem c14_offsets_without_frequency (k N : ℤ) (hN : 0 ≤ N) (O : ℕ) (nonneg : Bool) :
    ∃ l, offsets k N (some O) none nonneg = some l ∧ l.Nodup ∧
      ∀ t, t ∈ l ↔ |t| ≤ (O : ℤ) ∧ |t| ≤ 10000 := by
  unfold offsets
  rw [if_neg (by omega), if_neg (by simp)]
  refine ⟨_, rfl, nodup_pyRange _ _, fun t => ?_⟩
  rw [mem_pyRange, Int.lt_add_one_iff]
  simp only
  rw [Int.ceil_le, Int.le_floor, max_le_iff, le_min_iff]
  have e1 : (-(O : ℚ) ≤ t) ↔ -(O : ℤ) ≤ t := by
    rw [← Int.cast_natCast, ← Int.cast_neg, Int.cast_le]
  have e2 : ((t : ℚ) ≤ O) ↔ t ≤ (O : ℤ) := by
    rw [← Int.cast_natCast, Int.cast_le]
  have e3 : ((-10000 : ℚ) ≤ t) ↔ (-10000 : ℤ) ≤ t := by
    rw [show (-10000 : ℚ) = ((-10000 : ℤ) : ℚ) by norm_num, Int.cast_le]
  have e4 : ((t : ℚ) ≤ 10000) ↔ t ≤ (10000 : ℤ) := by
    rw [show (10000 : ℚ) = ((10000 : ℤ) : ℚ) by norm_num, Int.cast_le]
  rw [e1, e2, e3, e4, abs_le, abs_le]
  tauto

/-- The enumeration fails only if neither bound is given. -/
theorem c14_offsets_fail (k N : ℤ) (hN : 0 < N) (maxOff maxFreq : Option ℕ) (nonneg : Bool) :
    offsets k N maxOff maxFreq nonneg = none ↔ maxFreq = none ∧ maxOff = none := by
  unfold offsets
  rw [if_neg (by omega)]
  split_ifs with h
  · simp [h]
  · simp [h]

/-- Base frequency 2 modulo 5 up to 8: the frequencies -8, -3, 2, 7. -/
example : ∃ l, offsets 2 5 none (some 8) false = some l ∧ -8 ∈ l.map (fun t => 2 + t * 5) ∧
    7 ∈ l.map (fun t => 2 + t * 5) ∧ 12 ∉ l.map (fun t => 2 + t * 5) := by
  obtain ⟨l, h1, -, h3⟩ := c14_offsets 2 5 (by norm_num) none 8 false
  refine ⟨l, h1, (h3 _).2 ?_, (h3 _).2 ?_, fun h => ?_⟩
  · refine ⟨by decide, by norm_num, by simp, by simp⟩
  · refine ⟨by decide, by norm_num, by simp, by simp⟩
  · have := ((h3 _).1 h).2.1
    norm_num at this

end E2
