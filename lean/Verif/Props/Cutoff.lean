import Verif.Props.CutoffSpec
import Verif.Props.BandLimit

/-!
The policies for the frequencies of the rings (C63).
-/

namespace E2

theorem mod2_nat (n : ℕ) : mod2 (n : ℝ) = (n % 2 : ℕ) := by
  have h2 : 2 * ((n / 2 : ℕ) : ℝ) + ((n % 2 : ℕ) : ℝ) = n := by exact_mod_cast Nat.div_add_mod n 2
  have h3 : ((n % 2 : ℕ) : ℝ) ≤ 1 := by exact_mod_cast (by omega : n % 2 ≤ 1)
  have h4 : (0 : ℝ) ≤ ((n % 2 : ℕ) : ℝ) := Nat.cast_nonneg _
  have h : ⌊(n : ℝ) / 2⌋ = ((n / 2 : ℕ) : ℤ) := by
    rw [Int.floor_eq_iff]
    constructor <;> rw [Int.cast_natCast] <;> linarith
  rw [mod2, h, Int.cast_natCast]
  linarith

theorem basisRings_odd (m : ℕ) : basisRings (2 * m + 1) 1 none = (List.range (m + 1)).map fun r : ℕ => (r : ℝ) := by
  have h1 : (2 * m + 1 - 1) / 2 = m := by omega
  have h2 : (2 * m + 1 + 1) / 2 = m + 1 := by omega
  simp only [basisRings, linspace0, h1, h2, List.map_map]
  refine List.map_congr_left fun r hr => ?_
  rw [List.mem_range] at hr
  simp only [Function.comp_apply, Nat.cast_one, _root_.mul_one]
  split_ifs with h
  · rw [show r = 0 by omega, Nat.cast_zero]
  · have : ((m + 1 - 1 : ℕ) : ℝ) ≠ 0 := by
      rw [Nat.add_sub_cancel]
      exact_mod_cast (by omega : m ≠ 0)
    rw [Nat.add_sub_cancel] at this ⊢
    field_simp

/-- The table with the radius of the last ring. -/
theorem cutoffFun_limit (p : Policy) (k r : ℕ) : cutoffFun k (.inl (p.code : ℝ)) (r : ℝ) = p.limit (k / 2) r := by
  have hmod : mod2 ((r : ℝ) + 1) = ((r + 1) % 2 : ℕ) := by
    have := mod2_nat (r + 1)
    push_cast at this ⊢
    exact this
  have hval : r ≠ 0 → 2 * (r : ℝ) - mod2 ((r : ℝ) + 1) = ((if Even r then 2 * r - 1 else 2 * r : ℕ) : ℝ) := by
    intro h0
    rw [hmod]
    split_ifs with he
    · rw [Nat.even_iff] at he
      rw [show (r + 1) % 2 = 1 by omega, Nat.cast_sub (by omega)]
      push_cast
      ring
    · rw [Nat.not_even_iff] at he
      rw [show (r + 1) % 2 = 0 by omega]
      push_cast
      ring
  have hle : r ≠ 0 → ((if Even r then 2 * r - 1 else 2 * r : ℕ) : ℝ) ≤ 2 * (r : ℝ) := by
    intro _
    have : (if Even r then 2 * r - 1 else 2 * r) ≤ 2 * r := by split_ifs <;> omega
    exact_mod_cast this
  have hr0 : ((r : ℝ) = 0) ↔ r = 0 := Nat.cast_eq_zero
  have hrk : ((r : ℝ) = ((k / 2 : ℕ) : ℝ)) ↔ r = k / 2 := Nat.cast_inj
  cases p with
  | wide =>
    rw [cutoffFun, if_neg (by norm_num [Policy.code]), if_neg (by norm_num [Policy.code]), if_pos (by norm_num [Policy.code]), manualFco1, Policy.limit]
    simp only [hr0, hrk]
    split_ifs with h1 h2
    · simp
    · rw [min_eq_right]
      · norm_num
      · have : (1 : ℝ) ≤ r := by exact_mod_cast (by omega : 1 ≤ r)
        linarith
    · rw [hval h1, if_pos (by assumption), min_eq_right]
      have := hle h1
      rwa [if_pos (by assumption)] at this
    · rw [hval h1, if_neg (by assumption), min_eq_right]
      have := hle h1
      rwa [if_neg (by assumption)] at this
  | medium =>
    rw [cutoffFun, if_neg (by norm_num [Policy.code]), if_pos (by norm_num [Policy.code]), manualFco2, Policy.limit]
    simp only [hr0, hrk]
    split_ifs with h1 h2
    · simp
    · rw [min_eq_right]
      · norm_num
      · have : (1 : ℝ) ≤ r := by exact_mod_cast (by omega : 1 ≤ r)
        linarith
    · rw [hval h1, if_pos (by assumption), min_eq_right]
      have := hle h1
      rwa [if_pos (by assumption)] at this
    · rw [hval h1, if_neg (by assumption), min_eq_right]
      have := hle h1
      rwa [if_neg (by assumption)] at this
  | narrow =>
    rw [cutoffFun, if_pos (by norm_num [Policy.code]), manualFco3, Policy.limit]
    simp only [hr0, hrk]
    split_ifs <;> simp

/-- **C63**: the default filters of odd size without dilation have the rings `0, ..., size // 2`, and what the filter keeps of a basis are the frequencies up to
the limit of the policy on each ring.  Missing: even sizes and dilated filters, where it is false (`c63_even_wrong`, `c63_dilation_wrong`). -/
theorem c63_policies_partial (p : Policy) (m : ℕ) : ∃ rings sigma fco F,
    computeBasisParams (2 * m + 1) 1 (.inl (p.code : ℝ)) none none = some (rings, sigma, fco, F) ∧
      rings = (List.range (m + 1)).map (fun r : ℕ => (r : ℝ)) ∧
      (∀ (l : List AngElem) (r : ℕ) (e : AngElem), r ≤ m → (((r : ℝ), e) ∈ bandKept fco rings l ↔ e ∈ l ∧ e.mu.natAbs ≤ p.limit m r)) ∧
      (∀ r ≤ m, (p.limit m r : ℤ) ≤ F) := by
  obtain ⟨rings, sigma, F, h1, h2, -, -, h3⟩ := c52_defaults (2 * m + 1) 1 (by omega) (.inl (p.code : ℝ))
  have hm : (2 * m + 1) / 2 = m := by omega
  have hrings : rings = (List.range (m + 1)).map (fun r : ℕ => (r : ℝ)) := by
    rw [← basisRings_odd]
    unfold computeBasisParams at h1
    dsimp only at h1
    split_ifs at h1 with hc
    rw [Option.map_eq_some_iff] at h1
    obtain ⟨F', -, h⟩ := h1
    exact (Prod.ext_iff.1 h).1.symm
  have hval : ∀ r : ℕ, cutoffFun (2 * m + 1) (.inl (p.code : ℝ)) (r : ℝ) = p.limit m r := fun r => by rw [cutoffFun_limit, hm]
  have hmem : ∀ r ≤ m, (r : ℝ) ∈ rings := fun r hr => by
    rw [hrings]
    exact List.mem_map.2 ⟨r, List.mem_range.2 (by omega), rfl⟩
  refine ⟨rings, sigma, _, F, h1, hrings, fun l r e hr => ?_, fun r hr => ?_⟩
  · rw [c52_kept_iff, hval, ← Int.cast_abs, Int.abs_eq_natAbs]
    constructor
    · rintro ⟨-, h, h'⟩
      exact ⟨h, by exact_mod_cast h'⟩
    · rintro ⟨h, h'⟩
      exact ⟨hmem r hr, h, by exact_mod_cast h'⟩
  · have := maximumFrequency_ge h3 (hmem r hr) (mu := (p.limit m r : ℤ)) (by rw [hval]; simp)
    simpa using this

/-- Above the radius 0 the limits are between 1 and twice the radius (for the narrow policy between 1 and 2). -/
theorem c63_range (p : Policy) (m r : ℕ) (hr : 0 < r) : 1 ≤ p.limit m r ∧ p.limit m r ≤ 2 * r := by
  unfold Policy.limit
  rw [if_neg (by omega)]
  cases p <;> split_ifs <;> simp <;> omega

/-- A narrower policy keeps less. -/
theorem c63_order (m r : ℕ) : Policy.limit .narrow m r ≤ Policy.limit .medium m r ∧ Policy.limit .medium m r ≤ Policy.limit .wide m r := by
  unfold Policy.limit
  by_cases h0 : r = 0
  · simp [h0]
  by_cases hm : r = m
  · rw [if_neg h0, if_neg h0, if_neg h0, if_pos hm, if_pos hm, if_pos hm]
    simp
  · by_cases he : Even r
    · rw [Nat.even_iff] at he
      simp only [h0, hm, if_false, Nat.even_iff, he, if_true]
      omega
    · simp only [h0, hm, if_false, he]
      omega

/-- Even sizes: the default rings of a filter of size 6 have the radii 0, 1 and 2, but the last one is not recognised and keeps frequency 3 instead of 2. -/
theorem c63_even_wrong : basisRings 6 1 none = [0, 1, 2] ∧ cutoffFun 6 (.inl (Policy.code .wide : ℝ)) 2 = 3 ∧ Policy.limit .wide 2 2 = 2 := by
  refine ⟨?_, ?_, rfl⟩
  · simp [basisRings, linspace0, List.range_succ]
  · have := cutoffFun_limit .wide 6 2
    rw [show Policy.limit .wide (6 / 2) 2 = 3 from by simp [Policy.limit]] at this
    exact_mod_cast this

/-- Dilated filters: the default rings of a filter of size 3 with dilation 2 have the radii 0 and 2, but the tables compare them with the radius of the filter
without dilation: the last ring keeps frequency 3 instead of 2 (resp. 1, and 2 instead of 1). -/
theorem c63_dilation_wrong : basisRings 3 2 none = [0, 2] ∧ cutoffFun 3 (.inl (Policy.code .wide : ℝ)) 2 = 3 ∧
    cutoffFun 3 (.inl (Policy.code .medium : ℝ)) 2 = 3 ∧ cutoffFun 3 (.inl (Policy.code .narrow : ℝ)) 2 = 2 := by
  refine ⟨?_, ?_, ?_, ?_⟩
  · simp [basisRings, linspace0, List.range_succ]
  · have := cutoffFun_limit .wide 3 2
    rw [show Policy.limit .wide (3 / 2) 2 = 3 from by simp [Policy.limit]] at this
    exact_mod_cast this
  · have := cutoffFun_limit .medium 3 2
    rw [show Policy.limit .medium (3 / 2) 2 = 3 from by simp [Policy.limit]] at this
    exact_mod_cast this
  · have := cutoffFun_limit .narrow 3 2
    rw [show Policy.limit .narrow (3 / 2) 2 = 2 from by simp [Policy.limit]] at this
    exact_mod_cast this

/-- The limits of a filter of size 7 under the default policy. -/
example : (List.range 4).map (Policy.limit .wide 3) = [0, 2, 3, 2] := by simp [List.range_succ, Policy.limit]

end E2
