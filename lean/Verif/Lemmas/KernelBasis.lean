import Verif.Lemmas.Kernels
import Verif.Lemmas.TrigSum
import Verif.Props.Offsets
import Mathlib.LinearAlgebra.LinearIndependent.Lemmas
import Mathlib.Algebra.BigOperators.Field

/-!
# Orthogonality of the angular basis elements
-/

set_option linter.unusedSimpArgs false

namespace E2

open Finset Mat Real

/-- Averages of a cosine over `T` equally spaced angles. -/
theorem sum_cos_shift {T : ℕ} {k : ℤ} (hk : |k| < (T : ℤ)) (δ : ℝ) :
    ∑ j ∈ range T, cos (k * (j * (2 * π / T)) + δ) = if k = 0 then T * cos δ else 0 := by
  have hT : 0 < T := by
    have := abs_nonneg k
    omega
  have h1 := sum_cos_int T hT k
  have h2 := sum_sin_int T hT k
  have e : ∀ j : ℕ, cos (k * (j * (2 * π / T)) + δ) = cos (j * k * (2 * π / T)) * cos δ - sin (j * k * (2 * π / T)) * sin δ := by
    intro j
    rw [Real.cos_add, show (k : ℝ) * (j * (2 * π / T)) = j * k * (2 * π / T) by ring]
  simp only [e]
  rw [Finset.sum_sub_distrib, ← Finset.sum_mul, ← Finset.sum_mul, h1, h2]
  have hd : (T : ℤ) ∣ k ↔ k = 0 := by
    constructor
    · intro h
      exact Int.eq_zero_of_abs_lt_dvd h hk
    · rintro rfl; exact dvd_zero _
  by_cases h0 : k = 0
  · simp [h0]
  · rw [if_neg (fun h => h0 (hd.1 h)), if_neg h0]; ring

theorem sum_sin_shift {T : ℕ} {k : ℤ} (hk : |k| < (T : ℤ)) (δ : ℝ) :
    ∑ j ∈ range T, sin (k * (j * (2 * π / T)) + δ) = if k = 0 then T * sin δ else 0 := by
  have := sum_cos_shift hk (δ - π / 2)
  have e : ∀ x : ℝ, cos (x + (δ - π / 2)) = sin (x + δ) := by
    intro x
    rw [← Real.cos_sub_pi_div_two]
    congr 1; ring
  simp only [e] at this
  rw [this, Real.cos_sub_pi_div_two]

/-- The conditions on the elements of a basis of shape `(so, si)`. -/
structure ElemShape (so si : ℕ) (e : AngElem) : Prop where
  gamma : e.gamma = 0 ∨ e.gamma = π / 2
  s : e.s = 0 ∨ e.s = 1
  s0 : ¬ (so = 2 ∧ si = 2) → e.s = 0
  pos : so = 1 → si = 1 → 0 ≤ e.mu ∧ (e.mu = 0 → e.gamma = 0)

/-- The pointwise scalar product of two elements. -/
noncomputable def inner (so si : ℕ) (e e' : AngElem) (φ : ℝ) : ℝ :=
  ∑ i ∈ range so, ∑ j ∈ range si, angMat so si e φ i j * angMat so si e' φ i j

theorem inner_22 (e e' : AngElem) (φ : ℝ) : inner 2 2 e e' φ =
    (1 + (if e.s = 0 then 1 else -1) * (if e'.s = 0 then 1 else -1)) * cos (((e.mu - e'.mu : ℤ) : ℝ) * φ + (e.gamma - e'.gamma)) := by
  have h : ((e.mu - e'.mu : ℤ) : ℝ) * φ + (e.gamma - e'.gamma) = (e.mu * φ + e.gamma) - (e'.mu * φ + e'.gamma) := by
    push_cast; ring
  rw [h, Real.cos_sub]
  simp only [inner, Finset.sum_range_succ, Finset.sum_range_zero, angMat, psichi]
  by_cases h0 : e.s = 0 <;> by_cases h1 : e'.s = 0 <;> simp [h0, h1, m2] <;> ring

theorem inner_12 (e e' : AngElem) (φ : ℝ) : inner 1 2 e e' φ =
    cos (((e.mu - e'.mu : ℤ) : ℝ) * φ + (e.gamma - e'.gamma)) := by
  have h : ((e.mu - e'.mu : ℤ) : ℝ) * φ + (e.gamma - e'.gamma) = (e.mu * φ + e.gamma) - (e'.mu * φ + e'.gamma) := by
    push_cast; ring
  rw [h, Real.cos_sub]
  simp [inner, Finset.sum_range_succ, angMat]

theorem inner_21 (e e' : AngElem) (φ : ℝ) : inner 2 1 e e' φ =
    cos (((e.mu - e'.mu : ℤ) : ℝ) * φ + (e.gamma - e'.gamma)) := by
  have h : ((e.mu - e'.mu : ℤ) : ℝ) * φ + (e.gamma - e'.gamma) = (e.mu * φ + e.gamma) - (e'.mu * φ + e'.gamma) := by
    push_cast; ring
  rw [h, Real.cos_sub]
  simp [inner, Finset.sum_range_succ, angMat]

theorem inner_11 (e e' : AngElem) (φ : ℝ) : inner 1 1 e e' φ =
    (cos (((e.mu - e'.mu : ℤ) : ℝ) * φ + (e.gamma - e'.gamma)) + cos (((e.mu + e'.mu : ℤ) : ℝ) * φ + (e.gamma + e'.gamma))) / 2 := by
  have h : ((e.mu - e'.mu : ℤ) : ℝ) * φ + (e.gamma - e'.gamma) = (e.mu * φ + e.gamma) - (e'.mu * φ + e'.gamma) := by
    push_cast; ring
  have h' : ((e.mu + e'.mu : ℤ) : ℝ) * φ + (e.gamma + e'.gamma) = (e.mu * φ + e.gamma) + (e'.mu * φ + e'.gamma) := by
    push_cast; ring
  rw [h, h', Real.cos_sub, Real.cos_add (e.mu * φ + e.gamma)]
  simp [inner, Finset.sum_range_succ, angMat, m1]

/-- Two elements with different parameters are orthogonal. -/
theorem inner_ne {so si : ℕ} (hso : so = 1 ∨ so = 2) (hsi : si = 1 ∨ si = 2) {e e' : AngElem} (h : ElemShape so si e) (h' : ElemShape so si e')
    (hne : e.mu = e'.mu → e.gamma = e'.gamma → e.s ≠ e'.s) {T : ℕ} (hT : |e.mu| + |e'.mu| < (T : ℤ)) :
    ∑ j ∈ range T, inner so si e e' (j * (2 * π / T)) = 0 := by
  have hsub : |e.mu - e'.mu| < (T : ℤ) := lt_of_le_of_lt (abs_sub _ _) hT
  have hadd : |e.mu + e'.mu| < (T : ℤ) := lt_of_le_of_lt (abs_add_le _ _) hT
  have hγ : e.gamma ≠ e'.gamma → cos (e.gamma - e'.gamma) = 0 := by
    intro hn
    rcases h.gamma with a | a <;> rcases h'.gamma with b | b <;> simp [a, b] at hn ⊢
  rcases hso with rfl | rfl <;> rcases hsi with rfl | rfl
  · simp only [inner_11, ← Finset.sum_div, Finset.sum_add_distrib]
    rw [sum_cos_shift hsub, sum_cos_shift hadd]
    have s0 := h.s0 (by omega)
    have s0' := h'.s0 (by omega)
    have p := h.pos rfl rfl
    have p' := h'.pos rfl rfl
    by_cases hm : e.mu - e'.mu = 0
    · have hm' : e.mu = e'.mu := by omega
      have hg : e.gamma ≠ e'.gamma := fun hg => hne hm' hg (by rw [s0, s0'])
      rw [if_pos hm, hγ hg]
      by_cases hz : e.mu + e'.mu = 0
      · exact absurd ((p.2 (by omega)).trans (p'.2 (by omega)).symm) hg
      · rw [if_neg hz]; simp
    · rw [if_neg hm, if_neg (by omega)]; simp
  · simp only [inner_12]
    rw [sum_cos_shift hsub]
    have s0 := h.s0 (by omega)
    have s0' := h'.s0 (by omega)
    by_cases hm : e.mu - e'.mu = 0
    · rw [if_pos hm, hγ (fun hg => hne (by omega) hg (by rw [s0, s0']))]; simp
    · rw [if_neg hm]
  · simp only [inner_21]
    rw [sum_cos_shift hsub]
    have s0 := h.s0 (by omega)
    have s0' := h'.s0 (by omega)
    by_cases hm : e.mu - e'.mu = 0
    · rw [if_pos hm, hγ (fun hg => hne (by omega) hg (by rw [s0, s0']))]; simp
    · rw [if_neg hm]
  · simp only [inner_22]
    rw [← Finset.mul_sum, sum_cos_shift hsub]
    by_cases hs : e.s = e'.s
    · by_cases hm : e.mu - e'.mu = 0
      · rw [if_pos hm, hγ (fun hg => hne (by omega) hg hs)]; simp
      · rw [if_neg hm]; simp
    · have : (1 : ℝ) + (if e.s = 0 then 1 else -1) * (if e'.s = 0 then 1 else -1) = 0 := by
        rcases h.s with a | a <;> rcases h'.s with b | b <;> simp [a, b] at hs ⊢
      rw [this]; simp

theorem inner_self {so si : ℕ} (hso : so = 1 ∨ so = 2) (hsi : si = 1 ∨ si = 2) {e : AngElem} (h : ElemShape so si e)
    {T : ℕ} (hT : |e.mu| + |e.mu| < (T : ℤ)) :
    ∑ j ∈ range T, inner so si e e (j * (2 * π / T)) ≠ 0 := by
  have hsub : |e.mu - e.mu| < (T : ℤ) := lt_of_le_of_lt (abs_sub _ _) hT
  have hadd : |e.mu + e.mu| < (T : ℤ) := lt_of_le_of_lt (abs_add_le _ _) hT
  have hT0 : 0 < T := by
    have := abs_nonneg e.mu
    omega
  have hT' : (T : ℝ) ≠ 0 := by positivity
  rcases hso with rfl | rfl <;> rcases hsi with rfl | rfl
  · simp only [inner_11, ← Finset.sum_div, Finset.sum_add_distrib]
    rw [sum_cos_shift hsub, sum_cos_shift hadd, if_pos (sub_self _)]
    have p := h.pos rfl rfl
    split_ifs with h0
    · rw [p.2 (by omega)]; simp [hT']
    · simp [hT']
  · simp only [inner_12]
    rw [sum_cos_shift hsub, if_pos (sub_self _)]
    simp [hT']
  · simp only [inner_21]
    rw [sum_cos_shift hsub, if_pos (sub_self _)]
    simp [hT']
  · simp only [inner_22]
    rw [← Finset.mul_sum, sum_cos_shift hsub, if_pos (sub_self _)]
    rcases h.s with a | a <;> simp [a, hT']

/-- Distinct parameters. -/
def KeyNe (e e' : AngElem) : Prop := e.mu = e'.mu → e.gamma = e'.gamma → e.s ≠ e'.s

theorem indep_of_shape {so si : ℕ} (hso : so = 1 ∨ so = 2) (hsi : si = 1 ∨ si = 2) (axis : ℝ) {l : List AngElem}
    (hl : ∀ e ∈ l, ElemShape so si e) (hp : l.Pairwise KeyNe) :
    LinearIndependent ℝ fun (k : Fin l.length) (φ : ℝ) (i : Fin so) (j : Fin si) => angSample axis so si l[k] (some φ) i j := by
  rw [Fintype.linearIndependent_iff]
  intro g hg k0
  have hsum : ∀ (φ : ℝ) (i : ℕ), i < so → ∀ j, j < si → ∑ k : Fin l.length, g k * angMat so si l[k] φ i j = 0 := by
    intro φ i hi j hj
    have := congrFun (congrFun (congrFun hg (φ + axis)) ⟨i, hi⟩) ⟨j, hj⟩
    simpa [angSample] using this
  -- a number of angles larger than all frequencies
  obtain ⟨T, hT⟩ : ∃ T : ℕ, ∀ k k' : Fin l.length, |(l[k]).mu| + |(l[k']).mu| < (T : ℤ) := by
    refine ⟨(2 * ∑ k : Fin l.length, |(l[k]).mu| + 1).toNat, fun k k' => ?_⟩
    have h1 : ∀ k : Fin l.length, |(l[k]).mu| ≤ ∑ k : Fin l.length, |(l[k]).mu| := fun k =>
      Finset.single_le_sum (f := fun k : Fin l.length => |(l[k]).mu|) (fun _ _ => abs_nonneg _) (Finset.mem_univ k)
    have := h1 k
    have := h1 k'
    have := abs_nonneg (l[k]).mu
    omega
  have hz : ∑ k : Fin l.length, g k * ∑ j ∈ range T, inner so si l[k] l[k0] (j * (2 * π / T)) = 0 := by
    have e : ∀ t : ℕ, ∑ k : Fin l.length, g k * inner so si l[k] l[k0] (t * (2 * π / T)) = 0 := by
      intro t
      simp only [inner, Finset.mul_sum]
      rw [Finset.sum_comm]
      refine Finset.sum_eq_zero fun i hi => ?_
      rw [Finset.sum_comm]
      refine Finset.sum_eq_zero fun j hj => ?_
      have := hsum (t * (2 * π / T)) i (Finset.mem_range.1 hi) j (Finset.mem_range.1 hj)
      simp only [← _root_.mul_assoc]
      rw [← Finset.sum_mul, this, zero_mul]
    simp only [Finset.mul_sum]
    rw [Finset.sum_comm]
    exact Finset.sum_eq_zero fun t _ => e t
  rw [Finset.sum_eq_single k0] at hz
  · rcases mul_eq_zero.1 hz with h | h
    · exact h
    · exact absurd h (inner_self hso hsi (hl _ (List.getElem_mem _)) (hT k0 k0))
  · intro k _ hk
    refine mul_eq_zero_of_right _ (inner_ne hso hsi (hl _ (List.getElem_mem _)) (hl _ (List.getElem_mem _)) ?_ (hT k k0))
    have hpair := List.pairwise_iff_getElem.1 hp
    rcases lt_or_gt_of_ne (fun h => hk (Fin.ext h) : (k : ℕ) ≠ k0) with h | h
    · exact hpair k k0 k.2 k0.2 h
    · intro h1 h2 h3
      exact hpair k0 k k0.2 k.2 h h1.symm h2.symm h3.symm
  · intro h; exact absurd (Finset.mem_univ _) h

theorem offsetLoop_nodup {k N : ℤ} (hN : 0 < N) {maxOff maxFreq : Option ℕ} {nonneg : Bool} {keep : ℤ → Prop} [DecidablePred keep]
    {gamma : ℝ} {s : ℤ} {l : List AngElem} (h : offsetLoop k N maxOff maxFreq nonneg keep gamma s = some l) : l.Pairwise KeyNe := by
  unfold offsetLoop at h
  split at h
  · exact absurd h (by simp)
  · rename_i ts hts
    split_ifs at h
    cases h
    have hnd : ts.Nodup := by
      unfold offsets at hts
      rw [if_neg (by omega)] at hts
      split_ifs at hts <;>
      · dsimp only at hts
        cases hts
        exact nodup_pyRange _ _
    rw [List.pairwise_map]
    refine (hnd.filter _).imp ?_
    intro a b hab h1 h2
    exfalso
    apply hab
    have : a * N = b * N := by simpa using h1
    exact mul_right_cancel₀ hN.ne' this

theorem offsetLoop_nonneg {k N : ℤ} (hN : 0 < N) {maxOff : Option ℕ} {F : ℕ} {keep : ℤ → Prop} [DecidablePred keep]
    {gamma : ℝ} {s : ℤ} {l : List AngElem} (h : offsetLoop k N maxOff (some F) true keep gamma s = some l) {e : AngElem} (he : e ∈ l) :
    0 ≤ e.mu := by
  obtain ⟨ts, h1, -, h2⟩ := c14_offsets k N hN maxOff F true
  unfold offsetLoop at h
  rw [h1] at h
  simp only at h
  split_ifs at h
  cases h
  obtain ⟨t, ht, rfl⟩ := List.mem_map.1 he
  exact ((h2 (k + t * N)).1 (List.mem_map.2 ⟨t, (List.mem_filter.1 ht).1, rfl⟩)).2.2.1 rfl

theorem concatOpt_two {α : Type} {a b : Option (List α)} {l : List α} (h : concatOpt [a, b] = some l) :
    ∃ x y, a = some x ∧ b = some y ∧ l = x ++ y := by
  cases a <;> cases b <;> simp [concatOpt] at h
  exact ⟨_, _, rfl, rfl, h.symm⟩

theorem concatOpt_four {α : Type} {a b c d : Option (List α)} {l : List α} (h : concatOpt [a, b, c, d] = some l) :
    ∃ x y z w, a = some x ∧ b = some y ∧ c = some z ∧ d = some w ∧ l = x ++ (y ++ (z ++ w)) := by
  cases a <;> cases b <;> cases c <;> cases d <;> simp [concatOpt] at h
  exact ⟨_, _, _, _, rfl, rfl, rfl, rfl, h.symm⟩

/-- Sums of the values of an element over `T` equally spaced angles. -/
theorem sum_angMat {so si : ℕ} (hso : so = 1 ∨ so = 2) (hsi : si = 1 ∨ si = 2) {e : AngElem} {T : ℕ} (hT : |e.mu| < (T : ℤ)) {i j : ℕ}
    (hi : i < so) (hj : j < si) :
    ∑ t ∈ range T, angMat so si e (t * (2 * π / T)) i j = if e.mu = 0 then T * angMat so si e 0 i j else 0 := by
  have hc := sum_cos_shift hT e.gamma
  have hs := sum_sin_shift hT e.gamma
  rcases hso with rfl | rfl <;> rcases hsi with rfl | rfl
  · obtain rfl : i = 0 := by omega
    obtain rfl : j = 0 := by omega
    simpa [angMat, m1] using hc
  · obtain rfl : i = 0 := by omega
    obtain rfl | rfl : j = 0 ∨ j = 1 := by omega
    · simpa [angMat] using hc
    · simpa [angMat] using hs
  · obtain rfl : j = 0 := by omega
    obtain rfl | rfl : i = 0 ∨ i = 1 := by omega
    · simpa [angMat] using hc
    · simpa [angMat] using hs
  · obtain rfl | rfl : i = 0 ∨ i = 1 := by omega
    · obtain rfl | rfl : j = 0 ∨ j = 1 := by omega
      · simpa [angMat, psichi, m2] using hc
      · by_cases h0 : e.s = 0 <;> simp [angMat, psichi, m2, h0, hs] <;> (split_ifs <;> simp)
    · obtain rfl | rfl : j = 0 ∨ j = 1 := by omega
      · simpa [angMat, psichi, m2] using hs
      · by_cases h0 : e.s = 0 <;> simp [angMat, psichi, m2, h0, hc] <;> (split_ifs <;> simp)

theorem mul_sum_right {so : ℕ} {ι : Type} [Fintype ι] (A : Mat) (c : ι → ℝ) (B : ι → Mat) :
    (Mat.mul so A fun i j => ∑ k, c k * B k i j) = fun i j => ∑ k, c k * Mat.mul so A (B k) i j := by
  funext i j
  simp only [Mat.mul, Finset.mul_sum]
  rw [Finset.sum_comm]
  refine Finset.sum_congr rfl fun k _ => Finset.sum_congr rfl fun x _ => by ring

theorem mul_sum_left {si : ℕ} {ι : Type} [Fintype ι] (C : Mat) (c : ι → ℝ) (B : ι → Mat) :
    Mat.mul si (fun i j => ∑ k, c k * B k i j) C = fun i j => ∑ k, c k * Mat.mul si (B k) C i j := by
  funext i j
  simp only [Mat.mul, Finset.mul_sum, Finset.sum_mul]
  rw [Finset.sum_comm]
  refine Finset.sum_congr rfl fun k _ => Finset.sum_congr rfl fun x _ => by ring

theorem mul_sum_mul {so si : ℕ} {ι : Type} [Fintype ι] (A C : Mat) (c : ι → ℝ) (B : ι → Mat) :
    Mat.mul si (Mat.mul so A fun i j => ∑ k, c k * B k i j) C = fun i j => ∑ k, c k * Mat.mul si (Mat.mul so A (B k)) C i j := by
  rw [mul_sum_right, mul_sum_left C c fun k => Mat.mul so A (B k)]

/-- The point at distance `r` from the origin in the direction of the axis. -/
noncomputable def basePt (axis r : ℝ) : ℝ × ℝ := (r * cos axis, r * sin axis)

theorem radius_basePt (axis : ℝ) {r : ℝ} (hr : 0 ≤ r) : radius (basePt axis r) = r := by
  unfold radius basePt
  rw [show (r * cos axis) ^ 2 + (r * sin axis) ^ 2 = r ^ 2 * (cos axis ^ 2 + sin axis ^ 2) by ring, Real.cos_sq_add_sin_sq, mul_one,
    Real.sqrt_sq hr]

theorem rot_basePt (axis r α : ℝ) : rot α (basePt axis r) = (r * cos (axis + α), r * sin (axis + α)) := by
  simp only [rot, basePt, Real.cos_add, Real.sin_add]
  ext <;> ring

theorem refl_basePt (axis r : ℝ) : refl axis (basePt axis r) = basePt axis r := by
  have h1 : cos (2 * axis) * cos axis + sin (2 * axis) * sin axis = cos axis := by
    rw [← Real.cos_sub]; congr 1; ring
  have h2 : sin (2 * axis) * cos axis - cos (2 * axis) * sin axis = sin axis := by
    rw [← Real.sin_sub]; congr 1; ring
  simp only [refl, basePt]
  ext
  · simp only; linear_combination r * h1
  · simp only; linear_combination r * h2

theorem angSample_at {so si : ℕ} (axis : ℝ) (e : AngElem) {r θ : ℝ} (hr : 1e-9 ≤ r) :
    angSample axis so si e (angle (r * cos θ, r * sin θ)) = angMat so si e (θ - axis) := by
  have h0 : (0 : ℝ) < r := by
    have : (0 : ℝ) < 1e-9 := by norm_num
    linarith
  have hrad : radius (r * cos θ, r * sin θ) = r := radius_basePt θ h0.le
  obtain ⟨z, hz⟩ := arg_of_polar (p := (r * cos θ, r * sin θ)) h0 rfl rfl
  rw [angle, if_neg (by rw [hrad]; exact not_lt.2 hr), hz]
  simp only [angSample, reduceCtorEq, false_and, if_false, Option.getD_some]
  rw [show θ + z * (2 * π) - axis = θ - axis + z * (2 * π) by ring, angMat_periodic]

/-- A kernel whose restrictions to the circles, and whose value at the origin, are linear combinations of the elements is a linear combination of the
elements with coefficients depending on the radius. -/
theorem complete_of_off {so si : ℕ} (hso : so = 1 ∨ so = 2) (hsi : si = 1 ∨ si = 2) {axis : ℝ} {l : List AngElem} {κ : ℝ × ℝ → Mat}
    {c c0 : Fin l.length → ℝ → ℝ} (hc : ∀ r θ, 1e-9 ≤ r →
      MEq so si (κ (r * cos θ, r * sin θ)) fun i j => ∑ k, c k r * angMat so si l[k] (θ - axis) i j)
    (hc0 : ∀ r θ, 1e-9 ≤ r → MEq so si (κ (0, 0)) fun i j => ∑ k, c0 k r * angMat so si l[k] (θ - axis) i j) :
    ∃ c : Fin l.length → ℝ → ℝ, ∀ p, p = (0, 0) ∨ 1e-9 ≤ radius p →
      MEq so si (κ p) fun i j => ∑ k, polar (c k) (angSample axis so si l[k]) p i j := by
  refine ⟨fun k r => if r = 0 then c0 k 1 else c k r, fun p hp => ?_⟩
  rcases hp with rfl | hp
  · obtain ⟨T, hT⟩ : ∃ T : ℕ, ∀ k : Fin l.length, |(l[k]).mu| < (T : ℤ) := by
      refine ⟨(∑ k : Fin l.length, |(l[k]).mu| + 1).toNat, fun k => ?_⟩
      have := Finset.single_le_sum (f := fun k : Fin l.length => |(l[k]).mu|) (fun _ _ => abs_nonneg _) (Finset.mem_univ k)
      have := abs_nonneg (l[k]).mu
      omega
    intro i hi j hj
    have hr0 : radius (0, 0) = 0 := by simp [radius]
    have ha0 : angle (0, 0) = none := by rw [angle, if_pos (by rw [hr0]; norm_num)]
    simp only [polar, hr0, ha0, if_true]
    have hsum : ∑ t ∈ range (T + 1), κ (0, 0) i j
        = ∑ t ∈ range (T + 1), ∑ k, c0 k 1 * angMat so si l[k] (t * (2 * π / (T + 1 : ℕ))) i j := by
      refine Finset.sum_congr rfl fun t _ => ?_
      have := hc0 1 (t * (2 * π / (T + 1 : ℕ)) + axis) (by norm_num) i hi j hj
      simpa using this
    rw [Finset.sum_comm] at hsum
    simp only [← Finset.mul_sum] at hsum
    have hT' : ∀ k : Fin l.length, |(l[k]).mu| < ((T + 1 : ℕ) : ℤ) := fun k => by
      have := hT k
      push_cast; omega
    have hpos : ((T + 1 : ℕ) : ℝ) ≠ 0 := by positivity
    rw [Finset.sum_const, Finset.card_range, nsmul_eq_mul,
      Finset.sum_congr rfl fun k _ => by rw [sum_angMat hso hsi (hT' k) hi hj]] at hsum
    apply mul_left_cancel₀ hpos
    rw [hsum, Finset.mul_sum]
    refine Finset.sum_congr rfl fun k _ => ?_
    by_cases hmu : (l[k]).mu = 0
    · rw [if_pos hmu]
      simp only [angSample, hmu, ne_eq, not_true_eq_false, and_false, if_false]
      rw [angMat_const so si _ hmu 0 (Option.getD none 0 - axis)]
      ring
    · rw [if_neg hmu]
      simp only [angSample, hmu, ne_eq, not_false_eq_true, and_self, if_true, mul_zero]
  · have hpos : (0 : ℝ) < radius p := by
      have : (0 : ℝ) < 1e-9 := by norm_num
      linarith
    obtain ⟨h1, h2⟩ := polar_coords p
    have e1 : p = (radius p * cos (Complex.arg ⟨p.1, p.2⟩), radius p * sin (Complex.arg ⟨p.1, p.2⟩)) := Prod.ext h1 h2
    have := hc (radius p) (Complex.arg ⟨p.1, p.2⟩) hp
    rw [← e1] at this
    intro i hi j hj
    rw [this i hi j hj]
    refine Finset.sum_congr rfl fun k _ => ?_
    simp only [polar, if_neg hpos.ne']
    congr 1
    have := angSample_at (so := so) (si := si) axis l[k] (θ := Complex.arg ⟨p.1, p.2⟩) hp
    rw [← e1] at this
    rw [this]

/-- If the values of the elements at angle 0 span the possible values of a kernel on the axis, then every kernel satisfying the
constraint is a linear combination of the elements, with coefficients depending on the radius. -/
theorem complete_of_span {El : Type} {G : Grp El} {act : El → ℝ × ℝ → ℝ × ℝ} {so si : ℕ} (hso : so = 1 ∨ so = 2) (hsi : si = 1 ∨ si = 2)
    {ρo ρi : El → Mat} {axis : ℝ} {l : List AngElem} (rotEl : ℝ → El) (hel : ∀ α, G.isEl (rotEl α)) (hact : ∀ α p, act (rotEl α) p = rot α p)
    (h0 : ∀ g, G.isEl g → act g (0, 0) = (0, 0))
    (hl : ∀ e ∈ l, KernelConstraint G act so si ρo ρi (polar (fun _ => 1) (angSample axis so si e)))
    (hspan : ∀ κ, KernelConstraint G act so si ρo ρi κ → ∀ r, ∃ c : Fin l.length → ℝ,
      MEq so si (κ (basePt axis r)) fun i j => ∑ k, c k * angMat so si l[k] 0 i j)
    (κ : ℝ × ℝ → Mat) (hκ : KernelConstraint G act so si ρo ρi κ) :
    ∃ c : Fin l.length → ℝ → ℝ, ∀ p, p = (0, 0) ∨ 1e-9 ≤ radius p →
      MEq so si (κ p) fun i j => ∑ k, polar (c k) (angSample axis so si l[k]) p i j := by
  -- away from the origin
  have off : ∀ κ, KernelConstraint G act so si ρo ρi κ → ∃ c : Fin l.length → ℝ → ℝ, ∀ r θ, 1e-9 ≤ r →
      MEq so si (κ (r * cos θ, r * sin θ)) fun i j => ∑ k, c k r * angMat so si l[k] (θ - axis) i j := by
    intro κ hκ
    choose c hc using hspan κ hκ
    refine ⟨fun k r => c r k, fun r θ hr => ?_⟩
    have e1 : (r * cos θ, r * sin θ) = act (rotEl (θ - axis)) (basePt axis r) := by
      rw [hact, rot_basePt]; simp
    rw [e1]
    refine (hκ _ (hel _) _).trans ?_
    refine (((MEq.refl _).mul (hc r)).mul (MEq.refl _)).trans ?_
    rw [mul_sum_mul]
    intro i hi j hj
    refine Finset.sum_congr rfl fun k _ => ?_
    have h2 := hl l[k] (List.getElem_mem _) (rotEl (θ - axis)) (hel _) (basePt axis r) i hi j hj
    have e2 : ∀ p, polar (fun _ => 1) (angSample axis so si l[k]) p = angSample axis so si l[k] (angle p) := by
      intro p; funext a b; simp [polar]
    rw [e2, e2, ← e1, angSample_at axis _ hr] at h2
    rw [h2]
    rw [basePt, angSample_at axis _ hr, sub_self]
  obtain ⟨c, hc⟩ := off κ hκ
  -- at the origin
  obtain ⟨c0, hc0⟩ := off (fun _ => κ (0, 0)) (by
    intro g hg p
    have := hκ g hg (0, 0)
    rwa [h0 g hg] at this)
  exact complete_of_off hso hsi hc hc0

end E2
