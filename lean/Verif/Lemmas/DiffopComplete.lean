import Verif.Lemmas.KernelBasis
import Verif.Props.BandSpec
import Verif.Props.Diffops
import Mathlib.LinearAlgebra.Span.Basic
import Mathlib.Algebra.Polynomial.Roots

/-!
# Functions of one frequency, homogeneous polynomials on the circle, and products with the powers of the Laplacian
-/

set_option linter.unusedSimpArgs false

namespace E2

open Finset Mat Real

/-- The functions of an angle with frequency `μ`. -/
def Freq (μ : ℕ) : Submodule ℝ (ℝ → ℝ) := Submodule.span ℝ {f | ∃ δ : ℝ, f = fun φ => cos (μ * φ + δ)}

/-- The trigonometric polynomials of degree at most `d` whose frequencies have the parity of `d`. -/
def Trig (d : ℕ) : Submodule ℝ (ℝ → ℝ) := Submodule.span ℝ {f | ∃ ν : ℕ, ν ≤ d ∧ ν % 2 = d % 2 ∧ ∃ δ : ℝ, f = fun φ => cos (ν * φ + δ)}

theorem freq_int (μ : ℤ) (δ : ℝ) : (fun φ => cos (μ * φ + δ)) ∈ Freq μ.natAbs := by
  rcases Int.natAbs_eq μ with h | h
  · refine Submodule.subset_span ⟨δ, ?_⟩
    funext φ
    rw [show ((μ.natAbs : ℕ) : ℝ) = (μ : ℝ) by rw [Nat.cast_natAbs, Int.cast_abs]; rw [h]; simp]
  · refine Submodule.subset_span ⟨-δ, ?_⟩
    funext φ
    have e : ((μ.natAbs : ℕ) : ℝ) = -(μ : ℝ) := by
      have : (μ : ℝ) = -((μ.natAbs : ℕ) : ℝ) := by exact_mod_cast congrArg (Int.cast : ℤ → ℝ) h
      rw [this, neg_neg]
    rw [e, ← Real.cos_neg]
    congr 1; ring

/-- The product of a trigonometric polynomial and `cos (φ + ε)`. -/
theorem Trig.mul_cos {d : ℕ} {f : ℝ → ℝ} (hf : f ∈ Trig d) (ε : ℝ) : (fun φ => cos (φ + ε) * f φ) ∈ Trig (d + 1) := by
  induction hf using Submodule.span_induction with
  | mem f h =>
    obtain ⟨ν, h1, h2, δ, rfl⟩ := h
    have e : (fun φ => cos (φ + ε) * cos (ν * φ + δ)) = (1 / 2 : ℝ) • (fun φ => cos ((ν + 1 : ℕ) * φ + (δ + ε))) +
        (1 / 2 : ℝ) • fun φ => cos (((ν : ℤ) - 1 : ℤ) * φ + (δ - ε)) := by
      funext φ
      simp only [Pi.add_apply, Pi.smul_apply, smul_eq_mul]
      rw [show ((ν + 1 : ℕ) : ℝ) * φ + (δ + ε) = (ν * φ + δ) + (φ + ε) by push_cast; ring,
        show (((ν : ℤ) - 1 : ℤ) : ℝ) * φ + (δ - ε) = (ν * φ + δ) - (φ + ε) by push_cast; ring, Real.cos_add (ν * φ + δ), Real.cos_sub (ν * φ + δ)]
      ring
    rw [e]
    refine Submodule.add_mem _ (Submodule.smul_mem _ _ (Submodule.subset_span ⟨ν + 1, by omega, by omega, _, rfl⟩))
      (Submodule.smul_mem _ _ ?_)
    have hfr := freq_int ((ν : ℤ) - 1) (δ - ε)
    refine (Submodule.span_mono ?_ : Freq _ ≤ Trig (d + 1)) hfr
    rintro f ⟨δ', rfl⟩
    exact ⟨((ν : ℤ) - 1).natAbs, by omega, by omega, δ', rfl⟩
  | zero =>
    have : (fun φ => cos (φ + ε) * (0 : ℝ → ℝ) φ) = 0 := by funext φ; simp
    rw [this]; exact Submodule.zero_mem _
  | add f g _ _ hf hg =>
    have : (fun φ => cos (φ + ε) * (f + g) φ) = (fun φ => cos (φ + ε) * f φ) + fun φ => cos (φ + ε) * g φ := by
      funext φ; simp [mul_add]
    rw [this]; exact Submodule.add_mem _ hf hg
  | smul c f _ hf =>
    have : (fun φ => cos (φ + ε) * (c • f) φ) = c • fun φ => cos (φ + ε) * f φ := by
      funext φ; simp; ring
    rw [this]; exact Submodule.smul_mem _ _ hf

theorem Trig.monomial (a b : ℕ) : (fun φ => cos φ ^ a * sin φ ^ b) ∈ Trig (a + b) := by
  induction b with
  | zero =>
    induction a with
    | zero => exact Submodule.subset_span ⟨0, le_rfl, rfl, 0, by funext φ; simp⟩
    | succ a ih =>
      have := Trig.mul_cos ih 0
      have e : (fun φ => cos φ ^ (a + 1) * sin φ ^ 0) = fun φ => cos (φ + 0) * (cos φ ^ a * sin φ ^ 0) := by
        funext φ; simp [pow_succ]; ring
      rw [e]
      exact this
  | succ b ih =>
    have := Trig.mul_cos ih (-(π / 2))
    have e : (fun φ => cos φ ^ a * sin φ ^ (b + 1)) = fun φ => cos (φ + -(π / 2)) * (cos φ ^ a * sin φ ^ b) := by
      funext φ
      rw [← sub_eq_add_neg, Real.cos_sub_pi_div_two, pow_succ]; ring
    rw [e]
    exact this

/-- The entries of a homogeneous polynomial on the circle. -/
theorem DArr.trig (D : DArr) (i j : ℕ) : (fun φ => D.eval (cos φ, sin φ) i j) ∈ Trig D.deg := by
  have e : (fun φ => D.eval (cos φ, sin φ) i j) = ∑ k ∈ range (D.deg + 1), D.co i j k • fun φ => cos φ ^ (D.deg - k) * sin φ ^ k := by
    funext φ
    simp [DArr.eval, DArr.entry, HPoly.eval, Finset.sum_apply]
  rw [e]
  refine Submodule.sum_mem _ fun k hk => Submodule.smul_mem _ _ ?_
  have := Trig.monomial (D.deg - k) k
  rwa [show D.deg - k + k = D.deg by have := Finset.mem_range.1 hk; omega] at this

theorem Trig.sum {d : ℕ} {f : ℝ → ℝ} (hf : f ∈ Trig d) {F : ℕ} (hF : d ≤ F) :
    ∃ a b : ℕ → ℝ, ∀ φ, f φ = ∑ μ ∈ range (F + 1), (a μ * cos (μ * φ) + b μ * sin (μ * φ)) := by
  induction hf using Submodule.span_induction with
  | mem f h =>
    obtain ⟨ν, h1, h2, δ, rfl⟩ := h
    refine ⟨fun μ => if μ = ν then cos δ else 0, fun μ => if μ = ν then -sin δ else 0, fun φ => ?_⟩
    rw [Finset.sum_eq_single ν]
    · simp [Real.cos_add]; ring
    · intro μ _ h; simp [h]
    · intro h; simp at h; omega
  | zero => exact ⟨fun _ => 0, fun _ => 0, fun φ => by simp⟩
  | add f g _ _ hf hg =>
    obtain ⟨a, b, h⟩ := hf
    obtain ⟨a', b', h'⟩ := hg
    refine ⟨fun μ => a μ + a' μ, fun μ => b μ + b' μ, fun φ => ?_⟩
    rw [Pi.add_apply, h, h', ← Finset.sum_add_distrib]
    exact Finset.sum_congr rfl fun μ _ => by ring
  | smul c f _ hf =>
    obtain ⟨a, b, h⟩ := hf
    refine ⟨fun μ => c * a μ, fun μ => c * b μ, fun φ => ?_⟩
    rw [Pi.smul_apply, h, smul_eq_mul, Finset.mul_sum]
    exact Finset.sum_congr rfl fun μ _ => by ring

/-- Weights that keep the frequencies satisfying `P` and remove the others, up to a maximum. -/
theorem exists_filter (M : ℕ) (P : ℕ → Prop) [DecidablePred P] : ∃ (T : ℕ) (w θ : ℕ → ℝ), ∀ μ ≤ M, ∀ δ : ℝ,
    ∑ j ∈ range T, w j * cos (μ * θ j + δ) = if P μ then cos δ else 0 := by
  set T := 2 * M + 1 with hT
  have hT0 : (T : ℝ) ≠ 0 := by positivity
  refine ⟨T, fun j => ∑ ν ∈ range (M + 1), if P ν then (if ν = 0 then 1 else 2) / T * cos (ν * (j * (2 * π / T))) else 0,
    fun j => j * (2 * π / T), fun μ hμ δ => ?_⟩
  simp only [Finset.sum_mul]
  rw [Finset.sum_comm]
  have key : ∀ ν ∈ range (M + 1), ∑ j ∈ range T, (if P ν then ((if ν = 0 then 1 else 2) / T * cos (ν * (j * (2 * π / T))) : ℝ) else 0)
      * cos (μ * (j * (2 * π / T)) + δ) = if ν = μ then (if P μ then cos δ else 0) else 0 := by
    intro ν hν
    have hν' := Finset.mem_range.1 hν
    by_cases hP : P ν
    · simp only [if_pos hP]
      have e : ∀ j : ℕ, ((if ν = 0 then 1 else 2) / T * cos (ν * (j * (2 * π / T)))) * cos (μ * (j * (2 * π / T)) + δ)
          = (if ν = 0 then 1 else 2) / T / 2 * (cos (((μ + ν : ℤ) : ℝ) * (j * (2 * π / T)) + δ) + cos (((μ - ν : ℤ) : ℝ) * (j * (2 * π / T)) + δ)) := by
        intro j
        rw [show ((μ + ν : ℤ) : ℝ) * (j * (2 * π / T)) + δ = (μ * (j * (2 * π / T)) + δ) + ν * (j * (2 * π / T)) by push_cast; ring,
          show ((μ - ν : ℤ) : ℝ) * (j * (2 * π / T)) + δ = (μ * (j * (2 * π / T)) + δ) - ν * (j * (2 * π / T)) by push_cast; ring,
          Real.cos_add (μ * (j * (2 * π / T)) + δ), Real.cos_sub (μ * (j * (2 * π / T)) + δ)]
        ring
      rw [Finset.sum_congr rfl fun j _ => e j, ← Finset.mul_sum, Finset.sum_add_distrib,
        sum_cos_shift (T := T) (k := (μ + ν : ℤ)) (by rw [abs_of_nonneg (by omega)]; omega) δ,
        sum_cos_shift (T := T) (k := (μ - ν : ℤ)) (by rw [abs_lt]; omega) δ]
      by_cases h : ν = μ
      · subst h
        rw [if_pos rfl, if_pos hP]
        by_cases h0 : ν = 0
        · subst h0
          simp only [Nat.cast_zero, add_zero, sub_self, if_true]
          field_simp; ring
        · rw [if_neg h0, if_neg (by omega), if_pos (by omega)]
          field_simp; ring
      · rw [if_neg (show ¬ ((μ : ℤ) + ν = 0) by omega), if_neg (show ¬ ((μ : ℤ) - ν = 0) by omega), if_neg h]
        ring
    · simp only [if_neg hP, zero_mul, Finset.sum_const_zero]
      by_cases h : ν = μ
      · subst h; simp [hP]
      · simp [h]
  rw [Finset.sum_congr rfl key, Finset.sum_ite_eq' (range (M + 1)) μ, if_pos (Finset.mem_range.2 (by omega))]

theorem Freq.filter {T : ℕ} {w θ : ℕ → ℝ} {μ : ℕ} {v : ℝ} (h : ∀ δ : ℝ, ∑ j ∈ range T, w j * cos (μ * θ j + δ) = v * cos δ) {f : ℝ → ℝ}
    (hf : f ∈ Freq μ) (φ : ℝ) : ∑ j ∈ range T, w j * f (φ + θ j) = v * f φ := by
  induction hf using Submodule.span_induction with
  | mem f hf =>
    obtain ⟨δ, rfl⟩ := hf
    rw [← h]
    exact Finset.sum_congr rfl fun j _ => by congr 2; ring
  | zero => simp
  | add f g _ _ hf hg =>
    simp only [Pi.add_apply, mul_add, Finset.sum_add_distrib, hf, hg]
  | smul c f _ hf =>
    simp only [Pi.smul_apply, smul_eq_mul]
    rw [show v * (c * f φ) = c * (v * f φ) by ring, ← hf, Finset.mul_sum]
    exact Finset.sum_congr rfl fun j _ => by ring

theorem Trig.filter {T : ℕ} {w θ : ℕ → ℝ} {d : ℕ} (h : ∀ μ ≤ d, μ % 2 = d % 2 → ∀ δ : ℝ, ∑ j ∈ range T, w j * cos (μ * θ j + δ) = cos δ)
    {f : ℝ → ℝ} (hf : f ∈ Trig d) (φ : ℝ) : ∑ j ∈ range T, w j * f (φ + θ j) = f φ := by
  induction hf using Submodule.span_induction with
  | mem f hf =>
    obtain ⟨ν, h1, h2, δ, rfl⟩ := hf
    refine Eq.trans ?_ (h ν h1 h2 (ν * φ + δ))
    exact Finset.sum_congr rfl fun j _ => by congr 2; ring
  | zero => simp
  | add f g _ _ hf hg =>
    simp only [Pi.add_apply, mul_add, Finset.sum_add_distrib, hf, hg]
  | smul c f _ hf =>
    simp only [Pi.smul_apply, smul_eq_mul]
    rw [← hf, Finset.mul_sum]
    exact Finset.sum_congr rfl fun j _ => by ring

/-- Only the terms with the frequencies of a homogeneous polynomial are needed to write it. -/
theorem Trig.keep {d n : ℕ} {f : ℝ → ℝ} (hf : f ∈ Trig d) {deg : ℕ → ℕ} {u : ℕ → ℝ → ℝ} (hu : ∀ k < n, u k ∈ Freq (deg k)) (c : ℕ → ℝ)
    (h : ∀ φ, f φ = ∑ k ∈ range n, c k * u k φ) (φ : ℝ) :
    f φ = ∑ k ∈ range n, (if deg k ≤ d ∧ deg k % 2 = d % 2 then c k else 0) * u k φ := by
  obtain ⟨M, hM⟩ : ∃ M, d ≤ M ∧ ∀ k < n, deg k ≤ M := ⟨d + ∑ k ∈ range n, deg k, by omega, fun k hk => by
    have := Finset.single_le_sum (f := deg) (fun _ _ => Nat.zero_le _) (Finset.mem_range.2 hk)
    omega⟩
  obtain ⟨T, w, θ, hw⟩ := exists_filter M fun μ => μ ≤ d ∧ μ % 2 = d % 2
  rw [← Trig.filter (T := T) (w := w) (θ := θ) (fun μ h1 h2 δ => by rw [hw μ (by omega) δ, if_pos ⟨h1, h2⟩]) hf φ]
  simp only [h, Finset.mul_sum]
  rw [Finset.sum_comm]
  refine Finset.sum_congr rfl fun k hk => ?_
  have hk' := Finset.mem_range.1 hk
  have := Freq.filter (T := T) (w := w) (θ := θ) (v := if deg k ≤ d ∧ deg k % 2 = d % 2 then 1 else 0)
    (fun δ => by rw [hw _ (hM.2 k hk') δ]; split_ifs <;> simp) (hu k hk') φ
  rw [show (if deg k ≤ d ∧ deg k % 2 = d % 2 then c k else 0) * u k φ = c k * ((if deg k ≤ d ∧ deg k % 2 = d % 2 then 1 else 0) * u k φ) by
    split_ifs <;> simp, ← this, Finset.mul_sum]
  exact Finset.sum_congr rfl fun j _ => by ring

theorem sum_range_mul (n m : ℕ) (f : ℕ → ℝ) : ∑ i ∈ range (n * m), f i = ∑ k ∈ range n, ∑ j ∈ range m, f (k * m + j) := by
  induction n with
  | zero => simp
  | succ n ih => rw [Nat.succ_mul, Finset.sum_range_add, Finset.sum_range_succ, ih]

/-- The element of `TensorBasis` at an index. -/
theorem tensor_get (as : List DArr) (P k j : ℕ) (hk : k < as.length) (hj : j < P + 1) :
    ∃ T, (tensorCoefs as (laplaceProfile P))[k * (P + 1) + j]? = some T ∧ T.deg = as[k].deg + 2 * j ∧
      ∀ p a b, T.eval p a b = radius p ^ (2 * j) * as[k].eval p a b := by
  have e : tensorCoefs as (laplaceProfile P) = (as.flatMap fun a => (laplaceProfile P).map fun b => (a, b)).map fun q =>
      DArr.fill (q.1.deg + 1 + (q.2.deg + 1) - 2) fun i k => (q.1.entry i k).mul q.2 := by
    simp [tensorCoefs, List.map_flatMap, Function.comp_def]
  have hl : (laplaceProfile P).length = P + 1 := by simp [laplaceProfile]
  have h1 : (k * (P + 1) + j) / (P + 1) = k := by
    rw [Nat.mul_comm, Nat.mul_add_div (Nat.succ_pos _), Nat.div_eq_of_lt hj, Nat.add_zero]
  have h2 : (k * (P + 1) + j) % (P + 1) = j := by
    rw [Nat.mul_comm, Nat.mul_add_mod, Nat.mod_eq_of_lt hj]
  have hb : (laplaceProfile P)[j]? = some (HPoly.laplacian j) := by
    rw [laplaceProfile, List.getElem?_map, List.getElem?_range hj]
    rfl
  refine ⟨DArr.fill (as[k].deg + 1 + ((HPoly.laplacian j).deg + 1) - 2) fun i k' => (as[k].entry i k').mul (HPoly.laplacian j), ?_, ?_, ?_⟩
  · rw [e, List.getElem?_map, flatMap_pair_get, hl, h1, h2, hb, List.getElem?_eq_getElem hk]
    rfl
  · simp only [DArr.fill, HPoly.laplacian]; omega
  · intro p a b; exact tensor_eval _ _ _ _ _

theorem tensor_length (as : List DArr) (P : ℕ) : (tensorCoefs as (laplaceProfile P)).length = as.length * (P + 1) := by
  simp [tensorCoefs, laplaceProfile, List.length_flatMap]

theorem radius_circle {r : ℝ} (hr : 0 ≤ r) (φ : ℝ) : radius (r * cos φ, r * sin φ) = r := by
  rw [radius, show (r * cos φ) ^ 2 + (r * sin φ) ^ 2 = r ^ 2 * (cos φ ^ 2 + sin φ ^ 2) by ring, Real.cos_sq_add_sin_sq, mul_one, Real.sqrt_sq hr]

theorem DArr.eval_circle (D : DArr) (r φ : ℝ) (a b : ℕ) : D.eval (r * cos φ, r * sin φ) a b = r ^ D.deg * D.eval (cos φ, sin φ) a b :=
  D.eval_scale r (cos φ, sin φ) a b

/-- A sum of multiples of powers that vanishes at all positive numbers has vanishing coefficients. -/
theorem powers_zero (n : ℕ) (c : ℕ → ℝ) (e : ℕ → ℕ) (h : ∀ r : ℝ, 0 < r → ∑ k ∈ range n, c k * r ^ e k = 0) (δ : ℕ) :
    ∑ k ∈ range n, (if e k = δ then c k else 0) = 0 := by
  set p : Polynomial ℝ := ∑ k ∈ range n, Polynomial.C (c k) * Polynomial.X ^ e k with hp
  have hz : p = 0 := by
    refine Polynomial.eq_zero_of_infinite_isRoot p (Set.Infinite.mono ?_ (Set.Ioi_infinite (0 : ℝ)))
    intro r hr
    simp only [Set.mem_setOf_eq, Polynomial.IsRoot.def, hp, Polynomial.eval_finsetSum, Polynomial.eval_mul, Polynomial.eval_C,
      Polynomial.eval_pow, Polynomial.eval_X]
    exact h r hr
  have := congrArg (fun q => Polynomial.coeff q δ) hz
  simp only [hp, Polynomial.finsetSum_coeff, Polynomial.coeff_C_mul_X_pow, Polynomial.coeff_zero] at this
  refine Eq.trans ?_ this
  exact Finset.sum_congr rfl fun k _ => by simp [eq_comm]

/-- The element of a list at an index, or zero. -/
def elt (l : List DArr) (k : ℕ) : DArr := l.getD k ⟨0, fun _ _ _ => 0⟩

theorem elt_eq {l : List DArr} {k : ℕ} {T : DArr} (h : l[k]? = some T) : elt l k = T := by
  simp [elt, List.getD, h]

theorem elt_lt {l : List DArr} {k : ℕ} (h : k < l.length) : elt l k = l[k] := elt_eq (List.getElem?_eq_getElem h)

/-- Independence of the products with the powers of the Laplacian. -/
theorem tensor_independent {n m : ℕ} (as : List DArr) (P : ℕ)
    (hind : ∀ c : ℕ → ℝ, (∀ φ, MEq n m (fun a b => ∑ k ∈ range as.length, c k * (elt as k).eval (cos φ, sin φ) a b) fun _ _ => 0) →
      ∀ k < as.length, c k = 0)
    (g : ℕ → ℝ) (hg : ∀ p, MEq n m (fun a b => ∑ k ∈ range (as.length * (P + 1)), g k * (elt (tensorCoefs as (laplaceProfile P)) k).eval p a b)
      fun _ _ => 0) (k j : ℕ) (hk : k < as.length) (hj : j < P + 1) : g (k * (P + 1) + j) = 0 := by
  set δ := (elt as k).deg + 2 * j with hδ
  have key := hind (fun k => ∑ j ∈ range (P + 1), if (elt as k).deg + 2 * j = δ then g (k * (P + 1) + j) else 0) (by
    intro φ a ha b hb
    have h := powers_zero (as.length * (P + 1)) (fun i => g i * (elt as (i / (P + 1))).eval (cos φ, sin φ) a b)
      (fun i => (elt as (i / (P + 1))).deg + 2 * (i % (P + 1))) (by
      intro r hr
      have := hg (r * cos φ, r * sin φ) a ha b hb
      refine Eq.trans ?_ this
      dsimp only
      rw [sum_range_mul, sum_range_mul]
      refine Finset.sum_congr rfl fun k hk => Finset.sum_congr rfl fun j hj => ?_
      obtain ⟨T, h1, h2, h3⟩ := tensor_get as P k j (Finset.mem_range.1 hk) (Finset.mem_range.1 hj)
      have d1 : (k * (P + 1) + j) / (P + 1) = k := by
        rw [Nat.mul_comm, Nat.mul_add_div (Nat.succ_pos _), Nat.div_eq_of_lt (Finset.mem_range.1 hj), Nat.add_zero]
      have d2 : (k * (P + 1) + j) % (P + 1) = j := by
        rw [Nat.mul_comm, Nat.mul_add_mod, Nat.mod_eq_of_lt (Finset.mem_range.1 hj)]
      rw [d1, d2, elt_eq h1, h3, radius_circle hr.le, elt_lt (Finset.mem_range.1 hk), DArr.eval_circle _ r, pow_add]
      ring) δ
    rw [sum_range_mul] at h
    refine Eq.trans ?_ h
    refine Finset.sum_congr rfl fun k hk => ?_
    rw [Finset.sum_mul]
    refine Finset.sum_congr rfl fun j hj => ?_
    have d1 : (k * (P + 1) + j) / (P + 1) = k := by
      rw [Nat.mul_comm, Nat.mul_add_div (Nat.succ_pos _), Nat.div_eq_of_lt (Finset.mem_range.1 hj), Nat.add_zero]
    have d2 : (k * (P + 1) + j) % (P + 1) = j := by
      rw [Nat.mul_comm, Nat.mul_add_mod, Nat.mod_eq_of_lt (Finset.mem_range.1 hj)]
    rw [d1, d2]
    split_ifs <;> simp) k hk
  rw [Finset.sum_eq_single j] at key
  · rwa [if_pos rfl] at key
  · intro j' _ hne
    rw [if_neg]
    omega
  · intro h
    exact absurd (Finset.mem_range.2 hj) h

/-- A homogeneous polynomial which is on the circle a combination of polynomials of one frequency is a combination of their products with powers of the Laplacian. -/
theorem tensor_spans {n m : ℕ} (as : List DArr) (P : ℕ)
    (hfreq : ∀ k < as.length, ∀ a < n, ∀ b < m, (fun φ => (elt as k).eval (cos φ, sin φ) a b) ∈ Freq (elt as k).deg)
    (D : DArr) (hP : D.deg / 2 ≤ P) (c : ℕ → ℝ)
    (hc : ∀ φ, MEq n m (D.eval (cos φ, sin φ)) fun a b => ∑ k ∈ range as.length, c k * (elt as k).eval (cos φ, sin φ) a b) :
    ∃ w : ℕ → ℝ, (∀ k, w k ≠ 0 → (elt (tensorCoefs as (laplaceProfile P)) k).deg = D.deg) ∧
      ∀ p, MEq n m (D.eval p) fun a b => ∑ k ∈ range (as.length * (P + 1)), w k * (elt (tensorCoefs as (laplaceProfile P)) k).eval p a b := by
  classical
  let good : ℕ → Prop := fun k => (elt as k).deg ≤ D.deg ∧ (elt as k).deg % 2 = D.deg % 2
  let w : ℕ → ℝ := fun i => if i < as.length * (P + 1) ∧ (elt as (i / (P + 1))).deg + 2 * (i % (P + 1)) = D.deg then c (i / (P + 1)) else 0
  have dm : ∀ k j, j < P + 1 → (k * (P + 1) + j) / (P + 1) = k ∧ (k * (P + 1) + j) % (P + 1) = j := fun k j hj => by
    constructor
    · rw [Nat.mul_comm, Nat.mul_add_div (Nat.succ_pos _), Nat.div_eq_of_lt hj, Nat.add_zero]
    · rw [Nat.mul_comm, Nat.mul_add_mod, Nat.mod_eq_of_lt hj]
  refine ⟨w, fun i hi => ?_, fun p a ha b hb => ?_⟩
  · have hi' : i < as.length * (P + 1) ∧ (elt as (i / (P + 1))).deg + 2 * (i % (P + 1)) = D.deg := by
      by_contra h
      exact hi (if_neg h)
    have hk : i / (P + 1) < as.length := (Nat.div_lt_iff_lt_mul (Nat.succ_pos _)).2 hi'.1
    obtain ⟨T, h1, h2, -⟩ := tensor_get as P (i / (P + 1)) (i % (P + 1)) hk (Nat.mod_lt _ (Nat.succ_pos _))
    rw [show i / (P + 1) * (P + 1) + i % (P + 1) = i by rw [Nat.mul_comm]; exact Nat.div_add_mod i (P + 1)] at h1
    rw [elt_eq h1, h2, ← elt_lt hk, hi'.2]
  · obtain ⟨h1, h2⟩ := polar_coords p
    set r := radius p with hr
    set φ := Complex.arg ⟨p.1, p.2⟩ with hφ
    have hp : p = (r * cos φ, r * sin φ) := Prod.ext h1 h2
    have hkeep := Trig.keep (DArr.trig D a b) (deg := fun k => (elt as k).deg) (u := fun k φ => (elt as k).eval (cos φ, sin φ) a b)
      (fun k hk => hfreq k hk a ha b hb) c (fun φ => hc φ a ha b hb) φ
    dsimp only at hkeep ⊢
    rw [hp, DArr.eval_circle, hkeep, Finset.mul_sum, sum_range_mul]
    refine Finset.sum_congr rfl fun k hk => ?_
    have hk' := Finset.mem_range.1 hk
    have et : ∀ j ∈ range (P + 1), w (k * (P + 1) + j) * (elt (tensorCoefs as (laplaceProfile P)) (k * (P + 1) + j)).eval (r * cos φ, r * sin φ) a b
        = if (elt as k).deg + 2 * j = D.deg then c k * (r ^ D.deg * (elt as k).eval (cos φ, sin φ) a b) else 0 := by
      intro j hj
      have hj' := Finset.mem_range.1 hj
      obtain ⟨T, t1, t2, t3⟩ := tensor_get as P k j hk' hj'
      have hlt : k * (P + 1) + j < as.length * (P + 1) := by
        calc k * (P + 1) + j < k * (P + 1) + (P + 1) := by omega
          _ = (k + 1) * (P + 1) := by ring
          _ ≤ as.length * (P + 1) := Nat.mul_le_mul_right _ hk'
      simp only [w, (dm k j hj').1, (dm k j hj').2]
      by_cases hd : (elt as k).deg + 2 * j = D.deg
      · rw [if_pos ⟨hlt, hd⟩, if_pos hd, elt_eq t1, t3, radius_circle (r := r) (Real.sqrt_nonneg _), ← elt_lt hk', DArr.eval_circle _ r, ← hd, pow_add]
        ring
      · rw [if_neg (fun h => hd h.2), if_neg hd, zero_mul]
    rw [Finset.sum_congr rfl et]
    by_cases hg : (elt as k).deg ≤ D.deg ∧ (elt as k).deg % 2 = D.deg % 2
    · rw [if_pos hg, Finset.sum_eq_single ((D.deg - (elt as k).deg) / 2)]
      · rw [if_pos (by omega)]; ring
      · intro j _ hne; rw [if_neg (by omega)]
      · intro h; exact absurd (Finset.mem_range.2 (by omega)) h
    · rw [if_neg hg]
      simp only [zero_mul, mul_zero]
      symm
      refine Finset.sum_eq_zero fun j _ => if_neg ?_
      intro h
      exact hg ⟨by omega, by omega⟩

end E2
