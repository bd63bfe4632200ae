import Verif.Model.Tolerance
import Verif.Props.SelfTest

/-!
What the tolerances of the self tests change (C81): equivariant layers pass whatever they are, the absolute tolerance makes no difference to which linear layers
pass on all minibatches, and the relative one lets exactly the layers pass which commute up to a factor close to 1 in each channel.
-/

namespace E2

open Finset

variable {El : Type}

theorem mapM_ne_none_iff {α β : Type} (P : α → Prop) (f : α → β) (l : List α) :
    (open Classical in l.mapM fun a => if P a then some (f a) else none) ≠ none ↔ ∀ a ∈ l, P a := by
  classical
  constructor
  · intro h a ha
    have := mapM_ne_none _ _ h a ha
    by_contra hn
    exact this (by simp [hn])
  · intro h
    rw [mapM_some _ f l fun a ha => by simp [h a ha]]
    simp

theorem checkTol_iff (atol rtol : ℝ) (els : List El) (ci co : ℕ) (ρi ρo : El → Mat) (layer : Minibatch → Minibatch) (x : Minibatch) :
    checkTol atol rtol els ci co ρi ρo layer x ≠ none ↔
      ∀ g ∈ els, AllClose co atol rtol (fun b => transformFibers co (ρo g) (layer x b)) (layer fun b => transformFibers ci (ρi g) (x b)) :=
  mapM_ne_none_iff _ _ els

/-- **C81**: a layer which passes the exact test passes with all tolerances, and all reported errors are 0. -/
theorem c81_tolerance_passes (atol rtol : ℝ) (ha : 0 ≤ atol) (hr : 0 ≤ rtol) (els : List El) (ci co : ℕ) (ρi ρo : El → Mat) (layer : Minibatch → Minibatch)
    (x : Minibatch) (h : checkEquivariance els ci co ρi ρo layer x ≠ none) :
    checkTol atol rtol els ci co ρi ρo layer x = some (els.map fun g => (g, 0)) := by
  have hB := (check_iff els ci co ρi ρo layer x).1.1 h
  refine mapM_some _ (fun g => (g, 0)) _ fun g hg => ?_
  dsimp only
  rw [if_pos, errsMean_zero (hB g hg)]
  intro b hb o ho i hi j hj
  rw [hB g hg b hb o ho i hi j hj, sub_self, abs_zero]
  positivity

/-- A linear form which is bounded by a multiple of another one, up to a constant, is a multiple of it. -/
theorem form_multiple (n : ℕ) (a r : ℝ) (ha : 0 ≤ a) (hr : 0 ≤ r) (u v : ℕ → ℝ) :
    (∀ x : ℕ → ℝ, |∑ k ∈ range n, u k * x k| ≤ a + r * |∑ k ∈ range n, v k * x k|) ↔ ∃ t : ℝ, |t| ≤ r ∧ ∀ k < n, u k = t * v k := by
  constructor
  · intro h
    -- the constant disappears by scaling
    have h0 : ∀ x : ℕ → ℝ, |∑ k ∈ range n, u k * x k| ≤ r * |∑ k ∈ range n, v k * x k| := by
      intro x
      by_contra hn
      rw [not_le] at hn
      obtain ⟨m, hm⟩ := exists_nat_gt (a / (|∑ k ∈ range n, u k * x k| - r * |∑ k ∈ range n, v k * x k|))
      rw [div_lt_iff₀ (by linarith)] at hm
      have := h fun k => m * x k
      have e : ∀ w : ℕ → ℝ, ∑ k ∈ range n, w k * (m * x k) = m * ∑ k ∈ range n, w k * x k := fun w => by
        rw [mul_sum]
        exact sum_congr rfl fun k _ => by ring
      rw [e, e, abs_mul, abs_mul, Nat.abs_cast] at this
      linarith
    by_cases hv : ∑ k ∈ range n, v k * v k = 0
    · have hvz : ∀ k < n, v k = 0 := fun k hk =>
        mul_self_eq_zero.1 ((sum_eq_zero_iff_of_nonneg fun k _ => mul_self_nonneg (v k)).1 hv k (mem_range.2 hk))
      refine ⟨0, by simpa using hr, fun k hk => ?_⟩
      have := h0 u
      rw [sum_eq_zero (s := range n) (f := fun k => v k * u k) (fun k hk => by rw [hvz k (mem_range.1 hk), zero_mul]), abs_zero, mul_zero, abs_nonpos_iff] at this
      rw [zero_mul]
      exact mul_self_eq_zero.1 ((sum_eq_zero_iff_of_nonneg fun k _ => mul_self_nonneg (u k)).1 this k (mem_range.2 hk))
    · obtain ⟨t, ht⟩ : ∃ t, t = (∑ k ∈ range n, u k * v k) / ∑ k ∈ range n, v k * v k := ⟨_, rfl⟩
      have hpos : 0 < ∑ k ∈ range n, v k * v k := lt_of_le_of_ne (sum_nonneg fun k _ => mul_self_nonneg _) (Ne.symm hv)
      have ht' : ∑ k ∈ range n, u k * v k = t * ∑ k ∈ range n, v k * v k := by rw [ht, div_mul_cancel₀ _ hv]
      refine ⟨t, ?_, ?_⟩
      · have := h0 v
        rw [ht', abs_mul, abs_of_pos hpos] at this
        exact le_of_mul_le_mul_right this hpos
      · have hvw : ∑ k ∈ range n, v k * (u k - t * v k) = 0 := by
          have : ∑ k ∈ range n, v k * (u k - t * v k) = ∑ k ∈ range n, u k * v k - t * ∑ k ∈ range n, v k * v k := by
            rw [mul_sum, ← sum_sub_distrib]
            exact sum_congr rfl fun k _ => by ring
          rw [this, ht', sub_self]
        have huw := h0 fun k => u k - t * v k
        rw [hvw, abs_zero, mul_zero, abs_nonpos_iff] at huw
        have hww : ∑ k ∈ range n, (u k - t * v k) * (u k - t * v k) = 0 := by
          have : ∑ k ∈ range n, (u k - t * v k) * (u k - t * v k) =
              ∑ k ∈ range n, u k * (u k - t * v k) - t * ∑ k ∈ range n, v k * (u k - t * v k) := by
            rw [mul_sum, ← sum_sub_distrib]
            exact sum_congr rfl fun k _ => by ring
          rw [this, huw, hvw, mul_zero, sub_self]
        intro k hk
        exact sub_eq_zero.1 (mul_self_eq_zero.1 ((sum_eq_zero_iff_of_nonneg fun k _ => mul_self_nonneg (u k - t * v k)).1 hww k (mem_range.2 hk)))
  · rintro ⟨t, ht, h⟩ x
    have e : ∑ k ∈ range n, u k * x k = t * ∑ k ∈ range n, v k * x k := by
      rw [mul_sum]
      exact sum_congr rfl fun k hk => by rw [h k (mem_range.1 hk)]; ring
    rw [e, abs_mul]
    have := mul_le_mul_of_nonneg_right ht (abs_nonneg (∑ k ∈ range n, v k * x k))
    linarith

/-- **C81**: a linear layer passes on all minibatches exactly if for every tested element each channel of `ρ M` is that of `M ρ` up to a factor which differs from 1
by at most `rtol`; the absolute tolerance makes no difference. -/
theorem c81_tolerance_linear (atol rtol : ℝ) (ha : 0 ≤ atol) (hr : 0 ≤ rtol) (els : List El) (ci co : ℕ) (ρi ρo : El → Mat) (M : Mat) :
    (∀ x, checkTol atol rtol els ci co ρi ρo (fibreLayer ci M) x ≠ none) ↔
      ∀ g ∈ els, ∀ o < co, ∃ s : ℝ, |s - 1| ≤ rtol ∧ ∀ k < ci, Mat.mul co (ρo g) M o k = s * Mat.mul ci M (ρi g) o k := by
  have key : ∀ g o, (∃ s : ℝ, |s - 1| ≤ rtol ∧ ∀ k < ci, Mat.mul co (ρo g) M o k = s * Mat.mul ci M (ρi g) o k) ↔
      ∀ x : ℕ → ℝ, |∑ k ∈ range ci, (Mat.mul co (ρo g) M o k - Mat.mul ci M (ρi g) o k) * x k| ≤
        atol + rtol * |∑ k ∈ range ci, Mat.mul ci M (ρi g) o k * x k| := by
    intro g o
    rw [form_multiple ci atol rtol ha hr]
    constructor
    · rintro ⟨s, hs, h⟩
      exact ⟨s - 1, hs, fun k hk => by rw [h k hk]; ring⟩
    · rintro ⟨t, ht, h⟩
      exact ⟨t + 1, by simpa using ht, fun k hk => by have := h k hk; linarith⟩
  have val : ∀ g (x : Minibatch) b o i j,
      transformFibers co (ρo g) (fibreLayer ci M x b) o i j - fibreLayer ci M (fun b => transformFibers ci (ρi g) (x b)) b o i j =
        ∑ k ∈ range ci, (Mat.mul co (ρo g) M o k - Mat.mul ci M (ρi g) o k) * x b k i j ∧
      fibreLayer ci M (fun b => transformFibers ci (ρi g) (x b)) b o i j = ∑ k ∈ range ci, Mat.mul ci M (ρi g) o k * x b k i j := by
    intro g x b o i j
    have e1 : transformFibers co (ρo g) (fibreLayer ci M x b) o i j = ∑ k ∈ range ci, Mat.mul co (ρo g) M o k * x b k i j := fibre_left ci co _ _ _ _ _ _
    have e2 : fibreLayer ci M (fun b => transformFibers ci (ρi g) (x b)) b o i j = ∑ k ∈ range ci, Mat.mul ci M (ρi g) o k * x b k i j := fibre_left ci ci _ _ _ _ _ _
    refine ⟨?_, e2⟩
    rw [e1, e2, ← sum_sub_distrib]
    simp only [sub_mul]
  simp only [checkTol_iff, key]
  constructor
  · intro h g hg o ho y
    have := h (fun _ k _ _ => y k) g hg 0 (by norm_num) o ho 0 (by norm_num) 0 (by norm_num)
    rwa [(val g _ 0 o 0 0).1, (val g _ 0 o 0 0).2] at this
  · intro h x g hg b hb o ho i hi j hj
    rw [(val g x b o i j).1, (val g x b o i j).2]
    exact h g hg o ho fun k => x b k i j

/-- **C81**: what passing on all minibatches guarantees for a linear layer: every entry of `ρ M - M ρ` is at most `rtol` times that of `M ρ`, for all elements of the
group if all are tested. -/
theorem c81_tolerance_bound (atol rtol : ℝ) (ha : 0 ≤ atol) (hr : 0 ≤ rtol) (els : List El) (ci co : ℕ) (ρi ρo : El → Mat) (M : Mat)
    (h : ∀ x, checkTol atol rtol els ci co ρi ρo (fibreLayer ci M) x ≠ none) :
    ∀ g ∈ els, ∀ o < co, ∀ k < ci, |Mat.mul co (ρo g) M o k - Mat.mul ci M (ρi g) o k| ≤ rtol * |Mat.mul ci M (ρi g) o k| := by
  intro g hg o ho k hk
  obtain ⟨s, hs, e⟩ := (c81_tolerance_linear atol rtol ha hr els ci co ρi ρo M).1 h g hg o ho
  rw [e k hk, show s * Mat.mul ci M (ρi g) o k - Mat.mul ci M (ρi g) o k = (s - 1) * Mat.mul ci M (ρi g) o k by ring, abs_mul]
  exact mul_le_mul_of_nonneg_right hs (abs_nonneg _)

/-- **C81**: an output channel on which the tested element acts trivially, like that of a trivial field: there the tolerances make no difference if the element has
finite order on the input and `rtol < 1`. -/
theorem c81_tolerance_scalar (atol rtol : ℝ) (ha : 0 ≤ atol) (hr : 0 ≤ rtol) (hr1 : rtol < 1) (ci : ℕ) (A : Mat) (m : ℕ) (hm : 0 < m)
    (hA : ∀ v : ℕ → ℝ, ∀ k < ci, (fun v j => ∑ i ∈ range ci, v i * A i j)^[m] v k = v k) (M : Mat)
    (h : ∀ x, checkTol atol rtol [()] ci 1 (fun _ => A) (fun _ => Mat.one) (fibreLayer ci M) x ≠ none) :
    ∀ k < ci, Mat.mul 1 Mat.one M 0 k = Mat.mul ci M A 0 k := by
  obtain ⟨s, hs, e⟩ := (c81_tolerance_linear atol rtol ha hr [()] ci 1 (fun _ => A) (fun _ => Mat.one) M).1 h () (by simp) 0 (by norm_num)
  have hs0 : 0 < s := by
    have := (abs_le.1 hs).1
    linarith
  let T : (ℕ → ℝ) → ℕ → ℝ := fun v j => ∑ i ∈ range ci, v i * A i j
  have hone : ∀ k, Mat.mul 1 Mat.one M 0 k = M 0 k := fun k => by simp [Mat.mul, Mat.one]
  have e' : ∀ k < ci, T (M 0) k = s⁻¹ * M 0 k := fun k hk => by
    have := e k hk
    rw [hone] at this
    rw [this, inv_mul_cancel_left₀ hs0.ne']
    rfl
  have hT : ∀ (v w : ℕ → ℝ), (∀ k < ci, v k = w k) → T v = T w := fun v w hvw =>
    funext fun j => sum_congr rfl fun i hi => by rw [hvw i (mem_range.1 hi)]
  have hsm : ∀ (c : ℝ) (v : ℕ → ℝ), T (fun k => c * v k) = fun k => c * T v k := fun c v =>
    funext fun j => by
      show ∑ i ∈ range ci, c * v i * A i j = c * ∑ i ∈ range ci, v i * A i j
      rw [mul_sum]
      exact sum_congr rfl fun i _ => by ring
  have hit : ∀ n : ℕ, ∀ k < ci, T^[n] (M 0) k = s⁻¹ ^ n * M 0 k := by
    intro n
    induction n with
    | zero => intro k _; simp
    | succ n ih =>
      intro k hk
      rw [Function.iterate_succ_apply', hT _ _ ih, hsm]
      show s⁻¹ ^ n * T (M 0) k = s⁻¹ ^ (n + 1) * M 0 k
      rw [e' k hk, pow_succ]
      ring
  intro k hk
  rw [hone, show Mat.mul ci M A 0 k = T (M 0) k from rfl, e' k hk]
  by_cases hz : M 0 k = 0
  · rw [hz, mul_zero]
  · have h1 : s⁻¹ ^ m = 1 := by
      have := (hit m k hk).symm.trans (hA (M 0) k hk)
      exact mul_right_cancel₀ hz (by rw [this, one_mul])
    rw [(pow_eq_one_iff_of_nonneg (inv_nonneg.2 hs0.le) hm.ne').1 h1, one_mul]

/-- The regular representation of `C_2`. -/
def swapRep (g : ℤ) : Mat := fun i j => if g = 0 then Mat.one i j else Mat.one i (1 - j)

/-- The layer from one trivial field to one regular field which is not equivariant by a factor `1 + 10⁻⁶`. -/
noncomputable def almostLayer : Mat := fun i _ => if i = 0 then 1 else 1 + 1 / 10 ^ 6

/-- **C81 is false with the relative tolerance of the code**: this layer does not commute with the swap, and passes on every minibatch with the defaults
(reshuffle_module.py:83). -/
theorem c81_tolerance_wrong :
    (∀ x, checkTol (1 / 10 ^ 7) (1 / 10 ^ 5) (Cyclic.testingElements 2) 1 2 (fun _ => Mat.one) swapRep (fibreLayer 1 almostLayer) x ≠ none) ∧
      Mat.mul 2 (swapRep 1) almostLayer 0 0 ≠ Mat.mul 1 almostLayer Mat.one 0 0 := by
  constructor
  · rw [c81_tolerance_linear _ _ (by positivity) (by positivity)]
    intro g _ o ho
    by_cases hg : g = 0
    · refine ⟨1, by norm_num, fun k hk => ?_⟩
      obtain rfl : k = 0 := Nat.lt_one_iff.1 hk
      have : o = 0 ∨ o = 1 := by omega
      rcases this with rfl | rfl <;> simp [Mat.mul, sum_range_succ, swapRep, Mat.one, hg]
    · have : o = 0 ∨ o = 1 := by omega
      rcases this with rfl | rfl
      · refine ⟨1 + 1 / 10 ^ 6, by norm_num [abs_of_pos], fun k hk => ?_⟩
        obtain rfl : k = 0 := Nat.lt_one_iff.1 hk
        simp [Mat.mul, sum_range_succ, swapRep, Mat.one, hg, almostLayer]
      · refine ⟨1 / (1 + 1 / 10 ^ 6), by rw [abs_le]; constructor <;> norm_num, fun k hk => ?_⟩
        obtain rfl : k = 0 := Nat.lt_one_iff.1 hk
        simp [Mat.mul, sum_range_succ, swapRep, Mat.one, hg, almostLayer]
        norm_num
  · simp [Mat.mul, sum_range_succ, swapRep, Mat.one, almostLayer]

/-- From the regular representation of `C_2` to a trivial field: a layer which passes with the tolerances of the code has equal weights. -/
example (M : Mat) (h : ∀ x, checkTol (1 / 10 ^ 7) (1 / 10 ^ 5) [()] 2 1 (fun _ => swapRep 1) (fun _ => Mat.one) (fibreLayer 2 M) x ≠ none) : M 0 0 = M 0 1 := by
  have := c81_tolerance_scalar _ _ (by positivity) (by positivity) (by norm_num) 2 (swapRep 1) 2 (by norm_num) (fun v k hk => by
    have : k = 0 ∨ k = 1 := by omega
    rcases this with rfl | rfl <;> simp [sum_range_succ, swapRep, Mat.one]) M h 0 (by norm_num)
  simpa [Mat.mul, Mat.one, sum_range_succ, swapRep] using this

/-- Without a relative tolerance the test with an absolute one is exact for linear layers. -/
example (atol : ℝ) (ha : 0 ≤ atol) (els : List El) (ci co : ℕ) (ρi ρo : El → Mat) (M : Mat) (h : ∀ x, checkTol atol 0 els ci co ρi ρo (fibreLayer ci M) x ≠ none) :
    ∀ g ∈ els, Mat.MEq co ci (Mat.mul co (ρo g) M) (Mat.mul ci M (ρi g)) := by
  intro g hg o ho k hk
  obtain ⟨s, hs, e⟩ := (c81_tolerance_linear atol 0 ha le_rfl els ci co ρi ρo M).1 h g hg o ho
  rw [e k hk, sub_eq_zero.1 (abs_nonpos_iff.1 hs), one_mul]

end E2
