import Verif.Props.DefaultTest

/-!
The errors which the self tests report are means (C81, C108): they lie between every lower and every upper bound of the differences.
-/

namespace E2

open Finset

theorem sum4_bounds (B c n m : ℕ) (d : ℕ → ℕ → ℕ → ℕ → ℝ) (lo hi : ℝ) (h : ∀ b < B, ∀ o < c, ∀ i < n, ∀ j < m, lo ≤ d b o i j ∧ d b o i j ≤ hi) :
    (B * c * n * m : ℝ) * lo ≤ ∑ b ∈ range B, ∑ o ∈ range c, ∑ i ∈ range n, ∑ j ∈ range m, d b o i j ∧
      ∑ b ∈ range B, ∑ o ∈ range c, ∑ i ∈ range n, ∑ j ∈ range m, d b o i j ≤ (B * c * n * m : ℝ) * hi := by
  have key : ∀ t : ℝ, (B * c * n * m : ℝ) * t = ∑ _b ∈ range B, ∑ _o ∈ range c, ∑ _i ∈ range n, ∑ _j ∈ range m, t := by
    intro t
    simp only [sum_const, card_range, nsmul_eq_mul]
    ring
  rw [key, key]
  exact ⟨sum_le_sum fun b hb => sum_le_sum fun o ho => sum_le_sum fun i hi => sum_le_sum fun j hj =>
      (h b (mem_range.1 hb) o (mem_range.1 ho) i (mem_range.1 hi) j (mem_range.1 hj)).1,
    sum_le_sum fun b hb => sum_le_sum fun o ho => sum_le_sum fun i hi => sum_le_sum fun j hj =>
      (h b (mem_range.1 hb) o (mem_range.1 ho) i (mem_range.1 hi) j (mem_range.1 hj)).2⟩

/-- **C81**: the reported error is a mean of the differences. -/
theorem c81_mean (c : ℕ) (hc : 0 < c) (x y : Minibatch) (lo hi : ℝ)
    (h : ∀ b < 3, ∀ o < c, ∀ i < 10, ∀ j < 10, lo ≤ |x b o i j - y b o i j| ∧ |x b o i j - y b o i j| ≤ hi) :
    lo ≤ errsMean c x y ∧ errsMean c x y ≤ hi := by
  obtain ⟨h1, h2⟩ := sum4_bounds 3 c 10 10 (fun b o i j => |x b o i j - y b o i j|) lo hi h
  have hp : (0 : ℝ) < 3 * c * 10 * 10 := by positivity
  unfold errsMean
  push_cast at h1 h2
  exact ⟨by rw [le_div_iff₀ hp]; linarith, by rw [div_le_iff₀ hp]; linarith⟩

/-- Arrays which differ by 2 everywhere. -/
example : errsMean 5 (fun _ _ _ _ => 3) (fun _ _ _ _ => 1) = 2 := by
  have := c81_mean 5 (by norm_num) (fun _ _ _ _ => 3) (fun _ _ _ _ => 1) 2 2 (fun _ _ _ _ _ _ _ _ => by norm_num)
  exact le_antisymm this.2 this.1

/-- **C108**: the reported error is a mean of the differences. -/
theorem c108_mean (a b : PTensor (Fin 3)) (hn : 0 < a.n) (hc : 0 < a.chans.length) (lo hi : ℝ)
    (h : ∀ k : Fin 3, ∀ c < a.chans.length, ∀ i < a.n, ∀ j < a.n,
      lo ≤ |chanImg a.chans k c i j - chanImg b.chans k c i j| ∧ |chanImg a.chans k c i j - chanImg b.chans k c i j| ≤ hi) :
    lo ≤ a.meanError b ∧ a.meanError b ≤ hi := by
  obtain ⟨h1, h2⟩ := sum4_bounds 3 a.chans.length a.n a.n
    (fun k c i j => if hk : k < 3 then |chanImg a.chans ⟨k, hk⟩ c i j - chanImg b.chans ⟨k, hk⟩ c i j| else 0) lo hi
    (fun k hk c hc i hi j hj => by simpa only [dif_pos hk] using h ⟨k, hk⟩ c hc i hi j hj)
  rw [sum_range] at h1 h2
  simp only [Fin.is_lt, dif_pos, Fin.eta] at h1 h2
  have hn' : (0 : ℝ) < a.n := by exact_mod_cast hn
  have hc' : (0 : ℝ) < a.chans.length := by exact_mod_cast hc
  have hp : (0 : ℝ) < 3 * a.chans.length * a.n * a.n := by positivity
  unfold PTensor.meanError
  push_cast at h1 h2
  exact ⟨by rw [le_div_iff₀ hp]; linarith, by rw [div_le_iff₀ hp]; linarith⟩

/-- Images of three pixels a side with one channel, of values 3 and 1. -/
example : PTensor.meanError ⟨3, [fun _ => 3]⟩ ⟨3, [fun _ => 1]⟩ = 2 := by
  have := c108_mean ⟨3, [fun _ => 3]⟩ ⟨3, [fun _ => 1]⟩ (by decide) (by decide) 2 2 (fun k c hc i hi j hj => by
    obtain rfl : c = 0 := Nat.lt_one_iff.1 hc
    have hi' : i < 3 := hi
    have hj' : j < 3 := hj
    simp [chanImg, readZ, hi', hj']
    norm_num)
  exact le_antisymm this.2 this.1

/-- What `np.allclose` allows (equivariant_module.py:112): where it passes and the second array is at most `K` the reported error is at most `atol + rtol * K`. -/
theorem c108_allclose (a b : PTensor (Fin 3)) (hn : 0 < a.n) (hc : 0 < a.chans.length) (atol rtol K : ℝ) (hr : 0 ≤ rtol)
    (hK : ∀ k : Fin 3, ∀ c < a.chans.length, ∀ i < a.n, ∀ j < a.n, |chanImg b.chans k c i j| ≤ K)
    (h : ∀ k : Fin 3, ∀ c < a.chans.length, ∀ i < a.n, ∀ j < a.n,
      |chanImg a.chans k c i j - chanImg b.chans k c i j| ≤ atol + rtol * |chanImg b.chans k c i j|) :
    0 ≤ a.meanError b ∧ a.meanError b ≤ atol + rtol * K :=
  c108_mean a b hn hc 0 _ fun k c hc i hi j hj =>
    ⟨abs_nonneg _, (h k c hc i hi j hj).trans (by have := mul_le_mul_of_nonneg_left (hK k c hc i hi j hj) hr; linarith)⟩

end E2
