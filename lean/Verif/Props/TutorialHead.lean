import Verif.Props.TutorialNet

/-!
The normalisation in the head of the tutorial network (C87), described by the statistics of its output.
-/

namespace E2

variable {B : Type} [Fintype B]

/-- The mean over a batch. -/
noncomputable def bMean (f : B → ℝ) : ℝ := (∑ b, f b) / Fintype.card B

/-- The variance over a batch. -/
noncomputable def bVar (f : B → ℝ) : ℝ := bMean fun b => (f b - bMean f) ^ 2

theorem bMean_affine [Nonempty B] (f : B → ℝ) (s t : ℝ) : bMean (fun b => s * f b + t) = s * bMean f + t := by
  have hB : (Fintype.card B : ℝ) ≠ 0 := by exact_mod_cast Fintype.card_ne_zero
  unfold bMean
  rw [Finset.sum_add_distrib, ← Finset.mul_sum, Finset.sum_const, Finset.card_univ, nsmul_eq_mul]
  field_simp

theorem bVar_affine [Nonempty B] (f : B → ℝ) (s t : ℝ) : bVar (fun b => s * f b + t) = s ^ 2 * bVar f := by
  unfold bVar
  rw [bMean_affine]
  have e : (fun b => (s * f b + t - (s * bMean f + t)) ^ 2) = fun b => s ^ 2 * (f b - bMean f) ^ 2 + 0 := by
    funext b
    ring
  rw [e, bMean_affine, add_zero]

theorem bVar_nonneg (f : B → ℝ) : 0 ≤ bVar f := div_nonneg (Finset.sum_nonneg fun _ _ => sq_nonneg _) (Nat.cast_nonneg _)

/-- **C87**: in training mode every channel of the normalised features has the mean `beta` and the variance `gamma² V / (V + eps)`, where `V` is the
variance of that channel of the input. -/
theorem c87_head_statistics [Nonempty B] (v : HeadVals) (heps : 0 < v.eps) (x : ℕ → B → ℝ) (c : ℕ) :
    bMean (batchNorm1d true v x c) = v.beta c ∧ bVar (batchNorm1d true v x c) = v.gamma c ^ 2 * (bVar (x c) / (bVar (x c) + v.eps)) := by
  have hV := bVar_nonneg (x c)
  have hs : Real.sqrt (bVar (x c) + v.eps) ^ 2 = bVar (x c) + v.eps := Real.sq_sqrt (by linarith)
  have e : batchNorm1d true v x c = fun b => v.gamma c / Real.sqrt (bVar (x c) + v.eps) * x c b +
      (v.beta c - v.gamma c / Real.sqrt (bVar (x c) + v.eps) * bMean (x c)) := by
    funext b
    show (x c b - bMean (x c)) / Real.sqrt (bVar (x c) + v.eps) * v.gamma c + v.beta c = _
    ring
  rw [e, bMean_affine, bVar_affine, div_pow, hs]
  constructor <;> ring

/-- **C87**: in evaluation mode it is, channel by channel, the affine map that sends `mean` to `beta` with the slope `gamma / √(var + eps)`. -/
theorem c87_head_evaluation (v : HeadVals) (x : ℕ → B → ℝ) (c : ℕ) (b : B) :
    batchNorm1d false v x c b - v.beta c = v.gamma c / Real.sqrt (v.var c + v.eps) * (x c b - v.mean c) := by
  show (x c b - v.mean c) / Real.sqrt (v.var c + v.eps) * v.gamma c + v.beta c - v.beta c = _
  ring

/-- Two images with the features 0 and 2: the variance is 1, and that of the normalised features is `γ² / (1 + ε)`. -/
example (v : HeadVals) (heps : 0 < v.eps) :
    bVar (batchNorm1d true v (fun _ (b : Fin 2) => 2 * (b.1 : ℝ)) 0) = v.gamma 0 ^ 2 * (1 / (1 + v.eps)) := by
  have h := (c87_head_statistics v heps (fun _ (b : Fin 2) => 2 * (b.1 : ℝ)) 0).2
  have e : bVar (fun b : Fin 2 => 2 * (b.1 : ℝ)) = 1 := by
    simp [bVar, bMean, Fin.sum_univ_two]
    norm_num
  rw [h]
  simp only [e]

end E2
