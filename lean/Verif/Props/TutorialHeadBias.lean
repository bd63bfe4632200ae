import Verif.Props.TutorialHead

/-!
The head of the tutorial network (C87): where each pixel goes, and that in training the normalisation removes the bias of the first linear layer.
-/

namespace E2

variable {B : Type} [Fintype B]

/-- Constants added to the channels do not change what the normalisation returns in training. -/
theorem batchNorm1d_shift [Nonempty B] (v w : HeadVals) (he : w.eps = v.eps) (hg : w.gamma = v.gamma) (hb : w.beta = v.beta) (x : ℕ → B → ℝ) (t : ℕ → ℝ) :
    batchNorm1d true w (fun c b => x c b + t c) = batchNorm1d true v x := by
  funext c b
  have h1 : bMean (fun b => x c b + t c) = bMean (x c) + t c := by simpa only [one_mul] using bMean_affine (x c) 1 (t c)
  have h2 : bVar (fun b => x c b + t c) = bVar (x c) := by simpa only [one_mul, one_pow] using bVar_affine (x c) 1 (t c)
  show (x c b + t c - bMean fun b => x c b + t c) / Real.sqrt ((bVar fun b => x c b + t c) + w.eps) * w.gamma c + w.beta c =
    (x c b - bMean (x c)) / Real.sqrt (bVar (x c) + v.eps) * v.gamma c + v.beta c
  rw [h1, h2, he, hg, hb, add_sub_add_right_eq_sub]

/-- **C87**: in training the classes do not depend on the bias of the first linear layer nor on the stored statistics. -/
theorem c87_head_bias [Nonempty B] (v : HeadVals) (b1 mean var : ℕ → ℝ) (c : ℕ) (x : ℕ → B → ℝ) :
    fullyNet true { v with b1 := b1, mean := mean, var := var } c x = fullyNet true v c x := by
  funext o b
  have e1 := batchNorm1d_shift v { v with b1 := b1, mean := mean, var := var } rfl rfl rfl (fun j b => ∑ i ∈ Finset.range c, v.w1 j i * x i b) b1
  have e2 := batchNorm1d_shift v v rfl rfl rfl (fun j b => ∑ i ∈ Finset.range c, v.w1 j i * x i b) v.b1
  have e := fun j => congrFun (congrFun (e1.trans e2.symm) j) b
  show ∑ j ∈ Finset.range 64, v.w2 o j * eluFun 1 (batchNorm1d true { v with b1 := b1, mean := mean, var := var } _ j b) + v.b2 o =
    ∑ j ∈ Finset.range 64, v.w2 o j * eluFun 1 (batchNorm1d true v _ j b) + v.b2 o
  exact congrArg (· + v.b2 o) (Finset.sum_congr rfl fun j _ => by rw [e j])

/-- **C87**: before the head the pixel in row `i` and column `j` of channel `c` is at position `(c n + i) n + j`. -/
theorem c87_flatten {A : Type} (x : ETensor ℕ A) (b : A) (c : ℕ) (i j : Fin x.n) :
    flatPixels x ((c * x.n + i) * x.n + j) b = x.x.data.getD c 0 (b, i, j) := by
  have hn : 0 < x.n := i.pos
  have hnn : 0 < x.n * x.n := Nat.mul_pos hn hn
  have hlt : i.1 * x.n + j.1 < x.n * x.n := by
    have := Nat.mul_le_mul_right x.n (Nat.succ_le_of_lt i.2)
    rw [Nat.succ_mul] at this
    exact lt_of_lt_of_le (Nat.add_lt_add_left j.2 _) this
  have e : (c * x.n + i) * x.n + j = i.1 * x.n + j.1 + x.n * x.n * c := by ring
  have h1 : ((c * x.n + i) * x.n + j) / (x.n * x.n) = c := by
    rw [e, Nat.add_mul_div_left _ _ hnn, Nat.div_eq_of_lt hlt, Nat.zero_add]
  have h2 : ((c * x.n + i) * x.n + j) % (x.n * x.n) / x.n = i := by
    rw [e, Nat.add_mul_mod_self_left, Nat.mod_eq_of_lt hlt, Nat.add_comm, Nat.add_mul_div_right _ _ hn, Nat.div_eq_of_lt j.2, Nat.zero_add]
  have h3 : ((c * x.n + i) * x.n + j) % x.n = j := by
    rw [Nat.add_comm, Nat.add_mul_mod_self_right, Nat.mod_eq_of_lt j.2]
  unfold flatPixels
  rw [dif_pos hn]
  simp only [h1, h2, h3]

/-- Two channels of four pixels: the pixel in row 1 and column 0 of the second channel is number 6. -/
example (f g : Pix (Fin 3) 2 → ℝ) (b : Fin 3) : flatPixels ⟨2, ⟨[0, 0], [f, g]⟩⟩ 6 b = g (b, 1, 0) :=
  c87_flatten ⟨2, ⟨[0, 0], [f, g]⟩⟩ b 1 (1 : Fin 2) (0 : Fin 2)

/-- A batch of two images. -/
example (v : HeadVals) (x : ℕ → Fin 2 → ℝ) : fullyNet true { v with b1 := fun _ => 5 } 64 x = fullyNet true v 64 x := c87_head_bias v _ v.mean v.var 64 x

end E2
