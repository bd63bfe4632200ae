import Verif.Lemmas.FiniteDiff
import Verif.Props.Diffops
import Verif.Props.Image

/-!
# C48 and C49: finite differences

C48 asks that the filters obtained from a steerable operator by finite differences satisfy the kernel constraint at all the symmetries of the pixel
grid which belong to the group.  It holds for the rotations.  It is false for the reflections: the product `x_kernel[:, None] * y_kernel[None, :]`
puts the derivatives along `x` on the rows, while the rows of the grid are the values of `y`, so that the filter of `P(∂x, ∂y)` is a discretisation of
`P(-∂y, ∂x)`; for a reflection and an operator of odd order the constraint holds with the opposite sign.

C49 is about the numbers of points, orders and accuracies.
-/

namespace E2

open Finset Mat Real

variable {El : Type}

/-- What is assumed of `sympy.finite_diff_weights(n, points, 0)[-1][-1]`: the weights are exact for the polynomials of degree less than the number of
points. -/
def FDSpec (fd : ℕ → List ℝ → ℕ → ℝ) : Prop :=
  ∀ n pts, pts.Nodup → n < pts.length → FDWeights pts.length (fun j => pts.getD j 0) n (fd n pts)

/-- Such weights exist. -/
theorem FDSpec.exists : ∃ fd, FDSpec fd := by
  classical
  have h : ∀ (n : ℕ) (pts : List ℝ), ∃ w : ℕ → ℝ, pts.Nodup → FDWeights pts.length (fun j => pts.getD j 0) n w := by
    intro n pts
    by_cases hp : pts.Nodup
    · obtain ⟨w, hw⟩ := FDWeights.exists (k := pts.length) (t := fun j => pts.getD j 0)
        (fun i hi j hj hij => by
          simp only [List.getD_eq_getElem _ _ hi, List.getD_eq_getElem _ _ hj] at hij
          exact (hp.getElem_inj_iff).1 hij) n
      exact ⟨w, fun _ => hw⟩
    · exact ⟨fun _ => 0, fun h => absurd h hp⟩
  choose fd hfd using h
  exact ⟨fd, fun n pts hp _ => hfd n pts hp⟩

theorem FDSpec.axis {fd : ℕ → List ℝ → ℕ → ℝ} (h : FDSpec fd) {k d n : ℕ} (hd : 0 < d) (hn : n < k) :
    FDWeights k (axisPt k d) n (fd n (axisPts k d)) := by
  have := h n (axisPts k d) ((axisPts_unique hd).1.imp ne_of_lt) (by rw [axisPts_length]; exact hn)
  rw [axisPts_length] at this
  intro m hm
  rw [← this m hm]
  exact Finset.sum_congr rfl fun j hj => by dsimp only; rw [axisPts_get _ _ _ (Finset.mem_range.1 hj)]

theorem FDSpec.mir {fd : ℕ → List ℝ → ℕ → ℝ} (h : FDSpec fd) {k d n : ℕ} (hd : 0 < d) (hn : n < k) {s : ℝ} (hs : s = 1 ∨ s = -1) {j : ℕ} (hj : j < k) :
    fd n (axisPts k d) (E2.mir k s j) = s ^ n * fd n (axisPts k d) j := by
  rcases hs with rfl | rfl
  · simp [E2.mir]
  · rw [E2.mir, if_neg (by norm_num)]
    exact (h.axis hd hn).parity (fun i _ j _ => axisPt_inj hd i j) (fun j hj => axisPt_rev hj) j hj

theorem fd_diag {fd : ℕ → List ℝ → ℕ → ℝ} (h : FDSpec fd) {k d n q q' : ℕ} (hd : 0 < d) {s t : ℝ} (hs : s = 1 ∨ s = -1) (ht : t = 1 ∨ t = -1)
    {c e : ℕ → ℝ} (hc : ∀ m ≤ n, c m * (s ^ (n - m) * t ^ m) = e m) (hf : ∀ m ≤ n, c m ≠ 0 → n - m < k ∧ m < k)
    (hk : q % k < k) (hk' : q / k < k) (h1 : q' % k = E2.mir k s (q % k)) (h2 : q' / k = E2.mir k t (q / k)) :
    ∑ m ∈ range (n + 1), c m * (fd (n - m) (axisPts k d) (q' / k) * fd m (axisPts k d) (q' % k)) =
      (s * t) ^ n * ∑ m ∈ range (n + 1), e m * (fd (n - m) (axisPts k d) (q / k) * fd m (axisPts k d) (q % k)) := by
  rw [Finset.mul_sum]
  refine Finset.sum_congr rfl fun m hm => ?_
  have hm : m ≤ n := by have := Finset.mem_range.1 hm; omega
  rw [← hc m hm]
  by_cases h0 : c m = 0
  · simp [h0]
  · obtain ⟨f1, f2⟩ := hf m hm h0
    rw [h1, h2, h.mir hd f1 ht hk', h.mir hd f2 hs hk]
    have hs2 : ∀ a, s ^ a * s ^ a = 1 := fun a => by rw [← mul_pow]; rcases hs with rfl | rfl <;> norm_num
    have ht2 : ∀ a, t ^ a * t ^ a = 1 := fun a => by rw [← mul_pow]; rcases ht with rfl | rfl <;> norm_num
    have hn : (s * t) ^ n = (s ^ (n - m) * s ^ m) * (t ^ (n - m) * t ^ m) := by rw [mul_pow, ← pow_add, ← pow_add, Nat.sub_add_cancel hm]
    rw [hn]
    have e1 := hs2 (n - m)
    have e2 := ht2 m
    set A := fd (n - m) (axisPts k d) (q / k)
    set B := fd m (axisPts k d) (q % k)
    linear_combination (-(c m) * A * B * s ^ m * t ^ (n - m) * (t ^ m * t ^ m)) * e1 + (-(c m) * A * B * s ^ m * t ^ (n - m)) * e2

theorem fd_swap {fd : ℕ → List ℝ → ℕ → ℝ} (h : FDSpec fd) {k d n q q' : ℕ} (hd : 0 < d) {s t : ℝ} (hs : s = 1 ∨ s = -1) (ht : t = 1 ∨ t = -1)
    {c e : ℕ → ℝ} (hc : ∀ m ≤ n, c (n - m) * (s ^ m * t ^ (n - m)) = e m) (hf : ∀ m ≤ n, c m ≠ 0 → n - m < k ∧ m < k)
    (hk : q % k < k) (hk' : q / k < k) (h1 : q' % k = E2.mir k (-s) (q / k)) (h2 : q' / k = E2.mir k (-t) (q % k)) :
    ∑ m ∈ range (n + 1), c m * (fd (n - m) (axisPts k d) (q' / k) * fd m (axisPts k d) (q' % k)) =
      (-(s * t)) ^ n * ∑ m ∈ range (n + 1), e m * (fd (n - m) (axisPts k d) (q / k) * fd m (axisPts k d) (q % k)) := by
  rw [Finset.mul_sum, ← Finset.sum_range_reflect]
  refine Finset.sum_congr rfl fun m hm => ?_
  have hm : m ≤ n := by have := Finset.mem_range.1 hm; omega
  have r1 : n + 1 - 1 - m = n - m := by omega
  have r2 : n - (n - m) = m := by omega
  rw [r1, r2, ← hc m hm]
  by_cases h0 : c (n - m) = 0
  · simp [h0]
  · obtain ⟨f1, f2⟩ := hf (n - m) (by omega) h0
    rw [r2] at f1
    have hs' : -s = 1 ∨ -s = -1 := by rcases hs with rfl | rfl <;> norm_num
    have ht' : -t = 1 ∨ -t = -1 := by rcases ht with rfl | rfl <;> norm_num
    rw [h1, h2, h.mir hd f1 ht' hk, h.mir hd f2 hs' hk']
    have hs2 : ∀ a, s ^ a * s ^ a = 1 := fun a => by rw [← mul_pow]; rcases hs with rfl | rfl <;> norm_num
    have ht2 : ∀ a, t ^ a * t ^ a = 1 := fun a => by rw [← mul_pow]; rcases ht with rfl | rfl <;> norm_num
    have hn : (-(s * t)) ^ n = ((-1) ^ (n - m) * (-1) ^ m) * ((s ^ (n - m) * s ^ m) * (t ^ (n - m) * t ^ m)) := by
      rw [neg_eq_neg_one_mul, mul_pow, mul_pow, ← pow_add, ← pow_add, ← pow_add, Nat.sub_add_cancel hm]
    rw [hn, neg_pow t, neg_pow s]
    have e1 := hs2 m
    have e2 := ht2 (n - m)
    set A := fd (n - m) (axisPts k d) (q / k)
    set B := fd m (axisPts k d) (q % k)
    linear_combination (-(c (n - m)) * A * B * (-1) ^ m * (-1) ^ (n - m) * s ^ (n - m) * t ^ m * (t ^ (n - m) * t ^ (n - m))) * e1 +
      (-(c (n - m)) * A * B * (-1) ^ m * (-1) ^ (n - m) * s ^ (n - m) * t ^ m) * e2

/-- The product with two constant matrices commutes with a combination. -/
theorem conj_sum (so si n : ℕ) (P Q : Mat) (C : ℕ → Mat) (W : ℕ → ℝ) (i j : ℕ) :
    Mat.mul si (Mat.mul so P fun a b => ∑ m ∈ range n, C m a b * W m) Q i j = ∑ m ∈ range n, Mat.mul si (Mat.mul so P (C m)) Q i j * W m := by
  simp only [Mat.mul, Finset.mul_sum, Finset.sum_mul]
  calc _ = ∑ b ∈ range si, ∑ m ∈ range n, ∑ a ∈ range so, P i a * (C m a b * W m) * Q b j :=
        Finset.sum_congr rfl fun b _ => Finset.sum_comm
    _ = ∑ m ∈ range n, ∑ b ∈ range si, ∑ a ∈ range so, P i a * (C m a b * W m) * Q b j := Finset.sum_comm
    _ = _ := Finset.sum_congr rfl fun m _ => Finset.sum_congr rfl fun b _ => Finset.sum_congr rfl fun a _ => by ring

theorem conj_congr (so si : ℕ) (P Q : Mat) {M M' : Mat} (h : MEq so si M M') (i j : ℕ) :
    Mat.mul si (Mat.mul so P M) Q i j = Mat.mul si (Mat.mul so P M') Q i j := by
  simp only [Mat.mul]
  exact Finset.sum_congr rfl fun b hb => by
    rw [Finset.sum_congr rfl fun a ha => by rw [h a (Finset.mem_range.1 ha) b (Finset.mem_range.1 hb)]]

/-- The polynomials after the rotation by the angle offset. -/
noncomputable def offD (off : Option ℝ) (D : DArr) : DArr :=
  match off with
  | none => D
  | some θ => D.transform (psi θ 1 0)

theorem fdSample_spec {fd : ℕ → List ℝ → ℕ → ℝ} {k d so si : ℕ} {off : Option ℝ} {D : DArr} {f : ℕ → Mat} (h : fdSample fd k d so si off D = some f) :
    (∀ i < so, ∀ j < si, ((offD off D).entry i j).Fits k) ∧ ∀ q, MEq so si (f q) fun i j =>
      ∑ m ∈ range ((offD off D).deg + 1),
        (offD off D).co i j m * (fd ((offD off D).deg - m) (axisPts k d) (q / k) * fd m (axisPts k d) (q % k)) := by
  classical
  have he : ∀ D' : DArr, (if ∀ i < so, ∀ j < si, (fdDisc fd k d (D'.entry i j)).isSome then
      some fun q i j => match fdDisc fd k d (D'.entry i j) with
        | some w => w q
        | none => (0 : ℝ)
      else none) = some f → (∀ i < so, ∀ j < si, (D'.entry i j).Fits k) ∧ ∀ q, MEq so si (f q) fun i j =>
        ∑ m ∈ range (D'.deg + 1), D'.co i j m * (fd (D'.deg - m) (axisPts k d) (q / k) * fd m (axisPts k d) (q % k)) := by
    intro D' hf
    split_ifs at hf with hall
    obtain rfl := Option.some.inj hf
    have hfit : ∀ i < so, ∀ j < si, (D'.entry i j).Fits k := by
      intro i hi j hj
      have := hall i hi j hj
      unfold fdDisc at this
      by_contra hc
      rw [if_neg hc] at this
      simp at this
    refine ⟨hfit, fun q i hi j hj => ?_⟩
    dsimp only
    rw [fdDisc, if_pos (hfit i hi j hj)]
    refine Finset.sum_congr rfl fun m _ => ?_
    have hif : ∀ (a b : ℝ), (if a ≠ 0 then a * b else 0) = a * b := fun a b => by
      by_cases h0 : a = 0
      · simp [h0]
      · rw [if_pos h0]
    exact hif ((D'.entry i j).co m) _
  exact he (offD off D) (by cases off <;> exact h)

/-- The constraint at one linear map of the form `(s x, t y)`. -/
theorem fd_constraint_diag {fd : ℕ → List ℝ → ℕ → ℝ} (hfd : FDSpec fd) {k d so si : ℕ} (hd : 0 < d) {off : Option ℝ} {D : DArr} {f : ℕ → Mat}
    (hf : fdSample fd k d so si off D = some f) {s t : ℝ} (hs : s = 1 ∨ s = -1) (ht : t = 1 ∨ t = -1) (P Q : Mat)
    (hD : ∀ p : ℝ × ℝ, MEq so si ((offD off D).eval (s * p.1, t * p.2)) (Mat.mul si (Mat.mul so P ((offD off D).eval p)) Q))
    {q q' : ℕ} (hq : q < k * k) (hqq : gridCoords k d q' = (s * (gridCoords k d q).1, t * (gridCoords k d q).2)) :
    MEq so si (f q') fun i j => (s * t) ^ (offD off D).deg * Mat.mul si (Mat.mul so P (f q)) Q i j := by
  obtain ⟨hfit, hval⟩ := fdSample_spec hf
  generalize hD' : offD off D = D' at hfit hval hD ⊢
  have hk : 0 < k := by rcases k with _ | k; · simp at hq
                        · omega
  have hk1 : q % k < k := Nat.mod_lt _ hk
  have hk2 : q / k < k := Nat.div_lt_of_lt_mul hq
  rw [gridCoords_axis, gridCoords_axis] at hqq
  have h1 := eq_mir hd hs hk1 (congrArg Prod.fst hqq)
  have h2 := eq_mir hd ht hk2 (show axisPt k d (q' / k) = t * axisPt k d (q / k) by
    have := congrArg Prod.snd hqq; simp only at this; linarith)
  intro i hi j hj
  have hco : ∀ m ≤ D'.deg, D'.co i j m * (s ^ (D'.deg - m) * t ^ m) = Mat.mul si (Mat.mul so P fun a b => D'.co a b m) Q i j := by
    refine HPoly.coef_unique fun p => ?_
    rw [← conj_sum so si (D'.deg + 1) P Q (fun m a b => D'.co a b m) (fun m => p.1 ^ (D'.deg - m) * p.2 ^ m)]
    have := hD p i hi j hj
    simp only [DArr.eval, HPoly.eval, DArr.entry] at this
    refine Eq.trans (Finset.sum_congr rfl fun m _ => ?_) this
    rw [mul_pow, mul_pow]; ring
  rw [hval q' i hi j hj]
  dsimp only
  rw [conj_congr so si P Q (hval q), conj_sum so si (D'.deg + 1) P Q (fun m a b => D'.co a b m)]
  exact fd_diag hfd hd hs ht hco (hfit i hi j hj) hk1 hk2 h1 h2

/-- The constraint at one linear map of the form `(s y, t x)`. -/
theorem fd_constraint_swap {fd : ℕ → List ℝ → ℕ → ℝ} (hfd : FDSpec fd) {k d so si : ℕ} (hd : 0 < d) {off : Option ℝ} {D : DArr} {f : ℕ → Mat}
    (hf : fdSample fd k d so si off D = some f) {s t : ℝ} (hs : s = 1 ∨ s = -1) (ht : t = 1 ∨ t = -1) (P Q : Mat)
    (hD : ∀ p : ℝ × ℝ, MEq so si ((offD off D).eval (s * p.2, t * p.1)) (Mat.mul si (Mat.mul so P ((offD off D).eval p)) Q))
    {q q' : ℕ} (hq : q < k * k) (hqq : gridCoords k d q' = (s * (gridCoords k d q).2, t * (gridCoords k d q).1)) :
    MEq so si (f q') fun i j => (-(s * t)) ^ (offD off D).deg * Mat.mul si (Mat.mul so P (f q)) Q i j := by
  obtain ⟨hfit, hval⟩ := fdSample_spec hf
  generalize hD' : offD off D = D' at hfit hval hD ⊢
  have hk : 0 < k := by rcases k with _ | k; · simp at hq
                        · omega
  have hk1 : q % k < k := Nat.mod_lt _ hk
  have hk2 : q / k < k := Nat.div_lt_of_lt_mul hq
  rw [gridCoords_axis, gridCoords_axis] at hqq
  have hs' : -s = 1 ∨ -s = -1 := by rcases hs with rfl | rfl <;> norm_num
  have ht' : -t = 1 ∨ -t = -1 := by rcases ht with rfl | rfl <;> norm_num
  have h1 := eq_mir hd hs' hk2 (show axisPt k d (q' % k) = -s * axisPt k d (q / k) by
    have := congrArg Prod.fst hqq; simp only at this; linarith)
  have h2 := eq_mir hd ht' hk1 (show axisPt k d (q' / k) = -t * axisPt k d (q % k) by
    have := congrArg Prod.snd hqq; simp only at this; linarith)
  intro i hi j hj
  have hco : ∀ m ≤ D'.deg, D'.co i j (D'.deg - m) * (s ^ m * t ^ (D'.deg - m)) = Mat.mul si (Mat.mul so P fun a b => D'.co a b m) Q i j := by
    refine HPoly.coef_unique (c := fun m => D'.co i j (D'.deg - m) * (s ^ m * t ^ (D'.deg - m)))
      (d := fun m => Mat.mul si (Mat.mul so P fun a b => D'.co a b m) Q i j) fun p => ?_
    rw [← conj_sum so si (D'.deg + 1) P Q (fun m a b => D'.co a b m) (fun m => p.1 ^ (D'.deg - m) * p.2 ^ m)]
    have := hD p i hi j hj
    simp only [DArr.eval, HPoly.eval, DArr.entry] at this
    rw [← Finset.sum_range_reflect] at this
    refine Eq.trans (Finset.sum_congr rfl fun m hm => ?_) this
    have hm : m ≤ D'.deg := by have := Finset.mem_range.1 hm; omega
    have r1 : D'.deg + 1 - 1 - m = D'.deg - m := by omega
    have r2 : D'.deg - (D'.deg - m) = m := by omega
    rw [r1, r2, mul_pow, mul_pow]; ring
  rw [hval q' i hi j hj]
  dsimp only
  rw [conj_congr so si P Q (hval q), conj_sum so si (D'.deg + 1) P Q (fun m a b => D'.co a b m)]
  exact fd_swap hfd hd hs ht hco (hfit i hi j hj) hk1 hk2 h1 h2

/-! ### The symmetries of the grid -/

theorem quarter_cases {θ : ℝ} (h : Quarter θ) : ∃ c s : ℝ, cos θ = c ∧ sin θ = s ∧
    ((c = 1 ∧ s = 0) ∨ (c = 0 ∧ s = 1) ∨ (c = -1 ∧ s = 0) ∨ (c = 0 ∧ s = -1)) := by
  obtain ⟨k, rfl⟩ := h
  refine ⟨_, _, rfl, rfl, ?_⟩
  have hk : (k : ℝ) * (π / 2) = ((k % 4 : ℤ) : ℝ) * (π / 2) + ((k / 4 : ℤ) : ℝ) * (2 * π) := by
    have : (k : ℝ) = ((k % 4 : ℤ) : ℝ) + 4 * ((k / 4 : ℤ) : ℝ) := by exact_mod_cast (Int.emod_add_mul_ediv k 4).symm
    linear_combination (π / 2) * this
  rw [hk, cos_add_int_mul_two_pi, sin_add_int_mul_two_pi]
  have h0 := Int.emod_nonneg k (by norm_num : (4 : ℤ) ≠ 0)
  have h4 := Int.emod_lt_of_pos k (by norm_num : (0 : ℤ) < 4)
  generalize k % 4 = r at h0 h4
  have : r = 0 ∨ r = 1 ∨ r = 2 ∨ r = 3 := by omega
  rcases this with rfl | rfl | rfl | rfl
  · left; simp
  · right; left; simp
  · right; right; left
    have : ((2 : ℤ) : ℝ) * (π / 2) = π := by push_cast; ring
    rw [this]; simp
  · right; right; right
    have : ((3 : ℤ) : ℝ) * (π / 2) = π + π / 2 := by push_cast; ring
    rw [this, cos_add, sin_add]; simp

theorem offD_rot {so si : ℕ} {D : DArr} {P Q : Mat} {α : ℝ} (off : Option ℝ)
    (hD : ∀ p, MEq so si (D.eval (rot α p)) (Mat.mul si (Mat.mul so P (D.eval p)) Q)) :
    ∀ p, MEq so si ((offD off D).eval (rot α p)) (Mat.mul si (Mat.mul so P ((offD off D).eval p)) Q) := by
  cases off with
  | none => exact hD
  | some θ =>
    have he : ∀ p, (offD (some θ) D).eval p = D.eval (rot (-θ) p) := by
      rintro ⟨x, y⟩
      funext i j
      have := (HPoly.c46_transform (D.entry i j) (psi θ 1 0) x y).2
      simp only [offD, DArr.eval]
      refine Eq.trans this ?_
      congr 1
      simp [psi, m2, rot]
    intro p
    rw [he, he]
    have hc : rot (-θ) (rot α p) = rot α (rot (-θ) p) := by
      simp only [rot]
      refine Prod.ext ?_ ?_ <;> simp only <;> ring
    rw [hc]
    exact hD _

/-- **C48, for the rotations**: at every rotation of the group by a multiple of a right angle the filter satisfies the constraint on the grid, for all
representations, operators, orders, kernel sizes, dilations and angle offsets.  Missing: the reflections, for which the claim is false
(`c48_reflection`, `c48_reflection_wrong`). -/
theorem c48_rotations_partial {fd : ℕ → List ℝ → ℕ → ℝ} (hfd : FDSpec fd) {G : Grp El} {act : El → ℝ × ℝ → ℝ × ℝ} {so si : ℕ} {ρo ρi : El → Mat}
    {D : DArr} (hD : KernelConstraint G act so si ρo ρi D.eval) {k d : ℕ} (hd : 0 < d) {off : Option ℝ} {f : ℕ → Mat}
    (hf : fdSample fd k d so si off D = some f) {g : El} (hg : G.isEl g) {α : ℝ} (hα : Quarter α) (hact : ∀ p, act g p = rot α p)
    {q q' : ℕ} (hq : q < k * k) (hqq : gridCoords k d q' = act g (gridCoords k d q)) :
    MEq so si (f q') (Mat.mul si (Mat.mul so (ρo g) (f q)) (ρi (G.inv g))) := by
  have h1 : ∀ p, MEq so si ((offD off D).eval (rot α p)) (Mat.mul si (Mat.mul so (ρo g) ((offD off D).eval p)) (ρi (G.inv g))) :=
    offD_rot off fun p => by rw [← hact]; exact hD g hg p
  rw [hact] at hqq
  obtain ⟨c, s, hc, hs, hcs⟩ := quarter_cases hα
  have hr : ∀ p, rot α p = (c * p.1 - s * p.2, s * p.1 + c * p.2) := fun p => by simp only [rot, hc, hs]
  simp only [hr] at h1 hqq
  rcases hcs with ⟨rfl, rfl⟩ | ⟨rfl, rfl⟩ | ⟨rfl, rfl⟩ | ⟨rfl, rfl⟩
  · have := fd_constraint_diag hfd hd hf (s := 1) (t := 1) (by norm_num) (by norm_num) (ρo g) (ρi (G.inv g))
      (fun p => by simpa using h1 p) hq (by simpa using hqq)
    simpa using this
  · have := fd_constraint_swap hfd hd hf (s := -1) (t := 1) (by norm_num) (by norm_num) (ρo g) (ρi (G.inv g))
      (fun p => by simpa using h1 p) hq (by simpa using hqq)
    simpa using this
  · have := fd_constraint_diag hfd hd hf (s := -1) (t := -1) (by norm_num) (by norm_num) (ρo g) (ρi (G.inv g))
      (fun p => by simpa using h1 p) hq (by simpa using hqq)
    simpa using this
  · have := fd_constraint_swap hfd hd hf (s := 1) (t := -1) (by norm_num) (by norm_num) (ρo g) (ρi (G.inv g))
      (fun p => by simpa using h1 p) hq (by simpa using hqq)
    simpa using this

/-- **C48, what holds at the reflections**: the constraint up to the sign `(-1)^order`, for every reflection of the group which permutes the pixels. -/
theorem c48_reflection {fd : ℕ → List ℝ → ℕ → ℝ} (hfd : FDSpec fd) {G : Grp El} {act : El → ℝ × ℝ → ℝ × ℝ} {so si : ℕ} {ρo ρi : El → Mat}
    {D : DArr} (hD : KernelConstraint G act so si ρo ρi D.eval) {k d : ℕ} (hd : 0 < d) {f : ℕ → Mat}
    (hf : fdSample fd k d so si none D = some f) {g : El} (hg : G.isEl g) {a : ℝ} (ha : Quarter (2 * a)) (hact : ∀ p, act g p = refl a p)
    {q q' : ℕ} (hq : q < k * k) (hqq : gridCoords k d q' = act g (gridCoords k d q)) :
    MEq so si (f q') fun i j => (-1) ^ D.deg * Mat.mul si (Mat.mul so (ρo g) (f q)) (ρi (G.inv g)) i j := by
  have h1 : ∀ p, MEq so si ((offD none D).eval (refl a p)) (Mat.mul si (Mat.mul so (ρo g) ((offD none D).eval p)) (ρi (G.inv g))) :=
    fun p => by rw [← hact]; exact hD g hg p
  rw [hact] at hqq
  obtain ⟨c, s, hc, hs, hcs⟩ := quarter_cases ha
  have hr : ∀ p, refl a p = (c * p.1 + s * p.2, s * p.1 - c * p.2) := fun p => by simp only [refl, hc, hs]
  simp only [hr] at h1 hqq
  rcases hcs with ⟨rfl, rfl⟩ | ⟨rfl, rfl⟩ | ⟨rfl, rfl⟩ | ⟨rfl, rfl⟩
  · have := fd_constraint_diag hfd hd hf (s := 1) (t := -1) (by norm_num) (by norm_num) (ρo g) (ρi (G.inv g))
      (fun p => by simpa using h1 p) hq (by simpa using hqq)
    simpa [offD] using this
  · have := fd_constraint_swap hfd hd hf (s := 1) (t := 1) (by norm_num) (by norm_num) (ρo g) (ρi (G.inv g))
      (fun p => by simpa using h1 p) hq (by simpa using hqq)
    simpa [offD] using this
  · have := fd_constraint_diag hfd hd hf (s := -1) (t := 1) (by norm_num) (by norm_num) (ρo g) (ρi (G.inv g))
      (fun p => by simpa using h1 p) hq (by simpa using hqq)
    simpa [offD] using this
  · have := fd_constraint_swap hfd hd hf (s := -1) (t := -1) (by norm_num) (by norm_num) (ρo g) (ρi (G.inv g))
      (fun p => by simpa using h1 p) hq (by simpa using hqq)
    simpa [offD] using this

/-- **C48 for operators of even order**: the constraint holds at the reflections too. -/
theorem c48_even_order {fd : ℕ → List ℝ → ℕ → ℝ} (hfd : FDSpec fd) {G : Grp El} {act : El → ℝ × ℝ → ℝ × ℝ} {so si : ℕ} {ρo ρi : El → Mat}
    {D : DArr} (hD : KernelConstraint G act so si ρo ρi D.eval) {k d : ℕ} (hd : 0 < d) {f : ℕ → Mat}
    (hf : fdSample fd k d so si none D = some f) (heven : Even D.deg) {g : El} (hg : G.isEl g) {a : ℝ} (ha : Quarter (2 * a))
    (hact : ∀ p, act g p = refl a p) {q q' : ℕ} (hq : q < k * k) (hqq : gridCoords k d q' = act g (gridCoords k d q)) :
    MEq so si (f q') (Mat.mul si (Mat.mul so (ρo g) (f q)) (ρi (G.inv g))) := by
  have := c48_reflection hfd hD hd hf hg ha hact hq hqq
  intro i hi j hj
  rw [this i hi j hj]
  dsimp only
  rw [heven.neg_one_pow, one_mul]

/-! ### The reflections: the claim is false -/

/-- The derivative along `x`, from scalars to the sign representation of the group of the reflection with respect to the vertical axis. -/
def exDx : DArr := ⟨1, fun i j m => if i = 0 ∧ j = 0 ∧ m = 0 then 1 else 0⟩

/-- The sign representation of the group of two elements. -/
def exSign (g : ℤ) : Mat := fun i j => if i = 0 ∧ j = 0 then (if g = 0 then 1 else -1) else 0

/-- The trivial representation. -/
def exTriv (_ : ℤ) : Mat := fun i j => if i = 0 ∧ j = 0 then 1 else 0

theorem exDx_constraint : KernelConstraint (Cyclic.grp 2) (fun g p => if g = 0 then p else refl (π / 2) p) 1 1 exSign exTriv exDx.eval := by
  rintro g - ⟨x, y⟩ i hi j hj
  obtain rfl : i = 0 := by omega
  obtain rfl : j = 0 := by omega
  have h2 : 2 * (π / 2) = π := by ring
  by_cases hg : g = 0 <;> simp [hg, DArr.eval, HPoly.eval, DArr.entry, exDx, Finset.sum_range_succ, Mat.mul, exSign, exTriv, refl, h2]

/-- **C48 is false at the reflections**: for the derivative along `x`, which changes sign with the reflection of the horizontal axis, the filter of
size 3 is constant along the rows and does not change sign. -/
theorem c48_reflection_wrong {fd : ℕ → List ℝ → ℕ → ℝ} (hfd : FDSpec fd) :
    KernelConstraint (Cyclic.grp 2) (fun g p => if g = 0 then p else refl (π / 2) p) 1 1 exSign exTriv exDx.eval ∧
    ∃ f, fdSample fd 3 1 1 1 none exDx = some f ∧ gridCoords 3 1 1 = refl (π / 2) (gridCoords 3 1 1) ∧
      ¬ MEq 1 1 (f 1) (Mat.mul 1 (Mat.mul 1 (exSign 1) (f 1)) (exTriv ((Cyclic.grp 2).inv 1))) := by
  refine ⟨exDx_constraint, ?_⟩
  have hfit : (exDx.entry 0 0).Fits 3 := by
    intro m hm _
    have : m ≤ 1 := hm
    show 1 - m < 3 ∧ m < 3
    omega
  have hsome : ∃ f, fdSample fd 3 1 1 1 none exDx = some f := by
    unfold fdSample
    dsimp only
    rw [if_pos]
    · exact ⟨_, rfl⟩
    · intro i hi j hj
      obtain rfl : i = 0 := by omega
      obtain rfl : j = 0 := by omega
      unfold fdDisc
      rw [if_pos hfit]
      rfl
  obtain ⟨f, hf⟩ := hsome
  have h2 : 2 * (π / 2) = π := by ring
  refine ⟨f, hf, ?_, ?_⟩
  · simp only [gridCoords, refl, h2]
    norm_num
  · intro hcon
    have hv := (fdSample_spec hf).2 1 0 (by omega) 0 (by omega)
    have w0 := hfd.axis (k := 3) (d := 1) (n := 0) (by omega) (by omega)
    have w1 := hfd.axis (k := 3) (d := 1) (n := 1) (by omega) (by omega)
    have a0 := w0 0 (by omega)
    have a1 := w0 1 (by omega)
    have a2 := w0 2 (by omega)
    have b0 := w1 0 (by omega)
    have b1 := w1 1 (by omega)
    have b2 := w1 2 (by omega)
    simp [Finset.sum_range_succ, axisPt] at a0 a1 a2 b0 b1 b2
    norm_num at a0 a1 a2 b0 b1 b2
    simp [offD, exDx, Finset.sum_range_succ] at hv
    have hc := hcon 0 (by omega) 0 (by omega)
    simp [Mat.mul, exSign, exTriv] at hc
    have e1 : fd 0 (axisPts 3 1) 1 = 1 := by linarith
    have e2 : fd 1 (axisPts 3 1) 0 = -(1 / 2) := by linarith
    rw [e1, e2] at hv
    linarith

/-! ### C49 -/

/-- **C49**: for every order and every positive accuracy, the required number of points guarantees the accuracy, and every number of points which
guarantees it is at least the required one. -/
theorem c49_required_points (order accuracy : ℤ) (ha : 1 ≤ accuracy) :
    (∃ a, guaranteedAccuracy (requiredPoints order accuracy) order = some a ∧ accuracy ≤ a) ∧
    ∀ n a, guaranteedAccuracy n order = some a → accuracy ≤ a → requiredPoints order accuracy ≤ n := by
  refine ⟨?_, fun n a hn h => ?_⟩
  · unfold guaranteedAccuracy requiredPoints
    dsimp only
    split_ifs <;> first | exact ⟨_, rfl, by omega⟩ | (exfalso; omega)
  · unfold guaranteedAccuracy at hn
    unfold requiredPoints
    dsimp only at hn
    split_ifs at hn ⊢ <;> simp only [Option.some.injEq] at hn <;> omega

/-- **C49**: for every positive accuracy and at least as many points, the largest possible order is at least 0, its guaranteed accuracy is at least
the requested one, and no larger order has a guaranteed accuracy which is. Missing: `c49_largest_order_wrong`. -/
theorem c49_largest_order_partial (numPoints accuracy : ℤ) (ha : 1 ≤ accuracy) (hn : accuracy ≤ numPoints) :
    ∃ o, largestPossibleOrder numPoints accuracy = some o ∧ 0 ≤ o ∧ (∃ a, guaranteedAccuracy numPoints o = some a ∧ accuracy ≤ a) ∧
      ∀ o' a, guaranteedAccuracy numPoints o' = some a → accuracy ≤ a → o' ≤ o := by
  unfold largestPossibleOrder
  dsimp only
  rw [if_pos (by omega)]
  split_ifs with h
  · refine ⟨_, rfl, by omega, ?_, fun o' a ho h' => ?_⟩
    · unfold guaranteedAccuracy
      dsimp only
      split_ifs <;> first | exact ⟨_, rfl, by omega⟩ | (exfalso; omega)
    · unfold guaranteedAccuracy at ho
      dsimp only at ho
      split_ifs at ho <;> simp only [Option.some.injEq] at ho <;> omega
  · refine ⟨_, rfl, by omega, ?_, fun o' a ho h' => ?_⟩
    · unfold guaranteedAccuracy
      dsimp only
      split_ifs <;> first | exact ⟨_, rfl, by omega⟩ | (exfalso; omega)
    · unfold guaranteedAccuracy at ho
      dsimp only at ho
      split_ifs at ho <;> simp only [Option.some.injEq] at ho <;> omega

/-- **C49, the corner where it is false**: one point fewer than an even accuracy is enough for the order 0, but `largest_possible_order` fails. -/
theorem c49_largest_order_wrong (accuracy : ℤ) (ha : 1 ≤ accuracy) (he : accuracy % 2 = 0) :
    guaranteedAccuracy (accuracy - 1) 0 = some accuracy ∧ largestPossibleOrder (accuracy - 1) accuracy = none := by
  unfold guaranteedAccuracy largestPossibleOrder
  dsimp only
  refine ⟨?_, if_neg (by omega)⟩
  rw [if_pos (by omega), if_pos (by omega)]
  congr 1
  omega

/-- `symmetric_points` with a positive dilation: distinct points, symmetric around the origin. -/
theorem symmetricPoints_spec (k : ℕ) {δ : ℝ} (hδ : 0 < δ) : (symmetricPoints k δ).length = k ∧ (symmetricPoints k δ).Nodup ∧
    ∀ j < k, (symmetricPoints k δ).getD (k - 1 - j) 0 = -(symmetricPoints k δ).getD j 0 := by
  refine ⟨by simp [symmetricPoints], ?_, fun j hj => ?_⟩
  · unfold symmetricPoints
    refine List.Nodup.map (fun a b hab => ?_) List.nodup_range
    simp only [mul_eq_mul_right_iff, hδ.ne', or_false, sub_left_inj] at hab
    exact_mod_cast hab
  · have h1 : k - 1 - j < k := by omega
    simp only [symmetricPoints, List.getD, List.getElem?_map, List.getElem?_range h1, List.getElem?_range hj, Option.map_some, Option.getD_some]
    have : ((k - 1 - j : ℕ) : ℝ) = k - 1 - j := by rw [Nat.sub_sub, Nat.cast_sub (by omega)]; push_cast; ring
    rw [this]
    ring

/-- **C49, what the accuracy means**: the weights for `order` on `k` symmetric points differentiate exactly the monomials of degree less than `order`
plus the guaranteed accuracy, so that the error of the approximation is of that order in the distance of the points. -/
theorem c49_accuracy_meaning {fd : ℕ → List ℝ → ℕ → ℝ} (hfd : FDSpec fd) (k order : ℕ) (ho : order < k) {δ : ℝ} (hδ : 0 < δ) :
    ∃ a, guaranteedAccuracy k order = some a ∧ ∀ m : ℕ, (m : ℤ) < order + a →
      ∑ j ∈ range k, fd order (symmetricPoints k δ) j * (symmetricPoints k δ).getD j 0 ^ m = if m = order then (order.factorial : ℝ) else 0 := by
  obtain ⟨hl, hnd, hsym⟩ := symmetricPoints_spec k hδ
  have hw := hfd order (symmetricPoints k δ) hnd (by rw [hl]; exact ho)
  rw [hl] at hw
  have hinj : ∀ i < k, ∀ j < k, (symmetricPoints k δ).getD i 0 = (symmetricPoints k δ).getD j 0 → i = j := by
    intro i hi j hj hij
    rw [List.getD_eq_getElem _ _ (by omega), List.getD_eq_getElem _ _ (by omega)] at hij
    exact (hnd.getElem_inj_iff).1 hij
  have hpar := hw.parity hinj hsym
  unfold guaranteedAccuracy
  dsimp only
  rw [if_pos (by omega)]
  split_ifs with hodd
  · refine ⟨_, rfl, fun m hm => ?_⟩
    rcases Nat.lt_or_ge m k with hmk | hmk
    · exact hw m hmk
    · obtain rfl : m = k := by omega
      rw [if_neg (by omega)]
      have hrev : ∑ j ∈ range m, fd order (symmetricPoints m δ) j * (symmetricPoints m δ).getD j 0 ^ m =
          (-1) ^ (order + m) * ∑ j ∈ range m, fd order (symmetricPoints m δ) j * (symmetricPoints m δ).getD j 0 ^ m := by
        conv_lhs => rw [← Finset.sum_range_reflect]
        rw [Finset.mul_sum]
        refine Finset.sum_congr rfl fun j hj => ?_
        rw [hpar j (Finset.mem_range.1 hj), hsym j (Finset.mem_range.1 hj), neg_pow, pow_add]
        ring
      have hoddn : Odd (order + m) := by rw [Nat.odd_iff]; omega
      rw [hoddn.neg_one_pow] at hrev
      linarith
  · exact ⟨_, rfl, fun m hm => hw m (by omega)⟩

/-! ### Concrete cases -/

/-- The gradient of a scalar field, an operator of order 1 of the rotations by right angles, sampled on 5 by 5 points with dilation 2. -/
example {fd : ℕ → List ℝ → ℕ → ℝ} (hfd : FDSpec fd) : ∃ f, fdSample fd 5 2 2 1 none ⟨1, fun i _ m => if i = m then 1 else 0⟩ = some f ∧
    ∀ q < 25, ∀ q', gridCoords 5 2 q' = rot (π / 2) (gridCoords 5 2 q) →
      MEq 2 1 (f q') (Mat.mul 1 (Mat.mul 2 (psi (π / 2) 1 0) (f q)) Mat.one) := by
  have hf : ∃ f, fdSample fd 5 2 2 1 none ⟨1, fun i _ m => if i = m then 1 else 0⟩ = some f := by
    unfold fdSample
    dsimp only
    rw [if_pos]
    · exact ⟨_, rfl⟩
    · intro i _ j _
      unfold fdDisc
      rw [if_pos]
      · rfl
      · intro m hm _
        have : m ≤ 1 := hm
        show 1 - m < 5 ∧ m < 5
        omega
  obtain ⟨f, hf⟩ := hf
  refine ⟨f, hf, fun q hq q' hqq => ?_⟩
  refine c48_rotations_partial hfd (G := SO2.grp) (act := rot) (ρo := fun r => psi r 1 0) (ρi := fun _ => Mat.one) (g := π / 2) ?_ (by omega) hf
    (by trivial) ⟨1, by simp⟩ (fun p => rfl) hq hqq
  rintro g - ⟨x, y⟩ i hi j hj
  obtain rfl : j = 0 := by omega
  have : i = 0 ∨ i = 1 := by omega
  rcases this with rfl | rfl <;>
    simp [DArr.eval, HPoly.eval, DArr.entry, Finset.sum_range_succ, Mat.mul, psi, m2, rot, Mat.one]
  ring

example : requiredPoints 2 2 = 3 ∧ guaranteedAccuracy 3 2 = some 2 ∧ largestPossibleOrder 5 2 = some 4 := by decide

end E2
