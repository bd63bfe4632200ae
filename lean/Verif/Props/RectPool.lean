import Verif.Props.Rect
import Verif.Props.Pooling

/-!
# C94: poolings on rectangular images and with arguments which differ along the two axes
-/

set_option linter.unusedSectionVars false

namespace E2

open Finset Mat Real

theorem PoolAx.mem_idx (A : PoolAx) {n i u : ℕ} : u ∈ A.idx n i ↔ u < n ∧ ∃ a < A.k, u + A.p = i * A.s + a * A.d := by
  rw [PoolAx.idx, List.mem_filterMap]
  constructor
  · rintro ⟨a, ha, h⟩
    split at h
    · simp only [Option.some.injEq] at h
      exact ⟨by omega, a, List.mem_range.1 ha, by omega⟩
    · simp at h
  · rintro ⟨hu, a, ha, h⟩
    refine ⟨a, List.mem_range.2 ha, ?_⟩
    rw [if_pos (by omega)]
    congr 1
    omega

/-- The windows cover the padded axis exactly. -/
def PoolAx.Covers (A : PoolAx) (n m : ℕ) : Prop := n + 2 * A.p = (m - 1) * A.s + (A.k - 1) * A.d + 1

/-- This is so when PyTorch gives `m` windows, in both modes, and the stride divides the range of the window. -/
theorem PoolAx.covers_of_dvd (A : PoolAx) {ceil : Bool} {n m : ℕ} (hs : 0 < A.s) (h : poolSize ceil n A.p A.k A.s A.d = some m)
    (hd : A.s ∣ n + 2 * A.p - A.d * (A.k - 1) - 1) (hp : A.p ≤ A.d * (A.k - 1)) : A.Covers n m := E2.covers_of_dvd hs h hd hp

theorem PoolAx.idx_rev (A : PoolAx) {n m i u : ℕ} (hN : A.Covers n m) (hi : i < m) (h : u ∈ A.idx n i) : n - 1 - u ∈ A.idx n (m - 1 - i) := by
  unfold PoolAx.Covers at hN
  rw [A.mem_idx] at h ⊢
  obtain ⟨hu, a, ha, h⟩ := h
  refine ⟨by omega, A.k - 1 - a, by omega, ?_⟩
  have e1 : (m - 1 - i) * A.s = (m - 1) * A.s - i * A.s := Nat.sub_mul _ _ _
  have e2 : (A.k - 1 - a) * A.d = (A.k - 1) * A.d - a * A.d := Nat.sub_mul _ _ _
  have e3 : i * A.s ≤ (m - 1) * A.s := Nat.mul_le_mul_right _ (by omega)
  have e4 : a * A.d ≤ (A.k - 1) * A.d := Nat.mul_le_mul_right _ (by omega)
  omega

theorem PoolAx.idx_lt (A : PoolAx) {n i u : ℕ} (h : u ∈ A.idx n i) : u < n := (A.mem_idx.1 h).1

/-- The values in a window. -/
theorem mem_window {A B : PoolAx} {h w i j : ℕ} {x : Img} {r : ℝ} :
    r ∈ ((A.idx h i).flatMap fun u => (B.idx w j).map fun v => x u v) ↔ ∃ u ∈ A.idx h i, ∃ v ∈ B.idx w j, x u v = r := by
  simp only [List.mem_flatMap, List.mem_map]

theorem maxPoolR_sym (A B : PoolAx) {h w mh mw : ℕ} (τ : GSym) (hAB : τ.swap = true → A = B) (hh : A.Covers h mh) (hw : B.Covers w mw) (x y : Img)
    (hxy : ∀ i j, i < (τ.shape h w).1 → j < (τ.shape h w).2 → y i j = x (τ.apR h w (i, j)).1 (τ.apR h w (i, j)).2) {i j : ℕ}
    (hi : i < (τ.shape mh mw).1) (hj : j < (τ.shape mh mw).2) :
    maxPoolR A B (τ.shape h w).1 (τ.shape h w).2 y i j = maxPoolR A B h w x (τ.apR mh mw (i, j)).1 (τ.apR mh mw (i, j)).2 := by
  have inv : ∀ {n u : ℕ}, u < n → n - 1 - (n - 1 - u) = u := by intros; omega
  refine maxVal_congr fun r => ?_
  rw [mem_window, mem_window]
  obtain ⟨s, a, b⟩ := τ
  cases s
  · simp only [GSym.shape, Bool.false_eq_true, if_false] at hxy hi hj ⊢
    constructor
    · rintro ⟨u, hu, v, hv, rfl⟩
      refine ⟨_, ?_, _, ?_, (hxy u v (A.idx_lt hu) (B.idx_lt hv)).symm⟩
      · cases a
        · simpa [GSym.apR] using hu
        · simpa [GSym.apR] using A.idx_rev hh hi hu
      · cases b
        · simpa [GSym.apR] using hv
        · simpa [GSym.apR] using B.idx_rev hw hj hv
    · rintro ⟨u, hu, v, hv, rfl⟩
      refine ⟨if a then h - 1 - u else u, ?_, if b then w - 1 - v else v, ?_, ?_⟩
      · cases a
        · simpa [GSym.apR] using hu
        · simp only [GSym.apR, if_true, if_false, Bool.false_eq_true] at hu
          have := A.idx_rev hh (by omega) hu
          rwa [inv hi] at this
      · cases b
        · simpa [GSym.apR] using hv
        · simp only [GSym.apR, if_true, if_false, Bool.false_eq_true] at hv
          have := B.idx_rev hw (by omega) hv
          rwa [inv hj] at this
      · have l1 := A.idx_lt hu
        have l2 := B.idx_lt hv
        rw [hxy _ _ (by split_ifs <;> omega) (by split_ifs <;> omega)]
        cases a <;> cases b <;> simp [GSym.apR, inv l1, inv l2]
  · obtain rfl := hAB rfl
    simp only [GSym.shape, if_true] at hxy hi hj ⊢
    constructor
    · rintro ⟨u, hu, v, hv, rfl⟩
      refine ⟨_, ?_, _, ?_, (hxy u v (A.idx_lt hu) (A.idx_lt hv)).symm⟩
      · cases a
        · simpa [GSym.apR] using hv
        · simpa [GSym.apR] using A.idx_rev hh hj hv
      · cases b
        · simpa [GSym.apR] using hu
        · simpa [GSym.apR] using A.idx_rev hw hi hu
    · rintro ⟨u, hu, v, hv, rfl⟩
      refine ⟨if b then w - 1 - v else v, ?_, if a then h - 1 - u else u, ?_, ?_⟩
      · cases b
        · simpa [GSym.apR] using hv
        · simp only [GSym.apR, if_true] at hv
          have := A.idx_rev hw (by omega) hv
          rwa [inv hi] at this
      · cases a
        · simpa [GSym.apR] using hu
        · simp only [GSym.apR, if_true] at hu
          have := A.idx_rev hh (by omega) hu
          rwa [inv hj] at this
      · have l1 := A.idx_lt hu
        have l2 := A.idx_lt hv
        rw [hxy _ _ (by split_ifs <;> omega) (by split_ifs <;> omega)]
        cases a <;> cases b <;> simp [GSym.apR, inv l1, inv l2]

theorem sum_apR (τ : GSym) (ka kb : ℕ) (f : ℕ × ℕ → ℝ) :
    ∑ a ∈ range (τ.shape ka kb).1, ∑ b ∈ range (τ.shape ka kb).2, f (τ.apR ka kb (a, b)) = ∑ a ∈ range ka, ∑ b ∈ range kb, f (a, b) := by
  have key : ∀ (u v : Bool) (g : ℕ × ℕ → ℝ), ∑ a ∈ range ka, ∑ b ∈ range kb,
      g (if u then ka - 1 - a else a, if v then kb - 1 - b else b) = ∑ a ∈ range ka, ∑ b ∈ range kb, g (a, b) := by
    intro u v g
    have h1 : ∀ a, ∑ b ∈ range kb, g (a, if v then kb - 1 - b else b) = ∑ b ∈ range kb, g (a, b) := by
      intro a
      cases v
      · simp
      · simpa using Finset.sum_range_reflect (fun b => g (a, b)) kb
    simp only [h1]
    cases u
    · simp
    · simpa using Finset.sum_range_reflect (fun a => ∑ b ∈ range kb, g (a, b)) ka
  obtain ⟨s, u, v⟩ := τ
  cases s
  · simpa [GSym.apR, GSym.shape] using key u v f
  · simp only [GSym.shape, if_true]
    rw [Finset.sum_comm]
    simpa [GSym.apR] using key u v f

/-- When the windows cover the padded image, the average is over the whole window. -/
theorem avgPoolR_eq (A B : PoolAx) {h w mh mw : ℕ} (hA : A.d = 1) (hB : B.d = 1) (hh : A.Covers h mh) (hw : B.Covers w mw) (x : Img) {i j : ℕ} (hi : i < mh) (hj : j < mw) :
    avgPoolR A B h w x i j = (∑ a ∈ range A.k, ∑ b ∈ range B.k, readPadR .zeros h w A.p B.p x (i * A.s + a) (j * B.s + b)) / (A.k * B.k : ℕ) := by
  have key : ∀ (A : PoolAx) {n m i : ℕ}, A.d = 1 → A.Covers n m → i < m → 0 < A.k → min (i * A.s + A.k) (n + 2 * A.p) - i * A.s = A.k := by
    intro A n m i hd hN hi hk
    unfold PoolAx.Covers at hN
    rw [hd, mul_one] at hN
    have e3 : i * A.s ≤ (m - 1) * A.s := Nat.mul_le_mul_right _ (by omega)
    omega
  unfold avgPoolR
  rcases Nat.eq_zero_or_pos A.k with h0 | h0
  · simp [h0]
  rcases Nat.eq_zero_or_pos B.k with h1 | h1
  · simp [h1]
  rw [key A hA hh hi h0, key B hB hw hj h1]

theorem avgPoolR_sym (A B : PoolAx) {h w mh mw : ℕ} (hA : A.d = 1) (hB : B.d = 1) (τ : GSym) (hAB : τ.swap = true → A = B) (hh : A.Covers h mh) (hw : B.Covers w mw)
    (x y : Img) (hxy : ∀ i j, i < (τ.shape h w).1 → j < (τ.shape h w).2 → y i j = x (τ.apR h w (i, j)).1 (τ.apR h w (i, j)).2) {i j : ℕ}
    (hi : i < (τ.shape mh mw).1) (hj : j < (τ.shape mh mw).2) :
    avgPoolR A B (τ.shape h w).1 (τ.shape h w).2 y i j = avgPoolR A B h w x (τ.apR mh mw (i, j)).1 (τ.apR mh mw (i, j)).2 := by
  have hap := τ.pix_apR hi hj
  have hcov : A.Covers (τ.shape h w).1 (τ.shape mh mw).1 ∧ B.Covers (τ.shape h w).2 (τ.shape mh mw).2 := by
    unfold GSym.shape
    split_ifs with hs
    · obtain rfl := hAB hs
      exact ⟨hw, hh⟩
    · exact ⟨hh, hw⟩
  rw [avgPoolR_eq A B hA hB hcov.1 hcov.2 y hi hj, avgPoolR_eq A B hA hB hh hw x hap.1 hap.2.1]
  congr 1
  have hk : τ.shape A.k B.k = (A.k, B.k) := by
    unfold GSym.shape
    split_ifs with hs
    · rw [hAB hs]
    · rfl
  have := sum_apR τ A.k B.k fun t => readPadR .zeros h w A.p B.p x ((τ.apR mh mw (i, j)).1 * A.s + t.1) ((τ.apR mh mw (i, j)).2 * B.s + t.2)
  rw [hk] at this
  rw [← this]
  refine sum_congr rfl fun a ha => sum_congr rfl fun b hb => ?_
  rw [mem_range] at ha hb
  have bound : ∀ (A : PoolAx) {n m i a : ℕ}, A.d = 1 → A.Covers n m → i < m → a < A.k →
      i * A.s + a < n + 2 * A.p ∧ n + 2 * A.p - 1 - (i * A.s + a) = (m - 1 - i) * A.s + (A.k - 1 - a) := by
    intro A n m i a hd hN hi ha
    unfold PoolAx.Covers at hN
    rw [hd, mul_one] at hN
    have e1 : (m - 1 - i) * A.s = (m - 1) * A.s - i * A.s := Nat.sub_mul _ _ _
    have e3 : i * A.s ≤ (m - 1) * A.s := Nat.mul_le_mul_right _ (by omega)
    omega
  rw [readPadR_sym (mode := .zeros) ⟨trivial, trivial⟩ τ (fun hs => by rw [hAB hs]) x y hxy (bound A hA hcov.1 hi ha).1 (bound B hB hcov.2 hj hb).1]
  obtain ⟨s, u, v⟩ := τ
  cases s
  · have b1 := (bound A hA hh (show i < mh from hi) ha).2
    have b2 := (bound B hB hw (show j < mw from hj) hb).2
    cases u <;> cases v <;> simp [GSym.apR, b1, b2]
  · obtain rfl := hAB rfl
    have b1 := (bound A hA hw (show i < mw from hi) ha).2
    have b2 := (bound A hA hh (show j < mh from hj) hb).2
    cases u <;> cases v <;> simp [GSym.apR, b1, b2]

variable {El : Type}

/-- What commuting with the elements which permute the pixels means for a map `f h w` of one channel with `h × w` pixels, when the output has `mh × mw` pixels: for
permutation matrices, or for all matrices. -/
def PoolRect (Sp : Space El) (base : ℕ → ℕ → El → Img → Img) (same : Prop) (P : ℕ → Mat → Prop) (h w mh mw : ℕ) (f : ℕ → ℕ → Img → Img) : Prop :=
  ∀ g, Sp.G.isEl g → Sp.grid g → ¬ Sp.Turns g ∨ same → ∀ (c : ℕ) (ρ : Mat), P c ρ → ∀ x : Fmap,
    FEqR c (Sp.turned g mh mw).1 (Sp.turned g mh mw).2
      (fun o => f (Sp.turned g h w).1 (Sp.turned g h w).2 (fieldAct c ρ (base h w g) x o))
      (fieldAct c ρ (base mh mw g) fun o => f h w (x o))

/-- **C94 for `PointwiseMaxPool`**: on every rectangle, with permutation representations; the turns need the same arguments along the two axes. -/
theorem c94_maxpool (Sp : Space El) (base : ℕ → ℕ → El → Img → Img) (hr : Sp.RectAction base) (A B : PoolAx) (h w mh mw : ℕ) (hh : A.Covers h mh) (hw : B.Covers w mw) :
    PoolRect Sp base (A = B) IsPerm h w mh mw (maxPoolR A B) := by
  intro g h1 h2 hs c ρ ⟨σ, hσ⟩ x o ho i hi j hj
  obtain ⟨τ, t1, t2⟩ := hr g h1 h2
  rw [Space.turned_eq t2] at hi hj
  rw [Space.turned_eq t2]
  have hAB : τ.swap = true → A = B := fun ht => hs.resolve_left (not_not.2 ((Space.turns_iff t2).2 ht))
  have hrow : ∀ z : ℕ → ℝ, ∑ e ∈ range c, ρ o e * z e = z (σ ⟨o, ho⟩) := by
    intro z
    rw [sum_eq_single (σ ⟨o, ho⟩ : ℕ)]
    · rw [hσ ⟨o, ho⟩ (σ ⟨o, ho⟩), if_pos rfl, one_mul]
    · intro e he hne
      rw [hσ ⟨o, ho⟩ ⟨e, mem_range.1 he⟩, if_neg (fun h => hne (congrArg Fin.val h)), zero_mul]
    · intro h; exact absurd (mem_range.2 (σ ⟨o, ho⟩).2) h
  unfold fieldAct
  rw [t1 mh mw _ i j hi hj, hrow]
  simp only [hrow]
  exact maxPoolR_sym A B τ hAB hh hw _ _ (fun i j hi hj => t1 h w _ i j hi hj) hi hj

theorem readPadR_add (mode : PadMode) (h w ph pw : ℕ) (c : ℕ) (u : ℕ → ℝ) (x : Fmap) (i j : ℕ) :
    readPadR mode h w ph pw (fun i j => ∑ e ∈ range c, u e * x e i j) i j = ∑ e ∈ range c, u e * readPadR mode h w ph pw (x e) i j :=
  readPadR_sum mode h w ph pw c u x i j

/-- **C94 for `PointwiseAvgPool`**: on every rectangle, with all representations. -/
theorem c94_avgpool (Sp : Space El) (base : ℕ → ℕ → El → Img → Img) (hr : Sp.RectAction base) (A B : PoolAx) (hA : A.d = 1) (hB : B.d = 1) (h w mh mw : ℕ)
    (hh : A.Covers h mh) (hw : B.Covers w mw) : PoolRect Sp base (A = B) (fun _ _ => True) h w mh mw (avgPoolR A B) := by
  intro g h1 h2 hs c ρ _ x o ho i hi j hj
  obtain ⟨τ, t1, t2⟩ := hr g h1 h2
  rw [Space.turned_eq t2] at hi hj
  rw [Space.turned_eq t2]
  have hAB : τ.swap = true → A = B := fun ht => hs.resolve_left (not_not.2 ((Space.turns_iff t2).2 ht))
  unfold fieldAct
  rw [t1 mh mw _ i j hi hj]
  dsimp only
  rw [avgPoolR_sym A B hA hB τ hAB hh hw (fun i j => ∑ e ∈ range c, ρ o e * x e i j) _ (fun i j hi hj => t1 h w _ i j hi hj) hi hj]
  unfold avgPoolR
  simp only [readPadR_add, ← mul_div_assoc]
  rw [← sum_div]
  congr 1
  simp only [mul_sum]
  rw [sum_congr rfl fun a _ => sum_comm, sum_comm]

/-- **C94, the arguments**: integers give the same values along the two axes, and the default stride is the size of the window. -/
theorem c94_pool_args (kernel padding dilation : ℕ ⊕ ℕ × ℕ) (stride : Option (ℕ ⊕ ℕ × ℕ)) :
    (∀ k p d : ℕ, kernel = .inl k → padding = .inl p → dilation = .inl d → (stride = none ∨ ∃ s, stride = some (.inl s)) →
      (poolAxes kernel stride padding dilation).1 = (poolAxes kernel stride padding dilation).2) ∧
    (stride = none → (poolAxes kernel stride padding dilation).1.s = (poolAxes kernel stride padding dilation).1.k ∧
      (poolAxes kernel stride padding dilation).2.s = (poolAxes kernel stride padding dilation).2.k) := by
  constructor
  · rintro k p d rfl rfl rfl (rfl | ⟨s, rfl⟩) <;> rfl
  · rintro rfl
    exact ⟨rfl, rfl⟩

/-- **C94, tuples**: with tuples the first entries are for the rows and the second ones for the columns; the output `(i, j)` of the max pooling is the largest pixel of the
window. -/
theorem c94_maxpool_window (kh kw sh sw ph pw dh dw h w : ℕ) (x : Img) (i j : ℕ)
    (hne : ∃ a < kh, ∃ b < kw, ∃ u < h, ∃ v < w, u + ph = i * sh + a * dh ∧ v + pw = j * sw + b * dw) :
    IsGreatest {z | ∃ a < kh, ∃ b < kw, ∃ u < h, ∃ v < w, u + ph = i * sh + a * dh ∧ v + pw = j * sw + b * dw ∧ z = x u v}
      (maxPoolR (poolAxes (.inr (kh, kw)) (some (.inr (sh, sw))) (.inr (ph, pw)) (.inr (dh, dw))).1
        (poolAxes (.inr (kh, kw)) (some (.inr (sh, sw))) (.inr (ph, pw)) (.inr (dh, dw))).2 h w x i j) := by
  have hm : ∀ z, z ∈ (((⟨ph, kh, sh, dh⟩ : PoolAx).idx h i).flatMap fun u => ((⟨pw, kw, sw, dw⟩ : PoolAx).idx w j).map fun v => x u v) ↔
      ∃ a < kh, ∃ b < kw, ∃ u < h, ∃ v < w, u + ph = i * sh + a * dh ∧ v + pw = j * sw + b * dw ∧ z = x u v := by
    intro z
    rw [mem_window]
    simp only [PoolAx.mem_idx]
    constructor
    · rintro ⟨u, ⟨hu, a, ha, e1⟩, v, ⟨hv, b, hb, e2⟩, rfl⟩
      exact ⟨a, ha, b, hb, u, hu, v, hv, e1, e2, rfl⟩
    · rintro ⟨a, ha, b, hb, u, hu, v, hv, e1, e2, rfl⟩
      exact ⟨u, ⟨hu, a, ha, e1⟩, v, ⟨hv, b, hb, e2⟩, rfl⟩
  have hn : (((⟨ph, kh, sh, dh⟩ : PoolAx).idx h i).flatMap fun u => ((⟨pw, kw, sw, dw⟩ : PoolAx).idx w j).map fun v => x u v) ≠ [] := by
    obtain ⟨a, ha, b, hb, u, hu, v, hv, e1, e2⟩ := hne
    exact List.ne_nil_of_mem ((hm (x u v)).2 ⟨a, ha, b, hb, u, hu, v, hv, e1, e2, rfl⟩)
  have := maxVal_greatest hn
  simp only [hm] at this
  exact this

/-- The average pooling, for windows inside of the image (no padding): the mean of the pixels of the window. -/
theorem c94_avgpool_window (kh kw sh sw h w : ℕ) (x : Img) (i j : ℕ) (hi : i * sh + kh ≤ h) (hj : j * sw + kw ≤ w) :
    avgPoolR (poolAxes (.inr (kh, kw)) (some (.inr (sh, sw))) (.inr (0, 0)) (.inl 1)).1 (poolAxes (.inr (kh, kw)) (some (.inr (sh, sw))) (.inr (0, 0)) (.inl 1)).2 h w x i j =
      (∑ a ∈ range kh, ∑ b ∈ range kw, x (i * sh + a) (j * sw + b)) / (kh * kw) := by
  change (∑ a ∈ range kh, ∑ b ∈ range kw, readPadR .zeros h w 0 0 x (i * sh + a) (j * sw + b)) /
    ((min (i * sh + kh) (h + 2 * 0) - i * sh) * (min (j * sw + kw) (w + 2 * 0) - j * sw) : ℕ) = _
  have e1 : min (i * sh + kh) (h + 2 * 0) - i * sh = kh := by omega
  have e2 : min (j * sw + kw) (w + 2 * 0) - j * sw = kw := by omega
  rw [e1, e2]
  push_cast
  congr 1
  refine sum_congr rfl fun a ha => sum_congr rfl fun b hb => ?_
  have ha := mem_range.1 ha
  have hb := mem_range.1 hb
  rw [readPadR]
  simp [padIdx, show i * sh + a < h by omega, show j * sw + b < w by omega]

example : ∃ a < 2, ∃ b < 3, ∃ u < 4, ∃ v < 9, u + 1 = 0 * 2 + a * 1 ∧ v + 0 = 2 * 3 + b * 1 := ⟨1, by norm_num, 0, by norm_num, 0, by norm_num, 6, by norm_num, by norm_num, by norm_num⟩

/-- Quarter turns of images with 6 × 9 pixels, windows of 3 × 3 pixels. -/
example (interp : ℝ → Img → Img) (c : ℕ) (ρ : Mat) (hρ : IsPerm c ρ) (x : Fmap) :
    FEqR c 3 2 (fun o => maxPoolR ⟨0, 3, 3, 1⟩ ⟨0, 3, 3, 1⟩ 9 6 (fieldAct c ρ (so2BaseR interp 6 9 (π / 2)) x o))
      (fieldAct c ρ (so2BaseR interp 2 3 (π / 2)) fun o => maxPoolR ⟨0, 3, 3, 1⟩ ⟨0, 3, 3, 1⟩ 6 9 (x o)) := by
  have ht : (so2Space interp).Turns (π / 2) := by simp [Space.Turns, so2Space, rot]
  have := c94_maxpool (so2Space interp) _ (so2Space_rect interp) ⟨0, 3, 3, 1⟩ ⟨0, 3, 3, 1⟩ 6 9 2 3 (by simp [PoolAx.Covers]) (by simp [PoolAx.Covers]) (π / 2) trivial
    ⟨1, by push_cast; ring⟩ (Or.inr rfl) c ρ hρ x
  simpa [Space.turned, ht] using this

/-- Half turns of images with 4 × 9 pixels, windows of 2 × 3 pixels. -/
example (interp : ℝ → Img → Img) (c : ℕ) (ρ : Mat) (x : Fmap) :
    FEqR c 2 3 (fun o => avgPoolR ⟨0, 2, 2, 1⟩ ⟨0, 3, 3, 1⟩ 4 9 (fieldAct c ρ (so2BaseR interp 4 9 π) x o))
      (fieldAct c ρ (so2BaseR interp 2 3 π) fun o => avgPoolR ⟨0, 2, 2, 1⟩ ⟨0, 3, 3, 1⟩ 4 9 (x o)) := by
  have ht : ¬ (so2Space interp).Turns π := by simp [Space.Turns, so2Space, rot]
  have := c94_avgpool (so2Space interp) _ (so2Space_rect interp) ⟨0, 2, 2, 1⟩ ⟨0, 3, 3, 1⟩ rfl rfl 4 9 2 3 (by simp [PoolAx.Covers]) (by simp [PoolAx.Covers]) π trivial
    ⟨2, by push_cast; ring⟩ (Or.inl ht) c ρ trivial x
  simpa [Space.turned, ht] using this

end E2
