import Verif.Model.Upsample
import Verif.Props.Pooling
import Mathlib.Algebra.Order.Floor.Semifield

/-!
`R2Upsampling` commutes with the symmetries of the pixel grid for all representations (C54): in the bilinear mode for every size of the result, with
aligned corners or not; in the nearest mode exactly when the size of the result is a multiple of the size of the image, in particular for
an integer factor.
-/

set_option linter.unusedSectionVars false

namespace E2

variable {B R : Type}

/-! ### Operations on each axis -/

/-- An operation along one axis, from length `n` to length `m`, which reads entries of the axis, commutes with the operation along the other axis and with reversing
the axis. -/
structure SymAxis (n m : ℕ) (A : ℕ → (ℕ → ℝ) → ℝ) : Prop where
  congr : ∀ i g h, (∀ a < n, g a = h a) → A i g = A i h
  comm : ∀ i j (h : ℕ → ℕ → ℝ), A i (fun a => A j fun b => h a b) = A j fun b => A i fun a => h a b
  rev : ∀ i < m, ∀ g, A (m - 1 - i) g = A i fun a => g (n - 1 - a)

theorem readZ_move {n : ℕ} (τ : GSym) (v : Pix B n → ℝ) (b : B) {i j : ℕ} (hi : i < n) (hj : j < n) :
    readZ n 0 (v ∘ Pix.move τ) b i j = readZ n 0 v b (τ.ap n (i, j)).1 (τ.ap n (i, j)).2 := by
  have := τ.ap_lt hi hj
  rw [readZ, readZ, dif_pos (by omega), dif_pos (by omega)]
  rfl

theorem symAxis_sym {n m : ℕ} {A : ℕ → (ℕ → ℝ) → ℝ} (hA : SymAxis n m A) (τ : GSym) (v : Pix B n → ℝ) :
    (fun q : Pix B m => A q.2.1 fun i => A q.2.2 fun j => readZ n 0 (v ∘ Pix.move τ) q.1 i j)
      = (fun q : Pix B m => A q.2.1 fun i => A q.2.2 fun j => readZ n 0 v q.1 i j) ∘ Pix.move τ := by
  funext ⟨b, i, j⟩
  have e : (A i fun i => A j fun j => readZ n 0 (v ∘ Pix.move τ) b i j)
      = A i fun i => A j fun j => readZ n 0 v b (τ.ap n (i, j)).1 (τ.ap n (i, j)).2 :=
    hA.congr _ _ _ fun a ha => hA.congr _ _ _ fun c hc => readZ_move τ v b ha hc
  have hi := i.2
  have hj := j.2
  simp only [Function.comp_apply, Pix.move, GSym.fin]
  rw [e]
  obtain ⟨s, u, w⟩ := τ
  cases s <;> cases u <;> cases w <;> simp only [GSym.ap, if_true, if_false, Bool.false_eq_true]
  · simp only [hA.rev _ hj]
  · simp only [hA.rev _ hi]
  · simp only [hA.rev _ hj, hA.rev _ hi]
  · exact hA.comm _ _ _
  · simp only [hA.rev _ hi]
    exact hA.comm _ _ _
  · simp only [hA.rev _ hj]
    exact hA.comm _ _ _
  · simp only [hA.rev _ hi, hA.rev _ hj]
    exact hA.comm _ _ _

/-! ### Linear interpolation -/

theorem lerp_congr {n : ℕ} (hn : 0 < n) (u : ℝ) {g h : ℕ → ℝ} (e : ∀ a < n, g a = h a) : lerp n u g = lerp n u h := by
  unfold lerp
  dsimp only
  rw [e (min ⌊u⌋₊ (n - 1)) (by omega)]
  split_ifs with h1
  · rw [e _ (by omega)]
  · rw [e _ (by omega)]

theorem lerp_comm (n : ℕ) (u w : ℝ) (h : ℕ → ℕ → ℝ) : (lerp n u fun a => lerp n w fun b => h a b) = lerp n w fun b => lerp n u fun a => h a b := by
  unfold lerp
  dsimp only
  ring

/-- At the first entry and before. -/
theorem lerp_of_le {n : ℕ} (u : ℝ) (hu : u ≤ 0) (g : ℕ → ℝ) : lerp n (max u 0) g = g 0 := by
  rw [max_eq_right hu]
  simp [lerp]

/-- At the last entry and after. -/
theorem lerp_of_ge {n : ℕ} (hn : 0 < n) (u : ℝ) (hu : (n : ℝ) - 1 ≤ u) (g : ℕ → ℝ) : lerp n u g = g (n - 1) := by
  have h1 : n - 1 ≤ ⌊u⌋₊ := by
    apply Nat.le_floor
    rw [Nat.cast_sub (by omega)]
    simpa using hu
  have : min ⌊u⌋₊ (n - 1) = n - 1 := by omega
  rw [lerp, this, if_neg (by omega)]
  ring

/-- Between two entries. -/
theorem lerp_of_lt {n k : ℕ} (u : ℝ) (hk : k + 1 < n) (h0 : (k : ℝ) ≤ u) (h1 : u < k + 1) (g : ℕ → ℝ) :
    lerp n u g = (1 - (u - k)) * g k + (u - k) * g (k + 1) := by
  have h2 : ⌊u⌋₊ = k := (Nat.floor_eq_iff (le_trans (Nat.cast_nonneg k) h0)).2 ⟨h0, h1⟩
  have : min ⌊u⌋₊ (n - 1) = k := by omega
  rw [lerp, this, if_pos (by omega)]

/-- The values at an entry, whatever the next one is. -/
theorem lerp_of_eq {n k : ℕ} (hk : k < n) (g : ℕ → ℝ) : lerp n (k : ℝ) g = g k := by
  by_cases h : k + 1 < n
  · rw [lerp_of_lt (k : ℝ) h le_rfl (by linarith)]
    ring
  · have hk' : k = n - 1 := by omega
    rw [lerp_of_ge (by omega) _ ?_, ← hk']
    rw [hk', Nat.cast_sub (by omega)]
    simp

/-- Reversing the axis. -/
theorem lerp_rev {n : ℕ} (hn : 0 < n) (u : ℝ) (g : ℕ → ℝ) : lerp n (max ((n : ℝ) - 1 - u) 0) g = lerp n (max u 0) fun a => g (n - 1 - a) := by
  rcases le_or_gt u 0 with h0 | h0
  · rw [lerp_of_le u h0, lerp_of_ge hn _ (le_trans (by linarith) (le_max_left _ _))]
    rfl
  rcases le_or_gt ((n : ℝ) - 1) u with h1 | h1
  · rw [lerp_of_ge hn (max u 0) (le_trans h1 (le_max_left _ _)), lerp_of_le _ (by linarith), Nat.sub_self]
  rw [max_eq_left h0.le, max_eq_left (by linarith)]
  have hf := Nat.floor_le h0.le
  have hl := Nat.lt_floor_add_one u
  generalize hk : ⌊u⌋₊ = k at hf hl
  have hkn : k + 1 < n := by
    have : (k : ℝ) < n - 1 := lt_of_le_of_lt hf h1
    have : ((k + 1 : ℕ) : ℝ) < n := by push_cast; linarith
    exact_mod_cast this
  rw [lerp_of_lt u hkn hf hl]
  rcases eq_or_lt_of_le hf with he | he
  · have e : (n : ℝ) - 1 - u = ((n - 1 - k : ℕ) : ℝ) := by
      rw [Nat.sub_sub, Nat.cast_sub (by omega), ← he]; push_cast; ring
    rw [e, lerp_of_eq (by omega), ← he]
    ring
  · have e : ((n - 1 - (k + 1) : ℕ) : ℝ) = (n : ℝ) - 1 - (k + 1) := by
      rw [Nat.sub_sub, Nat.cast_sub (by omega)]; push_cast; ring
    rw [lerp_of_lt (k := n - 1 - (k + 1)) _ (by omega) (by rw [e]; linarith) (by rw [e]; linarith), e,
      show n - 1 - (k + 1) + 1 = n - 1 - k by omega]
    ring

theorem cast_rev {m i : ℕ} (hi : i < m) : ((m - 1 - i : ℕ) : ℝ) = (m : ℝ) - 1 - i := by
  rw [Nat.sub_sub, Nat.cast_sub (by omega)]; push_cast; ring

/-- The bilinear mode on one axis. -/
theorem symAxis_bilinear {n m : ℕ} (hn : 0 < n) (step : ℝ) (hs : step * m = n) : SymAxis n m fun i => lerp n (upPos false step i) where
  congr i g h e := lerp_congr hn _ e
  comm i j h := lerp_comm n _ _ h
  rev i hi g := by
    simp only [upPos, Bool.false_eq_true, if_false]
    rw [cast_rev hi, ← lerp_rev hn]
    congr 2
    linear_combination hs

/-- The bilinear mode with aligned corners on one axis. -/
theorem symAxis_align {n m : ℕ} (hn : 0 < n) (hm : n = 1 ∨ 1 < m) : SymAxis n m fun i => lerp n (upPos true (alignStep n m) i) where
  congr i g h e := lerp_congr hn _ e
  comm i j h := lerp_comm n _ _ h
  rev i hi g := by
    simp only [upPos, if_true]
    have hn' : (1 : ℝ) ≤ n := by exact_mod_cast hn
    have h0 : 0 ≤ alignStep n m := by
      rw [alignStep]
      split_ifs with h
      · have : (1 : ℝ) < m := by exact_mod_cast h
        exact div_nonneg (by linarith) (by linarith)
      · exact le_rfl
    have hs : alignStep n m * ((m : ℝ) - 1) = n - 1 := by
      rw [alignStep]
      split_ifs with h
      · have : (1 : ℝ) < m := by exact_mod_cast h
        exact div_mul_cancel₀ _ (by linarith)
      · rcases hm with rfl | hm
        · simp
        · exact absurd hm h
    have h1 := lerp_rev hn ((i : ℝ) * alignStep n m) g
    have hi0 : 0 ≤ (i : ℝ) * alignStep n m := mul_nonneg (Nat.cast_nonneg _) h0
    have e : (n : ℝ) - 1 - i * alignStep n m = ((m - 1 - i : ℕ) : ℝ) * alignStep n m := by
      rw [cast_rev hi]; linear_combination -hs
    rw [e, max_eq_left hi0, max_eq_left (mul_nonneg (Nat.cast_nonneg _) h0)] at h1
    exact h1

/-- The nearest mode on one axis. -/
theorem nearIdx_rev {n s : ℕ} (hs : 0 < s) {i : ℕ} (hi : i < n * s) (step : ℝ) (hstep : step * (n * s : ℕ) = n) :
    nearIdx n step i = i / s ∧ nearIdx n step (n * s - 1 - i) = n - 1 - i / s := by
  have hn : 0 < n := Nat.pos_of_ne_zero fun h => by subst h; simp at hi
  have hn' : (n : ℝ) ≠ 0 := by exact_mod_cast hn.ne'
  have hs' : (s : ℝ) ≠ 0 := by exact_mod_cast hs.ne'
  have e : step = 1 / s := by
    rw [eq_div_iff hs']
    push_cast at hstep
    have : (n : ℝ) * (step * s - 1) = 0 := by linear_combination hstep
    rcases mul_eq_zero.1 this with h | h
    · exact absurd h hn'
    · linarith
  have key : ∀ i, i < n * s → nearIdx n step i = i / s := by
    intro i hi
    have : i / s < n := (Nat.div_lt_iff_lt_mul hs).2 hi
    rw [nearIdx, e, mul_one_div, Nat.floor_div_natCast, Nat.floor_natCast]
    omega
  refine ⟨key i hi, ?_⟩
  rw [key _ (by omega)]
  have h1 : i / s < n := (Nat.div_lt_iff_lt_mul hs).2 hi
  have h2 := Nat.div_add_mod i s
  have h3 := Nat.mod_lt i hs
  generalize i / s = a at *
  generalize i % s = r at *
  obtain ⟨c, rfl⟩ : ∃ c, n = a + 1 + c := ⟨n - (a + 1), by omega⟩
  have h4 : (a + 1 + c) * s = s * a + s + c * s := by ring
  rw [h4, show a + 1 + c - 1 - a = c by omega]
  have h5 : (c + 1) * s = c * s + s := by ring
  apply Nat.div_eq_of_lt_le
  · omega
  · rw [h5]; omega

theorem symAxis_nearest {n s : ℕ} (hn : 0 < n) (hs : 0 < s) (step : ℝ) (hstep : step * (n * s : ℕ) = n) :
    SymAxis n (n * s) fun i g => g (nearIdx n step i) where
  congr i g h e := e _ (by rw [nearIdx]; omega)
  comm i j h := rfl
  rev i hi g := by
    obtain ⟨h1, h2⟩ := nearIdx_rev hs hi step hstep
    dsimp only
    rw [h1, h2]

/-! ### The module -/

/-- The modes and sizes for which the upsampling treats the two ends of an axis in the same way. -/
def UpSymmetric (c : UpCfg) (n m : ℕ) (step : ℝ) : Prop :=
  match c.mode with
  | .nearest => n ∣ m ∧ step * m = n
  | .bilinear => if c.align then n = 1 ∨ 1 < m else step * m = n

theorem interpolate_sym {c : UpCfg} {n m : ℕ} {step : ℝ} (hn : 0 < n) (hm : 0 < m) (h : UpSymmetric c n m step) (τ : GSym) (v : Pix B n → ℝ) :
    interpolate c.mode c.align n m step (v ∘ Pix.move τ) = interpolate c.mode c.align n m step v ∘ Pix.move τ := by
  obtain ⟨sc, si, mode, align⟩ := c
  cases mode with
  | nearest =>
    obtain ⟨⟨s, rfl⟩, h2⟩ := h
    exact symAxis_sym (symAxis_nearest hn (Nat.pos_of_ne_zero fun h => by subst h; simp at hm) step h2) τ v
  | bilinear =>
    cases align with
    | false => exact symAxis_sym (symAxis_bilinear hn step h) τ v
    | true => exact symAxis_sym (symAxis_align hn h) τ v

theorem readZ_linear (n : ℕ) (b : B) (i j : ℕ) : IsLinearMap ℝ fun v : Pix B n → ℝ => readZ n 0 v b i j where
  map_add x y := by unfold readZ; split_ifs <;> simp
  map_smul c x := by unfold readZ; split_ifs <;> simp

theorem interpolate_linear (mode : UpMode) (align : Bool) (n m : ℕ) (step : ℝ) :
    IsLinearMap ℝ (interpolate (B := B) mode align n m step) where
  map_add x y := by
    funext q
    cases mode <;> simp only [interpolate, lerp, (readZ_linear n q.1 _ _).map_add, Pi.add_apply]
    ring
  map_smul c x := by
    funext q
    cases mode <;> simp only [interpolate, lerp, (readZ_linear n q.1 _ _).map_smul, Pi.smul_apply, smul_eq_mul]
    ring

/-- **C54.** `R2Upsampling` commutes with the symmetries of the pixel grid, for all representations. -/
theorem c54_upsampling [DecidableEq R] (sz : R → ℕ) (t : List R) (c : UpCfg) {n m : ℕ} {step : ℝ} (hn : 0 < n)
    (hsize : upSize c.scale c.size n = some (m, step)) (h : UpSymmetric c n m step) (ρ : R → Mat) (τ : GSym)
    (x : GTensor R (Pix B n → ℝ)) (hx : x.WF sz) (hxt : x.ty = t) :
    ∃ y, r2Upsampling sz t c n m step x = some y ∧ y.WF sz ∧ y.ty = t ∧
      r2Upsampling sz t c n m step (x.transform sz ρ (Pix.move τ)) = some (y.transform sz ρ (Pix.move τ)) := by
  have hm : 0 < m := by
    unfold upSize at hsize
    split at hsize
    · split_ifs at hsize with h0
      simp only [Option.some.injEq, Prod.mk.injEq] at hsize
      rw [← hsize.1]; exact h0
    · split_ifs at hsize with h0
      simp only [Option.some.injEq, Prod.mk.injEq] at hsize
      rw [← hsize.1]; exact h0
    · simp at hsize
  exact channelwise_equivariant sz t _ ρ _ _
    (fun r _ fld _ => map_move_linear (sz r) (ρ r) _ _ _ (interpolate_sym hn hm h τ) (interpolate_linear _ _ n m step) fld) x hx hxt

/-- An integer factor, the only kind the constructor announces (r2upsampling.py:25), meets the hypotheses in both modes. -/
theorem c54_integer_scale (c : UpCfg) {n s : ℕ} (hn : 0 < n) (hs : 0 < s) (h1 : c.scale = some (s : ℚ)) (h2 : c.size = none)
    (h3 : c.mode = .nearest ∨ c.align = false ∨ 1 < n * s) :
    ∃ step, upSize c.scale c.size n = some (n * s, step) ∧ UpSymmetric c n (n * s) step := by
  have hf : ⌊(n : ℚ) * (s : ℚ)⌋₊ = n * s := by
    rw [← Nat.cast_mul]; exact Nat.floor_natCast _
  have hst : (((1 / (s : ℚ) : ℚ)) : ℝ) * ((n * s : ℕ) : ℝ) = n := by
    have : (s : ℝ) ≠ 0 := by exact_mod_cast hs.ne'
    push_cast
    field_simp
  refine ⟨((1 / (s : ℚ) : ℚ) : ℝ), ?_, ?_⟩
  · rw [h1, h2, upSize, hf, if_pos (Nat.mul_pos hn hs)]
  · unfold UpSymmetric
    cases hmode : c.mode with
    | nearest => exact ⟨Nat.dvd_mul_right n s, hst⟩
    | bilinear =>
      cases ha : c.align with
      | false => simpa using hst
      | true =>
        rcases h3 with h | h | h
        · rw [hmode] at h; cases h
        · rw [ha] at h; cases h
        · simp [h]

/-- With a given size the bilinear mode without aligned corners always meets them. -/
theorem c54_any_size (c : UpCfg) {n m : ℕ} (hm : 0 < m) (h1 : c.scale = none) (h2 : c.size = some m) (h3 : c.mode = .bilinear)
    (h4 : c.align = false) : ∃ step, upSize c.scale c.size n = some (m, step) ∧ UpSymmetric c n m step := by
  refine ⟨(n : ℝ) / m, by rw [h1, h2, upSize, if_pos hm], ?_⟩
  have : (m : ℝ) ≠ 0 := by exact_mod_cast hm.ne'
  simp [UpSymmetric, h3, h4, this]

/-- In the nearest mode with a given size the condition is also necessary: the module commutes with the reflections of the grid exactly
when the size of the result is a multiple of the size of the image. -/
theorem c54_nearest_iff [Inhabited B] (align : Bool) {n m : ℕ} (hn : 0 < n) (hm : 0 < m) :
    (∀ (τ : GSym) (v : Pix B n → ℝ), interpolate .nearest align n m ((n : ℝ) / m) (v ∘ Pix.move τ)
      = interpolate .nearest align n m ((n : ℝ) / m) v ∘ Pix.move τ) ↔ n ∣ m := by
  have hm' : (m : ℝ) ≠ 0 := by exact_mod_cast hm.ne'
  constructor
  · intro h
    -- the row read for each row of the result
    have key : ∀ i < m, nearIdx n ((n : ℝ) / m) (m - 1 - i) = n - 1 - nearIdx n ((n : ℝ) / m) i := by
      intro i hi
      have h1 := congrFun (h ⟨false, true, false⟩ fun q => (q.2.1 : ℕ)) (default, ⟨i, hi⟩, ⟨0, hm⟩)
      have hb : ∀ i, nearIdx n ((n : ℝ) / m) i < n := fun i => by rw [nearIdx]; omega
      have r : ∀ (w : Pix B n → ℝ) (b : B) {i j : ℕ} (hi : i < n) (hj : j < n), readZ n 0 w b i j = w (b, ⟨i, hi⟩, ⟨j, hj⟩) := by
        intro w b i j hi hj
        rw [readZ, dif_pos (by omega)]
        rfl
      simp only [interpolate, Function.comp_apply] at h1
      rw [r _ _ (hb _) (hb _), r _ _ (hb _) (hb _)] at h1
      simp only [Function.comp_apply, Pix.move, GSym.fin, GSym.ap, if_true, if_false, Bool.false_eq_true] at h1
      exact_mod_cast h1.symm
    -- the first row read from the second row of the image
    have floor : ∀ i < m, nearIdx n ((n : ℝ) / m) i = i * n / m := by
      intro i hi
      have e : (i : ℝ) * ((n : ℝ) / m) = ((i * n : ℕ) : ℝ) / m := by push_cast; ring
      have : i * n / m < n := (Nat.div_lt_iff_lt_mul hm).2 (by rw [Nat.mul_comm]; exact Nat.mul_lt_mul_of_pos_left hi hn)
      rw [nearIdx, e, Nat.floor_div_natCast, Nat.floor_natCast]
      omega
    by_contra hd
    have hmod : 0 < m % n := Nat.pos_of_ne_zero fun e => hd (Nat.dvd_of_mod_eq_zero e)
    have hdm := Nat.div_add_mod m n
    have hlt := Nat.mod_lt m hn
    have hn2 : 2 ≤ n := by
      by_contra h2
      have : n = 1 := by omega
      subst this
      exact hd (one_dvd m)
    generalize hi : m / n = i at hdm
    have him : i < m := by
      have : i * 2 ≤ m := le_trans (Nat.mul_le_mul_left i hn2) (by rw [← hi]; exact Nat.div_mul_le_self m n)
      omega
    have h1 := key i him
    rw [floor _ him, floor _ (by omega)] at h1
    have h2 : i * n / m = 0 := Nat.div_eq_of_lt (by rw [Nat.mul_comm]; omega)
    rw [h2] at h1
    -- the reversed row is read from a row before the last one
    have h3 : (m - 1 - i) * n < (n - 1) * m := by
      obtain ⟨k, hk⟩ : ∃ k, m = i + 1 + k := ⟨m - (i + 1), by omega⟩
      obtain ⟨l, hl⟩ : ∃ l, n = l + 1 := ⟨n - 1, by omega⟩
      rw [show m - 1 - i = k by omega, show n - 1 = l by omega]
      have : n * i + n > m := by omega
      rw [hl] at this ⊢
      rw [hk] at this ⊢
      nlinarith
    have h4 := (Nat.div_lt_iff_lt_mul hm).2 h3
    omega
  · rintro h τ v
    have := interpolate_sym (c := ⟨none, none, .nearest, align⟩) (step := (n : ℝ) / m) hn hm ⟨h, div_mul_cancel₀ _ hm'⟩ τ v
    exact this

/-- Two rows enlarged to three: the nearest mode reads the rows 0, 0, 1. -/
theorem c54_nearest_wrong : ¬ ∀ (c : UpCfg) (n m : ℕ) (step : ℝ) (τ : GSym) (v : Pix Unit n → ℝ), upSize c.scale c.size n = some (m, step) →
    interpolate c.mode c.align n m step (v ∘ Pix.move τ) = interpolate c.mode c.align n m step v ∘ Pix.move τ := by
  intro h
  have := (c54_nearest_iff (B := Unit) false (n := 2) (m := 3) (by omega) (by omega)).1 fun τ v =>
    h ⟨none, some 3, .nearest, false⟩ 2 3 _ τ v (by simp [upSize])
  omega

/-- The default mode with factor two, on a field of the regular representation of `C_4` and a rotation by a right angle. -/
example (x : GTensor ℕ (Pix Unit 5 → ℝ)) (hx : x.WF fun _ => 4) (hxt : x.ty = [0, 0]) (ρ : ℕ → Mat) :
    ∃ m step y, upSize (some 2) none 5 = some (m, step) ∧ m = 10 ∧
      r2Upsampling (fun _ => 4) [0, 0] ⟨some 2, none, .bilinear, false⟩ 5 m step x = some y ∧
      r2Upsampling (fun _ => 4) [0, 0] ⟨some 2, none, .bilinear, false⟩ 5 m step (x.transform (fun _ => 4) ρ (Pix.move ⟨true, true, false⟩))
        = some (y.transform (fun _ => 4) ρ (Pix.move ⟨true, true, false⟩)) := by
  obtain ⟨step, h1, h2⟩ := c54_integer_scale ⟨some 2, none, .bilinear, false⟩ (n := 5) (s := 2) (by omega) (by omega) rfl rfl (Or.inr (Or.inl rfl))
  obtain ⟨y, g1, -, -, g2⟩ := c54_upsampling (fun _ => 4) [0, 0] ⟨some 2, none, .bilinear, false⟩ (by omega) h1 h2 ρ ⟨true, true, false⟩ x hx hxt
  exact ⟨10, step, y, h1, rfl, g1, g2⟩

end E2
