import Verif.Lemmas.Conv
import Verif.Model.Rect

/-!
# Rectangular images and symmetries of the grid
-/

namespace E2

open Finset Mat Real

namespace GSym

/-- The shape of the images whose pixels are mapped to those of an image with `h × w` pixels. -/
def shape (τ : GSym) (h w : ℕ) : ℕ × ℕ := if τ.swap then (w, h) else (h, w)

/-- The action on the indices: the pixels of an image of shape `τ.shape h w` are mapped to those of an image with `h × w` pixels. -/
def apR (τ : GSym) (h w : ℕ) (p : ℕ × ℕ) : ℕ × ℕ :=
  (if τ.revI then h - 1 - (if τ.swap then p.2 else p.1) else (if τ.swap then p.2 else p.1),
   if τ.revJ then w - 1 - (if τ.swap then p.1 else p.2) else (if τ.swap then p.1 else p.2))

theorem window_lt (τ : GSym) {h w ph pw mh mw k s d i j a b : ℕ} (hsw : τ.swap = true → ph = pw)
    (hNh : h + 2 * ph = (mh - 1) * s + (k - 1) * d + 1) (hNw : w + 2 * pw = (mw - 1) * s + (k - 1) * d + 1)
    (hi : i < (τ.shape mh mw).1) (hj : j < (τ.shape mh mw).2) (ha : a < k) (hb : b < k) :
    i * s + a * d < (τ.shape h w).1 + 2 * ph ∧ j * s + b * d < (τ.shape h w).2 + 2 * pw := by
  have key : ∀ {m i a : ℕ}, i < m → a < k → i * s + a * d ≤ (m - 1) * s + (k - 1) * d := by
    intro m i a hi ha
    have l1 : i * s ≤ (m - 1) * s := Nat.mul_le_mul_right _ (by omega)
    have l2 : a * d ≤ (k - 1) * d := Nat.mul_le_mul_right _ (by omega)
    omega
  have k1 := key hi ha
  have k2 := key hj hb
  unfold shape at hi hj k1 k2 ⊢
  split_ifs at hi hj k1 k2 ⊢ with h0
  · have := hsw h0
    subst this
    simp only at k1 k2 ⊢
    omega
  · simp only at k1 k2 ⊢
    omega

/-- Windows are mapped to windows. -/
theorem apR_window (τ : GSym) {h w ph pw mh mw k s d i j a b : ℕ} (hsw : τ.swap = true → ph = pw)
    (hNh : h + 2 * ph = (mh - 1) * s + (k - 1) * d + 1) (hNw : w + 2 * pw = (mw - 1) * s + (k - 1) * d + 1)
    (hi : i < (τ.shape mh mw).1) (hj : j < (τ.shape mh mw).2) (ha : a < k) (hb : b < k) :
    τ.apR (h + 2 * ph) (w + 2 * pw) (i * s + a * d, j * s + b * d) =
      ((τ.apR mh mw (i, j)).1 * s + (τ.ap k (a, b)).1 * d, (τ.apR mh mw (i, j)).2 * s + (τ.ap k (a, b)).2 * d) := by
  have key : ∀ {N m i a : ℕ}, N = (m - 1) * s + (k - 1) * d + 1 → i < m → a < k → N - 1 - (i * s + a * d) = (m - 1 - i) * s + (k - 1 - a) * d := by
    intro N m i a hN hi ha
    have e1 : (m - 1 - i) * s = (m - 1) * s - i * s := Nat.sub_mul _ _ _
    have e2 : (k - 1 - a) * d = (k - 1) * d - a * d := Nat.sub_mul _ _ _
    have l1 : i * s ≤ (m - 1) * s := Nat.mul_le_mul_right _ (by omega)
    have l2 : a * d ≤ (k - 1) * d := Nat.mul_le_mul_right _ (by omega)
    omega
  obtain ⟨x, y, z⟩ := τ
  cases x
  · have hi' : i < mh := hi
    have hj' : j < mw := hj
    cases y <;> cases z <;> simp [apR, ap, key hNh hi' ha, key hNw hj' hb]
  · have hi' : i < mw := hi
    have hj' : j < mh := hj
    cases y <;> cases z <;> simp [apR, ap, key hNw hi' ha, key hNh hj' hb]

end GSym

/-- The same pixels of all channels, for images with `h × w` pixels. -/
def FEqR (c h w : ℕ) (x y : Fmap) : Prop := ∀ o < c, ∀ i < h, ∀ j < w, x o i j = y o i j

theorem readPadR_sym {mode : PadMode} {h w ph pw : ℕ} (hp : padOk mode h ph ∧ padOk mode w pw) (τ : GSym) (hsw : τ.swap = true → ph = pw) (x y : Img)
    (hxy : ∀ i j, i < (τ.shape h w).1 → j < (τ.shape h w).2 → y i j = x (τ.apR h w (i, j)).1 (τ.apR h w (i, j)).2) {i j : ℕ}
    (hi : i < (τ.shape h w).1 + 2 * ph) (hj : j < (τ.shape h w).2 + 2 * pw) :
    readPadR mode (τ.shape h w).1 (τ.shape h w).2 ph pw y i j =
      readPadR mode h w ph pw x (τ.apR (h + 2 * ph) (w + 2 * pw) (i, j)).1 (τ.apR (h + 2 * ph) (w + 2 * pw) (i, j)).2 := by
  have hlt : ∀ {n p i k}, padOk mode n p → i < n + 2 * p → padIdx mode n p i = some k → k < n := by
    intro n p i k h hi hk
    unfold padIdx at hk
    cases mode <;> simp only [padOk] at h <;> split_ifs at hk <;> simp at hk <;> omega
  obtain ⟨s, a, b⟩ := τ
  cases s
  · simp only [GSym.shape, Bool.false_eq_true, if_false] at hxy hi hj ⊢
    have r1 := padIdx_rev (i := i) hp.1 hi
    have r2 := padIdx_rev (i := j) hp.2 hj
    unfold readPadR
    rcases hpi : padIdx mode h ph i with _ | i' <;> rcases hpj : padIdx mode w pw j with _ | j'
    · cases a <;> cases b <;> simp [GSym.apR, r1, r2, hpi, hpj]
    · cases a <;> cases b <;> simp [GSym.apR, r1, r2, hpi, hpj]
    · cases a <;> cases b <;> simp [GSym.apR, r1, r2, hpi, hpj]
    · simp only
      rw [hxy i' j' (hlt hp.1 hi hpi) (hlt hp.2 hj hpj)]
      cases a <;> cases b <;> simp [GSym.apR, r1, r2, hpi, hpj]
  · obtain rfl := hsw rfl
    simp only [GSym.shape, if_true] at hxy hi hj ⊢
    have r1 := padIdx_rev (i := i) hp.2 hi
    have r2 := padIdx_rev (i := j) hp.1 hj
    unfold readPadR
    rcases hpi : padIdx mode w ph i with _ | i' <;> rcases hpj : padIdx mode h ph j with _ | j'
    · cases a <;> cases b <;> simp [GSym.apR, r1, r2, hpi, hpj]
    · cases a <;> cases b <;> simp [GSym.apR, r1, r2, hpi, hpj]
    · cases a <;> cases b <;> simp [GSym.apR, r1, r2, hpi, hpj]
    · simp only
      rw [hxy i' j' (hlt hp.2 hi hpi) (hlt hp.1 hj hpj)]
      cases a <;> cases b <;> simp [GSym.apR, r1, r2, hpi, hpj]

theorem readPadR_sum (mode : PadMode) (h w ph pw : ℕ) (c : ℕ) (u : ℕ → ℝ) (x : ℕ → Img) (i j : ℕ) :
    readPadR mode h w ph pw (fun i j => ∑ e ∈ range c, u e * x e i j) i j = ∑ e ∈ range c, u e * readPadR mode h w ph pw (x e) i j := by
  unfold readPadR
  cases padIdx mode h ph i <;> cases padIdx mode w pw j <;> simp

/-- The convolution commutes with a symmetry of the grid. -/
theorem conv_symR {mode : PadMode} {h w ph pw k s d mh mw cinG coutG groups : ℕ} (τ : GSym) (hpad : padOk mode h ph ∧ padOk mode w pw) (hsw : τ.swap = true → ph = pw)
    (hNh : h + 2 * ph = (mh - 1) * s + (k - 1) * d + 1) (hNw : w + 2 * pw = (mw - 1) * s + (k - 1) * d + 1)
    (Pin Pout Ai Ao Binv : Mat) (bn bm : Img → Img)
    (hbn : ∀ x i j, i < (τ.shape h w).1 → j < (τ.shape h w).2 → bn x i j = x (τ.apR h w (i, j)).1 (τ.apR h w (i, j)).2)
    (hbm : ∀ x i j, i < (τ.shape mh mw).1 → j < (τ.shape mh mw).2 → bm x i j = x (τ.apR mh mw (i, j)).1 (τ.apR mh mw (i, j)).2)
    (hPin : ∀ q < groups, ∀ q' < groups, ∀ c < cinG, ∀ c' < cinG, Pin (q * cinG + c) (q' * cinG + c') = if q = q' then Ai c c' else 0)
    (hPout : ∀ q < groups, ∀ q' < groups, ∀ c < coutG, ∀ c' < coutG, Pout (q * coutG + c) (q' * coutG + c') = if q = q' then Ao c c' else 0)
    (hinv : MEq cinG cinG (Mat.mul cinG Binv Ai) Mat.one)
    (f : ℕ → ℕ → ℕ → ℕ → ℝ)
    (hf : ∀ a b, a < k → b < k → ∀ o < groups * coutG, ∀ c < cinG, f o c a b =
      ∑ c1 ∈ range cinG, (∑ o' ∈ range (groups * coutG), Pout o o' * f o' c1 (τ.ap k (a, b)).1 (τ.ap k (a, b)).2) * Binv c1 c)
    (bias : ℕ → ℝ) (hbias : ∀ o < groups * coutG, ∑ o' ∈ range (groups * coutG), Pout o o' * bias o' = bias o) (x : Fmap) :
    FEqR (groups * coutG) (τ.shape mh mw).1 (τ.shape mh mw).2 (conv2dR mode (τ.shape h w).1 (τ.shape h w).2 ph pw k s d cinG coutG f bias (fieldAct (groups * cinG) Pin bn x))
      (fieldAct (groups * coutG) Pout bm (conv2dR mode h w ph pw k s d cinG coutG f bias x)) := by
  intro o ho i hi j hj
  have hpos : 0 < coutG := Nat.pos_of_ne_zero fun h => by simp [h] at ho
  set q := o / coutG with hq
  have hqlt : q < groups := (Nat.div_lt_iff_lt_mul hpos).2 ho
  set i' := (τ.apR mh mw (i, j)).1 with hi'
  set j' := (τ.apR mh mw (i, j)).2 with hj'
  have hob : o = q * coutG + o % coutG := by rw [hq, Nat.div_add_mod']
  -- the output matrix only mixes channels of the same group
  have hgrp : ∀ o' < groups * coutG, o' / coutG ≠ q → Pout o o' = 0 := by
    intro o' ho' hne
    have h1 := hPout q hqlt (o' / coutG) ((Nat.div_lt_iff_lt_mul hpos).2 ho') (o % coutG) (Nat.mod_lt _ hpos) (o' % coutG) (Nat.mod_lt _ hpos)
    rw [← hob, Nat.div_add_mod', if_neg (Ne.symm hne)] at h1
    exact h1
  set V : ℕ → ℕ × ℕ → ℝ := fun c t => readPadR mode h w ph pw (x (q * cinG + c)) (i' * s + t.1 * d) (j' * s + t.2 * d) with hV
  set H : ℕ × ℕ → ℝ := fun t => ∑ c1 ∈ range cinG, (∑ o' ∈ range (groups * coutG), Pout o o' * f o' c1 t.1 t.2) * V c1 t with hH
  have hL : ∑ c ∈ range cinG, ∑ a ∈ range k, ∑ b ∈ range k,
      f o c a b * readPadR mode (τ.shape h w).1 (τ.shape h w).2 ph pw (fieldAct (groups * cinG) Pin bn x (q * cinG + c)) (i * s + a * d) (j * s + b * d)
      = ∑ a ∈ range k, ∑ b ∈ range k, H (τ.ap k (a, b)) := by
    rw [sum_comm]
    apply sum_congr rfl; intro a ha
    rw [sum_comm]
    apply sum_congr rfl; intro b hb
    rw [mem_range] at ha hb
    obtain ⟨hb1, hb2⟩ := τ.window_lt hsw hNh hNw hi hj ha hb
    have hread : ∀ c ∈ range cinG, readPadR mode (τ.shape h w).1 (τ.shape h w).2 ph pw (fieldAct (groups * cinG) Pin bn x (q * cinG + c)) (i * s + a * d) (j * s + b * d)
        = ∑ c2 ∈ range cinG, Ai c c2 * V c2 (τ.ap k (a, b)) := by
      intro c hc
      rw [mem_range] at hc
      rw [readPadR_sym hpad τ hsw (fun i j => ∑ e ∈ range (groups * cinG), Pin (q * cinG + c) e * x e i j) _ (fun i j hi hj => hbn _ i j hi hj)
        hb1 hb2, τ.apR_window hsw hNh hNw hi hj ha hb, readPadR_sum, sum_range_blocks]
      rw [sum_eq_single q]
      · apply sum_congr rfl; intro c2 hc2
        rw [hPin q hqlt q hqlt c hc c2 (mem_range.1 hc2), if_pos rfl]
      · intro q' hq' hne
        apply sum_eq_zero; intro c2 hc2
        rw [hPin q hqlt q' (mem_range.1 hq') c hc c2 (mem_range.1 hc2), if_neg (Ne.symm hne), zero_mul]
      · intro h; exact absurd (mem_range.2 hqlt) h
    have e1 : ∀ c ∈ range cinG, f o c a b * readPadR mode (τ.shape h w).1 (τ.shape h w).2 ph pw (fieldAct (groups * cinG) Pin bn x (q * cinG + c)) (i * s + a * d) (j * s + b * d)
        = (∑ c1 ∈ range cinG, (∑ o' ∈ range (groups * coutG), Pout o o' * f o' c1 (τ.ap k (a, b)).1 (τ.ap k (a, b)).2) * Binv c1 c) *
          ∑ c2 ∈ range cinG, Ai c c2 * V c2 (τ.ap k (a, b)) := by
      intro c hc
      rw [hread c hc, hf a b ha hb o ho c (mem_range.1 hc)]
    rw [sum_congr rfl e1]
    exact contract cinG Ai Binv hinv _ _
  have hR : ∑ o' ∈ range (groups * coutG), Pout o o' * ((∑ c ∈ range cinG, ∑ a ∈ range k, ∑ b ∈ range k,
      f o' c a b * readPadR mode h w ph pw (x (o' / coutG * cinG + c)) (i' * s + a * d) (j' * s + b * d)))
      = ∑ a ∈ range k, ∑ b ∈ range k, H (a, b) := by
    have e1 : ∀ o' ∈ range (groups * coutG), Pout o o' * ((∑ c ∈ range cinG, ∑ a ∈ range k, ∑ b ∈ range k,
        f o' c a b * readPadR mode h w ph pw (x (o' / coutG * cinG + c)) (i' * s + a * d) (j' * s + b * d)))
        = ∑ a ∈ range k, ∑ b ∈ range k, ∑ c ∈ range cinG, Pout o o' * f o' c a b * V c (a, b) := by
      intro o' ho'
      by_cases hne : o' / coutG = q
      · rw [hne, sum_comm, mul_sum]
        apply sum_congr rfl; intro a _
        rw [sum_comm, mul_sum]
        apply sum_congr rfl; intro b _
        rw [mul_sum]
        apply sum_congr rfl; intro c _
        simp only [hV]; ring
      · rw [hgrp o' (mem_range.1 ho') hne]
        simp
    rw [sum_congr rfl e1, sum_comm]
    apply sum_congr rfl; intro a _
    rw [sum_comm]
    apply sum_congr rfl; intro b _
    rw [sum_comm]
    simp only [hH]
    apply sum_congr rfl; intro c _
    rw [sum_mul]
  unfold fieldAct
  rw [hbm _ i j hi hj]
  unfold conv2dR
  simp only [mul_add, sum_add_distrib]
  rw [hbias o ho]
  congr 1
  refine hL.trans (Eq.trans (τ.sum_ap k H) hR.symm)


/-! ## The actions on rectangular images -/

theorem rot90R_eq (h w : ℕ) (k : ℤ) (x : Img) (i j : ℕ) :
    rot90R h w k x i j = x ((GSym.quarter k).apR h w (i, j)).1 ((GSym.quarter k).apR h w (i, j)).2 := by
  unfold rot90R GSym.quarter
  split_ifs <;> rfl

theorem flip0_apR (τ : GSym) (h w : ℕ) (x : Img) {i j : ℕ} (hi : i < (τ.shape h w).1) (hj : j < (τ.shape h w).2) :
    x.flip0 h (τ.apR h w (i, j)).1 (τ.apR h w (i, j)).2 = x (τ.thenFlip.apR h w (i, j)).1 (τ.thenFlip.apR h w (i, j)).2 := by
  obtain ⟨s, a, b⟩ := τ
  cases s <;> simp [GSym.shape] at hi hj <;> cases a <;> cases b <;> simp [GSym.apR, GSym.thenFlip, Img.flip0] <;>
    (congr 1; omega)

theorem rotateArrayR_quarter (interp : ℝ → Img → Img) (h w : ℕ) (x : Img) {θ : ℝ} {k : ℤ} (hk : θ = k * (π / 2)) :
    rotateArrayR interp h w x θ = rot90R h w k x := by
  have h1 := quarter_floor hk
  unfold rotateArrayR
  rw [if_pos ⟨k, h1⟩, h1, Int.floor_intCast]

/-- What the elements which permute the pixels do. -/
def Space.RectAction {El : Type} (Sp : Space El) (base : ℕ → ℕ → El → Img → Img) : Prop :=
  ∀ g, Sp.G.isEl g → Sp.grid g → ∃ τ : GSym,
    (∀ h w x i j, i < (τ.shape h w).1 → j < (τ.shape h w).2 → base h w g x i j = x (τ.apR h w (i, j)).1 (τ.apR h w (i, j)).2) ∧ ∀ p, Sp.act g (τ.lin p) = p

theorem rotate_gridR (interp : ℝ → Img → Img) {θ : ℝ} (hθ : Quarter θ) : ∃ τ : GSym,
    (∀ h w x i j, i < (τ.shape h w).1 → j < (τ.shape h w).2 → rotateArrayR interp h w x θ i j = x (τ.apR h w (i, j)).1 (τ.apR h w (i, j)).2) ∧ ∀ p, rot θ (τ.lin p) = p := by
  obtain ⟨k, hk⟩ := hθ
  refine ⟨GSym.quarter k, fun h w x i j _ _ => ?_, fun p => ?_⟩
  · rw [rotateArrayR_quarter interp h w x hk, rot90R_eq]
  · rw [hk, rot_quarter]

theorem rotate_flip_gridR (interp : ℝ → Img → Img) {θ : ℝ} (hθ : Quarter θ) : ∃ τ : GSym,
    (∀ h w (x : Img) i j, i < (τ.shape h w).1 → j < (τ.shape h w).2 → rotateArrayR interp h w (x.flip0 h) θ i j = x (τ.apR h w (i, j)).1 (τ.apR h w (i, j)).2) ∧
    ∀ p, rot θ (refl 0 (τ.lin p)) = p := by
  obtain ⟨k, hk⟩ := hθ
  refine ⟨(GSym.quarter k).thenFlip, fun h w x i j hi hj => ?_, fun p => ?_⟩
  · rw [rotateArrayR_quarter interp h w _ hk, rot90R_eq, flip0_apR (GSym.quarter k) h w x hi hj]
  · rw [hk, rot_quarter_flip]

theorem rotateArrayR_zero (interp : ℝ → Img → Img) (h w : ℕ) (x : Img) : rotateArrayR interp h w x 0 = x := by
  rw [rotateArrayR_quarter interp h w x (k := 0) (by simp)]; rfl

theorem trivialSpace_rect : trivialSpace.RectAction trivialBaseR := by
  intro g _ _
  exact ⟨⟨false, false, false⟩, fun h w x i j _ _ => rfl, fun p => rfl⟩

theorem rotSpace_rect (interp : ℝ → Img → Img) (N : ℕ) (hN : 0 < N) : (rotSpace interp N).RectAction (rotBaseR interp N) := by
  intro g hg hq
  have e : (if N > 1 then (g : ℝ) * 2 * π / N else g) = g * (2 * π / N) := by
    split_ifs with h
    · ring
    · have : N = 1 := by omega
      subst this
      have h0 : g = 0 := by
        have : 0 ≤ g ∧ g < 1 := by
          have := (Cyclic.isElement_iff 1 g).1 hg
          simpa using this
        omega
      simp [h0]
  obtain ⟨τ, h1, h2⟩ := rotate_gridR interp hq
  refine ⟨τ, fun h w x i j hi hj => ?_, h2⟩
  simp only [rotBaseR, e]
  exact h1 h w x i j hi hj

theorem so2Space_rect (interp : ℝ → Img → Img) : (so2Space interp).RectAction (so2BaseR interp) := fun _ _ hq => rotate_gridR interp hq

theorem flipSpace_rect (interp : ℝ → Img → Img) (axis : ℝ) : (flipSpace interp axis).RectAction (flipBaseR interp axis) := by
  intro g _ hq
  by_cases h0 : g = 0
  · subst h0
    exact ⟨⟨false, false, false⟩, fun h w x i j _ _ => rfl, fun p => rfl⟩
  · obtain ⟨τ, h1, h2⟩ := rotate_flip_gridR interp (hq.resolve_left h0)
    refine ⟨τ, fun h w x i j hi hj => ?_, fun p => ?_⟩
    · rw [← h1 h w x i j hi hj]
      simp only [flipBaseR, if_pos h0]
      split_ifs with ha
      · rfl
      · have : axis = 0 := not_not.1 ha
        rw [this, mul_zero, rotateArrayR_zero]
    · simp only [flipSpace, if_neg h0]
      rw [refl_eq]; exact h2 p

theorem flipRot_gridR (interp : ℝ → Img → Img) (axis : ℝ) (f : ℤ) (r : ℝ) (hq : Quarter (r + if f = 0 then 0 else 2 * axis)) :
    ∃ τ : GSym, (∀ h w x i j, i < (τ.shape h w).1 → j < (τ.shape h w).2 → flipRotBaseR' interp axis h w f r x i j = x (τ.apR h w (i, j)).1 (τ.apR h w (i, j)).2) ∧
      ∀ p, planeAct axis (f, r) (τ.lin p) = p := by
  have hz : ∀ (h w : ℕ) (x : Img) (t : ℝ), (open Classical in if t ≠ 0 then rotateArrayR interp h w x t else x) = rotateArrayR interp h w x t := by
    intro h w x t
    split_ifs with h0
    · rfl
    · rw [not_not.1 h0, rotateArrayR_zero]
  by_cases h0 : f = 0
  · rw [if_pos h0, add_zero] at hq
    obtain ⟨τ, h1, h2⟩ := rotate_gridR interp hq
    refine ⟨τ, fun h w x i j hi hj => ?_, fun p => ?_⟩
    · rw [← h1 h w x i j hi hj]
      simp only [flipRotBaseR', h0, ne_eq, not_true, if_false]
      exact congrFun (congrFun (hz h w x r) i) j
    · simp only [planeAct, if_pos h0]; exact h2 p
  · rw [if_neg h0] at hq
    obtain ⟨τ, h1, h2⟩ := rotate_flip_gridR interp hq
    refine ⟨τ, fun h w x i j hi hj => ?_, fun p => ?_⟩
    · rw [← h1 h w x i j hi hj]
      simp only [flipRotBaseR', h0, ne_eq, not_false_eq_true, if_true]
      exact congrFun (congrFun (hz h w (x.flip0 h) (r + 2 * axis)) i) j
    · simp only [planeAct, if_neg h0]
      rw [rot_refl]; exact h2 p

theorem flipRotSpace_rect (interp : ℝ → Img → Img) (N : ℕ) (axis : ℝ) : (flipRotSpace interp N axis).RectAction (flipRotBaseR interp N axis) := by
  intro g _ hq
  obtain ⟨τ, h1, h2⟩ := flipRot_gridR interp axis g.1 (g.2 * (2 * π / N)) hq
  refine ⟨τ, fun h w x i j hi hj => ?_, h2⟩
  have e : (g.2 : ℝ) * 2 * π / N = g.2 * (2 * π / N) := by ring
  simp only [flipRotBaseR, e]
  exact h1 h w x i j hi hj

theorem o2Space_rect (interp : ℝ → Img → Img) (axis : ℝ) : (o2Space interp axis).RectAction (o2BaseR interp axis) :=
  fun g _ hq => flipRot_gridR interp axis g.1 g.2 hq


end E2
