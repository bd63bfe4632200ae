import Verif.Lemmas.Conv
import Verif.Props.ImageSpec
import Verif.Model.Pooling
import Verif.Props.Pooling

/-!
# Strided windows which do not cover the padded image
-/

namespace E2

open Finset Mat

theorem readPad_zeros (n p : ℕ) (x : Img) (i j : ℕ) :
    readPad .zeros n p x i j = if (p ≤ i ∧ i < p + n) ∧ p ≤ j ∧ j < p + n then x (i - p) (j - p) else 0 := by
  unfold readPad padIdx
  by_cases h1 : i < p <;> by_cases h2 : i < p + n <;> by_cases h3 : j < p <;> by_cases h4 : j < p + n <;>
    simp [h1, h2, h3, h4, Nat.not_le.2, Nat.not_lt.1] <;> omega

/-- The feature map with one pixel equal to 1. -/
def unitPixel (ch P Q : ℕ) : Fmap := fun c u v => if c = ch ∧ u = P ∧ v = Q then 1 else 0

/-- The value of the convolution where a window sees the only pixel. -/
theorem conv2d_unitPixel {n p k s d cinG coutG : ℕ} (hd : 0 < d) (f : ℕ → ℕ → ℕ → ℕ → ℝ) (bias : ℕ → ℝ) {a0 b0 i0 j0 : ℕ} (ha0 : a0 < k) (hb0 : b0 < k)
    (hI : p ≤ i0 * s + a0 * d ∧ i0 * s + a0 * d < p + n) (hJ : p ≤ j0 * s + b0 * d ∧ j0 * s + b0 * d < p + n) (ch o : ℕ) :
    conv2d .zeros n p k s d cinG coutG f bias (unitPixel ch (i0 * s + a0 * d - p) (j0 * s + b0 * d - p)) o i0 j0 =
      (∑ c ∈ range cinG, if o / coutG * cinG + c = ch then f o c a0 b0 else 0) + bias o := by
  set x := unitPixel ch (i0 * s + a0 * d - p) (j0 * s + b0 * d - p) with hx
  unfold conv2d
  congr 1
  refine sum_congr rfl fun c hc => ?_
  have key : ∀ a ∈ range k, ∀ b ∈ range k, f o c a b * readPad .zeros n p (x (o / coutG * cinG + c)) (i0 * s + a * d) (j0 * s + b * d) =
      if a = a0 then if b = b0 then if o / coutG * cinG + c = ch then f o c a0 b0 else 0 else 0 else 0 := by
    intro a _ b _
    rw [readPad_zeros]
    by_cases ea : a = a0
    · by_cases eb : b = b0
      · subst ea eb
        rw [if_pos ⟨hI, hJ⟩, if_pos rfl, if_pos rfl, hx, unitPixel]
        by_cases ec : o / coutG * cinG + c = ch
        · rw [if_pos ⟨ec, rfl, rfl⟩, if_pos ec, mul_one]
        · rw [if_neg (fun h => ec h.1), if_neg ec, mul_zero]
      · rw [if_pos ea, if_neg eb]
        split_ifs with h
        · rw [hx, unitPixel, if_neg, mul_zero]
          rintro ⟨-, -, e⟩
          have : b * d = b0 * d := by omega
          exact eb (Nat.eq_of_mul_eq_mul_right hd this)
        · rw [mul_zero]
    · rw [if_neg ea]
      split_ifs with h
      · rw [hx, unitPixel, if_neg, mul_zero]
        rintro ⟨-, e, -⟩
        have : a * d = a0 * d := by omega
        exact ea (Nat.eq_of_mul_eq_mul_right hd this)
      · rw [mul_zero]
  rw [sum_congr rfl fun a ha => sum_congr rfl fun b hb => key a ha b hb]
  simp [ha0, hb0]

/-- If the convolution commutes with a symmetry and no nonzero entry of the filter reads the moved pixel, then the entry which reads the pixel is zero. -/
theorem conv_unitPixel {n p k s d m cinG coutG cin cout : ℕ} (hd : 0 < d) (τ : GSym) (Pin Pout Qout : Mat) (bn bm : Img → Img)
    (hbn : ∀ x i j, i < n → j < n → bn x i j = x (τ.ap n (i, j)).1 (τ.ap n (i, j)).2)
    (hbm : ∀ x i j, i < m → j < m → bm x i j = x (τ.ap m (i, j)).1 (τ.ap m (i, j)).2)
    (hQ : MEq cout cout (Mat.mul cout Qout Pout) Mat.one) (f : ℕ → ℕ → ℕ → ℕ → ℝ) (bias : ℕ → ℝ)
    (hcomm : ∀ x, FEq cout m (conv2d .zeros n p k s d cinG coutG f bias (fieldAct cin Pin bn x)) (fieldAct cout Pout bm (conv2d .zeros n p k s d cinG coutG f bias x)))
    {i j a0 b0 i0 j0 : ℕ} (hi : i < m) (hj : j < m) (hij : τ.ap m (i, j) = (i0, j0)) (ha0 : a0 < k) (hb0 : b0 < k)
    (hI : p ≤ i0 * s + a0 * d ∧ i0 * s + a0 * d < p + n) (hJ : p ≤ j0 * s + b0 * d ∧ j0 * s + b0 * d < p + n)
    (hvan : ∀ a < k, ∀ b < k, p ≤ i * s + a * d → i * s + a * d < p + n → p ≤ j * s + b * d → j * s + b * d < p + n →
      τ.ap n (i * s + a * d - p, j * s + b * d - p) = (i0 * s + a0 * d - p, j0 * s + b0 * d - p) → ∀ o < cout, ∀ c < cinG, f o c a b = 0) :
    ∀ o < cout, ∀ c < cinG, f o c a0 b0 = 0 := by
  intro o0 ho0 c0 hc0
  set ch := o0 / coutG * cinG + c0 with hch
  set x := unitPixel ch (i0 * s + a0 * d - p) (j0 * s + b0 * d - p) with hx
  -- the transformed pixel is not seen
  have hl : ∀ o < cout, conv2d .zeros n p k s d cinG coutG f bias (fieldAct cin Pin bn x) o i j = bias o := by
    intro o ho
    unfold conv2d
    rw [add_eq_right]
    refine sum_eq_zero fun c hc => sum_eq_zero fun a ha => sum_eq_zero fun b hb => ?_
    rw [readPad_zeros]
    split_ifs with h
    · obtain ⟨⟨h1, h2⟩, h3, h4⟩ := h
      rw [fieldAct, hbn _ _ _ (by omega) (by omega)]
      by_cases hp : τ.ap n (i * s + a * d - p, j * s + b * d - p) = (i0 * s + a0 * d - p, j0 * s + b0 * d - p)
      · rw [hvan a (mem_range.1 ha) b (mem_range.1 hb) h1 h2 h3 h4 hp o ho c (mem_range.1 hc), zero_mul]
      · rw [sum_eq_zero, mul_zero]
        intro e _
        rw [hx, unitPixel, if_neg, mul_zero]
        rintro ⟨-, e1, e2⟩
        exact hp (Prod.ext e1 e2)
    · rw [mul_zero]
  -- the pixel is seen by one entry
  have hr : ∀ o < cout, conv2d .zeros n p k s d cinG coutG f bias x o i0 j0 = (∑ c ∈ range cinG, if o / coutG * cinG + c = ch then f o c a0 b0 else 0) + bias o :=
    fun o _ => conv2d_unitPixel hd f bias ha0 hb0 hI hJ ch o
  have hz : ∀ o < cout, bias o = ∑ o' ∈ range cout, Pout o o' * bias o' := by
    intro o ho
    have h := hcomm (fun _ _ _ => 0) o ho i hi j hj
    rw [fieldAct, hbm _ _ _ hi hj] at h
    have e1 : conv2d .zeros n p k s d cinG coutG f bias (fieldAct cin Pin bn fun _ _ _ => 0) o i j = bias o := by
      unfold conv2d
      rw [add_eq_right]
      refine sum_eq_zero fun c _ => sum_eq_zero fun a _ => sum_eq_zero fun b _ => ?_
      rw [readPad_zeros]
      split_ifs with h
      · rw [fieldAct, hbn _ _ _ (by omega) (by omega)]
        simp
      · rw [mul_zero]
    rw [e1] at h
    rw [h]
    refine sum_congr rfl fun o' _ => ?_
    congr 1
    unfold conv2d
    rw [add_eq_right]
    refine sum_eq_zero fun c _ => sum_eq_zero fun a _ => sum_eq_zero fun b _ => ?_
    rw [readPad_zeros]
    simp
  set H : ℕ → ℝ := fun o => ∑ c ∈ range cinG, if o / coutG * cinG + c = ch then f o c a0 b0 else 0 with hH
  have hPH : ∀ o < cout, ∑ o' ∈ range cout, Pout o o' * H o' = 0 := by
    intro o ho
    have h := hcomm x o ho i hi j hj
    rw [hl o ho, fieldAct, hbm _ _ _ hi hj, hij] at h
    simp only at h
    rw [sum_congr rfl fun o' ho' => by rw [hr o' (mem_range.1 ho')]] at h
    simp only [mul_add, sum_add_distrib] at h
    rw [← hz o ho] at h
    linarith
  have hH0 : H o0 = 0 := by
    have e : H o0 = ∑ o' ∈ range cout, Mat.one o0 o' * H o' := by simp [Mat.one, ho0]
    rw [e, sum_congr rfl fun o' ho' => by rw [← hQ o0 ho0 o' (mem_range.1 ho'), Mat.mul, sum_mul], sum_comm]
    refine sum_eq_zero fun l hl' => ?_
    rw [sum_congr rfl fun o' _ => _root_.mul_assoc _ _ _, ← mul_sum, hPH l (mem_range.1 hl'), mul_zero]
  rw [← hH0, hH]
  simp only
  rw [sum_eq_single c0]
  · rw [if_pos hch.symm]
  · intro c _ hne
    rw [if_neg]
    rw [hch]
    omega
  · intro h
    exact absurd (mem_range.2 hc0) h

/-- The symmetry reverses the rows or the columns and does not exchange them. -/
def GSym.Reverses (τ : GSym) : Prop := τ.swap = false ∧ (τ.revI = true ∨ τ.revJ = true)

/-- A strided convolution which commutes with the reversal of an axis and whose windows do not cover the padded image has no filter. -/
theorem conv_stride {n p k s d m cinG coutG cin cout : ℕ} (hd : 0 < d) (τ : GSym) (hτ : τ.Reverses) (Pin Pout Qout : Mat) (bn bm : Img → Img)
    (hbn : ∀ x i j, i < n → j < n → bn x i j = x (τ.ap n (i, j)).1 (τ.ap n (i, j)).2)
    (hbm : ∀ x i j, i < m → j < m → bm x i j = x (τ.ap m (i, j)).1 (τ.ap m (i, j)).2)
    (hQ : MEq cout cout (Mat.mul cout Qout Pout) Mat.one) (f : ℕ → ℕ → ℕ → ℕ → ℝ) (bias : ℕ → ℝ)
    (hcomm : ∀ x, FEq cout m (conv2d .zeros n p k s d cinG coutG f bias (fieldAct cin Pin bn x)) (fieldAct cout Pout bm (conv2d .zeros n p k s d cinG coutG f bias x)))
    -- the filter has the symmetry
    (hsym : ∀ a < k, ∀ b < k, (∀ o < cout, ∀ c < cinG, f o c a b = 0) → ∀ o < cout, ∀ c < cinG, f o c (τ.ap k (a, b)).1 (τ.ap k (a, b)).2 = 0)
    -- the last window ends before the padded image does, and some window lies in the image
    (hlt : (m - 1) * s + (k - 1) * d + 1 < n + 2 * p) {i0 : ℕ} (hi0 : i0 < m) (h0 : p ≤ i0 * s) (h1 : i0 * s + (k - 1) * d < p + n) :
    ∀ o < cout, ∀ c < cinG, ∀ a < k, ∀ b < k, f o c a b = 0 := by
  obtain ⟨sw, ri, rj⟩ := τ
  obtain ⟨hsw, hrev⟩ := hτ
  simp only at hsw hrev
  subst hsw
  by_contra hcon
  push Not at hcon
  obtain ⟨oo, hoo, cc, hcc, aa, haa, bb, hbb, hne⟩ := hcon
  have hle : ∀ a < k, a * d ≤ (k - 1) * d := fun a ha => Nat.mul_le_mul_right _ (by omega)
  have hms : ∀ i < m, (m - 1 - i) * s = (m - 1) * s - i * s ∧ i * s ≤ (m - 1) * s := fun i hi => ⟨Nat.sub_mul _ _ _, Nat.mul_le_mul_right _ (by omega)⟩
  have hin : ∀ a < k, p ≤ i0 * s + a * d ∧ i0 * s + a * d < p + n := fun a ha => ⟨by omega, by have := hle a ha; omega⟩
  have hlarge : ∀ a < k, ∀ a0 < k, p ≤ (m - 1 - i0) * s + a * d → (m - 1 - i0) * s + a * d < p + n →
      n - 1 - ((m - 1 - i0) * s + a * d - p) = i0 * s + a0 * d - p → k - 1 - a < a0 := by
    intro a ha a0 ha0 g1 g2 g3
    have e := hms i0 hi0
    have e1 := hle a ha
    have e2 := hle a0 ha0
    have e3 := hin a0 ha0
    have : (k - 1) * d < (a + a0) * d := by
      rw [Nat.add_mul]
      omega
    have := Nat.lt_of_mul_lt_mul_right this
    omega
  by_cases hri : ri = true
  · subst hri
    classical
    have hex : ∃ a, a < k ∧ ∃ b < k, ∃ o < cout, ∃ c < cinG, f o c a b ≠ 0 := ⟨aa, haa, bb, hbb, oo, hoo, cc, hcc, hne⟩
    obtain ⟨ha0, b0, hb0, o0, ho0, c0, hc0, hne0⟩ := Nat.find_spec hex
    set a0 := Nat.find hex with ha0d
    refine hne0 (conv_unitPixel hd ⟨false, true, rj⟩ Pin Pout Qout bn bm hbn hbm hQ f bias hcomm (i := m - 1 - i0) (j := if rj then m - 1 - i0 else i0)
      (i0 := i0) (j0 := i0) (by omega) (by split_ifs <;> omega) ?_ ha0 hb0 (hin a0 ha0) (hin b0 hb0) ?_ o0 ho0 c0 hc0)
    · cases rj <;> simp [GSym.ap] <;> omega
    · intro a ha b hb g1 g2 g3 g4 g5 o ho c hc
      have g6 : n - 1 - ((m - 1 - i0) * s + a * d - p) = i0 * s + a0 * d - p := by simpa [GSym.ap] using congrArg Prod.fst g5
      have hlt' := hlarge a ha a0 ha0 g1 g2 g6
      have hmin := Nat.find_min hex (m := k - 1 - a) (by omega)
      push Not at hmin
      have := hsym (k - 1 - a) (by omega) (if rj then k - 1 - b else b) (by split_ifs <;> omega)
        (fun o ho c hc => hmin (by omega) _ (by split_ifs <;> omega) o ho c hc) o ho c hc
      have e : (GSym.mk false true rj).ap k (k - 1 - a, if rj then k - 1 - b else b) = (a, b) := by cases rj <;> simp [GSym.ap] <;> omega
      rw [e] at this
      exact this
  · have hrj : rj = true := by tauto
    have hri : ri = false := by simpa using hri
    subst hri hrj
    classical
    have hex : ∃ b, b < k ∧ ∃ a < k, ∃ o < cout, ∃ c < cinG, f o c a b ≠ 0 := ⟨bb, hbb, aa, haa, oo, hoo, cc, hcc, hne⟩
    obtain ⟨hb0, a0, ha0, o0, ho0, c0, hc0, hne0⟩ := Nat.find_spec hex
    set b0 := Nat.find hex with hb0d
    refine hne0 (conv_unitPixel hd ⟨false, false, true⟩ Pin Pout Qout bn bm hbn hbm hQ f bias hcomm (i := i0) (j := m - 1 - i0)
      (i0 := i0) (j0 := i0) hi0 (by omega) ?_ ha0 hb0 (hin a0 ha0) (hin b0 hb0) ?_ o0 ho0 c0 hc0)
    · simp [GSym.ap]; omega
    · intro a ha b hb g1 g2 g3 g4 g5 o ho c hc
      have g6 : n - 1 - ((m - 1 - i0) * s + b * d - p) = i0 * s + b0 * d - p := by simpa [GSym.ap] using congrArg Prod.snd g5
      have hlt' := hlarge b hb b0 hb0 g3 g4 g6
      have hmin := Nat.find_min hex (m := k - 1 - b) (by omega)
      push Not at hmin
      have := hsym a ha (k - 1 - b) (by omega) (fun o ho c hc => hmin (by omega) a ha o ho c hc) o ho c hc
      have e : (GSym.mk false false true).ap k (a, k - 1 - b) = (a, b) := by simp [GSym.ap]; omega
      rw [e] at this
      exact this

end E2
