import Verif.Lemmas.Conv
import Verif.Model.Transposed

/-!
# Transposed convolution and symmetries of the grid
-/

namespace E2

open Finset Mat

theorem transGroups_eq {F : Type} [DecidableEq F] (groups : ℕ) (inT outT : List F) : transGroups groups inT outT = convGroups groups outT inT := by
  unfold transGroups convGroups
  split_ifs <;> simp_all

/-- A symmetry is injective on the grid. -/
theorem GSym.ap_inj (τ : GSym) {n : ℕ} {p q : ℕ × ℕ} (hp : p.1 < n ∧ p.2 < n) (hq : q.1 < n ∧ q.2 < n) (h : τ.ap n p = τ.ap n q) : p = q := by
  obtain ⟨p1, p2⟩ := p
  obtain ⟨q1, q2⟩ := q
  simp only at hp hq
  obtain ⟨s, a, b⟩ := τ
  cases s <;> cases a <;> cases b <;> simp only [GSym.ap, Prod.mk.injEq, if_true, if_false, Bool.false_eq_true] at h <;> rw [Prod.mk.injEq] <;> omega

/-- The pixels of the cropped grid. -/
theorem GSym.ap_shift (τ : GSym) {m p i j : ℕ} (hi : i < m) (hj : j < m) :
    τ.ap (m + 2 * p) (i + p, j + p) = ((τ.ap m (i, j)).1 + p, (τ.ap m (i, j)).2 + p) := by
  obtain ⟨s, a, b⟩ := τ
  have e1 : m + 2 * p - 1 - (i + p) = m - 1 - i + p := by omega
  have e2 : m + 2 * p - 1 - (j + p) = m - 1 - j + p := by omega
  cases s <;> cases a <;> cases b <;> simp [GSym.ap, e1, e2]

/-- The input pixel `u` reaches the output pixel `i` through the filter pixel `a`. -/
def Reaches (p s d : ℕ) (u a i : ℕ × ℕ) : Prop := u.1 * s + a.1 * d = i.1 + p ∧ u.2 * s + a.2 * d = i.2 + p

instance (p s d : ℕ) (u a i : ℕ × ℕ) : Decidable (Reaches p s d u a i) := inferInstanceAs (Decidable (_ ∧ _))

theorem reaches_ap (τ : GSym) {n m p k s d : ℕ} (hN : m + 2 * p = (n - 1) * s + (k - 1) * d + 1) {u a i : ℕ × ℕ} (hu : u.1 < n ∧ u.2 < n)
    (ha : a.1 < k ∧ a.2 < k) (hi : i.1 < m ∧ i.2 < m) : Reaches p s d (τ.ap n u) (τ.ap k a) (τ.ap m i) ↔ Reaches p s d u a i := by
  have h1 := τ.ap_window hN hu.1 hu.2 ha.1 ha.2
  have h2 := τ.ap_shift (p := p) hi.1 hi.2
  have hb : ∀ {u a : ℕ}, u < n → a < k → u * s + a * d < m + 2 * p := by
    intro u a hu ha
    have l1 : u * s ≤ (n - 1) * s := Nat.mul_le_mul_right _ (by omega)
    have l2 : a * d ≤ (k - 1) * d := Nat.mul_le_mul_right _ (by omega)
    omega
  have e : Reaches p s d (τ.ap n u) (τ.ap k a) (τ.ap m i) ↔
      τ.ap (m + 2 * p) (u.1 * s + a.1 * d, u.2 * s + a.2 * d) = τ.ap (m + 2 * p) (i.1 + p, i.2 + p) := by
    rw [h1, h2, Prod.mk.injEq]; rfl
  rw [e]
  constructor
  · intro h
    have := τ.ap_inj ⟨hb hu.1 ha.1, hb hu.2 ha.2⟩ ⟨by have := hi.1; simp only; omega, by have := hi.2; simp only; omega⟩ h
    exact Prod.mk.inj this
  · rintro ⟨h1, h2⟩
    rw [h1, h2]

/-- The transposed convolution commutes with a symmetry of the grid, when there is no output padding. -/
theorem convT_sym {n m p k s d cinG coutG groups : ℕ} (τ : GSym) (hN : m + 2 * p = (n - 1) * s + (k - 1) * d + 1)
    (Pin Pout Ai Ao Binv : Mat) (bn bm : Img → Img)
    (hbn : ∀ x i j, i < n → j < n → bn x i j = x (τ.ap n (i, j)).1 (τ.ap n (i, j)).2)
    (hbm : ∀ x i j, i < m → j < m → bm x i j = x (τ.ap m (i, j)).1 (τ.ap m (i, j)).2)
    (hPin : ∀ q < groups, ∀ q' < groups, ∀ c < cinG, ∀ c' < cinG, Pin (q * cinG + c) (q' * cinG + c') = if q = q' then Ai c c' else 0)
    (hPout : ∀ q < groups, ∀ q' < groups, ∀ c < coutG, ∀ c' < coutG, Pout (q * coutG + c) (q' * coutG + c') = if q = q' then Ao c c' else 0)
    (hinv : MEq cinG cinG (Mat.mul cinG Binv Ai) Mat.one)
    (f : ℕ → ℕ → ℕ → ℕ → ℝ)
    (hf : ∀ a b, a < k → b < k → ∀ q < groups, ∀ o < coutG, ∀ c < cinG, f (q * cinG + c) o a b =
      ∑ c1 ∈ range cinG, (∑ o' ∈ range coutG, Ao o o' * f (q * cinG + c1) o' (τ.ap k (a, b)).1 (τ.ap k (a, b)).2) * Binv c1 c)
    (bias : ℕ → ℝ) (hbias : ∀ o < groups * coutG, ∑ o' ∈ range (groups * coutG), Pout o o' * bias o' = bias o) (x : Fmap) :
    FEq (groups * coutG) m (convT2d n p k s d cinG coutG f bias (fieldAct (groups * cinG) Pin bn x))
      (fieldAct (groups * coutG) Pout bm (convT2d n p k s d cinG coutG f bias x)) := by
  intro o ho i hi j hj
  have hpos : 0 < coutG := Nat.pos_of_ne_zero fun h => by simp [h] at ho
  set q := o / coutG with hq
  set r := o % coutG with hr
  have hqlt : q < groups := (Nat.div_lt_iff_lt_mul hpos).2 ho
  have hrlt : r < coutG := Nat.mod_lt _ hpos
  have hob : o = q * coutG + r := by rw [hq, hr, Nat.div_add_mod']
  -- the summand of one input channel for a pair of pixels
  set H : ℕ × ℕ → ℕ × ℕ → ℝ := fun u a => if Reaches p s d u a (τ.ap m (i, j)) then
    ∑ c ∈ range cinG, (∑ o' ∈ range coutG, Ao r o' * f (q * cinG + c) o' a.1 a.2) * x (q * cinG + c) u.1 u.2 else 0 with hH
  have hread : ∀ u w, u < n → w < n → ∀ c < cinG, fieldAct (groups * cinG) Pin bn x (q * cinG + c) u w
      = ∑ c2 ∈ range cinG, Ai c c2 * x (q * cinG + c2) (τ.ap n (u, w)).1 (τ.ap n (u, w)).2 := by
    intro u w hu hw c hc
    rw [fieldAct, hbn _ u w hu hw, sum_range_blocks, sum_eq_single q]
    · apply sum_congr rfl; intro c2 hc2
      rw [hPin q hqlt q hqlt c hc c2 (mem_range.1 hc2), if_pos rfl]
    · intro q' hq' hne
      apply sum_eq_zero; intro c2 hc2
      rw [hPin q hqlt q' (mem_range.1 hq') c hc c2 (mem_range.1 hc2), if_neg (Ne.symm hne), zero_mul]
    · intro h; exact absurd (mem_range.2 hqlt) h
  have hL : (∑ c ∈ range cinG, ∑ u ∈ range n, ∑ w ∈ range n, ∑ a ∈ range k, ∑ b ∈ range k,
      if u * s + a * d = i + p ∧ w * s + b * d = j + p then
        fieldAct (groups * cinG) Pin bn x (q * cinG + c) u w * f (q * cinG + c) r a b else 0)
      = ∑ u ∈ range n, ∑ w ∈ range n, ∑ a ∈ range k, ∑ b ∈ range k, H (τ.ap n (u, w)) (τ.ap k (a, b)) := by
    rw [sum_comm]
    apply sum_congr rfl; intro u hu
    rw [sum_comm]
    apply sum_congr rfl; intro w hw
    rw [sum_comm]
    apply sum_congr rfl; intro a ha
    rw [sum_comm]
    apply sum_congr rfl; intro b hb
    rw [mem_range] at hu hw ha hb
    have hiff := reaches_ap τ hN (u := (u, w)) (a := (a, b)) (i := (i, j)) ⟨hu, hw⟩ ⟨ha, hb⟩ ⟨hi, hj⟩
    simp only [hH]
    by_cases hc : u * s + a * d = i + p ∧ w * s + b * d = j + p
    · rw [if_pos (hiff.2 hc)]
      have e1 : ∀ c ∈ range cinG, (if u * s + a * d = i + p ∧ w * s + b * d = j + p then
          fieldAct (groups * cinG) Pin bn x (q * cinG + c) u w * f (q * cinG + c) r a b else 0)
          = (∑ c1 ∈ range cinG, (∑ o' ∈ range coutG, Ao r o' * f (q * cinG + c1) o' (τ.ap k (a, b)).1 (τ.ap k (a, b)).2) * Binv c1 c) *
            ∑ c2 ∈ range cinG, Ai c c2 * x (q * cinG + c2) (τ.ap n (u, w)).1 (τ.ap n (u, w)).2 := by
        intro c hcr
        rw [if_pos hc, hread u w hu hw c (mem_range.1 hcr), hf a b ha hb q hqlt r hrlt c (mem_range.1 hcr), _root_.mul_comm]
      rw [sum_congr rfl e1]
      exact contract cinG Ai Binv hinv _ _
    · rw [if_neg fun h => hc (hiff.1 h)]
      exact sum_eq_zero fun c _ => if_neg hc
  have hsum : (∑ u ∈ range n, ∑ w ∈ range n, ∑ a ∈ range k, ∑ b ∈ range k, H (τ.ap n (u, w)) (τ.ap k (a, b)))
      = ∑ u ∈ range n, ∑ w ∈ range n, ∑ a ∈ range k, ∑ b ∈ range k, H (u, w) (a, b) := by
    have e : ∀ u w, (∑ a ∈ range k, ∑ b ∈ range k, H (τ.ap n (u, w)) (τ.ap k (a, b))) = ∑ a ∈ range k, ∑ b ∈ range k, H (τ.ap n (u, w)) (a, b) :=
      fun u w => τ.sum_ap k fun t => H (τ.ap n (u, w)) t
    simp only [e]
    exact τ.sum_ap n fun t => ∑ a ∈ range k, ∑ b ∈ range k, H t (a, b)
  set i' := (τ.ap m (i, j)).1 with hi'
  set j' := (τ.ap m (i, j)).2 with hj'
  have hR : ∑ o' ∈ range (groups * coutG), Pout o o' * (∑ c ∈ range cinG, ∑ u ∈ range n, ∑ w ∈ range n, ∑ a ∈ range k, ∑ b ∈ range k,
      if u * s + a * d = i' + p ∧ w * s + b * d = j' + p then x (o' / coutG * cinG + c) u w * f (o' / coutG * cinG + c) (o' % coutG) a b else 0)
      = ∑ u ∈ range n, ∑ w ∈ range n, ∑ a ∈ range k, ∑ b ∈ range k, H (u, w) (a, b) := by
    rw [sum_range_blocks, sum_eq_single q]
    · have e1 : ∀ o' ∈ range coutG, Pout o (q * coutG + o') * (∑ c ∈ range cinG, ∑ u ∈ range n, ∑ w ∈ range n, ∑ a ∈ range k, ∑ b ∈ range k,
          if u * s + a * d = i' + p ∧ w * s + b * d = j' + p then
            x ((q * coutG + o') / coutG * cinG + c) u w * f ((q * coutG + o') / coutG * cinG + c) ((q * coutG + o') % coutG) a b else 0)
          = ∑ u ∈ range n, ∑ w ∈ range n, ∑ a ∈ range k, ∑ b ∈ range k, ∑ c ∈ range cinG,
            if u * s + a * d = i' + p ∧ w * s + b * d = j' + p then (Ao r o' * f (q * cinG + c) o' a b) * x (q * cinG + c) u w else 0 := by
        intro o' ho'
        have ho' := mem_range.1 ho'
        have d1 : (q * coutG + o') / coutG = q := by
          rw [Nat.add_comm, Nat.add_mul_div_right _ _ hpos, Nat.div_eq_of_lt ho', Nat.zero_add]
        have d2 : (q * coutG + o') % coutG = o' := by
          rw [Nat.add_comm, Nat.add_mul_mod_self_right, Nat.mod_eq_of_lt ho']
        have d3 : Pout o (q * coutG + o') = Ao r o' := by
          have := hPout q hqlt q hqlt r hrlt o' ho'
          rwa [← hob, if_pos rfl] at this
        rw [d1, d2, d3, sum_comm, mul_sum]
        apply sum_congr rfl; intro u _
        rw [sum_comm, mul_sum]
        apply sum_congr rfl; intro w _
        rw [sum_comm, mul_sum]
        apply sum_congr rfl; intro a _
        rw [sum_comm, mul_sum]
        apply sum_congr rfl; intro b _
        rw [mul_sum]
        apply sum_congr rfl; intro c _
        split_ifs
        · ring
        · ring
      rw [sum_congr rfl e1, sum_comm]
      apply sum_congr rfl; intro u _
      rw [sum_comm]
      apply sum_congr rfl; intro w _
      rw [sum_comm]
      apply sum_congr rfl; intro a _
      rw [sum_comm]
      apply sum_congr rfl; intro b _
      rw [sum_comm]
      simp only [hH]
      by_cases hc : u * s + a * d = i' + p ∧ w * s + b * d = j' + p
      · rw [if_pos (show Reaches p s d (u, w) (a, b) (τ.ap m (i, j)) from hc)]
        apply sum_congr rfl; intro c _
        rw [sum_mul]
        exact sum_congr rfl fun o' _ => if_pos hc
      · rw [if_neg (show ¬ Reaches p s d (u, w) (a, b) (τ.ap m (i, j)) from hc)]
        exact sum_eq_zero fun c _ => sum_eq_zero fun o' _ => if_neg hc
    · intro q' hq' hne
      apply sum_eq_zero; intro o' ho'
      have := hPout q hqlt q' (mem_range.1 hq') r hrlt o' (mem_range.1 ho')
      rw [← hob, if_neg (Ne.symm hne)] at this
      rw [this, zero_mul]
    · intro h; exact absurd (mem_range.2 hqlt) h
  rw [fieldAct, hbm _ i j hi hj]
  unfold convT2d
  simp only [mul_add, sum_add_distrib]
  rw [hbias o ho]
  congr 1
  exact hL.trans (hsum.trans hR.symm)

end E2
