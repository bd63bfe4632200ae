import Verif.Lemmas.Image
import Verif.Model.Conv
import Verif.Lemmas.Bdiag

/-!
# Convolution and symmetries of the grid
-/

namespace E2

open Finset Mat

theorem padIdx_rev {mode : PadMode} {n p i : ℕ} (h : padOk mode n p) (hi : i < n + 2 * p) :
    padIdx mode n p (n + 2 * p - 1 - i) = (padIdx mode n p i).map (n - 1 - ·) := by
  unfold padIdx
  cases mode <;> simp only [padOk] at h <;> split_ifs <;> simp <;> omega

theorem readPad_sym {mode : PadMode} {n p : ℕ} (h : padOk mode n p) (τ : GSym) (x y : Img)
    (hxy : ∀ i j, i < n → j < n → y i j = x (τ.ap n (i, j)).1 (τ.ap n (i, j)).2) {i j : ℕ} (hi : i < n + 2 * p) (hj : j < n + 2 * p) :
    readPad mode n p y i j = readPad mode n p x (τ.ap (n + 2 * p) (i, j)).1 (τ.ap (n + 2 * p) (i, j)).2 := by
  have hlt : ∀ {i k}, i < n + 2 * p → padIdx mode n p i = some k → k < n := by
    intro i k hi hk
    unfold padIdx at hk
    cases mode <;> simp only [padOk] at h <;> split_ifs at hk <;> simp at hk <;> omega
  have hrev := fun {i} hi => padIdx_rev (i := i) h hi
  unfold readPad
  rcases hpi : padIdx mode n p i with _ | i' <;> rcases hpj : padIdx mode n p j with _ | j'
  · obtain ⟨s, a, b⟩ := τ
    cases s <;> cases a <;> cases b <;> simp [GSym.ap, hrev hi, hrev hj, hpi, hpj]
  · obtain ⟨s, a, b⟩ := τ
    cases s <;> cases a <;> cases b <;> simp [GSym.ap, hrev hi, hrev hj, hpi, hpj]
  · obtain ⟨s, a, b⟩ := τ
    cases s <;> cases a <;> cases b <;> simp [GSym.ap, hrev hi, hrev hj, hpi, hpj]
  · simp only
    rw [hxy i' j' (hlt hi hpi) (hlt hj hpj)]
    obtain ⟨s, a, b⟩ := τ
    cases s <;> cases a <;> cases b <;> simp [GSym.ap, hrev hi, hrev hj, hpi, hpj]

theorem gridCoords_eq (k d a b : ℕ) (hb : b < k) : gridCoords k d (a * k + b) = ((d : ℝ) * (pix k (a, b)).1, (d : ℝ) * (pix k (a, b)).2) := by
  have h1 : (a * k + b) / k = a := by
    rw [Nat.add_comm, Nat.add_mul_div_right _ _ (by omega), Nat.div_eq_of_lt hb, Nat.zero_add]
  have h2 : (a * k + b) % k = b := by
    rw [Nat.add_comm, Nat.add_mul_mod_self_right, Nat.mod_eq_of_lt hb]
  unfold gridCoords pix
  simp only [h1, h2]
  refine Prod.ext ?_ ?_ <;> simp only <;> ring

theorem lin_smul (τ : GSym) (c : ℝ) (p : ℝ × ℝ) : τ.lin (c * p.1, c * p.2) = (c * (τ.lin p).1, c * (τ.lin p).2) := by
  obtain ⟨s, a, b⟩ := τ
  cases s <;> cases a <;> cases b <;> simp [GSym.lin]

theorem gridCoords_ap (τ : GSym) (k d a b : ℕ) (ha : a < k) (hb : b < k) :
    gridCoords k d ((τ.ap k (a, b)).1 * k + (τ.ap k (a, b)).2) = τ.lin (gridCoords k d (a * k + b)) := by
  obtain ⟨-, h2⟩ := τ.ap_lt ha hb
  rw [gridCoords_eq k d _ _ h2, gridCoords_eq k d a b hb, lin_smul]
  change (_ * (pix k (τ.ap k (a, b))).1, _ * (pix k (τ.ap k (a, b))).2) = _
  rw [τ.pix_ap ha hb]

/-- `readPad` is linear in the image. -/
theorem readPad_sum (mode : PadMode) (n p : ℕ) (c : ℕ) (w : ℕ → ℝ) (x : ℕ → Img) (i j : ℕ) :
    readPad mode n p (fun i j => ∑ e ∈ range c, w e * x e i j) i j = ∑ e ∈ range c, w e * readPad mode n p (x e) i j := by
  unfold readPad
  cases padIdx mode n p i <;> cases padIdx mode n p j <;> simp

theorem convSize_cond {n p k s d m : ℕ} (hm : convSize n p k s d = some m)
    (hdiv : s ∣ n + 2 * p - d * (k - 1) - 1) : n + 2 * p = (m - 1) * s + (k - 1) * d + 1 := by
  unfold convSize at hm
  split_ifs at hm with h
  simp only [Option.some.injEq] at hm
  subst hm
  rw [Nat.add_sub_cancel, Nat.div_mul_cancel hdiv, Nat.mul_comm (k - 1) d]
  omega

/-! ## The types of grouped convolutions -/

/-- A block diagonal matrix with the same blocks repeated. -/
theorem bdiag_flatten_replicate (l : List (ℕ × Mat)) (S : ℕ) (hS : total l = S) (g q q' c c' : ℕ) (hq : q < g) (hq' : q' < g)
    (hc : c < S) (hc' : c' < S) : bdiag (List.replicate g l).flatten (q * S + c) (q' * S + c') = if q = q' then bdiag l c c' else 0 := by
  subst hS
  induction g generalizing q q' with
  | zero => omega
  | succ g ih =>
    rw [List.replicate_succ, List.flatten_cons, bdiag_append_entry]
    set S := total l
    rcases Nat.eq_zero_or_pos q with hq0 | hq0 <;> rcases Nat.eq_zero_or_pos q' with hq0' | hq0'
    · subst hq0; subst hq0'
      simp [hc, hc']
    · subst hq0
      have hle : S ≤ q' * S + c' := le_trans (Nat.le_mul_of_pos_left S hq0') (Nat.le_add_right _ _)
      have hlt : ¬ q' * S + c' < S := by omega
      simp [hc, hlt, Ne.symm (Nat.pos_iff_ne_zero.1 hq0')]
    · subst hq0'
      have hle : S ≤ q * S + c := le_trans (Nat.le_mul_of_pos_left S hq0) (Nat.le_add_right _ _)
      have hlt : ¬ q * S + c < S := by omega
      simp [hc', hlt, Nat.pos_iff_ne_zero.1 hq0]
    · obtain ⟨q, rfl⟩ := Nat.exists_eq_succ_of_ne_zero (Nat.pos_iff_ne_zero.1 hq0)
      obtain ⟨q', rfl⟩ := Nat.exists_eq_succ_of_ne_zero (Nat.pos_iff_ne_zero.1 hq0')
      have e1 : (q + 1) * S + c = S + (q * S + c) := by ring
      have e2 : (q' + 1) * S + c' = S + (q' * S + c') := by ring
      have := ih q q' (by omega) (by omega)
      simp [e1, e2, this]

theorem sum_range_blocks (g S : ℕ) (F : ℕ → ℝ) : ∑ e ∈ range (g * S), F e = ∑ q ∈ range g, ∑ c ∈ range S, F (q * S + c) := by
  induction g with
  | zero => simp
  | succ g ih => rw [Nat.succ_mul, sum_range_add, ih, sum_range_succ]

theorem contract (S : ℕ) (A B : Mat) (h : MEq S S (Mat.mul S B A) Mat.one) (U V : ℕ → ℝ) :
    ∑ c ∈ range S, (∑ c1 ∈ range S, U c1 * B c1 c) * (∑ c2 ∈ range S, A c c2 * V c2) = ∑ c1 ∈ range S, U c1 * V c1 := by
  have e1 : ∀ c ∈ range S, (∑ c1 ∈ range S, U c1 * B c1 c) * (∑ c2 ∈ range S, A c c2 * V c2) =
      ∑ c1 ∈ range S, ∑ c2 ∈ range S, U c1 * (B c1 c * A c c2) * V c2 := by
    intro c _
    rw [sum_mul]
    apply sum_congr rfl; intro c1 _
    rw [mul_sum]
    apply sum_congr rfl; intro c2 _
    ring
  rw [sum_congr rfl e1, sum_comm]
  apply sum_congr rfl
  intro c1 h1
  rw [sum_comm]
  have e2 : ∀ c2 ∈ range S, ∑ c ∈ range S, U c1 * (B c1 c * A c c2) * V c2 = U c1 * Mat.one c1 c2 * V c2 := by
    intro c2 h2
    rw [← h c1 (mem_range.1 h1) c2 (mem_range.1 h2), Mat.mul, mul_sum, sum_mul]
  rw [sum_congr rfl e2]
  simp [Mat.one, mem_range.1 h1]

/-- The convolution commutes with a symmetry of the grid. -/
theorem conv_sym {mode : PadMode} {n p k s d m cinG coutG groups : ℕ} (τ : GSym) (hpad : padOk mode n p)
    (hN : n + 2 * p = (m - 1) * s + (k - 1) * d + 1)
    (Pin Pout Ai Ao Binv : Mat) (bn bm : Img → Img)
    (hbn : ∀ x i j, i < n → j < n → bn x i j = x (τ.ap n (i, j)).1 (τ.ap n (i, j)).2)
    (hbm : ∀ x i j, i < m → j < m → bm x i j = x (τ.ap m (i, j)).1 (τ.ap m (i, j)).2)
    (hPin : ∀ q < groups, ∀ q' < groups, ∀ c < cinG, ∀ c' < cinG, Pin (q * cinG + c) (q' * cinG + c') = if q = q' then Ai c c' else 0)
    (hPout : ∀ q < groups, ∀ q' < groups, ∀ c < coutG, ∀ c' < coutG, Pout (q * coutG + c) (q' * coutG + c') = if q = q' then Ao c c' else 0)
    (hinv : MEq cinG cinG (Mat.mul cinG Binv Ai) Mat.one)
    (f : ℕ → ℕ → ℕ → ℕ → ℝ)
    (hf : ∀ a b, a < k → b < k → ∀ o < groups * coutG, ∀ c < cinG, f o c a b =
      ∑ c1 ∈ range cinG, (∑ o' ∈ range (groups * coutG), Pout o o' * f o' c1 (τ.ap k (a, b)).1 (τ.ap k (a, b)).2) * Binv c1 c)
    (bias : ℕ → ℝ) (hbias : ∀ o < groups * coutG, ∑ o' ∈ range (groups * coutG), Pout o o' * bias o' = bias o) (x : Fmap) :
    FEq (groups * coutG) m (conv2d mode n p k s d cinG coutG f bias (fieldAct (groups * cinG) Pin bn x))
      (fieldAct (groups * coutG) Pout bm (conv2d mode n p k s d cinG coutG f bias x)) := by
  intro o ho i hi j hj
  have hpos : 0 < coutG := Nat.pos_of_ne_zero fun h => by simp [h] at ho
  set q := o / coutG with hq
  have hqlt : q < groups := (Nat.div_lt_iff_lt_mul hpos).2 ho
  set i' := (τ.ap m (i, j)).1 with hi'
  set j' := (τ.ap m (i, j)).2 with hj'
  have hob : o = q * coutG + o % coutG := by rw [hq, Nat.div_add_mod']
  -- the output matrix only mixes channels of the same group
  have hgrp : ∀ o' < groups * coutG, o' / coutG ≠ q → Pout o o' = 0 := by
    intro o' ho' hne
    have h1 := hPout q hqlt (o' / coutG) ((Nat.div_lt_iff_lt_mul hpos).2 ho') (o % coutG) (Nat.mod_lt _ hpos) (o' % coutG) (Nat.mod_lt _ hpos)
    rw [← hob, Nat.div_add_mod', if_neg (Ne.symm hne)] at h1
    exact h1
  set V : ℕ → ℕ × ℕ → ℝ := fun c t => readPad mode n p (x (q * cinG + c)) (i' * s + t.1 * d) (j' * s + t.2 * d) with hV
  set H : ℕ × ℕ → ℝ := fun t => ∑ c1 ∈ range cinG, (∑ o' ∈ range (groups * coutG), Pout o o' * f o' c1 t.1 t.2) * V c1 t with hH
  have hL : ∑ c ∈ range cinG, ∑ a ∈ range k, ∑ b ∈ range k,
      f o c a b * readPad mode n p (fieldAct (groups * cinG) Pin bn x (q * cinG + c)) (i * s + a * d) (j * s + b * d)
      = ∑ a ∈ range k, ∑ b ∈ range k, H (τ.ap k (a, b)) := by
    rw [sum_comm]
    apply sum_congr rfl; intro a ha
    rw [sum_comm]
    apply sum_congr rfl; intro b hb
    rw [mem_range] at ha hb
    have hbound : ∀ {i a : ℕ}, i < m → a < k → i * s + a * d < n + 2 * p := by
      intro i a hi ha
      have l1 : i * s ≤ (m - 1) * s := Nat.mul_le_mul_right _ (by omega)
      have l2 : a * d ≤ (k - 1) * d := Nat.mul_le_mul_right _ (by omega)
      omega
    have hread : ∀ c ∈ range cinG, readPad mode n p (fieldAct (groups * cinG) Pin bn x (q * cinG + c)) (i * s + a * d) (j * s + b * d)
        = ∑ c2 ∈ range cinG, Ai c c2 * V c2 (τ.ap k (a, b)) := by
      intro c hc
      rw [mem_range] at hc
      rw [readPad_sym hpad τ (fun i j => ∑ e ∈ range (groups * cinG), Pin (q * cinG + c) e * x e i j) _ (fun i j hi hj => hbn _ i j hi hj)
        (hbound hi ha) (hbound hj hb), τ.ap_window hN hi hj ha hb, readPad_sum, sum_range_blocks]
      rw [sum_eq_single q]
      · apply sum_congr rfl; intro c2 hc2
        rw [hPin q hqlt q hqlt c hc c2 (mem_range.1 hc2), if_pos rfl]
      · intro q' hq' hne
        apply sum_eq_zero; intro c2 hc2
        rw [hPin q hqlt q' (mem_range.1 hq') c hc c2 (mem_range.1 hc2), if_neg (Ne.symm hne), zero_mul]
      · intro h; exact absurd (mem_range.2 hqlt) h
    have e1 : ∀ c ∈ range cinG, f o c a b * readPad mode n p (fieldAct (groups * cinG) Pin bn x (q * cinG + c)) (i * s + a * d) (j * s + b * d)
        = (∑ c1 ∈ range cinG, (∑ o' ∈ range (groups * coutG), Pout o o' * f o' c1 (τ.ap k (a, b)).1 (τ.ap k (a, b)).2) * Binv c1 c) *
          ∑ c2 ∈ range cinG, Ai c c2 * V c2 (τ.ap k (a, b)) := by
      intro c hc
      rw [hread c hc, hf a b ha hb o ho c (mem_range.1 hc)]
    rw [sum_congr rfl e1]
    exact contract cinG Ai Binv hinv _ _
  have hR : ∑ o' ∈ range (groups * coutG), Pout o o' * ((∑ c ∈ range cinG, ∑ a ∈ range k, ∑ b ∈ range k,
      f o' c a b * readPad mode n p (x (o' / coutG * cinG + c)) (i' * s + a * d) (j' * s + b * d)))
      = ∑ a ∈ range k, ∑ b ∈ range k, H (a, b) := by
    have e1 : ∀ o' ∈ range (groups * coutG), Pout o o' * ((∑ c ∈ range cinG, ∑ a ∈ range k, ∑ b ∈ range k,
        f o' c a b * readPad mode n p (x (o' / coutG * cinG + c)) (i' * s + a * d) (j' * s + b * d)))
        = ∑ a ∈ range k, ∑ b ∈ range k, ∑ c ∈ range cinG, Pout o o' * f o' c a b * V c (a, b) := by
      intro o' ho'
      by_cases hne : o' / coutG = q
      · rw [hne, sum_comm, mul_sum]
        apply sum_congr rfl; intro a _
        rw [sum_comm, mul_sum]
        apply sum_congr rfl; intro b _
        rw [mul_sum]
        apply sum_congr rfl; intro c _
        simp only [hV]; ring
      · rw [hgrp o' (mem_range.1 ho') hne]
        simp
    rw [sum_congr rfl e1, sum_comm]
    apply sum_congr rfl; intro a _
    rw [sum_comm]
    apply sum_congr rfl; intro b _
    rw [sum_comm]
    simp only [hH]
    apply sum_congr rfl; intro c _
    rw [sum_mul]
  have hlt := τ.ap_lt hi hj
  unfold fieldAct
  rw [hbm _ i j hi hj]
  unfold conv2d
  simp only [mul_add, sum_add_distrib]
  rw [hbias o ho]
  congr 1
  refine hL.trans (Eq.trans (τ.sum_ap k H) hR.symm)

/-! ## The checks on the groups -/

theorem take_flatten_of_periodic {F : Type} (g S : ℕ) (t : List F) (hl : t.length = g * S) (hS : 0 < S)
    (h : ∀ i < t.length, t[i]? = t[i % S]?) : t = (List.replicate g (t.take S)).flatten := by
  apply List.ext_getElem?
  intro i
  rcases Nat.eq_zero_or_pos g with hg | hg
  · subst hg
    have : t = [] := List.length_eq_zero_iff.1 (by omega)
    subst this; simp
  have hlen : (t.take S).length = S := by
    rw [List.length_take, hl]
    exact min_eq_left (Nat.le_mul_of_pos_left S hg)
  have hrep : ∀ (g i : ℕ) (u : List F), u.length = S → i < g * S → (List.replicate g u).flatten[i]? = u[i % S]? := by
    intro g
    induction g with
    | zero => intro i u _ hi; omega
    | succ g ih =>
      intro i u hu hi
      rw [List.replicate_succ, List.flatten_cons, List.getElem?_append, hu]
      split_ifs with hlt
      · rw [Nat.mod_eq_of_lt hlt]
      · rw [ih (i - S) u hu (by rw [Nat.succ_mul] at hi; omega)]
        congr 1
        rw [← Nat.add_mod_right (i - S)]
        congr 1; omega
  by_cases hi : i < t.length
  · rw [hrep g i _ hlen (by omega), h i hi, List.getElem?_take_of_lt (Nat.mod_lt _ hS)]
  · rw [List.getElem?_eq_none (by omega), List.getElem?_eq_none]
    rw [List.length_flatten, List.map_replicate, List.sum_replicate, hlen, smul_eq_mul]
    omega

theorem convGroups_spec {F : Type} [DecidableEq F] {groups : ℕ} {inT outT t : List F} (h : convGroups groups inT outT = some t)
    (hg : 0 < groups) (hin : inT ≠ []) (hout : outT ≠ []) :
    inT = (List.replicate groups t).flatten ∧ ∃ u, outT = (List.replicate groups u).flatten := by
  unfold convGroups at h
  split_ifs at h with h1 h2
  · rw [Option.some.injEq] at h
    subst h
    obtain ⟨d1, d2, p1, p2⟩ := h2
    have key : ∀ t : List F, t ≠ [] → t.length % groups = 0 → (∀ i < t.length, t[i]? = t[i % (t.length / groups)]?) →
        t = (List.replicate groups (t.take (t.length / groups))).flatten := by
      intro t ht hd hp
      have hl : t.length = groups * (t.length / groups) := by
        rw [Nat.mul_div_cancel' (Nat.dvd_of_mod_eq_zero hd)]
      refine take_flatten_of_periodic groups _ t hl ?_ hp
      rcases Nat.eq_zero_or_pos (t.length / groups) with h0 | h0
      · rw [h0, Nat.mul_zero] at hl
        exact absurd (List.length_eq_zero_iff.1 hl) ht
      · exact h0
    exact ⟨key inT hin d1 p1, _, key outT hout d2 p2⟩
  · rw [Option.some.injEq] at h
    subst h
    have : groups = 1 := by omega
    subst this
    exact ⟨by simp, outT, by simp⟩

end E2
