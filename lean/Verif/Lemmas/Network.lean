import Verif.Props.NetworkSpec

/-!
Lemmas for C62: convolutions on batches, the action on tensors, independence of the new memory.
-/

set_option linter.unusedSectionVars false

namespace E2

open Finset Mat

variable {El F A I B R : Type}

theorem chanImg_map {n N : ℕ} (f : ℕ → Pix B n → ℝ) (b : B) {o i j : ℕ} (ho : o < N) (hi : i < n) (hj : j < n) :
    chanImg ((List.range N).map f) b o i j = f o (b, ⟨i, hi⟩, ⟨j, hj⟩) := by
  have : ((List.range N).map f).getD o 0 = f o := by
    rw [List.getD_eq_getElem?_getD]
    simp [ho]
  rw [chanImg, this, readZ, dif_pos ⟨⟨Nat.zero_le _, by simpa using hi⟩, Nat.zero_le _, by simpa using hj⟩]
  simp

theorem chanImg_apply {n : ℕ} (x : List (Pix B n → ℝ)) (b : B) (c : ℕ) (q : Fin n × Fin n) :
    chanImg x b c q.1 q.2 = x[c]?.getD 0 (b, q) := by
  rw [chanImg, readZ, dif_pos ⟨⟨Nat.zero_le _, by simp⟩, Nat.zero_le _, by simp⟩, List.getD_eq_getElem?_getD]
  simp

/-- The action written with a map of the pixels. -/
theorem fieldAct_grid {Sp : Space El} {g : El} {τ : GSym}
    (hτ : ∀ n x i j, i < n → j < n → Sp.base n g x i j = x (τ.ap n (i, j)).1 (τ.ap n (i, j)).2) (N n : ℕ) (M : Mat) (x : Fmap) (o : ℕ) {i j : ℕ}
    (hi : i < n) (hj : j < n) :
    fieldAct N M (Sp.base n g) x o i j = ∑ c ∈ range N, M o c * x c (τ.ap n (i, j)).1 (τ.ap n (i, j)).2 := by
  rw [fieldAct, hτ n _ i j hi hj]

theorem act_eq {Sp : Space El} (rep : F → Repr El) {g : El} {τ : GSym}
    (hτ : ∀ n x i j, i < n → j < n → Sp.base n g x i j = x (τ.ap n (i, j)).1 (τ.ap n (i, j)).2) (x : ETensor F B) :
    x.act Sp rep g = ⟨x.n, x.x.transform (fun r => (rep r).size) (fun r => (rep r).mat g) (Pix.move τ)⟩ := by
  obtain ⟨n, t, d⟩ := x
  rw [ETensor.act]
  congr 1
  rw [GTensor.transform]
  congr 1
  dsimp only [GTensor.act]
  rw [chAct, List.map_map]
  apply List.map_congr_left
  intro o _
  funext q
  rw [fieldAct_grid hτ _ _ _ _ _ q.2.1.2 q.2.2.2]
  simp only [Function.comp_apply, Finset.sum_apply, Pi.smul_apply, smul_eq_mul]
  refine Finset.sum_congr rfl fun c _ => ?_
  have := chanImg_apply d q.1 c (τ.fin n q.2)
  simp only [GSym.fin] at this
  rw [this]
  rfl

/-- A layer on the images of a batch. -/
noncomputable def imgLayer {n m : ℕ} (L : Fmap → Fmap) (N : ℕ) (d : List (Pix B n → ℝ)) : List (Pix B m → ℝ) :=
  (List.range N).map fun o q => L (chanImg d q.1) o q.2.1 q.2.2

theorem imgLayer_equivariant {Sp : Space El} {rep : F → Repr El} {inT outT : List F} {g : El} {τ : GSym}
    (hτ : ∀ n x i j, i < n → j < n → Sp.base n g x i j = x (τ.ap n (i, j)).1 (τ.ap n (i, j)).2) {n m : ℕ} (L : Fmap → Fmap)
    (hc : ∀ x x', FEq (typeSize (fun r => (rep r).size) inT) n x x' → FEq (typeSize (fun r => (rep r).size) outT) m (L x) (L x'))
    (hL : ∀ x, FEq (typeSize (fun m => (rep m).size) outT) m
          (L (fieldAct (typeSize (fun m => (rep m).size) inT) (typeMat rep inT g) (Sp.base n g) x))
          (fieldAct (typeSize (fun m => (rep m).size) outT) (typeMat rep outT g) (Sp.base m g) (L x)))
    (d : List (Pix B n → ℝ)) :
    (⟨m, outT, imgLayer L (typeSize (fun r => (rep r).size) outT) (ETensor.act Sp rep g (⟨n, inT, d⟩ : ETensor F B)).x.data⟩ : ETensor F B)
      = ETensor.act Sp rep g ⟨m, outT, imgLayer L (typeSize (fun r => (rep r).size) outT) d⟩ := by
  conv_rhs => rw [ETensor.act]
  congr 2
  rw [imgLayer]
  apply List.map_congr_left
  intro o ho
  have ho := List.mem_range.1 ho
  funext q
  have e1 : FEq (typeSize (fun r => (rep r).size) inT) n (chanImg (ETensor.act Sp rep g (⟨n, inT, d⟩ : ETensor F B)).x.data q.1)
      (fieldAct (typeSize (fun m => (rep m).size) inT) (typeMat rep inT g) (Sp.base n g) (chanImg d q.1)) := by
    intro o ho i hi j hj
    exact chanImg_map _ q.1 ho hi hj
  rw [hc _ _ e1 o ho _ q.2.1.2 _ q.2.2.2, hL _ o ho _ q.2.1.2 _ q.2.2.2]
  rw [fieldAct_grid hτ _ _ _ _ _ q.2.1.2 q.2.2.2, fieldAct_grid hτ _ _ _ _ _ q.2.1.2 q.2.2.2]
  refine Finset.sum_congr rfl fun c hc => ?_
  have := τ.ap_lt q.2.1.2 q.2.2.2
  rw [imgLayer, chanImg_map _ q.1 (mem_range.1 hc) this.1 this.2]

/-! ### Convolutions read the image only -/

theorem readPad_congr {mode : PadMode} {n p : ℕ} (h : padOk mode n p) {x x' : Img} (hx : ∀ i < n, ∀ j < n, x i j = x' i j) {i j : ℕ}
    (hi : i < n + 2 * p) (hj : j < n + 2 * p) : readPad mode n p x i j = readPad mode n p x' i j := by
  have hlt : ∀ {i k}, i < n + 2 * p → padIdx mode n p i = some k → k < n := by
    intro i k hi hk
    unfold padIdx at hk
    cases mode <;> simp only [padOk] at h <;> split_ifs at hk <;> simp at hk <;> omega
  unfold readPad
  cases h1 : padIdx mode n p i with
  | none => rfl
  | some a =>
    cases h2 : padIdx mode n p j with
    | none => rfl
    | some b => exact hx a (hlt hi h1) b (hlt hj h2)

theorem conv2d_congr {mode : PadMode} {n p k s d m : ℕ} (hp : padOk mode n p) (hm : convSize n p k s d = some m) {groups cinG coutG : ℕ}
    (f : ℕ → ℕ → ℕ → ℕ → ℝ) (bias : ℕ → ℝ) {x x' : Fmap} (h : FEq (groups * cinG) n x x') :
    FEq (groups * coutG) m (conv2d mode n p k s d cinG coutG f bias x) (conv2d mode n p k s d cinG coutG f bias x') := by
  intro o ho i hi j hj
  unfold conv2d
  congr 1
  refine Finset.sum_congr rfl fun c hc => Finset.sum_congr rfl fun a ha => Finset.sum_congr rfl fun b hb => ?_
  have hc := mem_range.1 hc; have ha := mem_range.1 ha; have hb := mem_range.1 hb
  unfold convSize at hm
  split_ifs at hm with hfit
  rw [Option.some.injEq] at hm
  have bound : ∀ {i a}, i < m → a < k → i * s + a * d < n + 2 * p := by
    intro i a hi ha
    have h1 : i ≤ (n + 2 * p - d * (k - 1) - 1) / s := by omega
    have h2 : i * s ≤ n + 2 * p - d * (k - 1) - 1 := (Nat.mul_le_mul_right s h1).trans (Nat.div_mul_le_self _ _)
    have h3 : a * d ≤ d * (k - 1) := by rw [Nat.mul_comm]; exact Nat.mul_le_mul_left d (by omega)
    omega
  congr 1
  apply readPad_congr hp _ (bound hi ha) (bound hj hb)
  intro u hu v hv
  refine h _ ?_ u hu v hv
  have hq : o / coutG < groups := by
    rcases Nat.eq_zero_or_pos coutG with h0 | h0
    · subst h0; simp at ho
    · rw [Nat.div_lt_iff_lt_mul h0]; exact ho
  calc o / coutG * cinG + c < o / coutG * cinG + cinG := by omega
    _ = (o / coutG + 1) * cinG := by ring
    _ ≤ groups * cinG := Nat.mul_le_mul_right _ hq

theorem convT2d_congr {n p k s d m : ℕ} {groups cinG coutG : ℕ}
    (f : ℕ → ℕ → ℕ → ℕ → ℝ) (bias : ℕ → ℝ) {x x' : Fmap} (h : FEq (groups * cinG) n x x') :
    FEq (groups * coutG) m (convT2d n p k s d cinG coutG f bias x) (convT2d n p k s d cinG coutG f bias x') := by
  intro o ho i hi j hj
  unfold convT2d
  congr 1
  refine Finset.sum_congr rfl fun c hc => Finset.sum_congr rfl fun u hu => Finset.sum_congr rfl fun v hv =>
    Finset.sum_congr rfl fun a _ => Finset.sum_congr rfl fun b _ => ?_
  have hq : o / coutG < groups := by
    rcases Nat.eq_zero_or_pos coutG with h0 | h0
    · subst h0; simp at ho
    · rw [Nat.div_lt_iff_lt_mul h0]; exact ho
  have hc := mem_range.1 hc
  have : o / coutG * cinG + c < groups * cinG := by
    calc o / coutG * cinG + c < o / coutG * cinG + cinG := by omega
      _ = (o / coutG + 1) * cinG := by ring
      _ ≤ groups * cinG := Nat.mul_le_mul_right _ hq
  rw [h _ this u (mem_range.1 hu) v (mem_range.1 hv)]

/-! ### New memory -/

theorem transform_id {P : Type} {sz : R → ℕ} {x : GTensor R (P → ℝ)} (hx : x.WF sz) {ρ : R → Mat} (hρ : ∀ r, MEq (sz r) (sz r) (ρ r) Mat.one) :
    x.transform sz ρ id = x := by
  obtain ⟨t, d⟩ := x
  have hd : d.length = typeSize sz t := hx.2
  have hm : MEq (typeSize sz t) (typeSize sz t) (bdiag (t.map fun r => (sz r, ρ r))) Mat.one := by
    rw [typeSize, bdiag_congr sz ρ (fun _ => Mat.one) t fun r _ => hρ r]
    exact bdiag_one sz t
  rw [GTensor.transform]
  congr 1
  simp only [Function.comp_id, List.map_id', GTensor.act]
  rw [chAct_MEq hm]
  apply List.ext_getElem?
  intro c
  by_cases hc : c < typeSize sz t
  · rw [chAct_get _ _ _ hc, List.getElem?_eq_getElem (by omega)]
    congr 1
    rw [Finset.sum_eq_single c]
    · simp [Mat.one, List.getElem?_eq_getElem (show c < d.length by omega)]
    · intro j _ hj
      simp [Mat.one, Ne.symm hj]
    · intro h; exact absurd (mem_range.2 hc) h
  · rw [List.getElem?_eq_none (by rw [chAct_length]; omega), List.getElem?_eq_none (by omega)]

end E2
