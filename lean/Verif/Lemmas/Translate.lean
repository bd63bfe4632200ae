import Verif.Props.TranslateSpec
import Verif.Props.Network

/-!
Each module computes its output from the windows `Layer.view`, in the same way at all positions.
-/

set_option linter.unusedSectionVars false

namespace E2

open Finset Mat

variable {El F A I B K : Type} [LinearOrder F] [DecidableEq I] [Fintype B]

/-- A module computes an output from its window only, and in the same way at all positions where the window is inside of the image. -/
def LocalStep (rep : F → Repr El) (l : Layer F A I) (s p r : ℕ) : Prop :=
  ∀ (n : ℕ) (x y : GTensor F (Pix B n → ℝ)), x.WF (fun r => (rep r).size) → y.WF (fun r => (rep r).size) → x.ty = l.inTy → y.ty = l.inTy →
    ∀ junk junk', JunkOk junk → JunkOk junk' → ∀ x' y' : ETensor F B, l.forward rep junk ⟨n, x⟩ = some x' → l.forward rep junk' ⟨n, y⟩ = some y' →
    x'.n = y'.n ∧ x'.x.WF (fun r => (rep r).size) ∧ y'.x.WF (fun r => (rep r).size) ∧ x'.x.ty = l.outTy ∧ y'.x.ty = l.outTy ∧
    (∀ i, Inside n s p r i → i < x'.n) ∧
    ∀ b b' i j i' j', Inside n s p r i → Inside n s p r j → Inside n s p r i' → Inside n s p r j' →
      SameWindow r x.data y.data b b' (i * s - p) (j * s - p) (i' * s - p) (j' * s - p) →
      ∀ c, chanImg x'.x.data b c i j = chanImg y'.x.data b' c i' j'

theorem transform_one {P : Type} {sz : F → ℕ} {x : GTensor F (P → ℝ)} (hx : x.WF sz) (π : P → P) :
    x.transform sz (fun _ => Mat.one) π = ⟨x.ty, x.data.map fun v => v ∘ π⟩ := by
  have h := transform_id hx (ρ := fun _ => Mat.one) fun _ _ _ _ _ => rfl
  have h1 := congrArg GTensor.data h
  simp only [GTensor.transform, Function.comp_id, List.map_id'] at h1
  rw [GTensor.transform, h1]

theorem isPerm_one (n : ℕ) : IsPerm n Mat.one := ⟨Equiv.refl _, fun i j => by
  show (if (i : ℕ) = j then (1 : ℝ) else 0) = if j = i then 1 else 0
  by_cases h : i = j
  · subst h; simp
  · rw [if_neg (fun e => h (Fin.ext e)), if_neg fun e => h e.symm]⟩

theorem isBlockPerm_one (n s : ℕ) : IsBlockPerm n s Mat.one := by
  refine ⟨Equiv.refl _, fun _ => Mat.one, fun _ => orth_one s, fun i j a b => ?_⟩
  show (if (i : ℕ) * s + a = j * s + b then (1 : ℝ) else 0) = if j = i then (if (a : ℕ) = b then 1 else 0) else 0
  have key : (i : ℕ) * s + a = j * s + b ↔ i = j ∧ (a : ℕ) = b := by
    constructor
    · intro h
      have ha := a.2; have hb := b.2
      have h1 := congrArg (· / s) h
      have h2 := congrArg (· % s) h
      have hs : 0 < s := by omega
      simp only [Nat.mul_comm _ s, Nat.mul_add_div hs, Nat.mul_add_mod, Nat.div_eq_of_lt ha, Nat.div_eq_of_lt hb, Nat.mod_eq_of_lt ha,
        Nat.mod_eq_of_lt hb, Nat.add_zero] at h1 h2
      exact ⟨Fin.ext h1, h2⟩
    · rintro ⟨rfl, h⟩
      rw [h]
  by_cases h1 : i = j
  · subst h1
    by_cases h2 : (a : ℕ) = b
    · rw [if_pos (key.2 ⟨rfl, h2⟩), if_pos rfl, if_pos h2]
    · rw [if_neg (fun e => h2 (key.1 e).2), if_pos rfl, if_neg h2]
  · rw [if_neg (fun e => h1 (key.1 e).1), if_neg fun e => h1 e.symm]

theorem chanImg_in {n : ℕ} {x : List (Pix B n → ℝ)} {b : B} {c i j : ℕ} (hi : i < n) (hj : j < n) : chanImg x b c i j = (x.getD c 0) (b, ⟨i, hi⟩, ⟨j, hj⟩) := by
  unfold chanImg readZ
  rw [dif_pos (by simpa using ⟨hi, hj⟩)]
  rfl

/-- The modules which treat each position separately. -/
theorem fibre_local {rep : F → Repr El} {l : Layer F A I}
    (f : ∀ n, ((c n : ℕ) → List (Pix B n → ℝ)) → GTensor F (Pix B n → ℝ) → Option (GTensor F (Pix B n → ℝ)))
    (hf : ∀ n junk, JunkOk junk → ∀ z : GTensor F (Pix B n → ℝ), z.WF (fun r => (rep r).size) → z.ty = l.inTy → l.forward rep junk ⟨n, z⟩ = (f n junk z).map fun y => ⟨n, y⟩)
    (h : ∀ n (x : GTensor F (Pix B n → ℝ)), x.WF (fun r => (rep r).size) → x.ty = l.inTy → ∀ π junk junk', JunkOk junk → JunkOk junk' →
      ∃ y, f n junk x = some y ∧ y.WF (fun r => (rep r).size) ∧ y.ty = l.outTy ∧
        f n junk' (x.transform (fun r => (rep r).size) (fun _ => Mat.one) π) = some (y.transform (fun r => (rep r).size) (fun _ => Mat.one) π)) :
    LocalStep (B := B) rep l 1 0 1 := by
  intro n x y hx hy hxt hyt junk junk' hj hj' x' y' e1 e2
  rw [hf n junk hj x hx hxt] at e1
  rw [hf n junk' hj' y hy hyt] at e2
  obtain ⟨x1, f1, rfl⟩ := Option.map_eq_some_iff.1 e1
  obtain ⟨y1, f2, rfl⟩ := Option.map_eq_some_iff.1 e2
  obtain ⟨a, a1, a2, a3, -⟩ := h n x hx hxt id junk junk hj hj
  obtain rfl := Option.some.inj (a1.symm.trans f1)
  obtain ⟨a', a1', a2', a3', -⟩ := h n y hy hyt id junk' junk' hj' hj'
  obtain rfl := Option.some.inj (a1'.symm.trans f2)
  refine ⟨rfl, a2, a2', a3, a3', fun i hi => ?_, fun b b' i j i' j' hi hj1 hi' hj1' hs c => ?_⟩
  · have := hi.2
    show i < n
    omega
  have ei : i < n := by have := hi.2; omega
  have ej : j < n := by have := hj1.2; omega
  have ei' : i' < n := by have := hi'.2; omega
  have ej' : j' < n := by have := hj1'.2; omega
  obtain ⟨z, z1, -, -, z2⟩ := h n x hx hxt (fun _ => (b, ⟨i, ei⟩, ⟨j, ej⟩)) junk junk hj hj
  obtain rfl := Option.some.inj (z1.symm.trans f1)
  obtain ⟨z', z1', -, -, z2'⟩ := h n y hy hyt (fun _ => (b', ⟨i', ei'⟩, ⟨j', ej'⟩)) junk' junk hj' hj
  obtain rfl := Option.some.inj (z1'.symm.trans f2)
  rw [transform_one hx, transform_one a2] at z2
  rw [transform_one hy, transform_one a2'] at z2'
  have hlen : x.data.length = y.data.length := by rw [hx.2, hy.2, hxt, hyt]
  have hdat : x.data.map (fun (v : Pix B n → ℝ) => v ∘ fun (_ : Pix B n) => (b, (⟨i, ei⟩ : Fin n), (⟨j, ej⟩ : Fin n))) = y.data.map (fun (v : Pix B n → ℝ) => v ∘ fun (_ : Pix B n) => (b', (⟨i', ei'⟩ : Fin n), (⟨j', ej'⟩ : Fin n))) := by
    refine List.ext_getElem (by simpa using hlen) fun k h1 h2 => ?_
    simp only [List.length_map] at h1 h2
    simp only [List.getElem_map]
    funext q
    have := hs k 0 0 one_pos one_pos
    simp only [Nat.mul_one, Nat.sub_zero, Nat.add_zero] at this
    rw [chanImg_in ei ej, chanImg_in ei' ej', List.getD_eq_getElem _ _ h1, List.getD_eq_getElem _ _ h2] at this
    exact this
  rw [hxt, hdat] at z2
  rw [hyt, z2] at z2'
  have e5 := congrArg GTensor.data (Option.some.inj z2')
  have e6 := congrArg (fun d => (d.getD c 0) (b, (⟨i, ei⟩ : Fin n), (⟨j, ej⟩ : Fin n))) e5
  rw [chanImg_in ei ej, chanImg_in ei' ej']
  simp only [List.getD_eq_getElem?_getD, List.getElem?_map] at e6 ⊢
  cases h1 : z.data[c]? <;> cases h2 : z'.data[c]? <;> simp [h1, h2] at e6 ⊢ <;> exact e6

/-! ### The modules with windows -/

theorem img_local {rep : F → Repr El} {l : Layer F A I} {s p r : ℕ} (G : ℕ → Fmap → Fmap) (size : ℕ → ℕ)
    (hfw : ∀ n (x : GTensor F (Pix B n → ℝ)), x.WF (fun r => (rep r).size) → x.ty = l.inTy → ∀ junk, JunkOk junk → ∀ x' : ETensor F B, l.forward rep junk ⟨n, x⟩ = some x' →
      x'.n = size n ∧ x'.x.WF (fun r => (rep r).size) ∧ x'.x.ty = l.outTy ∧ (∀ i, Inside n s p r i → i < x'.n) ∧
      ∀ b c i j, c < typeSize (fun r => (rep r).size) l.outTy → i < x'.n → j < x'.n → chanImg x'.x.data b c i j = G n (chanImg x.data b) c i j)
    (hG : ∀ n (X Y : Fmap) i j i' j', Inside n s p r i → Inside n s p r j → Inside n s p r i' → Inside n s p r j' →
      (∀ c u v, u < r → v < r → X c (i * s - p + u) (j * s - p + v) = Y c (i' * s - p + u) (j' * s - p + v)) → ∀ c, G n X c i j = G n Y c i' j') :
    LocalStep (B := B) rep l s p r := by
  intro n x y hx hy hxt hyt junk junk' hj hj' x' y' e1 e2
  obtain ⟨a1, a2, a3, a4, a5⟩ := hfw n x hx hxt junk hj x' e1
  obtain ⟨b1, b2, b3, b4, b5⟩ := hfw n y hy hyt junk' hj' y' e2
  refine ⟨a1.trans b1.symm, a2, b2, a3, b3, a4, fun b b' i j i' j' hi hj1 hi' hj1' hs c => ?_⟩
  by_cases hc : c < typeSize (fun r => (rep r).size) l.outTy
  · rw [a5 b c i j hc (a4 i hi) (a4 j hj1), b5 b' c i' j' hc (b4 i' hi') (b4 j' hj1')]
    exact hG n _ _ i j i' j' hi hj1 hi' hj1' hs c
  · have h1 : x'.x.data.length ≤ c := by rw [a2.2, a3]; omega
    have h2 : y'.x.data.length ≤ c := by rw [b2.2, b3]; omega
    unfold chanImg
    rw [List.getD_eq_default _ _ h1, List.getD_eq_default _ _ h2]
    unfold readZ
    simp

theorem readZ_shift {n p : ℕ} (v : Pix B n → ℝ) (b : B) (u w : ℕ) : readZ n p v b u w = if p ≤ u ∧ p ≤ w then readZ n 0 v b (u - p) (w - p) else 0 := by
  unfold readZ
  by_cases h : p ≤ u ∧ p ≤ w
  · rw [if_pos h]
    by_cases h2 : u - p < n ∧ w - p < n
    · rw [dif_pos ⟨⟨h.1, h2.1⟩, h.2, h2.2⟩, dif_pos ⟨⟨Nat.zero_le _, by simpa using h2.1⟩, Nat.zero_le _, by simpa using h2.2⟩]
      rfl
    · rw [dif_neg (fun e => h2 ⟨e.1.2, e.2.2⟩), dif_neg (fun e => h2 ⟨by simpa using e.1.2, by simpa using e.2.2⟩)]
  · rw [if_neg h, dif_neg fun e => h ⟨e.1.1, e.2.1⟩]

theorem convSize_inside {n p k s d m i : ℕ} (hs : 0 < s) (h : convSize n p k s d = some m) (hi : Inside n s p (d * (k - 1) + 1) i) : i < m := by
  unfold convSize at h
  split_ifs at h
  obtain rfl := Option.some.inj h
  obtain ⟨h1, h2⟩ := hi
  have : i ≤ (n + 2 * p - d * (k - 1) - 1) / s := (Nat.le_div_iff_mul_le hs).2 (by omega)
  omega

theorem poolSize_inside {ceil : Bool} {n p k s d m i : ℕ} (hs : 0 < s) (h : poolSize ceil n p k s d = some m) (hi : Inside n s p (d * (k - 1) + 1) i) : i < m := by
  unfold poolSize at h
  split_ifs at h with h0 h3
  · obtain rfl := Option.some.inj h
    obtain ⟨h1, h2⟩ := hi
    have h4 : i ≤ (n + 2 * p - d * (k - 1) - 1 + s - 1) / s := (Nat.le_div_iff_mul_le hs).2 (by omega)
    split_ifs with h5
    · rw [Nat.add_sub_cancel] at h5 ⊢
      by_contra hlt
      have := Nat.mul_le_mul_right s (not_lt.1 hlt)
      omega
    · omega
  · obtain rfl := Option.some.inj h
    obtain ⟨h1, h2⟩ := hi
    have : i ≤ (n + 2 * p - d * (k - 1) - 1) / s := (Nat.le_div_iff_mul_le hs).2 (by omega)
    omega

theorem window_lt {a k d : ℕ} (ha : a < k) : a * d < d * (k - 1) + 1 := by
  have : a * d ≤ (k - 1) * d := Nat.mul_le_mul_right d (by omega)
  rw [Nat.mul_comm d]
  omega

theorem readPad_inside {mode : PadMode} {n s p r : ℕ} {i j u v : ℕ} (hi : Inside n s p r i) (hj : Inside n s p r j) (hu : u < r) (hv : v < r) (X : Img) :
    readPad mode n p X (i * s + u) (j * s + v) = X (i * s - p + u) (j * s - p + v) := by
  obtain ⟨h1, h2⟩ := hi
  obtain ⟨h3, h4⟩ := hj
  unfold readPad padIdx
  rw [if_neg (by omega), if_pos (by omega), if_neg (by omega), if_pos (by omega)]
  dsimp only
  congr 1 <;> omega

theorem conv_local {rep : F → Repr El} (c : ConvCfg A I) (basis : F → F → List (A × (ℝ × ℝ → Mat))) (inT outT : List F) (w b : List ℝ) (ho : outT ≠ []) (hs : 0 < c.s) :
    LocalStep (B := B) rep (.conv c basis inT outT w b) c.s c.p (c.d * (c.k - 1) + 1) := by
  cases hG : convGroups c.groups inT outT with
  | none =>
    intro n x y hx hy hxt hyt junk junk' hj hj' x' y' e1 e2
    simp [Layer.forward, hG] at e1
  | some inG =>
    cases hf : (c.exp rep inG outT basis).forward w with
    | none =>
      intro n x y hx hy hxt hyt junk junk' hj hj' x' y' e1 e2
      simp [Layer.forward, hG, hf] at e1
    | some f =>
      refine img_local (fun n X => conv2d c.mode n c.p c.k c.s c.d (typeSize (fun r => (rep r).size) inT / c.groups) (typeSize (fun r => (rep r).size) outT / c.groups)
        (reshapeFilter c.k f) (outBias rep outT b) X) (fun n => (convSize n c.p c.k c.s c.d).getD 0) ?_ ?_
      · intro n x hx hxt junk hj x' e
        have hxt : x.ty = inT := hxt
        have hl : x.data.length = typeSize (fun r => (rep r).size) inT := by rw [hx.2, hxt]
        simp only [Layer.forward, hG, hf, wrapped, hxt, if_pos, runConv, ETensor.plain, hl] at e
        cases hm : convSize n c.p c.k c.s c.d with
        | none => simp [hm] at e
        | some m =>
          simp only [hm, Option.map_some, mkE, mkGT] at e
          rw [if_pos (by simp), Option.map_some] at e
          obtain rfl := Option.some.inj e
          refine ⟨rfl, ⟨ho, by simp⟩, rfl, fun i hi => convSize_inside hs hm hi, fun b' o i j hc hi hj => ?_⟩
          rw [chanImg_in hi hj]
          have hc : o < typeSize (fun r => (rep r).size) outT := hc
          simp only [List.getD_eq_getElem?_getD, List.getElem?_map]
          rw [List.getElem?_range hc]
          rfl
      · intro n X Y i j i' j' hi hj hi' hj' h o
        unfold conv2d
        congr 1
        refine Finset.sum_congr rfl fun e _ => Finset.sum_congr rfl fun a ha => Finset.sum_congr rfl fun b hb => ?_
        have ha := window_lt (d := c.d) (mem_range.1 ha)
        have hb := window_lt (d := c.d) (mem_range.1 hb)
        rw [readPad_inside hi hj ha hb, readPad_inside hi' hj' ha hb, h _ _ _ ha hb]

/-! ### Pooling -/

/-- The modules which treat each channel separately. -/
theorem channelwise_local {rep : F → Repr El} {l : Layer F A I} {s p r : ℕ} (t : List F) (hin : l.inTy = t) (hout : l.outTy = t) (size : ℕ → Option ℕ)
    (f : ∀ n m, (Pix B n → ℝ) → Pix B m → ℝ) (G : ℕ → Img → Img)
    (hfw : ∀ junk n (x : GTensor F (Pix B n → ℝ)), l.forward rep junk ⟨n, x⟩ = (size n).bind fun m => (channelwise (fun r => (rep r).size) t (f n m) x).map fun y => ⟨m, y⟩)
    (hsz : ∀ n m i, size n = some m → Inside n s p r i → i < m)
    (hf : ∀ n m, size n = some m → ∀ (v : Pix B n → ℝ) b (i j : Fin m), f n m v (b, i, j) = G n (fun i j => readZ n 0 v b i j) i j)
    (hG : ∀ n (X Y : Img) i j i' j', Inside n s p r i → Inside n s p r j → Inside n s p r i' → Inside n s p r j' →
      (∀ u v, u < r → v < r → X (i * s - p + u) (j * s - p + v) = Y (i' * s - p + u) (j' * s - p + v)) → G n X i j = G n Y i' j') :
    LocalStep (B := B) rep l s p r := by
  refine img_local (fun n X c => G n (X c)) (fun n => (size n).getD 0) ?_ fun n X Y i j i' j' hi hj hi' hj' h c => hG n _ _ i j i' j' hi hj hi' hj' (h c)
  intro n x hx hxt junk hj x' e
  rw [hfw] at e
  obtain ⟨m, hm, e⟩ := Option.bind_eq_some_iff.1 e
  obtain ⟨y, e0, rfl⟩ := Option.map_eq_some_iff.1 e
  rw [hin] at hxt
  rw [channelwise, if_pos hxt] at e0
  obtain ⟨e1, rfl⟩ := mkGT_eq_some.1 e0
  refine ⟨by rw [hm]; rfl, ⟨hxt ▸ hx.1, e1⟩, hout.symm, fun i hi => hsz n m i hm hi, fun b c i j hc hi hj => ?_⟩
  rw [hout, ← hxt, ← hx.2] at hc
  rw [chanImg_in hi hj]
  simp only [List.getD_eq_getElem?_getD, List.getElem?_map, List.getElem?_eq_getElem hc, Option.map_some, Option.getD_some]
  rw [hf n m hm]
  congr 1
  funext i j
  unfold chanImg
  rw [List.getD_eq_getElem?_getD, List.getElem?_eq_getElem hc, Option.getD_some]

theorem axisPix_inside {n p k s d i : ℕ} (hi : Inside n s p (d * (k - 1) + 1) i) : (axisPix n p k s d i).map Fin.val = (List.range k).map fun a => i * s - p + a * d := by
  unfold axisPix
  rw [List.map_filterMap]
  rw [← List.filterMap_eq_map]
  refine List.filterMap_congr fun a ha => ?_
  have ha := window_lt (d := d) (List.mem_range.1 ha)
  obtain ⟨h1, h2⟩ := hi
  rw [dif_pos ⟨by omega, by omega⟩]
  simp only [Option.map_some, Function.comp_apply]
  congr 1
  omega

theorem windowPix_inside {n p k s d i j : ℕ} (hi : Inside n s p (d * (k - 1) + 1) i) (hj : Inside n s p (d * (k - 1) + 1) j) (X : Img) :
    (windowPix n p k s d i j).map (fun u => X u.1 u.2) = (List.range k).flatMap fun a => (List.range k).map fun b => X (i * s - p + a * d) (j * s - p + b * d) := by
  unfold windowPix
  rw [List.map_flatMap]
  have h1 : ∀ u : Fin n, ((axisPix n p k s d j).map fun v => (u, v)).map (fun u => X u.1 u.2) = (List.range k).map fun b => X u (j * s - p + b * d) := by
    intro u
    rw [List.map_map]
    have := congrArg (List.map (X u)) (axisPix_inside hj)
    rw [List.map_map, List.map_map] at this
    exact this
  simp only [h1]
  have := congrArg (List.flatMap fun u => (List.range k).map fun b => X u (j * s - p + b * d)) (axisPix_inside hi)
  rw [List.flatMap_map, List.flatMap_map] at this
  exact this

theorem maxWindow_congr {n p k s d : ℕ} {X Y : Img} {i j i' j' : ℕ} (hi : Inside n s p (d * (k - 1) + 1) i) (hj : Inside n s p (d * (k - 1) + 1) j)
    (hi' : Inside n s p (d * (k - 1) + 1) i') (hj' : Inside n s p (d * (k - 1) + 1) j')
    (h : ∀ u v, u < d * (k - 1) + 1 → v < d * (k - 1) + 1 → X (i * s - p + u) (j * s - p + v) = Y (i' * s - p + u) (j' * s - p + v)) :
    (windowPix n p k s d i j).map (fun u => X u.1 u.2) = (windowPix n p k s d i' j').map fun u => Y u.1 u.2 := by
  rw [windowPix_inside hi hj, windowPix_inside hi' hj']
  refine List.flatMap_congr fun a ha => List.map_congr_left fun b hb => ?_
  exact h _ _ (window_lt (List.mem_range.1 ha)) (window_lt (List.mem_range.1 hb))

theorem maxPool2d_eq {n p k s d m : ℕ} (v : Pix B n → ℝ) (b : B) (i j : Fin m) :
    maxPool2d n p k s d m v (b, i, j) = maxVal ((windowPix n p k s d i j).map fun u => readZ n 0 v b u.1 u.2) := by
  unfold maxPool2d
  congr 1
  refine List.map_congr_left fun u _ => ?_
  unfold readZ
  rw [dif_pos ⟨⟨Nat.zero_le _, by simp⟩, Nat.zero_le _, by simp⟩]
  rfl

/-- The entry of the padded image. -/
noncomputable def padded (p : ℕ) (X : Img) (u w : ℕ) : ℝ := if p ≤ u ∧ p ≤ w then X (u - p) (w - p) else 0

theorem padded_inside {n s p r i j i' j' a b : ℕ} {X Y : Img} (hi : Inside n s p r i) (hj : Inside n s p r j) (hi' : Inside n s p r i') (hj' : Inside n s p r j')
    (ha : a < r) (hb : b < r) (h : ∀ u v, u < r → v < r → X (i * s - p + u) (j * s - p + v) = Y (i' * s - p + u) (j' * s - p + v)) :
    padded p X (i * s + a) (j * s + b) = padded p Y (i' * s + a) (j' * s + b) := by
  have h1 := hi.1; have h2 := hj.1; have h3 := hi'.1; have h4 := hj'.1
  unfold padded
  rw [if_pos (by omega), if_pos (by omega), Nat.sub_add_comm h1, Nat.sub_add_comm h2, Nat.sub_add_comm h3, Nat.sub_add_comm h4]
  exact h a b ha hb

end E2
