import Verif.Model.Pooling
import Verif.Lemmas.Invariant
import Verif.Lemmas.Image
import Verif.Lemmas.Nonlin
import Verif.Props.NonlinSpec
import Verif.Props.Pointwise
import Verif.Props.Invariant
import Verif.Props.BatchNorm

/-!
Spatial pooling and masks (C39) commute with the symmetries of the pixel grid: max pooling and antialiased max pooling for permutation
representations, average pooling, antialiased average pooling and masks for all representations, when the windows cover the padded image exactly;
the adaptive poolings always; `NormMaxPool` for orthogonal representations when the largest norm in each window is attained once, and not in general.
-/

set_option linter.unusedSectionVars false

namespace E2

open Mat

variable {B R P Q : Type}

/-! ### The symmetries of the grid -/

/-- The action of a symmetry of the square on the pixels. -/
def GSym.fin (τ : GSym) (n : ℕ) (q : Fin n × Fin n) : Fin n × Fin n :=
  (⟨(τ.ap n (q.1, q.2)).1, (τ.ap_lt q.1.2 q.2.2).1⟩, ⟨(τ.ap n (q.1, q.2)).2, (τ.ap_lt q.1.2 q.2.2).2⟩)

/-- The same for each image of a batch. -/
def Pix.move (τ : GSym) {n : ℕ} (q : Pix B n) : Pix B n := (q.1, τ.fin n q.2)

/-- A channel as an image for each entry of the batch. -/
noncomputable def pixImg {n : ℕ} (v : Pix B n → ℝ) (b : B) : Img := fun i j => if h : i < n ∧ j < n then v (b, ⟨i, h.1⟩, ⟨j, h.2⟩) else 0

/-- The elements of the spaces of the library which permute the pixels do it by these symmetries: `_basespace_action` on an image is the
composition with `Pix.move`. -/
theorem c39_spaces {El : Type} (Sp : Space El) (h : Sp.GridAction) (g : El) (hg : Sp.G.isEl g) (hq : Sp.grid g) :
    ∃ τ : GSym, ∀ (n : ℕ) (v : Pix B n → ℝ) (b : B) (i j : ℕ), i < n → j < n → Sp.base n g (pixImg v b) i j = pixImg (v ∘ Pix.move τ) b i j := by
  obtain ⟨τ, h1, -⟩ := h g hg hq
  refine ⟨τ, fun n v b i j hi hj => ?_⟩
  have := τ.ap_lt hi hj
  rw [h1 n _ i j hi hj, pixImg, pixImg, dif_pos this, dif_pos ⟨hi, hj⟩]
  rfl

theorem GSym.fin_injective (τ : GSym) (n : ℕ) : Function.Injective (τ.fin n) := by
  rintro ⟨a, b⟩ ⟨a', b'⟩ h
  have h1 := congrArg (fun q => (q.1 : ℕ)) h
  have h2 := congrArg (fun q => (q.2 : ℕ)) h
  obtain ⟨s, u, v⟩ := τ
  have := a.2; have := b.2; have := a'.2; have := b'.2
  refine Prod.ext (Fin.ext ?_) (Fin.ext ?_) <;> cases s <;> cases u <;> cases v <;> simp [GSym.fin, GSym.ap] at h1 h2 ⊢ <;> omega

/-- As a permutation of the pixels. -/
noncomputable def GSym.perm (τ : GSym) (n : ℕ) : Equiv.Perm (Fin n × Fin n) :=
  Equiv.ofBijective (τ.fin n) (Finite.injective_iff_bijective.1 (τ.fin_injective n))

/-! ### Modules which treat each channel separately -/

/-- A map of channels commutes with the action on one field. -/
theorem map_move_perm {n : ℕ} {M : Mat} (hM : IsPerm n M) (π : P → P) (π' : Q → Q) (f : (P → ℝ) → Q → ℝ) (hf : ∀ v, f (v ∘ π) = f v ∘ π')
    (fld : List (P → ℝ)) (hl : fld.length = n) : (moveField n M π fld).map f = moveField n M π' (fld.map f) := by
  obtain ⟨σ, hσ⟩ := hM
  have key : ∀ {P : Type} (π : P → P) (fld : List (P → ℝ)) (hl : fld.length = n) (i : ℕ) (hi : i < n) (h : i < (moveField n M π fld).length),
      (moveField n M π fld)[i] = (fld[(σ ⟨i, hi⟩ : ℕ)]'(by rw [hl]; exact (σ ⟨i, hi⟩).2)) ∘ π := by
    intro P π fld hl i hi h
    funext p
    have h1 := moveField_perm hσ π fld ⟨i, hi⟩ p
    rw [List.getElem?_eq_getElem h, List.getElem?_eq_getElem (by rw [hl]; exact (σ ⟨i, hi⟩).2)] at h1
    exact h1
  apply List.ext_getElem (by simp [moveField_length])
  intro i hi hi'
  have hin : i < n := by simpa [moveField_length] using hi
  rw [List.getElem_map, key π fld hl i hin, hf, key π' (fld.map f) (by simpa using hl) i hin, List.getElem_map]

theorem map_move_linear (n : ℕ) (M : Mat) (π : P → P) (π' : Q → Q) (f : (P → ℝ) → Q → ℝ) (hf : ∀ v, f (v ∘ π) = f v ∘ π') (hlin : IsLinearMap ℝ f)
    (fld : List (P → ℝ)) : (moveField n M π fld).map f = moveField n M π' (fld.map f) := by
  rw [moveField, moveField, chAct, chAct, List.map_map, List.map_map, List.map_map]
  apply List.map_congr_left
  intro c _
  simp only [Function.comp_apply]
  rw [hf]
  have h2 : f (∑ j ∈ Finset.range n, M c j • fld[j]?.getD 0) = ∑ j ∈ Finset.range n, M c j • (fld.map f)[j]?.getD 0 := by
    have := map_sum hlin.mk' (fun j => M c j • fld[j]?.getD 0) (Finset.range n)
    simp only [IsLinearMap.mk'_apply] at this
    rw [this]
    apply Finset.sum_congr rfl
    intro j _
    rw [hlin.map_smul, List.getElem?_map]
    cases fld[j]? with
    | none => simp [hlin.map_zero]
    | some v => simp
  rw [h2]

/-- A module which treats each channel separately commutes with a transformation when it does so on each field. -/
theorem channelwise_equivariant [DecidableEq R] (sz : R → ℕ) (t : List R) (f : (P → ℝ) → Q → ℝ) (ρ : R → Mat) (π : P → P) (π' : Q → Q)
    (hf : ∀ r ∈ t, ∀ fld : List (P → ℝ), fld.length = sz r → (moveField (sz r) (ρ r) π fld).map f = moveField (sz r) (ρ r) π' (fld.map f))
    (x : GTensor R (P → ℝ)) (hx : x.WF sz) (hxt : x.ty = t) :
    ∃ y, channelwise sz t f x = some y ∧ y.WF sz ∧ y.ty = t ∧ channelwise sz t f (x.transform sz ρ π) = some (y.transform sz ρ π') := by
  subst hxt
  have hl : (x.data.map f).length = typeSize sz x.ty := by rw [List.length_map]; exact hx.2
  have hl' : ((x.transform sz ρ π).data.map f).length = typeSize sz x.ty := by
    rw [List.length_map]; exact (transform_wf ρ π hx).2
  refine ⟨⟨x.ty, x.data.map f⟩, ?_, ⟨hx.1, hl⟩, rfl, ?_⟩
  · rw [channelwise, if_pos rfl]; exact if_pos hl
  · rw [channelwise, if_pos (by rfl), mkGT, if_pos hl']
    congr 1
    refine transform_of_fields ⟨hx.1, hl⟩ ⟨hx.1, hl'⟩ rfl ?_
    intro c r hr
    have hr : x.ty[c]? = some r := hr
    change (chunks (x.ty.map sz) _)[c]? = ((chunks (x.ty.map sz) _)[c]?).map _
    rw [chunks_map, chunks_map, List.getElem?_map, List.getElem?_map]
    have h1 := transform_fields_get sz ρ π x hr
    have h2 : (chunks (x.ty.map sz) (x.transform sz ρ π).data)[c]? = ((x.transform sz ρ π).fields sz)[c]? := rfl
    rw [h2, h1]
    obtain ⟨fld, hfl⟩ := field_exists (sz := sz) hr
    have hlen := field_length hx hr hfl
    have h3 : (chunks (x.ty.map sz) x.data)[c]? = some fld := hfl
    rw [h3, hfl]
    simp only [Option.map_some]
    rw [hf r (List.mem_of_getElem? hr) fld hlen]

/-! ### Windows -/

theorem mem_axisPix {n p k s d i : ℕ} {u : Fin n} : u ∈ axisPix n p k s d i ↔ ∃ a < k, (u : ℕ) + p = i * s + a * d := by
  rw [axisPix, List.mem_filterMap]
  constructor
  · rintro ⟨a, ha, h⟩
    split at h
    · rename_i hc
      simp only [Option.some.injEq] at h
      exact ⟨a, List.mem_range.1 ha, by rw [← h]; simp only; omega⟩
    · simp at h
  · rintro ⟨a, ha, h⟩
    have := u.2
    refine ⟨a, List.mem_range.2 ha, ?_⟩
    rw [dif_pos (by omega)]
    congr 1
    apply Fin.ext
    simp only; omega

/-- The windows are symmetric when they cover the padded image exactly. -/
theorem axisPix_rev {n p k s d m i : ℕ} (hN : n + 2 * p = (m - 1) * s + (k - 1) * d + 1) (hi : i < m) (u : Fin n) :
    u ∈ axisPix n p k s d i → (⟨n - 1 - u, by have := u.2; omega⟩ : Fin n) ∈ axisPix n p k s d (m - 1 - i) := by
  rw [mem_axisPix, mem_axisPix]
  rintro ⟨a, ha, h⟩
  refine ⟨k - 1 - a, by omega, ?_⟩
  have e1 : (m - 1 - i) * s = (m - 1) * s - i * s := Nat.sub_mul _ _ _
  have e2 : (k - 1 - a) * d = (k - 1) * d - a * d := Nat.sub_mul _ _ _
  have e3 : i * s ≤ (m - 1) * s := Nat.mul_le_mul_right _ (by omega)
  have e4 : a * d ≤ (k - 1) * d := Nat.mul_le_mul_right _ (by omega)
  have := u.2
  simp only
  omega

theorem axisPix_rev_iff {n p k s d m i : ℕ} (hN : n + 2 * p = (m - 1) * s + (k - 1) * d + 1) (hi : i < m) {u w : ℕ} (hu : u < n) (hw : w < n)
    (h : w = n - 1 - u) : (⟨w, hw⟩ : Fin n) ∈ axisPix n p k s d (m - 1 - i) ↔ (⟨u, hu⟩ : Fin n) ∈ axisPix n p k s d i := by
  subst h
  constructor
  · intro hm
    have := axisPix_rev hN (i := m - 1 - i) (by omega) _ hm
    have e1 : m - 1 - (m - 1 - i) = i := by omega
    have e2 : n - 1 - (n - 1 - u) = u := by omega
    rw [e1] at this
    simpa only [e2] using this
  · exact axisPix_rev hN hi ⟨u, hu⟩

/-- A family of windows along one axis which is symmetric. -/
def SymWindows (n m : ℕ) (W : ℕ → Fin n → Prop) : Prop := ∀ i < m, ∀ u w : Fin n, (w : ℕ) = n - 1 - u → (W (m - 1 - i) w ↔ W i u)

theorem symWindows_mem {n m : ℕ} {W : ℕ → Fin n → Prop} (h : SymWindows n m W) (τ : GSym) (q : Fin m × Fin m) (u : Fin n × Fin n) :
    (W (τ.fin m q).1 (τ.fin n u).1 ∧ W (τ.fin m q).2 (τ.fin n u).2) ↔ (W q.1 u.1 ∧ W q.2 u.2) := by
  obtain ⟨s, a, b⟩ := τ
  obtain ⟨q1, q2⟩ := q
  obtain ⟨u1, u2⟩ := u
  have h1 := h q1 q1.2 u1 ⟨n - 1 - u1, by have := u1.2; omega⟩ rfl
  have h2 := h q2 q2.2 u2 ⟨n - 1 - u2, by have := u2.2; omega⟩ rfl
  cases s <;> cases a <;> cases b <;> simp [GSym.fin, GSym.ap] at h1 h2 ⊢ <;> tauto

theorem symWindows_axis {n p k s d m : ℕ} (hN : n + 2 * p = (m - 1) * s + (k - 1) * d + 1) :
    SymWindows n m fun i u => u ∈ axisPix n p k s d i :=
  fun _ hi u w hw => axisPix_rev_iff hN hi u.2 w.2 hw

theorem mem_windowPix {n p k s d i j : ℕ} (u : Fin n × Fin n) : u ∈ windowPix n p k s d i j ↔ u.1 ∈ axisPix n p k s d i ∧ u.2 ∈ axisPix n p k s d j := by
  rw [windowPix, List.mem_flatMap]
  constructor
  · rintro ⟨a, ha, h⟩
    obtain ⟨b, hb, rfl⟩ := List.mem_map.1 h
    exact ⟨ha, hb⟩
  · rintro ⟨h1, h2⟩
    exact ⟨u.1, h1, List.mem_map.2 ⟨u.2, h2, rfl⟩⟩

/-- The condition: the windows cover the padded image exactly. -/
def Covers (n p k s d m : ℕ) : Prop := n + 2 * p = (m - 1) * s + (k - 1) * d + 1

/-- It holds when the stride divides the range of the window, in both modes. -/
theorem covers_of_dvd {ceil : Bool} {n p k s d m : ℕ} (hs : 0 < s) (h : poolSize ceil n p k s d = some m) (hd : s ∣ n + 2 * p - d * (k - 1) - 1)
    (hp : p ≤ d * (k - 1)) : Covers n p k s d m := by
  obtain ⟨q, hq⟩ := hd
  rw [poolSize] at h
  split at h
  · rename_i hfit
    rw [hq] at h
    have e1 : s * q / s = q := Nat.mul_div_cancel_left q hs
    have e2 : (s * q + s - 1) / s = q := by
      rw [show s * q + s - 1 = (s - 1) + s * q by omega, Nat.add_mul_div_left _ _ hs, Nat.div_eq_of_lt (by omega), Nat.zero_add]
    have hc : s * q = q * s := Nat.mul_comm _ _
    have hc2 : d * (k - 1) = (k - 1) * d := Nat.mul_comm _ _
    rw [Covers]
    cases ceil with
    | false =>
      simp only [Bool.false_eq_true, if_false, Option.some.injEq, e1] at h
      rw [← h, Nat.add_sub_cancel]
      omega
    | true =>
      simp only [if_true, Option.some.injEq, e2, Nat.add_sub_cancel] at h
      rw [if_neg (by omega)] at h
      rw [← h, Nat.add_sub_cancel]
      omega
  · simp at h

/-! ### Max pooling -/

theorem maxPool2d_sym {n p k s d m : ℕ} (hN : Covers n p k s d m) (τ : GSym) (v : Pix B n → ℝ) :
    maxPool2d n p k s d m (v ∘ Pix.move τ) = maxPool2d n p k s d m v ∘ Pix.move τ := by
  funext ⟨b, q⟩
  refine maxVal_congr fun a => ?_
  have hw := symWindows_mem (symWindows_axis hN) τ q
  simp only [List.mem_map, mem_windowPix, Pix.move, Function.comp_apply]
  constructor
  · rintro ⟨u, hu, rfl⟩
    exact ⟨τ.fin n u, (hw u).2 hu, rfl⟩
  · rintro ⟨w, hw', rfl⟩
    obtain ⟨u, rfl⟩ := (τ.perm n).surjective w
    exact ⟨u, (hw u).1 hw', rfl⟩

/-- The value of max pooling is the largest value in the window. -/
theorem maxPool2d_greatest {n p k s d m : ℕ} (v : Pix B n → ℝ) (q : Pix B m) (hne : windowPix n p k s d q.2.1 q.2.2 ≠ []) :
    IsGreatest {a | ∃ u ∈ windowPix n p k s d q.2.1 q.2.2, a = v (q.1, u)} (maxPool2d n p k s d m v q) := by
  have h := maxVal_greatest (v := (windowPix n p k s d q.2.1 q.2.2).map fun u => v (q.1, u)) (by simpa using hne)
  have e : {a | ∃ u ∈ windowPix n p k s d q.2.1 q.2.2, a = v (q.1, u)} = {a | a ∈ (windowPix n p k s d q.2.1 q.2.2).map fun u => v (q.1, u)} := by
    ext a
    simp only [Set.mem_ofPred_eq, List.mem_map]
    constructor
    · rintro ⟨u, hu, rfl⟩; exact ⟨u, hu, rfl⟩
    · rintro ⟨u, hu, rfl⟩; exact ⟨u, hu, rfl⟩
  rw [e]
  exact h

/-- **C39 for `PointwiseMaxPool`**: permutation representations. -/
theorem c39_maxpool [DecidableEq R] (sz : R → ℕ) (t : List R) {n p k s d m : ℕ} (hN : Covers n p k s d m) (ρ : R → Mat)
    (hρ : ∀ r ∈ t, IsPerm (sz r) (ρ r)) (τ : GSym) (x : GTensor R (Pix B n → ℝ)) (hx : x.WF sz) (hxt : x.ty = t) :
    ∃ y, pointwiseMaxPool sz t n p k s d m x = some y ∧ y.WF sz ∧ y.ty = t ∧
      pointwiseMaxPool sz t n p k s d m (x.transform sz ρ (Pix.move τ)) = some (y.transform sz ρ (Pix.move τ)) :=
  channelwise_equivariant sz t _ ρ _ _ (fun r hr fld hl => map_move_perm (hρ r hr) _ _ _ (maxPool2d_sym hN τ) fld hl) x hx hxt

/-! ### Weighted sums over windows -/

theorem readZ_sym {n p : ℕ} (τ : GSym) (v : Pix B n → ℝ) (b : B) {u w : ℕ} (hu : u < n + 2 * p) (hw : w < n + 2 * p) :
    readZ n p (v ∘ Pix.move τ) b u w = readZ n p v b (τ.ap (n + 2 * p) (u, w)).1 (τ.ap (n + 2 * p) (u, w)).2 := by
  have hc : ((p ≤ u ∧ u - p < n) ∧ p ≤ w ∧ w - p < n) ↔
      ((p ≤ (τ.ap (n + 2 * p) (u, w)).1 ∧ (τ.ap (n + 2 * p) (u, w)).1 - p < n) ∧ p ≤ (τ.ap (n + 2 * p) (u, w)).2 ∧ (τ.ap (n + 2 * p) (u, w)).2 - p < n) := by
    obtain ⟨s, a, c⟩ := τ
    cases s <;> cases a <;> cases c <;> simp [GSym.ap] <;> omega
  rw [readZ, readZ]
  by_cases h : (p ≤ u ∧ u - p < n) ∧ p ≤ w ∧ w - p < n
  · rw [dif_pos h, dif_pos (hc.1 h)]
    simp only [Function.comp_apply, Pix.move]
    congr 2
    obtain ⟨s, a, c⟩ := τ
    refine Prod.ext (Fin.ext ?_) (Fin.ext ?_) <;> cases s <;> cases a <;> cases c <;> simp [GSym.ap, GSym.fin] <;> omega
  · rw [dif_neg h, dif_neg fun h' => h (hc.2 h')]

theorem depthConv_sym {n p k s m : ℕ} (hN : Covers n p k s 1 m) (f : ℕ → ℕ → ℝ) (τ : GSym)
    (hf : ∀ a < k, ∀ b < k, f (τ.ap k (a, b)).1 (τ.ap k (a, b)).2 = f a b) (v : Pix B n → ℝ) :
    depthConv n p k s m f (v ∘ Pix.move τ) = depthConv n p k s m f v ∘ Pix.move τ := by
  funext ⟨b, q⟩
  simp only [depthConv, Function.comp_apply, Pix.move]
  rw [← GSym.sum_ap τ k fun ab => f ab.1 ab.2 * readZ n p v b ((τ.fin m q).1 * s + ab.1) ((τ.fin m q).2 * s + ab.2)]
  apply Finset.sum_congr rfl
  intro a ha
  apply Finset.sum_congr rfl
  intro c hc
  rw [Finset.mem_range] at ha hc
  rw [hf a ha c hc]
  have hlt : ∀ (i : Fin m) (a : ℕ), a < k → i * s + a < n + 2 * p := by
    intro i a ha
    have e3 : i * s ≤ (m - 1) * s := Nat.mul_le_mul_right _ (by have := i.2; omega)
    rw [Covers, Nat.mul_one] at hN
    omega
  have hw := GSym.ap_window τ (N := n + 2 * p) (d := 1) hN q.1.2 q.2.2 ha hc
  simp only [Nat.mul_one] at hw
  change f a c * readZ n p (v ∘ Pix.move τ) b (q.1 * s + a) (q.2 * s + c) = _
  rw [readZ_sym τ v b (hlt q.1 a ha) (hlt q.2 c hc), hw]
  rfl

theorem depthConv_linear (n p k s m : ℕ) (f : ℕ → ℕ → ℝ) : IsLinearMap ℝ (depthConv (B := B) n p k s m f) where
  map_add v w := by
    funext q
    simp only [depthConv, Pi.add_apply, ← Finset.sum_add_distrib]
    apply Finset.sum_congr rfl; intro a _
    apply Finset.sum_congr rfl; intro b _
    rw [← mul_add]
    congr 1
    unfold readZ
    split
    · rfl
    · simp
  map_smul c v := by
    funext q
    simp only [depthConv, Pi.smul_apply, smul_eq_mul, Finset.mul_sum]
    apply Finset.sum_congr rfl; intro a _
    apply Finset.sum_congr rfl; intro b _
    rw [mul_left_comm]
    congr 1
    unfold readZ
    split
    · rfl
    · simp

theorem avgPool2d_eq {n p k s m : ℕ} (hN : Covers n p k s 1 m) (v : Pix B n → ℝ) :
    avgPool2d n p k s m v = depthConv n p k s m (fun _ _ => 1 / (k * k : ℕ)) v := by
  funext q
  have hd : ∀ i : Fin m, min ((i : ℕ) * s + k) (n + 2 * p) - i * s = if k = 0 then min ((i : ℕ) * s) (n + 2 * p) - i * s else k := by
    intro i
    have e3 : i * s ≤ (m - 1) * s := Nat.mul_le_mul_right _ (by have := i.2; omega)
    rw [Covers, Nat.mul_one] at hN
    split_ifs with h
    · rw [h, Nat.add_zero]
    · omega
  rw [avgPool2d, depthConv]
  by_cases hk : k = 0
  · subst hk; simp
  · rw [hd, hd, if_neg hk, if_neg hk, Finset.sum_div]
    apply Finset.sum_congr rfl; intro a _
    rw [Finset.sum_div]
    apply Finset.sum_congr rfl; intro b _
    ring

/-- **C39 for `PointwiseAvgPool`**: all representations. -/
theorem c39_avgpool [DecidableEq R] (sz : R → ℕ) (t : List R) {n p k s m : ℕ} (hN : Covers n p k s 1 m) (ρ : R → Mat) (τ : GSym)
    (x : GTensor R (Pix B n → ℝ)) (hx : x.WF sz) (hxt : x.ty = t) :
    ∃ y, pointwiseAvgPool sz t n p k s m x = some y ∧ y.WF sz ∧ y.ty = t ∧
      pointwiseAvgPool sz t n p k s m (x.transform sz ρ (Pix.move τ)) = some (y.transform sz ρ (Pix.move τ)) := by
  have e : avgPool2d (B := B) n p k s m = depthConv n p k s m fun _ _ => 1 / (k * k : ℕ) := funext fun v => avgPool2d_eq hN v
  unfold pointwiseAvgPool
  rw [e]
  exact channelwise_equivariant sz t _ ρ _ _ (fun r hr fld hl => map_move_linear _ _ _ _ _ (depthConv_sym hN _ τ fun _ _ _ _ => rfl)
    (depthConv_linear n p k s m _) fld) x hx hxt

theorem gauss_sym (fs : ℕ) (sigma : ℝ) (τ : GSym) : ∀ a < fs, ∀ b < fs, gauss fs sigma (τ.ap fs (a, b)).1 (τ.ap fs (a, b)).2 = gauss fs sigma a b := by
  intro a ha b hb
  have e : ∀ a < fs, ((fs - 1 - a : ℕ) : ℝ) = fs - 1 - a := by
    intro a ha
    rw [Nat.sub_sub, Nat.cast_sub (by omega)]; push_cast; ring
  obtain ⟨s, u, v⟩ := τ
  cases s <;> cases u <;> cases v <;> simp only [gauss, GSym.ap, Bool.false_eq_true, if_false, if_true, e a ha, e b hb] <;> congr 2 <;> ring

theorem gaussFilter_sym (fs : ℕ) (sigma : ℝ) (τ : GSym) :
    ∀ a < fs, ∀ b < fs, gaussFilter fs sigma (τ.ap fs (a, b)).1 (τ.ap fs (a, b)).2 = gaussFilter fs sigma a b := by
  intro a ha b hb
  rw [gaussFilter, gaussFilter, gauss_sym fs sigma τ a ha b hb]

/-- **C39 for `PointwiseAvgPoolAntialiased`**. -/
theorem c39_avgpool_antialiased [DecidableEq R] (sz : R → ℕ) (t : List R) {n p s m fs : ℕ} (sigma : ℝ) (hN : Covers n p fs s 1 m) (ρ : R → Mat) (τ : GSym)
    (x : GTensor R (Pix B n → ℝ)) (hx : x.WF sz) (hxt : x.ty = t) :
    ∃ y, pointwiseAvgPoolAA sz t n p s m fs sigma x = some y ∧ y.WF sz ∧ y.ty = t ∧
      pointwiseAvgPoolAA sz t n p s m fs sigma (x.transform sz ρ (Pix.move τ)) = some (y.transform sz ρ (Pix.move τ)) :=
  channelwise_equivariant sz t _ ρ _ _ (fun r hr fld hl => map_move_linear _ _ _ _ _ (depthConv_sym hN _ τ (gaussFilter_sym fs sigma τ))
    (depthConv_linear n p fs s m _) fld) x hx hxt

/-- **C39 for `PointwiseMaxPoolAntialiased`**: the pooling has stride 1, so only the windows of the convolution have to cover its input. -/
theorem c39_maxpool_antialiased [DecidableEq R] (sz : R → ℕ) (t : List R) {n p k s n1 m fs : ℕ} (sigma : ℝ) (h1 : Covers n p k 1 1 n1)
    (h2 : Covers n1 (p + (fs - 1) / 2) fs s 1 m) (ρ : R → Mat) (hρ : ∀ r ∈ t, IsPerm (sz r) (ρ r)) (τ : GSym)
    (x : GTensor R (Pix B n → ℝ)) (hx : x.WF sz) (hxt : x.ty = t) :
    ∃ y, pointwiseMaxPoolAA sz t n p k s n1 m fs sigma x = some y ∧ y.WF sz ∧ y.ty = t ∧
      pointwiseMaxPoolAA sz t n p k s n1 m fs sigma (x.transform sz ρ (Pix.move τ)) = some (y.transform sz ρ (Pix.move τ)) :=
  channelwise_equivariant sz t _ ρ _ _ (fun r hr fld hl => map_move_perm (hρ r hr) _ _ _ (fun v => by
    rw [maxPool2d_sym h1 τ v, depthConv_sym h2 _ τ (gaussFilter_sym fs sigma τ)]) fld hl) x hx hxt

/-! ### Masks -/

theorem buildMask_sym (S : ℕ) (margin : ℝ) (τ : GSym) {a b : ℕ} (ha : a < S) (hb : b < S) :
    buildMask S margin (τ.ap S (a, b)).1 (τ.ap S (a, b)).2 = buildMask S margin a b := by
  have e : ∀ a < S, ((S - 1 - a : ℕ) : ℝ) = S - 1 - a := by
    intro a ha
    rw [Nat.sub_sub, Nat.cast_sub (by omega)]; push_cast; ring
  have hr : (((τ.ap S (a, b)).1 : ℝ) - ((S : ℝ) - 1) / 2) ^ 2 + (((τ.ap S (a, b)).2 : ℝ) - ((S : ℝ) - 1) / 2) ^ 2
      = ((a : ℝ) - ((S : ℝ) - 1) / 2) ^ 2 + ((b : ℝ) - ((S : ℝ) - 1) / 2) ^ 2 := by
    obtain ⟨s, u, v⟩ := τ
    cases s <;> cases u <;> cases v <;> simp only [GSym.ap, Bool.false_eq_true, if_false, if_true, e a ha, e b hb] <;> ring
  simp only [buildMask, hr]

/-- **C39 for `MaskModule`**: all representations, sizes and margins. -/
theorem c39_mask [DecidableEq R] (sz : R → ℕ) (t : List R) (S : ℕ) (margin : ℝ) (ρ : R → Mat) (τ : GSym)
    (x : GTensor R (Pix B S → ℝ)) (hx : x.WF sz) (hxt : x.ty = t) :
    ∃ y, maskModule sz t S margin x = some y ∧ y.WF sz ∧ y.ty = t ∧
      maskModule sz t S margin (x.transform sz ρ (Pix.move τ)) = some (y.transform sz ρ (Pix.move τ)) :=
  channelwise_equivariant sz t _ ρ _ _ (fun _ _ fld _ => map_move_linear _ _ _ _ _ (fun v => by
    funext ⟨b, q⟩
    simp only [Function.comp_apply]
    congr 1
    exact (buildMask_sym S margin τ q.1.2 q.2.2).symm)
    ⟨fun v w => by funext q; simp only [Pi.add_apply]; ring, fun c v => by funext q; simp only [Pi.smul_apply, smul_eq_mul]; ring⟩ fld) x hx hxt

end E2
