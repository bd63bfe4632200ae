import Verif.Props.Pooling
import Verif.Props.PointwiseGroups
import Mathlib.Algebra.BigOperators.Group.Finset.Sigma

/-!
The adaptive poolings and `NormMaxPool` (C39), the examples, and the failure of `NormMaxPool` on ties.
-/

set_option linter.unusedSectionVars false

namespace E2

open Mat

variable {B R P Q : Type}

/-! ### Adaptive pooling -/

theorem floor_compl {m n A : ℕ} (hm : 0 < m) (hA : A ≤ m * n) : (m * n - A) / m = n - (A + m - 1) / m := by
  have h1 := Nat.div_mul_le_self (A + m - 1) m
  have h2 := Nat.lt_div_mul_add (a := A + m - 1) hm
  set c := (A + m - 1) / m with hc
  have hcn : c ≤ n := by
    by_contra h
    have : (n + 1) * m ≤ c * m := Nat.mul_le_mul_right _ (by omega)
    have e : (n + 1) * m = m * n + m := by ring
    omega
  have e1 : (n - c) * m = m * n - c * m := by rw [Nat.sub_mul, Nat.mul_comm n m]
  have e3 : c * m ≤ m * n := by rw [Nat.mul_comm m n]; exact Nat.mul_le_mul_right _ hcn
  have e2 : (n - c + 1) * m = (n - c) * m + m := by ring
  exact Nat.div_eq_of_lt_le (by omega) (by rw [e2]; omega)

theorem ceil_compl {m n A : ℕ} (hm : 0 < m) (hA : A ≤ m * n) : (m * n - A + m - 1) / m = n - A / m := by
  have h := floor_compl (n := n) (A := m * n - A) hm (by omega)
  have e : m * n - (m * n - A) = A := by omega
  rw [e] at h
  have hle : (m * n - A + m - 1) / m ≤ n := by
    rw [Nat.div_le_iff_le_mul_add_pred hm]
    omega
  rw [h]
  generalize (m * n - A + m - 1) / m = c at hle ⊢
  omega

theorem adaptiveStart_rev {n m i : ℕ} (hi : i < m) : adaptiveStart n m (m - 1 - i) = n - adaptiveEnd n m i := by
  have e : (m - 1 - i) * n = m * n - (i + 1) * n := by rw [← Nat.sub_mul]; congr 1; omega
  rw [adaptiveStart, adaptiveEnd, e]
  exact floor_compl (by omega) (Nat.mul_le_mul_right _ hi)

theorem adaptiveEnd_rev {n m i : ℕ} (hi : i < m) : adaptiveEnd n m (m - 1 - i) = n - adaptiveStart n m i := by
  have e : (m - 1 - i + 1) * n = m * n - i * n := by rw [← Nat.sub_mul]; congr 1; omega
  rw [adaptiveStart, adaptiveEnd, e]
  exact ceil_compl (by omega) (Nat.mul_le_mul_right _ hi.le)

theorem adaptiveEnd_le {n m i : ℕ} (hi : i < m) : adaptiveEnd n m i ≤ n := by
  rw [adaptiveEnd, Nat.div_le_iff_le_mul_add_pred (by omega)]
  have := Nat.mul_le_mul_right n (show i + 1 ≤ m by omega)
  omega

theorem mem_adaptivePix {n m i : ℕ} {u : Fin n} : u ∈ adaptivePix n m i ↔ adaptiveStart n m i ≤ u ∧ (u : ℕ) < adaptiveEnd n m i := by
  simp [adaptivePix]

theorem symWindows_adaptive (n m : ℕ) : SymWindows n m fun i u => u ∈ adaptivePix n m i := by
  intro i hi u w hw
  have h1 := adaptiveEnd_le (n := n) hi
  have h2 : adaptiveStart n m i ≤ n := by
    rw [adaptiveStart]
    exact Nat.div_le_of_le_mul (Nat.mul_le_mul_right _ hi.le)
  have := u.2
  change w ∈ adaptivePix n m (m - 1 - i) ↔ u ∈ adaptivePix n m i
  rw [mem_adaptivePix, mem_adaptivePix, adaptiveStart_rev hi, adaptiveEnd_rev hi, hw]
  omega

theorem adaptiveMax_sym (n m : ℕ) (τ : GSym) (v : Pix B n → ℝ) : adaptiveMax n m (v ∘ Pix.move τ) = adaptiveMax n m v ∘ Pix.move τ := by
  funext ⟨b, q⟩
  refine maxVal_congr fun a => ?_
  have hw := symWindows_mem (symWindows_adaptive n m) τ q
  simp only [List.mem_flatMap, List.mem_map, Function.comp_apply]
  constructor
  · rintro ⟨u, hu, w, hw', rfl⟩
    have h := (hw (u, w)).2 ⟨hu, hw'⟩
    exact ⟨_, h.1, _, h.2, rfl⟩
  · rintro ⟨u, hu, w, hw', rfl⟩
    obtain ⟨z, hz⟩ := (τ.perm n).surjective (u, w)
    have hz' : τ.fin n z = (u, w) := hz
    have h := (hw z).1 (by rw [hz']; exact ⟨hu, hw'⟩)
    refine ⟨z.1, h.1, z.2, h.2, ?_⟩
    change v (b, τ.fin n z) = v (b, u, w)
    rw [hz']

/-- The size of the window along one axis is the same after a reflection. -/
theorem adaptive_count {n m : ℕ} (i : ℕ) (hi : i < m) :
    adaptiveEnd n m (m - 1 - i) - adaptiveStart n m (m - 1 - i) = adaptiveEnd n m i - adaptiveStart n m i := by
  have h1 := adaptiveEnd_le (n := n) hi
  rw [adaptiveStart_rev hi, adaptiveEnd_rev hi]
  omega

theorem adaptiveAvg_sym (n m : ℕ) (τ : GSym) (v : Pix B n → ℝ) : adaptiveAvg n m (v ∘ Pix.move τ) = adaptiveAvg n m v ∘ Pix.move τ := by
  funext ⟨b, q⟩
  have hw := symWindows_mem (symWindows_adaptive n m) τ q
  simp only [adaptiveAvg, Function.comp_apply, Pix.move]
  congr 1
  · rw [← Finset.sum_product', ← Finset.sum_product']
    refine Finset.sum_bij (fun z _ => τ.fin n z) ?_ ?_ ?_ ?_
    · intro z hz
      simp only [Finset.mem_product, List.mem_toFinset] at hz ⊢
      exact (hw z).2 hz
    · intro z _ z' _ h
      exact τ.fin_injective n h
    · intro z hz
      obtain ⟨u, rfl⟩ := (τ.perm n).surjective z
      simp only [Finset.mem_product, List.mem_toFinset] at hz
      refine ⟨u, ?_, rfl⟩
      simp only [Finset.mem_product, List.mem_toFinset]
      exact (hw u).1 hz
    · intro z _
      rfl
  · have h1 := adaptive_count (n := n) (m := m) q.1 q.1.2
    have h2 := adaptive_count (n := n) (m := m) q.2 q.2.2
    congr 1
    obtain ⟨s, u, w⟩ := τ
    cases s <;> cases u <;> cases w <;> simp only [GSym.fin, GSym.ap, Bool.false_eq_true, if_false, if_true, h1, h2] <;> ring

theorem adaptiveAvg_linear (n m : ℕ) : IsLinearMap ℝ (adaptiveAvg (B := B) n m) where
  map_add v w := by
    funext q
    simp only [adaptiveAvg, Pi.add_apply, Finset.sum_add_distrib, add_div]
  map_smul c v := by
    funext q
    simp only [adaptiveAvg, Pi.smul_apply, smul_eq_mul, ← Finset.mul_sum, mul_div_assoc]

/-- **C39 for `PointwiseAdaptiveAvgPool`**: all representations and all sizes. -/
theorem c39_adaptive_avg [DecidableEq R] (sz : R → ℕ) (t : List R) (n m : ℕ) (ρ : R → Mat) (τ : GSym) (x : GTensor R (Pix B n → ℝ)) (hx : x.WF sz)
    (hxt : x.ty = t) :
    ∃ y, pointwiseAdaptiveAvg sz t n m x = some y ∧ y.WF sz ∧ y.ty = t ∧
      pointwiseAdaptiveAvg sz t n m (x.transform sz ρ (Pix.move τ)) = some (y.transform sz ρ (Pix.move τ)) :=
  channelwise_equivariant sz t _ ρ _ _ (fun _ _ fld _ => map_move_linear _ _ _ _ _ (adaptiveAvg_sym n m τ) (adaptiveAvg_linear n m) fld) x hx hxt

/-- **C39 for `PointwiseAdaptiveMaxPool`**: permutation representations, all sizes. -/
theorem c39_adaptive_max [DecidableEq R] (sz : R → ℕ) (t : List R) (n m : ℕ) (ρ : R → Mat) (hρ : ∀ r ∈ t, IsPerm (sz r) (ρ r)) (τ : GSym)
    (x : GTensor R (Pix B n → ℝ)) (hx : x.WF sz) (hxt : x.ty = t) :
    ∃ y, pointwiseAdaptiveMax sz t n m x = some y ∧ y.WF sz ∧ y.ty = t ∧
      pointwiseAdaptiveMax sz t n m (x.transform sz ρ (Pix.move τ)) = some (y.transform sz ρ (Pix.move τ)) :=
  channelwise_equivariant sz t _ ρ _ _ (fun r hr fld hl => map_move_perm (hρ r hr) _ _ _ (adaptiveMax_sym n m τ) fld hl) x hx hxt

/-! ### Pooling by the norm -/

theorem argmaxPix_unique {n : ℕ} (norm : Fin n × Fin n → ℝ) (l : List (Fin n × Fin n)) (u : Fin n × Fin n) (hu : u ∈ l)
    (h : ∀ w ∈ l, w ≠ u → norm w < norm u) : argmaxPix norm l = some u := by
  classical
  cases l with
  | nil => simp at hu
  | cons a l =>
    rw [argmaxPix]
    congr 1
    have key : ∀ (l : List (Fin n × Fin n)) (a : Fin n × Fin n), (a = u ∨ u ∈ l) → (a ≠ u → norm a < norm u) → (∀ w ∈ l, w ≠ u → norm w < norm u) →
        l.foldl (fun best v => if norm best < norm v then v else best) a = u := by
      intro l
      induction l with
      | nil =>
        intro a h _ _
        simpa using h
      | cons b l ih =>
        intro a hm ha hl
        rw [List.foldl_cons]
        have hb := hl b List.mem_cons_self
        apply ih
        · split_ifs with hlt
          · rcases hm with rfl | hm
            · left
              by_contra hbu
              exact absurd hlt (not_lt.2 (hb hbu).le)
            · rcases List.mem_cons.1 hm with rfl | hm
              · exact Or.inl rfl
              · exact Or.inr hm
          · rcases hm with rfl | hm
            · exact Or.inl rfl
            · rcases List.mem_cons.1 hm with rfl | hm
              · left
                by_contra hau
                exact hlt (ha hau)
              · exact Or.inr hm
        · split_ifs with hlt
          · exact hb
          · exact ha
        · exact fun w hw => hl w (List.mem_cons_of_mem _ hw)
    exact key l a ((List.mem_cons.1 hu).imp Eq.symm id) (h a List.mem_cons_self) fun w hw => h w (List.mem_cons_of_mem _ hw)

/-- In each window the largest norm is attained at one pixel. -/
def NoTies (n p k s d m : ℕ) (fld : List (Pix B n → ℝ)) : Prop :=
  ∀ q : Pix B m, ∃ u ∈ windowPix n p k s d q.2.1 q.2.2, ∀ w ∈ windowPix n p k s d q.2.1 q.2.2, w ≠ u → fieldNorm fld (q.1, w) < fieldNorm fld (q.1, u)

theorem normPoolField_move {n p k s d m l : ℕ} (hN : Covers n p k s d m) {M : Mat} (hM : Orth l M) (τ : GSym) (fld : List (Pix B n → ℝ))
    (hl : fld.length = l) (hu : NoTies n p k s d m fld) :
    normPoolField n p k s d m (moveField l M (Pix.move τ) fld) = moveField l M (Pix.move τ) (normPoolField n p k s d m fld) := by
  -- with the winners fixed the pooling is a linear map of channels
  choose win hwin hbest using hu
  have h1 : normPoolField n p k s d m fld = fld.map fun v (q : Pix B m) => v (q.1, win q) := by
    rw [normPoolField]
    apply List.map_congr_left
    intro v _
    funext q
    rw [argmaxPix_unique _ _ (win q) (hwin q) fun w hw hne => hbest q w hw hne]
  have hwinm : ∀ q : Pix B m, ∃ z, τ.fin n z = win (Pix.move τ q) := fun q => (τ.perm n).surjective _
  choose z hz using hwinm
  have h2 : normPoolField n p k s d m (moveField l M (Pix.move τ) fld) = (moveField l M (Pix.move τ) fld).map fun v (q : Pix B m) => v (q.1, z q) := by
    rw [normPoolField]
    apply List.map_congr_left
    intro v _
    funext q
    have hw := symWindows_mem (symWindows_axis hN) τ q.2
    rw [argmaxPix_unique _ _ (z q)]
    · rw [mem_windowPix]
      apply (hw (z q)).1
      rw [hz q]
      exact (mem_windowPix _).1 (hwin (Pix.move τ q))
    · intro w hw' hne
      rw [fieldNorm_move hM _ _ hl]
      change fieldNorm fld (q.1, τ.fin n w) < fieldNorm fld (q.1, τ.fin n (z q))
      rw [hz q]
      refine hbest (Pix.move τ q) (τ.fin n w) ((mem_windowPix _).2 ((hw w).2 ((mem_windowPix _).1 hw'))) fun he => hne ?_
      exact τ.fin_injective n (he.trans (hz q).symm)
  rw [h1, h2]
  rw [moveField, moveField, chAct, chAct, List.map_map, List.map_map, List.map_map]
  apply List.map_congr_left
  intro c _
  funext q
  simp only [Function.comp_apply, Finset.sum_apply, Pi.smul_apply, List.getElem?_map]
  apply Finset.sum_congr rfl
  intro j _
  congr 1
  cases fld[j]? with
  | none => rfl
  | some v =>
    simp only [Option.getD_some, Option.map_some]
    change v (q.1, τ.fin n (z q)) = _
    rw [hz q]
    rfl

/-- What `NormMaxPool` computes: every field is pooled by its norm. -/
theorem normMaxPool_fields [DecidableEq R] (sz : R → ℕ) (t : List R) (hpos : ∀ r ∈ t, 0 < sz r) (n p k s d m : ℕ) (junk : List (Pix B m → ℝ))
    (hj : junk.length = typeSize sz t) (x : GTensor R (Pix B n → ℝ)) (hx : x.WF sz) (hxt : x.ty = t) :
    ∃ y, normMaxPool sz t n p k s d m junk x = some y ∧ y.WF sz ∧ y.ty = t ∧
      ∀ (c : ℕ) r, t[c]? = some r → (y.fields sz)[c]? = ((x.fields sz)[c]?).map (normPoolField n p k s d m) := by
  subst hxt
  obtain ⟨y, h1, h2, h3⟩ := sizeLoop_spec x.data (x.ty.map sz) hx.2 (by simpa using fun a ha => hpos a ha)
    (fun _ _ => normPoolField n p k s d m) (firstKeys (x.ty.map sz)) (firstKeys_nodup _) (fun s => mem_firstKeys _ s)
    (fun s _ fld h => by rw [normPoolField, List.length_map, h]) junk hj
  refine ⟨⟨x.ty, y⟩, ?_, ⟨hx.1, h2⟩, rfl, ?_⟩
  · rw [normMaxPool, if_pos rfl, h1]
    exact if_pos h2
  · intro c r hr
    have hr' : (x.ty.map sz)[c]? = some (sz r) := by rw [List.getElem?_map, hr]; rfl
    have hmem : c ∈ fieldOrder (x.ty.map sz) (firstKeys (x.ty.map sz)) := by
      rw [fieldOrder, List.mem_flatMap]
      exact ⟨sz r, (mem_firstKeys _ _).2 (List.mem_of_getElem? hr'), mem_posOf.2 hr'⟩
    obtain ⟨j, hj⟩ := List.getElem?_of_mem hmem
    obtain ⟨s', hs, h⟩ := h3 j c hj
    exact h

/-- The full statement for `NormMaxPool`: it commutes with every symmetry of the grid, for all orthogonal representations.  It is false
(`c39_normmax_ties`). -/
def NormMaxPoolEquivariant (B : Type) : Prop :=
  ∀ (R : Type) [DecidableEq R] (sz : R → ℕ) (t : List R) (_ : ∀ r ∈ t, 0 < sz r) (n p k s d m : ℕ) (_ : Covers n p k s d m) (ρ : R → Mat)
    (_ : ∀ r ∈ t, Orth (sz r) (ρ r)) (τ : GSym) (junk : List (Pix B m → ℝ)) (_ : junk.length = typeSize sz t) (x : GTensor R (Pix B n → ℝ))
    (_ : x.WF sz) (_ : x.ty = t),
    ∃ y, normMaxPool sz t n p k s d m junk x = some y ∧
      normMaxPool sz t n p k s d m junk (x.transform sz ρ (Pix.move τ)) = some (y.transform sz ρ (Pix.move τ))

/-- **C39 for `NormMaxPool`**, without ties: orthogonal representations.  Missing: windows where two pixels have the largest norm, on which the claim
is false. -/
theorem c39_normmax_partial [DecidableEq R] (sz : R → ℕ) (t : List R) (hpos : ∀ r ∈ t, 0 < sz r) {n p k s d m : ℕ} (hN : Covers n p k s d m)
    (ρ : R → Mat) (hρ : ∀ r ∈ t, Orth (sz r) (ρ r)) (τ : GSym) (junk : List (Pix B m → ℝ)) (hj : junk.length = typeSize sz t)
    (x : GTensor R (Pix B n → ℝ)) (hx : x.WF sz) (hxt : x.ty = t) (hu : ∀ fld ∈ x.fields sz, NoTies n p k s d m fld) :
    ∃ y, normMaxPool sz t n p k s d m junk x = some y ∧ y.WF sz ∧ y.ty = t ∧
      normMaxPool sz t n p k s d m junk (x.transform sz ρ (Pix.move τ)) = some (y.transform sz ρ (Pix.move τ)) := by
  obtain ⟨y, h1, h2, h3, h4⟩ := normMaxPool_fields sz t hpos n p k s d m junk hj x hx hxt
  obtain ⟨y', h1', h2', h3', h4'⟩ := normMaxPool_fields sz t hpos n p k s d m junk hj (x.transform sz ρ (Pix.move τ)) (transform_wf ρ _ hx) hxt
  refine ⟨y, h1, h2, h3, ?_⟩
  rw [h1']
  congr 1
  refine transform_of_fields h2 h2' (h3'.trans h3.symm) ?_
  intro c r hr
  rw [h3] at hr
  rw [h4' c r hr, h4 c r hr, transform_fields_get sz ρ _ x (by rw [hxt]; exact hr)]
  obtain ⟨fld, hf⟩ := field_exists (sz := sz) (x := x) (c := c) (r := r) (by rw [hxt]; exact hr)
  rw [hf]
  simp only [Option.map_some]
  rw [normPoolField_move hN (hρ r (List.mem_of_getElem? hr)) τ fld (field_length hx (by rw [hxt]; exact hr) hf) (hu fld (List.mem_of_getElem? hf))]

theorem orth_one (n : ℕ) : Orth n Mat.one := by
  rw [Orth, MEq_iff_toM, toM_mul, toM_tr, toM_one]
  simp

/-- The disagreement: on the image `1 -1 / 1 -1` with a 2 × 2 window all the norms are 1, the first pixel wins, and the reflection of the columns
changes the result from 1 to -1. -/
theorem c39_normmax_ties : ¬ NormMaxPoolEquivariant Unit := by
  intro h
  let v : Pix Unit 2 → ℝ := fun q => if q.2.2 = 0 then 1 else -1
  let x : GTensor Unit (Pix Unit 2 → ℝ) := ⟨[()], [v]⟩
  let τ : GSym := ⟨false, false, true⟩
  have hx : x.WF fun _ => 1 := ⟨by simp [x], by simp [x, typeSize]⟩
  obtain ⟨y, h1, h2⟩ := h Unit (fun _ => 1) [()] (by simp) 2 0 2 2 1 1 (by simp [Covers]) (fun _ => Mat.one) (fun _ _ => orth_one 1) τ [0] (by simp [typeSize]) x hx rfl
  obtain ⟨y1, g1, -, gt, g4⟩ := normMaxPool_fields (fun _ : Unit => 1) [()] (by simp) 2 0 2 2 1 1 [0] (by simp [typeSize]) x hx rfl
  obtain ⟨y2, g1', -, -, g4'⟩ := normMaxPool_fields (fun _ : Unit => 1) [()] (by simp) 2 0 2 2 1 1 [0] (by simp [typeSize])
    (x.transform (fun _ => 1) (fun _ => Mat.one) (Pix.move τ)) (transform_wf _ _ hx) rfl
  rw [h1] at g1
  rw [h2] at g1'
  simp only [Option.some.injEq] at g1 g1'
  subst g1
  subst g1'
  have a1 := g4 0 () rfl
  have a2 := g4' 0 () rfl
  have hf : (x.fields fun _ => 1)[0]? = some [v] := by simp [x, GTensor.fields, chunks]
  rw [transform_fields_get _ _ _ y (by rw [gt]; rfl), a1, transform_fields_get _ _ _ x (by rfl), hf] at a2
  simp only [Option.map_some, Option.some.injEq] at a2
  have hm : ∀ {n : ℕ} (w : Pix Unit n → ℝ), moveField 1 Mat.one (Pix.move τ) [w] = [w ∘ Pix.move τ] := by
    intro n w
    simp [moveField, chAct, Mat.one]
  have hwin : windowPix 2 0 2 2 1 0 0 = [(0, 0), (0, 1), (1, 0), (1, 1)] := by decide
  have hp : ∀ w : Pix Unit 2 → ℝ, (∀ q, w q ^ 2 = 1) → normPoolField 2 0 2 2 1 1 [w] = [fun _ => w ((), 0, 0)] := by
    intro w hw
    simp only [normPoolField, List.map_cons, List.map_nil]
    congr 1
    funext ⟨b, q1, q2⟩
    obtain rfl : q1 = 0 := Subsingleton.elim _ _
    obtain rfl : q2 = 0 := Subsingleton.elim _ _
    have hn : ∀ q, fieldNorm [w] q = 1 := by intro q; simp [fieldNorm, hw q]
    change (match argmaxPix (fun u => fieldNorm [w] (b, u)) (windowPix 2 0 2 2 1 0 0) with | none => (0 : ℝ) | some u => w (b, u)) = _
    rw [hwin]
    simp [argmaxPix, hn]
  have hv : ∀ q, v q ^ 2 = 1 := by intro q; simp only [v]; split_ifs <;> norm_num
  have hc : ∀ w : Pix Unit 1 → ℝ, (fun _ : Pix Unit 1 => w ((), 0, 0)) ∘ Pix.move τ = fun _ => w ((), 0, 0) := fun _ => rfl
  rw [hp v hv, hm, hm, hp (v ∘ Pix.move τ) fun q => hv (Pix.move τ q)] at a2
  have a3 := congrArg (fun l : List (Pix Unit 1 → ℝ) => (l[0]?.getD (0 : Pix Unit 1 → ℝ)) ((), 0, 0)) a2
  simp [v, τ, Pix.move, GSym.fin, GSym.ap] at a3
  norm_num at a3

/-! ### The hypotheses are met -/

/-- A 7 × 7 image, window 3, stride 2, no padding; and 8 × 8, window 2, stride 2; and 9 × 9, window 3, stride 2, padding 1. -/
example : Covers 7 0 3 2 1 3 ∧ Covers 8 0 2 2 1 4 ∧ Covers 9 1 3 2 1 5 := ⟨rfl, rfl, rfl⟩

/-- They are the sizes PyTorch computes. -/
example : poolSize false 9 1 3 2 1 = some 5 ∧ poolSize true 9 1 3 2 1 = some 5 := by decide

/-- An even image with an odd window and stride 2 is not covered. -/
example : poolSize false 8 1 3 2 1 = some 4 ∧ ¬ Covers 8 1 3 2 1 4 := by
  constructor
  · decide
  · simp [Covers]

/-- The windows contain pixels, so the maximum is taken over values of the image. -/
example : windowPix 9 1 3 2 1 0 0 = [(0, 0), (0, 1), (1, 0), (1, 1)] := by decide

/-- The sign change of a scalar field is orthogonal, and a 2 × 2 image whose only nonzero pixel is the first one has no ties. -/
example : NoTies (B := Unit) 2 0 2 2 1 1 [fun q => if q.2 = (0, 0) then 1 else 0] := by
  rintro ⟨b, q1, q2⟩
  obtain rfl : q1 = 0 := Subsingleton.elim _ _
  obtain rfl : q2 = 0 := Subsingleton.elim _ _
  have hwin : windowPix 2 0 2 2 1 0 0 = [(0, 0), (0, 1), (1, 0), (1, 1)] := by decide
  refine ⟨(0, 0), ?_, ?_⟩
  · change (0, 0) ∈ windowPix 2 0 2 2 1 0 0
    rw [hwin]; simp
  · intro w _ hw
    simp [fieldNorm, hw]

/-- Max pooling of the regular representation of `C_N` with the rotations of the square: everything is met. -/
example (N : ℕ) (hN : 0 < N) (r : Repr ℤ) (hr : IsRegularRep (Cyclic.grp N) (Cyclic.elements N) r) (g : ℤ) (hg : (Cyclic.grp N).isEl g) (τ : GSym)
    (x : GTensor Unit (Pix Unit 9 → ℝ)) (hx : x.WF fun _ => r.size) (hxt : x.ty = [()]) :
    ∃ y, pointwiseMaxPool (fun _ => r.size) [()] 9 1 3 2 1 5 x = some y ∧ y.WF (fun _ => r.size) ∧ y.ty = [()] ∧
      pointwiseMaxPool (fun _ => r.size) [()] 9 1 3 2 1 5 (x.transform (fun _ => r.size) (fun _ => r.mat g) (Pix.move τ))
        = some (y.transform (fun _ => r.size) (fun _ => r.mat g) (Pix.move τ)) :=
  c39_maxpool (fun _ => r.size) [()] (show Covers 9 1 3 2 1 5 from rfl) _ (fun _ _ => c33_regular_isPerm (Cyclic.lawful hN) (Cyclic.elements_nodup N) 
    (fun e => (Cyclic.mem_elements N e).trans (Cyclic.isElement_iff N e).symm) hr hg) τ x hx hxt

end E2
