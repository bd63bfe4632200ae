import Verif.Props.BatchNorm
import Verif.Props.Bias
import Mathlib.Algebra.Order.Chebyshev

/-!
Batch normalisation `GNormBatchNorm` (C37): any change of basis, orthogonal irreps.
-/

set_option linter.unusedSectionVars false

namespace E2

open Mat

variable {P R El V : Type}

section act
variable [AddCommMonoid V] [Module ℝ V]

theorem chAct_mul (n : ℕ) (A B : Mat) (x : List V) : chAct n A (chAct n B x) = chAct n (Mat.mul n A B) x := by
  apply List.map_congr_left
  intro c _
  simp only [Mat.mul, Finset.sum_smul]
  rw [Finset.sum_comm]
  apply Finset.sum_congr rfl
  intro j hj
  rw [chAct_get n B x (Finset.mem_range.1 hj), Option.getD_some, Finset.smul_sum]
  exact Finset.sum_congr rfl fun i _ => by rw [mul_smul]

theorem chAct_MEq {n : ℕ} {A B : Mat} (h : MEq n n A B) (x : List V) : chAct n A x = chAct n B x := by
  apply List.map_congr_left
  intro c hc
  exact Finset.sum_congr rfl fun j hj => by rw [h c (List.mem_range.1 hc) j (Finset.mem_range.1 hj)]

end act

theorem chAct_comp (n : ℕ) (M : Mat) (π : P → P) (x : List (P → ℝ)) :
    (chAct n M x).map (fun v => v ∘ π) = chAct n M (x.map fun v => v ∘ π) := by
  rw [chAct, chAct, List.map_map]
  apply List.map_congr_left
  intro c _
  funext p
  simp only [Function.comp_apply, Finset.sum_apply, Pi.smul_apply]
  apply Finset.sum_congr rfl
  intro j _
  rw [List.getElem?_map]
  cases x[j]? <;> simp

theorem zipWith_congr_get {α β γ : Type} {f g : α → β → γ} (l : List α) (m : List β)
    (h : ∀ (i : ℕ) a b, l[i]? = some a → m[i]? = some b → f a b = g a b) : List.zipWith f l m = List.zipWith g l m := by
  apply List.ext_getElem?
  intro i
  rw [List.getElem?_zipWith, List.getElem?_zipWith]
  cases ha : l[i]? with
  | none => rfl
  | some a =>
    cases hb : m[i]? with
    | none => rfl
    | some b => simp only [h i a b ha hb]

theorem zipWith_zipWith_right {α β γ δ : Type} (f : α → γ → δ) (h : α → β → γ) (l : List α) (m : List β) :
    List.zipWith f l (List.zipWith h l m) = List.zipWith (fun a b => f a (h a b)) l m := by
  induction l generalizing m with
  | nil => rfl
  | cons a l ih => cases m <;> simp [ih]

section blocks

theorem irrepBlocks_map_length (r : Repr El) (fld : List (P → ℝ)) : (irrepBlocks r fld).map List.length = r.irreps.map Irrep.size :=
  chunks_map_length _ _ (by rw [chAct_length, Repr.size])

theorem irrepBlocks_length (r : Repr El) (fld : List (P → ℝ)) : (irrepBlocks r fld).length = r.irreps.length := by
  simpa using congrArg List.length (irrepBlocks_map_length r fld)

theorem irrepBlocks_get (r : Repr El) (fld : List (P → ℝ)) {o : ℕ} {irr : Irrep El} {blk : List (P → ℝ)} (h1 : r.irreps[o]? = some irr)
    (h2 : (irrepBlocks r fld)[o]? = some blk) : blk.length = irr.size := by
  have := congrArg (·[o]?) (irrepBlocks_map_length r fld)
  simpa [h1, h2] using this

/-- In the basis of the irreps, a transformation acts on each block. -/
theorem irrepBlocks_move (r : Repr El) (hr : r.WF) (g : El) (π : P → P) (fld : List (P → ℝ)) :
    irrepBlocks r (moveField r.size (r.mat g) π fld)
      = List.zipWith (fun irr blk => moveField irr.size (irr.mat g) π blk) r.irreps (irrepBlocks r fld) := by
  have hm : MEq r.size r.size (Mat.mul r.size r.cobInv (r.mat g)) (Mat.mul r.size (Repr.blocks r.irreps g) r.cobInv) := by
    have h2 := (MEq_iff_toM _ _ _).1 hr.2
    rw [toM_mul, toM_one] at h2
    rw [MEq_iff_toM]
    simp only [Repr.mat, toM_mul]
    rw [← Matrix.mul_assoc, ← Matrix.mul_assoc, h2, Matrix.one_mul]
  have hs : (r.irreps.map fun i => (i.size, i.mat g)).map Prod.fst = r.irreps.map Irrep.size := by simp [Function.comp_def]
  have hb := chunks_chAct (r.irreps.map fun i => (i.size, i.mat g)) (chAct r.size r.cobInv fld)
  rw [hs] at hb
  rw [irrepBlocks, moveField, ← chAct_comp, chAct_mul, chAct_MEq hm, ← chAct_mul, chunks_map]
  rw [show chAct r.size (Repr.blocks r.irreps g) (chAct r.size r.cobInv fld)
    = chAct (r.irreps.map Irrep.size).sum (bdiag (r.irreps.map fun i => (i.size, i.mat g))) (chAct r.size r.cobInv fld) from rfl, hb, List.zipWith_map_left,
    List.map_zipWith, ← irrepBlocks]
  rfl

/-- The other way: a field given by its blocks. -/
theorem flatten_move (r : Repr El) (hr : r.WF) (g : El) (π : P → P) (bs : List (List (P → ℝ))) (hbs : bs.map List.length = r.irreps.map Irrep.size) :
    chAct r.size r.cob (List.zipWith (fun irr blk => moveField irr.size (irr.mat g) π blk) r.irreps bs).flatten
      = moveField r.size (r.mat g) π (chAct r.size r.cob bs.flatten) := by
  have hm : MEq r.size r.size (Mat.mul r.size (r.mat g) r.cob) (Mat.mul r.size r.cob (Repr.blocks r.irreps g)) := by
    have h2 := (MEq_iff_toM _ _ _).1 hr.2
    rw [toM_mul, toM_one] at h2
    rw [MEq_iff_toM]
    simp only [Repr.mat, toM_mul]
    rw [Matrix.mul_assoc, h2, Matrix.mul_one]
  have hs : (r.irreps.map fun i => (i.size, i.mat g)).map Prod.fst = r.irreps.map Irrep.size := by simp [Function.comp_def]
  have hb := chunks_chAct (r.irreps.map fun i => (i.size, i.mat g)) bs.flatten
  rw [hs, chunks_of_flatten' bs hbs] at hb
  rw [moveField, chAct_mul, chAct_MEq hm, ← chAct_mul, chAct_comp]
  congr 1
  rw [show chAct r.size (Repr.blocks r.irreps g) bs.flatten
    = chAct (r.irreps.map Irrep.size).sum (bdiag (r.irreps.map fun i => (i.size, i.mat g))) bs.flatten from rfl]
  have hl : (chAct (r.irreps.map Irrep.size).sum (bdiag (r.irreps.map fun i => (i.size, i.mat g))) bs.flatten).length = (r.irreps.map Irrep.size).sum :=
    chAct_length _ _ _
  rw [← chunks_flatten (r.irreps.map Irrep.size) (chAct (r.irreps.map Irrep.size).sum (bdiag (r.irreps.map fun i => (i.size, i.mat g))) bs.flatten) hl, hb,
    List.map_flatten, List.zipWith_map_left, List.map_zipWith]
  rfl

/-- A trivial irrep only moves the positions. -/
theorem moveField_triv {M : Mat} (h : M 0 0 = 1) (π : P → P) (blk : List (P → ℝ)) (hl : blk.length = 1) :
    moveField 1 M π blk = blk.map fun v => v ∘ π := by
  obtain ⟨v, rfl⟩ := List.length_eq_one_iff.1 hl
  simp [moveField, chAct, h]

end blocks

section stats
variable [Fintype P]

theorem blockVar_false (blk : List (P → ℝ)) : blockVar false blk = sumSq blk / Fintype.card P * (1 / blk.length) * correction (Fintype.card P) := by
  rw [blockVar, sumSq]
  congr 1
  rw [List.sum_map_mul_right]
  congr 1
  simp only [Bool.false_eq_true, if_false, sub_zero, div_eq_mul_inv]
  rw [List.sum_map_mul_right]

/-- What is needed of the irreps at one element. -/
def GNormOk (g : El) (r : Repr El) : Prop :=
  r.WF ∧ ∀ i ∈ r.irreps, Orth i.size (i.mat g) ∧ (isTrivial i = true → i.size = 1 ∧ i.mat g 0 0 = 1)

theorem blockMean_comp (π : Equiv.Perm P) (blk : List (P → ℝ)) : blockMean (blk.map fun v => v ∘ π) = blockMean blk := by
  rw [blockMean, blockMean, List.map_map]
  congr 3
  funext v
  exact Equiv.sum_comp π v

theorem blockVar_comp (t : Bool) (π : Equiv.Perm P) (blk : List (P → ℝ)) : blockVar t (blk.map fun v => v ∘ π) = blockVar t blk := by
  rw [blockVar, blockVar, List.map_map, blockMean_comp, List.length_map]
  congr 3
  funext v
  simp only [Function.comp_apply]
  rw [Equiv.sum_comp π fun p => v p ^ 2]

theorem gnormStats_move {g : El} {r : Repr El} (hr : GNormOk g r) (π : Equiv.Perm P) (fld : List (P → ℝ)) :
    gnormStats r (moveField r.size (r.mat g) π fld) = gnormStats r fld := by
  rw [gnormStats, irrepBlocks_move r hr.1, zipWith_zipWith_right, gnormStats]
  apply zipWith_congr_get
  intro o irr blk h1 h2
  have hl := irrepBlocks_get r fld h1 h2
  obtain ⟨ho, ht⟩ := hr.2 irr (List.mem_of_getElem? h1)
  cases hi : isTrivial irr with
  | true =>
    obtain ⟨hs, h0⟩ := ht hi
    rw [hs] at hl
    rw [hs, moveField_triv h0 π blk hl, blockMean_comp, blockVar_comp]
  | false =>
    simp only [Bool.false_eq_true, if_false]
    rw [blockVar_false, blockVar_false, sumSq_move ho π blk hl, moveField_length, hl]

theorem gnormBlock_length (t : Bool) (eps m v w b : ℝ) (blk : List (P → ℝ)) : (gnormBlock t eps m v w b blk).length = blk.length := by simp [gnormBlock]

theorem gnormBlock_move {g : El} {r : Repr El} (hr : GNormOk g r) (π : P → P) {irr : Irrep El} (hi : irr ∈ r.irreps) (eps m v w b : ℝ)
    (blk : List (P → ℝ)) (hl : blk.length = irr.size) :
    gnormBlock (isTrivial irr) eps m v w b (moveField irr.size (irr.mat g) π blk)
      = moveField irr.size (irr.mat g) π (gnormBlock (isTrivial irr) eps m v w b blk) := by
  obtain ⟨-, ht⟩ := hr.2 irr hi
  cases h : isTrivial irr with
  | true =>
    obtain ⟨hs, h0⟩ := ht h
    rw [hs] at hl
    rw [hs, moveField_triv h0 π blk hl, moveField_triv h0 π _ (by rw [gnormBlock_length, hl])]
    simp only [gnormBlock, List.map_map]
    rfl
  | false =>
    have e : ∀ l : List (P → ℝ), gnormBlock false eps m v w b l = scaleField (fun _ => w / √(v + eps)) l := by
      intro l
      rw [gnormBlock, scaleField]
      apply List.map_congr_left
      intro c _
      funext p
      simp only [Bool.false_eq_true, if_false]
      ring
    rw [e, e, moveField_scale]
    rfl

variable [DecidableEq R]

theorem gnorm_blocks_length (r : Repr El) (fld : List (P → ℝ)) (f : Irrep El × ℕ → List (P → ℝ) → List (P → ℝ)) (hf : ∀ p b, (f p b).length = b.length) :
    (List.zipWith f r.irreps.zipIdx (irrepBlocks r fld)).map List.length = r.irreps.map Irrep.size := by
  rw [← irrepBlocks_map_length r fld, List.map_zipWith]
  apply List.ext_getElem?
  intro i
  rw [List.getElem?_zipWith, List.getElem?_map, List.getElem?_zipIdx]
  cases hb : (irrepBlocks r fld)[i]? with
  | none => cases (r.irreps[i]?) <;> rfl
  | some b =>
    have : i < r.irreps.length := by rw [← irrepBlocks_length r fld]; exact (List.getElem?_eq_some_iff.1 hb).1
    rw [List.getElem?_eq_getElem this]
    simp [hf]

/-- C37 for `GNormBatchNorm`: in both modes, whatever the running statistics and the parameters. -/
theorem c37_gnorm (rep : R → Repr El) (t : List R) (order : List R) (hn : order.Nodup) (hm : ∀ r, r ∈ order ↔ r ∈ t)
    (hpos : ∀ r ∈ t, 0 < (rep r).size) (momentum : Option ℝ) (eps : ℝ) (w b : ℕ → ℕ → ℝ) (g : El) (hg : ∀ r ∈ t, GNormOk g (rep r))
    (π : Equiv.Perm P) (training : Bool) (st : NormState (ℕ → ℝ × ℝ)) (x : GTensor R (P → ℝ)) (hx : x.WF fun r => (rep r).size) (hxt : x.ty = t)
    (junk junk' : List (P → ℝ)) (hj : junk.length = x.data.length) (hj' : junk'.length = x.data.length) :
    ∃ st' y, gnormBatchNorm rep t order momentum eps w b training st junk x = some (st', y) ∧ y.WF (fun r => (rep r).size) ∧ y.ty = t ∧
      gnormBatchNorm rep t order momentum eps w b training st junk' (x.transform (fun r => (rep r).size) (fun r => (rep r).mat g) π)
        = some (st', y.transform (fun r => (rep r).size) (fun r => (rep r).mat g) π) := by
  have hid : t.map (fun r => r) = t := List.map_id t
  have key := bnModule_equivariant (gnormBN (P := P) rep momentum eps w b) (fun r => (rep r).size) (fun r => r) t
    (fun r => (contigFlags t r).getD false) order hn (fun l => by rw [hid]; exact hm l) hpos (fun _ _ => rfl)
    (fun l _ => by
      have := bn_flagOk (fun r => (rep r).size) (fun r => r) t hpos l
      rw [hid] at this ⊢
      exact this)
    (fun tr r k fld s _ h => by simp [gnormBN, chAct_length])
    (fun r => (rep r).mat g) π
    (fun r k n fld s hr h => by simp only [gnormBN, gnormStats_move (hg r hr) π fld])
    (fun tr r k fld s hr h => by
      simp only [gnormBN, gnormStats_move (hg r hr) π fld]
      rw [← flatten_move (rep r) (hg r hr).1 g π _ (gnorm_blocks_length (rep r) fld _ fun p b => gnormBlock_length _ _ _ _ _ _ _), irrepBlocks_move (rep r) (hg r hr).1]
      congr 2
      apply List.ext_getElem?
      intro o
      simp only [List.getElem?_zipWith, List.getElem?_zipIdx]
      cases hi : (rep r).irreps[o]? with
      | none => rfl
      | some irr =>
        cases hb : (irrepBlocks (rep r) fld)[o]? with
        | none => rfl
        | some blk =>
          simp only [Option.map_some]
          rw [gnormBlock_move (hg r hr) π (List.mem_of_getElem? hi) _ _ _ _ _ blk (irrepBlocks_get (rep r) fld hi hb)])
    training st x hx hxt junk junk' hj hj'
  rw [hid] at key
  exact key

/-- The variance of a block is not negative (a trivial irrep has one channel). -/
theorem blockVar_nonneg (t : Bool) (blk : List (P → ℝ)) (ht : t = true → blk.length ≤ 1) : 0 ≤ blockVar t blk := by
  cases t with
  | false =>
    rw [blockVar_false]
    exact mul_nonneg (mul_nonneg (div_nonneg (sumSq_nonneg _) (Nat.cast_nonneg _)) (by positivity)) (correction_nonneg _)
  | true =>
    have hl := ht rfl
    match blk, hl with
    | [], _ => simp [blockVar]
    | [v], _ =>
      rw [blockVar]
      refine mul_nonneg ?_ (correction_nonneg _)
      simp only [blockMean, List.map_cons, List.map_nil, List.sum_cons, List.sum_nil, add_zero, if_true, List.length_singleton, Nat.cast_one, div_one, mul_one]
      rcases Nat.eq_zero_or_pos (Fintype.card P) with h0 | h0
      · simp [h0]
      · have hc : (0 : ℝ) < Fintype.card P := by exact_mod_cast h0
        have h := sq_sum_le_card_mul_sum_sq (s := (Finset.univ : Finset P)) (f := v)
        rw [Finset.card_univ] at h
        rw [sub_nonneg, div_pow, div_le_div_iff₀ (by positivity) hc]
        nlinarith

/-- C37: the running variances of `GNormBatchNorm` are non-negative over any sequence of calls. -/
theorem c37_gnorm_nonneg (rep : R → Repr El) (hrep : ∀ r, ∀ i ∈ (rep r).irreps, isTrivial i = true → i.size = 1) (t : List R) (order : List R)
    (momentum : Option ℝ) (hm : ∀ m, momentum = some m → 0 ≤ m ∧ m ≤ 1) (eps : ℝ) (heps : 0 < eps) (w b : ℕ → ℕ → ℝ)
    (calls : List (Bool × List (P → ℝ) × GTensor R (P → ℝ))) (st : NormState (ℕ → ℝ × ℝ))
    (h : bnRun (fun tr s (c : List (P → ℝ) × GTensor R (P → ℝ)) => gnormBatchNorm rep t order momentum eps w b tr s c.1 c.2) calls
      ⟨0, fun _ _ => (0, 1)⟩ = some st) :
    ∀ k o, 0 ≤ (st.stats k o).2 ∧ 0 < √((st.stats k o).2 + eps) := by
  have := bnRun_inv (fun v : ℕ → ℝ × ℝ => ∀ o, 0 ≤ (v o).2) _
    (fun tr s x s' y hs hJ => bnModule_inv (fun v : ℕ → ℝ × ℝ => ∀ o, 0 ≤ (v o).2) _ (fun r => (rep r).size) t _ _ _ (fun l k n fld v hv o => by
      obtain ⟨h0, h1⟩ := avgFactor_mem momentum hm n
      simp only [gnormBN]
      split
      · exact hv o
      · rename_i new hnew
        refine running_nonneg h0 h1 ?_ (hv o)
        rw [gnormStats, List.getElem?_zipWith] at hnew
        cases hi : (rep l).irreps[o]? with
        | none => simp [hi] at hnew
        | some irr =>
          cases hb : (irrepBlocks (rep l) fld)[o]? with
          | none => simp [hi, hb] at hnew
          | some blk =>
            simp only [hi, hb, Option.some.injEq] at hnew
            rw [← hnew]
            refine blockVar_nonneg _ _ fun ht => ?_
            rw [irrepBlocks_get (rep l) fld hi hb, hrep l irr (List.mem_of_getElem? hi) ht]) tr s _ x.2 hs hJ)
    calls _ st h fun _ _ => zero_le_one
  exact fun k o => ⟨this k o, Real.sqrt_pos.2 (by linarith [this k o])⟩

end stats

/-! ### What the normalisation is for -/

/-- In training mode, with weights 1, biases 0, `InnerBatchNorm` makes the mean of each field zero and its variance `v / (v + eps)`, `v` the
variance before. -/
theorem c37_inner_normalises [Fintype P] [Nonempty P] (momentum : Option ℝ) (eps : ℝ) (heps : 0 < eps) (track : Bool) (l k : ℕ) (fld : List (P → ℝ))
    (hl : fld ≠ []) (v : ℝ × ℝ) :
    fieldMean ((innerBN momentum eps track (fun _ => 1) (fun _ => 0)).apply true l k fld v) = 0 ∧
      fieldVar ((innerBN momentum eps track (fun _ => 1) (fun _ => 0)).apply true l k fld v) = fieldVar fld / (fieldVar fld + eps) := by
  have hn : ((Fintype.card P * fld.length : ℕ) : ℝ) ≠ 0 := by
    have h1 := Fintype.card_pos (α := P)
    have h2 := List.length_pos_iff.2 hl
    exact_mod_cast (Nat.mul_pos h1 h2).ne'
  have hv := fieldVar_nonneg fld
  set D := √(fieldVar fld + eps) with hD
  have hD0 : D ≠ 0 := (Real.sqrt_pos.2 (by linarith)).ne'
  have hD2 : D ^ 2 = fieldVar fld + eps := Real.sq_sqrt (by linarith)
  have e : (innerBN momentum eps track (fun _ => 1) (fun _ => 0)).apply true l k fld v = fld.map fun c p => (c p - fieldMean fld) * D⁻¹ := by
    simp only [innerBN, Bool.true_or, if_true, ← hD]
    apply List.map_congr_left
    intro c _
    funext p
    ring
  have hsum : (fld.map fun c => ∑ p, (c p - fieldMean fld)).sum = 0 := by
    have : (fld.map fun c => ∑ p, (c p - fieldMean fld)).sum = (fld.map fun c => ∑ p, c p).sum - (Fintype.card P * fld.length : ℕ) * fieldMean fld := by
      generalize fieldMean fld = m
      clear * -
      induction fld with
      | nil => simp
      | cons a fld ih =>
        rw [List.map_cons, List.sum_cons, ih]
        simp only [List.map_cons, List.sum_cons, Finset.sum_sub_distrib, Finset.sum_const, Finset.card_univ, nsmul_eq_mul, List.length_cons]
        push_cast
        ring
    rw [this, fieldMean, mul_div_cancel₀ _ hn, sub_self]
  have hm : fieldMean (fld.map fun c p => (c p - fieldMean fld) * D⁻¹) = 0 := by
    have e2 : ((fld.map fun c p => (c p - fieldMean fld) * D⁻¹).map fun c => ∑ p, c p).sum = (fld.map fun c => ∑ p, (c p - fieldMean fld)).sum * D⁻¹ := by
      rw [List.map_map, ← List.sum_map_mul_right]
      congr 2
      funext c
      simp only [Function.comp_apply, Finset.sum_mul]
    rw [fieldMean, e2, hsum, zero_mul, zero_div]
  rw [e]
  refine ⟨hm, ?_⟩
  have e3 : ((fld.map fun c p => (c p - fieldMean fld) * D⁻¹).map fun c => ∑ p, (c p - 0) ^ 2).sum
      = (fld.map fun c => ∑ p, (c p - fieldMean fld) ^ 2).sum * (D⁻¹) ^ 2 := by
    rw [List.map_map, ← List.sum_map_mul_right]
    congr 2
    funext c
    simp only [Function.comp_apply, Finset.sum_mul, sub_zero, mul_pow]
  conv_lhs => rw [fieldVar]
  rw [hm, List.length_map, e3, ← hD2, mul_div_right_comm, ← fieldVar, inv_pow, div_eq_mul_inv]

/-! ### The representations of the library meet the hypotheses -/

theorem GNormOk.of_irreps {G : Grp El} (hG : G.InvOk) {r : Repr El} (hw : r.WF) (hi : ∀ i ∈ r.irreps, IsOrthRep G i.size i.mat ∧ TrivOk G i) {g : El}
    (hg : G.isEl g) : GNormOk g r :=
  ⟨hw, fun i h => ⟨(hi i h).1.orth hG g hg, fun ht => ⟨((hi i h).2.triv ht).1, ((hi i h).2.triv ht).2 g hg⟩⟩⟩

/-- Every representation of `C_N` built from its irreps. -/
theorem c37_gnorm_cyclic (N : ℕ) (hN : 0 < N) (r : Repr ℤ) (hw : r.WF) (hi : ∀ i ∈ r.irreps, ∃ k, Cyclic.irrep N k = some i) (g : ℤ)
    (hg : (Cyclic.grp N).isEl g) : GNormOk g r :=
  .of_irreps (Cyclic.invOk hN) hw (fun i h => by
    obtain ⟨k, hk⟩ := hi i h
    exact ⟨Cyclic.irrep_isOrthRep hN hk, Cyclic.trivOk hN hk⟩) hg

theorem c37_gnorm_dihedral (N : ℕ) (hN : 0 < N) (r : Repr (ℤ × ℤ)) (hw : r.WF) (hi : ∀ i ∈ r.irreps, ∃ j k, Dihedral.irrep N j k = some i)
    (g : ℤ × ℤ) (hg : (Dihedral.grp N).isEl g) : GNormOk g r :=
  .of_irreps (Dihedral.invOk hN) hw (fun i h => by
    obtain ⟨j, k, hk⟩ := hi i h
    exact ⟨Dihedral.irrep_isOrthRep hN hk, Dihedral.trivOk hN hk⟩) hg

/-- The regular representation of `C_4`, whose change of basis is not the identity, at the element 1. -/
example : ∃ r, Cyclic.regular 4 = some r ∧ r.size = 4 ∧ GNormOk 1 r ∧ ∃ i ∈ r.irreps, isTrivial i = true := by
  obtain ⟨r, h1, h2, h3⟩ := c12_cyclic_regular 4 (by norm_num)
  refine ⟨r, h1, h2.size.trans (Cyclic.order_eq 4), c37_gnorm_cyclic 4 (by norm_num) r h2.wf (fun i hi => ?_) 1 ((Cyclic.isElement_iff 4 1).2 (by norm_num)), ?_⟩
  · rw [h3] at hi
    obtain ⟨k, -, hk⟩ := List.mem_filterMap.1 hi
    exact ⟨k, hk⟩
  · obtain ⟨i, hi⟩ : ∃ i, Cyclic.irrep 4 0 = some i := ⟨_, by unfold Cyclic.irrep; rw [if_neg (by simp), if_pos rfl]⟩
    refine ⟨i, ?_, ?_⟩
    · rw [h3]
      exact List.mem_filterMap.2 ⟨0, by simp, hi⟩
    · unfold Cyclic.irrep at hi
      rw [if_neg (by simp), if_pos rfl] at hi
      rw [← Option.some.inj hi]
      rfl

/-- A batch of two one-pixel images with one field of frequency 1, rotated by a quarter turn and exchanged. -/
example (f1 f2 : Fin 2 → ℝ) (training : Bool) (st : NormState ℝ) :
    ∃ st' y, normBatchNorm (fun _ : Unit => 2) [()] (some 0.1) 1 (fun _ => 1) training st ⟨[()], [f1, f2]⟩ = some (st', y) ∧ y.WF (fun _ => 2) ∧
      y.ty = [()] ∧ normBatchNorm (fun _ : Unit => 2) [()] (some 0.1) 1 (fun _ => 1) training st
        (GTensor.transform (fun _ => 2) (fun _ => psi (Real.pi / 2) 1 0) (Equiv.swap 0 1) ⟨[()], [f1, f2]⟩)
        = some (st', y.transform (fun _ => 2) (fun _ => psi (Real.pi / 2) 1 0) (Equiv.swap 0 1)) :=
  c37_norm _ _ (by simp) _ _ _ _ (fun _ _ => by
    have := (c05_so2_irreps 1).1.orth SO2.invOk (Real.pi / 2) trivial
    simpa [SO2.irrep] using this) _ _ _ _ ⟨by simp, rfl⟩ rfl

end E2
