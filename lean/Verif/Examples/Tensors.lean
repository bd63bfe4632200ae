import Verif.Examples.Common
import Verif.Props.BatchNorm
import Verif.Props.GNorm
import Verif.Props.DisentangleModule
import Verif.Props.Dropout
import Verif.Props.Gated
import Verif.Props.Nonlin
import Verif.Props.InducedNonlin
import Verif.Props.InducedGated
import Verif.Props.Invariant
import Verif.Props.Layout
import Verif.Props.Pointwise
import Verif.Props.Pooling
import Verif.Props.PoolingAdaptive
import Verif.Props.Reorder
import Verif.Props.Running
import Verif.Props.Tensor
import Verif.Props.Upsample
import Verif.Props.VectorField
import Mathlib.Data.Fintype.Perm

/-!
# Tensors which meet the hypotheses of the theorems on modules

The type `[2, 1, 2]` has three fields, whose names are their sizes: the two fields of size 2 are not adjacent.  The tensor `exX` has this type and arbitrary channels.
The matrices `exAct` exchange the two channels of the fields of size 2.  The theorems of C28–C32, C33, C34, C36–C39, C54, C55, C56 and C64 are applied to them.
-/

namespace E2

open Mat

variable {P : Type}

/-- A tensor of type `[2, 1, 2]`. -/
def exX (a b c d e : P → ℝ) : GTensor ℕ (P → ℝ) := ⟨[2, 1, 2], [a, b, c, d, e]⟩

theorem exX_wf (a b c d e : P → ℝ) : (exX a b c d e).WF id := ⟨by simp [exX], rfl⟩

theorem exX_pos : ∀ r ∈ [2, 1, 2], 0 < id r := by simp

/-- The exchange of the channels of the fields of size 2. -/
def exAct (n : ℕ) : Mat := if n = 2 then swapMat else Mat.one

theorem exAct_isPerm : ∀ r ∈ [2, 1, 2], IsPerm (id r) (exAct r) := by
  have h2 : IsPerm 2 (exAct 2) := by
    refine ⟨Equiv.swap 0 1, fun i j => ?_⟩
    rw [exAct, if_pos rfl]
    fin_cases i <;> fin_cases j <;> simp [swapMat]
  have h1 : IsPerm 1 (exAct 1) := by
    refine ⟨1, fun i j => ?_⟩
    obtain rfl : i = 0 := Subsingleton.elim _ _
    obtain rfl : j = 0 := Subsingleton.elim _ _
    simp [exAct, Mat.one]
  simp only [List.mem_cons, List.not_mem_nil, or_false, id]
  rintro r (rfl | rfl | rfl)
  exacts [h2, h1, h2]

theorem exAct_orth : ∀ r ∈ [2, 1, 2], Orth (id r) (exAct r) := by
  have h2 : Orth 2 (exAct 2) := by
    rw [exAct, if_pos rfl]
    intro i hi j hj
    interval_cases i <;> interval_cases j <;> simp [Mat.mul, Mat.tr, swapMat, Mat.one, Finset.sum_range_succ]
  have h1 : Orth 1 (exAct 1) := by
    intro i hi j hj
    interval_cases i; interval_cases j
    simp [exAct, Mat.mul, Mat.tr, Mat.one]
  simp only [List.mem_cons, List.not_mem_nil, or_false, id]
  rintro r (rfl | rfl | rfl)
  exacts [h2, h1, h2]

section
variable (a b c d e : P → ℝ)

/-! ### Layout (C28, C32) -/

example := c28_intervals (R := ℕ) id [2, 1, 2]
example := c28_cover (R := ℕ) id [2, 1, 2] 3 (by decide)
example := c28_add (R := ℕ) id [2, 1, 2] [1, 3] [2, 1, 2, 1, 3] rfl
example := c28_index_select (R := ℕ) [2, 1, 2] [2, 0, 0]
example := c28_sorted (R := ℕ) id [2, 1, 2] (by simp)
example := c32_test_iff_range [3, 4, 7] (by simp) (by simp)
example := c32_indices_increasing (R := ℕ) (L := ℕ) id [2, 1, 2] [5, 6, 5] 5 false [0, 2] [0, 1, 3, 4]
  (by simp [indexesFromLabels, labelIdxFrom, dictAppend, List.range', checkConsecutive, consecutiveLoop]; norm_num)

/-! ### Tensors (C29, C30, C31) -/

example := c29_pieces_partial id (exX a b c d e) (exX_wf a b c d e) [1, 2] [⟨[2], [a, b]⟩, ⟨[1], [c]⟩, ⟨[2], [d, e]⟩] rfl
example := c29_split_directsum_partial id (exX a b c d e) (exX_wf a b c d e) (some [1]) [⟨[2], [a, b]⟩, ⟨[1, 2], [c, d, e]⟩] rfl
example := c29_split_succeeds_partial id (exX a b c d e) (exX_wf a b c d e) [1, 2]
example := c29_split_all_partial id (exX a b c d e) (exX_wf a b c d e)
example := c29_split_act_partial id exAct (exX a b c d e) (exX_wf a b c d e) (some [1])
example := c29_directsum_act_partial id exAct [exX a b c d e, exX e d c b a] (by simp) (by simp [exX_wf])
example := c30_slice_partial id (exX a b c d e) (exX_wf a b c d e) ⟨none, none, some (-2)⟩
example := c30_int_partial id (exX a b c d e) (exX_wf a b c d e) (-4) (by simp [exX])
example := c30_int_out_of_range id (exX a b c d e) (exX_wf a b c d e) (-5) (by simp [exX]) (by simp [exX])
example := c30_ellipsis 4 [.int 0] [.int 2] (by simp [PyIndex.isAxis]) (by simp [PyIndex.isAxis]) (by simp)
example := c30_ellipses 5 [.int 0] [.ellipsis, .int 2] (by simp [PyIndex.isAxis]) (by simp)
example := c30_act id exAct 4 (exX a b c d e) (exX_wf a b c d e) [.slice ⟨none, none, none⟩, .int 1]
example := c31_reshuffle id (exX a b c d e) (exX_wf a b c d e) [2, 0, 1] (show [2, 0, 1].Perm (List.range 3) by decide)
example := c31_reshuffle_act id exAct (exX a b c d e) (exX_wf a b c d e) [2, 0, 1]
example := c31_branch (L := ℕ) id 0 (by norm_num) (exX a b c d e) (exX_wf a b c d e) exX_pos [7, 8, 7] rfl 7 (by simp)
example := c31_branch_act (L := ℕ) id exAct 1 (by norm_num) (exX a b c d e) (exX_wf a b c d e) exX_pos [7, 8, 7] rfl 7
example := c31_branch_merge (L := ℕ) id 2 (by norm_num) (exX a b c d e) (exX_wf a b c d e) exX_pos [7, 8, 7] rfl [8, 7] (by simp) (by simp)
example (u : P → ℝ) := c31_merge_act id exAct [exX a b c d e, ⟨[1], [u]⟩] (by simp) (by simp only [List.mem_cons, List.not_mem_nil, or_false, forall_eq_or_imp, forall_eq]; exact ⟨exX_wf a b c d e, by simp, rfl⟩)
  [0, 0, 0, 0, 0, 0] [u, u, u, u, u, u] rfl rfl

/-! ### Nonlinearities (C33, C34, C55) -/

/-- The sizes of the output fields of the concatenated nonlinearity: the names of the output fields are twice the names of the input fields. -/
noncomputable def exConcatAct (n : ℕ) : Mat := concatMat (exAct (n / 2))

theorem exAct_concatOk : ∀ r ∈ [2, 1, 2], ConcatOk (id r) (exAct r) := by
  have h1 : ConcatOk 1 (exAct 1) := by
    simp [ConcatOk, exAct, nonzeroCols, Mat.one]
  have h2 : ConcatOk 2 (exAct 2) := by
    simp [ConcatOk, exAct, nonzeroCols, swapMat, List.range_succ]
    refine ⟨?_, ?_⟩ <;> intro i hi <;> interval_cases i <;> simp <;> omega
  simp only [List.mem_cons, List.not_mem_nil, or_false, id]
  rintro r (rfl | rfl | rfl)
  exacts [h2, h1, h2]

theorem exAct_row : ∀ r ∈ [2, 1, 2], ∀ i < id r, ∃ j < id r, exAct r i j ≠ 0 := by
  simp only [List.mem_cons, List.not_mem_nil, or_false, id]
  rintro r (rfl | rfl | rfl) i hi
  · interval_cases i
    exacts [⟨1, by norm_num, by simp [exAct, swapMat]⟩, ⟨0, by norm_num, by simp [exAct, swapMat]⟩]
  · exact ⟨i, hi, by simp [exAct, Mat.one]⟩
  · interval_cases i
    exacts [⟨1, by norm_num, by simp [exAct, swapMat]⟩, ⟨0, by norm_num, by simp [exAct, swapMat]⟩]

example (f : ℝ → ℝ) (π : P → P) := c33_concatenated id id (fun n => 2 * n) [2, 1, 2] (by simp) f exAct exConcatAct exAct_concatOk exAct_row
  (fun r _ => by rw [exConcatAct, Nat.mul_div_cancel_left _ (by norm_num)]; exact fun _ _ _ _ => rfl) π (exX a b c d e) (exX_wf a b c d e) rfl
example := c33_concatenated_mul (s := 2) (A := exAct 2) (B := exAct 2)
  (fun i hi => signedRow_of_concatOk (exAct_concatOk 2 (by simp)) hi (exAct_row 2 (by simp) i hi))
  (fun i hi => signedRow_of_concatOk (exAct_concatOk 2 (by simp)) hi (exAct_row 2 (by simp) i hi))

example (f : ℝ → ℝ) := c34_norm_scalars (P := P) id [2, 1, 2] (by simp) exX_pos f 0.1 [1, 2, 3]
example (f : ℝ → ℝ) (π : P → P) := c34_norm_equivariant id [2, 1, 2] exX_pos f 0.1 [1, 2, 3] exAct exAct_orth π [a, a, a, a, a] [b, b, b, b, b] rfl rfl
  (exX a b c d e) (exX_wf a b c d e) rfl
example (σ : ℝ → ℝ) := c34_gated2_scalars (P := P) (R := ℕ) id (fun n => n == 1) (fun _ => true) (by simp) [1, 1, 1] [2, 1, 2] (by simp) exX_pos (by decide) σ
  [1, 2, 3] rfl
example (σ : ℝ → ℝ) := c34_gated1_scalars (P := P) (R := ℕ) id (fun n => n == 1) (fun _ => true) (by simp) [2, 1, 1, 3] (by simp) (by simp)
  [false, true, true, false] true (by decide) σ [1, 2] rfl
example (f : ℝ → ℝ) := c55_norm_scalars (P := P) (R := ℕ) id (fun n => [n / 2]) [4, 2, 4] (by simp) (by simp) (by decide) f 0.1 [1, 2, 3]
example (σ : ℝ → ℝ) := c55_gated_scalars (P := P) (R := Bool) (fun g => if g then 2 else 4) (fun g => g) (fun g => if g then [1] else [2]) [true, false] (by simp)
  (by simp) [true, false] true (by decide) σ [1]

/-! ### Pooling over the group (C36) -/

example (u : P → ℝ) := c36_groupPooling_max id [2, 1, 2] 1 rfl exX_pos [u, u, u] rfl (exX a b c d e) (exX_wf a b c d e) rfl
example (u : P → ℝ) (π : P → P) := c36_groupPooling_invariant id [2, 1, 2] 1 rfl exX_pos [u, u, u] rfl (exX a b c d e) (exX_wf a b c d e) rfl exAct exAct_isPerm π
example (u : P → ℝ) := c36_normPool_norm id [2, 1, 2] 1 rfl exX_pos [u, u, u] rfl (exX a b c d e) (exX_wf a b c d e) rfl
example (u : P → ℝ) (π : P → P) := c36_normPool_invariant id [2, 1, 2] 1 rfl exX_pos [u, u, u] rfl (exX a b c d e) (exX_wf a b c d e) rfl exAct exAct_orth π
example (u : P → ℝ) := c36_inducedNorm_max id (fun n => n) [2, 1, 2] 1 rfl exX_pos (by simp) [u, u, u] rfl (exX a b c d e) (exX_wf a b c d e) rfl

theorem exAct_isBlockPerm : ∀ r ∈ [2, 1, 2], IsBlockPerm (id r / 1) 1 (exAct r) := fun r hr => by
  obtain ⟨σ, hσ⟩ := exAct_isPerm r hr
  rw [Nat.div_one]
  refine ⟨σ, fun _ => Mat.one, fun _ i hi j hj => ?_, fun i j x y => ?_⟩
  · interval_cases i; interval_cases j; simp [Mat.mul, Mat.tr, Mat.one]
  · obtain rfl : x = 0 := Subsingleton.elim _ _
    obtain rfl : y = 0 := Subsingleton.elim _ _
    simpa [Mat.one] using hσ i j

example (u : P → ℝ) (π : P → P) := c36_inducedNorm_invariant id (fun _ => 1) [2, 1, 2] 1 rfl exX_pos (by simp) [u, u, u] rfl (exX a b c d e) (exX_wf a b c d e) rfl
  exAct exAct_isBlockPerm π

/-! ### Dropout (C38) -/

open Classical in
example (u : ℕ → P → ℝ) (j : P → ℝ) := c38_training id [2, 1, 2] exX_pos 0.5 (by norm_num) u [j, j, j, j, j] (exX a b c d e) (exX_wf a b c d e) rfl rfl
example (u : ℕ → P → ℝ) (j : P → ℝ) (π : P → P) := c38_equivariant id [2, 1, 2] exX_pos 0.5 (by norm_num) u [j, j, j, j, j] (exX a b c d e) (exX_wf a b c d e) rfl
  rfl exAct π
open Classical in
example (u : ℕ → P → ℝ) (j : P → ℝ) := c38_inplace id [2, 1, 2] exX_pos 0.5 (by norm_num) u [j] (exX a b c d e) (exX_wf a b c d e) rfl

/-! ### Batch normalization (C37, C64) -/

section
variable [Fintype P] (w v : ℕ → ℝ) (tr : Bool)

example (π : Equiv.Perm P) (st : NormState ℝ) := c37_induced id (fun _ => 1) [2, 1, 2] exX_pos (some 0.1) 0.1 w exAct exAct_orth π tr st (exX a b c d e)
  (exX_wf a b c d e) rfl
example (π : Equiv.Perm P) (st : NormState (ℝ × ℝ)) (u : P → ℝ) := c37_inner id [2, 1, 2] exX_pos (some 0.1) 0.1 true w v exAct exAct_isPerm π tr st
  (exX a b c d e) (exX_wf a b c d e) rfl [u, u, u, u, u] [a, a, a, a, a] rfl rfl

/-- A run of two calls of each module ends, and its statistics are not negative: `c37_norm_nonneg`, `c37_induced_nonneg`, `c37_inner_nonneg`. -/
example (u : P → ℝ) (π : Equiv.Perm P) :
    (∃ st, bnRun (normBatchNorm id [2, 1, 2] (some 0.1) 0.1 w) [(true, exX a b c d e), (false, exX e d c b a)] ⟨0, fun _ => 1⟩ = some st ∧
      ∀ k, 0 ≤ st.stats k ∧ 0 < √(st.stats k + 0.1)) ∧
    (∃ st, bnRun (inducedNormBatchNorm id (fun _ => 1) [2, 1, 2] (some 0.1) 0.1 w) [(true, exX a b c d e), (false, exX e d c b a)] ⟨0, fun _ => 1⟩ = some st ∧
      ∀ k, 0 ≤ st.stats k ∧ 0 < √(st.stats k + 0.1)) ∧
    (∃ st, bnRun (fun tr s (c : List (P → ℝ) × GTensor ℕ (P → ℝ)) => innerBatchNorm id [2, 1, 2] (some 0.1) 0.1 true w v tr s c.1 c.2)
        [(true, [u, u, u, u, u], exX a b c d e), (false, [a, a, a, a, a], exX e d c b a)] ⟨0, fun _ => (0, 1)⟩ = some st ∧
      ∀ k, 0 ≤ (st.stats k).2 ∧ 0 < √((st.stats k).2 + 0.1)) := by
  refine ⟨?_, ?_, ?_⟩
  · obtain ⟨s1, y1, h1, -⟩ := c37_norm id [2, 1, 2] exX_pos (some 0.1) 0.1 w exAct exAct_orth π true ⟨0, fun _ => 1⟩ (exX a b c d e) (exX_wf a b c d e) rfl
    obtain ⟨s2, y2, h2, -⟩ := c37_norm id [2, 1, 2] exX_pos (some 0.1) 0.1 w exAct exAct_orth π false s1 (exX e d c b a) (exX_wf e d c b a) rfl
    have h : bnRun (normBatchNorm id [2, 1, 2] (some 0.1) 0.1 w) [(true, exX a b c d e), (false, exX e d c b a)] ⟨0, fun _ => 1⟩ = some s2 := by
      simp [bnRun, h1, h2]
    exact ⟨s2, h, c37_norm_nonneg _ _ (some 0.1) (by rintro m ⟨⟩; norm_num) 0.1 (by norm_num) w _ _ h⟩
  · obtain ⟨s1, y1, h1, -⟩ := c37_induced id (fun _ => 1) [2, 1, 2] exX_pos (some 0.1) 0.1 w exAct exAct_orth π true ⟨0, fun _ => 1⟩ (exX a b c d e)
      (exX_wf a b c d e) rfl
    obtain ⟨s2, y2, h2, -⟩ := c37_induced id (fun _ => 1) [2, 1, 2] exX_pos (some 0.1) 0.1 w exAct exAct_orth π false s1 (exX e d c b a) (exX_wf e d c b a) rfl
    have h : bnRun (inducedNormBatchNorm id (fun _ => 1) [2, 1, 2] (some 0.1) 0.1 w) [(true, exX a b c d e), (false, exX e d c b a)] ⟨0, fun _ => 1⟩
        = some s2 := by simp [bnRun, h1, h2]
    exact ⟨s2, h, c37_induced_nonneg _ _ _ (some 0.1) (by rintro m ⟨⟩; norm_num) 0.1 (by norm_num) w _ _ h⟩
  · obtain ⟨s1, y1, h1, -⟩ := c37_inner id [2, 1, 2] exX_pos (some 0.1) 0.1 true w v exAct exAct_isPerm π true ⟨0, fun _ => (0, 1)⟩
      (exX a b c d e) (exX_wf a b c d e) rfl [u, u, u, u, u] [a, a, a, a, a] rfl rfl
    obtain ⟨s2, y2, h2, -⟩ := c37_inner id [2, 1, 2] exX_pos (some 0.1) 0.1 true w v exAct exAct_isPerm π false s1
      (exX e d c b a) (exX_wf e d c b a) rfl [a, a, a, a, a] [a, a, a, a, a] rfl rfl
    have h : bnRun (fun tr s (c : List (P → ℝ) × GTensor ℕ (P → ℝ)) => innerBatchNorm id [2, 1, 2] (some 0.1) 0.1 true w v tr s c.1 c.2)
        [(true, [u, u, u, u, u], exX a b c d e), (false, [a, a, a, a, a], exX e d c b a)] ⟨0, fun _ => (0, 1)⟩ = some s2 := by
      simp [bnRun, h1, h2]
    exact ⟨s2, h, c37_inner_nonneg _ _ (some 0.1) (by rintro m ⟨⟩; norm_num) 0.1 (by norm_num) true w v _ _ h⟩

example [Nonempty P] (x : ℝ × ℝ) := c37_inner_normalises (P := P) (some 0.1) 0.1 (by norm_num) true 2 0 [a, b] (by simp) x

end

example (w : ℕ → ℝ) := c64_induced (R := ℕ) id (fun n => n / 2) [4, 2, 4] (by simp) (some 0.1) 0.1 w
example (w v : ℕ → ℝ) := c64_inner (R := ℕ) id [2, 1, 2] (by simp) none 0.1 w v

end

/-! ### Pooling over the pixels (C39) and resizing (C54) -/

section
variable {B : Type} (a b c d e : Pix B 9 → ℝ) (τ : GSym)

example := c39_avgpool id [2, 1, 2] (show Covers 9 1 3 2 1 5 from rfl) exAct τ (exX a b c d e) (exX_wf a b c d e) rfl
example := c39_avgpool_antialiased id [2, 1, 2] 0.6 (show Covers 9 1 5 2 1 4 from rfl) exAct τ (exX a b c d e) (exX_wf a b c d e) rfl
example := c39_maxpool_antialiased id [2, 1, 2] 0.6 (show Covers 9 1 3 1 1 9 from rfl) (show Covers 9 (1 + (5 - 1) / 2) 5 2 1 6 from rfl) exAct exAct_isPerm τ
  (exX a b c d e) (exX_wf a b c d e) rfl
example := c39_adaptive_avg id [2, 1, 2] 9 4 exAct τ (exX a b c d e) (exX_wf a b c d e) rfl
example := c39_adaptive_max id [2, 1, 2] 9 4 exAct exAct_isPerm τ (exX a b c d e) (exX_wf a b c d e) rfl

example := c54_any_size { scale := none, size := some 7, mode := .bilinear, align := false } (n := 5) (by norm_num) rfl rfl rfl rfl
example := c54_nearest_iff (B := Unit) false (n := 5) (m := 10) (by norm_num) (by norm_num)

end

end E2
