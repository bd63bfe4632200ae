import Verif.Model.SelfTest
import Verif.Lemmas.SteerableIdx
import Verif.Lemmas.OneByOne

/-!
# Lemmas on the self tests
-/

set_option linter.unusedSectionVars false

namespace E2

open Finset Mat Real

variable {El F : Type}

/-! ## Matrices which commute with block diagonal ones -/

/-- `A M = M B`. -/
def Comm (n m : ℕ) (A B M : Mat) : Prop := MEq n m (Mat.mul n A M) (Mat.mul m M B)

theorem comm_bdiag (lo li : List (ℕ × Mat)) (M : Mat) :
    Comm (total lo) (total li) (bdiag lo) (bdiag li) M ↔ ∀ o i, ∀ ho : o < lo.length, ∀ hi : i < li.length,
      Comm lo[o].1 li[i].1 lo[o].2 li[i].2 fun r c => M (offset (lo.map Prod.fst) o + r) (offset (li.map Prod.fst) i + c) := by
  have key : ∀ o i, ∀ ho : o < lo.length, ∀ hi : i < li.length, ∀ r < lo[o].1, ∀ c < li[i].1,
      (Mat.mul (total lo) (bdiag lo) M (offset (lo.map Prod.fst) o + r) (offset (li.map Prod.fst) i + c) =
        Mat.mul (total li) M (bdiag li) (offset (lo.map Prod.fst) o + r) (offset (li.map Prod.fst) i + c) ↔
      Mat.mul lo[o].1 lo[o].2 (fun r c => M (offset (lo.map Prod.fst) o + r) (offset (li.map Prod.fst) i + c)) r c =
        Mat.mul li[i].1 (fun r c => M (offset (lo.map Prod.fst) o + r) (offset (li.map Prod.fst) i + c)) li[i].2 r c) := by
    intro o i ho hi r hr c hc
    rw [bdiag_mul_row lo ho M hr, mul_bdiag_col li hi M hc]
    rfl
  constructor
  · intro h o i ho hi r hr c hc
    refine (key o i ho hi r hr c hc).1 (h _ ?_ _ ?_)
    · have := offset_add_le (lo.map Prod.fst) (k := o) (by simpa using ho)
      simp only [List.getElem_map] at this
      unfold total
      omega
    · have := offset_add_le (li.map Prod.fst) (k := i) (by simpa using hi)
      simp only [List.getElem_map] at this
      unfold total
      omega
  · intro h a ha b hb
    obtain ⟨o, ho, r, hr, rfl⟩ := exists_offset _ ha
    obtain ⟨i, hi, c, hc, rfl⟩ := exists_offset _ hb
    simp only [List.getElem_map] at hr hc
    exact (key o i (by simpa using ho) (by simpa using hi) r hr c hc).2 (h o i (by simpa using ho) (by simpa using hi) r hr c hc)

theorem comm_congr {n m : ℕ} {A A' B B' M : Mat} (hA : MEq n n A A') (hB : MEq m m B B') : Comm n m A B M ↔ Comm n m A' B' M :=
  ⟨fun h => (hA.symm.mul (MEq.refl _)).trans (h.trans ((MEq.refl _).mul hB)), fun h => (hA.mul (MEq.refl _)).trans (h.trans ((MEq.refl _).mul hB.symm))⟩

/-- Change of basis. -/
theorem comm_conj {n m : ℕ} {P P' Q Q' A B M : Mat} (hP : IsInv n P P') (hQ : IsInv m Q Q') :
    Comm n m (Mat.mul n (Mat.mul n P A) P') (Mat.mul m (Mat.mul m Q B) Q') M ↔ Comm n m A B (Mat.mul m (Mat.mul n P' M) Q) := by
  constructor
  · intro h
    have h1 : MEq n m (Mat.mul m (Mat.mul n P' (Mat.mul n (Mat.mul n (Mat.mul n P A) P') M)) Q)
        (Mat.mul m (Mat.mul n P' (Mat.mul m M (Mat.mul m (Mat.mul m Q B) Q'))) Q) := ((MEq.refl _).mul h).mul (MEq.refl _)
    have e1 : Mat.mul m (Mat.mul n P' (Mat.mul n (Mat.mul n (Mat.mul n P A) P') M)) Q = Mat.mul n (Mat.mul n P' P) (Mat.mul n A (Mat.mul m (Mat.mul n P' M) Q)) := by
      simp only [Mat.mul_assoc]
    have e2 : Mat.mul m (Mat.mul n P' (Mat.mul m M (Mat.mul m (Mat.mul m Q B) Q'))) Q = Mat.mul m (Mat.mul m (Mat.mul m (Mat.mul n P' M) Q) B) (Mat.mul m Q' Q) := by
      simp only [Mat.mul_assoc]
    rw [e1, e2] at h1
    exact ((((hP.2.mul (MEq.refl _)).trans (MEq_one_mul _ _ _)).symm).trans h1).trans (((MEq.refl _).mul hQ.2).trans (MEq_mul_one _ _ _))
  · intro h
    have h1 : MEq n m (Mat.mul m (Mat.mul n P (Mat.mul n A (Mat.mul m (Mat.mul n P' M) Q))) Q')
        (Mat.mul m (Mat.mul n P (Mat.mul m (Mat.mul m (Mat.mul n P' M) Q) B)) Q') := ((MEq.refl _).mul h).mul (MEq.refl _)
    have e1 : Mat.mul m (Mat.mul n P (Mat.mul n A (Mat.mul m (Mat.mul n P' M) Q))) Q' = Mat.mul m (Mat.mul n (Mat.mul n (Mat.mul n P A) P') M) (Mat.mul m Q Q') := by
      simp only [Mat.mul_assoc]
    have e2 : Mat.mul m (Mat.mul n P (Mat.mul m (Mat.mul m (Mat.mul n P' M) Q) B)) Q' = Mat.mul n (Mat.mul n P P') (Mat.mul m M (Mat.mul m (Mat.mul m Q B) Q')) := by
      simp only [Mat.mul_assoc]
    rw [e1, e2] at h1
    exact ((((MEq.refl _).mul hQ.1).trans (MEq_mul_one _ _ _)).symm.trans h1).trans ((hP.1.mul (MEq.refl _)).trans (MEq_one_mul _ _ _))

/-- What commutes with the representations `ro`, `ri` at one element: the blocks of the irreps. -/
theorem comm_repr {ro ri : Repr El} (ho : ro.WF) (hi : ri.WF) (g : El) (M : Mat) :
    Comm ro.size ri.size (ro.mat g) (ri.mat g) M ↔ ∀ o i, ∀ lo : o < ro.irreps.length, ∀ li : i < ri.irreps.length,
      Comm ro.irreps[o].size ri.irreps[i].size (ro.irreps[o].mat g) (ri.irreps[i].mat g) fun r c =>
        Mat.mul ri.size (Mat.mul ro.size ro.cobInv M) ri.cob (offset (ro.irreps.map Irrep.size) o + r) (offset (ri.irreps.map Irrep.size) i + c) := by
  unfold Repr.mat
  rw [comm_conj ho hi]
  have h := comm_bdiag (ro.irreps.map fun i => (i.size, i.mat g)) (ri.irreps.map fun i => (i.size, i.mat g))
    (Mat.mul ri.size (Mat.mul ro.size ro.cobInv M) ri.cob)
  simp only [List.length_map, List.getElem_map, List.map_map, total] at h
  exact h

/-- What commutes with two types at one element. -/
theorem comm_type (rep : F → Repr El) (inT outT : List F) (g : El) (M : Mat) :
    Comm (typeSize (fun n => (rep n).size) outT) (typeSize (fun n => (rep n).size) inT) (typeMat rep outT g) (typeMat rep inT g) M ↔
      ∀ o i, ∀ lo : o < outT.length, ∀ li : i < inT.length, Comm (rep outT[o]).size (rep inT[i]).size ((rep outT[o]).mat g) ((rep inT[i]).mat g) fun r c =>
        M (offset (outT.map fun n => (rep n).size) o + r) (offset (inT.map fun n => (rep n).size) i + c) := by
  have h := comm_bdiag (outT.map fun n => ((rep n).size, (rep n).mat g)) (inT.map fun n => ((rep n).size, (rep n).mat g)) M
  simp only [List.length_map, List.getElem_map, List.map_map, total] at h
  exact h

/-- If commuting at some elements is enough for the irreps then it is for the types. -/
theorem comm_lift {rep : F → Repr El} {inT outT : List F} (hwf : ∀ n ∈ inT ++ outT, (rep n).WF) {S : El → Prop} {g : El}
    (h : ∀ n ∈ outT, ∀ m ∈ inT, ∀ j ∈ (rep n).irreps, ∀ i ∈ (rep m).irreps, ∀ X, (∀ s, S s → Comm j.size i.size (j.mat s) (i.mat s) X) →
      Comm j.size i.size (j.mat g) (i.mat g) X) (M : Mat)
    (hM : ∀ s, S s → Comm (typeSize (fun n => (rep n).size) outT) (typeSize (fun n => (rep n).size) inT) (typeMat rep outT s) (typeMat rep inT s) M) :
    Comm (typeSize (fun n => (rep n).size) outT) (typeSize (fun n => (rep n).size) inT) (typeMat rep outT g) (typeMat rep inT g) M := by
  refine (comm_type rep inT outT g M).2 fun o i lo li => ?_
  have w1 := hwf outT[o] (List.mem_append_right _ (List.getElem_mem lo))
  have w2 := hwf inT[i] (List.mem_append_left _ (List.getElem_mem li))
  refine (comm_repr w1 w2 g _).2 fun p q lp lq => ?_
  exact h _ (List.getElem_mem lo) _ (List.getElem_mem li) _ (List.getElem_mem lp) _ (List.getElem_mem lq) _ fun s hs =>
    (comm_repr w1 w2 s _).1 ((comm_type rep inT outT s M).1 (hM s hs) o i lo li) p q lp lq

/-! ## Rotations -/

/-- The matrix of the irrep of frequency `k` of SO(2). -/
theorem psi_zero (θ k : ℝ) : psi θ k 0 = m2 (cos (k * θ)) (-sin (k * θ)) (sin (k * θ)) (cos (k * θ)) := by simp [psi]

theorem comm22 (c s c' s' : ℝ) (X : Mat) :
    Comm 2 2 (m2 c (-s) s c) (m2 c' (-s') s' c') X ↔
      ((c - c') * (X 0 0 + X 1 1) - (s - s') * (X 1 0 - X 0 1) = 0 ∧ (s - s') * (X 0 0 + X 1 1) + (c - c') * (X 1 0 - X 0 1) = 0) ∧
      ((c - c') * (X 0 0 - X 1 1) - (s + s') * (X 1 0 + X 0 1) = 0 ∧ (s + s') * (X 0 0 - X 1 1) + (c - c') * (X 1 0 + X 0 1) = 0) := by
  have e : ∀ i j, Mat.mul 2 (m2 c (-s) s c) X i j = m2 c (-s) s c i 0 * X 0 j + m2 c (-s) s c i 1 * X 1 j := fun i j => by
    simp [Mat.mul, Finset.sum_range_succ]
  have e' : ∀ i j, Mat.mul 2 X (m2 c' (-s') s' c') i j = X i 0 * m2 c' (-s') s' c' 0 j + X i 1 * m2 c' (-s') s' c' 1 j := fun i j => by
    simp [Mat.mul, Finset.sum_range_succ]
  constructor
  · intro h
    have h00 := h 0 two_pos 0 two_pos
    have h01 := h 0 two_pos 1 one_lt_two
    have h10 := h 1 one_lt_two 0 two_pos
    have h11 := h 1 one_lt_two 1 one_lt_two
    rw [e, e'] at h00 h01 h10 h11
    simp only [m2] at h00 h01 h10 h11
    norm_num at h00 h01 h10 h11
    refine ⟨⟨?_, ?_⟩, ?_, ?_⟩ <;> linarith
  · rintro ⟨⟨h1, h2⟩, h3, h4⟩ i hi j hj
    rw [e, e']
    interval_cases i <;> interval_cases j <;> simp only [m2] <;> norm_num <;> linarith

theorem det_zero {a b p q : ℝ} (h1 : a * p - b * q = 0) (h2 : b * p + a * q = 0) (h : a ≠ 0 ∨ b ≠ 0) : p = 0 ∧ q = 0 := by
  have hd : a ^ 2 + b ^ 2 ≠ 0 := by
    rcases h with h | h
    · have := pow_pos (abs_pos.2 h) 2
      rw [sq_abs] at this
      positivity
    · have := pow_pos (abs_pos.2 h) 2
      rw [sq_abs] at this
      positivity
  constructor
  · have : (a ^ 2 + b ^ 2) * p = 0 := by linear_combination a * h1 + b * h2
    exact (mul_eq_zero.1 this).resolve_left hd
  · have : (a ^ 2 + b ^ 2) * q = 0 := by linear_combination a * h2 - b * h1
    exact (mul_eq_zero.1 this).resolve_left hd

/-- The angle of a test element. -/
theorem cos_test {T : ℕ} (hT : 0 < T) (k : ℤ) (h : cos (k * (2 * π / T)) = 1) : (T : ℤ) ∣ k := by
  obtain ⟨n, hn⟩ := (Real.cos_eq_one_iff _).1 h
  refine ⟨n, ?_⟩
  have hT' : (T : ℝ) ≠ 0 := by positivity
  have hpi := Real.pi_ne_zero
  have : (k : ℝ) = T * n := by
    field_simp at hn
    linarith
  exact_mod_cast this

/-- Two irreps of SO(2): commuting at one test element is enough, unless the frequencies agree there by accident. -/
theorem so2_pair {T : ℕ} (hT : 0 < T) (a b : ℕ) (h1 : a = b ∨ ¬ (T : ℤ) ∣ a - b) (h2 : a + b = 0 ∨ ¬ (T : ℤ) ∣ a + b) (X : Mat)
    (hX : Comm (SO2.irrep b).size (SO2.irrep a).size ((SO2.irrep b).mat (2 * π / T)) ((SO2.irrep a).mat (2 * π / T)) X) (θ : ℝ) :
    Comm (SO2.irrep b).size (SO2.irrep a).size ((SO2.irrep b).mat θ) ((SO2.irrep a).mat θ) X := by
  have hdiff : a ≠ b → cos (b * (2 * π / T)) - cos (a * (2 * π / T)) ≠ 0 ∨ sin (b * (2 * π / T)) - sin (a * (2 * π / T)) ≠ 0 := by
    intro hab
    by_contra hcon
    push Not at hcon
    refine h1.resolve_left hab (cos_test hT _ ?_)
    push_cast
    rw [sub_mul, cos_sub, ← sub_eq_zero.1 hcon.1, ← sub_eq_zero.1 hcon.2]
    nlinarith [sin_sq_add_cos_sq ((b : ℝ) * (2 * π / T))]
  have hsum : a + b ≠ 0 → cos (b * (2 * π / T)) - cos (a * (2 * π / T)) ≠ 0 ∨ sin (b * (2 * π / T)) + sin (a * (2 * π / T)) ≠ 0 := by
    intro hab
    by_contra hcon
    push Not at hcon
    refine h2.resolve_left hab (cos_test hT _ ?_)
    push_cast
    rw [add_mul, cos_add, ← sub_eq_zero.1 hcon.1, ← neg_eq_of_add_eq_zero_right hcon.2]
    nlinarith [sin_sq_add_cos_sq ((b : ℝ) * (2 * π / T))]
  unfold SO2.irrep at hX ⊢
  by_cases ha : a = 0 <;> by_cases hb : b = 0
  · subst ha hb
    simpa using hX
  · subst ha
    rw [if_neg hb, if_pos rfl] at hX ⊢
    dsimp only at hX ⊢
    rw [psi_zero] at hX ⊢
    have e0 := hX 0 two_pos 0 one_pos
    have e1 := hX 1 one_lt_two 0 one_pos
    simp [Mat.mul, Finset.sum_range_succ, m1, m2] at e0 e1
    obtain ⟨x0, x1⟩ := det_zero (a := cos (b * (2 * π / T)) - 1) (b := sin (b * (2 * π / T))) (p := X 0 0) (q := X 1 0) (by linarith) (by linarith)
      (by simpa using hdiff (fun h => hb h.symm))
    intro i hi j hj
    interval_cases i <;> interval_cases j <;> simp [Mat.mul, Finset.sum_range_succ, m1, m2, x0, x1]
  · subst hb
    rw [if_neg ha, if_pos rfl] at hX ⊢
    dsimp only at hX ⊢
    rw [psi_zero] at hX ⊢
    have e0 := hX 0 one_pos 0 two_pos
    have e1 := hX 0 one_pos 1 one_lt_two
    simp [Mat.mul, Finset.sum_range_succ, m1, m2] at e0 e1
    obtain ⟨x0, x1⟩ := det_zero (a := 1 - cos (a * (2 * π / T))) (b := sin (a * (2 * π / T))) (p := X 0 0) (q := X 0 1) (by linarith) (by linarith)
      (by simpa using hdiff ha)
    intro i hi j hj
    interval_cases i; interval_cases j <;> simp [Mat.mul, Finset.sum_range_succ, m1, m2, x0, x1]
  · rw [if_neg ha, if_neg hb] at hX ⊢
    dsimp only at hX ⊢
    rw [psi_zero, psi_zero, comm22] at hX ⊢
    obtain ⟨⟨e1, e2⟩, e3, e4⟩ := hX
    obtain ⟨r0, t0⟩ := det_zero e3 e4 (hsum (by omega))
    rw [r0, t0]
    refine ⟨?_, by simp, by simp⟩
    by_cases hab : a = b
    · subst hab
      simp
    · obtain ⟨p0, q0⟩ := det_zero e1 e2 (hdiff hab)
      rw [p0, q0]
      simp

end E2
