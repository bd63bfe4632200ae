import Verif.Lemmas.Rep
import Verif.Lemmas.Restrict

/-!
# Concrete representations for the examples

For each group a family of two representations: number 0 is the trivial representation, every other number is the direct sum of the trivial representation and an
irreducible representation of frequency 1 in the basis where the first two vectors are exchanged.  The other files of this directory show that the hypotheses of
the theorems are met by such representations.
-/

namespace E2

open Mat

/-- The matrix which exchanges the first two vectors of the basis. -/
def swapMat : Mat := fun i j => if (if i = 0 then 1 else if i = 1 then 0 else i) = j then 1 else 0

theorem swapMat_isInv {n : ℕ} (hn : 2 ≤ n) : IsInv n swapMat swapMat := by
  refine isInv_of_left fun i hi j hj => ?_
  simp only [Mat.mul, swapMat, Mat.one, ite_mul, one_mul, zero_mul]
  rw [Finset.sum_ite_eq]
  rw [if_pos (Finset.mem_range.2 (by split_ifs <;> omega))]
  rcases i with _ | _ | i <;> rcases j with _ | _ | j <;> simp

/-- Two representations of `C_N`. -/
noncomputable def exCyc (N n : ℕ) : Repr ℤ :=
  if n = 0 then ⟨(Cyclic.irrep N 0).toList, Mat.one, Mat.one⟩
  else ⟨(Cyclic.irrep N 0).toList ++ (Cyclic.irrep N (min 1 (N / 2))).toList, swapMat, swapMat⟩

/-- Two representations of `SO(2)`. -/
noncomputable def exSO (n : ℕ) : Repr ℝ :=
  if n = 0 then ⟨[SO2.irrep 0], Mat.one, Mat.one⟩ else ⟨[SO2.irrep 0, SO2.irrep 1], swapMat, swapMat⟩

/-- Two representations of `D_N`. -/
noncomputable def exDih (N n : ℕ) : Repr (ℤ × ℤ) :=
  if n = 0 then ⟨(Dihedral.irrep N 0 0).toList, Mat.one, Mat.one⟩
  else ⟨(Dihedral.irrep N 0 0).toList ++ (Dihedral.irrep N 1 (min 1 (N / 2))).toList, swapMat, swapMat⟩

/-- Two representations of `O(2)`. -/
noncomputable def exO2 (n : ℕ) : Repr (ℤ × ℝ) :=
  if n = 0 then ⟨(O2.irrep 0 0).toList, Mat.one, Mat.one⟩
  else ⟨(O2.irrep 0 0).toList ++ (O2.irrep 1 1).toList, swapMat, swapMat⟩

theorem cyc0 (N : ℕ) : ∃ i, Cyclic.irrep N 0 = some i ∧ i.size = 1 := by
  unfold Cyclic.irrep
  rw [if_neg (by simp), if_pos rfl]
  exact ⟨_, rfl, rfl⟩

theorem cyc1 (N : ℕ) : ∃ i, Cyclic.irrep N (min 1 (N / 2)) = some i ∧ 0 < i.size := by
  unfold Cyclic.irrep
  rw [if_neg (by rw [Cyclic.order_eq]; omega)]
  split_ifs <;> exact ⟨_, rfl, by norm_num⟩

theorem dih0 (N : ℕ) : ∃ i, Dihedral.irrep N 0 0 = some i ∧ i.size = 1 := by
  unfold Dihedral.irrep
  rw [if_neg (by simp), if_neg (by simp), if_pos rfl, if_pos rfl]
  exact ⟨_, rfl, rfl⟩

theorem dih1 (N : ℕ) : ∃ i, Dihedral.irrep N 1 (min 1 (N / 2)) = some i ∧ 0 < i.size := by
  unfold Dihedral.irrep
  rw [if_neg (by simp), if_neg (by omega), if_neg (by simp)]
  split_ifs <;> exact ⟨_, rfl, by norm_num⟩

theorem o20 : ∃ i, O2.irrep 0 0 = some i ∧ i.size = 1 := by
  unfold O2.irrep
  rw [if_neg (by simp), if_pos rfl, if_pos rfl]
  exact ⟨_, rfl, rfl⟩

theorem o21 : ∃ i, O2.irrep 1 1 = some i ∧ i.size = 2 := by
  unfold O2.irrep
  rw [if_neg (by simp), if_neg (by simp), if_neg (by simp)]
  exact ⟨_, rfl, rfl⟩

theorem exCyc_pos (N n : ℕ) : 0 < (exCyc N n).size := by
  obtain ⟨i, hi, si⟩ := cyc0 N
  obtain ⟨j, hj, sj⟩ := cyc1 N
  unfold exCyc
  split_ifs <;> simp [Repr.size, hi, hj, si]

theorem exCyc_ok (N n : ℕ) : (exCyc N n).WF ∧ ∀ i ∈ (exCyc N n).irreps, ∃ k, Cyclic.irrep N k = some i := by
  obtain ⟨i, hi, si⟩ := cyc0 N
  obtain ⟨j, hj, sj⟩ := cyc1 N
  unfold exCyc
  split_ifs
  · exact ⟨IsInv.one _, fun x hx => ⟨0, by simpa using hx⟩⟩
  · refine ⟨swapMat_isInv (by simp [Repr.size, hi, hj, si]; omega), fun x hx => ?_⟩
    rcases List.mem_append.1 hx with h | h
    · exact ⟨0, by simpa using h⟩
    · exact ⟨_, by simpa using h⟩

theorem exSO_pos (n : ℕ) : 0 < (exSO n).size := by
  unfold exSO
  split_ifs <;> simp [Repr.size, SO2.irrep]

theorem exSO_ok (n : ℕ) : (exSO n).WF ∧ ∀ i ∈ (exSO n).irreps, ∃ k, i = SO2.irrep k := by
  unfold exSO
  split_ifs
  · exact ⟨IsInv.one _, fun x hx => ⟨0, by simpa using hx⟩⟩
  · refine ⟨swapMat_isInv (by simp [Repr.size, SO2.irrep]), fun x hx => ?_⟩
    rcases List.mem_cons.1 hx with h | h
    · exact ⟨0, h⟩
    · exact ⟨1, by simpa using h⟩

theorem exDih_pos (N n : ℕ) : 0 < (exDih N n).size := by
  obtain ⟨i, hi, si⟩ := dih0 N
  obtain ⟨j, hj, sj⟩ := dih1 N
  unfold exDih
  split_ifs <;> simp [Repr.size, hi, hj, si]

theorem exDih_ok (N n : ℕ) : (exDih N n).WF ∧ ∀ i ∈ (exDih N n).irreps, ∃ j k, Dihedral.irrep N j k = some i := by
  obtain ⟨i, hi, si⟩ := dih0 N
  obtain ⟨j, hj, sj⟩ := dih1 N
  unfold exDih
  split_ifs
  · exact ⟨IsInv.one _, fun x hx => ⟨0, 0, by simpa using hx⟩⟩
  · refine ⟨swapMat_isInv (by simp [Repr.size, hi, hj, si]; omega), fun x hx => ?_⟩
    rcases List.mem_append.1 hx with h | h
    · exact ⟨0, 0, by simpa using h⟩
    · exact ⟨1, _, by simpa using h⟩

theorem exO2_pos (n : ℕ) : 0 < (exO2 n).size := by
  obtain ⟨i, hi, si⟩ := o20
  obtain ⟨j, hj, sj⟩ := o21
  unfold exO2
  split_ifs <;> simp [Repr.size, hi, hj, si]

theorem exO2_ok (n : ℕ) : (exO2 n).WF ∧ ∀ i ∈ (exO2 n).irreps, ∃ j k, O2.irrep j k = some i := by
  obtain ⟨i, hi, si⟩ := o20
  obtain ⟨j, hj, sj⟩ := o21
  unfold exO2
  split_ifs
  · exact ⟨IsInv.one _, fun x hx => ⟨0, 0, by simpa using hx⟩⟩
  · refine ⟨swapMat_isInv (by simp [Repr.size, hi, hj, si, sj]), fun x hx => ?_⟩
    rcases List.mem_append.1 hx with h | h
    · exact ⟨0, 0, by simpa using h⟩
    · exact ⟨1, 1, by simpa using h⟩

/-- The second representation of `C_4` is not the first: it has three dimensions, and its change of basis is not the identity. -/
example : (exCyc 4 1).size = 3 ∧ (exCyc 4 1).cob 0 0 = 0 := by
  obtain ⟨i, hi, si⟩ := cyc0 4
  refine ⟨?_, by simp [exCyc, swapMat]⟩
  have hj : ∃ j, Cyclic.irrep 4 1 = some j ∧ j.size = 2 := by
    unfold Cyclic.irrep
    rw [if_neg (by rw [Cyclic.order_eq]; omega), if_neg (by simp), if_neg (by rw [Cyclic.order_eq]; omega)]
    exact ⟨_, rfl, rfl⟩
  obtain ⟨j, hj, sj⟩ := hj
  simp [exCyc, Repr.size, hi, si, hj, sj]

end E2
