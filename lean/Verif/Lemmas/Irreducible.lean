import Verif.Props.IrrepSpec
import Verif.Lemmas.Psi
import Mathlib.LinearAlgebra.Dimension.Constructions
import Mathlib.LinearAlgebra.Matrix.Notation

/-!
# Irreducibility of the planar representations
-/

namespace E2

open Mat Real

variable {El : Type} {G : Grp El}

theorem toM_two (A : Mat) : toM 2 A = !![A 0 0, A 0 1; A 1 0, A 1 1] := by
  ext i j
  fin_cases i <;> fin_cases j <;> rfl

/-- A representation of size one is irreducible. -/
theorem irreducible_one {r : Irrep El} (h : r.size = 1) : IsIrreducible G r := by
  refine ⟨by omega, fun W _ => ?_⟩
  by_cases hW : W = ⊥
  · exact Or.inl hW
  · right
    obtain ⟨size, socs, mat, freq, flip, char⟩ := r
    simp only at h
    subst h
    obtain ⟨w, hw, hw0⟩ := Submodule.exists_mem_ne_zero_of_ne_bot hW
    rw [eq_top_iff]
    intro v _
    have h0 : w 0 ≠ 0 := by
      intro h
      apply hw0
      funext i
      fin_cases i
      exact h
    have : v = (v 0 / w 0) • w := by
      funext i
      fin_cases i
      simp [div_mul_cancel₀ _ h0]
    rw [this]
    exact W.smul_mem _ hw

/-- A representation of size two is irreducible if some element acts by a rotation which is not `± 1`. -/
theorem irreducible_two {r : Irrep El} (h : r.size = 2) {g : El} (hg : G.isEl g) {c s : ℝ} (hs : s ≠ 0)
    (hm : r.mat g = m2 c (-s) s c) : IsIrreducible G r := by
  refine ⟨by omega, fun W hW => ?_⟩
  by_cases hb : W = ⊥
  · exact Or.inl hb
  · right
    obtain ⟨size, socs, mat, freq, flip, char⟩ := r
    simp only at h hm
    subst h
    obtain ⟨w, hw, hw0⟩ := Submodule.exists_mem_ne_zero_of_ne_bot hb
    have h1 := hW g hg w hw
    simp only [hm] at h1
    rw [toM_two] at h1
    have hn : w 0 ^ 2 + w 1 ^ 2 ≠ 0 := by
      intro h0
      apply hw0
      have a0 : w 0 = 0 := by nlinarith [sq_nonneg (w 0), sq_nonneg (w 1)]
      have a1 : w 1 = 0 := by nlinarith [sq_nonneg (w 0), sq_nonneg (w 1)]
      funext i
      fin_cases i
      · exact a0
      · exact a1
    have hJ : (![-(w 1), w 0] : Fin 2 → ℝ) ∈ W := by
      have h2 := W.smul_mem (1 / s) (W.sub_mem h1 (W.smul_mem c hw))
      convert h2 using 1
      funext i
      fin_cases i
      · simp [dotProduct, Fin.sum_univ_two, m2, Matrix.vecHead]
        field_simp
      · simp [dotProduct, Fin.sum_univ_two, m2, Matrix.vecHead, Matrix.vecTail]
        field_simp
    rw [eq_top_iff]
    intro v _
    have : v = ((w 0 * v 0 + w 1 * v 1) / (w 0 ^ 2 + w 1 ^ 2)) • w
        + ((w 0 * v 1 - w 1 * v 0) / (w 0 ^ 2 + w 1 ^ 2)) • (![-(w 1), w 0] : Fin 2 → ℝ) := by
      funext i
      fin_cases i
      · simp
        field_simp
        ring
      · simp
        field_simp
        ring
    rw [this]
    exact W.add_mem (W.smul_mem _ hw) (W.smul_mem _ hJ)

/-- The maps between two representations vanish if at some `g` the sums `ρ(g) + ρ(g⁻¹)` are different multiples of the identity. -/
theorem intertwiners_bot {r s : Irrep El} {g g' : El} (hg : G.isEl g) (hg' : G.isEl g') {a b : ℝ} (hab : a ≠ b)
    (hr : MEq r.size r.size (fun i j => r.mat g i j + r.mat g' i j) (fun i j => a * Mat.one i j))
    (hs : MEq s.size s.size (fun i j => s.mat g i j + s.mat g' i j) (fun i j => b * Mat.one i j)) :
    intertwiners G r s = ⊥ := by
  rw [eq_bot_iff]
  intro T hT
  rw [Submodule.mem_bot]
  have e1 : toM r.size (r.mat g) + toM r.size (r.mat g') = a • (1 : Matrix (Fin r.size) (Fin r.size) ℝ) := by
    ext i j
    have := hr i i.2 j j.2
    simp only [Matrix.add_apply, toM, Matrix.smul_apply, smul_eq_mul, Matrix.one_apply, Mat.one] at this ⊢
    rw [this]
    simp [Fin.ext_iff]
  have e2 : toM s.size (s.mat g) + toM s.size (s.mat g') = b • (1 : Matrix (Fin s.size) (Fin s.size) ℝ) := by
    ext i j
    have := hs i i.2 j j.2
    simp only [Matrix.add_apply, toM, Matrix.smul_apply, smul_eq_mul, Matrix.one_apply, Mat.one] at this ⊢
    rw [this]
    simp [Fin.ext_iff]
  have h1 : b • T = a • T := by
    calc b • T = (toM s.size (s.mat g) + toM s.size (s.mat g')) * T := by rw [e2, Matrix.smul_mul, Matrix.one_mul]
      _ = T * (toM r.size (r.mat g) + toM r.size (r.mat g')) := by rw [Matrix.add_mul, Matrix.mul_add, hT g hg, hT g' hg']
      _ = a • T := by rw [e1, Matrix.mul_smul, Matrix.mul_one]
  have h2 : (b - a) • T = 0 := by rw [sub_smul, h1, sub_self]
  rcases smul_eq_zero.1 h2 with h | h
  · exact absurd (sub_eq_zero.1 h).symm hab
  · exact h

/-- The maps of a representation of size one. -/
theorem commutant_one {r : Irrep El} (h : r.size = 1) : Module.finrank ℝ (intertwiners G r r) = 1 := by
  have : intertwiners G r r = ⊤ := by
    obtain ⟨size, socs, mat, freq, flip, char⟩ := r
    simp only at h
    subst h
    rw [eq_top_iff]
    intro T _ g _
    ext i j
    simp only [Matrix.mul_apply, Fin.sum_univ_one]
    fin_cases i
    fin_cases j
    exact _root_.mul_comm _ _
  rw [this, finrank_top, Module.finrank_matrix]
  simp [h]

/-- The maps of a representation of size two by rotations only. -/
theorem commutant_rot {r : Irrep El} (h : r.size = 2) (hrot : ∀ g, G.isEl g → ∃ c s, r.mat g = m2 c (-s) s c) {g : El} (hg : G.isEl g) {c s : ℝ} (hs : s ≠ 0)
    (hm : r.mat g = m2 c (-s) s c) : Module.finrank ℝ (intertwiners G r r) = 2 := by
  obtain ⟨size, socs, mat, freq, flip, char⟩ := r
  simp only at h hm hrot
  subst h
  have hinv : ∀ v : Fin 2 → ℝ, ∀ g, G.isEl g → toM 2 (mat g) * !![v 0, -v 1; v 1, v 0] = !![v 0, -v 1; v 1, v 0] * toM 2 (mat g) := by
    intro v g hg
    obtain ⟨c, s, h⟩ := hrot g hg
    rw [toM_two, h]
    ext i j
    fin_cases i <;> fin_cases j <;> simp [Matrix.mul_apply, Fin.sum_univ_two, m2] <;> ring
  have e : Module.finrank ℝ (intertwiners G (⟨2, socs, mat, freq, flip, char⟩ : Irrep El) ⟨2, socs, mat, freq, flip, char⟩)
      = Module.finrank ℝ (Fin 2 → ℝ) := by
    refine LinearEquiv.finrank_eq
      { toFun := fun T => ![T.1 0 0, T.1 1 0]
        invFun := fun v => ⟨!![v 0, -v 1; v 1, v 0], hinv v⟩
        map_add' := ?_
        map_smul' := ?_
        left_inv := ?_
        right_inv := ?_ }
    · intro a b
      funext i
      fin_cases i <;> rfl
    · intro a b
      funext i
      fin_cases i <;> rfl
    · intro T
      have h1 : toM 2 (mat g) * T.1 = T.1 * toM 2 (mat g) := T.2 g hg
      rw [toM_two, hm] at h1
      have h00 := congrFun (congrFun h1 0) 0
      have h01 := congrFun (congrFun h1 0) 1
      simp [Matrix.mul_apply, Fin.sum_univ_two, m2] at h00 h01
      have a1 : T.1 0 1 = -T.1 1 0 := by
        apply mul_left_cancel₀ hs
        linarith
      have a2 : T.1 1 1 = T.1 0 0 := by
        apply mul_left_cancel₀ hs
        linarith
      apply Subtype.ext
      ext i j
      fin_cases i <;> fin_cases j
      · rfl
      · exact a1.symm
      · rfl
      · exact a2.symm
    · intro v
      funext i
      fin_cases i <;> rfl
  rw [e]
  simp

/-- The maps of a representation of size two with a rotation and a reflection. -/
theorem commutant_refl {r : Irrep El} (h : r.size = 2) {g f : El} (hg : G.isEl g) {c s : ℝ} (hs : s ≠ 0)
    (hm : r.mat g = m2 c (-s) s c) (hf : G.isEl f) (hmf : r.mat f = m2 1 0 0 (-1)) : Module.finrank ℝ (intertwiners G r r) = 1 := by
  obtain ⟨size, socs, mat, freq, flip, char⟩ := r
  simp only at h hm hmf
  subst h
  have e : Module.finrank ℝ (intertwiners G (⟨2, socs, mat, freq, flip, char⟩ : Irrep El) ⟨2, socs, mat, freq, flip, char⟩)
      = Module.finrank ℝ ℝ := by
    refine LinearEquiv.finrank_eq
      { toFun := fun T => T.1 0 0
        invFun := fun v => ⟨v • 1, fun g _ => by rw [Matrix.mul_smul, Matrix.smul_mul, mul_one, one_mul]⟩
        map_add' := fun _ _ => rfl
        map_smul' := fun _ _ => rfl
        left_inv := ?_
        right_inv := ?_ }
    · intro T
      have h1 : toM 2 (mat g) * T.1 = T.1 * toM 2 (mat g) := T.2 g hg
      have h2 : toM 2 (mat f) * T.1 = T.1 * toM 2 (mat f) := T.2 f hf
      rw [toM_two, hm] at h1
      rw [toM_two, hmf] at h2
      have h01 := congrFun (congrFun h1 0) 1
      have k01 := congrFun (congrFun h2 0) 1
      have k10 := congrFun (congrFun h2 1) 0
      simp [Matrix.mul_apply, Fin.sum_univ_two, m2] at h01 k01 k10
      have a1 : T.1 0 1 = 0 := by linarith
      have a0 : T.1 1 0 = 0 := by linarith
      have a2 : T.1 1 1 = T.1 0 0 := by
        apply mul_left_cancel₀ hs
        rw [a1] at h01
        linarith
      apply Subtype.ext
      ext i j
      fin_cases i <;> fin_cases j
      · simp
      · simpa using a1.symm
      · simpa using a0.symm
      · simpa using a2.symm
    · intro v
      simp
  rw [e]
  simp

end E2
