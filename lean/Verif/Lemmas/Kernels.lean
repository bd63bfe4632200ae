import Verif.Model.Kernels
import Verif.Props.KernelSpec
import Verif.Props.Offsets
import Verif.Lemmas.Psi
import Mathlib.Analysis.SpecialFunctions.Complex.Arg
import Mathlib.Tactic.LinearCombination

/-!
# Helper lemmas for the kernel constraints
-/

namespace E2

open Finset Mat Real

/-! ### Geometry -/

theorem radius_rot (α : ℝ) (p : ℝ × ℝ) : radius (rot α p) = radius p := by
  unfold radius rot
  congr 1
  have := Real.cos_sq_add_sin_sq α
  simp only
  linear_combination (p.1 ^ 2 + p.2 ^ 2) * this

theorem radius_refl (a : ℝ) (p : ℝ × ℝ) : radius (refl a p) = radius p := by
  unfold radius refl
  congr 1
  have := Real.cos_sq_add_sin_sq (2 * a)
  simp only
  linear_combination (p.1 ^ 2 + p.2 ^ 2) * this

theorem radius_planeAct (a : ℝ) (g : ℤ × ℝ) (p : ℝ × ℝ) : radius (planeAct a g p) = radius p := by
  unfold planeAct
  rw [radius_rot]
  split_ifs
  · rfl
  · exact radius_refl a p

/-- A point in polar coordinates. -/
theorem polar_coords (p : ℝ × ℝ) : p.1 = radius p * cos (Complex.arg ⟨p.1, p.2⟩) ∧
    p.2 = radius p * sin (Complex.arg ⟨p.1, p.2⟩) := by
  have hn : ‖(⟨p.1, p.2⟩ : ℂ)‖ = radius p := by
    rw [radius, Complex.norm_def, Complex.normSq_mk]
    congr 1; ring
  have h := Complex.norm_mul_cos_add_sin_mul_I ⟨p.1, p.2⟩
  rw [hn] at h
  constructor
  · have := congrArg Complex.re h
    simp [Complex.cos_ofReal_re, Complex.sin_ofReal_re, Complex.cos_ofReal_im, Complex.sin_ofReal_im] at this
    exact this.symm
  · have := congrArg Complex.im h
    simp [Complex.cos_ofReal_re, Complex.sin_ofReal_re, Complex.cos_ofReal_im, Complex.sin_ofReal_im] at this
    exact this.symm

theorem arg_of_polar {p : ℝ × ℝ} {r θ : ℝ} (hr : 0 < r) (h1 : p.1 = r * cos θ) (h2 : p.2 = r * sin θ) :
    ∃ z : ℤ, Complex.arg ⟨p.1, p.2⟩ = θ + z * (2 * π) := by
  have e : (⟨p.1, p.2⟩ : ℂ) = r * (Complex.cos θ + Complex.sin θ * Complex.I) := by
    apply Complex.ext
    · simp [h1, Complex.cos_ofReal_re, Complex.sin_ofReal_re, Complex.cos_ofReal_im, Complex.sin_ofReal_im]
    · simp [h2, Complex.cos_ofReal_re, Complex.sin_ofReal_re, Complex.cos_ofReal_im, Complex.sin_ofReal_im]
  have h := Complex.arg_mul_cos_add_sin_mul_I_coe_angle hr (θ : Real.Angle)
  rw [Real.Angle.cos_coe, Real.Angle.sin_coe, Complex.ofReal_cos, Complex.ofReal_sin, ← e] at h
  obtain ⟨k, hk⟩ := Real.Angle.angle_eq_iff_two_pi_dvd_sub.1 h
  exact ⟨k, by linarith⟩

/-- The angle of the image of a point. -/
theorem angle_planeAct (a : ℝ) {g : ℤ × ℝ} (hg : g.1 = 0 ∨ g.1 = 1) (p : ℝ × ℝ) :
    (angle p = none ∧ angle (planeAct a g p) = none) ∨
    ∃ θ θ' : ℝ, angle p = some θ ∧ angle (planeAct a g p) = some θ' ∧
      ∃ z : ℤ, θ' - a = g.2 + (if g.1 ≠ 0 then -1 else 1) * (θ - a) + z * (2 * π) := by
  have hrad := radius_planeAct a g p
  by_cases h : radius p < 1e-9
  · left
    simp [angle, hrad, h]
  · right
    have hr : 0 < radius p := by
      push Not at h
      exact lt_of_lt_of_le (by norm_num) h
    obtain ⟨e1, e2⟩ := polar_coords p
    set θ := Complex.arg ⟨p.1, p.2⟩ with hθ
    refine ⟨θ, Complex.arg ⟨(planeAct a g p).1, (planeAct a g p).2⟩, by simp [angle, h, hθ], by simp [angle, hrad, h], ?_⟩
    rcases hg with hg | hg
    · obtain ⟨z, hz⟩ := arg_of_polar (p := planeAct a g p) (θ := g.2 + θ) hr
        (by simp only [planeAct, rot, hg, if_true, Real.cos_add]; rw [e1, e2]; ring)
        (by simp only [planeAct, rot, hg, if_true, Real.sin_add]; rw [e1, e2]; ring)
      exact ⟨z, by rw [hz, hg]; simp; ring⟩
    · obtain ⟨z, hz⟩ := arg_of_polar (p := planeAct a g p) (θ := g.2 + (2 * a - θ)) hr
        (by simp only [planeAct, rot, refl, hg, one_ne_zero, if_false]
            rw [Real.cos_add, Real.cos_sub, Real.sin_sub, e1, e2]; ring)
        (by simp only [planeAct, rot, refl, hg, one_ne_zero, if_false]
            rw [Real.sin_add, Real.cos_sub, Real.sin_sub, e1, e2]; ring)
      exact ⟨z, by rw [hz, hg]; simp; ring⟩

/-! ### The matrices -/

/-- The sign of a flip. -/
noncomputable def sg (ε : ℤ) : ℝ := if ε ≠ 0 then -1 else 1

/-- The matrix `A` is the value of an irrep of the given size and frequencies at the element `(ε, α)`. -/
def IrrepAt (size : ℕ) (A : Mat) (freq flip : ℕ) (ε : ℤ) (α : ℝ) : Prop :=
  (size = 2 ∧ MEq 2 2 A (psichi α ε freq 0)) ∨
  (size = 1 ∧ A 0 0 = (if ε ≠ 0 ∧ flip ≠ 0 then -1 else 1) * cos (freq * α) ∧ sin (freq * α) = 0)

/-- The conditions on the parameters of a basis element, at the element `(ε, α)` of the group. -/
def ElemOk (so si : ℕ) (m n fo fi : ℕ) (e : AngElem) (ε : ℤ) (α : ℝ) : Prop :=
  (so = 2 ∧ si = 2 ∧ (e.s = 0 ∨ e.s = 1) ∧ (∃ z : ℤ, e.mu * α = (m - sg e.s * n) * α + z * (2 * π)) ∧ (ε = 0 ∨ e.gamma = 0)) ∨
  (so = 1 ∧ si = 2 ∧ (∃ z : ℤ, e.mu * α = (n + m) * α + z * (2 * π)) ∧
    (ε = 0 ∨ (fo = 0 ∧ e.gamma = 0) ∨ (fo = 1 ∧ e.gamma = π / 2))) ∨
  (so = 2 ∧ si = 1 ∧ (∃ z : ℤ, e.mu * α = (n + m) * α + z * (2 * π)) ∧
    (ε = 0 ∨ (fi = 0 ∧ e.gamma = 0) ∨ (fi = 1 ∧ e.gamma = π / 2))) ∨
  (so = 1 ∧ si = 1 ∧ (∃ z : ℤ, e.mu * α = (m - n) * α + z * (2 * π)) ∧
    (ε = 0 ∨ ((fi = 0 ∨ fi = 1) ∧ (fo = 0 ∨ fo = 1) ∧ ((fi = fo ∧ e.gamma = 0) ∨ (fi ≠ fo ∧ e.gamma = π / 2)))))

theorem m1_00 (a : ℝ) : m1 a 0 0 = a := by simp [m1]

theorem MEq12 {A B : Mat} (h0 : A 0 0 = B 0 0) (h1 : A 0 1 = B 0 1) : MEq 1 2 A B := by
  intro i hi j hj
  obtain rfl : i = 0 := by omega
  match j, hj with
  | 0, _ => exact h0
  | 1, _ => exact h1

theorem MEq21 {A B : Mat} (h0 : A 0 0 = B 0 0) (h1 : A 1 0 = B 1 0) : MEq 2 1 A B := by
  intro i hi j hj
  obtain rfl : j = 0 := by omega
  match i, hi with
  | 0, _ => exact h0
  | 1, _ => exact h1

theorem psichi_std (θ : ℝ) (s : ℤ) (k γ : ℝ) : psichi θ s k γ = psichi (k * θ + γ) s 1 0 := by
  simp [psichi]

theorem angMat_intertwine {so si m n fo fi : ℕ} {e : AngElem} {ε : ℤ} {α : ℝ} (hε : ε = 0 ∨ ε = 1) {A B : Mat}
    (hA : IrrepAt si A n fi ε α) (hB : IrrepAt so B m fo ε α) (he : ElemOk so si m n fo fi e ε α) (φ : ℝ) :
    MEq so si (Mat.mul so B (angMat so si e φ)) (Mat.mul si (angMat so si e (α + sg ε * φ)) A) := by
  rcases he with ⟨rfl, rfl, hs, ⟨z, hz⟩, hγ⟩ | ⟨rfl, rfl, ⟨z, hz⟩, hγ⟩ | ⟨rfl, rfl, ⟨z, hz⟩, hγ⟩ | ⟨rfl, rfl, ⟨z, hz⟩, hγ⟩
  · rcases hA with ⟨-, hA⟩ | ⟨h, -⟩
    swap; · omega
    rcases hB with ⟨-, hB⟩ | ⟨h, -⟩
    swap; · omega
    have hang : ∀ ψ, angMat 2 2 e ψ = psichi ψ e.s e.mu e.gamma := fun ψ => by simp [angMat]
    rw [hang, hang]
    refine (hB.mul (MEq.refl _)).trans (MEq.trans ?_ ((MEq.refl _).mul hA.symm))
    rw [psichi_std α, psichi_std φ, psichi_std (α + _), psichi_std α ε n, psichi_mul _ _ _ hε hs, psichi_mul _ _ _ hs hε,
      _root_.add_comm e.s ε]
    refine MEq.of_eq (psichi_congr _ (-z) ?_)
    change _ = 1 * (_ + sg e.s * _) + 0 + _
    change 1 * (_ + sg ε * _) + 0 = _
    rcases hγ with hγ | hγ
    · have : sg ε = 1 := by simp [sg, hγ]
      rw [this]
      push_cast
      linear_combination -hz
    · rw [hγ]
      push_cast
      linear_combination -hz
  · rcases hA with ⟨-, hA⟩ | ⟨h, -⟩
    swap; · omega
    rcases hB with ⟨h, -⟩ | ⟨-, hB, hB0⟩
    · omega
    refine MEq.trans ?_ ((MEq.refl _).mul hA.symm)
    have hx : (e.mu : ℝ) * (α + sg ε * φ) + e.gamma = (n * α + (m * α + (sg ε * (e.mu * φ) + e.gamma))) + z * (2 * π) := by
      linear_combination hz
    refine MEq12 ?_ ?_
    · simp only [Mat.mul, Finset.sum_range_succ, Finset.sum_range_zero, zero_add, angMat, psichi, m2, hB, hx, cos_add_int, sin_add_int]
      simp only [Real.cos_add, Real.sin_add, hB0]
      simp
      have hcs := Real.cos_sq_add_sin_sq (n * α)
      rcases hγ with hγ | ⟨h1, h2⟩ | ⟨h1, h2⟩
      · rw [hγ]; simp [sg]
        linear_combination -(cos (m * α) * (cos (e.mu * φ) * cos e.gamma - sin (e.mu * φ) * sin e.gamma)) * hcs
      · rcases hε with h | h <;> simp [h, h1, h2, sg]
        · linear_combination -(cos (m * α) * (cos (e.mu * φ))) * hcs
        · linear_combination -(cos (m * α) * (cos (e.mu * φ))) * hcs
      · rcases hε with h | h <;> simp [h, h1, h2, sg]
        · linear_combination (cos (m * α) * (sin (e.mu * φ))) * hcs
        · linear_combination -(cos (m * α) * (sin (e.mu * φ))) * hcs
    · simp only [Mat.mul, Finset.sum_range_succ, Finset.sum_range_zero, zero_add, angMat, psichi, m2, hB, hx, cos_add_int, sin_add_int]
      simp only [Real.cos_add, Real.sin_add, hB0]
      simp
      have hcs := Real.cos_sq_add_sin_sq (n * α)
      rcases hγ with hγ | ⟨h1, h2⟩ | ⟨h1, h2⟩
      · rw [hγ]; simp [sg]
        linear_combination -(cos (m * α) * (sin (e.mu * φ) * cos e.gamma + cos (e.mu * φ) * sin e.gamma)) * hcs
      · rcases hε with h | h <;> simp [h, h1, h2, sg]
        · linear_combination -(cos (m * α) * (sin (e.mu * φ))) * hcs
        · linear_combination -(cos (m * α) * (sin (e.mu * φ))) * hcs
      · rcases hε with h | h <;> simp [h, h1, h2, sg]
        · linear_combination -(cos (m * α) * (cos (e.mu * φ))) * hcs
        · linear_combination (cos (m * α) * (cos (e.mu * φ))) * hcs
  · rcases hB with ⟨-, hB⟩ | ⟨h, -⟩
    swap; · omega
    rcases hA with ⟨h, -⟩ | ⟨-, hA, hA0⟩
    · omega
    refine (hB.mul (MEq.refl _)).trans ?_
    have hx : (e.mu : ℝ) * (α + sg ε * φ) + e.gamma = (n * α + (m * α + (sg ε * (e.mu * φ) + e.gamma))) + z * (2 * π) := by
      linear_combination hz
    have hcs := Real.cos_sq_add_sin_sq (n * α)
    rw [hA0] at hcs
    refine MEq21 ?_ ?_
    · simp only [Mat.mul, Finset.sum_range_succ, Finset.sum_range_zero, zero_add, angMat, psichi, m2, hA, hx, cos_add_int, sin_add_int]
      simp only [Real.cos_add, Real.sin_add, hA0]
      simp
      rcases hγ with hγ | ⟨h1, h2⟩ | ⟨h1, h2⟩
      · rw [hγ]; simp [sg]
        linear_combination -(cos (m * α) * (cos (e.mu * φ) * cos e.gamma - sin (e.mu * φ) * sin e.gamma)
          - sin (m * α) * (sin (e.mu * φ) * cos e.gamma + cos (e.mu * φ) * sin e.gamma)) * hcs
      · rcases hε with h | h <;> simp [h, h1, h2, sg]
        · linear_combination -(cos (m * α) * cos (e.mu * φ) - sin (m * α) * sin (e.mu * φ)) * hcs
        · linear_combination -(cos (m * α) * cos (e.mu * φ) + sin (m * α) * sin (e.mu * φ)) * hcs
      · rcases hε with h | h <;> simp [h, h1, h2, sg]
        · linear_combination (cos (m * α) * sin (e.mu * φ) + sin (m * α) * cos (e.mu * φ)) * hcs
        · linear_combination (cos (m * α) * sin (e.mu * φ) - sin (m * α) * cos (e.mu * φ)) * hcs
    · simp only [Mat.mul, Finset.sum_range_succ, Finset.sum_range_zero, zero_add, angMat, psichi, m2, hA, hx, cos_add_int, sin_add_int]
      simp only [Real.cos_add, Real.sin_add, hA0]
      simp
      rcases hγ with hγ | ⟨h1, h2⟩ | ⟨h1, h2⟩
      · rw [hγ]; simp [sg]
        linear_combination -(sin (m * α) * (cos (e.mu * φ) * cos e.gamma - sin (e.mu * φ) * sin e.gamma)
          + cos (m * α) * (sin (e.mu * φ) * cos e.gamma + cos (e.mu * φ) * sin e.gamma)) * hcs
      · rcases hε with h | h <;> simp [h, h1, h2, sg]
        · linear_combination -(sin (m * α) * cos (e.mu * φ) + cos (m * α) * sin (e.mu * φ)) * hcs
        · linear_combination -(sin (m * α) * cos (e.mu * φ) - cos (m * α) * sin (e.mu * φ)) * hcs
      · rcases hε with h | h <;> simp [h, h1, h2, sg]
        · linear_combination -(cos (m * α) * cos (e.mu * φ) - sin (m * α) * sin (e.mu * φ)) * hcs
        · linear_combination (cos (m * α) * cos (e.mu * φ) + sin (m * α) * sin (e.mu * φ)) * hcs
  · rcases hB with ⟨h, -⟩ | ⟨-, hB, hB0⟩
    · omega
    rcases hA with ⟨h, -⟩ | ⟨-, hA, hA0⟩
    · omega
    have hx : (e.mu : ℝ) * (α + sg ε * φ) + e.gamma = (m * α + (-(n * α) + (sg ε * (e.mu * φ) + e.gamma))) + z * (2 * π) := by
      linear_combination hz
    have hcs := Real.cos_sq_add_sin_sq (n * α)
    rw [hA0] at hcs
    refine MEq_m1 ?_
    simp only [Mat.mul, Finset.sum_range_succ, Finset.sum_range_zero, zero_add, angMat, hA, hB, hx, cos_add_int, sin_add_int]
    simp only [Real.cos_add, Real.sin_add, Real.cos_neg, Real.sin_neg, hA0, hB0]
    simp [m1_00]
    rcases hγ with hγ | ⟨h1, h2, h3⟩
    · rw [hγ]; simp [sg]
      linear_combination -(cos (m * α) * (cos (e.mu * φ) * cos e.gamma - sin (e.mu * φ) * sin e.gamma)) * hcs
    · rcases h3 with ⟨h3, h4⟩ | ⟨h3, h4⟩
      · rcases hε with h | h <;> rcases h1 with h1 | h1 <;> simp [h, h4, ← h3, h1, sg]
        all_goals linear_combination -(cos (m * α) * (cos (e.mu * φ))) * hcs
      · rcases hε with h | h <;> rcases h1 with h1 | h1 <;> rcases h2 with h2 | h2 <;>
          first | (exfalso; omega) | simp [h, h4, h1, h2, sg]
        all_goals linear_combination -(cos (m * α) * (sin (e.mu * φ))) * hcs

/-- The sampled matrix only depends on the angle modulo `2π`. -/
theorem angMat_periodic (so si : ℕ) (e : AngElem) (φ : ℝ) (z : ℤ) : angMat so si e (φ + z * (2 * π)) = angMat so si e φ := by
  have h : (e.mu : ℝ) * (φ + z * (2 * π)) + e.gamma = e.mu * φ + e.gamma + ((e.mu * z : ℤ) : ℝ) * (2 * π) := by
    push_cast; ring
  simp only [angMat, psichi, h, cos_add_int, sin_add_int]

theorem angMat_const (so si : ℕ) (e : AngElem) (h : e.mu = 0) (φ φ' : ℝ) : angMat so si e φ = angMat so si e φ' := by
  simp [angMat, psichi, h]

/-- The intertwining property at the points of the plane. -/
theorem angSample_intertwine {so si m n fo fi : ℕ} {e : AngElem} {g : ℤ × ℝ} (hε : g.1 = 0 ∨ g.1 = 1) {A B : Mat}
    (hA : IrrepAt si A n fi g.1 g.2) (hB : IrrepAt so B m fo g.1 g.2) (he : ElemOk so si m n fo fi e g.1 g.2)
    (axis : ℝ) (p : ℝ × ℝ) :
    MEq so si (Mat.mul so B (angSample axis so si e (angle p)))
      (Mat.mul si (angSample axis so si e (angle (planeAct axis g p))) A) := by
  rcases angle_planeAct axis hε p with ⟨h1, h2⟩ | ⟨θ, θ', h1, h2, z, hz⟩
  · rw [h1, h2]
    by_cases h0 : e.mu = 0
    · simp only [angSample, h0, ne_eq, not_true_eq_false, and_false, if_false]
      refine (angMat_intertwine hε hA hB he _).trans ?_
      rw [angMat_const so si e h0]
      exact MEq.refl _
    · simp only [angSample, h0, ne_eq, not_false_eq_true, and_self, if_true]
      intro i _ j _
      simp [Mat.mul]
  · rw [h1, h2]
    simp only [angSample, reduceCtorEq, false_and, if_false, Option.getD_some]
    have e1 : θ' - axis = g.2 + sg g.1 * (θ - axis) + z * (2 * π) := by
      rw [hz, sg]
    rw [e1, angMat_periodic]
    exact angMat_intertwine hε hA hB he _

/-- From the intertwining property to the kernel constraint. -/
theorem constraint_of_intertwine {El X : Type} {G : Grp El} {act : El → X → X} {so si : ℕ} {ρo ρi : El → Mat} {κ : X → Mat}
    (hρ : ∀ g, G.isEl g → MEq si si (Mat.mul si (ρi g) (ρi (G.inv g))) Mat.one)
    (h : ∀ g, G.isEl g → ∀ x, MEq so si (Mat.mul so (ρo g) (κ x)) (Mat.mul si (κ (act g x)) (ρi g))) :
    KernelConstraint G act so si ρo ρi κ := by
  intro g hg x
  refine MEq.symm (((h g hg x).mul (MEq.refl _)).trans ?_)
  rw [Mat.mul_assoc]
  exact ((MEq.refl _).mul (hρ g hg)).trans (MEq_mul_one _ _ _)

/-- A radial factor does not matter. -/
theorem constraint_polar {El : Type} {G : Grp El} {act : El → ℝ × ℝ → ℝ × ℝ} {so si : ℕ} {ρo ρi : El → Mat}
    (hact : ∀ g p, radius (act g p) = radius p) {κ : Option ℝ → Mat}
    (h : KernelConstraint G act so si ρo ρi fun p => κ (angle p)) (radial : ℝ → ℝ) :
    KernelConstraint G act so si ρo ρi (polar radial κ) := by
  intro g hg p i hi j hj
  have := h g hg p i hi j hj
  simp only [polar, hact] at this ⊢
  rw [this]
  simp only [Mat.mul, Finset.mul_sum, Finset.sum_mul]
  refine Finset.sum_congr rfl fun a _ => Finset.sum_congr rfl fun b _ => ?_
  simp only [polar]
  ring

/-- Inverses are elements and are inverse on the right. -/
def Grp.InvOk {El : Type} (G : Grp El) : Prop := ∀ g, G.isEl g → G.isEl (G.inv g) ∧ G.op g (G.inv g) = G.one

theorem IsRep.mul_inv {El : Type} {G : Grp El} {n : ℕ} {ρ : El → Mat} (h : IsRep G n ρ) (hG : G.InvOk) (g : El) (hg : G.isEl g) :
    MEq n n (Mat.mul n (ρ g) (ρ (G.inv g))) Mat.one := by
  refine (h.mul g _ hg (hG g hg).1).symm.trans ?_
  rw [(hG g hg).2]
  exact h.one

theorem planeAct_rot (axis α : ℝ) (p : ℝ × ℝ) : planeAct axis (0, α) p = rot α p := by simp [planeAct]

theorem rot_zero (p : ℝ × ℝ) : rot 0 p = p := by simp [rot]

/-- The constraint for a polar basis element, for a group acting through pairs (flip, angle). -/
theorem polar_constraint {El : Type} {G : Grp El} (hG : G.InvOk) (toPair : El → ℤ × ℝ) {so si m n fo fi : ℕ} {ρo ρi : El → Mat}
    (hρ : IsRep G si ρi) {e : AngElem} (hε : ∀ g, G.isEl g → (toPair g).1 = 0 ∨ (toPair g).1 = 1)
    (hi : ∀ g, G.isEl g → IrrepAt si (ρi g) n fi (toPair g).1 (toPair g).2)
    (ho : ∀ g, G.isEl g → IrrepAt so (ρo g) m fo (toPair g).1 (toPair g).2)
    (he : ∀ g, G.isEl g → ElemOk so si m n fo fi e (toPair g).1 (toPair g).2) (axis : ℝ) (radial : ℝ → ℝ) :
    KernelConstraint G (fun g => planeAct axis (toPair g)) so si ρo ρi (polar radial (angSample axis so si e)) := by
  refine constraint_polar (fun g p => radius_planeAct axis (toPair g) p) ?_ radial
  refine constraint_of_intertwine (fun g hg => hρ.mul_inv hG g hg) fun g hg p => ?_
  exact angSample_intertwine (hε g hg) (hi g hg) (ho g hg) (he g hg) axis p

/-! ### The loops -/

theorem offsetLoop_mem {k N : ℤ} {maxOff maxFreq : Option ℕ} {nonneg : Bool} {keep : ℤ → Prop} [DecidablePred keep]
    {gamma : ℝ} {s : ℤ} {l : List AngElem} (h : offsetLoop k N maxOff maxFreq nonneg keep gamma s = some l) {e : AngElem}
    (he : e ∈ l) : e.gamma = gamma ∧ e.s = s ∧ e.mu = k + e.t * N ∧ keep e.mu := by
  unfold offsetLoop at h
  split at h
  · exact absurd h (by simp)
  · split_ifs at h
    cases h
    rw [List.mem_map] at he
    obtain ⟨t, ht, rfl⟩ := he
    rw [List.mem_filter] at ht
    exact ⟨rfl, rfl, rfl, by simpa using ht.2⟩

/-- The assertions in the loops never fail. -/
theorem offsetLoop_some (k N : ℤ) (hN : 0 < N) {maxOff maxFreq : Option ℕ} (hb : ¬ (maxFreq = none ∧ maxOff = none))
    (nonneg : Bool) (keep : ℤ → Prop) [DecidablePred keep] (gamma : ℝ) (s : ℤ) :
    ∃ l, offsetLoop k N maxOff maxFreq nonneg keep gamma s = some l := by
  have key : ∃ ts, offsets k N maxOff maxFreq nonneg = some ts ∧ ∀ t ∈ ts, freqOk maxOff maxFreq t (k + t * N) = true := by
    cases maxFreq with
    | none =>
      cases maxOff with
      | none => exact absurd ⟨rfl, rfl⟩ hb
      | some O =>
        obtain ⟨l, h1, -, h3⟩ := c14_offsets_without_frequency k N hN.le O nonneg
        refine ⟨l, h1, fun t ht => ?_⟩
        have := ((h3 t).1 ht).1
        simp [freqOk, this]
    | some F =>
      obtain ⟨l, h1, -, h3⟩ := c14_offsets k N hN maxOff F nonneg
      refine ⟨l, h1, fun t ht => ?_⟩
      have := (h3 (k + t * N)).1 (List.mem_map.2 ⟨t, ht, rfl⟩)
      obtain ⟨-, h2, -, h4⟩ := this
      rw [add_sub_cancel_left, Int.mul_ediv_cancel _ hN.ne'] at h4
      cases maxOff with
      | none => simp [freqOk, h2]
      | some O => simp [freqOk, h2, h4 O rfl]
  obtain ⟨ts, h1, h2⟩ := key
  unfold offsetLoop
  rw [h1]
  dsimp only
  rw [if_pos (by simpa [List.all_eq_true] using h2)]
  exact ⟨_, rfl⟩

theorem concatOpt_mem {α : Type} {ls : List (Option (List α))} {l : List α} (h : concatOpt ls = some l) {x : α} (hx : x ∈ l) :
    ∃ l', some l' ∈ ls ∧ x ∈ l' := by
  induction ls generalizing l with
  | nil => simp only [concatOpt, Option.some.injEq] at h; subst h; simp at hx
  | cons a ls ih =>
    cases a with
    | none => simp [concatOpt] at h
    | some a =>
      simp only [concatOpt] at h
      split at h
      · simp at h
      · next r hr =>
        cases h
        rcases List.mem_append.1 hx with h | h
        · exact ⟨a, by simp, h⟩
        · obtain ⟨l', h1, h2⟩ := ih hr h
          exact ⟨l', by simp [h1], h2⟩

theorem concatOpt_some {α : Type} {ls : List (Option (List α))} (h : ∀ x ∈ ls, ∃ l, x = some l) : ∃ l, concatOpt ls = some l := by
  induction ls with
  | nil => exact ⟨[], rfl⟩
  | cons a ls ih =>
    obtain ⟨a', rfl⟩ := h a (by simp)
    obtain ⟨r, hr⟩ := ih fun x hx => h x (by simp [hx])
    exact ⟨a' ++ r, by simp [concatOpt, hr]⟩

end E2
