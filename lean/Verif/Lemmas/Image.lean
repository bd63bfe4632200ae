import Mathlib.Analysis.SpecialFunctions.Trigonometric.Basic
import Mathlib.Tactic.Ring
import Mathlib.Tactic.Linarith
import Mathlib.Tactic.FieldSimp
import Verif.Props.GroupLaws
import Verif.Props.ImageSpec

/-!
# Symmetries of the pixel grid
-/

namespace E2

open Real

/-- A symmetry of the square: optionally exchange the axes, then optionally reverse each of them. -/
structure GSym where
  swap : Bool
  revI : Bool
  revJ : Bool

namespace GSym

/-- Its action on the indices of an `n × n` array. -/
def ap (τ : GSym) (n : ℕ) (p : ℕ × ℕ) : ℕ × ℕ :=
  (if τ.revI then n - 1 - (if τ.swap then p.2 else p.1) else (if τ.swap then p.2 else p.1),
   if τ.revJ then n - 1 - (if τ.swap then p.1 else p.2) else (if τ.swap then p.1 else p.2))

/-- Its action on the plane. -/
noncomputable def lin (τ : GSym) (p : ℝ × ℝ) : ℝ × ℝ :=
  (if τ.revJ then -(if τ.swap then -p.2 else p.1) else (if τ.swap then -p.2 else p.1),
   if τ.revI then -(if τ.swap then -p.1 else p.2) else (if τ.swap then -p.1 else p.2))

theorem ap_lt (τ : GSym) {n i j : ℕ} (hi : i < n) (hj : j < n) : (τ.ap n (i, j)).1 < n ∧ (τ.ap n (i, j)).2 < n := by
  obtain ⟨s, a, b⟩ := τ
  cases s <;> cases a <;> cases b <;> simp [ap] <;> omega

theorem pix_ap (τ : GSym) {n i j : ℕ} (hi : i < n) (hj : j < n) : pix n (τ.ap n (i, j)) = τ.lin (pix n (i, j)) := by
  have hi' : ((n - 1 - i : ℕ) : ℝ) = n - 1 - i := by
    rw [Nat.sub_sub, Nat.cast_sub (by omega)]; push_cast; ring
  have hj' : ((n - 1 - j : ℕ) : ℝ) = n - 1 - j := by
    rw [Nat.sub_sub, Nat.cast_sub (by omega)]; push_cast; ring
  obtain ⟨s, a, b⟩ := τ
  cases s <;> cases a <;> cases b <;> simp only [ap, lin, pix, hi', hj', if_true, if_false, Bool.false_eq_true] <;>
    refine Prod.ext ?_ ?_ <;> simp only <;> ring

theorem sum_ap (τ : GSym) (k : ℕ) (f : ℕ × ℕ → ℝ) :
    ∑ a ∈ Finset.range k, ∑ b ∈ Finset.range k, f (τ.ap k (a, b)) = ∑ a ∈ Finset.range k, ∑ b ∈ Finset.range k, f (a, b) := by
  have key : ∀ (u v : Bool) (g : ℕ × ℕ → ℝ), ∑ a ∈ Finset.range k, ∑ b ∈ Finset.range k,
      g (if u then k - 1 - a else a, if v then k - 1 - b else b) = ∑ a ∈ Finset.range k, ∑ b ∈ Finset.range k, g (a, b) := by
    intro u v g
    have h1 : ∀ a, ∑ b ∈ Finset.range k, g (a, if v then k - 1 - b else b) = ∑ b ∈ Finset.range k, g (a, b) := by
      intro a
      cases v
      · simp
      · simpa using Finset.sum_range_reflect (fun b => g (a, b)) k
    simp only [h1]
    cases u
    · simp
    · simpa using Finset.sum_range_reflect (fun a => ∑ b ∈ Finset.range k, g (a, b)) k
  obtain ⟨s, u, v⟩ := τ
  cases s
  · simpa [ap] using key u v f
  · rw [Finset.sum_comm]
    simpa [ap] using key u v f

/-- Windows are mapped to windows: `N - 1 = (m - 1) s + (k - 1) d`. -/
theorem ap_window (τ : GSym) {N m k s d i j a b : ℕ} (hN : N = (m - 1) * s + (k - 1) * d + 1) (hi : i < m) (hj : j < m) (ha : a < k) (hb : b < k) :
    τ.ap N (i * s + a * d, j * s + b * d) =
      ((τ.ap m (i, j)).1 * s + (τ.ap k (a, b)).1 * d, (τ.ap m (i, j)).2 * s + (τ.ap k (a, b)).2 * d) := by
  have key : ∀ {i a : ℕ}, i < m → a < k → N - 1 - (i * s + a * d) = (m - 1 - i) * s + (k - 1 - a) * d := by
    intro i a hi ha
    have e1 : (m - 1 - i) * s = (m - 1) * s - i * s := Nat.sub_mul _ _ _
    have e2 : (k - 1 - a) * d = (k - 1) * d - a * d := Nat.sub_mul _ _ _
    have l1 : i * s ≤ (m - 1) * s := Nat.mul_le_mul_right _ (by omega)
    have l2 : a * d ≤ (k - 1) * d := Nat.mul_le_mul_right _ (by omega)
    omega
  obtain ⟨x, y, z⟩ := τ
  cases x <;> cases y <;> cases z <;> simp [ap, key hi ha, key hj hb]

/-- Followed by the reversal of the rows. -/
def thenFlip (τ : GSym) : GSym := ⟨τ.swap, !τ.revI, τ.revJ⟩

/-- The symmetry of `rot90`. -/
def quarter (k : ℤ) : GSym :=
  if k % 4 = 0 then ⟨false, false, false⟩
  else if k % 4 = 2 then ⟨false, true, true⟩
  else if k % 4 = 1 then ⟨true, false, true⟩
  else ⟨true, true, false⟩

end GSym

theorem rot90_eq (n : ℕ) (k : ℤ) (x : Img) (i j : ℕ) :
    rot90 n k x i j = x ((GSym.quarter k).ap n (i, j)).1 ((GSym.quarter k).ap n (i, j)).2 := by
  unfold rot90 GSym.quarter
  split_ifs <;> rfl

theorem flip0_ap (τ : GSym) (n : ℕ) (x : Img) {i j : ℕ} (hi : i < n) (hj : j < n) :
    x.flip0 n (τ.ap n (i, j)).1 (τ.ap n (i, j)).2 = x (τ.thenFlip.ap n (i, j)).1 (τ.thenFlip.ap n (i, j)).2 := by
  obtain ⟨s, a, b⟩ := τ
  cases s <;> cases a <;> cases b <;> simp [GSym.ap, GSym.thenFlip, Img.flip0] <;>
    (congr 1; omega)

theorem quarter_floor {θ : ℝ} {k : ℤ} (h : θ = k * (π / 2)) : 2 * θ / π = k := by
  have := pi_ne_zero
  subst h
  field_simp

theorem rotateArray_quarter (interp : ℝ → Img → Img) (n : ℕ) (x : Img) {θ : ℝ} {k : ℤ} (h : θ = k * (π / 2)) :
    rotateArray interp n x θ = rot90 n k x := by
  have h1 := quarter_floor h
  unfold rotateArray
  rw [if_pos ⟨k, h1⟩, h1, Int.floor_intCast]

theorem cos_sin_quarter (k : ℤ) : (cos (k * (π / 2)), sin (k * (π / 2))) =
    if k % 4 = 0 then ((1 : ℝ), (0 : ℝ)) else if k % 4 = 2 then (-1, 0) else if k % 4 = 1 then (0, 1) else (0, -1) := by
  have hk : (k : ℝ) * (π / 2) = ((k % 4 : ℤ) : ℝ) * (π / 2) + (k / 4 : ℤ) * (2 * π) := by
    have : (k : ℝ) = ((k % 4 : ℤ) : ℝ) + 4 * (k / 4 : ℤ) := by exact_mod_cast (Int.emod_add_mul_ediv k 4).symm
    rw [this]
    have e : ((((k % 4 : ℤ) : ℝ) + 4 * ((k / 4 : ℤ) : ℝ)) * (π / 2)) = ((k % 4 : ℤ) : ℝ) * (π / 2) + ((k / 4 : ℤ) : ℝ) * (2 * π) := by ring
    rw [← e]
  rw [hk, cos_add_int_mul_two_pi, sin_add_int_mul_two_pi]
  have h4 : k % 4 = 0 ∨ k % 4 = 1 ∨ k % 4 = 2 ∨ k % 4 = 3 := by omega
  rcases h4 with h | h | h | h <;> rw [h]
  · simp
  · simp
  · norm_num
    have : (2 : ℝ) * (π / 2) = π := by ring
    rw [this]; simp
  · norm_num
    have : (3 : ℝ) * (π / 2) = π + π / 2 := by ring
    rw [this, cos_add, sin_add]; simp

/-- The symmetry used by `rot90` is the inverse of the rotation. -/
theorem rot_quarter (k : ℤ) (p : ℝ × ℝ) : rot (k * (π / 2)) ((GSym.quarter k).lin p) = p := by
  have h := cos_sin_quarter k
  obtain ⟨h1, h2⟩ := Prod.ext_iff.1 h
  simp only at h1 h2
  unfold rot GSym.quarter
  rw [h1, h2]
  obtain ⟨x, y⟩ := p
  split_ifs <;> simp [GSym.lin]

theorem rot_quarter_flip (k : ℤ) (p : ℝ × ℝ) : rot (k * (π / 2)) (refl 0 ((GSym.quarter k).thenFlip.lin p)) = p := by
  have h := cos_sin_quarter k
  obtain ⟨h1, h2⟩ := Prod.ext_iff.1 h
  simp only at h1 h2
  unfold rot refl GSym.quarter
  rw [h1, h2]
  obtain ⟨x, y⟩ := p
  split_ifs <;> simp [GSym.lin, GSym.thenFlip]

theorem rot_rot (α β : ℝ) (p : ℝ × ℝ) : rot α (rot β p) = rot (α + β) p := by
  unfold rot
  rw [cos_add, sin_add]
  refine Prod.ext ?_ ?_ <;> simp only <;> ring

theorem rot_refl (α a : ℝ) (p : ℝ × ℝ) : rot α (refl a p) = rot (α + 2 * a) (refl 0 p) := by
  unfold rot refl
  rw [cos_add, sin_add]
  simp only [mul_zero, cos_zero, sin_zero]
  refine Prod.ext ?_ ?_ <;> simp only <;> ring

theorem rot_zero (p : ℝ × ℝ) : rot 0 p = p := by simp [rot]

/-- What the elements which permute the pixels do. -/
def Space.GridAction {El : Type} (Sp : Space El) : Prop :=
  ∀ g, Sp.G.isEl g → Sp.grid g → ∃ τ : GSym,
    (∀ n x i j, i < n → j < n → Sp.base n g x i j = x (τ.ap n (i, j)).1 (τ.ap n (i, j)).2) ∧ ∀ p, Sp.act g (τ.lin p) = p

theorem rotate_grid (interp : ℝ → Img → Img) {θ : ℝ} (h : Quarter θ) : ∃ τ : GSym,
    (∀ n x i j, i < n → j < n → rotateArray interp n x θ i j = x (τ.ap n (i, j)).1 (τ.ap n (i, j)).2) ∧ ∀ p, rot θ (τ.lin p) = p := by
  obtain ⟨k, hk⟩ := h
  refine ⟨GSym.quarter k, fun n x i j _ _ => ?_, fun p => ?_⟩
  · rw [rotateArray_quarter interp n x hk, rot90_eq]
  · rw [hk, rot_quarter]

theorem rotate_flip_grid (interp : ℝ → Img → Img) {θ : ℝ} (h : Quarter θ) : ∃ τ : GSym,
    (∀ n (x : Img) i j, i < n → j < n → rotateArray interp n (x.flip0 n) θ i j = x (τ.ap n (i, j)).1 (τ.ap n (i, j)).2) ∧
    ∀ p, rot θ (refl 0 (τ.lin p)) = p := by
  obtain ⟨k, hk⟩ := h
  refine ⟨(GSym.quarter k).thenFlip, fun n x i j hi hj => ?_, fun p => ?_⟩
  · rw [rotateArray_quarter interp n _ hk, rot90_eq, flip0_ap _ _ _ hi hj]
  · rw [hk, rot_quarter_flip]

theorem quarter_zero : Quarter 0 := ⟨0, by simp⟩

theorem rotateArray_zero (interp : ℝ → Img → Img) (n : ℕ) (x : Img) : rotateArray interp n x 0 = x := by
  rw [rotateArray_quarter interp n x (k := 0) (by simp)]; rfl

theorem trivialSpace_grid : trivialSpace.GridAction := by
  intro g _ _
  exact ⟨⟨false, false, false⟩, fun n x i j _ _ => rfl, fun p => rfl⟩

theorem rotSpace_grid (interp : ℝ → Img → Img) (N : ℕ) (hN : 0 < N) : (rotSpace interp N).GridAction := by
  intro g hg hq
  have e : (if N > 1 then (g : ℝ) * 2 * π / N else g) = g * (2 * π / N) := by
    split_ifs with h
    · ring
    · have : N = 1 := by omega
      subst this
      have h0 : g = 0 := by
        have : 0 ≤ g ∧ g < 1 := by
          have := (Cyclic.isElement_iff 1 g).1 hg
          simpa using this
        omega
      simp [h0]
  obtain ⟨τ, h1, h2⟩ := rotate_grid interp hq
  refine ⟨τ, fun n x i j hi hj => ?_, h2⟩
  simp only [rotSpace, rotBase, e]
  exact h1 n x i j hi hj

theorem so2Space_grid (interp : ℝ → Img → Img) : (so2Space interp).GridAction := fun _ _ hq => rotate_grid interp hq

theorem refl_eq (a : ℝ) (p : ℝ × ℝ) : refl a p = rot (2 * a) (refl 0 p) := by
  have := rot_refl 0 a p
  rwa [rot_zero, zero_add] at this

theorem flipSpace_grid (interp : ℝ → Img → Img) (axis : ℝ) : (flipSpace interp axis).GridAction := by
  intro g _ hq
  by_cases h0 : g = 0
  · subst h0
    exact ⟨⟨false, false, false⟩, fun n x i j _ _ => rfl, fun p => rfl⟩
  · obtain ⟨τ, h1, h2⟩ := rotate_flip_grid interp (hq.resolve_left h0)
    refine ⟨τ, fun n x i j hi hj => ?_, fun p => ?_⟩
    · rw [← h1 n x i j hi hj]
      simp only [flipSpace, flipBase, if_pos h0]
      split_ifs with ha
      · rfl
      · have : axis = 0 := not_not.1 ha
        rw [this, mul_zero, rotateArray_zero]
    · simp only [flipSpace, if_neg h0]
      rw [refl_eq]; exact h2 p

theorem flipRot_grid (interp : ℝ → Img → Img) (axis : ℝ) (f : ℤ) (r : ℝ) (hq : Quarter (r + if f = 0 then 0 else 2 * axis)) :
    ∃ τ : GSym, (∀ n x i j, i < n → j < n → flipRotBase' interp axis n f r x i j = x (τ.ap n (i, j)).1 (τ.ap n (i, j)).2) ∧
      ∀ p, planeAct axis (f, r) (τ.lin p) = p := by
  have hz : ∀ (n : ℕ) (x : Img) (t : ℝ), (open Classical in if t ≠ 0 then rotateArray interp n x t else x) = rotateArray interp n x t := by
    intro n x t
    split_ifs with h
    · rfl
    · rw [not_not.1 h, rotateArray_zero]
  by_cases h0 : f = 0
  · rw [if_pos h0, add_zero] at hq
    obtain ⟨τ, h1, h2⟩ := rotate_grid interp hq
    refine ⟨τ, fun n x i j hi hj => ?_, fun p => ?_⟩
    · rw [← h1 n x i j hi hj]
      simp only [flipRotBase', h0, ne_eq, not_true, if_false]
      exact congrFun (congrFun (hz n x r) i) j
    · simp only [planeAct, if_pos h0]; exact h2 p
  · rw [if_neg h0] at hq
    obtain ⟨τ, h1, h2⟩ := rotate_flip_grid interp hq
    refine ⟨τ, fun n x i j hi hj => ?_, fun p => ?_⟩
    · rw [← h1 n x i j hi hj]
      simp only [flipRotBase', h0, ne_eq, not_false_eq_true, if_true]
      exact congrFun (congrFun (hz n (x.flip0 n) (r + 2 * axis)) i) j
    · simp only [planeAct, if_neg h0]
      rw [rot_refl]; exact h2 p

theorem flipRotSpace_grid (interp : ℝ → Img → Img) (N : ℕ) (axis : ℝ) : (flipRotSpace interp N axis).GridAction := by
  intro g _ hq
  obtain ⟨τ, h1, h2⟩ := flipRot_grid interp axis g.1 (g.2 * (2 * π / N)) hq
  refine ⟨τ, fun n x i j hi hj => ?_, h2⟩
  have e : (g.2 : ℝ) * 2 * π / N = g.2 * (2 * π / N) := by ring
  simp only [flipRotSpace, flipRotBase, e]
  exact h1 n x i j hi hj

theorem o2Space_grid (interp : ℝ → Img → Img) (axis : ℝ) : (o2Space interp axis).GridAction :=
  fun g _ hq => flipRot_grid interp axis g.1 g.2 hq

theorem pix_inj {n : ℕ} {p q : ℕ × ℕ} (h : pix n p = pix n q) : p = q := by
  obtain ⟨h1, h2⟩ := Prod.ext_iff.1 h
  simp only [pix] at h1 h2
  have e1 : (p.2 : ℝ) = q.2 := by linarith
  have e2 : (p.1 : ℝ) = q.1 := by linarith
  exact Prod.ext (by exact_mod_cast e2) (by exact_mod_cast e1)

end E2
