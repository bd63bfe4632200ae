import Verif.Props.ConcatBuild
import Mathlib.Analysis.SpecialFunctions.Trigonometric.DerivHyp

/-!
The function chosen by `ConcatenatedNonLinearity.__init__` (C103), described by what it does with the numbers.
-/

namespace E2

/-- What a function with one of the three names is. -/
def NamedFunction (name : String) (f : ℝ → ℝ) : Prop :=
  (name = "c_relu" ∧ ∀ x, (0 ≤ x → f x = x) ∧ (x ≤ 0 → f x = 0)) ∨
    (name = "c_sigmoid" ∧ ∀ x, f x = Real.exp x * (1 - f x)) ∨
    (name = "c_tanh" ∧ ∀ x, f x * Real.cosh x = Real.sinh x)

/-- **C103**: the constructor chooses a function exactly for the three names, and the function is the one with that name. -/
theorem c103_function (name : String) (f : ℝ → ℝ) : concatFunction name = some f ↔ NamedFunction name f := by
  have hpos : ∀ x : ℝ, 1 + Real.exp (-x) ≠ 0 := fun x => (by positivity)
  have hpos' : ∀ x : ℝ, 1 + Real.exp x ≠ 0 := fun x => (by positivity)
  have hc : ∀ x : ℝ, Real.cosh x ≠ 0 := fun x => (Real.cosh_pos x).ne'
  unfold concatFunction NamedFunction
  by_cases h1 : name = "c_relu"
  · subst h1
    simp only [if_true, Option.some.injEq, true_and, String.reduceEq, false_and, or_false]
    constructor
    · rintro rfl x
      exact ⟨fun h => max_eq_left h, fun h => max_eq_right h⟩
    · intro h
      funext x
      rcases le_total 0 x with hx | hx
      · rw [(h x).1 hx]; exact max_eq_left hx
      · rw [(h x).2 hx]; exact max_eq_right hx
  by_cases h2 : name = "c_sigmoid"
  · subst h2
    simp only [String.reduceEq, if_false, if_true, Option.some.injEq, true_and, false_and, or_false, false_or]
    have key : ∀ x : ℝ, 1 / (1 + Real.exp (-x)) * (1 + Real.exp x) = Real.exp x := by
      intro x
      have := hpos x
      rw [Real.exp_neg] at this ⊢
      have he := (Real.exp_pos x).ne'
      field_simp
      have h' : Real.exp x + 1 ≠ 0 := by positivity
      first | ring | (rw [div_eq_iff h']; ring)
    constructor
    · rintro rfl x
      have := key x
      linarith
    · intro h
      funext x
      apply mul_right_cancel₀ (hpos' x)
      rw [key x]
      have := h x
      linarith
  by_cases h3 : name = "c_tanh"
  · subst h3
    simp only [String.reduceEq, if_false, if_true, Option.some.injEq, true_and, false_and, false_or]
    constructor
    · rintro rfl x
      rw [Real.tanh_eq_sinh_div_cosh, div_mul_cancel₀ _ (hc x)]
    · intro h
      funext x
      rw [Real.tanh_eq_sinh_div_cosh, ← h x, mul_div_cancel_right₀ _ (hc x)]
  · simp [h1, h2, h3]

/-- `c_relu` keeps 5 and sends -3 to 0; other names raise. -/
example : (∃ f, concatFunction "c_relu" = some f ∧ f 5 = 5 ∧ f (-3) = 0) ∧ ¬ ∃ f, concatFunction "relu" = some f := by
  constructor
  · have h : NamedFunction "c_relu" fun x => max x 0 := Or.inl ⟨rfl, fun x => ⟨fun h => max_eq_left h, fun h => max_eq_right h⟩⟩
    exact ⟨_, (c103_function _ _).2 h, by norm_num, by norm_num⟩
  · rintro ⟨f, hf⟩
    rcases (c103_function _ _).1 hf with ⟨h, -⟩ | ⟨h, -⟩ | ⟨h, -⟩ <;> simp at h

end E2
