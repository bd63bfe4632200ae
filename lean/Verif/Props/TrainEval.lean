import Verif.Model.TrainEval
import Mathlib.Data.List.Induction

/-!
# C27: evaluation mode uses the trained filter

The specification reads the mode and the parameters off the sequence of calls: the mode is given by the last call which sets it, the
parameters by the last assignment, and the trained parameters by the assignment before the last switch from training to evaluation.
-/

namespace E2

variable {W E X Y : Type}

/-- The mode after a sequence of calls, training at the start: the last `train()`, `eval()` or `export()` decides. -/
def modeOf : List (ConvOp W X) → Bool
  | ops => (ops.filterMap fun o => match o with
    | .train => some true
    | .eval => some false
    | .export_ => some false
    | _ => none).getLast?.getD true

/-- The parameters after a sequence of calls: the last ones assigned, else the initial ones. -/
def paramsOf (w0 : W) (ops : List (ConvOp W X)) : W :=
  (ops.filterMap fun o => match o with
    | .step w => some w
    | _ => none).getLast?.getD w0

/-- A call which switches to evaluation mode. -/
def ConvOp.toEval : ConvOp W X → Bool
  | .eval => true
  | .export_ => true
  | _ => false

def ConvOp.isTrain : ConvOp W X → Bool
  | .train => true
  | _ => false

theorem modeOf_append (ops : List (ConvOp W X)) (o : ConvOp W X) :
    modeOf (ops ++ [o]) = match o with
      | .train => true
      | .eval => false
      | .export_ => false
      | _ => modeOf ops := by
  cases o <;> simp [modeOf]

theorem paramsOf_append (w0 : W) (ops : List (ConvOp W X)) (o : ConvOp W X) :
    paramsOf w0 (ops ++ [o]) = match o with
      | .step w => w
      | _ => paramsOf w0 ops := by
  cases o <;> simp [paramsOf]

variable (expand : W → E) (apply : E → X → Y) (w0 : W) (zeros : E)

theorem run_append (ops : List (ConvOp W X)) (o : ConvOp W X) (s : ConvState W E) :
    s.run expand apply (ops ++ [o]) = ((s.run expand apply ops).run1 expand apply o).1 := by
  simp [ConvState.run]

theorem run_mode (ops : List (ConvOp W X)) : ((ConvState.init w0 zeros).run expand apply ops).training = modeOf ops := by
  induction ops using List.reverseRecOn with
  | nil => rfl
  | append_singleton ops o ih =>
    rw [run_append, modeOf_append, ← ih]
    cases o <;> rfl

theorem run_params (ops : List (ConvOp W X)) : ((ConvState.init w0 zeros).run expand apply ops).params = paramsOf w0 ops := by
  induction ops using List.reverseRecOn with
  | nil => rfl
  | append_singleton ops o ih =>
    rw [run_append, paramsOf_append, ← ih]
    cases o <;> rfl

/-- **C27, training**: when the last call setting the mode is `train()`, or there is none, the forward pass uses the expansion of the current
parameters. -/
theorem c27_training (ops : List (ConvOp W X)) (h : modeOf ops = true) (x : X) :
    ((ConvState.init w0 zeros).run expand apply ops).forward expand apply x = .output (apply (expand (paramsOf w0 ops)) x) := by
  rw [ConvState.forward, run_mode, h, run_params]
  rfl

/-- **C27, evaluation**: after a switch from training to evaluation mode, by `eval()` or `export()`, and as long as `train()` is not called, the
stored filter and bias are the expansion of the parameters at the moment of the switch: for all further calls of `eval()`, `forward()`,
`export()` and all assignments to the parameters.  The forward pass and the exported layers use them. -/
theorem c27_evaluation (pre post : List (ConvOp W X)) (o : ConvOp W X) (hpre : modeOf pre = true) (ho : o.toEval = true)
    (hpost : ∀ q ∈ post, ConvOp.isTrain q = false) :
    let s := (ConvState.init w0 zeros).run expand apply (pre ++ [o] ++ post)
    let e := expand (paramsOf w0 pre)
    s.stored = some e ∧ (∀ x, s.forward expand apply x = .output (apply e x)) ∧
      (s.run1 expand apply .export_).2 = .layer e := by
  have key : ∀ post : List (ConvOp W X), (∀ q ∈ post, ConvOp.isTrain q = false) →
      ((ConvState.init w0 zeros).run expand apply (pre ++ [o] ++ post)).stored = some (expand (paramsOf w0 pre)) ∧
        ((ConvState.init w0 zeros).run expand apply (pre ++ [o] ++ post)).training = false := by
    intro post
    induction post using List.reverseRecOn with
    | nil =>
      intro _
      rw [List.append_nil, run_append]
      have h1 := run_mode expand apply w0 zeros pre
      have h2 := run_params expand apply w0 zeros pre
      rw [hpre] at h1
      cases o <;> simp [ConvOp.toEval] at ho <;> simp [ConvState.run1, ConvState.setMode, h1, h2]
    | append_singleton post q ih =>
      intro hq
      obtain ⟨i1, i2⟩ := ih fun r hr => hq r (List.mem_append_left _ hr)
      have hq := hq q (by simp)
      rw [← List.append_assoc, run_append]
      generalize ConvState.run expand apply (ConvState.init w0 zeros) (pre ++ [o] ++ post) = st at i1 i2 ⊢
      cases q <;> simp [ConvOp.isTrain] at hq <;> simp [ConvState.run1, ConvState.setMode, i1, i2]
  obtain ⟨h1, h2⟩ := key post hpost
  intro s e
  refine ⟨h1, fun x => ?_, ?_⟩
  · simp only [ConvState.forward, s, h2, h1]; rfl
  · simp only [ConvState.run1, ConvState.setMode, s, h2, h1]; rfl

/-- **C27, back to training**: `train()` discards the stored filter and bias. -/
theorem c27_discarded (ops : List (ConvOp W X)) : ((ConvState.init w0 zeros).run expand apply (ops ++ [.train])).stored = none := by
  rw [run_append]; rfl

/-- Every sequence of calls is in one of the two cases, so no call ever fails because of a missing attribute. -/
theorem c27_cases (ops : List (ConvOp W X)) : modeOf ops = true ∨
    ∃ pre o post, ops = pre ++ [o] ++ post ∧ modeOf pre = true ∧ o.toEval = true ∧ ∀ q ∈ post, ConvOp.isTrain q = false := by
  induction ops using List.reverseRecOn with
  | nil => exact Or.inl rfl
  | append_singleton ops o ih =>
    rw [modeOf_append]
    by_cases ht : modeOf ops = true
    · cases o with
      | train => exact Or.inl rfl
      | eval => exact Or.inr ⟨ops, .eval, [], by simp, ht, rfl, by simp⟩
      | export_ => exact Or.inr ⟨ops, .export_, [], by simp, ht, rfl, by simp⟩
      | step w => exact Or.inl ht
      | forward x => exact Or.inl ht
    · obtain ⟨pre, o', post, e, h1, h2, h3⟩ := ih.resolve_left ht
      have ext : ConvOp.isTrain o = false → ∃ pre o2 post, ops ++ [o] = pre ++ [o2] ++ post ∧ modeOf pre = true ∧ ConvOp.toEval o2 = true ∧
          ∀ q ∈ post, ConvOp.isTrain q = false := by
        intro ho
        refine ⟨pre, o', post ++ [o], by rw [e]; simp, h1, h2, fun q hq => ?_⟩
        rcases List.mem_append.1 hq with hq | hq
        · exact h3 q hq
        · rw [List.mem_singleton.1 hq]; exact ho
      cases o with
      | train => exact Or.inl rfl
      | eval => exact Or.inr (ext rfl)
      | export_ => exact Or.inr (ext rfl)
      | step w => exact Or.inr (ext rfl)
      | forward x => exact Or.inr (ext rfl)

/-- The consequence to be aware of: parameters which are assigned in evaluation mode are not used, even after another `eval()` or `export()`. -/
theorem c27_stale (w1 : W) : ((ConvState.init w0 zeros).run expand apply ([.eval, .step w1, .eval] : List (ConvOp W X))).stored = some (expand w0) :=
  (c27_evaluation expand apply w0 zeros [] [.step w1, .eval] .eval rfl rfl (by simp [ConvOp.isTrain])).1

/-- A concrete run: training with parameters 3, evaluation, a further assignment, forward. -/
example : ((ConvState.init 1 0).run (fun w => 10 * w) (fun e x => e + x) [.step 3, .eval, .step 5, .forward 2, .eval]).forward
    (fun w => 10 * w) (fun e x => e + x) 2 = .output 32 := by decide

end E2
