import Verif.Model.Pooling
import Mathlib.Algebra.Order.Floor.Semiring
import Mathlib.Algebra.Order.Archimedean.Real.Basic

/-!
# `R2Upsampling`: `nn/modules/r2upsampling.py`

Square images.  `interpolate` is a function of PyTorch, external to the library: its definition here is the documented one, over the reals.
-/

namespace E2

variable {B R : Type}

/-- The modes accepted by the constructor (r2upsampling.py:74-75). -/
inductive UpMode
  | nearest | bilinear
  deriving DecidableEq

/-- The arguments of the constructor besides the type (r2upsampling.py:23-29); `align` is used by the bilinear mode only (line 72).  `size` is
an integer: the square case of line 67. -/
structure UpCfg where
  scale : Option ℚ
  size : Option ℕ
  mode : UpMode
  align : Bool

/-- The pixel read by the nearest mode: `min(floor(i * step), n - 1)`, where `step` is the distance in the source between two pixels of the
result. -/
noncomputable def nearIdx (n : ℕ) (step : ℝ) (i : ℕ) : ℕ := min ⌊(i : ℝ) * step⌋₊ (n - 1)

/-- The position in the source of the bilinear mode: `max((i + 1/2) * step - 1/2, 0)`, or `i * step` when the corners are aligned. -/
noncomputable def upPos (align : Bool) (step : ℝ) (i : ℕ) : ℝ := if align then i * step else max (((i : ℝ) + 1 / 2) * step - 1 / 2) 0

/-- Linear interpolation between the entry before `u` and the next one, which is the same one at the end of the axis. -/
noncomputable def lerp (n : ℕ) (u : ℝ) (g : ℕ → ℝ) : ℝ :=
  let i0 := min ⌊u⌋₊ (n - 1)
  let i1 := if i0 < n - 1 then i0 + 1 else i0
  (1 - (u - i0)) * g i0 + (u - i0) * g i1

/-- The size of the result and the two steps, the second one for aligned corners; `none` when both or none of the arguments are given (the constructor, r2upsampling.py:64,
or PyTorch raises) or the result is empty. -/
noncomputable def upSize (scale : Option ℚ) (size : Option ℕ) (n : ℕ) : Option (ℕ × ℝ) :=
  match scale, size with
  | some q, none => if 0 < ⌊(n : ℚ) * q⌋₊ then some (⌊(n : ℚ) * q⌋₊, ((1 / q : ℚ) : ℝ)) else none
  | none, some m => if 0 < m then some (m, (n : ℝ) / m) else none
  | _, _ => none

/-- The step when the corners are aligned. -/
noncomputable def alignStep (n m : ℕ) : ℝ := if m > 1 then ((n : ℝ) - 1) / ((m : ℝ) - 1) else 0

/-- `interpolate` on one channel, with the size `m` of the result and the step. -/
noncomputable def interpolate (mode : UpMode) (align : Bool) (n m : ℕ) (step : ℝ) (v : Pix B n → ℝ) : Pix B m → ℝ := fun q =>
  match mode with
  | .nearest => readZ n 0 v q.1 (nearIdx n step q.2.1) (nearIdx n step q.2.2)
  | .bilinear =>
    let st := if align then alignStep n m else step
    lerp n (upPos align st q.2.1) fun i => lerp n (upPos align st q.2.2) fun j => readZ n 0 v q.1 i j

/-- `R2Upsampling.forward` (r2upsampling.py:77-102), when the size of the result and the step are `m` and `step`. -/
noncomputable def r2Upsampling [DecidableEq R] (sz : R → ℕ) (t : List R) (c : UpCfg) (n m : ℕ) (step : ℝ) (x : GTensor R (Pix B n → ℝ)) :
    Option (GTensor R (Pix B m → ℝ)) := channelwise sz t (interpolate c.mode c.align n m step) x

end E2
