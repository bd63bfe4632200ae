import Verif.Model.SelfTest

/-!
# The self tests with their tolerances
-/

namespace E2

/-- `torch.allclose(x, y, atol=atol, rtol=rtol)` (PyTorch) on arrays of shape `(3, c, 10, 10)`. -/
def AllClose (c : ℕ) (atol rtol : ℝ) (x y : Minibatch) : Prop :=
  ∀ b < 3, ∀ o < c, ∀ i < 10, ∀ j < 10, |x b o i j - y b o i j| ≤ atol + rtol * |y b o i j|

variable {El : Type}

open Classical in
/-- `check_equivariance(atol, rtol)` in the form of the modules which act on the fibres (gpool.py:133-157, reshuffle_module.py:83-105 and others), on the minibatch
`x`; `none` is the failed assertion. -/
noncomputable def checkTol (atol rtol : ℝ) (els : List El) (ci co : ℕ) (ρi ρo : El → Mat) (layer : Minibatch → Minibatch) (x : Minibatch) :
    Option (List (El × ℝ)) :=
  els.mapM fun g =>
    let out1 : Minibatch := fun b => transformFibers co (ρo g) (layer x b)
    let out2 := layer fun b => transformFibers ci (ρi g) (x b)
    if AllClose co atol rtol out1 out2 then some (g, errsMean co out1 out2) else none

end E2
