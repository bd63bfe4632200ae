import Verif.Model.SelfTest
import Verif.Props.NetworkSpec

/-!
# The self test which modules inherit: `EquivariantModule.check_equivariance`

It is used by `SequentialModule` (sequential_module.py:114-115), `IdentityModule` (identity_module.py:53-54) and `MultipleModule` (multiple_module.py:133-137), and
by every module which does not override it.  It transforms whole images, not only the fibres.
-/

namespace E2

open Finset

variable {El F : Type}

/-- `errs.mean()` of two arrays (equivariant_module.py:107-109). -/
noncomputable def PTensor.meanError (a b : PTensor (Fin 3)) : ℝ :=
  (∑ k : Fin 3, ∑ c ∈ range a.chans.length, ∑ i ∈ range a.n, ∑ j ∈ range a.n, |chanImg a.chans k c i j - chanImg b.chans k c i j|) /
    (3 * a.chans.length * a.n * a.n)

open Classical in
/-- `EquivariantModule.check_equivariance()` (equivariant_module.py:79-118) on the minibatch `x`, which the method draws with `torch.randn(3, c, 10, 10)`; `els` is
the list `testing_elements` of the space.  The module is called twice for each element: `run g false` is its call on `x`, `run g true` the one on the transformed
minibatch; they are two functions, since the memory which a call finds may be different.  A call which raises ends the method (`none`), as does the assertion.
Simplifications: the comparison has no tolerance, and arrays of different shapes are different (NumPy would stretch an axis of length 1). -/
noncomputable def defaultCheck (Sp : Space El) (rep : F → Repr El) (els : List El) (run : El → Bool → ETensor F (Fin 3) → Option (ETensor F (Fin 3)))
    (x : ETensor F (Fin 3)) : Option (List (El × ℝ)) :=
  els.mapM fun g => (run g false x).bind fun y => (run g true (x.act Sp rep g)).bind fun z =>
    if (y.act Sp rep g).plain = z.plain then some (g, (y.act Sp rep g).plain.meanError z.plain) else none

end E2
