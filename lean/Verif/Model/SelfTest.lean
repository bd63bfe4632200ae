import Verif.Model.Names
import Verif.Model.Continuous
import Verif.Props.ImageSpec

/-!
# The self tests: `testing_elements` of the groups and `check_equivariance` of the modules
-/

namespace E2

open Finset Real

/-- `CyclicGroup.testing_elements()` (cyclicgroup.py:101-106). -/
def Cyclic.testingElements (N : ℕ) : List ℤ := Cyclic.elements N

/-- `DihedralGroup.testing_elements()` (dihedralgroup.py:122-126). -/
def Dihedral.testingElements (N : ℕ) : List (ℤ × ℤ) := Dihedral.elements N

/-- `SO2.testing_elements()` (so2group.py:100-105). -/
noncomputable def SO2.testingElements : List ℝ :=
  let N := 4 * 13
  (List.range N).map fun i : ℕ => (i : ℝ) * 2 * π / N

/-- `O2.testing_elements()` (o2group.py:122-127). -/
noncomputable def O2.testingElements : List (ℤ × ℝ) :=
  let N := 4 * 13
  ((List.range N).map fun i : ℕ => ((0 : ℤ), (i : ℝ) * 2 * π / N)) ++ (List.range N).map fun i : ℕ => ((1 : ℤ), (i : ℝ) * 2 * π / N)

/-- A minibatch of images. -/
abbrev Minibatch := ℕ → Fmap

/-- Equality of two arrays of shape `(3, c, 10, 10)`, the shape of the tensors in the self tests (for example gpool.py:137). -/
def BEq (c : ℕ) (x y : Minibatch) : Prop := ∀ b < 3, FEq c 10 (x b) (y b)

/-- `errs.mean()` (for example gpool.py:147-155). -/
noncomputable def errsMean (c : ℕ) (x y : Minibatch) : ℝ :=
  (∑ b ∈ range 3, ∑ o ∈ range c, ∑ i ∈ range 10, ∑ j ∈ range 10, |x b o i j - y b o i j|) / (3 * c * 10 * 10)

variable {El : Type}

open Classical in
/-- `check_equivariance()` in the form of the modules which act on the fibres (gpool.py:133-157; the same loop in reshuffle_module.py:83-105,
nonlinearities/norm.py:205-226 and others): `x` is the random minibatch, `els` the list `testing_elements`, `ρi` and `ρo` the
actions on the channels of the two types; `none` is the failed assertion.  Simplification: the comparison has no tolerance. -/
noncomputable def checkEquivariance (els : List El) (ci co : ℕ) (ρi ρo : El → Mat) (layer : Minibatch → Minibatch) (x : Minibatch) : Option (List (El × ℝ)) :=
  els.mapM fun g =>
    let out1 : Minibatch := fun b => transformFibers co (ρo g) (layer x b)
    let out2 := layer fun b => transformFibers ci (ρi g) (x b)
    if BEq co out1 out2 then some (g, errsMean co out1 out2) else none

/-- A layer which multiplies each fibre by a matrix, like `ReshuffleModule` (reshuffle_module.py:66-73) or a convolution of kernel size 1. -/
def fibreLayer (ci : ℕ) (M : Mat) (x : Minibatch) : Minibatch := fun b => transformFibers ci M (x b)

end E2
