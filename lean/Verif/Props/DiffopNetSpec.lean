import Verif.Model.DiffopNet
import Verif.Props.NetworkSpec
import Verif.Props.R2DiffopInit
import Verif.Props.GaussSpec

/-!
Specification for networks with differential operators (C104): how the modules have to be used, and which methods of discretisation commute with which elements.
-/

namespace E2

variable {El F A I : Type} [LinearOrder F]

/-- The methods of discretisation which commute with rotations: finite differences, derivatives of Gaussians, and RBF-FD where the systems of equations have one
solution.  The external functions satisfy their specifications. -/
def TurnMethod (smp : Sampler) (a : DiffopArgs El) (M : DiffopModule El F) : Prop :=
  (∃ fd, FDSpec fd ∧ smp = fdSample fd) ∨ (∃ ga std, GaussSpec ga ∧ smp = gaussSample ga std) ∨
    ∃ wm phi, smp = rbfSample wm phi ∧ ∀ n ≤ M.order, RBFSpec wm phi ((List.range (M.size * M.size)).map (gridCoords M.size a.dilation)) n

/-- The methods which also commute with reflections: there is no angle offset, and finite differences are only used for operators of even orders. -/
def PlaneMethod (smp : Sampler) (a : DiffopArgs El) (M : DiffopModule El F) : Prop :=
  a.angleOffset = none ∧ ((∃ fd, FDSpec fd ∧ smp = fdSample fd ∧ EvenOps a M) ∨ (∃ ga std, GaussSpec ga ∧ smp = gaussSample ga std) ∨
    ∃ wm phi, smp = rbfSample wm phi ∧ ∀ n ≤ M.order, RBFSpec wm phi ((List.range (M.size * M.size)).map (gridCoords M.size a.dilation)) n)

/-- A module is used as it should be, on images with `n × n` pixels, and returns images with `m × m` pixels.  For `R2Diffop`: it was built by the constructor from
public arguments for which the method of discretisation is in `meth`, it has one weight for each parameter, the padding is accepted and the windows cover
the padded image exactly. -/
def DLayer.Ok [DecidableEq I] (Sp : Space El) (G : DiffopGen El) (rep : F → Repr El) (built : (F → F → List (A × (ℝ × ℝ → Mat))) → (A → I) → Prop)
    (meth : Sampler → DiffopArgs El → DiffopModule El F → Prop) : DLayer El F A I → ℕ → ℕ → Prop
  | .lib l, n, m => l.Ok Sp rep built n m
  | .diffop smp M inT outT w _, n, m => inT ≠ [] ∧ outT ≠ [] ∧ ∃ a, r2diffopInit smp G a rep inT outT = some M ∧ meth smp a M ∧ 0 < a.groups ∧ 0 < a.dilation ∧
      w.length = (M.exp smp rep outT).dimension ∧ padOk a.paddingMode n a.padding ∧ convSize n a.padding M.size a.stride a.dilation = some m ∧
      a.stride ∣ n + 2 * a.padding - a.dilation * (M.size - 1) - 1

/-- Every module of a network is used as it should be, the sizes of the images going from `n` to `m`. -/
def DNetOk [DecidableEq I] (Sp : Space El) (G : DiffopGen El) (rep : F → Repr El) (built : (F → F → List (A × (ℝ × ℝ → Mat))) → (A → I) → Prop)
    (meth : Sampler → DiffopArgs El → DiffopModule El F → Prop) : List (DLayer El F A I) → ℕ → ℕ → Prop
  | [], n, m => m = n
  | l :: ls, n, m => ∃ k, l.Ok Sp G rep built meth n k ∧ DNetOk Sp G rep built meth ls k m

end E2
