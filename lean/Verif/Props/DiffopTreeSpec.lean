import Verif.Model.DiffopTree
import Verif.Props.DiffopNetSpec
import Verif.Props.NetTreeSpec

/-!
# Specification: the nested networks with `R2Diffop` under consideration
-/

namespace E2

variable {El F A I K : Type}

/-- The module declares the shape of its output correctly: the modules of C98, and `R2Diffop` always. -/
def DLayer.ShapeOk : DLayer El F A I → Prop
  | .lib l => l.ShapeOk
  | .diffop _ _ _ _ _ _ => True

mutual

/-- Every module of the network declares the shape of its output correctly, and there is no `MultipleModule` (C40). -/
def DNetMod.ShapeOk : DNetMod El F A I K → Prop
  | .layer l => l.ShapeOk
  | .seq ms => ms.ShapeOk
  | .multi _ _ _ _ => False

def DNetMods.ShapeOk : DNetMods El F A I K → Prop
  | .nil => True
  | .cons _ m ms => m.ShapeOk ∧ ms.ShapeOk

end

/-- The names or labels of a list of networks. -/
def DNetMods.names : DNetMods El F A I K → List K
  | .nil => []
  | .cons k _ ms => k :: ms.names

variable [LinearOrder F] [DecidableEq I]

mutual

/-- Every module of the network is used as it should be on images with `n × n` pixels (`DLayer.Ok`), and the network returns images with `m × m` pixels.  The names
in a `SequentialModule` are different; the networks of a `MultipleModule` return images of the same size and declare the shapes of their outputs correctly. -/
def DNetMod.Ok (Sp : Space El) (G : DiffopGen El) (rep : F → Repr El) (built : (F → F → List (A × (ℝ × ℝ → Mat))) → (A → I) → Prop)
    (meth : Sampler → DiffopArgs El → DiffopModule El F → Prop) : DNetMod El F A I K → ℕ → ℕ → Prop
  | .layer l, n, m => l.Ok Sp G rep built meth n m
  | .seq ms, n, m => ms.names.Nodup ∧ ms.OkSeq Sp G rep built meth n m
  | .multi _ _ _ ms, n, m => ms.ShapeOk ∧ ms.OkAll Sp G rep built meth n m

/-- One after the other. -/
def DNetMods.OkSeq (Sp : Space El) (G : DiffopGen El) (rep : F → Repr El) (built : (F → F → List (A × (ℝ × ℝ → Mat))) → (A → I) → Prop)
    (meth : Sampler → DiffopArgs El → DiffopModule El F → Prop) : DNetMods El F A I K → ℕ → ℕ → Prop
  | .nil, n, m => m = n
  | .cons _ a ms, n, m => ∃ k, a.Ok Sp G rep built meth n k ∧ ms.OkSeq Sp G rep built meth k m

/-- Side by side. -/
def DNetMods.OkAll (Sp : Space El) (G : DiffopGen El) (rep : F → Repr El) (built : (F → F → List (A × (ℝ × ℝ → Mat))) → (A → I) → Prop)
    (meth : Sampler → DiffopArgs El → DiffopModule El F → Prop) : DNetMods El F A I K → ℕ → ℕ → Prop
  | .nil, _, _ => True
  | .cons _ a ms, n, m => a.Ok Sp G rep built meth n m ∧ ms.OkAll Sp G rep built meth n m

end

end E2
