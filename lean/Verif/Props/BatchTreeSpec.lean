import Verif.Props.BatchSpec
import Verif.Model.DiffopTree

/-!
Specification for C107: nested networks which do not use statistics of the batch.  `ETensor.pick` and `Layer.Frozen` are in `Props/BatchSpec.lean`.
-/

namespace E2

variable {El F A I K : Type}

mutual

/-- No module of the network uses statistics of the batch. -/
def NetMod.Frozen : NetMod F A I K → Prop
  | .layer l => l.Frozen
  | .seq ms => ms.Frozen
  | .multi _ _ _ ms => ms.Frozen

/-- The same for every network of a list. -/
def NetMods.Frozen : NetMods F A I K → Prop
  | .nil => True
  | .cons _ m ms => m.Frozen ∧ ms.Frozen

end

/-- `R2Diffop` does not use statistics of the batch. -/
def DLayer.Frozen : DLayer El F A I → Prop
  | .lib l => l.Frozen
  | .diffop .. => True

mutual

/-- No module of the network uses statistics of the batch. -/
def DNetMod.Frozen : DNetMod El F A I K → Prop
  | .layer l => l.Frozen
  | .seq ms => ms.Frozen
  | .multi _ _ _ ms => ms.Frozen

/-- The same for every network of a list. -/
def DNetMods.Frozen : DNetMods El F A I K → Prop
  | .nil => True
  | .cons _ m ms => m.Frozen ∧ ms.Frozen

end

end E2
