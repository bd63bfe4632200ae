import Verif.Model.NetTree
import Verif.Model.DiffopNet

/-!
# Nested networks with `R2Diffop`

Networks nested from `SequentialModule` and `MultipleModule`, to any depth, whose modules are those of the library, `R2Diffop` among them.
-/

namespace E2

variable {El F A I B K : Type}

mutual

/-- A network: a module, a `SequentialModule` (sequential_module.py:16-61) of named networks, or a `MultipleModule` (multiple_module.py:20-100) with its input
type, its level of reshuffling, the labels of its fields and its networks, one for each label; as `NetMod`. -/
inductive DNetMod (El F A I K : Type)
  | layer (l : DLayer El F A I)
  | seq (ms : DNetMods El F A I K)
  | multi (inT : List F) (level : ℕ) (labels : List K) (ms : DNetMods El F A I K)

/-- A list of networks with their names or labels. -/
inductive DNetMods (El F A I K : Type)
  | nil
  | cons (k : K) (m : DNetMod El F A I K) (ms : DNetMods El F A I K)

end

/-- `evaluate_output_shape` of a module; for `R2Diffop` r2diffop.py:502-511. -/
def DLayer.declared (sz : F → ℕ) : DLayer El F A I → List Dim → Option (List Dim)
  | .lib l => l.declared sz
  | .diffop _ M inT outT _ _ => declAxes (typeSize sz inT) (typeSize sz outT) (axisFloor M.cfg.p M.size M.cfg.s M.cfg.d) (axisFloor M.cfg.p M.size M.cfg.s M.cfg.d)

section forward

variable [LinearOrder F] [DecidableEq I] [LinearOrder K] [Fintype B]

/-- A module with its declared shapes. -/
noncomputable def DLayer.toShapedMod (rep : F → Repr El) (junk : (c n : ℕ) → List (Pix B n → ℝ)) (l : DLayer El F A I) :
    EMod (List F) (ETensor F B) (List Dim) :=
  ⟨l.inTy, l.outTy, l.forward rep junk, l.declared fun r => (rep r).size⟩

mutual

/-- A network is built, from the inside. -/
noncomputable def DNetMod.build (rep : F → Repr El) :
    (List ℕ → (c n : ℕ) → List (Pix B n → ℝ)) → DNetMod El F A I K → Option (EMod (List F) (ETensor F B) (List Dim))
  | junk, .layer l => some (l.toShapedMod rep (junk []))
  | junk, .seq ms => (ms.build rep junk 0).bind (seqMod fun r => (rep r).size)
  | junk, .multi inT level labels ms => (ms.build rep junk 0).bind fun l => multiMod (fun r => (rep r).size) inT level labels l (junk [])

/-- The networks of a list; the one at position `i` has the memory of the branch `i` of the tree. -/
noncomputable def DNetMods.build (rep : F → Repr El) :
    (List ℕ → (c n : ℕ) → List (Pix B n → ℝ)) → ℕ → DNetMods El F A I K → Option (List (K × EMod (List F) (ETensor F B) (List Dim)))
  | _, _, .nil => some []
  | junk, i, .cons k m ms => (m.build rep fun p => junk (i :: p)).bind fun M => (ms.build rep junk (i + 1)).map fun l => (k, M) :: l

end

/-- A network is built and called on a tensor. -/
noncomputable def DNetMod.forward (rep : F → Repr El) (junk : List ℕ → (c n : ℕ) → List (Pix B n → ℝ)) (net : DNetMod El F A I K) (x : ETensor F B) :
    Option (ETensor F B) := (net.build rep junk).bind fun M => M.fwd x

end forward

end E2
