import Verif.Model.Network

/-!
Specification for C88: choosing images of a batch.
-/

namespace E2

variable {F A I B B' : Type}

/-- The batch whose image number `b` is the image number `f b` of `x`: some of the images, in another order, or several times. -/
def ETensor.pick (f : B' → B) (x : ETensor F B) : ETensor F B' := ⟨x.n, x.x.ty, x.x.data.map fun v q => v (f q.1, q.2)⟩

/-- The memory, chosen in the same way. -/
def pickJunk (f : B' → B) (junk : (c n : ℕ) → List (Pix B n → ℝ)) : (c n : ℕ) → List (Pix B' n → ℝ) := fun c n => (junk c n).map fun v q => v (f q.1, q.2)

/-- The module does not use statistics of the batch: a batch normalisation is in evaluation mode, and `InnerBatchNorm` has running statistics. -/
def Layer.Frozen : Layer F A I → Prop
  | .innerBatchNorm _ _ _ track _ _ training _ => training = false ∧ track = true
  | .normBatchNorm _ _ _ _ training _ | .inducedBatchNorm _ _ _ _ _ training _ | .gnormBatchNorm _ _ _ _ _ _ training _ => training = false
  | _ => True

end E2
