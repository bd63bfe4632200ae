import Verif.Model.NetTree
import Verif.Props.NetworkSpec
import Verif.Props.NetShapes

/-!
# Specification: the nested networks under consideration
-/

namespace E2

variable {El F A I K : Type}

mutual

/-- Every module of the network declares the shape of its output correctly (C98), and there is no `MultipleModule` (C40). -/
def NetMod.ShapeOk : NetMod F A I K → Prop
  | .layer l => l.ShapeOk
  | .seq ms => ms.ShapeOk
  | .multi _ _ _ _ => False

def NetMods.ShapeOk : NetMods F A I K → Prop
  | .nil => True
  | .cons _ m ms => m.ShapeOk ∧ ms.ShapeOk

end

/-- The names or labels of a list of networks. -/
def NetMods.names : NetMods F A I K → List K
  | .nil => []
  | .cons k _ ms => k :: ms.names

variable [LinearOrder F] [DecidableEq I]

mutual

/-- Every module of the network is used as it should be on images with `n × n` pixels, and the network returns images with `m × m` pixels.  The names in a
`SequentialModule` are different; the networks of a `MultipleModule` return images of the same size and declare the shapes of their outputs correctly. -/
def NetMod.Ok (Sp : Space El) (rep : F → Repr El) (built : (F → F → List (A × (ℝ × ℝ → Mat))) → (A → I) → Prop) : NetMod F A I K → ℕ → ℕ → Prop
  | .layer l, n, m => l.Ok Sp rep built n m
  | .seq ms, n, m => ms.names.Nodup ∧ ms.OkSeq Sp rep built n m
  | .multi _ _ _ ms, n, m => ms.ShapeOk ∧ ms.OkAll Sp rep built n m

/-- One after the other. -/
def NetMods.OkSeq (Sp : Space El) (rep : F → Repr El) (built : (F → F → List (A × (ℝ × ℝ → Mat))) → (A → I) → Prop) : NetMods F A I K → ℕ → ℕ → Prop
  | .nil, n, m => m = n
  | .cons _ a ms, n, m => ∃ k, a.Ok Sp rep built n k ∧ ms.OkSeq Sp rep built k m

/-- Side by side. -/
def NetMods.OkAll (Sp : Space El) (rep : F → Repr El) (built : (F → F → List (A × (ℝ × ℝ → Mat))) → (A → I) → Prop) : NetMods F A I K → ℕ → ℕ → Prop
  | .nil, _, _ => True
  | .cons _ a ms, n, m => a.Ok Sp rep built n m ∧ ms.OkAll Sp rep built n m

end

mutual

/-- There is a module in the network, not inside a `MultipleModule`, whose `evaluate_output_shape` raises on every shape: a `MultipleModule` or a
`PointwiseAvgPool` (C40).  The names in a `SequentialModule` are different. -/
def NetMod.Undeclared : NetMod F A I K → Prop
  | .layer (.avgPool _ _ _ _ _) => True
  | .layer _ => False
  | .seq ms => ms.names.Nodup ∧ ms.Undeclared
  | .multi _ _ _ _ => True

def NetMods.Undeclared : NetMods F A I K → Prop
  | .nil => False
  | .cons _ m ms => m.Undeclared ∨ ms.Undeclared

end

/-- The networks of a list. -/
def NetMods.toList : NetMods F A I K → List (K × NetMod F A I K)
  | .nil => []
  | .cons k m ms => (k, m) :: ms.toList

variable {B : Type} [Fintype B] [LinearOrder K]

/-- `ys` are the results of the networks, each on the fields with its label: in their order when the level of reshuffling is 0. -/
def NetMods.Results (rep : F → Repr El) (junk : List ℕ → (c n : ℕ) → List (Pix B n → ℝ)) (level : ℕ) (labels : List K) {n : ℕ} (x : GTensor F (Pix B n → ℝ)) (m : ℕ) :
    ℕ → NetMods F A I K → List (GTensor F (Pix B m → ℝ)) → Prop
  | _, .nil, ys => ys = []
  | i, .cons k a ms, ys => ∃ fs z y ys', (∀ c, c ∈ fs ↔ labels[c]? = some k) ∧ fs.Nodup ∧ (level = 0 → fs.Pairwise (· < ·)) ∧
      x.select (fun r => (rep r).size) fs = some z ∧ a.forward rep (fun p => junk (i :: p)) ⟨n, z⟩ = some ⟨m, y⟩ ∧ ys = y :: ys' ∧
      ms.Results rep junk level labels x m (i + 1) ys'

end E2
