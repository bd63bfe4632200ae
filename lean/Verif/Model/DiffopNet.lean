import Verif.Model.Network
import Verif.Model.R2DiffopInit

/-!
# Networks with differential operators: `R2Diffop` among the modules of a `SequentialModule`
-/

namespace E2

variable {El F A I B : Type}

/-- A module of a network with differential operators: one of the modules of `Layer`, or an instance of `R2Diffop` (r2diffop.py:36-384) with its method of
discretisation, its types, its weights and its bias parameters. -/
inductive DLayer (El F A I : Type)
  | lib (l : Layer F A I)
  | diffop (smp : Sampler) (M : DiffopModule El F) (inT outT : List F) (w b : List ℝ)

/-- `in_type` (equivariant_module.py:17-62; r2diffop.py:214-222). -/
def DLayer.inTy : DLayer El F A I → List F
  | .lib l => l.inTy
  | .diffop _ _ inT _ _ _ => inT

/-- `out_type` (equivariant_module.py:17-62; r2diffop.py:214-222). -/
def DLayer.outTy : DLayer El F A I → List F
  | .lib l => l.outTy
  | .diffop _ _ _ outT _ _ => outT

section forward

variable [LinearOrder F] [DecidableEq I] [Fintype B]

/-- `forward` of a module; for `R2Diffop` in training mode (r2diffop.py:399-458): the type of the input is checked, the filter is expanded from the weights, the
images of the batch are padded if the mode asks for it and go through the convolution of torch, and the result is wrapped in the output type. -/
noncomputable def DLayer.forward (rep : F → Repr El) (junk : (c n : ℕ) → List (Pix B n → ℝ)) : DLayer El F A I → ETensor F B → Option (ETensor F B)
  | .lib l, x => l.forward rep junk x
  | .diffop smp M inT outT w b, x =>
    match (M.exp smp rep outT).forward w with
    | none => none
    | some f => wrapped (fun r => (rep r).size) inT outT (runConv ⟨typeSize (fun r => (rep r).size) inT, typeSize (fun r => (rep r).size) outT,
        M.size, M.cfg.p, M.cfg.s, M.cfg.d, M.cfg.groups⟩ M.cfg.mode (reshapeFilter M.size f) (some (outBias rep outT b))) x

/-- A module of the model of `SequentialModule`; the declared shapes are left out (C40). -/
noncomputable def DLayer.toMod (rep : F → Repr El) (junk : (c n : ℕ) → List (Pix B n → ℝ)) (l : DLayer El F A I) : EMod (List F) (ETensor F B) Unit :=
  ⟨l.inTy, l.outTy, l.forward rep junk, some⟩

/-- A `SequentialModule` is built from named modules and called on a tensor (sequential_module.py:16-84); every module gets its own memory. -/
noncomputable def dnetForward {K : Type} [DecidableEq K] (rep : F → Repr El) (junk : K → (c n : ℕ) → List (Pix B n → ℝ)) (net : List (K × DLayer El F A I))
    (x : ETensor F B) : Option (ETensor F B) :=
  (seqNew (net.map fun l => (l.1, l.2.toMod rep (junk l.1)))).bind fun st => seqForward (fun x => x.x.ty) st x

end forward

end E2
