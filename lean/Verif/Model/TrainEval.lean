import Mathlib.Data.List.Basic

/-!
# Training and evaluation mode of the convolutions

`R2Conv` (r2convolution.py), and with the same code `R2ConvTransposed` (r2_transposed_convolution.py:192-245) and `R2Diffop`
(r2diffop.py:399-500, 605-651).  The parameters `W` (the weights and the bias), the expanded parameters `E` (the filter and the
expanded bias, stored together), and the functions `expand` (`expand_parameters`) and `apply` (the call to `conv2d`) are arbitrary.
-/

namespace E2

variable {W E X Y : Type}

/-- The state of a module: the flag `training`, the parameters and the attributes `filter` and `expanded_bias`, which `del` removes. -/
structure ConvState (W E : Type) where
  training : Bool
  params : W
  stored : Option E

/-- What can be done with a module; `step` is any assignment to the parameters. -/
inductive ConvOp (W X : Type)
  | train | eval | step (w : W) | forward (x : X) | export_

/-- What a call returns. -/
inductive ConvOut (E Y : Type)
  | nothing
  | output (y : Y)
  | layer (e : E)
  | attributeError
  deriving DecidableEq

namespace ConvState

/-- The state after the constructor (r2convolution.py:232-234, 274-279): training mode, and buffers filled with zeros. -/
def init (w : W) (zeros : E) : ConvState W E := ⟨true, w, some zeros⟩

/-- `train(mode)` (r2convolution.py:355-395). -/
def setMode (expand : W → E) (mode : Bool) (s : ConvState W E) : ConvState W E :=
  let stored := if mode then none else if s.training then some (expand s.params) else s.stored
  { s with training := mode, stored := stored }

/-- `forward` (r2convolution.py:314-353). -/
def forward (expand : W → E) (apply : E → X → Y) (s : ConvState W E) (x : X) : ConvOut E Y :=
  if !s.training then
    match s.stored with
    | none => .attributeError
    | some e => .output (apply e x)
  else .output (apply (expand s.params) x)

/-- One call: the next state and what is returned.  `export` (r2convolution.py:500-546) calls `eval` and copies the stored filter and bias
in a new layer. -/
def run1 (expand : W → E) (apply : E → X → Y) (s : ConvState W E) : ConvOp W X → ConvState W E × ConvOut E Y
  | .train => (s.setMode expand true, .nothing)
  | .eval => (s.setMode expand false, .nothing)
  | .step w => ({ s with params := w }, .nothing)
  | .forward x => (s, s.forward expand apply x)
  | .export_ =>
    let s' := s.setMode expand false
    (s', match s'.stored with
      | none => .attributeError
      | some e => .layer e)

/-- The state after a sequence of calls. -/
def run (expand : W → E) (apply : E → X → Y) (s : ConvState W E) (ops : List (ConvOp W X)) : ConvState W E :=
  ops.foldl (fun s o => (run1 expand apply s o).1) s

end ConvState

end E2
