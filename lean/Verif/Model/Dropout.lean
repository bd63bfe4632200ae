import Verif.Model.Invariant

/-!
# Field dropout (nn/modules/dropout/field.py)
-/

namespace E2

variable {P R L V : Type}

/-- `dropout_field` in training mode on one field (dropout/field.py:20-39): `u` are the values drawn by `uniform_()` for the field, one at
each position, shared by its channels. -/
noncomputable def dropField (p : ℝ) (u : P → ℝ) (fld : List (P → ℝ)) : List (P → ℝ) :=
  open Classical in fld.map fun v q => v q * (if u q > p then 1 else 0) / (1 - p)

/-- The loop of `FieldDropout.forward` with `inplace` (dropout/field.py:143-160): `input[:, a:b].view(shape)` shares its memory with the input, so
that the product is stored there; `input[:, indices]` is a copy, the product is stored in the copy and the result `out` is not used. -/
def inplaceLoop (contig : L → Bool) (idx : L → List ℕ) (nf : L → ℕ) (f : L → ℕ → List V → List V) : List L → ℕ → List V → Option (List V)
  | [], _, d => some d
  | l :: ls, next, d =>
    if contig l then
      match readGroup d true (idx l) with
      | none => none
      | some g =>
        match writeGroup d true (idx l) (f l next g) with
        | none => none
        | some d' => inplaceLoop contig idx nf f ls (next + nf l) d'
    else inplaceLoop contig idx nf f ls (next + nf l) d

/-- `FieldDropout.forward` (dropout/field.py:121-166) with the dictionaries of the constructor (lines 75-119).  `u k` are the draws for the field treated as
number `k`.  `none` also for `p = 1` in training mode, where the values are not numbers (division by zero); the constructor admits it. -/
noncomputable def fieldDropout [DecidableEq R] (sz : R → ℕ) (inType : List R) (p : ℝ) (inplace training : Bool) (u : ℕ → P → ℝ) (junk : List (P → ℝ))
    (x : GTensor R (P → ℝ)) : Option (GTensor R (P → ℝ)) :=
  open Classical in
  if x.ty = inType then
    if training then
      if p = 1 then none
      else
        let sizes := inType.map sz
        match (if inplace then
            inplaceLoop (fun s => (contigFlags sizes s).getD false) (labelChannels sizes sizes) (labelCount sizes)
              (fun s => eachField s fun k => dropField p (u k)) (firstKeys sizes) 0 x.data
          else
            fieldLoop x.data (fun s => (contigFlags sizes s).getD false) (labelChannels sizes sizes) (labelChannels sizes sizes) (labelCount sizes)
              (fun s => eachField s fun k => dropField p (u k)) (firstKeys sizes) 0 junk) with
        | none => none
        | some y => mkGT sz y inType
    else some x
  else none

end E2
