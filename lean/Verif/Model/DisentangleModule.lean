import Verif.Model.Disentangle
import Verif.Model.Invariant

/-!
# `DisentangleModule` (nn/modules/disentangle_module.py)

The dictionaries of the module have the names of the representations as keys.
-/

namespace E2

variable {R R' N P : Type}

/-- A dictionary filled by `for r in uniq: d[r.name] = ...` (disentangle_module.py:50-55): what is stored under a name was computed
from the last representation with this name. -/
def byName [DecidableEq N] (name : R → N) (uniq : List R) : N → Option R :=
  uniq.foldl (fun d r k => if k = name r then some r else d k) fun _ => none

/-- `out_reprs` (disentangle_module.py:57-61); `dis r` is `disentangle(r)`.  A name which is not stored raises. -/
def disOutType [DecidableEq N] (name : R → N) (dis : R → Mat × List R') (uniq inType : List R) : Option (List R') :=
  (inType.mapM fun r => (byName name uniq (name r)).map fun q => (dis q).2).map List.flatten

/-- `DisentangleModule.__init__` and `forward` (disentangle_module.py:22-117).  `uniq` is the set `_unique_representations` in the order
in which it is iterated.  The constructor of the output type asserts that there is a field; `view` (line 105) asks that the channels of
the group are those of `_nfields` fields of the stored size. -/
noncomputable def disForward [DecidableEq R] [DecidableEq N] (sz : R → ℕ) (sz' : R' → ℕ) (name : R → N) (dis : R → Mat × List R')
    (uniq inType : List R) (junk : List (P → ℝ)) (x : GTensor R (P → ℝ)) : Option (GTensor R' (P → ℝ)) :=
  match (disOutType name dis uniq inType).bind mkType with
  | none => none
  | some outType =>
    if x.ty = inType then
      let names := inType.map name
      let idx := labelChannels names (inType.map sz)
      let size := fun n => ((byName name uniq n).map sz).getD 0
      let cob := fun n => ((byName name uniq n).map fun r => (dis r).1).getD fun _ _ => 0
      if ∀ n ∈ names, (idx n).length = labelCount names n * size n then
        match fieldLoop x.data (fun n => ((indexesFromLabels sz inType names n).map fun e => e.1).getD false) idx idx (labelCount names)
          (fun n => eachField (size n) fun _ fld => chAct (size n) (cob n) fld) (firstKeys names) 0 junk with
        | none => none
        | some y => mkGT sz' y outType
      else none
    else none

end E2
