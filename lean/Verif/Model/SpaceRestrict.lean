import Verif.Props.ImageSpec

/-!
# Restricting and comparing spaces: `gspaces/r2/*.py`, methods `restrict` and `__eq__`
-/

namespace E2

open Real

/-- What `restrict` returns: the smaller space and the inclusion of its group (the map to the subgroup is treated with the groups). -/
structure Restriction (El : Type) where
  El' : Type
  sub : Space El'
  parent : El' → El

/-- `TrivialOnR2.restrict(id)` (trivial_on_r2.py:49-74). -/
noncomputable def trivialRestrict (M : ℕ) : Option (Restriction ℤ) :=
  (Cyclic.subgroup 1 M).map fun s => ⟨ℤ, trivialSpace, s.parent⟩

/-- `Rot2dOnR2.restrict(id)` for a cyclic group (rot2d_on_r2.py:73-104). -/
noncomputable def rotRestrict (interp : ℝ → Img → Img) (N M : ℕ) : Option (Restriction ℤ) :=
  (Cyclic.subgroup N M).bind fun s =>
    if M > 1 then some ⟨ℤ, rotSpace interp s.order, s.parent⟩
    else if M = 1 then some ⟨ℤ, trivialSpace, s.parent⟩
    else none

/-- `Rot2dOnR2.restrict(id)` for SO(2) (rot2d_on_r2.py:73-104). -/
noncomputable def so2Restrict (interp : ℝ → Img → Img) (M : ℕ) : Option (Restriction ℝ) :=
  (SO2.subgroup M).bind fun s =>
    if M > 1 then some ⟨ℤ, rotSpace interp s.order, s.parent⟩
    else if M = 1 then some ⟨ℤ, trivialSpace, s.parent⟩
    else none

/-- `Flip2dOnR2.restrict(id)` (flip2d_on_r2.py:59-86). -/
noncomputable def flipRestrict (interp : ℝ → Img → Img) (axis : ℝ) (M : ℕ) : Option (Restriction ℤ) :=
  (Cyclic.subgroup 2 M).map fun s =>
    if M = 1 then ⟨ℤ, trivialSpace, s.parent⟩ else ⟨ℤ, flipSpace interp axis, s.parent⟩

/-- `divmod(self.axis + 0.5*rotation, 2*np.pi)[1]` (fliprot2d_on_r2.py:155). -/
noncomputable def newAxis (axis rotation : ℝ) : ℝ := fmod (axis + 0.5 * rotation) (2 * π)

/-- `FlipRot2dOnR2.restrict(id)` for a dihedral group (fliprot2d_on_r2.py:94-166). -/
noncomputable def flipRotRestrict (interp : ℝ → Img → Img) (N : ℕ) (axis : ℝ) (id0 : Option ℕ) (M : ℕ) : Option (Restriction (ℤ × ℤ)) :=
  (Dihedral.subgroup N id0 M).bind fun s =>
    match id0, s with
    | none, .cyc m parent _ =>
      if M = 1 then some ⟨ℤ, trivialSpace, parent⟩
      else if M > 1 then some ⟨ℤ, rotSpace interp m, parent⟩
      else none
    | some a, .cyc _ parent _ =>
      if M = 1 then some ⟨ℤ, flipSpace interp (newAxis axis (a * 2 * π / N)), parent⟩ else none
    | some a, .dih m parent _ => some ⟨ℤ × ℤ, flipRotSpace interp m (newAxis axis (a * 2 * π / N)), parent⟩
    | none, .dih .. => none

/-- `FlipRot2dOnR2.restrict(id)` for O(2) (fliprot2d_on_r2.py:94-166). -/
noncomputable def o2Restrict (interp : ℝ → Img → Img) (axis : ℝ) (id0 : Option ℝ) (M : ℤ) : Option (Restriction (ℤ × ℝ)) :=
  (O2.subgroup id0 M).bind fun s =>
    match id0, s with
    | none, .cyc m parent _ =>
      if M = 1 then some ⟨ℤ, trivialSpace, parent⟩
      else if M > 1 ∨ M = -1 then some ⟨ℤ, rotSpace interp m, parent⟩
      else none
    | none, .so2 parent _ => if M > 1 ∨ M = -1 then some ⟨ℝ, so2Space interp, parent⟩ else none
    | some a, .cyc _ parent _ => if M = 1 then some ⟨ℤ, flipSpace interp (newAxis axis a), parent⟩ else none
    | some a, .dih m parent _ => some ⟨ℤ × ℤ, flipRotSpace interp m (newAxis axis a), parent⟩
    | some a, .o2 parent _ => some ⟨ℤ × ℝ, o2Space interp (newAxis axis a), parent⟩
    | _, _ => none

/-! ### Equality of spaces -/

/-- The group of a space, as compared by the methods `__eq__` of the groups (cyclicgroup.py:108-112, dihedralgroup.py:128-132, so2group.py:107-111,
o2group.py:129-133). -/
inductive GroupD
  | cyclic (N : ℕ)
  | dihedral (N : ℕ)
  | so2 (maxFreq : ℕ)
  | o2 (maxFreq : ℕ)
deriving DecidableEq

/-- A space as an object: its class, its group and its axis (`axis` exists in the classes with reflections). -/
inductive SpaceD
  | trivial
  | rot (N : ℕ)
  | so2 (maxFreq : ℕ)
  | flip (axis : ℝ)
  | flipRot (N : ℕ) (axis : ℝ)
  | o2 (maxFreq : ℕ) (axis : ℝ)

/-- The class of a space. -/
inductive SpaceClass
  | trivial
  | rot
  | flip
  | flipRot
deriving DecidableEq

/-- `isinstance`. -/
def SpaceD.cls : SpaceD → SpaceClass
  | .trivial => .trivial
  | .rot _ => .rot
  | .so2 _ => .rot
  | .flip _ => .flip
  | .flipRot _ _ => .flipRot
  | .o2 _ _ => .flipRot

/-- `fibergroup`. -/
def SpaceD.group : SpaceD → GroupD
  | .trivial => .cyclic 1
  | .rot N => .cyclic N
  | .so2 F => .so2 F
  | .flip _ => .cyclic 2
  | .flipRot N _ => .dihedral N
  | .o2 F _ => .o2 F

/-- `__eq__` of the spaces (trivial_on_r2.py:174-178, rot2d_on_r2.py:222-226, flip2d_on_r2.py:197-201, fliprot2d_on_r2.py:296-300): same class and equal
groups; the axis is not compared. -/
def SpaceD.eq (s t : SpaceD) : Bool := s.cls = t.cls ∧ s.group = t.group

/-- `FieldType.__eq__` (nn/field_type.py:445-449), on equal representations. -/
def fieldTypeEq {R : Type} [DecidableEq R] (s t : SpaceD × List R) : Bool := s.1.eq t.1 ∧ s.2 = t.2

/-- The elements of the groups: the flip (0 or 1) and the rotation. -/
noncomputable def SpaceD.act : SpaceD → ℤ × ℝ → ℝ × ℝ → ℝ × ℝ
  | .trivial => fun _ p => p
  | .rot N => fun g => (rotSpace (fun _ x => x) N).act ⌊g.2⌋
  | .so2 _ => fun g => (so2Space (fun _ x => x)).act g.2
  | .flip axis => fun g => (flipSpace (fun _ x => x) axis).act g.1
  | .flipRot N axis => fun g => (flipRotSpace (fun _ x => x) N axis).act (g.1, ⌊g.2⌋)
  | .o2 _ axis => fun g => (o2Space (fun _ x => x) axis).act g

end E2
