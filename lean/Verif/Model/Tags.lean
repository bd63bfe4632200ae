import Verif.Model.Rep
import Verif.Model.Cyclic
import Verif.Model.Dihedral
import Verif.Model.Continuous
import Verif.Model.Induced
import Verif.Model.InducedO2
import Verif.Model.Disentangle
import Verif.Model.Decompose
import Verif.Model.Pointwise
import Verif.Model.Regular

/-!
# The attribute `supported_nonlinearities` of representations

Every `Representation` carries a set of strings which the nonlinearities, the batch normalizations, the pooling and the dropout modules look up
in their constructors.  Here are the sets written by all functions of `e2cnn/group` which build representations, and by
`ConcatenatedNonLinearity`.
-/

namespace E2

open Mat

/-- The strings used in the library; `induced_gated_{k}` and `induced_norm_{k}` carry a size. -/
inductive Tag where
  | pointwise
  | norm
  | gated
  | gate
  | concatenated
  | vectorfield
  | inducedGate
  | inducedNorm (k : ℕ)
  | inducedGated (k : ℕ)
  deriving DecidableEq

/-- `CyclicGroup.irrep(k)` (cyclicgroup.py:260-288). -/
def Cyclic.irrepTags (N k : ℕ) : List Tag :=
  if k = 0 then [.pointwise, .gate, .norm, .gated, .concatenated]
  else if Cyclic.order N % 2 = 0 ∧ k = Cyclic.order N / 2 then [.norm, .gated, .concatenated]
  else [.norm, .gated]

/-- `DihedralGroup.irrep(j, k)` (dihedralgroup.py:390-462). -/
def Dihedral.irrepTags (N j k : ℕ) : List Tag :=
  if j = 0 then
    if k = 0 then [.pointwise, .norm, .gated, .gate, .concatenated] else [.norm, .gated, .concatenated]
  else
    if k = 0 then [.norm, .gated, .concatenated]
    else if N % 2 = 0 ∧ k = N / 2 then [.norm, .gated, .concatenated]
    else [.norm, .gated]

/-- `SO2.irrep(k)` (so2group.py:238-263). -/
def SO2.irrepTags (k : ℕ) : List Tag := if k = 0 then [.pointwise, .norm, .gated, .gate] else [.norm, .gated]

/-- `O2.irrep(j, k)` (o2group.py:370-415). -/
def O2.irrepTags (j k : ℕ) : List Tag := if j = 0 ∧ k = 0 then [.pointwise, .norm, .gated, .gate] else [.norm, .gated]

/-- `regular_representation` (group.py:244). -/
def regularTags : List Tag := [.pointwise, .norm, .gated, .concatenated]

/-- The regular representation of a cyclic group (cyclicgroup.py:222). -/
def Cyclic.regularTags : List Tag := E2.regularTags ++ [.vectorfield]

/-- `nl.startswith('induced_gated')`. -/
def Tag.isInducedGated : Tag → Bool
  | .inducedGated _ => true
  | _ => false

/-- `nl.startswith('induced_norm')`. -/
def Tag.isInducedNorm : Tag → Bool
  | .inducedNorm _ => true
  | _ => false

/-- `_induced_nonlinearities(repr)` (group.py:439-468), for a representation with the given size and set.  The order in which Python
enumerates the set is the order of the list. -/
def inducedTags (size : ℕ) (tags : List Tag) : List Tag :=
  (if Tag.pointwise ∈ tags then [.pointwise] else [])
    ++ (if Tag.concatenated ∈ tags then [.concatenated] else [])
    ++ (if Tag.gated ∈ tags then [.gated, (tags.find? Tag.isInducedGated).getD (.inducedGated size)] else [])
    ++ (if Tag.norm ∈ tags then [.norm, (tags.find? Tag.isInducedNorm).getD (.inducedNorm size)] else [])
    ++ (if Tag.gate ∈ tags ∨ Tag.inducedGate ∈ tags then [.inducedGate] else [])

/-- `set.intersection(*[r.supported_nonlinearities for r in reprs])` in `directsum` (representation.py:466); `none` without arguments
(`TypeError`). -/
def directsumTags : List (List Tag) → Option (List Tag)
  | [] => none
  | t :: ts => some (t.filter fun x => decide (∀ s ∈ ts, x ∈ s))

/-- `irreducible` (representation.py:212, without the tolerance): one irrep and the identity as change of basis. -/
def Repr.Irreducible {El : Type} (r : Repr El) : Prop := r.irreps.length = 1 ∧ MEq r.size r.size r.cob Mat.one

/-- `is_trivial()` (representation.py:247-256).  The irreps are compared by their names, which are made of the frequencies; the trivial
representation is `irrep_0` or `irrep_0,0`. -/
def Repr.IsTrivial {El : Type} (r : Repr El) : Prop := r.Irreducible ∧ ∀ i ∈ r.irreps.head?, i.freq = 0 ∧ i.flip = 0

open Classical in
/-- The set of the result of `restrict_representation` (group.py:411-418): that of the argument, with `pointwise` if the result `r'` is trivial.
The constructor copies the set (representation.py:205), so that the argument is not changed. -/
noncomputable def restrictTags {El : Type} (r' : Repr El) (tags : List Tag) : List Tag :=
  if r'.IsTrivial ∧ Tag.pointwise ∉ tags then .pointwise :: tags else tags

/-- The set of the results of `ConcatenatedNonLinearity._transform_representation` (concatenated.py:229). -/
def concatTags (tags : List Tag) : List Tag := tags ++ [.pointwise]

/-- The groups of the library. -/
inductive GName where
  | cyc (N : ℕ)
  | dih (N : ℕ)
  | so2
  | o2

namespace GName

/-- The type of the elements. -/
abbrev El : GName → Type
  | cyc _ => ℤ
  | dih _ => ℤ × ℤ
  | so2 => ℝ
  | o2 => ℤ × ℝ

/-- The group. -/
noncomputable def grp : (g : GName) → Grp g.El
  | cyc N => Cyclic.grp N
  | dih N => Dihedral.grp N
  | so2 => SO2.grp
  | o2 => O2.grp

/-- The constructors' checks on the order. -/
def Ok : GName → Prop
  | cyc N => 0 < N
  | dih N => 0 < N
  | so2 => True
  | o2 => True

end GName

/-- An irrep as a `Representation` (irrep.py:55-65): one irrep and the identity as change of basis. -/
def Irrep.repr {El : Type} (i : Irrep El) : Repr El := ⟨[i], Mat.one, Mat.one⟩

/-- The irreps of the four groups, with their sets. -/
inductive LibIrrep : (g : GName) → Irrep g.El → List Tag → Prop
  | cyc {N k : ℕ} {i : Irrep ℤ} (h : Cyclic.irrep N k = some i) : LibIrrep (.cyc N) i (Cyclic.irrepTags N k)
  | dih {N j k : ℕ} {i : Irrep (ℤ × ℤ)} (h : Dihedral.irrep N j k = some i) : LibIrrep (.dih N) i (Dihedral.irrepTags N j k)
  | so2 (k : ℕ) : LibIrrep .so2 (SO2.irrep k) (SO2.irrepTags k)
  | o2 {j k : ℕ} {i : Irrep (ℤ × ℝ)} (h : O2.irrep j k = some i) : LibIrrep .o2 i (O2.irrepTags j k)

/-- A subgroup accepted by the method `subgroup` of the group, with the map to the elements of the group and the method `_restrict_irrep`. -/
inductive LibSub : (g h : GName) → (h.El → g.El) → (Irrep g.El → Option (Mat × List (Irrep h.El))) → Prop
  | cycCyc {N M : ℕ} {S : Cyclic.Sub} (h : Cyclic.subgroup N M = some S) :
      LibSub (.cyc N) (.cyc M) S.parent (fun i => Cyclic.restrictIrrep N i M)
  | dihCyc {N M m : ℕ} {p : ℤ → ℤ × ℤ} {c : ℤ × ℤ → Option ℤ} (h : Dihedral.subgroup N none M = some (.cyc m p c)) :
      LibSub (.dih N) (.cyc M) p (fun i => Dihedral.restrictCyc N i M)
  | dihFlip {N a m : ℕ} {p : ℤ → ℤ × ℤ} {c : ℤ × ℤ → Option ℤ} (h : Dihedral.subgroup N (some a) 1 = some (.cyc m p c)) :
      LibSub (.dih N) (.cyc 2) p (fun i => Dihedral.restrictFlip N i a)
  | dihDih {N a M m : ℕ} {p : ℤ × ℤ → ℤ × ℤ} {c : ℤ × ℤ → Option (ℤ × ℤ)} (hM : 1 < M)
      (h : Dihedral.subgroup N (some a) M = some (.dih m p c)) : LibSub (.dih N) (.dih M) p (fun i => Dihedral.restrictDih N i a M)
  | so2Cyc {M : ℕ} {S : SO2.Sub} (h : SO2.subgroup M = some S) : LibSub .so2 (.cyc M) S.parent (fun i => SO2.restrictIrrep i M)
  | o2O2 {a : ℝ} {p : ℤ × ℝ → ℤ × ℝ} {c : ℤ × ℝ → Option (ℤ × ℝ)} (h : O2.subgroup (some a) (-1) = some (.o2 p c)) :
      LibSub .o2 .o2 p (fun i => O2.restrictO2 i a)
  | o2SO2 {p : ℝ → ℤ × ℝ} {c : ℤ × ℝ → Option ℝ} (h : O2.subgroup none (-1) = some (.so2 p c)) : LibSub .o2 .so2 p O2.restrictSO2
  | o2Flip {a : ℝ} {m : ℕ} {p : ℤ → ℤ × ℝ} {c : ℤ × ℝ → Option ℤ} (h : O2.subgroup (some a) 1 = some (.cyc m p c)) :
      LibSub .o2 (.cyc 2) p (fun i => O2.restrictFlip i a)
  | o2Cyc {M m : ℕ} {p : ℤ → ℤ × ℝ} {c : ℤ × ℝ → Option ℤ} (h : O2.subgroup none M = some (.cyc m p c)) :
      LibSub .o2 (.cyc M) p (fun i => O2.restrictCyc i M)
  | o2Dih {a : ℝ} {M m : ℕ} {p : ℤ × ℤ → ℤ × ℝ} {c : ℤ × ℝ → Option (ℤ × ℤ)} (hM : 1 < M)
      (h : O2.subgroup (some a) M = some (.dih m p c)) : LibSub .o2 (.dih M) p (fun i => O2.restrictDih i a M)

/-- The calls of `induced_representation(id, repr)` with an irrep which return (group.py:300-331); `quotient_representation` is the case of the
trivial irrep (group.py:254-298).  Only irreps are accepted (line 315). -/
inductive LibInduced : (g h : GName) → Irrep h.El → Repr g.El → Prop
  | cyc {N M k : ℕ} {ρ : Irrep ℤ} {r : Repr ℤ} (hρ : Cyclic.irrep M k = some ρ) (h : Cyclic.inducedRepr N M k = some r) :
      LibInduced (.cyc N) (.cyc M) ρ r
  | dihCyc {N M : ℕ} {S : SubData (ℤ × ℤ) ℤ} {ρ : Irrep ℤ} {r : Repr (ℤ × ℤ)} (hS : Dihedral.subDataCyc N M = some S)
      (h : Dihedral.inducedRepr N S ρ = some r) : LibInduced (.dih N) (.cyc M) ρ r
  | dihFlip {N a : ℕ} {S : SubData (ℤ × ℤ) ℤ} {ρ : Irrep ℤ} {r : Repr (ℤ × ℤ)} (hS : Dihedral.subDataFlip N a = some S)
      (h : Dihedral.inducedRepr N S ρ = some r) : LibInduced (.dih N) (.cyc 2) ρ r
  | dihDih {N a M : ℕ} {S : SubData (ℤ × ℤ) (ℤ × ℤ)} {ρ : Irrep (ℤ × ℤ)} {r : Repr (ℤ × ℤ)} (hS : Dihedral.subDataDih N a M = some S)
      (h : Dihedral.inducedRepr N S ρ = some r) : LibInduced (.dih N) (.dih M) ρ r
  | o2 {ρ : Irrep ℝ} {r : Repr (ℤ × ℝ)} (h : O2.inducedFromIrrep none (-1) ρ = some r) : LibInduced .o2 .so2 ρ r

/-- The representation returned by `_transform_representation` (concatenated.py:147-234) for a representation of a finite group; the checks are
`ConcatOk`, the sorting and the numerical solver of `build_from_discrete_group_representation` are parameters.  The look up of the name
(lines 173-175) never succeeds: no function adds such a representation to the dictionary. -/
inductive LibConcat : (g : GName) → Repr g.El → Repr g.El → Prop
  | cyc {N : ℕ} {r r' : Repr ℤ} {χ : ℤ → ℝ} (srt : List (Irrep ℤ × ℤ) → List (Irrep ℤ × ℤ)) (hs : ∀ l, (srt l).Perm l)
      (solve : List (Irrep ℤ) → ℕ → ℝ) (hok : ∀ e ∈ Cyclic.elements N, ConcatOk r.size (r.mat e))
      (h : buildFromDiscrete (Cyclic.grp N) (Cyclic.elements N) (Cyclic.irreps N) srt solve (2 * r.size) (fun e => concatMat (r.mat e))
        = some (r', χ)) : LibConcat (.cyc N) r r'
  | dih {N : ℕ} {r r' : Repr (ℤ × ℤ)} {χ : ℤ × ℤ → ℝ} (srt : List (Irrep (ℤ × ℤ) × ℤ) → List (Irrep (ℤ × ℤ) × ℤ)) (hs : ∀ l, (srt l).Perm l)
      (solve : List (Irrep (ℤ × ℤ)) → ℕ → ℝ) (hok : ∀ e ∈ Dihedral.elements N, ConcatOk r.size (r.mat e))
      (h : buildFromDiscrete (Dihedral.grp N) (Dihedral.elements N) (Dihedral.irreps N) srt solve (2 * r.size) (fun e => concatMat (r.mat e))
        = some (r', χ)) : LibConcat (.dih N) r r'

/-- The representations, with their sets, which are built by the methods of the groups and of `Representation` and by the functions of
representation.py, in any order and number of steps.  `cut` tells whether `disentangle` may be used.

Two functions have an argument with which the caller decides about the set: `change_basis`, whose argument `supported_nonlinearities` is left at
its default here (representation.py:608-646), and `directsum` with a change of basis (representation.py:400-468), which is not included; see
`c73_directsum_cob_wrong`. -/
inductive Lib (cut : Bool) : (g : GName) → Repr g.El → List Tag → Prop
  | irrep {g : GName} {i : Irrep g.El} {tags : List Tag} (hg : g.Ok) (h : LibIrrep g i tags) : Lib cut g i.repr tags
  | cycRegular {N : ℕ} {r : Repr ℤ} (hN : 0 < N) (h : Cyclic.regular N = some r) : Lib cut (.cyc N) r Cyclic.regularTags
  | dihRegular {N : ℕ} {r : Repr (ℤ × ℤ)} (hN : 0 < N) (h : Dihedral.regular N = some r) : Lib cut (.dih N) r regularTags
  | induced {g h : GName} {ρ : Irrep h.El} {r : Repr g.El} {tags : List Tag} (hg : g.Ok) (hρ : LibIrrep h ρ tags)
      (hr : LibInduced g h ρ r) : Lib cut g r (inducedTags ρ.size tags)
  | directsum {g : GName} {l : List (Repr g.El × List Tag)} {tags : List Tag} (h : ∀ p ∈ l, Lib cut g p.1 p.2)
      (ht : directsumTags (l.map Prod.snd) = some tags) : Lib cut g (Repr.directsum (l.map Prod.fst)) tags
  | changeBasis {g : GName} {r : Repr g.El} {tags : List Tag} (h : Lib cut g r tags) (Q Q' : Mat) (hQ : IsInv r.size Q Q') :
      Lib cut g (r.changeBasis Q) []
  | restrict {g h : GName} {r : Repr g.El} {tags : List Tag} {p : h.El → g.El} {restr : Irrep g.El → Option (Mat × List (Irrep h.El))}
      {r' : Repr h.El} (hr : Lib cut g r tags) (hs : LibSub g h p restr) (h' : r.restrict restr = some r') :
      Lib cut h r' (restrictTags r' tags)
  | disentangle {g : GName} {r : Repr g.El} {tags : List Tag} (hcut : cut = true) (hr : Lib cut g r tags) {n : ℕ} {lab : ℕ → ℕ}
      (hc : IsComponents (r.irreps.length + r.size) r.entangled n lab) {Q : Mat} {reps : List (Repr g.El)}
      (hd : r.disentangle n lab = some (Q, reps)) {s : Repr g.El} (hs : s ∈ reps) : Lib cut g s tags
  | concat {g : GName} {r r' : Repr g.El} {tags : List Tag} (hr : Lib cut g r tags) (ht : Tag.concatenated ∈ tags)
      (h : LibConcat g r r') : Lib cut g r' (concatTags tags)

/-- What the constructors look up: `tag in r.supported_nonlinearities` for all fields (nonlinearities/pointwise.py:42, relu.py:40, elu.py:41, nonlinearities/norm.py:47,
concatenated.py:44; batchnormalization/inner.py:54, batchnormalization/norm.py:66; dropout/pointwise.py:44; pooling/pointwise_max.py:51;
gpool.py:43). -/
def accepts {R : Type} (tags : R → List Tag) (tag : Tag) (t : List R) : Bool := t.all fun r => decide (tag ∈ tags r)

/-- The sizes in the strings `induced_norm_{k}` of a set (nonlinearities/induced_norm.py:84-88). -/
def inducedNormSizes (tags : List Tag) : List ℕ := tags.filterMap fun
  | .inducedNorm k => some k
  | _ => none

end E2
