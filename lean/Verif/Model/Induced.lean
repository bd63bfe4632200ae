import Verif.Model.Regular

/-!
# `build_induced_representation` and `build_quotient_representation` (group/representation.py:750-988)
-/

namespace E2

open Finset Mat

/-- What `build_induced_representation` uses of a subgroup: the elements of the subgroup, the two maps returned by `subgroup(id)`
(representation.py:813) and `_restrict_irrep` (group.py:397) for the id. -/
structure SubData (El El' : Type) where
  els : List El'
  parent : El' → El
  child : El → Option El'
  restr : Irrep El → Option (Mat × List (Irrep El'))

section
variable {El El' : Type} [DecidableEq El]

/-- The dictionary `cosets` and the keys of `representatives`, in order of insertion (representation.py:823-827). -/
structure CosetState (El : Type) where
  cosets : El → Option El
  reps : List El

/-- The inner loop over the subgroup (representation.py:832-837): `cosets[e * parent(g)] = e`.  The lists of the
members of the cosets (line 837) are not used by the code and not modelled. -/
def addCoset (G : Grp El) (S : SubData El El') (e : El) (cosets : El → Option El) : El → Option El :=
  S.els.foldl (fun c g => Function.update c (G.op e (S.parent g)) (some e)) cosets

/-- One step of the loop over the group (representation.py:829-837). -/
def cosetStep (G : Grp El) (S : SubData El El') (st : CosetState El) (e : El) : CosetState El :=
  match st.cosets e with
  | some _ => st
  | none => ⟨addCoset G S e st.cosets, st.reps ++ [e]⟩

/-- The loop over the group (representation.py:823-839). -/
def cosetLoop (G : Grp El) (els : List El) (S : SubData El El') : CosetState El :=
  els.foldl (cosetStep G S) ⟨fun _ => none, []⟩

/-- The matrix `repr_g` (representation.py:846-863): in the block column of the representative `r`, the block row of the
representative `g_r` of the coset of `g r` contains `repr(child(g_r⁻¹ g r))`.  A failed lookup or assertion (lines 851 and 859)
gives the zero block here, and the definition `induced` returns `none` then. -/
noncomputable def inducedMat (G : Grp El) (S : SubData El El') (st : CosetState El) (ρ : Irrep El') (g : El) : Mat :=
  fun row col =>
    match st.reps[col / ρ.size]? with
    | none => 0
    | some r =>
      let gr := G.op g r
      match st.cosets gr with
      | none => 0
      | some g_r =>
        match S.child (G.op (G.inv g_r) gr) with
        | none => 0
        | some h => if st.reps.idxOf g_r = row / ρ.size then ρ.mat h (row % ρ.size) (col % ρ.size) else 0

/-- No lookup and no assertion fails in lines 846-863. -/
def inducedOk (G : Grp El) (S : SubData El El') (st : CosetState El) (g : El) : Prop :=
  ∀ r ∈ st.reps, ∃ g_r, st.cosets (G.op g r) = some g_r ∧ (S.child (G.op (G.inv g_r) (G.op g r))).isSome

/-- `build_commuting_matrix` (representation.py:892-906). -/
noncomputable def commutingMat (ρ : Irrep El') (t : ℕ) : Mat :=
  if ρ.socs = 1 then Mat.one
  else if t % 2 = 0 then m2 1 0 0 1 else m2 0 (-1) 1 0

/-- `name == repr.name` (representation.py:931): the irreps of a group are identified by their frequencies. -/
def sameIrrep (a b : Irrep El') : Bool := decide (a.freq = b.freq) && decide (a.flip = b.flip)

/-- The positions `x` in the list `J` (representation.py:928-933). -/
def posList (ρ : Irrep El') : ℕ → List (Irrep El') → List ℕ
  | _, [] => []
  | x, i :: l => (if sameIrrep i ρ then [x] else []) ++ posList ρ (x + i.size) l

/-- One assignment `v[p+x : p+x+repr.size, :] = E` (representation.py:954) to the block of an irrep. -/
def setRows (x s : ℕ) (E B : Mat) : Mat := fun i j => if x ≤ i ∧ i < x + s then E (i - x) j else B i j

/-- The block of `v` for the copy `shift` of the irrep (representation.py:950-959), before the normalisation. -/
noncomputable def vBlock (ρ : Irrep El') (irr : Irrep El) (cob : Mat) (J : List ℕ) (m shift : ℕ) : Mat :=
  let dr := if m = J.length then 1 else irr.socs
  let B := (List.range dr).foldl (fun B i =>
    let idx := shift * irr.socs + i
    setRows (J.getD (idx % J.length) 0) ρ.size (commutingMat ρ (idx / J.length)) B) (fun _ _ => 0)
  fun i j => Real.sqrt (irr.size / irr.socs) * Mat.mul irr.size cob B i j

/-- The loop over the irreps (representation.py:920-964): the blocks of `v` with their sizes, and `norm_squared`.  `none` for a
failed assertion (lines 922 and 936) or a failed restriction. -/
noncomputable def vLoop (S : SubData El El') (ρ : Irrep El') :
    List (Irrep El × ℕ) → Option (List (ℕ × Mat) × ℝ)
  | [] => some ([], 0)
  | (irr, m) :: l =>
    if ¬ (m ≤ irr.size) then none
    else if m = 0 then vLoop S ρ l
    else
      match S.restr irr with
      | none => none
      | some (cob, irreps) =>
        let J := posList ρ 0 irreps
        if ¬ (ρ.socs * J.length = m * irr.socs) then none
        else
          match vLoop S ρ l with
          | none => none
          | some (bs, n) =>
            let N := if m = J.length then m else ρ.socs * J.length
            some ((List.range m).map (fun sh => (irr.size, vBlock ρ irr cob J m sh)) ++ bs,
              N * irr.size / irr.socs + n)

/-- Blocks on top of each other. -/
def vstack : List (ℕ × Mat) → Mat
  | [] => fun _ _ => 0
  | (n, A) :: l => fun i j => if i < n then A i j else vstack l (i - n) j

/-- The matrix `change_of_basis_inv` (representation.py:966-974): the columns of the coset of `r` are `P(r) @ v`, with `v`
normalised. -/
noncomputable def inducedCobInv (st : CosetState El) (ρ : Irrep El') (size : ℕ) (irrs : List (Irrep El))
    (bs : List (ℕ × Mat)) (n : ℝ) : Mat := fun i c =>
  match st.reps[c / ρ.size]? with
  | none => 0
  | some r => Mat.mul size (Repr.blocks irrs r) (fun i j => vstack bs i j / Real.sqrt n) i (c % ρ.size)

open Classical in
/-- The second half of `build_induced_representation` (representation.py:908-988): the change of basis and the assertions on
it, given the multiplicities. -/
noncomputable def inducedFrom (G : Grp El) (els : List El) (S : SubData El El') (ρ : Irrep El') (st : CosetState El)
    (size : ℕ) (ms : List (Irrep El × ℕ)) (irrs : List (Irrep El)) : Option (Repr El) :=
  if ¬ ((irrs.map Irrep.size).sum = size) then none
  else
    match vLoop S ρ ms with
    | none => none
    | some (bs, n) =>
      let cobInv := inducedCobInv st ρ size irrs bs n
      let cob := tr cobInv
      if ¬ (MEq size size (Mat.mul size cobInv cob) Mat.one ∧ MEq size size (Mat.mul size cob cobInv) Mat.one) then none
      else if ¬ ∀ g ∈ els, MEq size size (Mat.mul size (Mat.mul size cob (Repr.blocks irrs g)) cobInv)
          (inducedMat G S st ρ g) then none
      else some ⟨irrs, cob, cobInv⟩

/-- The multiplicity of an irrep in the matrices `representation` (representation.py:866 and 871-890). -/
noncomputable def inducedMult (G : Grp El) (els : List El) (S : SubData El El') (ρ : Irrep El') (st : CosetState El)
    (size : ℕ) (irr : Irrep El) : ℝ :=
  multiplicity G els (fun g => ∑ i ∈ range size, inducedMat G S st ρ g i i) irr

open Classical in
/-- `build_induced_representation(group, subgroup_id, repr)` (representation.py:779-988), `none` if an assertion fails.
The comparisons of floats are exact here. -/
noncomputable def induced (G : Grp El) (els : List El) (irreps : List (Irrep El)) (S : SubData El El')
    (ρ : Irrep El') : Option (Repr El) :=
  let quotient := els.length / S.els.length
  let size := ρ.size * quotient
  let st := cosetLoop G els S
  if ¬ ∀ g ∈ els, inducedOk G S st g then none
  else if ¬ (st.reps.length = quotient) then none
  else if ¬ ∀ irr ∈ irreps, inducedMult G els S ρ st size irr = round (inducedMult G els S ρ st size irr) then none
  else
    let ms := irreps.map fun irr => (irr, (round (inducedMult G els S ρ st size irr)).toNat)
    inducedFrom G els S ρ st size ms (ms.flatMap fun p => List.replicate p.2 p.1)

end

/-- The data of `CyclicGroup(N).subgroup(M)`. -/
noncomputable def Cyclic.subData (N M : ℕ) : Option (SubData ℤ ℤ) :=
  match Cyclic.subgroup N M with
  | none => none
  | some s => some ⟨Cyclic.elements M, s.parent, s.child, fun irr => Cyclic.restrictIrrep N irr M⟩

/-- `CyclicGroup(N).quotient_representation(M)` (group.py:254-298, representation.py:750-776): induced from the trivial
representation of the subgroup. -/
noncomputable def Cyclic.quotient (N M : ℕ) : Option (Repr ℤ) :=
  match Cyclic.subData N M, Cyclic.irrep M 0 with
  | some S, some ρ => induced (Cyclic.grp N) (Cyclic.elements N) (Cyclic.irreps N) S ρ
  | _, _ => none

/-- `CyclicGroup(N).induced_representation(M, irrep(k))` (group.py:300-331). -/
noncomputable def Cyclic.inducedRepr (N M k : ℕ) : Option (Repr ℤ) :=
  match Cyclic.subData N M, Cyclic.irrep M k with
  | some S, some ρ => induced (Cyclic.grp N) (Cyclic.elements N) (Cyclic.irreps N) S ρ
  | _, _ => none

/-- The data of `DihedralGroup(N).subgroup((None, M))`. -/
noncomputable def Dihedral.subDataCyc (N M : ℕ) : Option (SubData (ℤ × ℤ) ℤ) :=
  match Dihedral.subgroup N none M with
  | some (.cyc M' p c) => some ⟨Cyclic.elements M', p, c, fun irr => Dihedral.restrictCyc N irr M⟩
  | _ => none

/-- The data of `DihedralGroup(N).subgroup((axis, 1))`. -/
noncomputable def Dihedral.subDataFlip (N axis : ℕ) : Option (SubData (ℤ × ℤ) ℤ) :=
  match Dihedral.subgroup N (some axis) 1 with
  | some (.cyc M' p c) => some ⟨Cyclic.elements M', p, c, fun irr => Dihedral.restrictFlip N irr axis⟩
  | _ => none

/-- The data of `DihedralGroup(N).subgroup((axis, M))` with `M > 1`. -/
noncomputable def Dihedral.subDataDih (N axis M : ℕ) : Option (SubData (ℤ × ℤ) (ℤ × ℤ)) :=
  match Dihedral.subgroup N (some axis) M with
  | some (.dih M' p c) => some ⟨Dihedral.elements M', p, c, fun irr => Dihedral.restrictDih N irr axis M⟩
  | _ => none

/-- `DihedralGroup(N).induced_representation(id, repr)` for a subgroup given by its data (group.py:300-331); the
quotient representation is the case of the trivial `repr`. -/
noncomputable def Dihedral.inducedRepr {El' : Type} (N : ℕ) (S : SubData (ℤ × ℤ) El') (ρ : Irrep El') :
    Option (Repr (ℤ × ℤ)) :=
  induced (Dihedral.grp N) (Dihedral.elements N) (Dihedral.irreps N) S ρ

end E2
