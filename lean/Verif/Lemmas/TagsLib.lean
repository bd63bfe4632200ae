import Verif.Lemmas.Tags
import Verif.Props.Regular
import Verif.Props.Restriction
import Verif.Props.RestrictionCont
import Verif.Props.InducedGated
import Verif.Props.InducedO2
import Verif.Props.Disentangle
import Verif.Props.Decompose
import Verif.Props.KernelConstraint

/-!
# The functions which build representations, one by one
-/

namespace E2

open Mat

namespace GName

/-- An irrep of the group. -/
def IsIrr : (g : GName) → Irrep g.El → Prop
  | cyc N => Cyclic.IsIrrep N
  | dih N => Dihedral.IsIrrep N
  | so2 => SO2.IsIrrep
  | o2 => O2.IsIrrep

theorem invOk {g : GName} (hg : g.Ok) : g.grp.InvOk := by
  cases g with
  | cyc N => exact Cyclic.invOk hg
  | dih N => exact Dihedral.invOk hg
  | so2 => exact SO2.invOk
  | o2 => exact O2.invOk

theorem isOrthRep {g : GName} (hg : g.Ok) {i : Irrep g.El} (hi : g.IsIrr i) : IsOrthRep g.grp i.size i.mat := by
  cases g with
  | cyc N => obtain ⟨k, h⟩ := hi; exact Cyclic.irrep_isOrthRep hg h
  | dih N => obtain ⟨j, k, h⟩ := hi; exact Dihedral.irrep_isOrthRep hg h
  | so2 => obtain ⟨k, rfl⟩ := hi; exact (c05_so2_irreps k).1
  | o2 => obtain ⟨j, k, h⟩ := hi; exact ((c05_o2_irreps j k).2 i h).1

theorem irr_pos {g : GName} {i : Irrep g.El} (hi : g.IsIrr i) : 0 < i.size := by
  cases g with
  | cyc N =>
    obtain ⟨k, h⟩ := hi
    unfold Cyclic.irrep at h
    split_ifs at h <;> cases h <;> norm_num
  | dih N =>
    obtain ⟨j, k, h⟩ := hi
    rw [Dihedral.irrep_size h]
    split_ifs <;> norm_num
  | so2 =>
    obtain ⟨k, rfl⟩ := hi
    rw [(c05_so2_irreps k).2.2.1]
    split_ifs <;> norm_num
  | o2 =>
    obtain ⟨j, k, h⟩ := hi
    rw [((c05_o2_irreps j k).2 i h).2.2.1]
    split_ifs <;> norm_num

/-- The irrep with the frequencies 0 is the trivial representation. -/
theorem irr_trivial {g : GName} {i : Irrep g.El} (hi : g.IsIrr i) (hf : i.freq = 0) (hj : i.flip = 0) :
    i.size = 1 ∧ ∀ e, i.mat e 0 0 = 1 := by
  cases g with
  | cyc N =>
    obtain ⟨k, h⟩ := hi
    unfold Cyclic.irrep at h
    split_ifs at h with h1 h2 h3 <;> cases h
    · exact ⟨rfl, fun e => rfl⟩
    · exact absurd hf h2
    · exact absurd hf h2
  | dih N =>
    obtain ⟨j, k, h⟩ := hi
    unfold Dihedral.irrep at h
    split_ifs at h with h1 h2 h3 h4 h5 h6 h7 <;> cases h
    · exact ⟨rfl, fun e => rfl⟩
    · exact absurd hf h4
    · exact absurd hj h3
    · exact absurd hf h6
    · exact absurd hf h6
  | so2 =>
    obtain ⟨k, rfl⟩ := hi
    unfold SO2.irrep at hf ⊢
    split_ifs at hf ⊢ with h1
    · exact ⟨rfl, fun e => rfl⟩
    · exact absurd hf h1
  | o2 =>
    obtain ⟨j, k, h⟩ := hi
    unfold O2.irrep at h
    split_ifs at h with h1 h2 h3 h4 <;> cases h
    · exact ⟨rfl, fun e => rfl⟩
    · exact absurd hj h2
    · exact absurd hf h4

end GName

/-! ### Irreps -/

/-- What the sets of the irreps tell. -/
structure IrrepTagsOk {El : Type} (i : Irrep El) (tags : List Tag) : Prop where
  trivial : Tag.pointwise ∈ tags ∨ Tag.gate ∈ tags → i.size = 1 ∧ ∀ e, i.mat e 0 0 = 1
  one : Tag.concatenated ∈ tags → i.size = 1
  inducedGate : Tag.inducedGate ∉ tags
  inducedNorm : ∀ k, Tag.inducedNorm k ∉ tags
  inducedGated : ∀ k, Tag.inducedGated k ∉ tags

theorem LibIrrep.isIrr {g : GName} {i : Irrep g.El} {tags : List Tag} (h : LibIrrep g i tags) : g.IsIrr i := by
  cases h with
  | cyc h => exact ⟨_, h⟩
  | dih h => exact ⟨_, _, h⟩
  | so2 k => exact ⟨k, rfl⟩
  | o2 h => exact ⟨_, _, h⟩

theorem LibIrrep.tagsOk {g : GName} {i : Irrep g.El} {tags : List Tag} (h : LibIrrep g i tags) : IrrepTagsOk i tags := by
  cases h with
  | cyc h =>
    unfold Cyclic.irrep at h
    unfold Cyclic.irrepTags
    split_ifs at h ⊢ with h1 h2 h3 <;> cases h <;> constructor <;> simp [m1]
  | dih h =>
    unfold Dihedral.irrep at h
    unfold Dihedral.irrepTags
    split_ifs at h ⊢ with h1 h2 h3 h4 h5 h6 h7 <;> cases h <;> constructor <;> simp [m1]
  | so2 k =>
    unfold SO2.irrep SO2.irrepTags
    split_ifs with h1 <;> constructor <;> simp [m1]
  | @o2 j k i h =>
    unfold O2.irrep at h
    unfold O2.irrepTags
    split_ifs at h ⊢ with h1 h2 h3 h4 h5 h6 <;> cases h <;> constructor <;> simp [m1] <;> omega

theorem Irrep.repr_size {El : Type} (i : Irrep El) : i.repr.size = i.size := by simp [Irrep.repr, Repr.size]

theorem Irrep.repr_wf {El : Type} (i : Irrep El) : i.repr.WF := IsInv.one _

theorem blocks_singleton {El : Type} (i : Irrep El) (g : El) : MEq i.size i.size (Repr.blocks [i] g) (i.mat g) := by
  intro a ha b hb
  simp [Repr.blocks, bdiag, ha, hb]

theorem Irrep.repr_mat {El : Type} (i : Irrep El) (g : El) : MEq i.size i.size (i.repr.mat g) (i.mat g) := by
  rw [Repr.mat, Irrep.repr_size]
  exact (MEq_mul_one _ _ _).trans ((MEq_one_mul _ _ _).trans (blocks_singleton i g))

/-! ### Subgroups -/

theorem LibSub.ok {g h : GName} {p : h.El → g.El} {restr : Irrep g.El → Option (Mat × List (Irrep h.El))} (hs : LibSub g h p restr) (hg : g.Ok) :
    h.Ok ∧ (∀ e, h.grp.isEl e → g.grp.isEl (p e)) ∧
      ∀ r : Repr g.El, r.WF → (∀ i ∈ r.irreps, g.IsIrr i) → ∃ r', r.restrict restr = some r' ∧ IsRestriction h.grp p h.IsIrr r r' := by
  cases hs with
  | @cycCyc N M S h =>
    obtain ⟨h1, h2⟩ := c06_cyclic_subgroup N hg M
    obtain ⟨h3, h4, -⟩ := h2 S h
    rw [h3] at h4
    exact ⟨(h1.1 (by rw [h]; rfl)).1, h4.mem, fun r hr hi => c08_cyclic_restriction N hg M S h r hr hi⟩
  | @dihCyc N M m p c h =>
    obtain ⟨h1, h2⟩ := c06_dihedral_subgroup N hg none M
    obtain ⟨h3, h4, -⟩ := h2 _ h
    obtain rfl : m = M := h4 rfl
    exact ⟨(h1.1 (by rw [h]; rfl)).1, h3.1.mem, fun r hr hi => c09_dihedral_to_cyclic N hg m m p c h r hr hi⟩
  | @dihFlip N a m p c h =>
    obtain ⟨h1, h2⟩ := c06_dihedral_subgroup N hg (some a) 1
    obtain ⟨h3, -, h4, -⟩ := h2 _ h
    obtain rfl : m = 2 := h4 rfl rfl
    exact ⟨two_pos, h3.1.mem, fun r hr hi => c09_dihedral_to_flip N hg a 2 p c h r hr hi⟩
  | @dihDih N a M m p c hM h =>
    obtain ⟨h1, h2⟩ := c06_dihedral_subgroup N hg (some a) M
    obtain ⟨h3, -, -, h4⟩ := h2 _ h
    obtain rfl : m = M := h4 rfl hM
    exact ⟨by show 0 < m; omega, h3.1.mem, fun r hr hi => c09_dihedral_to_dihedral N hg a m hM m p c h r hr hi⟩
  | @so2Cyc M S h =>
    obtain ⟨h1, h2⟩ := c07_so2_subgroup M
    exact ⟨h1.1 (by rw [h]; rfl), fun _ _ => trivial, fun r hr hi => c09_so2_to_cyclic M S h r hr hi⟩
  | @o2O2 a p c h =>
    obtain ⟨h1, h2⟩ := c07_o2_subgroup_partial (some a) (-1)
    exact ⟨trivial, (h2 _ h).2.1.mem, fun r hr hi => c09_o2_to_o2 a p c h r hr hi⟩
  | @o2SO2 p c h =>
    obtain ⟨h1, h2⟩ := c07_o2_subgroup_partial none (-1)
    exact ⟨trivial, (h2 _ h).2.1.mem, fun r hr hi => c09_o2_to_so2 p c h r hr hi⟩
  | @o2Flip a m p c h =>
    obtain ⟨h1, h2⟩ := c07_o2_subgroup_partial (some a) 1
    obtain ⟨h3, h4⟩ := h2 _ h
    obtain rfl : m = 2 := by
      rcases h3 with h3 | h3
      · exact absurd h3.1 (by simp)
      · exact h3.2.2
    exact ⟨two_pos, h4.1.mem, fun r hr hi => c09_o2_to_flip a 2 p c h r hr hi⟩
  | @o2Cyc M m p c h =>
    obtain ⟨h1, h2⟩ := c07_o2_subgroup_partial none M
    obtain ⟨h3, h4⟩ := h2 _ h
    obtain rfl : m = M := by
      rcases h3 with h3 | h3
      · exact_mod_cast h3.2.symm
      · exact absurd h3.1 (by simp)
    have := h1.1 (by rw [h]; rfl)
    exact ⟨by show 0 < m; omega, h4.1.mem, fun r hr hi => c09_o2_to_cyclic m m p c h r hr hi⟩
  | @o2Dih a M m p c hM h =>
    obtain ⟨h1, h2⟩ := c07_o2_subgroup_partial (some a) M
    obtain ⟨h3, h4⟩ := h2 _ h
    obtain rfl : m = M := by
      have := h3
      simp only [O2.Sub.Named] at this
      omega
    exact ⟨by show 0 < m; omega, h4.1.mem, fun r hr hi => c09_o2_to_dihedral a m hM m p c h r hr hi⟩

/-! ### Induced representations -/

theorem induced_irreps {El El' : Type} [DecidableEq El] {G : Grp El} {els : List El} {irreps : List (Irrep El)} {S : SubData El El'} {ρ : Irrep El'}
    {r : Repr El} (h : induced G els irreps S ρ = some r) : ∀ i ∈ r.irreps, i ∈ irreps := by
  unfold induced at h
  dsimp only at h
  split_ifs at h with h1 h2 h3
  unfold inducedFrom at h
  split_ifs at h with h4
  split at h
  · cases h
  · dsimp only at h
    split_ifs at h
    cases h
    intro i hi
    obtain ⟨p, hp, hi⟩ := List.mem_flatMap.1 hi
    obtain ⟨j, hj, rfl⟩ := List.mem_map.1 hp
    rw [List.eq_of_mem_replicate hi]
    exact hj

/-- The matrices of an induced representation move blocks, on which they act by matrices of the inducing representation. -/
theorem induced_blockMono {El El' : Type} [DecidableEq El] {G : Grp El} {els : List El} {H : Grp El'} {S : SubData El El'} (ok : SubOk G els H S)
    {reps : List El} {ρ : Irrep El'} {r : Repr El} (hr : IsInducedRep G H S ρ reps r) {g : El} (hg : G.isEl g) :
    BlockMono reps.length ρ.size (fun O => ∃ h, H.isEl h ∧ O = ρ.mat h) (r.mat g) := by
  have T := hr.transversal
  have L := ok.lawG
  obtain ⟨τ, hinj, hτ⟩ := coset_perm ok T hg
  let e : Equiv.Perm (Fin reps.length) := Equiv.ofBijective τ (Finite.injective_iff_bijective.1 hinj)
  have he : ∀ i j, j = τ i ↔ i = e.symm j := fun i j => by
    rw [Equiv.eq_symm_apply]
    exact eq_comm
  have hel : ∀ i j : Fin reps.length, G.isEl (G.op (G.inv reps[(j : ℕ)]) (G.op g reps[(i : ℕ)])) := fun i j =>
    L.op_mem _ _ (L.inv_mem _ (T.mem _ (List.getElem_mem j.2))) (L.op_mem _ _ hg (T.mem _ (List.getElem_mem i.2)))
  have hsome : ∀ i j : Fin reps.length, (S.child (G.op (G.inv reps[(j : ℕ)]) (G.op g reps[(i : ℕ)]))).isSome ↔ i = e.symm j := by
    intro i j
    rw [child_isSome ok (hel i j), ← inCoset_iff ok (T.mem _ (List.getElem_mem j.2)) (L.op_mem _ _ hg (T.mem _ (List.getElem_mem i.2))), ← he]
    exact hτ i j
  have hex : ∀ j : Fin reps.length, ∃ h, S.child (G.op (G.inv reps[(j : ℕ)]) (G.op g reps[(e.symm j : ℕ)])) = some h :=
    fun j => Option.isSome_iff_exists.1 ((hsome _ j).2 rfl)
  choose c hc using hex
  refine ⟨e.symm, fun j => ρ.mat (c j), fun j => ⟨c j, (ok.pinv.parent_child _ _ (hel _ j) (hc j)).1, rfl⟩, ?_⟩
  intro j i a b
  rw [hr.mat g hg i i.2 j j.2 a b a.2 b.2]
  by_cases hij : i = e.symm j
  · rw [if_pos hij]
    subst hij
    simp only [hc]
  · rw [if_neg hij]
    have : S.child (G.op (G.inv reps[(j : ℕ)]) (G.op g reps[(i : ℕ)])) = none := by
      rw [← Option.not_isSome_iff_eq_none, hsome]
      exact hij
    simp only [this]

theorem o2_induced_blockMono (f : ℕ) (r : Repr (ℤ × ℝ)) (hr : O2.inducedFromIrrep none (-1) (SO2.irrep f) = some r) {g : ℤ × ℝ} (hg : O2.grp.isEl g) :
    BlockMono 2 (SO2.irrep f).size (fun O => ∃ h, SO2.grp.isEl h ∧ O = (SO2.irrep f).mat h) (r.mat g) := by
  have hb := c67_blocks f r hr g.2
  obtain ⟨e, θ⟩ := g
  rcases hg with h | h
  · obtain rfl : e = 0 := h
    refine ⟨1, fun i => (SO2.irrep f).mat (if i = 0 then θ else -θ), fun i => ⟨_, trivial, rfl⟩, ?_⟩
    intro i j a b
    obtain ⟨-, ⟨h1, h2, h3, h4⟩, -⟩ := hb a b a.2 b.2
    fin_cases i <;> fin_cases j <;> simp [h1, h2, h3, h4]
  · obtain rfl : e = 1 := h
    refine ⟨Equiv.swap 0 1, fun i => (SO2.irrep f).mat (if i = 0 then θ else -θ), fun i => ⟨_, trivial, rfl⟩, ?_⟩
    intro i j a b
    obtain ⟨-, -, h1, h2, h3, h4⟩ := hb a b a.2 b.2
    fin_cases i <;> fin_cases j <;> simp [h1, h2, h3, h4]

/-- All induced representations of the library: block structure, orthogonality, irreps. -/
theorem LibInduced.ok {g h : GName} {ρ : Irrep h.El} {r : Repr g.El} (hr : LibInduced g h ρ r) (hg : g.Ok) {tags : List Tag} (hρ : LibIrrep h ρ tags) :
    r.WF ∧ (∀ i ∈ r.irreps, g.IsIrr i) ∧ MEq r.size r.size r.cobInv (tr r.cob) ∧ (∀ e, h.grp.isEl e → Orth ρ.size (ρ.mat e)) ∧
      ∃ q, 0 < q ∧ r.size = q * ρ.size ∧ ∀ e, g.grp.isEl e → BlockMono q ρ.size (fun O => ∃ e', h.grp.isEl e' ∧ O = ρ.mat e') (r.mat e) := by
  have hρi := hρ.isIrr
  have main : ∀ {El El' : Type} [DecidableEq El] {G : Grp El} {els : List El} {irreps : List (Irrep El)} {H : Grp El'} {S : SubData El El'}
      {ρ : Irrep El'} {r : Repr El}, SubOk G els H S → induced G els irreps S ρ = some r →
      r.WF ∧ (∀ i ∈ r.irreps, i ∈ irreps) ∧ MEq r.size r.size r.cobInv (tr r.cob) ∧
      ∃ q, 0 < q ∧ r.size = q * ρ.size ∧ ∀ e, G.isEl e → BlockMono q ρ.size (fun O => ∃ e', H.isEl e' ∧ O = ρ.mat e') (r.mat e) := by
    intro El El' _ G els irreps H S ρ r ok hi
    have hs := induced_spec ok hi
    refine ⟨hs.wf, induced_irreps hi, hs.orth, _, ?_, hs.size, fun e he => induced_blockMono ok hs he⟩
    by_contra hc
    have hl := cosetLoop_card ok
    rw [Nat.eq_zero_of_not_pos hc, zero_mul] at hl
    have := (ok.mem _).2 ok.lawG.one_mem
    rw [List.length_eq_zero_iff.1 hl.symm] at this
    cases this
  have horth : h.Ok → ∀ e, h.grp.isEl e → Orth ρ.size (ρ.mat e) := fun hh e he => (GName.isOrthRep hh hρi).orth (GName.invOk hh) e he
  cases hr with
  | @cyc N M k ρ r hk hr =>
    unfold Cyclic.inducedRepr at hr
    cases hS : Cyclic.subData N M with
    | none => rw [hS] at hr; cases hr
    | some S =>
      rw [hS, hk] at hr
      have ok := Cyclic.subData_ok hg hS
      obtain ⟨h1, h2, h3, h4⟩ := main ok hr
      have hM : 0 < M := by
        rcases Nat.eq_zero_or_pos M with rfl | h
        · have := (Cyclic.isEl_iff 0 _).1 ok.lawH.one_mem
          simp at this; omega
        · exact h
      exact ⟨h1, fun i hi => Cyclic.exists_of_mem_irreps (h2 i hi), h3, horth hM, h4⟩
  | @dihCyc N M S ρ r hS hr =>
    have ok := Dihedral.subData_ok_cyc hg hS
    obtain ⟨h1, h2, h3, h4⟩ := main ok hr
    have hM : 0 < M := by
      rcases Nat.eq_zero_or_pos M with rfl | h
      · have := (Cyclic.isEl_iff 0 _).1 ok.lawH.one_mem
        simp at this; omega
      · exact h
    exact ⟨h1, fun i hi => Dihedral.exists_of_mem_irreps (h2 i hi), h3, horth hM, h4⟩
  | @dihFlip N a S ρ r hS hr =>
    have ok := Dihedral.subData_ok_flip hg hS
    obtain ⟨h1, h2, h3, h4⟩ := main ok hr
    exact ⟨h1, fun i hi => Dihedral.exists_of_mem_irreps (h2 i hi), h3, horth two_pos, h4⟩
  | @dihDih N a M S ρ r hS hr =>
    have ok := Dihedral.subData_ok_dih hg hS
    obtain ⟨h1, h2, h3, h4⟩ := main ok hr
    have hM : 0 < M := by
      rcases Nat.eq_zero_or_pos M with rfl | h
      · have := (Dihedral.isEl_iff 0 _).1 ok.lawH.one_mem
        simp at this; omega
      · exact h
    exact ⟨h1, fun i hi => Dihedral.exists_of_mem_irreps (h2 i hi), h3, horth hM, h4⟩
  | @o2 ρ r hr =>
    obtain ⟨f, rfl⟩ := hρi
    obtain ⟨r', hr', hi, -⟩ := c67_induced f
    obtain rfl : r' = r := by rw [hr'] at hr; exact Option.some.inj hr
    refine ⟨hi.wf, ?_, hi.orth, horth trivial, 2, two_pos, hi.size, fun e he => o2_induced_blockMono f r' hr he⟩
    have hx : ∃ r, O2.inducedSO2 (SO2.irrep f) = some r ∧ (∀ i ∈ r.irreps, ∃ j k, O2.irrep j k = some i) := by
      rcases Nat.eq_zero_or_pos f with rfl | hf
      · obtain ⟨r, h1, h2, -⟩ := O2.induced_zero; exact ⟨r, h1, h2⟩
      · obtain ⟨r, h1, h2, -⟩ := O2.induced_pos f hf; exact ⟨r, h1, h2⟩
    obtain ⟨r2, h1, h2⟩ := hx
    have : O2.inducedFromIrrep none (-1) (SO2.irrep f) = O2.inducedSO2 (SO2.irrep f) := by simp [O2.inducedFromIrrep]
    rw [this, h1] at hr
    cases hr
    exact h2

end E2
