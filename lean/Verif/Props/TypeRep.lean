import Verif.Model.TypeRep
import Verif.Props.Names
import Verif.Props.RepNames
import Verif.Props.Restriction
import Verif.Props.RestrictionCont
import Verif.Props.Reorder
import Verif.Props.SpaceRestrict

/-!
# C96: the representation of a field type is the direct sum of its fields, and restricting a type restricts its fields
-/

set_option linter.unusedSectionVars false

namespace E2

open Finset Mat Real

variable {El El' : Type}

/-! ## The representation of a type -/

theorem foldl_append_flatMap {α β : Type} (f : α → List β) (t : List α) (l : List β) : t.foldl (fun l a => l ++ f a) l = l ++ t.flatMap f := by
  induction t generalizing l with
  | nil => simp
  | cons a t ih => rw [List.foldl_cons, ih, List.flatMap_cons, List.append_assoc]

/-- **C96**: `FieldType.representation` has the size of the type, and its matrices are block diagonal with the matrices of the fields, in order.  Its irreps, its
change of basis and the inverse are those which `FieldType.irreps`, `change_of_basis` and `change_of_basis_inv` return, they are inverse to each other, and they
decompose the representation: `ρ(g) = Q ⊕ψ(g) Q⁻¹`. -/
theorem c96_representation (t : List (NRep El String)) (d : NRep El String) (h : ∀ f ∈ t, f.rep.WF) :
    (typeRepresentation t).WF ∧
    (typeRepresentation t).size = (t.map fun f => f.rep.size).sum ∧
    (∀ g, IsBlockDiagonal (t.map fun f => f.rep.size) (fun k => (t.getD k d).rep.mat g) ((typeRepresentation t).mat g)) ∧
    typeIrreps t = (t.map fun f => f.rep.irreps).flatten ∧ (typeRepresentation t).irreps = typeIrreps t ∧
    (typeRepresentation t).cob = typeCob t ∧ (typeRepresentation t).cobInv = typeCobInv t ∧
    IsInv (typeSize (fun f => f.rep.size) t) (typeCob t) (typeCobInv t) ∧
    (∀ g, (typeRepresentation t).mat g = conj (typeSize (fun f => f.rep.size) t) (typeCob t) (Repr.blocks (typeIrreps t) g) (typeCobInv t)) ∧
    ∀ G : Grp El, (∀ f ∈ t, ∀ i ∈ f.rep.irreps, IsRep G i.size i.mat) → IsRep G (typeRepresentation t).size (typeRepresentation t).mat := by
  have h' : ∀ r ∈ t.map NRep.rep, r.WF := by
    intro r hr
    obtain ⟨f, hf, rfl⟩ := List.mem_map.1 hr
    exact h f hf
  obtain ⟨h1, h2, h3, h4, h5⟩ := c10_directsum (t.map NRep.rep) d.rep h'
  have hs : (typeRepresentation t).size = (t.map fun f => f.rep.size).sum := by
    rw [typeRepresentation, h2, List.map_map]
    rfl
  have hi : typeIrreps t = (t.map fun f => f.rep.irreps).flatten := by
    rw [typeIrreps, foldl_append_flatMap, List.nil_append, List.flatMap_def]
  have hr : (typeRepresentation t).irreps = typeIrreps t := by
    rw [typeRepresentation, h3, List.map_map, hi]
    rfl
  have hc : (typeRepresentation t).cob = typeCob t := by
    simp [typeRepresentation, Repr.directsum, typeCob, Function.comp_def]
  have hci : (typeRepresentation t).cobInv = typeCobInv t := by
    simp [typeRepresentation, Repr.directsum, typeCobInv, Function.comp_def]
  refine ⟨h1, hs, fun g => ?_, hi, hr, hc, hci, ?_, fun g => ?_, fun G hG => h5 G fun r hr' i hi' => ?_⟩
  · have := Repr.isBlockDiagonal_bdiag t (fun f => f.rep.size) (fun f => f.rep.mat g) d
    rw [typeRepresentation, Repr.directsum_mat, List.map_map]
    exact this
  · have := h1
    rw [show (Repr.directsum (t.map NRep.rep)) = typeRepresentation t from rfl, Repr.WF, hs, hc, hci] at this
    exact this
  · rw [Repr.mat, hs, hc, hci, hr]
    rfl
  · obtain ⟨f, hf, rfl⟩ := List.mem_map.1 hr'
    exact hG f hf i hi'

/-- **C96, `transform`**: an element moves the pixels as the space says and mixes the channels of each field by the matrix of the representation of the field, which is the
action of the theorems about layers. -/
theorem c96_transform (base : ℕ → El → Img → Img) (t : List (NRep El String)) (n : ℕ) (g : El) (x : Fmap) :
    typeTransform base t n g x = fieldAct (typeSize (fun f => f.rep.size) t) (typeMat NRep.rep t g) (base n g) x := by
  rw [typeTransform, typeRepresentation, Repr.directsum_mat, List.map_map]
  rfl

theorem sorted_names (l : List String) : (l.mergeSort fun a b => decide (a ≤ b)).Pairwise (· ≤ ·) := by
  have := List.pairwise_mergeSort (le := fun a b : String => decide (a ≤ b)) (fun a b c h1 h2 => by
    simp only [decide_eq_true_eq] at h1 h2 ⊢
    exact le_trans h1 h2) (fun a b => by
    simp only [Bool.or_eq_true, decide_eq_true_eq]
    exact le_total a b) l
  simpa using this

/-- The name of the representation of a type depends on the size and the set of the fields only. -/
theorem typeReprName_eq (t t' uniq uniq' : List (NRep El String)) (h : UniqueOf uniq t) (h' : UniqueOf uniq' t') (hm : ∀ f, f ∈ t ↔ f ∈ t')
    (hs : typeSize (fun f => f.rep.size) t = typeSize (fun f => f.rep.size) t') : typeReprName uniq t = typeReprName uniq' t' := by
  have hp : uniq.Perm uniq' := (List.perm_ext_iff_of_nodup h.1 h'.1).2 fun f => by rw [h.2, h'.2, hm]
  refine Prod.ext hs ?_
  exact List.Perm.eq_of_pairwise (fun _ _ _ _ h1 h2 => le_antisymm h1 h2) (sorted_names _) (sorted_names _)
    ((List.mergeSort_perm _ _).trans ((hp.map _).trans (List.mergeSort_perm _ _).symm))

/-- **C96, false for names**: the name of the representation of a type does not identify it (compare C91): the types `[irrep_0, irrep_1]` and `[irrep_1, irrep_0]` of `C_2` have
different representations with the same name. -/
theorem c96_name_wrong : ∃ t t' : List (NRep ℤ String), (∀ uniq uniq', UniqueOf uniq t → UniqueOf uniq' t' → typeReprName uniq t = typeReprName uniq' t') ∧
    (typeRepresentation t).size = 2 ∧ (typeRepresentation t').size = 2 ∧ ¬ MEq 2 2 ((typeRepresentation t).mat 1) ((typeRepresentation t').mat 1) := by
  refine ⟨[c2Field 0, c2Field 1], [c2Field 1, c2Field 0], fun u u' h h' => typeReprName_eq _ _ _ _ h h' (fun f => ?_) ?_, ?_, ?_, fun h => ?_⟩
  · simp only [List.mem_cons, List.not_mem_nil, or_false]
    tauto
  · simp [typeSize, c2Field, Repr.size, c2Irrep]
  · simp [typeRepresentation, Repr.directsum, c2Field, Repr.size, c2Irrep]
  · simp [typeRepresentation, Repr.directsum, c2Field, Repr.size, c2Irrep]
  · have := h 0 two_pos 0 two_pos
    rw [typeRepresentation, typeRepresentation, Repr.directsum_mat, Repr.directsum_mat] at this
    simp [bdiag, c2Field, Repr.mat, Repr.size, Repr.blocks, c2Irrep, Mat.mul, Mat.one, m1] at this
    norm_num at this

/-! ## Restriction -/

theorem restrictDict_spec (restr : NRep El String → Option (NRep El' String)) (uniq : List (NRep El String)) (d0 : String → Option (NRep El' String))
    (hr : ∀ f ∈ uniq, ∃ f', restr f = some f') :
    ∃ d, uniq.foldlM (fun d r => (restr r).map fun q => Function.update d r.name (some q)) d0 = some d ∧
      ∀ n, (∃ f ∈ uniq, f.name = n ∧ d n = restr f) ∨ ((∀ f ∈ uniq, f.name ≠ n) ∧ d n = d0 n) := by
  induction uniq generalizing d0 with
  | nil => exact ⟨d0, rfl, fun n => Or.inr ⟨by simp, rfl⟩⟩
  | cons a l ih =>
    obtain ⟨q, hq⟩ := hr a (by simp)
    obtain ⟨d, hd, hn⟩ := ih (Function.update d0 a.name (some q)) fun f hf => hr f (by simp [hf])
    refine ⟨d, ?_, fun n => ?_⟩
    · rw [List.foldlM_cons, hq]
      exact hd
    · rcases hn n with ⟨f, hf, h1, h2⟩ | ⟨h1, h2⟩
      · exact Or.inl ⟨f, by simp [hf], h1, h2⟩
      · by_cases ha : a.name = n
        · refine Or.inl ⟨a, by simp, ha, ?_⟩
          rw [h2, ← ha, Function.update_self, hq]
        · refine Or.inr ⟨?_, ?_⟩
          · intro f hf
            rcases List.mem_cons.1 hf with rfl | hf
            · exact ha
            · exact h1 f hf
          · rw [h2, Function.update_of_ne (Ne.symm ha)]

/-- Whatever the order of the set: the restricted type exists, and each field is the restriction of a field with the same name. -/
theorem restrictType_spec (restr : NRep El String → Option (NRep El' String)) (uniq t : List (NRep El String)) (hu : UniqueOf uniq t)
    (hr : ∀ f ∈ t, ∃ f', restr f = some f') :
    ∃ t', restrictType restr uniq t = some t' ∧ t'.length = t.length ∧
      ∃ pick : String → NRep El String, ∀ i (h1 : i < t.length) (h2 : i < t'.length), pick t[i].name ∈ t ∧ (pick t[i].name).name = t[i].name ∧ restr (pick t[i].name) = some t'[i] := by
  classical
  obtain ⟨d, hd, hn⟩ := restrictDict_spec restr uniq (fun _ => none) fun f hf => hr f ((hu.2 f).1 hf)
  have key : ∀ f ∈ t, ∃ f' ∈ t, f'.name = f.name ∧ d f.name = restr f' := by
    intro f hf
    rcases hn f.name with ⟨f', h1, h2, h3⟩ | ⟨h1, _⟩
    · exact ⟨f', (hu.2 f').1 h1, h2, h3⟩
    · exact absurd rfl (h1 f ((hu.2 f).2 hf))
  have hsome : ∀ f ∈ t, ∃ q, d f.name = some q := by
    intro f hf
    obtain ⟨f', h1, _, h3⟩ := key f hf
    obtain ⟨q, hq⟩ := hr f' h1
    exact ⟨q, h3.trans hq⟩
  obtain ⟨t', ht'⟩ : ∃ t', t.mapM (fun r => d r.name) = some t' := by
    have := hsome
    generalize t = l at this
    clear * - this
    induction l with
    | nil => exact ⟨[], rfl⟩
    | cons r l ih =>
      obtain ⟨t, ht⟩ := ih fun s hs => this s (by simp [hs])
      obtain ⟨r', h1⟩ := this r (by simp)
      exact ⟨r' :: t, by rw [List.mapM_cons, h1, ht]; rfl⟩
  have hm := (mapM_some_iff _ _ _).1 ht'
  have hlen : t'.length = t.length := by simpa using (congrArg List.length hm).symm
  refine ⟨t', ?_, hlen, fun n => if h : ∃ f' ∈ t, f'.name = n ∧ d n = restr f' then h.choose else ⟨n, ⟨[], Mat.one, Mat.one⟩⟩, fun i h1 h2 => ?_⟩
  · rw [restrictType]
    rw [show restrictDict restr uniq = some d by unfold restrictDict; convert hd, Option.bind_some, ht']
  · have hk := key t[i] (List.getElem_mem _)
    dsimp only
    rw [dif_pos hk]
    obtain ⟨k1, k2, k3⟩ := hk.choose_spec
    refine ⟨k1, k2, ?_⟩
    have := congrArg (·[i]?) hm
    simp only [List.getElem?_map, List.getElem?_eq_getElem h1, List.getElem?_eq_getElem h2, Option.map_some, Option.some.injEq] at this
    rw [← k3, this]

/-- The names identify the representations of a type. -/
def NamesIdentify (t : List (NRep El String)) : Prop := ∀ f ∈ t, ∀ f' ∈ t, f.name = f'.name → f = f'

theorem bdiag_congr_list {α β : Type} (szA : α → ℕ) (A : α → Mat) (szB : β → ℕ) (B : β → Mat) (l : List α) (m : List β) (hl : l.length = m.length)
    (h : ∀ i (h1 : i < l.length) (h2 : i < m.length), szB m[i] = szA l[i] ∧ MEq (szA l[i]) (szA l[i]) (B m[i]) (A l[i])) :
    bdiag (m.map fun a => (szB a, B a)) = bdiag (l.map fun a => (szA a, A a)) := by
  have e1 : (m.map fun a => (szB a, B a)) = (List.range l.length).attach.map fun i =>
      (szA (l[i.1]'(List.mem_range.1 i.2)), B (m[i.1]'(hl ▸ List.mem_range.1 i.2))) := by
    apply List.ext_getElem (by simp [hl])
    intro i h1 h2
    simp only [List.length_map] at h1
    simp only [List.getElem_map, List.getElem_attach, List.getElem_range]
    rw [(h i (hl ▸ h1) h1).1]
  have e2 : (l.map fun a => (szA a, A a)) = (List.range l.length).attach.map fun i =>
      (szA (l[i.1]'(List.mem_range.1 i.2)), A (l[i.1]'(List.mem_range.1 i.2))) := by
    apply List.ext_getElem (by simp)
    intro i h1 h2
    simp only [List.getElem_map, List.getElem_attach, List.getElem_range]
  rw [e1, e2]
  exact bdiag_congr _ _ _ _ fun i _ => (h i.1 (List.mem_range.1 i.2) (hl ▸ List.mem_range.1 i.2)).2

/-- **C96, restriction**: when the names identify the representations, the fields of `FieldType.restrict(id)` are the restrictions of the fields, in order, whatever the order
in which the set of representations is visited.  The representation of the new type, at an element of the subgroup, is that of the type at the corresponding element
of the group.  The full claim, without the hypothesis on the names, is false: `c96_restrict_wrong`. -/
theorem c96_restrict_partial (H : Grp El') (parent : El' → El) (isIrrep : Irrep El' → Prop) (restr : NRep El String → Option (NRep El' String))
    (uniq t : List (NRep El String)) (hu : UniqueOf uniq t) (hn : NamesIdentify t)
    (hr : ∀ f ∈ t, ∃ f', restr f = some f' ∧ IsRestriction H parent isIrrep f.rep f'.rep) :
    ∃ t', restrictType restr uniq t = some t' ∧ t'.map some = t.map restr ∧
      typeSize (fun f => f.rep.size) t' = typeSize (fun f => f.rep.size) t ∧
      ∀ h, H.isEl h → (typeRepresentation t').mat h = (typeRepresentation t).mat (parent h) := by
  obtain ⟨t', h1, h2, pick, h3⟩ := restrictType_spec restr uniq t hu fun f hf => (hr f hf).imp fun _ => And.left
  have h4 : ∀ i (a : i < t.length) (b : i < t'.length), restr t[i] = some t'[i] := by
    intro i a b
    obtain ⟨p1, p2, p3⟩ := h3 i a b
    rw [← hn _ p1 _ (List.getElem_mem _) p2, p3]
  have h5 : ∀ i (a : i < t.length) (b : i < t'.length), IsRestriction H parent isIrrep t[i].rep t'[i].rep := by
    intro i a b
    obtain ⟨f', f1, f2⟩ := hr t[i] (List.getElem_mem _)
    rw [h4 i a b, Option.some.injEq] at f1
    rw [f1]
    exact f2
  refine ⟨t', h1, ?_, ?_, fun h hh => ?_⟩
  · apply List.ext_getElem (by simp [h2])
    intro i a b
    simp only [List.length_map] at a b
    simp only [List.getElem_map]
    exact (h4 i b a).symm
  · unfold typeSize
    congr 1
    apply List.ext_getElem (by simp [h2])
    intro i a b
    simp only [List.length_map] at a b
    simp only [List.getElem_map]
    exact (h5 i b a).size
  · rw [typeRepresentation, typeRepresentation, Repr.directsum_mat, Repr.directsum_mat, List.map_map, List.map_map]
    exact bdiag_congr_list (fun f : NRep El String => f.rep.size) (fun f => f.rep.mat (parent h)) (fun f : NRep El' String => f.rep.size) (fun f => f.rep.mat h) t t' h2.symm
      fun i a b => ⟨(h5 i a b).size, (h5 i a b).mat h hh⟩

/-- **C96, `RestrictionModule` and `GeometricTensor.restrict`**: transforming the restricted tensor with an element of the subgroup is transforming the tensor with the
corresponding element of the group, images included. -/
theorem c96_restriction_module (Sp : Space El) (r : Restriction El) (hs : SameAction Sp r) (isIrrep : Irrep r.El' → Prop) (restr : NRep El String → Option (NRep r.El' String))
    (uniq t : List (NRep El String)) (hu : UniqueOf uniq t) (hn : NamesIdentify t)
    (hr : ∀ f ∈ t, ∃ f', restr f = some f' ∧ IsRestriction r.sub.G r.parent isIrrep f.rep f'.rep) :
    ∃ t', restrictType restr uniq t = some t' ∧ ∀ h, r.sub.G.isEl h → ∀ (n : ℕ) (x : Fmap), ∀ o < typeSize (fun f => f.rep.size) t,
      typeTransform r.sub.base t' n h x o = typeTransform Sp.base t n (r.parent h) x o := by
  obtain ⟨t', h1, _, h3, h4⟩ := c96_restrict_partial r.sub.G r.parent isIrrep restr uniq t hu hn hr
  refine ⟨t', h1, fun h hh n x o ho => ?_⟩
  unfold typeTransform
  rw [h3]
  exact c44_field hs _ (typeRepresentation t).mat (typeRepresentation t').mat h hh (by rw [h4 h hh]; exact MEq.refl _) n x o ho

/-! ## Two direct sums with the same name -/

/-- The irreps 0 and 3 of `C_6` (cyclicgroup.py:237-288). -/
noncomputable def c6Irrep (k : ℕ) : Irrep ℤ :=
  { size := 1, socs := 1, mat := fun e => m1 (if k = 0 then 1 else cos (k * e * (2 * π / 6))), freq := k, flip := 0 }

theorem c6Irrep_eq (k : ℕ) (hk : k = 0 ∨ k = 3) : Cyclic.irrep 6 k = some (c6Irrep k) := by
  rcases hk with rfl | rfl
  · simp [Cyclic.irrep, c6Irrep]
  · simp [Cyclic.irrep, c6Irrep, Cyclic.order, Cyclic.elements]

/-- The irreps as representations with their names. -/
noncomputable def c6Field (k : ℕ) : NRep ℤ String := ⟨"irrep_" ++ toString k, ⟨[c6Irrep k], Mat.one, Mat.one⟩⟩

/-- `directsum([irrep_0, irrep_3])`. -/
noncomputable def sum03 : NRep ℤ String := nDirectsum [c6Field 0, c6Field 3] none

/-- `directsum([irrep_0, irrep_3], change_of_basis=[[0, 1], [1, 0]])`. -/
noncomputable def sum30 : NRep ℤ String := nDirectsum [c6Field 0, c6Field 3] (some swap2)

theorem c6_wf : ∀ r ∈ [(c6Field 0).rep, (c6Field 3).rep], r.WF := by
  intro r hr
  simp only [List.mem_cons, List.not_mem_nil, or_false] at hr
  rcases hr with rfl | rfl <;> exact ⟨MEq_one_mul _ _ _, MEq_one_mul _ _ _⟩

theorem c6_sizes : ([(c6Field 0).rep, (c6Field 3).rep].map Repr.size).sum = 2 := by simp [c6Field, Repr.size, c6Irrep]

theorem sum03_wf : sum03.rep.WF := (c10_directsum [(c6Field 0).rep, (c6Field 3).rep] (c6Field 0).rep c6_wf).1

theorem sum03_size : sum03.rep.size = 2 := ((c10_directsum [(c6Field 0).rep, (c6Field 3).rep] (c6Field 0).rep c6_wf).2.1).trans c6_sizes

theorem sum03_mat (g : ℤ) : MEq 2 2 (sum03.rep.mat g) (m2 1 0 0 (cos (3 * g * (2 * π / 6)))) := by
  have h : sum03.rep.mat g = bdiag [(1, (c6Field 0).rep.mat g), (1, (c6Field 3).rep.mat g)] := by
    show (Repr.directsum _).mat g = _
    rw [Repr.directsum_mat]
    rfl
  rw [h]
  intro i hi j hj
  interval_cases i <;> interval_cases j <;>
    simp [bdiag, c6Field, Repr.mat, Repr.size, Repr.blocks, c6Irrep, Mat.mul, Mat.one, m1, m2]

theorem sum30_spec : sum30.rep.WF ∧ sum30.rep.size = 2 ∧ sum30.rep.irreps = [c6Irrep 0, c6Irrep 3] ∧
    ∀ g, MEq 2 2 (sum30.rep.mat g) (conj 2 swap2 (sum03.rep.mat g) swap2) := by
  have h := c10_directsum_change_of_basis [(c6Field 0).rep, (c6Field 3).rep] c6_wf swap2 swap2 (by rw [c6_sizes]; exact swap2_inv)
  rw [c6_sizes] at h
  exact h

theorem sum30_mat (g : ℤ) : MEq 2 2 (sum30.rep.mat g) (m2 (cos (3 * g * (2 * π / 6))) 0 0 1) := by
  refine (sum30_spec.2.2.2 g).trans ?_
  refine (((MEq.refl _).mul (sum03_mat g)).mul (MEq.refl _)).trans fun i hi j hj => ?_
  interval_cases i <;> interval_cases j <;> simp [Mat.mul, swap2, m2, Finset.sum_range_succ]

theorem c6_irreps (i : Irrep ℤ) (h : i ∈ [c6Irrep 0, c6Irrep 3]) : Cyclic.IsIrrep 6 i := by
  simp only [List.mem_cons, List.not_mem_nil, or_false] at h
  rcases h with rfl | rfl
  · exact ⟨0, c6Irrep_eq 0 (by simp)⟩
  · exact ⟨3, c6Irrep_eq 3 (by simp)⟩

/-- `restrict_representation(2, ·)` of `C_6`. -/
noncomputable def c6Restrict : NRep ℤ String → Option (NRep ℤ String) := nRestrict (.cyc 6) fun i => Cyclic.restrictIrrep 6 i 2

/-- `C_6` contains `C_2`. -/
theorem c6_sub : ∃ S, Cyclic.subgroup 6 2 = some S ∧ S.parent 1 = 3 := ⟨_, rfl, by simp [Cyclic.order, Cyclic.elements]⟩

theorem c6Restrict_spec (S : Cyclic.Sub) (hS : Cyclic.subgroup 6 2 = some S) (f : NRep ℤ String) (hw : f.rep.WF) (hi : ∀ i ∈ f.rep.irreps, Cyclic.IsIrrep 6 i) :
    ∃ f', c6Restrict f = some f' ∧ IsRestriction (Cyclic.grp 2) S.parent (Cyclic.IsIrrep 2) f.rep f'.rep := by
  obtain ⟨r', h1, h2⟩ := c08_cyclic_restriction 6 (by norm_num) 2 S hS f.rep hw hi
  exact ⟨⟨(LibGroup.cyc 6).name ++ ":" ++ f.name, r'⟩, by rw [c6Restrict, nRestrict, h1]; rfl, h2⟩

theorem sums_ok : ∀ f ∈ [sum03, sum30], f.rep.WF ∧ ∀ i ∈ f.rep.irreps, Cyclic.IsIrrep 6 i := by
  intro f hf
  simp only [List.mem_cons, List.not_mem_nil, or_false] at hf
  rcases hf with rfl | rfl
  · refine ⟨sum03_wf, fun i hi => c6_irreps i ?_⟩
    have e : sum03.rep.irreps = [c6Irrep 0, c6Irrep 3] := by simp [sum03, nDirectsum, c6Field, Repr.directsum]
    rwa [e] at hi
  · refine ⟨sum30_spec.1, fun i hi => c6_irreps i ?_⟩
    rwa [sum30_spec.2.2.1] at hi

/-- **C96, restriction, the full claim is false**: two fields of `C_6` which are direct sums of the same irreps, one with a change of basis, have the same name.  Whatever the order of the
set of representations, the type restricted to `C_2` exists and does not transform as the type. -/
theorem c96_restrict_wrong : ∃ A B : NRep ℤ String, (∀ f ∈ [A, B], f.rep.WF ∧ ∀ i ∈ f.rep.irreps, Cyclic.IsIrrep 6 i) ∧
    ∃ S, Cyclic.subgroup 6 2 = some S ∧ ∀ uniq, UniqueOf uniq [A, B] →
      ∃ t', restrictType (nRestrict (.cyc 6) fun i => Cyclic.restrictIrrep 6 i 2) uniq [A, B] = some t' ∧
        typeSize (fun f => f.rep.size) t' = 4 ∧ ¬ MEq 4 4 ((typeRepresentation t').mat 1) ((typeRepresentation [A, B]).mat (S.parent 1)) := by
  obtain ⟨S, hS, hp⟩ := c6_sub
  refine ⟨sum03, sum30, sums_ok, S, hS, fun uniq hu => ?_⟩
  have hr : ∀ f ∈ [sum03, sum30], ∃ f', c6Restrict f = some f' ∧ IsRestriction (Cyclic.grp 2) S.parent (Cyclic.IsIrrep 2) f.rep f'.rep :=
    fun f hf => c6Restrict_spec S hS f (sums_ok f hf).1 (sums_ok f hf).2
  have hsz : ∀ f ∈ [sum03, sum30], f.rep.size = 2 := by
    intro f hf
    simp only [List.mem_cons, List.not_mem_nil, or_false] at hf
    rcases hf with rfl | rfl
    · exact sum03_size
    · exact sum30_spec.2.1
  obtain ⟨t', h1, h2, pick, h3⟩ := restrictType_spec c6Restrict uniq _ hu fun f hf => (hr f hf).imp fun _ => And.left
  match t', h2 with
  | [q, q'], _ =>
    obtain ⟨p1, _, p3⟩ := h3 0 (by simp) (by simp)
    obtain ⟨_, _, p4⟩ := h3 1 (by simp) (by simp)
    simp only [List.getElem_cons_zero, List.getElem_cons_succ] at p1 p3 p4
    have hq : q' = q := by
      rw [show sum30.name = sum03.name from rfl, p3] at p4
      exact (Option.some.inj p4).symm
    subst hq
    have hq2 : q'.rep.size = 2 := by
      obtain ⟨f', f1, f2⟩ := hr _ p1
      rw [p3, Option.some.injEq] at f1
      rw [f1, f2.size]
      exact hsz _ p1
    refine ⟨_, h1, by simp [typeSize, hq2], fun h => ?_⟩
    have e0 := h 0 (by norm_num) 0 (by norm_num)
    have e2 := h 2 (by norm_num) 2 (by norm_num)
    have a := sum03_mat 3 0 two_pos 0 two_pos
    have b := sum30_mat 3 0 two_pos 0 two_pos
    have hc : cos (3 * ((3 : ℤ) : ℝ) * (2 * π / 6)) = -1 := by
      rw [show 3 * ((3 : ℤ) : ℝ) * (2 * π / 6) = π + 2 * π by push_cast; ring, cos_add_two_pi, cos_pi]
    rw [hc] at b
    rw [typeRepresentation, typeRepresentation, Repr.directsum_mat, Repr.directsum_mat, hp] at e0 e2
    simp [bdiag, hq2, sum03_size, sum30_spec.2.1, a, b, m2] at e0 e2
    rw [e0] at e2
    norm_num at e2

/-- A type which meets the hypotheses of `c96_restrict_partial`: an irrep of `C_6`, a direct sum with a change of basis, and the irrep again, restricted to `C_2`. -/
example : ∃ S, Cyclic.subgroup 6 2 = some S ∧ UniqueOf [sum30, c6Field 3] [c6Field 3, sum30, c6Field 3] ∧ NamesIdentify [c6Field 3, sum30, c6Field 3] ∧
    ∀ f ∈ [c6Field 3, sum30, c6Field 3], ∃ f', c6Restrict f = some f' ∧ IsRestriction (Cyclic.grp 2) S.parent (Cyclic.IsIrrep 2) f.rep f'.rep := by
  obtain ⟨S, hS, _⟩ := c6_sub
  have hne : sum30.name ≠ (c6Field 3).name := by
    show directsumName ["irrep_0", "irrep_3"] ≠ "irrep_3"
    decide
  refine ⟨S, hS, ⟨?_, ?_⟩, ?_, ?_⟩
  · simp only [List.nodup_cons, List.mem_singleton, List.not_mem_nil, not_false_eq_true, List.nodup_nil, and_true]
    rintro h
    exact hne (by rw [h])
  · intro f
    simp only [List.mem_cons, List.not_mem_nil, or_false]
    tauto
  · intro f hf f' hf' h
    simp only [List.mem_cons, List.not_mem_nil, or_false] at hf hf'
    rcases hf with rfl | rfl | rfl <;> rcases hf' with rfl | rfl | rfl <;> first | rfl | exact absurd h hne | exact absurd h.symm hne
  · intro f hf
    simp only [List.mem_cons, List.not_mem_nil, or_false] at hf
    have h3 : (c6Field 3).rep.WF ∧ ∀ i ∈ (c6Field 3).rep.irreps, Cyclic.IsIrrep 6 i :=
      ⟨c6_wf _ (by simp), fun i hi => c6_irreps i (by simp [c6Field] at hi; simp [hi])⟩
    rcases hf with rfl | rfl | rfl
    · exact c6Restrict_spec S hS _ h3.1 h3.2
    · exact c6Restrict_spec S hS _ (sums_ok _ (by simp)).1 (sums_ok _ (by simp)).2
    · exact c6Restrict_spec S hS _ h3.1 h3.2

/-- A tensor of `C_6` on the plane restricted to `C_2`, by `c96_restriction_module`: `h` of `C_2` acts as `3 h` of `C_6`. -/
example (uniq t : List (NRep ℤ String)) (hu : UniqueOf uniq t) (hn : NamesIdentify t) (ht : ∀ f ∈ t, f.rep.WF ∧ ∀ i ∈ f.rep.irreps, Cyclic.IsIrrep 6 i) :
    ∃ S, rotRestrict (fun _ x => x) 6 2 = some ⟨ℤ, rotSpace (fun _ x => x) 2, S⟩ ∧ ∃ t', restrictType c6Restrict uniq t = some t' ∧
      ∀ h, (Cyclic.grp 2).isEl h → ∀ (n : ℕ) (x : Fmap), ∀ o < typeSize (fun f => f.rep.size) t,
        typeTransform (rotSpace (fun _ x => x) 2).base t' n h x o = typeTransform (rotSpace (fun _ x => x) 6).base t n (S h) x o := by
  obtain ⟨S, hS, _⟩ := c6_sub
  have hr : rotRestrict (fun _ x => x) 6 2 = some ⟨ℤ, rotSpace (fun _ x => x) 2, S.parent⟩ := by
    have ho : S.order = 2 := by
      have := hS
      simp [Cyclic.subgroup, Cyclic.order, Cyclic.elements] at this
      rw [← this]
    simp [rotRestrict, hS, ho]
  exact ⟨S.parent, hr, c96_restriction_module (rotSpace (fun _ x => x) 6) ⟨ℤ, rotSpace (fun _ x => x) 2, S.parent⟩ (c44_rot _ (fun _ _ => rfl) 6 2 (by norm_num) _ hr) (Cyclic.IsIrrep 2)
    c6Restrict uniq t hu hn fun f hf => c6Restrict_spec S hS f (ht f hf).1 (ht f hf).2⟩

end E2
