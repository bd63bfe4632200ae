import Verif.Lemmas.WideResNetNet
import Verif.Props.ConvBuilds

/-!
# When a wide residual network can be built
-/

set_option linter.unusedSectionVars false

namespace E2

open Finset Mat Real

/-- The representations of a stage are sums of irreps in orthogonal bases with pointwise nonlinearities, the regular one has all irreps. -/
structure StageBuilds (S : Stage) : Prop where
  gen : PlaneGen S.s.gen S.s.group.IsIrr
  plane : ∀ n, (S.rep n).Plane S.s.group.IsIrr
  all : ∀ i, S.s.group.IsIrr i → i ∈ (S.rep 1).irreps
  pw : ∀ n, Tag.pointwise ∈ S.tags n
  ord : 0 < S.s.order

theorem WSpace.planeGen {s : WSpace} (hg : s.group.Ok) : PlaneGen s.gen s.group.IsIrr := by
  cases s with
  | trivial => exact PlaneGen.trivial
  | rot N => exact PlaneGen.rot hg
  | flip axis => exact PlaneGen.flip axis
  | flipRot N axis => exact PlaneGen.flipRot hg axis

theorem irrepRepr_plane {El : Type} {P : Irrep El → Prop} {i : Irrep El} (hs : 0 < i.size) (hi : P i) : (i.repr).Plane P := irrep_plane hs hi

theorem Cyclic.mem_irreps {N k : ℕ} {i : Irrep ℤ} (h : Cyclic.irrep N k = some i) : i ∈ Cyclic.irreps N := by
  refine List.mem_filterMap.2 ⟨k, List.mem_range.2 ?_, h⟩
  have := (Cyclic.irrep_freq' h).2
  rw [Cyclic.order_eq]
  omega

theorem Dihedral.irrep_mem_irreps {N j k : ℕ} {i : Irrep (ℤ × ℤ)} (h : Dihedral.irrep N j k = some i) : i ∈ Dihedral.irreps N := by
  refine List.mem_filterMap.2 ⟨(j, k), ?_, h⟩
  obtain ⟨h1, h2⟩ := (Dihedral.irrep_isSome N j k).1 (by rw [h]; rfl)
  rcases h2 with ⟨rfl, h2 | h2⟩ | rfl
  · simp [h2]
  · refine List.mem_append_right _ ?_
    rw [if_pos (by omega)]
    simp
    omega
  · refine List.mem_append_left _ (List.mem_append_right _ (List.mem_map.2 ⟨k, List.mem_range.2 (by omega), rfl⟩))

theorem cycTrivial_some {N : ℕ} : ∃ i, Cyclic.irrep N 0 = some i ∧ (i.repr).Plane (GName.cyc N).IsIrr ∧ Tag.pointwise ∈ Cyclic.irrepTags N 0 := by
  refine ⟨_, Cyclic.trivial_irrep N, irrepRepr_plane one_pos ⟨0, Cyclic.trivial_irrep N⟩, by simp [Cyclic.irrepTags]⟩

theorem trivialRepr_some {s : WSpace} (hg : s.group.Ok) : ∃ t, s.trivialRepr = some t ∧ t.1.Plane s.group.IsIrr ∧ Tag.pointwise ∈ t.2 := by
  cases s with
  | trivial =>
    obtain ⟨i, h1, h2, h3⟩ := cycTrivial_some (N := 1)
    exact ⟨(i.repr, Cyclic.irrepTags 1 0), by simp only [WSpace.trivialRepr, h1]; rfl, h2, h3⟩
  | rot N =>
    obtain ⟨i, h1, h2, h3⟩ := cycTrivial_some (N := N)
    exact ⟨(i.repr, Cyclic.irrepTags N 0), by simp only [WSpace.trivialRepr, h1]; rfl, h2, h3⟩
  | flip axis =>
    obtain ⟨i, h1, h2, h3⟩ := cycTrivial_some (N := 2)
    exact ⟨(i.repr, Cyclic.irrepTags 2 0), by simp only [WSpace.trivialRepr, h1]; rfl, h2, h3⟩
  | flipRot N axis =>
    obtain ⟨i, h1⟩ : ∃ i, Dihedral.irrep N 0 0 = some i := ⟨_, Dihedral.irrep_zero_zero N⟩
    refine ⟨(i.repr, Dihedral.irrepTags N 0 0), by simp only [WSpace.trivialRepr, h1]; rfl, irrepRepr_plane ?_ ⟨0, 0, h1⟩, by simp [Dihedral.irrepTags]⟩
    rcases Dihedral.size12 h1 with h | h <;> omega

theorem cycRegular_some {N : ℕ} (hN : 0 < N) : ∃ r, Cyclic.regular N = some r ∧ r.Plane (GName.cyc N).IsIrr ∧ ∀ i, (GName.cyc N).IsIrr i → i ∈ r.irreps := by
  obtain ⟨r, h1, h2, h3⟩ := c12_cyclic_regular N hN
  refine ⟨r, h1, ⟨?_, h2.wf, h2.orth, fun i hi => ?_⟩, ?_⟩
  · rw [h2.size]
    show 0 < Cyclic.order N
    rw [Cyclic.order_eq]
    exact hN
  · rw [h3] at hi
    obtain ⟨k, -, hk⟩ := List.mem_filterMap.1 hi
    exact ⟨k, hk⟩
  · rintro i ⟨k, hk⟩
    rw [h3]
    exact Cyclic.mem_irreps hk

theorem regularRepr_some {s : WSpace} (hg : s.group.Ok) :
    ∃ t, s.regularRepr = some t ∧ t.1.Plane s.group.IsIrr ∧ (∀ i, s.group.IsIrr i → i ∈ t.1.irreps) ∧ Tag.pointwise ∈ t.2 := by
  cases s with
  | trivial =>
    obtain ⟨r, h1, h2, h3⟩ := cycRegular_some (N := 1) hg
    exact ⟨(r, Cyclic.regularTags), by simp only [WSpace.regularRepr, h1]; rfl, h2, h3, by simp [Cyclic.regularTags, regularTags]⟩
  | rot N =>
    obtain ⟨r, h1, h2, h3⟩ := cycRegular_some (N := N) hg
    exact ⟨(r, Cyclic.regularTags), by simp only [WSpace.regularRepr, h1]; rfl, h2, h3, by simp [Cyclic.regularTags, regularTags]⟩
  | flip axis =>
    obtain ⟨r, h1, h2, h3⟩ := cycRegular_some (N := 2) hg
    exact ⟨(r, Cyclic.regularTags), by simp only [WSpace.regularRepr, h1]; rfl, h2, h3, by simp [Cyclic.regularTags, regularTags]⟩
  | flipRot N axis =>
    obtain ⟨r, h1, h2, h3⟩ := c12_dihedral_regular N hg
    refine ⟨(r, regularTags), by simp only [WSpace.regularRepr, h1]; rfl, ⟨?_, h2.wf, h2.orth, fun i hi => ?_⟩, ?_, by simp [regularTags]⟩
    · show 0 < r.size
      rw [h2.size]
      exact List.length_pos_of_mem ((Dihedral.mem_elements N (0, 0)).2 (by
        have : 0 < N := hg
        simpa using this))
    · rw [h3] at hi
      obtain ⟨i', hi', h⟩ := List.mem_flatMap.1 hi
      rw [List.eq_of_mem_replicate h]
      exact Dihedral.mem_irreps hi'
    · rintro i ⟨j, k, hk⟩
      show i ∈ r.irreps
      rw [h3]
      refine List.mem_flatMap.2 ⟨i, Dihedral.irrep_mem_irreps hk, List.mem_replicate.2 ⟨?_, rfl⟩⟩
      rcases Dihedral.size12 hk with h | h <;> omega

theorem StageBuilds.mk' {S : Stage} (hg : S.s.group.Ok) (ho : 0 < S.s.order) (ht : S.s.trivialRepr = some S.triv) (hr : S.s.regularRepr = some S.reg)
    (hx : ∀ p ∈ S.extra, p.1.Plane S.s.group.IsIrr ∧ Tag.pointwise ∈ p.2) : StageBuilds S := by
  obtain ⟨t, h1, h2, h3⟩ := trivialRepr_some hg
  obtain ⟨r, g1, g2, g3, g4⟩ := regularRepr_some hg
  obtain rfl := Option.some.inj (ht.symm.trans h1)
  obtain rfl := Option.some.inj (hr.symm.trans g1)
  have hall : ∀ n, (S.all n).1.Plane S.s.group.IsIrr ∧ Tag.pointwise ∈ (S.all n).2 := by
    intro n
    match n with
    | 0 => exact ⟨h2, h3⟩
    | 1 => exact ⟨g2, g4⟩
    | i + 2 =>
      show (S.extra.getD i S.triv).1.Plane _ ∧ _ ∈ (S.extra.getD i S.triv).2
      rw [List.getD_eq_getElem?_getD]
      rcases hi : S.extra[i]? with _ | p
      · exact ⟨h2, h3⟩
      · exact hx p (List.mem_of_getElem? hi)
  exact ⟨WSpace.planeGen hg, fun n => (hall n).1, g3, fun n => (hall n).2, ho⟩

theorem Stage.new_some {s : WSpace} (hg : s.group.Ok) (ho : 0 < s.order) : ∃ S, Stage.new s [] = some S ∧ S.s = s ∧ StageBuilds S := by
  obtain ⟨t, h1, -⟩ := trivialRepr_some hg
  obtain ⟨r, g1, -⟩ := regularRepr_some hg
  refine ⟨⟨s, t, r, []⟩, by unfold Stage.new; rw [h1, g1], rfl, StageBuilds.mk' hg ho h1 g1 (by simp)⟩

variable {S : Stage}

theorem StageBuilds.accepts (h : StageBuilds S) (t : List ℕ) : accepts S.tags .pointwise t = true := by
  unfold E2.accepts
  exact List.all_eq_true.2 fun r _ => by simpa using h.pw r

/-- A convolution from or to fields with the regular representation, or with any common irrep. -/
theorem StageBuilds.conv (h : StageBuilds S) (p stride : ℕ) {inT outT : List ℕ}
    (hs : ∃ i ∈ inT, ∃ o ∈ outT, ∃ ψ ∈ (S.rep i).irreps, ψ ∈ (S.rep o).irreps) : ∃ w l, wideConv S p stride inT outT w = some l := by
  obtain ⟨M, hM, -⟩ := c75_conv h.gen ⟨2 * p + 1, p, stride, 1, .zeros, 1, none, .inr (fun r => 3 * r), none, none, none⟩ p
    ⟨rfl, one_pos, rfl, rfl, rfl, rfl, by simp [cutoffFun]⟩ S.rep inT outT inT (by simp [convGroups]) (fun n _ => h.plane n) (fun n _ => h.plane n) hs
  refine ⟨List.replicate M.dim 0, .conv M.cfg M.basis inT outT (List.replicate M.dim 0) [], ?_⟩
  unfold wideConv
  rw [hM]
  dsimp only
  rw [if_pos (by simp)]

theorem Repr.Plane.ne_nil {El : Type} {P : Irrep El → Prop} {r : Repr El} (h : r.Plane P) : r.irreps ≠ [] := by
  intro h0
  have := h.pos
  simp [Repr.size, h0] at this

theorem StageBuilds.share (h : StageBuilds S) {inT outT : List ℕ} (hi : inT ≠ []) (ho : outT ≠ []) (h1 : 1 ∈ inT ∨ 1 ∈ outT) :
    ∃ i ∈ inT, ∃ o ∈ outT, ∃ ψ ∈ (S.rep i).irreps, ψ ∈ (S.rep o).irreps := by
  rcases h1 with h1 | h1
  · obtain ⟨o, ho⟩ := List.exists_mem_of_ne_nil _ ho
    obtain ⟨ψ, hψ⟩ := List.exists_mem_of_ne_nil _ (h.plane o).ne_nil
    exact ⟨1, h1, o, ho, ψ, h.all ψ ((h.plane o).irr ψ hψ), hψ⟩
  · obtain ⟨i, hi⟩ := List.exists_mem_of_ne_nil _ hi
    obtain ⟨ψ, hψ⟩ := List.exists_mem_of_ne_nil _ (h.plane i).ne_nil
    exact ⟨i, hi, 1, h1, ψ, hψ, h.all ψ ((h.plane i).irr ψ hψ)⟩

/-- A block whose inner fields are regular, and whose shortcut, if any, can be built. -/
theorem StageBuilds.basic (h : StageBuilds S) {inT innerT outT : List ℕ} (hi : inT ≠ []) (ho : outT ≠ []) (hinner : 1 ∈ innerT)
    (hs : ∃ i ∈ inT, ∃ o ∈ outT, ∃ ψ ∈ (S.rep i).irreps, ψ ∈ (S.rep o).irreps) {rate : ℝ} (hr : 0 ≤ rate ∧ rate ≤ 1) (stride : ℕ) (bn : BNVals) :
    ∃ v b, wideBasic S inT innerT outT rate stride v = some b := by
  set p := if S.s.rotations ∈ [0, 2, 4] then 1 else 2 with hp
  obtain ⟨w1, l1, e1⟩ := h.conv p 1 (h.share hi (List.ne_nil_of_mem hinner) (Or.inr hinner))
  obtain ⟨w2, l2, e2⟩ := h.conv p stride (h.share (List.ne_nil_of_mem hinner) ho (Or.inl hinner))
  obtain ⟨w3, l3, e3⟩ := h.conv 0 stride hs
  refine ⟨⟨bn, bn, w1, w2, w3⟩, Option.isSome_iff_exists.1 ?_⟩
  unfold wideBasic
  by_cases hsc : stride ≠ 1 ∨ inT ≠ outT
  · simp only [wideBN, wideReLU, wideDropout, h.accepts, if_true, hr.1, hr.2, true_and, if_pos hsc, e3, ← hp]
    simp only [e1, e2, Option.map_some, Option.bind_eq_bind, Option.bind_some, Option.isSome_some]
  · simp only [wideBN, wideReLU, wideDropout, h.accepts, if_true, hr.1, hr.2, true_and, if_neg hsc, ← hp]
    simp only [e1, e2, Option.bind_eq_bind, Option.bind_some, Option.isSome_some]

theorem wideLoop_congr (rate : ℝ) (mainT innerT outT : List ℕ) (nb : ℤ) {vals vals' : ℕ → WideVals} (strides : List ℕ) (i : ℕ) (inT : List ℕ)
    (h : ∀ k, i ≤ k → vals k = vals' k) :
    wideLoop S rate mainT innerT outT nb vals i strides inT = wideLoop S rate mainT innerT outT nb vals' i strides inT := by
  induction strides generalizing i inT with
  | nil => rfl
  | cons st strides ih =>
    unfold wideLoop
    dsimp only
    rw [h i (le_refl _), ih (i + 1) _ fun k hk => h k (by omega)]

/-- The blocks: all fields between them are regular, only the last output may be others. -/
theorem StageBuilds.loop (h : StageBuilds S) {mainT innerT outT : List ℕ} (hmain : 1 ∈ mainT) (hinner : 1 ∈ innerT) (hout : outT ≠ []) {rate : ℝ}
    (hr : 0 ≤ rate ∧ rate ≤ 1) (nb : ℤ) (bn : BNVals) (strides : List ℕ) (i : ℕ) (inT : List ℕ) (hi : inT ≠ [])
    (hs : ∃ i ∈ inT, ∃ o ∈ outT, ∃ ψ ∈ (S.rep i).irreps, ψ ∈ (S.rep o).irreps) (hlast : (i : ℤ) + strides.length ≤ max 1 nb) :
    ∃ vals r, wideLoop S rate mainT innerT outT nb vals i strides inT = some r := by
  induction strides generalizing i inT with
  | nil => exact ⟨fun _ => ⟨bn, bn, [], [], []⟩, _, rfl⟩
  | cons st strides ih =>
    set outF := if (i : ℤ) = nb - 1 then outT else mainT with hF
    have hne : outF ≠ [] := by
      rw [hF]
      split_ifs
      · exact hout
      · exact List.ne_nil_of_mem hmain
    have hsh : ∃ i ∈ inT, ∃ o ∈ outF, ∃ ψ ∈ (S.rep i).irreps, ψ ∈ (S.rep o).irreps := by
      rw [hF]
      split_ifs
      · exact hs
      · exact h.share hi (List.ne_nil_of_mem hmain) (Or.inr hmain)
    obtain ⟨v, b, hb⟩ := h.basic hi hne hinner hsh hr st bn
    rw [List.length_cons] at hlast
    push_cast at hlast
    obtain ⟨vals, r, hv⟩ : ∃ vals r, wideLoop S rate mainT innerT outT nb vals (i + 1) strides outF = some r := by
      by_cases hl : (i : ℤ) = nb - 1
      · have : strides = [] := by
          rw [← List.length_eq_zero_iff]
          omega
        subst this
        exact ⟨fun _ => ⟨bn, bn, [], [], []⟩, _, rfl⟩
      · have hm : outF = mainT := by rw [hF, if_neg hl]
        rw [hm]
        refine ih (i + 1) mainT (List.ne_nil_of_mem hmain) (h.share (List.ne_nil_of_mem hmain) hout (Or.inl hmain)) ?_
        push_cast
        omega
    refine ⟨fun k => if k = i then v else vals k, Option.isSome_iff_exists.1 ?_⟩
    unfold wideLoop
    simp only [if_true, ← hF, hb]
    rw [wideLoop_congr (vals' := vals) rate mainT innerT outT nb strides (i + 1) outF (fun k hk => if_neg (by omega)), hv]
    rfl

theorem Stage.regularType_of (S : Stage) {planes : ℕ} {fix : Bool} (ho : 0 < S.s.order)
    (h : (S.s.order : ℝ) ≤ if fix then (planes : ℝ) * Real.sqrt S.s.order else planes) : ∃ k, 0 < k ∧ S.regularType planes fix = some (List.replicate k 1) := by
  have hk : 0 < ⌊(if fix then (planes : ℝ) * Real.sqrt S.s.order else planes) / (S.s.order : ℝ)⌋₊ := by
    rw [Nat.floor_pos, le_div_iff₀ (by exact_mod_cast ho), one_mul]
    exact h
  refine ⟨_, hk, ?_⟩
  unfold Stage.regularType mkType
  rw [if_pos ho, if_neg]
  intro h0
  have := congrArg List.length h0
  rw [List.length_replicate, List.length_nil] at this
  omega

theorem Stage.trivialType_of (S : Stage) {planes : ℕ} {fix : Bool} 
    (h : 1 ≤ if fix then (planes : ℝ) * Real.sqrt S.s.order else planes) : ∃ k, 0 < k ∧ S.trivialType planes fix = some (List.replicate k 0) := by
  have hk : 0 < ⌊if fix then (planes : ℝ) * Real.sqrt S.s.order else planes⌋₊ := by
    rw [Nat.floor_pos]
    exact h
  refine ⟨_, hk, ?_⟩
  unfold Stage.trivialType mkType
  rw [if_neg]
  intro h0
  have := congrArg List.length h0
  rw [List.length_replicate, List.length_nil] at this
  omega

/-- A layer can be built if there are enough planes for one field. -/
theorem StageBuilds.layer (h : StageBuilds S) {rate : ℝ} (hr : 0 ≤ rate ∧ rate ≤ 1) {fix : Bool} {planes : ℕ}
    (hp : (S.s.order : ℝ) ≤ if fix then (planes : ℝ) * Real.sqrt S.s.order else planes) (nb : ℤ) (stride : ℕ) (totrivial : Bool) (bn : BNVals)
    {inT : List ℕ} (hi : inT ≠ []) (hs : totrivial = true → ∃ i ∈ inT, ∃ ψ ∈ (S.rep i).irreps, ψ ∈ (S.rep 0).irreps) :
    ∃ vals r, wideLayer S rate fix planes nb stride totrivial vals inT = some r := by
  obtain ⟨k, hk, e1⟩ := S.regularType_of h.ord hp
  have h1 : 1 ∈ List.replicate k 1 := List.mem_replicate.2 ⟨by omega, rfl⟩
  have hlen : ((0 : ℕ) : ℤ) + (stride :: List.replicate (nb - 1).toNat 1).length ≤ max 1 nb := by
    rw [List.length_cons, List.length_replicate]
    push_cast
    omega
  cases totrivial with
  | false =>
    obtain ⟨vals, r, hv⟩ := h.loop (outT := List.replicate k 1) h1 h1 (List.ne_nil_of_mem h1) hr nb bn (stride :: List.replicate (nb - 1).toNat 1) 0 inT hi
      (h.share hi (List.ne_nil_of_mem h1) (Or.inr h1)) hlen
    refine ⟨vals, r, ?_⟩
    unfold wideLayer
    simp only [e1]
    exact hv
  | true =>
    have h2 : 1 ≤ if fix then (planes : ℝ) * Real.sqrt S.s.order else planes := le_trans (by exact_mod_cast h.ord) hp
    obtain ⟨k', hk', e2⟩ := S.trivialType_of h2
    have h0 : 0 ∈ List.replicate k' 0 := List.mem_replicate.2 ⟨by omega, rfl⟩
    obtain ⟨i, hii, ψ, q1, q2⟩ := hs rfl
    obtain ⟨vals, r, hv⟩ := h.loop (outT := List.replicate k' 0) h1 h1 (List.ne_nil_of_mem h0) hr nb bn (stride :: List.replicate (nb - 1).toNat 1) 0 inT hi
      ⟨i, hii, 0, h0, ψ, q1, q2⟩ hlen
    refine ⟨vals, r, ?_⟩
    unfold wideLayer
    simp only [e1, e2]
    exact hv

theorem wideLoop_type {rate : ℝ} {mainT innerT outT : List ℕ} {nb : ℤ} {vals : ℕ → WideVals} (strides : List ℕ) (h0 : strides ≠ []) (i : ℕ) (inT : List ℕ)
    {l : List (WideBlock S) × List ℕ} (h : wideLoop S rate mainT innerT outT nb vals i strides inT = some l) : l.2 = outT ∨ l.2 = mainT := by
  induction strides generalizing i inT l with
  | nil => exact absurd rfl h0
  | cons s strides ih =>
    unfold wideLoop at h
    simp only [Option.bind_eq_bind] at h
    obtain ⟨b, hb, h⟩ := Option.bind_eq_some_iff.1 h
    obtain ⟨⟨bs', t'⟩, hr, h⟩ := Option.bind_eq_some_iff.1 h
    obtain rfl := Option.some.inj h
    by_cases hs : strides = []
    · subst hs
      obtain rfl := (Prod.ext_iff.1 (Option.some.inj hr)).2
      dsimp only
      split_ifs
      · exact Or.inl rfl
      · exact Or.inr rfl
    · exact ih hs (i + 1) _ (l := (bs', t')) hr

/-- A layer which does not end with trivial fields ends with regular ones. -/
theorem wideLayer_regular {rate : ℝ} {fp : Bool} {planes : ℕ} {nb : ℤ} {stride : ℕ} {vals : ℕ → WideVals} {inT : List ℕ}
    {l : List (WideBlock S) × List ℕ} (h : wideLayer S rate fp planes nb stride false vals inT = some l) : l.2 ≠ [] ∧ l.2 = List.replicate l.2.length 1 := by
  unfold wideLayer at h
  simp only [Option.bind_eq_bind] at h
  obtain ⟨mainT, hmain, h⟩ := Option.bind_eq_some_iff.1 h
  obtain ⟨innerT, hinner, h⟩ := Option.bind_eq_some_iff.1 h
  rw [if_neg (by simp)] at h
  obtain ⟨outT, hout, h⟩ := Option.bind_eq_some_iff.1 h
  rcases wideLoop_type _ (by simp) _ _ h with h | h
  · rw [h]
    exact regularType_some hout
  · rw [h]
    exact regularType_some hmain

theorem wideLayer_planes {rate : ℝ} {fp : Bool} {planes : ℕ} {nb : ℤ} {stride : ℕ} {tt : Bool} {vals : ℕ → WideVals} {inT : List ℕ}
    {l : List (WideBlock S) × List ℕ} (h : wideLayer S rate fp planes nb stride tt vals inT = some l) :
    (S.s.order : ℝ) ≤ (if fp then (planes : ℝ) * Real.sqrt S.s.order else planes) ∧ 0 ≤ rate ∧ rate ≤ 1 := by
  unfold wideLayer at h
  simp only [Option.bind_eq_bind] at h
  obtain ⟨mainT, hmain, h⟩ := Option.bind_eq_some_iff.1 h
  obtain ⟨innerT, hinner, h⟩ := Option.bind_eq_some_iff.1 h
  refine ⟨?_, ?_⟩
  · unfold Stage.regularType at hmain
    split at hmain
    · rename_i ho
      obtain ⟨h1, -⟩ := mkType_eq_some.1 hmain
      have : 0 < ⌊(if fp then (planes : ℝ) * Real.sqrt S.s.order else planes) / (S.s.order : ℝ)⌋₊ := by
        rw [Nat.pos_iff_ne_zero]
        intro h0
        exact h1 (by rw [h0]; rfl)
      rwa [Nat.floor_pos, le_div_iff₀ (by exact_mod_cast ho), one_mul] at this
    · cases hmain
  · have hb : ∃ outT, wideLoop S rate mainT innerT outT nb vals 0 (stride :: List.replicate (nb - 1).toNat 1) inT = some l := by
      cases tt with
      | true =>
        rw [if_pos rfl] at h
        obtain ⟨outT, -, h⟩ := Option.bind_eq_some_iff.1 h
        exact ⟨outT, h⟩
      | false =>
        rw [if_neg (by simp)] at h
        obtain ⟨outT, -, h⟩ := Option.bind_eq_some_iff.1 h
        exact ⟨outT, h⟩
    obtain ⟨outT, h⟩ := hb
    unfold wideLoop at h
    simp only [Option.bind_eq_bind] at h
    obtain ⟨b, hb, -⟩ := Option.bind_eq_some_iff.1 h
    unfold wideBasic at hb
    simp only [Option.bind_eq_bind] at hb
    obtain ⟨_, -, hb⟩ := Option.bind_eq_some_iff.1 hb
    obtain ⟨_, -, hb⟩ := Option.bind_eq_some_iff.1 hb
    obtain ⟨_, -, hb⟩ := Option.bind_eq_some_iff.1 hb
    obtain ⟨_, -, hb⟩ := Option.bind_eq_some_iff.1 hb
    obtain ⟨_, -, hb⟩ := Option.bind_eq_some_iff.1 hb
    obtain ⟨_, hd, -⟩ := Option.bind_eq_some_iff.1 hb
    unfold wideDropout at hd
    split_ifs at hd with h1
    exact ⟨h1.1, h1.2.1⟩

/-- The trivial irrep is in the regular representation. -/
theorem StageBuilds.triv (h : StageBuilds S) : ∃ ψ ∈ (S.rep 1).irreps, ψ ∈ (S.rep 0).irreps := by
  obtain ⟨ψ, hψ⟩ := List.exists_mem_of_ne_nil _ (h.plane 0).ne_nil
  exact ⟨ψ, h.all ψ ((h.plane 0).irr ψ hψ), hψ⟩

/-- The order of the group of the first layers. -/
def WideArgs.order (a : WideArgs) : ℕ := (if a.f then 2 else 1) * a.N

theorem WideArgs.space_some {a : WideArgs} (hN : 0 < a.N) : ∃ s, a.space = some s ∧ s.group.Ok ∧ s.order = a.order := by
  unfold WideArgs.space WideArgs.order
  rw [if_neg (by omega)]
  by_cases hf : a.f = true
  · by_cases h1 : a.N = 1
    · refine ⟨_, by rw [if_pos hf, if_neg (by omega)], ?_, ?_⟩
      · exact two_pos
      · simp [WSpace.order, hf, h1]
    · refine ⟨_, by rw [if_pos hf, if_pos h1], ?_, ?_⟩
      · exact hN
      · simp [WSpace.order, hf]
  · by_cases h1 : a.N = 1
    · refine ⟨_, by rw [if_neg hf, if_neg (by omega)], ?_, ?_⟩
      · exact one_pos
      · simp [WSpace.order, hf, h1]
    · refine ⟨_, by rw [if_neg hf, if_pos h1], ?_, ?_⟩
      · exact hN
      · simp [WSpace.order, hf]

/-- 16 planes with as many weights as an ordinary convolution suffice for one regular field exactly for groups of at most 256 elements. -/
theorem planes_256 (k : ℕ) : (k : ℝ) ≤ 16 * Real.sqrt k ↔ k ≤ 256 := by
  constructor
  · intro h
    by_contra hk
    have h1 : (256 : ℝ) < k := by exact_mod_cast not_le.1 hk
    have h2 : Real.sqrt k * Real.sqrt k = k := Real.mul_self_sqrt (by positivity)
    have h3 : (16 : ℝ) < Real.sqrt k := Real.lt_sqrt_of_sq_lt (by norm_num at h1 ⊢; exact_mod_cast h1)
    nlinarith
  · intro h
    have h1 : (k : ℝ) ≤ 256 := by exact_mod_cast h
    have h2 : Real.sqrt k * Real.sqrt k = k := Real.mul_self_sqrt (by positivity)
    have h3 : Real.sqrt k ≤ 16 := Real.sqrt_le_iff.2 ⟨by norm_num, by norm_num at h1 ⊢; exact_mod_cast h1⟩
    have h4 := Real.sqrt_nonneg k
    nlinarith

/-- Any batch normalisation. -/
noncomputable def someBN : BNVals := ⟨none, 1, fun _ => 1, fun _ => 0, ⟨0, fun _ => (0, 1)⟩⟩

end E2
