import Verif.Props.OrthLib
import Verif.Props.WideResNet

/-!
# C74: exactly which wide residual networks can be built
-/

set_option linter.unusedSectionVars false

namespace E2

open Finset Mat Real

theorem Cyclic.restrict_zero {N M : ℕ} {S : Cyclic.Sub} (hS : Cyclic.subgroup N M = some S) {i j : Irrep ℤ} (hi : Cyclic.irrep N 0 = some i)
    (hj : Cyclic.irrep M 0 = some j) : Cyclic.restrictIrrep N i M = some (Mat.one, [j]) := by
  unfold Cyclic.restrictIrrep
  rw [hS]
  dsimp only
  rw [Cyclic.trivial_irrep] at hi
  obtain rfl := Option.some.inj hi
  dsimp only
  unfold Cyclic.reduceFreq
  rw [Nat.zero_mod, if_neg (by omega)]
  dsimp only
  rw [hj]
  dsimp only
  rw [Cyclic.trivial_irrep] at hj
  obtain rfl := Option.some.inj hj
  rfl

/-- The first irrep of a group is the trivial one, and its restriction is the trivial irrep of the subgroup. -/
theorem WSpace.restrict_trivial {s : WSpace} (hg : s.group.Ok) {f : Bool} {M : ℕ} {U : WSub s} (h : s.restrict f M = some U) :
    ∀ t u, s.trivialRepr = some t → U.sub.trivialRepr = some u → ∃ A i j, t.1.irreps = [i] ∧ u.1.irreps = [j] ∧ U.restr i = some (A, [j]) := by
  intro t u ht hu
  cases s with
  | flip axis => cases f <;> simp [WSpace.restrict] at h
  | trivial =>
    cases f with
    | true => simp [WSpace.restrict] at h
    | false =>
      simp only [WSpace.restrict] at h
      cases hS : Cyclic.subgroup 1 M with
      | none => simp [hS] at h
      | some S =>
        rw [hS] at h
        dsimp only at h
        split_ifs at h with hM
        subst hM
        obtain rfl := Option.some.inj h
        simp only [WSpace.trivialRepr] at ht hu
        obtain ⟨i, hi, rfl⟩ := Option.map_eq_some_iff.1 ht
        obtain ⟨j, hj, rfl⟩ := Option.map_eq_some_iff.1 hu
        refine ⟨Mat.one, i, j, rfl, rfl, ?_⟩
        exact Cyclic.restrict_zero hS hi hj
  | rot N =>
    cases f with
    | true => simp [WSpace.restrict] at h
    | false =>
      simp only [WSpace.restrict] at h
      cases hS : Cyclic.subgroup N M with
      | none => simp [hS] at h
      | some S =>
        rw [hS] at h
        dsimp only at h
        split_ifs at h with hM hM
        · obtain rfl := Option.some.inj h
          simp only [WSpace.trivialRepr] at ht hu
          obtain ⟨i, hi, rfl⟩ := Option.map_eq_some_iff.1 ht
          obtain ⟨j, hj, rfl⟩ := Option.map_eq_some_iff.1 hu
          refine ⟨Mat.one, i, j, rfl, rfl, ?_⟩
          exact Cyclic.restrict_zero hS hi hj
        · subst hM
          obtain rfl := Option.some.inj h
          simp only [WSpace.trivialRepr] at ht hu
          obtain ⟨i, hi, rfl⟩ := Option.map_eq_some_iff.1 ht
          obtain ⟨j, hj, rfl⟩ := Option.map_eq_some_iff.1 hu
          refine ⟨Mat.one, i, j, rfl, rfl, ?_⟩
          exact Cyclic.restrict_zero hS hi hj
  | flipRot N axis =>
    have hN : 0 < N := hg
    cases f with
    | false => simp [WSpace.restrict] at h
    | true =>
      simp only [WSpace.restrict] at h
      cases hS : Dihedral.subgroup N (some 0) M with
      | none => simp [hS] at h
      | some S =>
        rw [hS] at h
        cases S with
        | cyc m p c =>
          dsimp only at h
          split_ifs at h with hM
          subst hM
          obtain rfl := Option.some.inj h
          simp only [WSpace.trivialRepr] at ht hu
          obtain ⟨i, hi, rfl⟩ := Option.map_eq_some_iff.1 ht
          obtain ⟨j, hj, rfl⟩ := Option.map_eq_some_iff.1 hu
          refine ⟨Mat.one, i, j, rfl, rfl, ?_⟩
          rw [Dihedral.irrep_zero_zero] at hi
          obtain rfl := Option.some.inj hi
          dsimp only
          unfold Dihedral.restrictFlip
          rw [hS]
          dsimp only
          rw [if_neg (by omega), hj]
          simp
          rfl
        | dih m p c =>
          dsimp only at h
          obtain rfl := Option.some.inj h
          simp only [WSpace.trivialRepr] at ht hu
          obtain ⟨i, hi, rfl⟩ := Option.map_eq_some_iff.1 ht
          obtain ⟨j, hj, rfl⟩ := Option.map_eq_some_iff.1 hu
          refine ⟨Mat.one, i, j, rfl, rfl, ?_⟩
          rw [Dihedral.irrep_zero_zero] at hi
          obtain rfl := Option.some.inj hi
          dsimp only
          unfold Dihedral.restrictDih
          rw [hS]
          dsimp only
          unfold Cyclic.reduceFreq
          rw [Nat.zero_mod, if_neg (by omega), if_neg (by omega)]
          dsimp only
          rw [hj]
          dsimp only
          rw [Dihedral.irrep_zero_zero] at hj
          obtain rfl := Option.some.inj hj
          simp
          rfl

theorem restrictAll_mem {El El' : Type} {restr : Irrep El → Option (Mat × List (Irrep El'))} (l : List (Irrep El)) {xs : List (ℕ × Mat × List (Irrep El'))}
    (hx : Repr.restrictAll restr l = some xs) {i : Irrep El} (hi : i ∈ l) {p : Mat × List (Irrep El')} (hp : restr i = some p) : ∃ x ∈ xs, x.2.2 = p.2 := by
  induction l generalizing xs with
  | nil => cases hi
  | cons k l ih =>
    unfold Repr.restrictAll at hx
    cases h1 : restr k with
    | none => simp [h1] at hx
    | some p' =>
      cases h2 : Repr.restrictAll restr l with
      | none => simp [h1, h2] at hx
      | some q =>
        rw [h1, h2] at hx
        obtain rfl := Option.some.inj hx
        rcases List.mem_cons.1 hi with rfl | hi
        · obtain rfl := Option.some.inj (h1.symm.trans hp)
          exact ⟨_, List.mem_cons_self, rfl⟩
        · obtain ⟨x, hx, e⟩ := ih h2 hi
          exact ⟨x, List.mem_cons_of_mem _ hx, e⟩

theorem restrict_mem {El El' : Type} {restr : Irrep El → Option (Mat × List (Irrep El'))} {r : Repr El} {r' : Repr El'} (h : r.restrict restr = some r')
    {i : Irrep El} (hi : i ∈ r.irreps) {A : Mat} {l : List (Irrep El')} (hp : restr i = some (A, l)) : ∀ j ∈ l, j ∈ r'.irreps := by
  intro j hj
  unfold Repr.restrict at h
  cases hx : Repr.restrictAll restr r.irreps with
  | none => simp [hx] at h
  | some xs =>
    rw [hx] at h
    obtain rfl := Option.some.inj h
    obtain ⟨x, hx', e⟩ := restrictAll_mem _ hx hi hp
    exact List.mem_flatMap.2 ⟨x, hx', by rw [e]; exact hj⟩

/-- The representations of a space are built by the library. -/
structure StageLib (S : Stage) : Prop where
  ok : S.s.group.Ok
  ord : 0 < S.s.order
  triv : S.s.trivialRepr = some S.triv
  reg : S.s.regularRepr = some S.reg
  extra : ∀ p ∈ S.extra, OrthLib S.s.group p.1 ∧ Tag.pointwise ∈ p.2

theorem StageLib.builds {S : Stage} (h : StageLib S) : StageBuilds S :=
  StageBuilds.mk' h.ok h.ord h.triv h.reg fun p hp => ⟨(orthLib_plane (h.extra p hp).1).2, (h.extra p hp).2⟩

theorem regularRepr_lib {s : WSpace} (hg : s.group.Ok) {t : Repr s.El × List Tag} (h : s.regularRepr = some t) : OrthLib s.group t.1 ∧ Tag.pointwise ∈ t.2 := by
  cases s with
  | trivial =>
    simp only [WSpace.regularRepr] at h
    obtain ⟨r, hr, rfl⟩ := Option.map_eq_some_iff.1 h
    exact ⟨.cycRegular hg hr, by simp [Cyclic.regularTags, regularTags]⟩
  | rot N =>
    simp only [WSpace.regularRepr] at h
    obtain ⟨r, hr, rfl⟩ := Option.map_eq_some_iff.1 h
    exact ⟨.cycRegular hg hr, by simp [Cyclic.regularTags, regularTags]⟩
  | flip axis =>
    simp only [WSpace.regularRepr] at h
    obtain ⟨r, hr, rfl⟩ := Option.map_eq_some_iff.1 h
    exact ⟨.cycRegular hg hr, by simp [Cyclic.regularTags, regularTags]⟩
  | flipRot N axis =>
    simp only [WSpace.regularRepr] at h
    obtain ⟨r, hr, rfl⟩ := Option.map_eq_some_iff.1 h
    exact ⟨.dihRegular hg hr, by simp [regularTags]⟩

theorem WSpace.order_pos {s : WSpace} (hg : s.group.Ok) : 0 < s.order := by
  cases s with
  | trivial => exact one_pos
  | rot N => exact hg
  | flip axis => exact two_pos
  | flipRot N axis =>
    have : 0 < N := hg
    show 0 < 2 * N
    omega

/-- A restriction of the space can always be followed by the layer which restricts and disentangles the regular fields; the fields it leaves have the trivial irrep. -/
theorem StageLib.restrict {comp : Comps} (hc : CompsOk comp) {S : Stage} (h : StageLib S) {f : Bool} {M : ℕ} {U : WSub S.s} (hU : S.s.restrict f M = some U) {t : List ℕ}
    (ht : t ≠ [] ∧ t = List.replicate t.length 1) :
    ∃ k, restrictLayer comp S f M t = some k ∧ k.1.s = U.sub ∧ StageLib k.1 ∧ k.2.2 ≠ [] ∧ ∃ i ∈ k.2.2, ∃ ψ ∈ (k.1.rep i).irreps, ψ ∈ (k.1.rep 0).irreps := by
  have hUok := WSpace.restrict_ok (fun _ x => x) (fun _ _ => rfl) h.ok hU
  obtain ⟨hok, -, hres⟩ := hUok.lib.ok h.ok
  obtain ⟨hl, hpw⟩ := regularRepr_lib h.ok h.reg
  obtain ⟨hg, hpl⟩ := orthLib_plane hl
  obtain ⟨r, hr, hR⟩ := hres _ hpl.wf hpl.irr
  have hl' : OrthLib U.sub.group r := .restrict hl hUok.lib hr
  have hcr := hc U.sub r
  obtain ⟨Q, reps, σ, hd, -, -, -, -, hperm, -⟩ := c11_disentangle r hR.wf _ _ hcr
  obtain ⟨u, e2, -⟩ := trivialRepr_some hok
  obtain ⟨A, i, j, e3, e4, e5⟩ := WSpace.restrict_trivial h.ok hU _ u h.triv e2
  obtain ⟨g, e6, -⟩ := regularRepr_some hok
  have hj : j ∈ r.irreps := by
    refine restrict_mem hr ?_ e5 j (List.mem_singleton.2 rfl)
    have hb := h.builds
    refine hb.all i ?_
    obtain ⟨t', e7, e8, -⟩ := trivialRepr_some h.ok
    obtain rfl := Option.some.inj (h.triv.symm.trans e7)
    exact e8.irr i (by rw [e3]; simp)
  have hj' := hperm.mem_iff.2 hj
  obtain ⟨q, hq, hjq⟩ := List.mem_flatMap.1 hj'
  obtain ⟨n, hn, rfl⟩ := List.getElem_of_mem hq
  refine ⟨⟨⟨U.sub, u, g, reps.map fun q => (q, restrictTags r S.reg.2)⟩, .restrict t.length U.parent r Q reps.length,
    (List.replicate t.length r).flatMap fun _ => List.range' 2 reps.length⟩, ?_, rfl, ?_, ?_⟩
  · unfold restrictLayer
    rw [if_pos ht.2, hU]
    dsimp only
    rw [hr]
    dsimp only
    rw [hd]
    dsimp only
    rw [e2, e6]
  · refine ⟨hok, WSpace.order_pos hok, e2, e6, ?_⟩
    intro p hp
    obtain ⟨q, hq, rfl⟩ := List.mem_map.1 hp
    refine ⟨.disentangle hl' hcr hd hq, ?_⟩
    dsimp only
    unfold restrictTags
    rw [if_neg (fun h => h.2 hpw)]
    exact hpw
  · have hmem : n + 2 ∈ (List.replicate t.length r).flatMap fun _ => List.range' 2 reps.length := by
      refine List.mem_flatMap.2 ⟨r, List.mem_replicate.2 ⟨fun h => ht.1 (List.length_eq_zero_iff.1 h), rfl⟩, ?_⟩
      rw [List.mem_range']
      exact ⟨n, hn, by omega⟩
    refine ⟨List.ne_nil_of_mem hmem, n + 2, hmem, j, ?_, ?_⟩
    · show j ∈ ((reps.map fun q => (q, restrictTags r S.reg.2)).getD n u).1.irreps
      rw [List.getD_eq_getElem?_getD, List.getElem?_map, List.getElem?_eq_getElem hn]
      exact hjq
    · show j ∈ u.1.irreps
      rw [e4]
      simp

theorem standardSpace_ok {f : Bool} {K : ℕ} (hK : 0 < K) : (standardSpace f K).group.Ok := by
  unfold standardSpace
  split_ifs
  · exact two_pos
  · exact hK
  · exact one_pos
  · exact hK

/-- The subgroups of a space with or without reflections which can be chosen by the number of rotations. -/
theorem standardSpace_restrict_iff {f : Bool} {K M : ℕ} (hK : 0 < K) :
    (∃ U, (standardSpace f K).restrict f M = some U) ↔ 0 < M ∧ M ∣ K ∧ (f = true → K ≠ 1) := by
  unfold standardSpace
  cases f with
  | true =>
    rw [if_pos rfl]
    by_cases h1 : K = 1
    · rw [if_pos h1]
      constructor
      · rintro ⟨U, hU⟩
        cases hU
      · rintro ⟨-, -, h⟩
        exact absurd h1 (h rfl)
    · rw [if_neg h1]
      constructor
      · rintro ⟨U, hU⟩
        simp only [WSpace.restrict] at hU
        cases hS : Dihedral.subgroup K (some 0) M with
        | none => simp [hS] at hU
        | some S =>
          obtain ⟨h2, h3, -⟩ := (c06_dihedral_subgroup K hK (some 0) M).1.1 (by rw [hS]; rfl)
          exact ⟨h2, h3, fun _ => h1⟩
      · rintro ⟨h2, h3, -⟩
        have hs : (Dihedral.subgroup K (some 0) M).isSome := (c06_dihedral_subgroup K hK (some 0) M).1.2 ⟨h2, h3, by
          rintro a ha
          obtain rfl := Option.some.inj ha
          exact Nat.div_pos (Nat.le_of_dvd hK h3) h2⟩
        obtain ⟨S, hS⟩ := Option.isSome_iff_exists.1 hs
        refine Option.isSome_iff_exists.1 ?_
        simp only [WSpace.restrict]
        rw [hS]
        cases S with
        | dih m p c => rfl
        | cyc m p c =>
          dsimp only
          by_cases hM : M = 1
          · rw [if_pos hM]; rfl
          · exfalso
            unfold Dihedral.subgroup at hS
            split_ifs at hS
            all_goals simp at hS
  | false =>
    rw [if_neg (by simp)]
    by_cases h1 : K = 1
    · rw [if_pos h1]
      subst h1
      constructor
      · rintro ⟨U, hU⟩
        simp only [WSpace.restrict] at hU
        cases hS : Cyclic.subgroup 1 M with
        | none => simp [hS] at hU
        | some S =>
          obtain ⟨h2, h3⟩ := (c06_cyclic_subgroup 1 one_pos M).1.1 (by rw [hS]; rfl)
          exact ⟨h2, h3, by simp⟩
      · rintro ⟨h2, h3, -⟩
        obtain ⟨S, hS⟩ := Option.isSome_iff_exists.1 ((c06_cyclic_subgroup 1 one_pos M).1.2 ⟨h2, h3⟩)
        refine Option.isSome_iff_exists.1 ?_
        simp only [WSpace.restrict]
        rw [hS]
        dsimp only
        rw [if_pos (Nat.dvd_one.1 h3)]
        rfl
    · rw [if_neg h1]
      constructor
      · rintro ⟨U, hU⟩
        simp only [WSpace.restrict] at hU
        cases hS : Cyclic.subgroup K M with
        | none => simp [hS] at hU
        | some S =>
          obtain ⟨h2, h3⟩ := (c06_cyclic_subgroup K hK M).1.1 (by rw [hS]; rfl)
          exact ⟨h2, h3, by simp⟩
      · rintro ⟨h2, h3, -⟩
        obtain ⟨S, hS⟩ := Option.isSome_iff_exists.1 ((c06_cyclic_subgroup K hK M).1.2 ⟨h2, h3⟩)
        refine Option.isSome_iff_exists.1 ?_
        simp only [WSpace.restrict]
        rw [hS]
        dsimp only
        by_cases hM : M > 1
        · rw [if_pos hM]; rfl
        · rw [if_neg hM, if_pos (by omega)]; rfl

theorem standardSpace_order {f : Bool} {K : ℕ} : (standardSpace f K).order = (if f then 2 else 1) * K := by
  unfold standardSpace
  split_ifs with h1 h2 h2
  · rw [h2]; rfl
  · rfl
  · rw [h2]; rfl
  · simp [WSpace.order]

theorem restrictLayer_restrict {comp : Comps} {S : Stage} {f : Bool} {M : ℕ} {t : List ℕ} {k : (T : Stage) × Link S T × List ℕ}
    (h : restrictLayer comp S f M t = some k) : ∃ U, S.s.restrict f M = some U := by
  unfold restrictLayer at h
  split_ifs at h
  cases hU : S.s.restrict f M with
  | none => simp [hU] at h
  | some U => exact ⟨U, rfl⟩

theorem linkLayer_step {comp : Comps} (hc : CompsOk comp) {S : Stage} (h : StageLib S) {f : Bool} {K : ℕ} (hs : S.s = standardSpace f K) (hK : 0 < K) (M : Option ℕ)
    (hM : ∀ m, M = some m → 0 < m ∧ m ∣ K ∧ (f = true → K ≠ 1)) {t : List ℕ} (ht : t ≠ [] ∧ t = List.replicate t.length 1) :
    ∃ k, linkLayer comp S f M t = some k ∧ k.1.s = standardSpace f (M.getD K) ∧ StageLib k.1 ∧ k.2.2 ≠ [] ∧
      ∃ i ∈ k.2.2, ∃ ψ ∈ (k.1.rep i).irreps, ψ ∈ (k.1.rep 0).irreps := by
  cases M with
  | none =>
    obtain ⟨ψ, h1, h2⟩ := h.builds.triv
    refine ⟨⟨S, .none S, t⟩, rfl, hs, h, ht.1, 1, ?_, ψ, h1, h2⟩
    dsimp only
    rw [ht.2]
    exact List.mem_replicate.2 ⟨fun h => ht.1 (List.length_eq_zero_iff.1 h), rfl⟩
  | some m =>
    have hU : ∃ U, S.s.restrict f m = some U := by
      rw [hs]
      exact (standardSpace_restrict_iff hK).2 (hM m rfl)
    obtain ⟨U, hU⟩ := hU
    obtain ⟨k, h1, h2, h3⟩ := h.restrict hc hU ht
    exact ⟨k, h1, by rw [h2]; exact standardSpace_restrict hs hU, h3⟩

theorem WideArgs.space_standard {a : WideArgs} (hN : 0 < a.N) : a.space = some (standardSpace a.f a.N) := by
  unfold WideArgs.space standardSpace
  rw [if_neg (by omega)]
  split_ifs <;> first | rfl | contradiction

theorem half_dvd {N : ℕ} (hN : 0 < N) : 0 < N / 2 ∧ N / 2 ∣ N ↔ N = 3 ∨ 2 ∣ N := by
  constructor
  · rintro ⟨h1, h2⟩
    by_contra h
    push Not at h
    have h3 : N = 2 * (N / 2) + 1 := by omega
    have h4 : N / 2 ∣ 1 := by
      rw [h3, Nat.dvd_add_right] at h2
      · rwa [← h3] at h2
      · rw [← h3]
        exact Dvd.intro_left 2 rfl
    have := Nat.dvd_one.1 h4
    omega
  · rintro (rfl | ⟨c, rfl⟩)
    · norm_num
    · rw [Nat.mul_div_cancel_left _ two_pos]
      exact ⟨by omega, Dvd.intro_left 2 rfl⟩

/-- **C74, construction**: weights can be found for the network exactly if
the depth is `6n + 4`; there is a rotation; the group has at most 256 elements and at most as many as the planes of the first layer; the rate of dropout is a probability;
and, when a restriction is asked for, the number of rotations is even or 3, and the last restriction to the reflections starts from at least two rotations. -/
theorem c74_builds {comp : Comps} (hc : CompsOk comp) (a : WideArgs) :
    (∃ v net, wideResNet comp a v = some net) ↔
      (a.depth - 4) % 6 = 0 ∧ 0 < a.N ∧ a.order ≤ 256 ∧ (a.order : ℝ) ≤ a.planes (16 * a.widen) ∧ 0 ≤ a.rate ∧ a.rate ≤ 1 ∧
        a.r ≤ 3 ∧ (a.r ≠ 0 → (a.N = 3 ∨ 2 ∣ a.N) ∧ (a.f = true → a.r = 3 → 4 ≤ a.N)) := by
  constructor
  · rintro ⟨v, net, h⟩
    rw [wideResNet_eq] at h
    by_cases hdep : (a.depth - 4) % 6 = 0
    swap
    · rw [if_neg hdep] at h
      cases h
    rw [if_pos hdep] at h
    obtain ⟨s, hsp, h⟩ := Option.bind_eq_some_iff.1 h
    by_cases hr : a.r ≤ 3
    swap
    · rw [if_neg hr] at h
      cases h
    rw [if_pos hr] at h
    obtain ⟨S1, hS1, h⟩ := Option.bind_eq_some_iff.1 h
    obtain ⟨t, ht, h⟩ := Option.bind_eq_some_iff.1 h
    obtain ⟨conv1, hconv1, h⟩ := Option.bind_eq_some_iff.1 h
    obtain ⟨l1, hl1, h⟩ := Option.bind_eq_some_iff.1 h
    obtain ⟨k1, hk1, h⟩ := Option.bind_eq_some_iff.1 h
    obtain ⟨l2, hl2, h⟩ := Option.bind_eq_some_iff.1 h
    obtain ⟨k2, hk2, h⟩ := Option.bind_eq_some_iff.1 h
    have hN : 0 < a.N := by
      by_contra hN
      unfold WideArgs.space at hsp
      rw [if_pos (by omega)] at hsp
      cases hsp
    obtain rfl := Option.some.inj (hsp.symm.trans (WideArgs.space_standard hN))
    have hs1 := (Stage.new_ok (standardSpace_ok hN) (by simp) hS1).1
    have hord : S1.s.order = a.order := by rw [hs1, standardSpace_order]; rfl
    obtain ⟨h1, h2⟩ := wideLayer_planes hl1
    rw [hord] at h1
    refine ⟨hdep, hN, ?_, h1, h2.1, h2.2, hr, ?_⟩
    · unfold Stage.regularType at ht
      rw [hord] at ht
      split at ht
      · rename_i ho
        obtain ⟨h3, -⟩ := mkType_eq_some.1 ht
        have : 0 < ⌊(if true = true then ((16 : ℕ) : ℝ) * Real.sqrt a.order else ((16 : ℕ) : ℝ)) / (a.order : ℝ)⌋₊ := by
          rw [Nat.pos_iff_ne_zero]
          intro h0
          exact h3 (by rw [h0]; rfl)
        rw [Nat.floor_pos, le_div_iff₀ (by exact_mod_cast ho), one_mul, if_pos rfl] at this
        exact (planes_256 _).1 (by exact_mod_cast this)
      · cases ht
    · intro h0
      have hs2 := linkLayer_space hs1 hk1
      have e1 : ∀ {S : Stage} {K M : ℕ} {t : List ℕ} {k : (T : Stage) × Link S T × List ℕ}, S.s = standardSpace a.f K → 0 < K →
          linkLayer comp S a.f (some M) t = some k → 0 < M ∧ M ∣ K ∧ (a.f = true → K ≠ 1) := by
        intro S K M t k hs hK hk
        have := restrictLayer_restrict hk
        rw [hs] at this
        exact (standardSpace_restrict_iff hK).1 this
      obtain h3 | h3 | h3 : a.r = 1 ∨ a.r = 2 ∨ a.r = 3 := by omega
      · simp only [WideArgs.restrict1, h3] at hk1 hs2
        simp only [WideArgs.restrict2, h3] at hk2
        norm_num at hk1 hk2 hs2
        have := e1 hs2 hN hk2
        exact ⟨(half_dvd hN).1 ⟨this.1, this.2.1⟩, fun _ h4 => by omega⟩
      · simp only [WideArgs.restrict1, h3] at hk1
        norm_num at hk1
        have := e1 hs1 hN hk1
        exact ⟨(half_dvd hN).1 ⟨this.1, this.2.1⟩, fun _ h4 => by omega⟩
      · simp only [WideArgs.restrict1, h3] at hk1 hs2
        simp only [WideArgs.restrict2, h3] at hk2
        norm_num at hk1 hk2 hs2
        have h4 := e1 hs1 hN hk1
        have h5 := e1 hs2 h4.1 hk2
        refine ⟨(half_dvd hN).1 ⟨h4.1, h4.2.1⟩, fun hf _ => ?_⟩
        have := h5.2.2 hf
        omega
  · rintro ⟨hdep, hN, ho, hp, hr0, hr1, hr, hrest⟩
    have hrate : 0 ≤ a.rate ∧ a.rate ≤ 1 := ⟨hr0, hr1⟩
    have hok := standardSpace_ok (f := a.f) hN
    obtain ⟨t0, ht0, -⟩ := trivialRepr_some hok
    obtain ⟨g0, hg0, -⟩ := regularRepr_some hok
    set S : Stage := ⟨standardSpace a.f a.N, t0, g0, []⟩ with hSdef
    have hS : Stage.new (standardSpace a.f a.N) [] = some S := by unfold Stage.new; rw [ht0, hg0]
    have hL : StageLib S := ⟨hok, WSpace.order_pos hok, ht0, hg0, fun p hp => absurd (show p ∈ [] from hp) (List.not_mem_nil)⟩
    have hord : S.s.order = a.order := standardSpace_order
    obtain ⟨k, hk, e1⟩ := S.regularType_of (planes := 16) (fix := true) hL.ord (by rw [hord, if_pos rfl]; exact_mod_cast (planes_256 _).2 ho)
    have h1 : 1 ∈ List.replicate k 1 := List.mem_replicate.2 ⟨by omega, rfl⟩
    obtain ⟨w, conv, hconv⟩ := hL.builds.conv 2 1 (hL.builds.share (inT := [0, 0, 0]) (by simp) (List.ne_nil_of_mem h1) (Or.inr h1))
    have hmono : ∀ o : ℕ, o ≤ a.order → ∀ c : ℕ, 16 ≤ c → (o : ℝ) ≤ if a.fixparams then ((c * a.widen : ℕ) : ℝ) * Real.sqrt o else ((c * a.widen : ℕ) : ℝ) := by
      intro o hoo c hc
      have hle : ((16 * a.widen : ℕ) : ℝ) ≤ ((c * a.widen : ℕ) : ℝ) := by exact_mod_cast Nat.mul_le_mul_right _ hc
      have hoo' : (o : ℝ) ≤ a.order := by exact_mod_cast hoo
      unfold WideArgs.planes at hp
      split_ifs at hp ⊢
      · have e2 : Real.sqrt a.order * Real.sqrt a.order = a.order := Real.mul_self_sqrt (by positivity)
        have e3 : Real.sqrt o * Real.sqrt o = o := Real.mul_self_sqrt (by positivity)
        have e4 : Real.sqrt o ≤ Real.sqrt a.order := Real.sqrt_le_sqrt hoo'
        have e5 := Real.sqrt_nonneg (o : ℝ)
        rcases e5.eq_or_lt with e6 | e6
        · rw [← e3, ← e6]
          simp
        · have e7 : Real.sqrt a.order ≤ ((16 * a.widen : ℕ) : ℝ) := by
            exact le_of_mul_le_mul_right (e2.le.trans hp) (lt_of_lt_of_le e6 e4)
          calc (o : ℝ) = Real.sqrt o * Real.sqrt o := e3.symm
            _ ≤ _ := mul_le_mul_of_nonneg_right (e4.trans (e7.trans hle)) e5
      · exact hoo'.trans (hp.trans hle)
    have hordle : ∀ {K : ℕ}, K ≤ a.N → ∀ {T : Stage}, T.s = standardSpace a.f K → T.s.order ≤ a.order := by
      intro K hK T hT
      rw [hT, standardSpace_order]
      exact Nat.mul_le_mul_left _ hK
    obtain ⟨v1, l1, hl1⟩ := hL.builds.layer hrate (hmono _ (hordle (le_refl _) rfl) 16 (le_refl _)) ((a.depth - 4) / 6) a.initialStride false someBN
      (inT := List.replicate k 1) (List.ne_nil_of_mem h1) (by simp)
    have hM1 : ∀ m, a.restrict1 = some m → 0 < m ∧ m ∣ a.N ∧ (a.f = true → a.N ≠ 1) := by
      intro m hm
      unfold WideArgs.restrict1 at hm
      split_ifs at hm with h2
      obtain rfl := Option.some.inj hm
      obtain ⟨h3, h4⟩ := (half_dvd hN).2 (hrest (by omega)).1
      exact ⟨h3, h4, fun _ => by omega⟩
    obtain ⟨k1, hk1, hs1, hL1, hne1, htr1⟩ := linkLayer_step hc hL (f := a.f) (K := a.N) rfl hN a.restrict1 hM1 (wideLayer_regular hl1)
    have hK1 : 0 < a.restrict1.getD a.N ∧ a.restrict1.getD a.N ≤ a.N := by
      cases h2 : a.restrict1 with
      | none => exact ⟨hN, le_refl _⟩
      | some m =>
        obtain ⟨h3, h4, -⟩ := hM1 m h2
        exact ⟨h3, Nat.le_of_dvd hN h4⟩
    obtain ⟨v2, l2, hl2⟩ := hL1.builds.layer hrate (hmono _ (hordle hK1.2 hs1) 32 (by norm_num)) ((a.depth - 4) / 6) 2 false someBN hne1 (by simp)
    have hM2 : ∀ m, a.restrict2 = some m → 0 < m ∧ m ∣ a.restrict1.getD a.N ∧ (a.f = true → a.restrict1.getD a.N ≠ 1) := by
      intro m hm
      unfold WideArgs.restrict2 at hm
      unfold WideArgs.restrict1
      split_ifs at hm with h2 h3
      · obtain rfl := Option.some.inj hm
        rw [if_pos (by omega)]
        refine ⟨one_pos, one_dvd _, fun hf => ?_⟩
        have := (hrest (by omega)).2 hf h2
        show a.N / 2 ≠ 1
        omega
      · obtain rfl := Option.some.inj hm
        rw [if_neg (by omega)]
        obtain ⟨h3, h4⟩ := (half_dvd hN).2 (hrest (by omega)).1
        refine ⟨h3, h4, fun _ => ?_⟩
        show a.N ≠ 1
        omega
    obtain ⟨k2, hk2, hs2, hL2, hne2, htr2⟩ := linkLayer_step hc hL1 hs1 hK1.1 a.restrict2 hM2 (wideLayer_regular hl2)
    have hK2 : a.restrict2.getD (a.restrict1.getD a.N) ≤ a.N := by
      cases h2 : a.restrict2 with
      | none => exact hK1.2
      | some m => exact (Nat.le_of_dvd hK1.1 (hM2 m h2).2.1).trans hK1.2
    obtain ⟨v3, l3, hl3⟩ := hL2.builds.layer hrate (hmono _ (hordle hK2 hs2) 64 (by norm_num)) ((a.depth - 4) / 6) 2 true someBN hne2 (fun _ => htr2)
    refine ⟨⟨w, v1, v2, v3, someBN, (fun _ _ => 0, fun _ => 0)⟩, Option.isSome_iff_exists.1 ?_⟩
    rw [wideResNet_eq, if_pos hdep, WideArgs.space_standard hN, Option.bind_some, if_pos hr, hS, Option.bind_some, e1, Option.bind_some, hconv, Option.bind_some, hl1,
      Option.bind_some, hk1, Option.bind_some, hl2, Option.bind_some, hk2, Option.bind_some, hl3, Option.bind_some]
    simp only [Option.bind_some, wideBN, wideReLU, hL2.builds.accepts, if_true, Option.isSome_some]

/-- The named networks of the file (examples/e2wrn.py:395-460) can all be built, with or without keeping the number of weights. -/
theorem c74_named {comp : Comps} (hc : CompsOk comp) (fix : Bool) :
    (∃ v net, wideResNet comp ⟨16, 8, 0.3, 8, 3, true, fix, 2⟩ v = some net) ∧
    (∃ v net, wideResNet comp ⟨16, 8, 0.3, 8, 2, true, fix, 2⟩ v = some net) ∧
    (∃ v net, wideResNet comp ⟨16, 8, 0.3, 1, 0, true, fix, 2⟩ v = some net) ∧
    (∃ v net, wideResNet comp ⟨28, 10, 0.3, 8, 3, true, fix, 1⟩ v = some net) ∧
    (∃ v net, wideResNet comp ⟨28, 7, 0.3, 8, 3, true, fix, 1⟩ v = some net) ∧
    (∃ v net, wideResNet comp ⟨28, 10, 0.3, 8, 3, false, fix, 1⟩ v = some net) ∧
    (∃ v net, wideResNet comp ⟨28, 10, 0.3, 1, 0, true, fix, 1⟩ v = some net) := by
  have key : ∀ (depth : ℤ) (widen N r : ℕ) (f : Bool) (st : ℕ), (depth - 4) % 6 = 0 → 7 ≤ widen → 0 < N → N ≤ 8 → r ≤ 3 →
      (r ≠ 0 → (N = 3 ∨ 2 ∣ N) ∧ (f = true → r = 3 → 4 ≤ N)) → ∃ v net, wideResNet comp ⟨depth, widen, 0.3, N, r, f, fix, st⟩ v = some net := by
    intro depth widen N r f st h1 h2 h3 h4 h5 h6
    rw [c74_builds hc]
    have ho : (WideArgs.order ⟨depth, widen, 0.3, N, r, f, fix, st⟩) ≤ 16 := by
      unfold WideArgs.order
      dsimp only
      split_ifs <;> omega
    have ho' : 0 < (WideArgs.order ⟨depth, widen, 0.3, N, r, f, fix, st⟩) := by
      unfold WideArgs.order
      dsimp only
      split_ifs <;> omega
    refine ⟨h1, h3, by omega, ?_, by norm_num, by norm_num, h5, h6⟩
    unfold WideArgs.planes
    dsimp only
    generalize WideArgs.order ⟨depth, widen, 0.3, N, r, f, fix, st⟩ = o at ho ho'
    have hw : (112 : ℝ) ≤ ((16 * widen : ℕ) : ℝ) := by exact_mod_cast (by omega : 112 ≤ 16 * widen)
    have hoR : (o : ℝ) ≤ 16 := by exact_mod_cast ho
    have hoR' : (1 : ℝ) ≤ o := by exact_mod_cast ho'
    split_ifs
    · have : (1 : ℝ) ≤ Real.sqrt o := Real.one_le_sqrt.2 hoR'
      nlinarith
    · linarith
  refine ⟨key _ _ _ _ _ _ ?_ ?_ ?_ ?_ ?_ ?_, key _ _ _ _ _ _ ?_ ?_ ?_ ?_ ?_ ?_, key _ _ _ _ _ _ ?_ ?_ ?_ ?_ ?_ ?_, key _ _ _ _ _ _ ?_ ?_ ?_ ?_ ?_ ?_,
    key _ _ _ _ _ _ ?_ ?_ ?_ ?_ ?_ ?_, key _ _ _ _ _ _ ?_ ?_ ?_ ?_ ?_ ?_, key _ _ _ _ _ _ ?_ ?_ ?_ ?_ ?_ ?_⟩ <;> norm_num

end E2
