import Verif.Lemmas.WideResNet
import Verif.Props.QuotientDihedral

/-!
Lemmas for C74: the representations of the spaces, and the restrictions between two stages.
-/

set_option linter.unusedSectionVars false

namespace E2

open Finset Mat Real

variable {B : Type} [Fintype B] (interp : ℝ → Img → Img)

/-- The number and the labels are those of the connected components. -/
def CompsOk (comp : Comps) : Prop := ∀ s r, IsComponents (r.irreps.length + r.size) r.entangled (comp s r).1 (comp s r).2

theorem irrep_trivial {El : Type} {i : Irrep El} (hs : i.size = 1) (hm : ∀ e, i.mat e 0 0 = 1) : i.repr.size = 1 ∧ ∀ e, i.repr.mat e 0 0 = 1 := by
  refine ⟨by rw [Irrep.repr_size, hs], fun e => ?_⟩
  have := i.repr_mat e 0 (by omega) 0 (by omega)
  rw [this, hm]

theorem trivialRepr_good {s : WSpace} (hg : s.group.Ok) {t : Repr s.El × List Tag} (h : s.trivialRepr = some t) :
    Good true s.group t.1 t.2 ∧ t.1.size = 1 ∧ ∀ e, t.1.mat e 0 0 = 1 := by
  have cyc : ∀ (N : ℕ) (i : Irrep ℤ), Cyclic.irrep N 0 = some i → i.size = 1 ∧ ∀ e, i.mat e 0 0 = 1 := by
    intro N i hi
    rw [Cyclic.trivial_irrep] at hi
    obtain rfl := Option.some.inj hi
    exact ⟨rfl, fun e => rfl⟩
  cases s with
  | trivial =>
    simp only [WSpace.trivialRepr] at h
    obtain ⟨i, hi, rfl⟩ := Option.map_eq_some_iff.1 h
    exact ⟨good_irrep (g := .cyc 1) hg (.cyc hi), irrep_trivial (cyc _ i hi).1 (cyc _ i hi).2⟩
  | rot N =>
    simp only [WSpace.trivialRepr] at h
    obtain ⟨i, hi, rfl⟩ := Option.map_eq_some_iff.1 h
    exact ⟨good_irrep (g := .cyc N) hg (.cyc hi), irrep_trivial (cyc _ i hi).1 (cyc _ i hi).2⟩
  | flip axis =>
    simp only [WSpace.trivialRepr] at h
    obtain ⟨i, hi, rfl⟩ := Option.map_eq_some_iff.1 h
    exact ⟨good_irrep (g := .cyc 2) hg (.cyc hi), irrep_trivial (cyc _ i hi).1 (cyc _ i hi).2⟩
  | flipRot N axis =>
    simp only [WSpace.trivialRepr] at h
    obtain ⟨i, hi, rfl⟩ := Option.map_eq_some_iff.1 h
    refine ⟨good_irrep (g := .dih N) hg (.dih hi), ?_⟩
    rw [Dihedral.irrep_zero_zero] at hi
    obtain rfl := Option.some.inj hi
    exact irrep_trivial rfl fun e => rfl

theorem regularRepr_good {s : WSpace} (hg : s.group.Ok) {t : Repr s.El × List Tag} (h : s.regularRepr = some t) : Good true s.group t.1 t.2 := by
  cases s with
  | trivial =>
    simp only [WSpace.regularRepr] at h
    obtain ⟨r, hr, rfl⟩ := Option.map_eq_some_iff.1 h
    exact good_cycRegular hg hr
  | rot N =>
    simp only [WSpace.regularRepr] at h
    obtain ⟨r, hr, rfl⟩ := Option.map_eq_some_iff.1 h
    exact good_cycRegular hg hr
  | flip axis =>
    simp only [WSpace.regularRepr] at h
    obtain ⟨r, hr, rfl⟩ := Option.map_eq_some_iff.1 h
    exact good_cycRegular hg hr
  | flipRot N axis =>
    simp only [WSpace.regularRepr] at h
    obtain ⟨r, hr, rfl⟩ := Option.map_eq_some_iff.1 h
    exact good_dihRegular hg hr

theorem Stage.new_ok {s : WSpace} (hg : s.group.Ok) {extra : List (Repr s.El × List Tag)} (hx : ∀ p ∈ extra, Good true s.group p.1 p.2) {S : Stage}
    (h : Stage.new s extra = some S) : S.s = s ∧ StageOk S := by
  unfold Stage.new at h
  cases ht : s.trivialRepr with
  | none => simp [ht] at h
  | some t =>
    cases hr : s.regularRepr with
    | none => simp [ht, hr] at h
    | some r =>
      rw [ht, hr] at h
      obtain rfl := Option.some.inj h
      obtain ⟨h1, h2⟩ := trivialRepr_good hg ht
      exact ⟨rfl, stageOk_mk h1 (regularRepr_good hg hr) hx h2⟩

/-- The smaller space acts as its image in the larger one, and its elements which permute the pixels are those of the larger one. -/
structure WSubOk {s : WSpace} (U : WSub s) : Prop where
  lib : LibSub s.group U.sub.group U.parent U.restr
  base : ∀ e, U.sub.group.grp.isEl e → ∀ n x, (U.sub.space interp).base n e x = (s.space interp).base n (U.parent e) x
  grid : ∀ e, U.sub.group.grp.isEl e → (U.sub.space interp).grid e → (s.space interp).grid (U.parent e)

theorem WSpace.restrict_ok (hp : Periodic interp) {s : WSpace} (hg : s.group.Ok) {f : Bool} {M : ℕ} {U : WSub s} (h : s.restrict f M = some U) : WSubOk interp U := by
  cases s with
  | flip axis => cases f <;> simp [WSpace.restrict] at h
  | trivial =>
    cases f with
    | true => simp [WSpace.restrict] at h
    | false =>
      simp only [WSpace.restrict] at h
      cases hS : Cyclic.subgroup 1 M with
      | none => simp [hS] at h
      | some S =>
        rw [hS] at h
        dsimp only at h
        split_ifs at h with hM
        subst hM
        obtain rfl := Option.some.inj h
        exact ⟨.cycCyc hS, fun _ _ _ _ => rfl, fun _ _ _ => True.intro⟩
  | rot N =>
    cases f with
    | true => simp [WSpace.restrict] at h
    | false =>
      simp only [WSpace.restrict] at h
      cases hS : Cyclic.subgroup N M with
      | none => simp [hS] at h
      | some S =>
        rw [hS] at h
        dsimp only at h
        have hN : 0 < N := hg
        have hSo : S.order = M := ((c06_cyclic_subgroup N hN M).2 S hS).1
        have hS' := hS
        rw [Cyclic.subgroup, Cyclic.order_eq] at hS'
        split_ifs at hS' with hM
        push Not at hM
        have hpar : S.parent = fun e => e * ((N / M : ℕ) : ℤ) := by
          obtain rfl := Option.some.inj hS'
          rfl
        split_ifs at h with h1 h2
        · obtain rfl := Option.some.inj h
          have hsame : SameAction (rotSpace interp N) ⟨ℤ, rotSpace interp M, S.parent⟩ :=
            c44_rot interp hp N M hN _ (by rw [rotRestrict, hS, Option.bind_some, if_pos h1, hSo])
          have hgr : ∀ e : ℤ, Quarter ((e : ℝ) * (2 * π / M)) → Quarter ((S.parent e : ℝ) * (2 * π / N)) := by
            intro e hq
            rw [hpar]
            dsimp only
            rw [index_angle hM.1 hN hM.2]
            exact hq
          exact ⟨.cycCyc hS, hsame.image, fun e _ hq => hgr e hq⟩
        · subst h2
          obtain rfl := Option.some.inj h
          have hsame : SameAction (rotSpace interp N) ⟨ℤ, trivialSpace, S.parent⟩ :=
            c44_rot interp hp N 1 hN _ (by rw [rotRestrict, hS, Option.bind_some, if_neg h1, if_pos rfl])
          have hgr : ∀ e : ℤ, (Cyclic.grp 1).isEl e → Quarter ((S.parent e : ℝ) * (2 * π / N)) := by
            intro e he
            rw [cyclic_one he, hpar]
            simpa using quarter_zero
          exact ⟨.cycCyc hS, hsame.image, fun e he _ => hgr e he⟩
  | flipRot N axis =>
    cases f with
    | false => simp [WSpace.restrict] at h
    | true =>
      simp only [WSpace.restrict] at h
      have hN : 0 < N := hg
      obtain ⟨k, hk⟩ := newAxis_eq axis ((0 : ℕ) * 2 * π / N)
      have hk' : 2 * newAxis axis ((0 : ℕ) * 2 * π / N) = 2 * axis + k * (2 * π) := by rw [hk]; simp
      cases hS : Dihedral.subgroup N (some 0) M with
      | none => simp [hS] at h
      | some S =>
        rw [hS] at h
        have hS' := hS
        unfold Dihedral.subgroup at hS'
        by_cases h1 : 1 ≤ M
        swap
        · rw [if_pos h1] at hS'; cases hS'
        rw [if_neg (not_not.2 h1)] at hS'
        by_cases h2 : N % M = 0
        swap
        · rw [if_pos h2] at hS'; cases hS'
        rw [if_neg (not_not.2 h2)] at hS'
        dsimp only at hS'
        split_ifs at hS' with h3 h4
        · obtain rfl := Option.some.inj hS'
          dsimp only at h
          rw [if_pos h4] at h
          obtain rfl := Option.some.inj h
          subst h4
          have hsame := c44_flipRot interp hp N hN axis (some 0) 1 ⟨ℤ, flipSpace interp (newAxis axis ((0 : ℕ) * 2 * π / N)), fun e => (e, (0 : ℕ) * e)⟩
            (by rw [flipRotRestrict, hS, Option.bind_some]; dsimp only; rw [if_pos rfl])
          have hgr : ∀ e : ℤ, e = 0 ∨ Quarter (2 * newAxis axis ((0 : ℕ) * 2 * π / N)) →
              Quarter (((((0 : ℕ) : ℤ) * e : ℤ) : ℝ) * (2 * π / N) + if e = 0 then 0 else 2 * axis) := by
            intro e hq
            rcases hq with hq | hq
            · rw [if_pos hq, hq]; simpa using quarter_zero
            · have : Quarter (2 * axis) := by
                have := hq.int (-k)
                rw [hk'] at this
                convert this using 1
                push_cast
                ring
              split_ifs
              · simpa using quarter_zero
              · simpa using this
          exact ⟨.dihFlip hS, hsame.image, fun e _ hq => hgr e hq⟩
        · obtain rfl := Option.some.inj hS'
          dsimp only at h
          obtain rfl := Option.some.inj h
          have hsame := c44_flipRot interp hp N hN axis (some 0) M
            ⟨ℤ × ℤ, flipRotSpace interp M (newAxis axis ((0 : ℕ) * 2 * π / N)), fun e => (e.1, e.2 * ((N / M : ℕ) : ℤ) + e.1 * (0 : ℕ))⟩
            (by rw [flipRotRestrict, hS, Option.bind_some])
          refine ⟨.dihDih (by omega) hS, hsame.image, fun e he hq => ?_⟩
          have hq' : Quarter (e.2 * (2 * π / M) + if e.1 = 0 then 0 else 2 * newAxis axis ((0 : ℕ) * 2 * π / N)) := hq
          show Quarter (((e.2 * ((N / M : ℕ) : ℤ) + e.1 * ((0 : ℕ) : ℤ) : ℤ) : ℝ) * (2 * π / N) + if e.1 = 0 then 0 else 2 * axis)
          rw [Nat.cast_zero, mul_zero, add_zero, index_angle (by omega) hN h2]
          split_ifs at hq' ⊢ with h0
          · exact hq'
          · rw [hk'] at hq'
            have := hq'.int (-k)
            convert this using 1
            push_cast
            ring

/-- What a link between two stages does: its output transforms in the smaller group as its input in the larger one. -/
structure LinkOk (B : Type) [Fintype B] {S T : Stage} (l : Link S T) (inT t : List ℕ) : Prop where
  mem : ∀ g, (T.s.space interp).G.isEl g → (S.s.space interp).G.isEl (l.parent g)
  grid : ∀ g, (T.s.space interp).G.isEl g → (T.s.space interp).grid g → (S.s.space interp).grid (l.parent g)
  base : ∀ g, (T.s.space interp).G.isEl g → ∀ n x, (T.s.space interp).base n g x = (S.s.space interp).base n (l.parent g) x
  step : ∀ x : ETensor ℕ B, x.x.WF (fun i => (S.rep i).size) → x.x.ty = inT → ∃ y : ETensor ℕ B, y.n = x.n ∧ y.x.WF (fun i => (T.rep i).size) ∧ y.x.ty = t ∧
    (∀ junk, JunkOk junk → l.forward junk x = some y) ∧
    ∀ g, (T.s.space interp).G.isEl g → (T.s.space interp).grid g → ∀ junk, JunkOk junk →
      l.forward junk (x.act (S.s.space interp) S.rep (l.parent g)) = some (y.act (T.s.space interp) T.rep g)

theorem Stage.rep_extra (S : Stage) {α : Type} (f : Repr S.s.El → α) : (List.range' 2 S.extra.length).map (fun i => f (S.rep i)) = S.extra.map fun p => f p.1 := by
  apply List.ext_getElem (by simp)
  intro i h1 h2
  simp only [List.getElem_map, List.getElem_range']
  have hi : i < S.extra.length := by simpa using h2
  have : S.rep (2 + 1 * i) = S.extra[i].1 := by
    rw [one_mul, Nat.add_comm]
    show (S.extra.getD i S.triv).1 = _
    rw [List.getD_eq_getElem?_getD, List.getElem?_eq_getElem hi]
    rfl
  rw [this]

theorem mapM_const {α β : Type} (l : List α) (r : β) : (l.mapM fun _ => some r) = some (List.replicate l.length r) := by
  induction l with
  | nil => rfl
  | cons a l ih => rw [List.mapM_cons, ih]; rfl

theorem transform_replicate {P R R' : Type} {sz : R → ℕ} {sz' : R' → ℕ} {ρ : R → Mat} {ρ' : R' → Mat} {a : R} {b : R'} (hsz : sz' b = sz a)
    (hm : MEq (sz a) (sz a) (ρ' b) (ρ a)) (k : ℕ) (d : List (P → ℝ)) (τ : P → P) :
    ((⟨List.replicate k a, d⟩ : GTensor R (P → ℝ)).transform sz ρ τ).data = ((⟨List.replicate k b, d⟩ : GTensor R' (P → ℝ)).transform sz' ρ' τ).data := by
  have h1 : bdiag ((List.replicate k ()).map fun _ => (sz a, ρ a)) = bdiag ((List.replicate k ()).map fun _ => (sz a, ρ' b)) :=
    bdiag_congr (fun _ => sz a) (fun _ => ρ a) (fun _ => ρ' b) (List.replicate k ()) fun _ _ => hm.symm
  rw [List.map_replicate, List.map_replicate] at h1
  simp only [GTensor.transform, GTensor.act, List.map_replicate, typeSize, List.sum_replicate, hsz, h1]

theorem restrictLayer_ok (hp : Periodic interp) {comp : Comps} (hc : CompsOk comp) {S : Stage} (hS : StageOk S) {f : Bool} {M : ℕ} {inT : List ℕ} (hi : inT ≠ [])
    {k : (T : Stage) × Link S T × List ℕ} (h : restrictLayer comp S f M inT = some k) :
    StageOk k.1 ∧ k.2.2 ≠ [] ∧ LinkOk interp B k.2.1 inT k.2.2 := by
  classical
  unfold restrictLayer at h
  split_ifs at h with hrep
  cases hU : S.s.restrict f M with
  | none => simp [hU] at h
  | some U =>
  rw [hU] at h
  dsimp only at h
  cases hr : S.reg.1.restrict U.restr with
  | none => simp [hr] at h
  | some r =>
  rw [hr] at h
  dsimp only at h
  cases hd : r.disentangle (comp U.sub r).1 (comp U.sub r).2 with
  | none => simp [hd] at h
  | some Qr =>
  obtain ⟨Q, reps⟩ := Qr
  rw [hd] at h
  dsimp only at h
  cases ht : U.sub.trivialRepr with
  | none => simp [ht] at h
  | some t =>
  cases hg : U.sub.regularRepr with
  | none => simp [ht, hg] at h
  | some g =>
  rw [ht, hg] at h
  dsimp only at h
  obtain rfl := Option.some.inj h
  dsimp only
  have hUok := WSpace.restrict_ok interp hp hS.ok hU
  obtain ⟨hok, hmem, hres⟩ := hUok.lib.ok hS.ok
  have hreg : Good true S.s.group S.reg.1 S.reg.2 := hS.good 1
  have hgood := good_restrict hreg hUok.lib hr
  obtain ⟨r', hr', hR⟩ := hres S.reg.1 hreg.wf hreg.irr
  obtain rfl : r' = r := by rw [hr] at hr'; exact (Option.some.inj hr').symm
  have hcr := hc U.sub r'
  obtain ⟨t1, t2⟩ := trivialRepr_good hok ht
  set T : Stage := ⟨U.sub, t, g, reps.map fun q => (q, restrictTags r' S.reg.2)⟩ with hT
  have hTok : StageOk T := by
    refine stageOk_mk t1 (regularRepr_good hok hg) ?_ t2
    intro p hp'
    obtain ⟨q, hq, rfl⟩ := List.mem_map.1 hp'
    exact good_disentangle hgood hcr hd hq
  have hlen : T.extra.length = reps.length := List.length_map _
  have hmap : ∀ {α : Type} (f : Repr T.s.El → α), (List.range' 2 reps.length).map (fun i => f (T.rep i)) = reps.map f := by
    intro α f
    have := T.rep_extra f
    rw [hlen] at this
    rw [this]
    exact List.map_map
  obtain ⟨Q', reps', σ, c1, c2, c3, c4, c5, c6, c7⟩ := c11_disentangle r' hgood.wf _ _ hcr
  obtain ⟨rfl, rfl⟩ : Q' = Q ∧ reps' = reps := by
    rw [c1] at hd
    have := Option.some.inj hd
    exact ⟨congrArg Prod.fst this, congrArg Prod.snd this⟩
  set kf := inT.length with hkf
  have hkpos : 0 < kf := List.length_pos_iff.2 hi
  set dis : Repr T.s.El → Mat × List ℕ := fun _ => (Q', List.range' 2 reps'.length) with hdis
  have hne : List.replicate kf r' ≠ [] := by
    intro h0
    have := congrArg List.length h0
    simp at this
    omega
  have hsize : DisSize Repr.size (fun i => (T.rep i).size) dis r' := by
    rw [DisSize, hdis]
    dsimp only
    rw [hmap Repr.size, ← c5, Repr.directsum_size]
  have hat : ∀ e, DisAt Repr.size (fun i => (T.rep i).size) dis (fun s => s.mat e) (fun i => (T.rep i).mat e) r' := by
    intro e
    rw [DisAt, hdis]
    dsimp only
    rw [hmap fun s => (s.size, s.mat e)]
    have h8 := c7 e
    rw [Repr.directsum_mat] at h8
    refine (MEq.mul h8 (MEq.refl Q')).trans ?_
    rw [conj, Mat.mul_assoc]
    refine (MEq.mul (MEq.refl _) c3.2).trans ?_
    exact MEq_mul_one _ _ _
  have hmemr : ∀ r ∈ List.replicate kf r', r = r' := fun r hr => List.eq_of_mem_replicate hr
  have hu : ∀ r, r ∈ [r'] ↔ r ∈ List.replicate kf r' := by
    intro r
    rw [List.mem_singleton, List.mem_replicate]
    exact ⟨fun h => ⟨by omega, h⟩, fun h => h.2⟩
  have hn : NamesOk (fun _ : Repr T.s.El => ()) (List.replicate kf r') := fun a ha b hb _ => (hmemr a ha).trans (hmemr b hb).symm
  have hts : typeSize Repr.size (List.replicate kf r') = kf * r'.size := by simp [typeSize]
  have hsz : r'.size = (S.rep 1).size := hR.size
  have hrestr : ∀ (n : ℕ) (d : List (Pix B n → ℝ)), d.length = typeSize (fun i => (S.rep i).size) inT →
      restrictGT Repr.size (fun _ : ℕ => some r') (⟨inT, d⟩ : GTensor ℕ (Pix B n → ℝ)) = some ⟨List.replicate kf r', d⟩ := by
    intro n d hd
    rw [restrictGT, mapM_const, Option.bind_some, mkType_eq_some.2 ⟨hne, rfl⟩, Option.bind_some]
    refine mkGT_eq_some.2 ⟨?_, rfl⟩
    rw [hts, hd, hrep]
    simp [typeSize, hsz, hkf]
  have hout : (List.replicate kf r').flatMap (fun r => (dis r).2) ≠ [] := by
    intro h0
    rw [List.flatMap_eq_nil_iff] at h0
    have h1 := h0 r' (List.mem_replicate.2 ⟨by omega, rfl⟩)
    rw [DisSize, h1] at hsize
    have := hgood.pos
    simp at hsize
    omega
  refine ⟨hTok, hout, ?_, ?_, ?_, ?_⟩
  · intro e he
    rw [WSpace.space_G] at he ⊢
    exact hmem e he
  · intro e he hq
    rw [WSpace.space_G] at he
    exact hUok.grid e he hq
  · intro e he
    rw [WSpace.space_G] at he
    exact hUok.base e he
  · rintro ⟨n, tx, d⟩ hx hxt
    dsimp only at hx hxt
    subst hxt
    have hj : ∀ junk : (c n : ℕ) → List (Pix B n → ℝ), JunkOk junk → (junk (kf * r'.size) n).length = typeSize Repr.size (List.replicate kf r') := fun junk hj => by
      rw [hts]; exact hj _ _
    have hx' : (⟨List.replicate kf r', d⟩ : GTensor (Repr T.s.El) (Pix B n → ℝ)).WF Repr.size := by
      refine ⟨hne, ?_⟩
      rw [hts]
      show d.length = _
      rw [hx.2]
      show typeSize _ tx = _
      rw [hrep]
      simp [typeSize, hsz, hkf]
    have hfw : ∀ (junk : (c n : ℕ) → List (Pix B n → ℝ)) (d' : List (Pix B n → ℝ)), d'.length = typeSize (fun i => (S.rep i).size) tx →
        (Link.restrict (S := S) (T := T) kf U.parent r' Q' reps'.length).forward junk ⟨n, tx, d'⟩ =
          (disForward Repr.size (fun i => (T.rep i).size) (fun _ => ()) dis [r'] (List.replicate kf r') (junk (kf * r'.size) n) ⟨List.replicate kf r', d'⟩).map
            fun y => ⟨n, y⟩ := by
      intro junk d' hd'
      rw [Link.forward]
      dsimp only
      rw [if_pos hrep, hrestr n d' hd', Option.bind_some]
    obtain ⟨j0, hj0⟩ := exists_junk (B := B)
    obtain ⟨y, e1, e2, e3, e4⟩ := c56_forward_partial Repr.size (fun i => (T.rep i).size) (fun _ => ()) dis [r'] (List.replicate kf r') hne
      (fun r hr => by rw [hmemr r hr]; exact hgood.pos) hu hn (fun r hr => by rw [hmemr r hr]; exact hsize) (j0 _ n) (hj j0 hj0) _ hx' rfl
    have heq := fun (junk junk' : (c n : ℕ) → List (Pix B n → ℝ)) (h1 : JunkOk junk) (h2 : JunkOk junk') ρ ρ' hρ (τ : Pix B n → Pix B n) =>
      c56_equivariant_partial Repr.size (fun i => (T.rep i).size) (fun _ => ()) dis [r'] (List.replicate kf r') hne
      (fun r hr => by rw [hmemr r hr]; exact hgood.pos) hu hn (fun r hr => by rw [hmemr r hr]; exact hsize) ρ ρ' hρ τ (junk _ n) (junk' _ n) (hj junk h1) (hj junk' h2) _ hx' rfl
    refine ⟨⟨n, y⟩, rfl, e2, e3, fun junk hjk => ?_, fun e he hq junk hjk => ?_⟩
    · obtain ⟨y', f1, f2, f3, f4⟩ := c56_forward_partial Repr.size (fun i => (T.rep i).size) (fun _ => ()) dis [r'] (List.replicate kf r') hne
        (fun r hr => by rw [hmemr r hr]; exact hgood.pos) hu hn (fun r hr => by rw [hmemr r hr]; exact hsize) (junk _ n) (hj junk hjk) _ hx' rfl
      have hts' := typeSize_flatMap Repr.size (fun i => (T.rep i).size) dis (List.replicate kf r') fun r hr => by rw [hmemr r hr]; exact hsize
      have : y' = y := by
        have hd : y'.data = y.data := eq_of_chunks (s := (List.replicate kf r').map Repr.size) (by rw [f2.2, f3, hts']; rfl) (by rw [e2.2, e3, hts']; rfl) (f4.trans e4.symm)
        obtain ⟨a, b⟩ := y
        obtain ⟨a', b'⟩ := y'
        dsimp only at hd e3 f3
        rw [hd, e3, f3]
      rw [hfw junk d hx.2, f1, this]
      rfl
    · obtain ⟨τ, hτ, -⟩ := WSpace.gridAction interp hTok.ok e he hq
      have he' := he
      rw [WSpace.space_G] at he'
      have hτ' : ∀ n x i j, i < n → j < n → (S.s.space interp).base n (U.parent e) x i j = x (τ.ap n (i, j)).1 (τ.ap n (i, j)).2 := by
        intro n x i j h1 h2
        rw [← hτ n x i j h1 h2]
        exact congrFun (congrFun (hUok.base e he' n x).symm i) j
      rw [act_eq T.rep hτ]
      show (Link.restrict (S := S) (T := T) kf U.parent r' Q' reps'.length).forward junk (ETensor.act (S.s.space interp) S.rep (U.parent e) ⟨n, tx, d⟩) = _
      rw [act_eq S.rep hτ']
      obtain ⟨y', g1, g2⟩ := heq j0 junk hj0 hjk (fun s => s.mat e) (fun i => (T.rep i).mat e) (fun r hr => by rw [hmemr r hr]; exact hat e) (Pix.move τ)
      obtain rfl : y' = y := by rw [e1] at g1; exact (Option.some.inj g1).symm
      dsimp only
      have hdata : ((⟨tx, d⟩ : GTensor ℕ (Pix B n → ℝ)).transform (fun i => (S.rep i).size) (fun i => (S.rep i).mat (U.parent e)) (Pix.move τ)).data =
          ((⟨List.replicate kf r', d⟩ : GTensor (Repr T.s.El) (Pix B n → ℝ)).transform Repr.size (fun s => s.mat e) (Pix.move τ)).data := by
        rw [hrep]
        exact transform_replicate (sz := fun i => (S.rep i).size) (sz' := Repr.size) (ρ := fun i => (S.rep i).mat (U.parent e)) (ρ' := fun s => s.mat e) hsz
          (hR.mat e he') kf d (Pix.move τ)
      have := hfw junk ((⟨tx, d⟩ : GTensor ℕ (Pix B n → ℝ)).transform (fun i => (S.rep i).size) (fun i => (S.rep i).mat (U.parent e)) (Pix.move τ)).data
        (transform_wf _ _ hx).2
      refine this.trans ?_
      rw [hdata]
      exact congrArg (Option.map _) g2

end E2
