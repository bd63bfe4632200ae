import Verif.Props.InducedNonlin
import Verif.Props.QuotientDihedral

/-!
# C55: equivariance of the gated nonlinearity of induced representations
-/

set_option linter.unusedSectionVars false

namespace E2

open Mat

variable {P R : Type} [DecidableEq R]

theorem MovesEntries.move {q : ℕ} {τ : Equiv.Perm (Fin q)} {M : Mat} (hM : MovesEntries q τ M) (π : P → P) (fld : List (P → ℝ)) (i : Fin q)
    (p : P) : (moveField q M π fld)[(i : ℕ)]?.getD 0 p = fld[(τ i : ℕ)]?.getD 0 (π p) := by
  rw [moveField_get q M π fld i.2, Finset.sum_eq_single (τ i : ℕ)]
  · rw [hM i (τ i), if_pos rfl, one_mul]
  · intro j hj hne
    rw [Finset.mem_range] at hj
    rw [hM i ⟨j, hj⟩, if_neg fun e => hne (congrArg Fin.val e), zero_mul]
  · intro h; exact absurd (Finset.mem_range.2 (τ i).2) h

/-- **C55, gated**: the module commutes with all transformations which permute the channels of the gates and the subfields of the gated fields in
the same way.  Missing: the constructor does not check this; see `c55_gated_wrong`. -/
theorem c55_gated_equivariant_partial (sz : R → ℕ) (gate : R → Bool) (subs : R → List ℕ) (t : List R) (hpos : ∀ r ∈ t, 0 < sz r)
    (gates : List Bool) (drop : Bool) (hcheck : inducedGatedCheck sz gate subs t gates = true) (σ : ℝ → ℝ) (bias : List ℝ) (ρ : R → Mat)
    (π : P → P) (τ : Equiv.Perm (Fin (quotientSize sz t gates)))
    (hgate : ∀ (c : ℕ) r, gates[c]? = some true → t[c]? = some r → MovesEntries (quotientSize sz t gates) τ (ρ r))
    (hgated : ∀ (c : ℕ) r, gates[c]? = some false → t[c]? = some r → MovesBlocks (quotientSize sz t gates) (subSize subs r) τ (ρ r))
    (junk junk' : List (P → ℝ)) (hj : junk.length = typeSize sz (gated1Out t gates drop))
    (hj' : junk'.length = typeSize sz (gated1Out t gates drop)) (x : GTensor R (P → ℝ)) (hx : x.WF sz) (hxt : x.ty = t) :
    ∃ y, inducedGated sz gate subs t gates drop σ bias junk x = some y ∧
      inducedGated sz gate subs t gates drop σ bias junk' (x.transform sz ρ π) = some (y.transform sz ρ π) := by
  obtain ⟨ord, hord, hall⟩ := c55_gated_scalars (P := P) sz gate subs t (hxt ▸ hx.1) hpos gates drop hcheck σ bias
  obtain ⟨y, h1, h2, h3, h4, h5, h6⟩ := hall junk x hj hx hxt
  obtain ⟨y', h1', h2', h3', h4', h5', h6'⟩ := hall junk' (x.transform sz ρ π) hj' (transform_wf ρ π hx) hxt
  refine ⟨y, h1, ?_⟩
  rw [h1']
  congr 1
  obtain ⟨c1, c3, hg, hgd⟩ := inducedGatedCheck_spec hcheck
  generalize hq : quotientSize sz t gates = q at *
  have hgs : ∀ r, MovesEntries q τ (ρ r) → sz r = q → ∀ (j : ℕ) (gfld : List (P → ℝ)) (i : Fin q) p,
      subGateSpec σ bias j (moveField (sz r) (ρ r) π gfld) i p = subGateSpec σ bias j gfld (τ i) (π p) := by
    intro r hr hrq j gfld i p
    rw [subGateSpec, subGateSpec, hrq, hr.move]
  have htrue : ∀ d ∈ posOf gates true, ∃ r gfld, t[d]? = some r ∧ (x.fields sz)[d]? = some gfld ∧ gfld.length = sz r ∧ sz r = q ∧
      MovesEntries q τ (ρ r) := by
    intro d hd
    have hdl : d < t.length := by rw [← c1]; exact posOf_lt hd
    have hr : t[d]? = some t[d] := List.getElem?_eq_getElem hdl
    have hr' : x.ty[d]? = some t[d] := by rw [hxt]; exact hr
    obtain ⟨gfld, hf⟩ := field_exists (sz := sz) hr'
    exact ⟨t[d], gfld, hr, hf, field_length hx hr' hf, (hg d _ (mem_posOf.1 hd) hr).2, hgate d _ (mem_posOf.1 hd) hr⟩
  have hgatedEq : ∀ i c : ℕ, (posOf gates false)[i]? = some c → ∀ r, y.ty[if drop then i else c]? = some r →
      (y'.fields sz)[if drop then i else c]? = ((y.fields sz)[if drop then i else c]?).map (moveField (sz r) (ρ r) π) := by
    intro i c hc r hr
    have hi : i < gates.count false := by
      have := (List.getElem?_eq_some_iff.1 hc).1
      rw [posOf_length_eq] at this; exact this
    obtain ⟨j, hj⟩ := List.mem_iff_getElem?.1 (hord.mem_iff.2 (List.mem_range.2 hi))
    have hjl : j < (posOf gates true).length := by
      rw [posOf_length_eq]
      change j < gates.count true
      rw [c3, ← List.length_range (n := gates.count false), ← hord.length_eq]
      exact (List.getElem?_eq_some_iff.1 hj).1
    have hd := List.getElem?_eq_getElem hjl
    generalize (posOf gates true)[j] = d at hd
    obtain ⟨rg, gfld, g1, g2, g3, g4, g5⟩ := htrue d (List.mem_of_getElem? hd)
    have hrt : t[c]? = some r := by rw [← h4 i c hc]; exact hr
    have hr' : x.ty[c]? = some r := by rw [hxt]; exact hrt
    have hcm := mem_posOf.1 (List.mem_of_getElem? hc)
    obtain ⟨e1, e2⟩ := hgd c r hcm hrt
    obtain ⟨a1, a2, a3⟩ := sub_facts (hpos r (List.mem_of_getElem? hrt)) e1
    rw [e2] at a2
    rw [h5' j i c d r _ hj hc hd hrt (by rw [transform_fields_get sz ρ π x (by rw [hxt]; exact g1), g2]; rfl),
      h5 j i c d r gfld hj hc hd hrt g2, transform_fields_get sz ρ π x hr']
    cases (x.fields sz)[c]? with
    | none => rfl
    | some fld =>
      simp only [Option.map_some]
      congr 1
      have := move_scaleSubfields a1 (hgated c r hcm hrt) π (subGateSpec σ bias j gfld)
        (subGateSpec σ bias j (moveField (sz rg) (ρ rg) π gfld)) (fun i p => hgs rg g5 g4 j gfld i p) fld
      rw [a2] at this
      exact this.symm
  refine transform_of_fields h2 h2' (h3'.trans h3.symm) ?_
  intro c r hr
  cases drop with
  | true =>
    have hc : c < (posOf gates false).length := by
      have := (List.getElem?_eq_some_iff.1 hr).1
      rw [h3, gated1Out, if_pos rfl, List.length_map] at this
      have e := posOf_false_length (gates.zip t)
      rw [← (gated1_zip c1).1] at e
      omega
    exact hgatedEq c _ (List.getElem?_eq_getElem hc) r hr
  | false =>
    rw [h3] at hr
    have hr : t[c]? = some r := hr
    have hc : c < gates.length := by rw [c1]; exact (List.getElem?_eq_some_iff.1 hr).1
    cases hb : gates[c] with
    | false =>
      have hm : c ∈ posOf gates false := mem_posOf.2 (by rw [List.getElem?_eq_getElem hc, hb])
      obtain ⟨i, hi⟩ := List.mem_iff_getElem?.1 hm
      exact hgatedEq i c hi r (by rw [h3]; exact hr)
    | true =>
      have hm : c ∈ posOf gates true := mem_posOf.2 (by rw [List.getElem?_eq_getElem hc, hb])
      obtain ⟨j, hj⟩ := List.mem_iff_getElem?.1 hm
      obtain ⟨rg, gfld, g1, g2, g3, g4, g5⟩ := htrue c hm
      rw [hr] at g1
      cases g1
      rw [h6' rfl j c _ hj (by rw [transform_fields_get sz ρ π x (by rw [hxt]; exact hr), g2]; rfl), h6 rfl j c gfld hj g2, Option.map_some]
      congr 1
      rw [moveField_length, g3, g4]
      apply List.ext_getElem
      · rw [List.length_map, List.length_range, moveField_length]
      · intro i hi hi'
        have hiq : i < q := by rw [List.length_map, List.length_range] at hi; exact hi
        rw [List.getElem_map, List.getElem_range]
        funext p
        have e1 := hgs r g5 g4 j gfld ⟨i, hiq⟩ p
        have e2 := g5.move π ((List.range q).map (subGateSpec σ bias j gfld)) ⟨i, hiq⟩ p
        rw [g4] at e1
        dsimp only at e1 e2
        rw [List.getElem?_eq_getElem hi', Option.getD_some, List.getElem?_map, List.getElem?_range (τ ⟨i, hiq⟩).2, Option.map_some,
          Option.getD_some] at e2
        rw [e1, e2]

variable {El El' : Type}

/-- The hypotheses of `c55_gated_equivariant_partial` hold when the gates are the quotient representation and the gated fields are induced from
the same subgroup. -/
theorem c55_same_subgroup [DecidableEq El] {G : Grp El} {els : List El} {H : Grp El'} {S : SubData El El'} (ok : SubOk G els H S)
    {reps : List El} {g : El} (hg : G.isEl g) (T : IsTransversal G H S reps) : ∃ τ : Equiv.Perm (Fin reps.length),
      (∀ r, IsQuotientRep G H S reps r → MovesEntries reps.length τ (r.mat g)) ∧
      (∀ r (ρ : Irrep El'), IsInducedRep G H S ρ reps r → MovesBlocks reps.length ρ.size τ (r.mat g)) := by
  have L := ok.lawG
  obtain ⟨τ, hinj, hτ⟩ := coset_perm ok T hg
  let e : Equiv.Perm (Fin reps.length) := Equiv.ofBijective τ (Finite.injective_iff_bijective.1 hinj)
  have he : ∀ i j, j = τ i ↔ i = e.symm j := fun i j => by
    rw [Equiv.eq_symm_apply]
    exact eq_comm
  refine ⟨e.symm, fun r hr j i => ?_, fun r ρ hr => ?_⟩
  · have := hr.mat g hg i i.2 j j.2
    rw [hτ i j, he] at this
    by_cases hj : i = e.symm j
    · rw [if_pos hj]; exact this.1 hj
    · rw [if_neg hj]; exact this.2 hj
  · have hel : ∀ i j : Fin reps.length, G.isEl (G.op (G.inv reps[(j : ℕ)]) (G.op g reps[(i : ℕ)])) := fun i j =>
      L.op_mem _ _ (L.inv_mem _ (T.mem _ (List.getElem_mem j.2))) (L.op_mem _ _ hg (T.mem _ (List.getElem_mem i.2)))
    have hsome : ∀ i j : Fin reps.length, (S.child (G.op (G.inv reps[(j : ℕ)]) (G.op g reps[(i : ℕ)]))).isSome ↔ i = e.symm j := by
      intro i j
      rw [child_isSome ok (hel i j), ← inCoset_iff ok (T.mem _ (List.getElem_mem j.2)) (L.op_mem _ _ hg (T.mem _ (List.getElem_mem i.2))), ← he]
      exact hτ i j
    refine ⟨fun j a b => match S.child (G.op (G.inv reps[(j : ℕ)]) (G.op g reps[(e.symm j : ℕ)])) with
      | none => 0
      | some h => ρ.mat h a b, ?_⟩
    intro j i a b
    rw [hr.mat g hg i i.2 j j.2 a b a.2 b.2]
    by_cases hij : i = e.symm j
    · rw [if_pos hij]
      subst hij
      rfl
    · rw [if_neg hij]
      have : S.child (G.op (G.inv reps[(j : ℕ)]) (G.op g reps[(i : ℕ)])) = none := by
        rw [← Option.not_isSome_iff_eq_none, hsome]
        exact hij
      simp only [this]

/-- **C55 fails when gates and gated fields belong to different subgroups of the same index**: the constructor accepts the quotient of `D_2` by its
rotations as gate and the quotient by a reflection as gated field (both support `induced_gate` and `induced_gated_1`), and the module does not
commute with the rotation by `π`. -/
theorem c55_gated_wrong (σ : ℝ → ℝ) (hσ : σ 0 ≠ σ 1) :
    ∃ (S1 S2 : SubData (ℤ × ℤ) ℤ) (ρ : Irrep ℤ) (r1 r2 : Repr (ℤ × ℤ)), Dihedral.subDataCyc 2 2 = some S1 ∧ Dihedral.subDataFlip 2 0 = some S2 ∧
      Cyclic.irrep 2 0 = some ρ ∧ Dihedral.inducedRepr 2 S1 ρ = some r1 ∧ Dihedral.inducedRepr 2 S2 ρ = some r2 ∧
      inducedGatedCheck (fun b : Bool => if b then r1.size else r2.size) (fun _ => true) (fun _ => [1]) [true, false] [true, false] = true ∧
      ∃ g, (Dihedral.grp 2).isEl g ∧ ∃ x : GTensor Bool (Unit → ℝ), x.WF (fun b => if b then r1.size else r2.size) ∧
        ∀ junk junk' : List (Unit → ℝ), junk.length = 2 → junk'.length = 2 →
        ∃ y y', inducedGated (fun b => if b then r1.size else r2.size) (fun _ => true) (fun _ => [1]) [true, false] [true, false] true σ [0] junk x
            = some y ∧
          inducedGated (fun b => if b then r1.size else r2.size) (fun _ => true) (fun _ => [1]) [true, false] [true, false] true σ [0] junk'
            (x.transform (fun b => if b then r1.size else r2.size) (fun b => if b then r1.mat g else r2.mat g) id) = some y' ∧
          y' ≠ y.transform (fun b => if b then r1.size else r2.size) (fun b => if b then r1.mat g else r2.mat g) id := by
  obtain ⟨S1, ρ, r1, a1, a2, a3, a4⟩ := c13_dihedral_quotient_cyclic 2 (by omega) 2 (by omega) (by norm_num)
  obtain ⟨S2, ρ', r2, b1, b2, b3, b4⟩ := c13_dihedral_quotient_flip 2 (by omega) 0 (by omega)
  rw [a2] at b2
  cases b2
  have ok1 := Dihedral.subData_ok_cyc (by omega) a1
  have ok2 := Dihedral.subData_ok_flip (by omega) b1
  have hp1 : S1.parent = (fun e : ℤ => ((0 : ℤ), e * ((1 : ℕ) : ℤ))) ∧ S1.els = Cyclic.elements 2 := by
    have hs := Dihedral.sub_cyc (M := 2) (Q := 1) (by omega)
    rw [Dihedral.subDataCyc, show (2 : ℕ) = 2 * 1 from rfl, hs] at a1
    cases a1
    exact ⟨rfl, rfl⟩
  have hp2 : S2.parent = (fun e : ℤ => (e, ((0 : ℕ) : ℤ) * e)) ∧ S2.els = Cyclic.elements 2 := by
    rw [Dihedral.subDataFlip, Dihedral.sub_flip (by omega)] at b1
    cases b1
    exact ⟨rfl, rfl⟩
  have hl1 : (cosetLoop (Dihedral.grp 2) (Dihedral.elements 2) S1).reps.length = 2 := by
    have := cosetLoop_card ok1
    rw [hp1.2, show (Cyclic.elements 2).length = 2 from rfl, show (Dihedral.elements 2).length = 4 from rfl] at this
    omega
  have hl2 : (cosetLoop (Dihedral.grp 2) (Dihedral.elements 2) S2).reps.length = 2 := by
    have := cosetLoop_card ok2
    rw [hp2.2, show (Cyclic.elements 2).length = 2 from rfl, show (Dihedral.elements 2).length = 4 from rfl] at this
    omega
  have hs1 : r1.size = 2 := a4.size.trans hl1
  have hs2 : r2.size = 2 := b4.size.trans hl2
  have hg : (Dihedral.grp 2).isEl (0, 1) := (ok1.mem _).1 (by simp [Dihedral.elements, List.range_succ])
  have hcases : ∀ e, (Dihedral.grp 2).isEl e → e = (0, 0) ∨ e = (0, 1) ∨ e = (1, 0) ∨ e = (1, 1) := by
    intro e he
    have := (ok1.mem e).2 he
    simpa [Dihedral.elements, List.range_succ] using this
  have hd1 : ∀ i : Fin 2, r1.mat (0, 1) i i = 1 := by
    intro i
    refine (a4.mat _ hg i (by rw [hl1]; exact i.2) i (by rw [hl1]; exact i.2)).1 ⟨1, (ok1.memH 1).1 (by simp [hp1.2, Cyclic.elements, List.range_succ]), ?_⟩
    rw [hp1.1]
    rcases hcases _ (a4.transversal.mem _ (List.getElem_mem (by rw [hl1]; exact i.2))) with h | h | h | h <;> rw [h] <;> decide
  have hd2 : ∀ i : Fin 2, r2.mat (0, 1) i i = 0 := by
    intro i
    refine (b4.mat _ hg i (by rw [hl2]; exact i.2) i (by rw [hl2]; exact i.2)).2 ?_
    rintro ⟨h, hh, e⟩
    rw [hp2.1] at e
    have e2 := congrArg Prod.snd e
    rcases hcases _ (b4.transversal.mem _ (List.getElem_mem (by rw [hl2]; exact i.2))) with h' | h' | h' | h' <;> rw [h'] at e2 <;>
      simp [Dihedral.grp, Dihedral.combine] at e2
  have hm1 : MovesEntries 2 1 (r1.mat (0, 1)) := by
    have h := c33_quotient_isPerm ok1 a4 hg
    rw [hs1] at h
    obtain ⟨τ, hτ⟩ := h
    intro i j
    have h1 : i = τ i := by
      by_contra hne
      have := hτ i i
      rw [if_neg hne, hd1] at this
      exact one_ne_zero this
    rw [hτ i j, ← h1]
    rfl
  obtain ⟨τ, hm2, hτ⟩ : ∃ τ : Equiv.Perm (Fin 2), MovesEntries 2 τ (r2.mat (0, 1)) ∧ τ 0 = 1 := by
    have h := c33_quotient_isPerm ok2 b4 hg
    rw [hs2] at h
    obtain ⟨τ, hτ⟩ := h
    refine ⟨τ, hτ, ?_⟩
    have h1 : τ 0 ≠ 0 := by
      intro h0
      have := hτ 0 0
      rw [if_pos h0.symm, hd2 0] at this
      exact zero_ne_one this
    omega
  refine ⟨S1, S2, ρ, r1, r2, a1, b1, a2, a3, b3, ?_, (0, 1), hg, ?_⟩
  · rw [hs1, hs2]; decide
  rw [hs1, hs2]
  generalize r1.mat (0, 1) = M1 at hm1
  generalize r2.mat (0, 1) = M2 at hm2
  clear * - hm1 hm2 hσ hτ
  let sz : Bool → ℕ := fun b => if b then 2 else 2
  let x : GTensor Bool (Unit → ℝ) := ⟨[true, false], [fun _ => 0, fun _ => 1, fun _ => 1, fun _ => 1]⟩
  have hx : x.WF sz := ⟨by simp [x], rfl⟩
  refine ⟨x, hx, fun junk junk' hj hj' => ?_⟩
  let ρ : Bool → Mat := fun b => if b then M1 else M2
  obtain ⟨ord, hord, hall⟩ := c55_gated_scalars (P := Unit) sz (fun _ => true) (fun _ => [1]) [true, false] (by simp) (by simp [sz])
    [true, false] true (by decide) σ [0]
  have hord : ord = [0] := List.perm_singleton.1 hord
  subst hord
  obtain ⟨y, h1, h2, h3, h4, h5, -⟩ := hall junk x hj hx rfl
  obtain ⟨y', h1', h2', h3', h4', h5', -⟩ := hall junk' (x.transform sz ρ id) hj' (transform_wf ρ id hx) rfl
  refine ⟨y, y', h1, h1', ?_⟩
  intro e
  have f0 : (x.fields sz)[0]? = some [fun _ => 0, fun _ => 1] := rfl
  have f1 : (x.fields sz)[1]? = some [fun _ => 1, fun _ => 1] := rfl
  have f0' := transform_fields_get sz ρ id x (c := 0) (r := true) rfl
  have f1' := transform_fields_get sz ρ id x (c := 1) (r := false) rfl
  rw [f0, Option.map_some] at f0'
  rw [f1, Option.map_some] at f1'
  have e1 := h5 0 0 1 0 false _ rfl rfl rfl rfl f0
  have e1' := h5' 0 0 1 0 false _ rfl rfl rfl rfl f0'
  rw [f1, Option.map_some] at e1
  rw [f1', Option.map_some] at e1'
  simp only [if_true] at e1 e1'
  have e2 := transform_fields_get sz ρ id y (c := 0) (r := false) (by rw [h3]; rfl)
  rw [← e, e1, e1', Option.map_some] at e2
  have e3 := congrArg (fun l : List (Unit → ℝ) => (l[0]?.getD (0 : Unit → ℝ)) ()) (Option.some.inj e2)
  rw [scaleSubfields_get] at e3
  have m1 := hm1.move id [fun _ => 0, fun _ => 1] 0 ()
  have m2 := hm2.move id [fun _ => 1, fun _ => 1] 0 ()
  have m3 := hm2.move id (scaleSubfields (subSize (fun _ : Bool => [1]) false) (subGateSpec σ [0] 0 [fun _ => 0, fun _ => 1])
    [fun _ => 1, fun _ => 1]) 0 ()
  rw [scaleSubfields_get] at m3
  rw [hτ] at m2 m3
  simp only [Fin.val_zero, Fin.val_one, Equiv.Perm.coe_one, id_eq] at m1 m2 m3
  have k1 : ((moveField (sz true) (ρ true) id [fun _ : Unit => (0 : ℝ), fun _ => 1])[0]?.getD (0 : Unit → ℝ)) () = 0 := by simpa [sz, ρ] using m1
  have k2 : ((moveField (sz false) (ρ false) id [fun _ : Unit => (1 : ℝ), fun _ => 1])[0]?.getD (0 : Unit → ℝ)) () = 1 := by simpa [sz, ρ] using m2
  rw [k2, subGateSpec, show (0 : ℕ) / subSize (fun _ : Bool => [1]) false = 0 by simp, k1] at e3
  refine hσ ?_
  have m3' := e3.trans m3
  simpa [subGateSpec, subSize] using m3'

/-- The type of one gate and one gated field of two subfields of size two. -/
example : inducedGatedCheck (fun b : Bool => if b then 2 else 4) (fun b => b) (fun b => if b then [1] else [2]) [true, false] [true, false]
    = true := by decide

end E2
