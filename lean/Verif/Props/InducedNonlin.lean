import Verif.Lemmas.InducedNonlin
import Verif.Props.Gated

/-!
# C55: the nonlinearities of induced representations
-/

set_option linter.unusedSectionVars false

namespace E2

open Mat

variable {P R : Type}

/-! ### Specification -/

/-- A field of subfields of size `s` with the subfield number `i` multiplied by the scalar `m i` at each position. -/
def scaleSubfields (s : ℕ) (m : ℕ → P → ℝ) (fld : List (P → ℝ)) : List (P → ℝ) := fld.mapIdx fun i v p => m (i / s) p * v p

/-- The subfield number `i` of size `s`. -/
def subfield (s : ℕ) (fld : List (P → ℝ)) (i : ℕ) : List (P → ℝ) := (fld.drop (i * s)).take s

/-- An array which moves the block `σ i` of size `s` to the place `i`, acting on it by an array. -/
def MovesBlocks (q s : ℕ) (σ : Equiv.Perm (Fin q)) (M : Mat) : Prop :=
  ∃ O : Fin q → Mat, ∀ (i j : Fin q) (a b : Fin s), M (i * s + a) (j * s + b) = if j = σ i then O i a b else 0

/-- An array which moves the entry `σ i` to the place `i`. -/
def MovesEntries (q : ℕ) (σ : Equiv.Perm (Fin q)) (M : Mat) : Prop := ∀ i j : Fin q, M i j = if j = σ i then 1 else 0

/-! ### Subfields and transformations -/

theorem scaleSubfields_get (s : ℕ) (m : ℕ → P → ℝ) (fld : List (P → ℝ)) (i : ℕ) (p : P) :
    (scaleSubfields s m fld)[i]?.getD 0 p = m (i / s) p * fld[i]?.getD 0 p := by
  rw [scaleSubfields, List.getElem?_mapIdx]
  cases fld[i]? <;> simp

theorem move_scaleSubfields {q s : ℕ} (hs : 0 < s) {σ : Equiv.Perm (Fin q)} {M : Mat} (hM : MovesBlocks q s σ M) (π : P → P)
    (m m' : ℕ → P → ℝ) (hm : ∀ (i : Fin q) p, m' i p = m (σ i) (π p)) (fld : List (P → ℝ)) :
    moveField (q * s) M π (scaleSubfields s m fld) = scaleSubfields s m' (moveField (q * s) M π fld) := by
  obtain ⟨O, hO⟩ := hM
  apply List.ext_getElem?
  intro c
  by_cases hc : c < q * s
  · have e1 : c < (moveField (q * s) M π (scaleSubfields s m fld)).length := by rw [moveField_length]; exact hc
    have e2 : c < (scaleSubfields s m' (moveField (q * s) M π fld)).length := by
      rw [scaleSubfields, List.length_mapIdx, moveField_length]; exact hc
    have key : ∀ p, (moveField (q * s) M π (scaleSubfields s m fld))[c]?.getD 0 p
        = (scaleSubfields s m' (moveField (q * s) M π fld))[c]?.getD 0 p := by
      intro p
      have hi : c / s < q := (Nat.div_lt_iff_lt_mul hs).2 hc
      have hcs : c = c / s * s + c % s := by rw [Nat.div_add_mod']
      rw [moveField_get _ _ _ _ hc, scaleSubfields_get, moveField_get _ _ _ _ hc, hm ⟨c / s, hi⟩ p, Finset.mul_sum]
      apply Finset.sum_congr rfl
      intro d hd
      rw [Finset.mem_range] at hd
      have hj : d / s < q := (Nat.div_lt_iff_lt_mul hs).2 hd
      have hds : d = d / s * s + d % s := by rw [Nat.div_add_mod']
      have := hO ⟨c / s, hi⟩ ⟨d / s, hj⟩ ⟨c % s, Nat.mod_lt _ hs⟩ ⟨d % s, Nat.mod_lt _ hs⟩
      dsimp only at this
      rw [← hcs, ← hds] at this
      rw [scaleSubfields_get, this]
      by_cases h : (⟨d / s, hj⟩ : Fin q) = σ ⟨c / s, hi⟩
      · rw [← h]; dsimp only; ring
      · rw [if_neg h]; ring
    rw [List.getElem?_eq_getElem e1, List.getElem?_eq_getElem e2] at key ⊢
    exact congrArg some (funext fun p => by simpa using key p)
  · rw [List.getElem?_eq_none (by rw [moveField_length]; omega),
      List.getElem?_eq_none (by rw [scaleSubfields, List.length_mapIdx, moveField_length]; omega)]

theorem IsBlockPerm.moves {q s : ℕ} {M : Mat} (h : IsBlockPerm q s M) : ∃ σ, MovesBlocks q s σ M ∧
    ∀ (π : P → P) (fld : List (P → ℝ)), fld.length = q * s → ∀ (i : Fin q) p,
      fieldNorm (subfield s (moveField (q * s) M π fld) i) p = fieldNorm (subfield s fld (σ i)) (π p) := by
  obtain ⟨σ, O, hO, hM⟩ := h
  exact ⟨σ, ⟨O, hM⟩, fun π fld hl i p => subfield_norm_move hO hM π hl i p⟩

/-! ### InducedNormNonLinearity -/

section
variable [DecidableEq R]

theorem inducedNormCheck_spec {sz : R → ℕ} {subs : R → List ℕ} {t : List R} (h : inducedNormCheck sz subs t = true) :
    ∀ r ∈ t, sz r % subSize subs r = 0 := by
  simp only [inducedNormCheck, List.all_eq_true, Bool.and_eq_true, beq_iff_eq] at h
  exact fun r hr => (h r hr).2

theorem sub_facts {sz : R → ℕ} {subs : R → List ℕ} {r : R} (hp : 0 < sz r) (hm : sz r % subSize subs r = 0) :
    0 < subSize subs r ∧ sz r / subSize subs r * subSize subs r = sz r ∧ 0 < sz r / subSize subs r := by
  have h1 : sz r / subSize subs r * subSize subs r = sz r := Nat.div_mul_cancel (Nat.dvd_of_mod_eq_zero hm)
  have h2 : 0 < subSize subs r := Nat.pos_of_ne_zero fun e => by rw [e, mul_zero] at h1; omega
  refine ⟨h2, h1, Nat.pos_of_ne_zero fun e => by rw [e, zero_mul] at h1; omega⟩

/-- **C55, norm**: when the constructor accepts the type there is a bijection `ord` between the biases and the fields such that in the field
`ord[j]` each subfield is multiplied by one scalar: zero where the norm of the subfield is not above `eps`, else `f (norm - bias j) / norm`. -/
theorem c55_norm_scalars (sz : R → ℕ) (subs : R → List ℕ) (t : List R) (ht : t ≠ []) (hpos : ∀ r ∈ t, 0 < sz r)
    (hcheck : inducedNormCheck sz subs t = true) (f : ℝ → ℝ) (eps : ℝ) (bias : List ℝ) :
    ∃ ord : List ℕ, ord.Perm (List.range t.length) ∧ ∀ (junk : List (P → ℝ)) (x : GTensor R (P → ℝ)), junk.length = typeSize sz t → x.WF sz →
      x.ty = t → ∃ y, inducedNorm sz subs t f eps bias junk x = some y ∧ y.WF sz ∧ y.ty = t ∧
        ∀ (j c : ℕ) r, ord[j]? = some c → t[c]? = some r → (y.fields sz)[c]? = ((x.fields sz)[c]?).map fun fld =>
          scaleSubfields (subSize subs r) (fun i p => if fieldNorm (subfield (subSize subs r) fld i) p ≤ eps then 0
            else f (fieldNorm (subfield (subSize subs r) fld i) p - bias[j]?.getD 0) / fieldNorm (subfield (subSize subs r) fld i) p) fld := by
  have hmod := inducedNormCheck_spec hcheck
  set ids := t.map fun r => (sz r, subSize subs r) with hids
  refine ⟨fieldOrder ids (sortedPairs ids), ?_, ?_⟩
  · have := fieldOrder_perm ids (sortedPairs ids) (sortedPairs_nodup _) fun l hl => (mem_sortedPairs _ _).2 hl
    rwa [hids, List.length_map] at this
  · intro junk x hj hx hxt
    subst hxt
    have hlen : ids.length = (x.ty.map sz).length := by simp [hids]
    have hpos' := type_sizes sz hpos
    have hget : ∀ (c : ℕ) l, ids[c]? = some l → ∃ r, x.ty[c]? = some r ∧ l = (sz r, subSize subs r) := by
      intro c l h
      rw [hids, List.getElem?_map] at h
      obtain ⟨r, hr, e⟩ := Option.map_eq_some_iff.1 h
      exact ⟨r, hr, e.symm⟩
    have hmem : ∀ l ∈ sortedPairs ids, ∃ r ∈ x.ty, l = (sz r, subSize subs r) := by
      intro l hl
      rw [mem_sortedPairs, hids, List.mem_map] at hl
      obtain ⟨r, hr, e⟩ := hl
      exact ⟨r, hr, e.symm⟩
    have hsi : ∀ (c : ℕ) l, ids[c]? = some l → (x.ty.map sz)[c]? = some l.1 := by
      intro c l h
      obtain ⟨r, hr, rfl⟩ := hget c l h
      rw [List.getElem?_map, hr]; rfl
    have hflag : ∀ l ∈ sortedPairs ids, FlagOk ((contigFlags ids l).getD false) (labelChannels ids (x.ty.map sz) l) := by
      intro l hl
      have e : labelChannels ids (x.ty.map sz) l = chanIdx (x.ty.map sz) (posOf ids l) := (labelIdx_eq ids _ hlen l).1
      rw [e]
      cases hc : contigFlags ids l with
      | none => exact absurd ((mem_sortedPairs _ _).1 hl) ((((contigFlags_spec ids).2 l).1).1 hc)
      | some b => exact (flagOk_contig ids (x.ty.map sz) hlen hpos' l b hc).1
    let ψ : ℕ × ℕ → ℕ → List (P → ℝ) → List (P → ℝ) := fun l m fld => List.replicate l.2 fun p =>
      normMultiplier f eps (bias[m / (l.1 / l.2)]?.getD 0) (fieldNorm fld p)
    have hψ : ∀ (l : ℕ × ℕ) k fld, fld.length = l.2 → (ψ l k fld).length = l.2 := fun l k fld _ => by simp [ψ]
    obtain ⟨m, h1, h2, h3⟩ := fieldLoop_spec x.data ids (x.ty.map sz) (x.ty.map sz) hx.2 hlen hlen
      (fun l => (contigFlags ids l).getD false) (fun l => l.1) (fun l => l.1)
      (fun l k fld => eachField l.2 (ψ l) (k * (l.1 / l.2)) fld) (sortedPairs ids) (sortedPairs_nodup _)
      (fun l hl => by obtain ⟨r, hr, rfl⟩ := hmem l hl; exact hpos r hr) hsi hsi hflag hflag
      (fun l hl k fld hf => by
        obtain ⟨r, hr, rfl⟩ := hmem l hl
        obtain ⟨a1, a2, a3⟩ := sub_facts (hpos r hr) (hmod r hr)
        dsimp only at hf ⊢
        rw [(eachField_get _ a1 _ (hψ (sz r, subSize subs r)) (sz r / subSize subs r) _ fld (by rw [hf, a2])).1, a2]) junk hj
    have hloop := fieldLoop_congr x.data (fun l => (contigFlags ids l).getD false) (labelChannels ids (x.ty.map sz))
      (labelChannels ids (x.ty.map sz)) (labelCount ids) (fun l next => eachField l.2 (ψ l) (next * (l.1 / l.2)))
      (fun l => eachField l.1 fun k fld => eachField l.2 (ψ l) (k * (l.1 / l.2)) fld) (sortedPairs ids) (by
        intro l hl next g hg
        have hf := hflag l hl
        have e : labelChannels ids (x.ty.map sz) l = chanIdx (x.ty.map sz) (posOf ids l) := (labelIdx_eq ids _ hlen l).1
        rw [e] at hf hg
        have hgl := readGroup_length hx.2 (fun c hc => hsi c l (mem_posOf.1 hc)) hf hg
        obtain ⟨r, hr, rfl⟩ := hmem l hl
        obtain ⟨a1, a2, a3⟩ := sub_facts (hpos r hr) (hmod r hr)
        dsimp only at hgl ⊢
        have := eachField_sub (subSize subs r) (sz r / subSize subs r) a1 a3 (ψ (sz r, subSize subs r)) _ next g (by rw [a2]; exact hgl)
        rw [this, a2]) 0 junk
    have hl : (List.zipWith (· * ·) x.data m).length = typeSize sz x.ty := by
      rw [List.length_zipWith, h2, hx.2]; exact min_self _
    refine ⟨⟨x.ty, List.zipWith (· * ·) x.data m⟩, ?_, ⟨ht, hl⟩, rfl, ?_⟩
    · rw [inducedNorm, if_pos hcheck, if_pos rfl]
      dsimp only
      rw [← hids]
      rw [h1] at hloop
      rw [hloop]
      dsimp only
      rw [mkGT, if_pos hl]
    · intro j c r hc hr
      obtain ⟨l, hl', h4⟩ := h3 j c hc
      obtain ⟨r', hr', rfl⟩ := hget c l hl'
      rw [hr] at hr'
      cases hr'
      obtain ⟨a1, a2, a3⟩ := sub_facts (hpos r (List.mem_of_getElem? hr)) (hmod r (List.mem_of_getElem? hr))
      rw [GTensor.fields, chunks_zipWith, List.getElem?_zipWith]
      dsimp only
      rw [h4]
      rcases hf : (chunks (x.ty.map sz) x.data)[c]? with _ | fld
      · simp [GTensor.fields, hf]
      · have hfl : fld.length = sz r := field_length hx hr (by rw [GTensor.fields]; exact hf)
        simp only [GTensor.fields, hf, Option.map_some]
        congr 1
        obtain ⟨g1, g2⟩ := eachField_get _ a1 _ (hψ (sz r, subSize subs r)) (sz r / subSize subs r) (j * (sz r / subSize subs r)) fld
          (by rw [hfl, a2])
        apply List.ext_getElem?
        intro i
        rw [scaleSubfields, List.getElem?_mapIdx, List.getElem?_zipWith]
        by_cases hi : i < sz r
        · have hi2 : i / subSize subs r < sz r / subSize subs r := (Nat.div_lt_iff_lt_mul a1).2 (by rw [a2]; exact hi)
          rw [g2 i (by rw [a2]; exact hi), List.getElem?_eq_getElem (by rw [hfl]; exact hi)]
          simp only [ψ, Option.map_some]
          rw [List.getElem?_replicate, if_pos (Nat.mod_lt _ a1)]
          simp only
          have hb : (j * (sz r / subSize subs r) + i / subSize subs r) / (sz r / subSize subs r) = j := by
            rw [add_comm, Nat.add_mul_div_right _ _ a3, Nat.div_eq_of_lt hi2, zero_add]
          rw [hb]
          congr 1
          funext p
          rw [Pi.mul_apply, mul_comm, normMultiplier, subfield]
          by_cases he : fieldNorm ((fld.drop (i / subSize subs r * subSize subs r)).take (subSize subs r)) p ≤ eps
          · simp [he]
          · rw [if_neg he, if_neg he, max_eq_left (le_of_lt (not_le.1 he))]
        · rw [List.getElem?_eq_none (l := fld) (by omega)]
          rfl

/-- **C55, norm**: the module commutes with all transformations which permute the subfields and act on them by orthogonal matrices. -/
theorem c55_norm_equivariant (sz : R → ℕ) (subs : R → List ℕ) (t : List R) (hpos : ∀ r ∈ t, 0 < sz r)
    (hcheck : inducedNormCheck sz subs t = true) (f : ℝ → ℝ) (eps : ℝ) (bias : List ℝ) (ρ : R → Mat)
    (hρ : ∀ r ∈ t, IsBlockPerm (sz r / subSize subs r) (subSize subs r) (ρ r)) (π : P → P) (junk junk' : List (P → ℝ))
    (hj : junk.length = typeSize sz t) (hj' : junk'.length = typeSize sz t) (x : GTensor R (P → ℝ)) (hx : x.WF sz) (hxt : x.ty = t) :
    ∃ y, inducedNorm sz subs t f eps bias junk x = some y ∧
      inducedNorm sz subs t f eps bias junk' (x.transform sz ρ π) = some (y.transform sz ρ π) := by
  obtain ⟨ord, hord, hall⟩ := c55_norm_scalars (P := P) sz subs t (hxt ▸ hx.1) hpos hcheck f eps bias
  obtain ⟨y, h1, h2, h3, h4⟩ := hall junk x hj hx hxt
  obtain ⟨y', h1', h2', h3', h4'⟩ := hall junk' (x.transform sz ρ π) hj' (transform_wf ρ π hx) hxt
  refine ⟨y, h1, ?_⟩
  rw [h1']
  congr 1
  refine transform_of_fields h2 h2' (h3'.trans h3.symm) ?_
  intro c r hr
  have hc : c < t.length := by rw [← h3]; exact (List.getElem?_eq_some_iff.1 hr).1
  obtain ⟨j, hj⟩ := List.mem_iff_getElem?.1 (hord.mem_iff.2 (List.mem_range.2 hc))
  have hrt : t[c]? = some r := by rw [← h3]; exact hr
  have hr' : x.ty[c]? = some r := by rw [hxt]; exact hrt
  have hrm := List.mem_of_getElem? hrt
  obtain ⟨fld, hf⟩ := field_exists (sz := sz) hr'
  have hlen := field_length hx hr' hf
  obtain ⟨a1, a2, a3⟩ := sub_facts (hpos r hrm) (inducedNormCheck_spec hcheck r hrm)
  obtain ⟨σ, hσ, hn⟩ := (hρ r hrm).moves (P := P)
  rw [h4' j c r hj hrt, h4 j c r hj hrt, transform_fields_get sz ρ π x hr', hf]
  simp only [Option.map_some]
  congr 1
  have hm := fun m m' hm => move_scaleSubfields a1 hσ π m m' hm fld
  rw [a2] at hm
  refine (hm _ _ ?_).symm
  intro i p
  have := hn π fld (by rw [hlen, a2]) i p
  rw [a2] at this
  simp only [this]

/-- Two kinds of fields: three subfields of size two, and two subfields of size one; the permutations of `c33_quotient_isPerm` and the matrices of
`c36_induced_isBlockPerm` meet the hypothesis on the transformation. -/
example : inducedNormCheck (fun b : Bool => if b then 6 else 2) (fun b => if b then [2] else [1]) [true, false, true] = true ∧
    ∀ M, IsPerm 2 M → IsBlockPerm (2 / 1) 1 M := ⟨by decide, fun _ h => h.isBlockPerm⟩

/-! ### InducedGatedNonLinearity1 -/

/-- The value of the channel `i` of the gate number `j`, which is the field `gfld`. -/
def subGateSpec (σ : ℝ → ℝ) (bias : List ℝ) (j : ℕ) (gfld : List (P → ℝ)) (i : ℕ) : P → ℝ :=
  fun p => σ (gfld[i]?.getD 0 p - bias[j]?.getD 0)

theorem inducedGatedCheck_spec {sz : R → ℕ} {gate : R → Bool} {subs : R → List ℕ} {t : List R} {gates : List Bool}
    (h : inducedGatedCheck sz gate subs t gates = true) : gates.length = t.length ∧ gates.count true = gates.count false ∧
      (∀ (c : ℕ) r, gates[c]? = some true → t[c]? = some r → gate r = true ∧ sz r = quotientSize sz t gates) ∧
      (∀ (c : ℕ) r, gates[c]? = some false → t[c]? = some r → sz r % subSize subs r = 0 ∧ sz r / subSize subs r = quotientSize sz t gates) := by
  simp only [inducedGatedCheck, Bool.and_eq_true, List.all_eq_true, beq_iff_eq] at h
  obtain ⟨⟨⟨c1, c2⟩, c3⟩, c4⟩ := h
  have hz : ∀ (b : Bool) (c : ℕ) r, gates[c]? = some b → t[c]? = some r → (b, r) ∈ gates.zip t := fun b c r h1 h2 =>
    List.mem_of_getElem? (i := c) (List.getElem?_zip_eq_some.2 ⟨h1, h2⟩)
  refine ⟨c1, c3, fun c r h1 h2 => ?_, fun c r h1 h2 => ?_⟩
  · have e1 := c2 _ (hz _ c r h1 h2)
    have e2 := c4 _ (hz _ c r h1 h2)
    simp only [if_true, beq_iff_eq] at e1 e2
    exact ⟨e1, e2⟩
  · have e2 := c4 _ (hz _ c r h1 h2)
    simp only [Bool.false_eq_true, if_false, Bool.and_eq_true, beq_iff_eq] at e2
    exact e2

theorem inducedGatedLabels_get (sz : R → ℕ) (subs : R → List ℕ) (t : List R) (gates : List Bool) {c : ℕ} {s : ℕ × ℕ}
    (h : (inducedGatedLabels sz subs t gates)[c]? = some (some s)) :
    ∃ r, gates[c]? = some false ∧ t[c]? = some r ∧ s = (sz r, subSize subs r) := by
  rw [inducedGatedLabels, List.getElem?_zipWith] at h
  rcases h1 : gates[c]? with _ | g
  · rw [h1] at h; simp at h
  · rcases h2 : t[c]? with _ | r
    · rw [h1, h2] at h; simp at h
    · rw [h1, h2] at h
      cases g <;> simp at h ⊢
      exact h.symm

/-- **C55, gated**: when the constructor accepts the type and the list of gates, there is a bijection `ord` between the gates and the gated fields
such that in the gated field number `ord[j]` the subfield `i` is multiplied by the value of the channel `i` of the gate `j`; when the gates are
not dropped they are replaced by their values. -/
theorem c55_gated_scalars (sz : R → ℕ) (gate : R → Bool) (subs : R → List ℕ) (t : List R) (ht : t ≠ [])
    (hpos : ∀ r ∈ t, 0 < sz r) (gates : List Bool) (drop : Bool) (hcheck : inducedGatedCheck sz gate subs t gates = true) (σ : ℝ → ℝ)
    (bias : List ℝ) :
    ∃ ord : List ℕ, ord.Perm (List.range (gates.count false)) ∧ ∀ (junk : List (P → ℝ)) (x : GTensor R (P → ℝ)),
      junk.length = typeSize sz (gated1Out t gates drop) → x.WF sz → x.ty = t →
      ∃ y, inducedGated sz gate subs t gates drop σ bias junk x = some y ∧ y.WF sz ∧ y.ty = gated1Out t gates drop ∧
        (∀ i c : ℕ, (posOf gates false)[i]? = some c → y.ty[if drop then i else c]? = t[c]?) ∧
        (∀ (j i c d : ℕ) r gfld, ord[j]? = some i → (posOf gates false)[i]? = some c → (posOf gates true)[j]? = some d → t[c]? = some r →
          (x.fields sz)[d]? = some gfld → (y.fields sz)[if drop then i else c]? =
            ((x.fields sz)[c]?).map (scaleSubfields (subSize subs r) (subGateSpec σ bias j gfld))) ∧
        (drop = false → ∀ (j d : ℕ) gfld, (posOf gates true)[j]? = some d → (x.fields sz)[d]? = some gfld →
          (y.fields sz)[d]? = some ((List.range gfld.length).map (subGateSpec σ bias j gfld))) := by
  obtain ⟨c1, c3, hg, hgd⟩ := inducedGatedCheck_spec hcheck
  obtain ⟨ez1, ez2⟩ := gated1_zip c1
  set q := quotientSize sz t gates with hq
  let key : R → ℕ × ℕ := fun r => (sz r, subSize subs r)
  set labels := inducedGatedLabels sz subs t gates with hlab
  set dl := (gated1Out t gates true).map (fun r => some (key r)) with hdl
  set F : ℕ → ℕ := fun i => (posOf gates false)[i]?.getD 0 with hF
  have hlz : labels = (gates.zip t).map (keyLab key) := by
    rw [hlab, inducedGatedLabels, List.zip, List.map_zipWith]; rfl
  have hdl' : dl = ((gates.zip t).filter fun p => !p.1).map (fun p => some (key p.2)) := by
    rw [hdl, gated1Out, if_pos rfl, List.map_map]; rfl
  have hgl : (posOf gates false).length = dl.length := by
    have := posOf_false_length (gates.zip t)
    rw [← ez1] at this
    rw [this, hdl', List.length_map]
  have hcf : dl.length = gates.count false := by rw [← hgl, posOf_length_eq]; rfl
  have L1 : posOf labels none = posOf gates true := by
    rw [hlz, posOf_keyLab_none, ← ez1]
  have L2 : ∀ s, posOf labels (some s) = (posOf dl (some s)).map F := by
    intro s
    rw [hlz, posOf_keyLab_some, ← ez1, hdl, gated1Out, if_pos rfl]
  have hll : labels.length = t.length := by rw [hlab, inducedGatedLabels, List.length_zipWith]; omega
  set order := inducedGatedOrder sz subs t gates with horder
  have hon : order.Nodup := by
    rw [horder, inducedGatedOrder]
    exact (sortedPairs_nodup _).map (fun a b h => Option.some.inj h)
  have hom : ∀ l, l ∈ order ↔ l ∈ dl := by
    intro l
    rw [horder, inducedGatedOrder, List.mem_map, hdl]
    constructor
    · rintro ⟨s, hs, rfl⟩
      rw [mem_sortedPairs, List.mem_map] at hs
      obtain ⟨r, hr, rfl⟩ := hs
      exact List.mem_map.2 ⟨r, hr, rfl⟩
    · intro h
      obtain ⟨r, hr, rfl⟩ := List.mem_map.1 h
      exact ⟨key r, (mem_sortedPairs _ _).2 (List.mem_map.2 ⟨r, hr, rfl⟩), rfl⟩
  have hos : ∀ l ∈ order, ∃ s, l = some s := by
    intro l hl
    obtain ⟨r, -, rfl⟩ := List.mem_map.1 ((hom l).1 hl)
    exact ⟨_, rfl⟩
  have hP : order.flatMap (posOf labels) = (fieldOrder dl order).map F := by
    rw [fieldOrder, List.map_flatMap]
    apply List.flatMap_congr
    intro l hl
    obtain ⟨s, rfl⟩ := hos l hl
    exact L2 s
  have hmemz : ∀ r ∈ gated1Out t gates true, ∃ c : ℕ, gates[c]? = some false ∧ t[c]? = some r := by
    intro r hr
    rw [gated1Out, if_pos rfl, List.mem_map] at hr
    obtain ⟨p, hp, rfl⟩ := hr
    obtain ⟨hp1, hp2⟩ := List.mem_filter.1 hp
    obtain ⟨c, hc⟩ := List.mem_iff_getElem?.1 hp1
    rw [List.getElem?_zip_eq_some] at hc
    refine ⟨c, ?_, hc.2⟩
    rw [hc.1]
    simpa using hp2
  have hmemt : ∀ r ∈ gated1Out t gates true, r ∈ t := fun r hr => by
    obtain ⟨c, -, h⟩ := hmemz r hr
    exact List.mem_of_getElem? h
  have hkey : ∀ l ∈ order, ∃ r, l = some (sz r, subSize subs r) ∧ 0 < subSize subs r ∧ q * subSize subs r = sz r ∧ 0 < q ∧ 0 < sz r := by
    intro l hl
    obtain ⟨r, hr, rfl⟩ := List.mem_map.1 ((hom l).1 hl)
    obtain ⟨c, h1, h2⟩ := hmemz r hr
    obtain ⟨e1, e2⟩ := hgd c r h1 h2
    obtain ⟨a1, a2, a3⟩ := sub_facts (hpos r (hmemt r hr)) e1
    rw [e2] at a2 a3
    exact ⟨r, rfl, a1, a2, a3, hpos r (hmemt r hr)⟩
  have hord : (fieldOrder dl order).Perm (List.range (gates.count false)) := by
    rw [← hcf]; exact fieldOrder_perm dl order hon fun l hl => (hom l).2 hl
  refine ⟨fieldOrder dl order, hord, ?_⟩
  intro junk x hj hx hxt
  subst hxt
  set outType := gated1Out x.ty gates drop with hot
  set outLabels := inducedGatedOutLabels sz subs x.ty gates drop with hol
  have hposi : ∀ s ∈ x.ty.map sz, 0 < s := type_sizes sz hpos
  have hposo : ∀ s ∈ outType.map sz, 0 < s := by
    apply type_sizes
    intro r hr
    cases drop with
    | true => exact hpos r (hmemt r hr)
    | false => exact hpos r hr
  have hlo : outLabels.length = (outType.map sz).length := by
    rw [hol, inducedGatedOutLabels, hot]
    cases drop
    · simp [← hlab, hll, gated1Out]
    · simp
  have hoL : outLabels = if drop then dl else labels := by
    rw [hol, inducedGatedOutLabels]
    cases drop <;> rfl
  have hflag : ∀ l, l ∈ labels → FlagOk ((contigFlags labels l).getD false) (chanIdx (x.ty.map sz) (posOf labels l)) ∧
      FlagOk ((contigFlags labels l).getD false) (posOf labels l) := by
    intro l hl
    rcases h : contigFlags labels l with _ | b
    · exact absurd hl (((contigFlags_spec labels).2 l).1.1 h)
    · exact flagOk_contig labels (x.ty.map sz) (by rw [hll, List.length_map]) hposi l b h
  have hol' : ∀ l ∈ order, l ∈ labels := by
    intro l hl
    obtain ⟨s, rfl⟩ := hos l hl
    obtain ⟨i, hi⟩ := List.mem_iff_getElem?.1 ((hom _).1 hl)
    have h1 : i ∈ posOf dl (some s) := mem_posOf.2 hi
    have h2 : F i ∈ posOf labels (some s) := by rw [L2]; exact List.mem_map_of_mem h1
    exact List.mem_of_getElem? (mem_posOf.1 h2)
  have hcount : 0 < gates.count true := by
    have h1 : gates.count true + gates.count false = gates.length := by
      clear * -
      induction gates with
      | nil => rfl
      | cons b gates ih => cases b <;> simp <;> omega
    have h2 : 0 < gates.length := by rw [c1]; exact List.length_pos_of_ne_nil ht
    omega
  have hnone : none ∈ labels := by
    have h1 : 0 < (posOf labels none).length := by rw [L1, posOf_length_eq]; exact hcount
    obtain ⟨i, hi⟩ := List.exists_mem_of_length_pos h1
    exact List.mem_of_getElem? (mem_posOf.1 hi)
  have hglt : ∀ c ∈ posOf gates true, c < (x.ty.map sz).length := fun c hc => by rw [List.length_map, ← c1]; exact posOf_lt hc
  have hgq : ∀ c ∈ posOf gates true, (x.ty.map sz)[c]? = some q := by
    intro c hc
    have h2 : c < x.ty.length := by rw [← c1]; exact posOf_lt hc
    rw [List.getElem?_map, List.getElem?_eq_getElem h2, Option.map_some, (hg c _ (mem_posOf.1 hc) (List.getElem?_eq_getElem h2)).2]
  have hq0 : 0 < q := by
    have h1 : 0 < (posOf gates true).length := by rw [posOf_length_eq]; exact hcount
    obtain ⟨c, hc⟩ := List.exists_mem_of_length_pos h1
    exact hposi q (List.mem_of_getElem? (hgq c hc))
  -- the gates
  obtain ⟨g, hg1, hg2, hg3⟩ := chunks_gather (x.ty.map sz) x.data hx.2 (posOf gates true) hglt
  have hgsz : (posOf gates true).map (fun c => (x.ty.map sz)[c]?.getD 0) = List.replicate (posOf gates true).length q := by
    rw [List.eq_replicate_iff]
    refine ⟨by simp, fun b hb => ?_⟩
    obtain ⟨c, hc, rfl⟩ := List.mem_map.1 hb
    rw [hgq c hc]; rfl
  rw [hgsz] at hg2 hg3
  have hgln : (posOf gates true).length = gates.count true := posOf_length_eq _ _
  have hglen : g.length = gates.count true * q := by rw [hg3, hgln]; simp
  have hgc : ∀ (j d : ℕ) gfld, (posOf gates true)[j]? = some d → (x.fields sz)[d]? = some gfld →
      (g.drop (j * q)).take q = gfld ∧ j < gates.count true := by
    intro j d gfld hd hgf
    have hjl : j < (posOf gates true).length := (List.getElem?_eq_some_iff.1 hd).1
    have h1 := congrArg (·[j]?) ((gather_some_iff _ _ _).1 hg2)
    simp only [List.getElem?_map, hd, Option.map_some] at h1
    rw [subfield_get hjl, Option.map_some] at h1
    rw [GTensor.fields] at hgf
    rw [hgf] at h1
    exact ⟨by simpa using h1.symm, by rw [← hgln]; exact hjl⟩
  have hread : readGroup x.data ((contigFlags labels none).getD false) (labelChannels labels (x.ty.map sz) none) = some g := by
    have e : labelChannels labels (x.ty.map sz) none = chanIdx (x.ty.map sz) (posOf labels none) :=
      (labelIdx_eq labels (x.ty.map sz) (by rw [hll, List.length_map]) none).1
    rw [e, readGroup_ok (hflag none hnone).1, L1, hg1]
    intro i hi
    rw [L1] at hi
    rw [hx.2]
    exact chanIdx_lt _ _ hglt i hi
  set gv := inducedGateValues σ bias q g with hgv
  have hgvl : gv.length = gates.count true * q := by rw [hgv, inducedGateValues, List.length_mapIdx, hglen]
  have hgvget : ∀ (j d : ℕ) gfld, (posOf gates true)[j]? = some d → (x.fields sz)[d]? = some gfld → ∀ i < q,
      gv[j * q + i]? = some (subGateSpec σ bias j gfld i) := by
    intro j d gfld hd hgf i hi
    obtain ⟨h1, h2⟩ := hgc j d gfld hd hgf
    have hlt : j * q + i < g.length := by
      rw [hglen]
      have : (j + 1) * q ≤ gates.count true * q := Nat.mul_le_mul_right _ h2
      rw [Nat.succ_mul] at this
      omega
    have hb : (j * q + i) / q = j := by rw [add_comm, Nat.add_mul_div_right _ _ hq0, Nat.div_eq_of_lt hi, zero_add]
    have he : gfld[i]?.getD 0 = g[j * q + i] := by
      rw [← h1, List.getElem?_take_of_lt hi, List.getElem?_drop, List.getElem?_eq_getElem hlt]; rfl
    rw [hgv, inducedGateValues, List.getElem?_mapIdx, List.getElem?_eq_getElem hlt, Option.map_some, hb]
    congr 1
    funext p
    rw [subGateSpec, he]
  -- the first write
  obtain ⟨out, hw, houtl, houtg⟩ : ∃ out, (if drop then some junk else writeGroup junk ((contigFlags labels none).getD false)
      (labelChannels labels (x.ty.map sz) none) gv) = some out ∧ out.length = (outType.map sz).sum ∧
      (drop = false → ∀ j c : ℕ, (posOf gates true)[j]? = some c → (chunks (outType.map sz) out)[c]? = some ((gv.drop (j * q)).take q)) := by
    cases drop with
    | true => exact ⟨junk, rfl, hj, by simp⟩
    | false =>
      have e : labelChannels labels (x.ty.map sz) none = chanIdx (x.ty.map sz) (posOf gates true) := by
        rw [← L1]; exact (labelIdx_eq labels (x.ty.map sz) (by rw [hll, List.length_map]) none).1
      have hfl := (hflag none hnone).1
      rw [L1] at hfl
      have hj : junk.length = (x.ty.map sz).sum := hj
      have hgvs : gv.length = (List.replicate (posOf gates true).length q).sum := by rw [hgvl, hgln]; simp
      have hsing : (chunks (List.replicate (posOf gates true).length q) gv).map List.length
          = (posOf gates true).map fun c => (x.ty.map sz)[c]?.getD 0 := by
        rw [hgsz]; exact chunks_map_length _ _ hgvs
      have hflat : (chunks (List.replicate (posOf gates true).length q) gv).flatten = gv := chunks_flatten _ _ hgvs
      have hgl2 : gv.length = (chanIdx (x.ty.map sz) (posOf gates true)).length := by
        conv_lhs => rw [← hflat, List.length_flatten, hsing]
        rw [chanIdx, List.length_flatMap]
        simp
      refine ⟨writeIdx junk (chanIdx (x.ty.map sz) (posOf gates true)) gv, ?_, ?_, ?_⟩
      · rw [if_neg (by simp), e]
        exact writeGroup_ok hfl (fun i hi => by rw [hj]; exact chanIdx_lt _ _ hglt i hi) hgl2
      · rw [writeIdx_length]; exact hj
      · intro _ j c hc
        change (chunks (x.ty.map sz) _)[c]? = _
        conv_lhs => rw [← hflat]
        rw [chunks_writeIdx _ junk hj _ hglt _ hsing, writeIdx_get _ _ _ (posOf_nodup _ _) _ _ c, if_pos (List.mem_of_getElem? hc)]
        · obtain ⟨hjl, rfl⟩ := List.getElem?_eq_some_iff.1 hc
          rw [(posOf_nodup gates true).idxOf_getElem j hjl, subfield_get hjl]
        · rw [chunks_length, List.length_replicate]
        · intro i hi; rw [chunks_length]; exact hglt i hi
  -- the loop
  have hfo : ∀ l ∈ order, FlagOk ((contigFlags labels l).getD false) (chanIdx (outType.map sz) (posOf outLabels l)) := by
    intro l hl
    cases drop with
    | false => rw [hoL]; exact (hflag l (hol' l hl)).1
    | true =>
      rw [hoL, if_pos rfl]
      intro hb
      obtain ⟨s, rfl⟩ := hos l hl
      obtain ⟨a, n, h1⟩ := (hflag _ (hol' _ hl)).2 hb
      rw [L2] at h1
      obtain ⟨b, hb'⟩ := range'_of_map (m := dl.length) (fun i j hij hj => posOf_mono gates false i j hij (by rw [hgl]; exact hj))
        (posOf dl (some s)) (posOf_pairwise _ _) (fun i hi => posOf_lt hi) a n h1
      rw [hb']
      refine flagOk_chanIdx _ hposo b n ?_
      have : b + n ∈ posOf dl (some s) := by rw [hb', List.mem_range'_1]; omega
      have := posOf_lt this
      rw [hdl, List.length_map] at this
      rw [List.length_map]; exact this
  have hQ : order.flatMap (posOf outLabels) = if drop then fieldOrder dl order else (fieldOrder dl order).map F := by
    rw [hoL]
    cases drop with
    | true => rfl
    | false => exact hP
  have hpin : ∀ l ∈ order, ∀ c ∈ posOf labels l, (x.ty.map sz)[c]? = some (l.getD (0, 0)).1 := by
    intro l hl c hc
    obtain ⟨s, rfl⟩ := hos l hl
    obtain ⟨r, -, hr, rfl⟩ := inducedGatedLabels_get sz subs x.ty gates (mem_posOf.1 hc)
    rw [List.getElem?_map, hr]; rfl
  let φ : Option (ℕ × ℕ) → ℕ → List (P → ℝ) → List (P → ℝ) := fun l k fld =>
    eachField (l.getD (0, 0)).2 (fun m fld => fld.map (· * gv[m]?.getD 0)) (k * q) fld
  have hφ0 : ∀ (s k : ℕ) (fld : List (P → ℝ)), fld.length = s → (List.map (· * gv[k]?.getD 0) fld).length = s := fun s k fld h => by rw [List.length_map]; exact h
  have hlenpo : ∀ l ∈ order, (posOf labels l).length = (posOf outLabels l).length := by
    intro l hl
    obtain ⟨s, rfl⟩ := hos l hl
    rw [hoL]
    cases drop with
    | false => rfl
    | true => rw [L2, List.length_map]; rfl
  obtain ⟨y, h1, h2, h3, h4⟩ := fieldLoop_vals x.data (x.ty.map sz) (outType.map sz) hx.2 (fun l => (contigFlags labels l).getD false)
    (posOf labels) (posOf outLabels) (fun l => (l.getD (0, 0)).1) (fun l => (l.getD (0, 0)).1) φ order
    (by
      intro l hl
      obtain ⟨r, rfl, -, -, -, h⟩ := hkey l hl
      exact h)
    hpin
    (by
      intro l hl c hc
      obtain ⟨s, rfl⟩ := hos l hl
      have h := mem_posOf.1 hc
      rw [hoL] at h
      cases drop with
      | false =>
        obtain ⟨r, -, hr, rfl⟩ := inducedGatedLabels_get sz subs x.ty gates h
        rw [List.getElem?_map]
        change Option.map sz x.ty[c]? = _
        rw [hr]; rfl
      | true =>
        rw [if_pos rfl, hdl, List.getElem?_map, Option.map_eq_some_iff] at h
        obtain ⟨r, hr, hs⟩ := h
        cases hs
        rw [hot, List.getElem?_map, hr]
        rfl)
    hlenpo
    (fun l hl => (hflag l (hol' l hl)).1) hfo (fun l hl k fld h => by
      obtain ⟨r, rfl, a1, a2, -, -⟩ := hkey l hl
      simp only [Option.getD_some] at h
      simp only [φ, Option.getD_some]
      rw [(eachField_get _ a1 _ (hφ0 _) q _ fld (by rw [h, a2])).1, a2]) 0 out houtl
  have e1 : labelChannels labels (x.ty.map sz) = fun l => chanIdx (x.ty.map sz) (posOf labels l) := by
    funext l; exact (labelIdx_eq labels _ (by rw [hll, List.length_map]) l).1
  have e2 : labelChannels outLabels (outType.map sz) = fun l => chanIdx (outType.map sz) (posOf outLabels l) := by
    funext l; exact (labelIdx_eq outLabels _ hlo l).1
  have e3 : labelCount labels = fun l => (posOf labels l).length := by funext l; exact (posOf_length_eq labels l).symm
  have hloop := fieldLoop_congr x.data (fun l => (contigFlags labels l).getD false) (fun l => chanIdx (x.ty.map sz) (posOf labels l))
    (fun l => chanIdx (outType.map sz) (posOf outLabels l)) (fun l => (posOf labels l).length)
    (fun l next => eachField ((l.getD (0, 0)).2) (fun m fld => fld.map (· * gv[m]?.getD 0)) (next * q))
    (fun l => eachField (l.getD (0, 0)).1 (φ l)) order (by
      intro l hl next g' hg'
      have hgl' := readGroup_length hx.2 (hpin l hl) (hflag l (hol' l hl)).1 hg'
      obtain ⟨r, rfl, a1, a2, a3, -⟩ := hkey l hl
      simp only [Option.getD_some] at hgl'
      simp only [φ, Option.getD_some]
      have := eachField_sub (subSize subs r) q a1 a3 (fun m (fld : List (P → ℝ)) => fld.map (· * gv[m]?.getD 0)) _ next g'
        (by rw [a2]; exact hgl')
      rw [this, a2]) 0 out
  have hne : outType ≠ [] := by
    rw [hot]
    cases drop with
    | false => exact ht
    | true =>
      intro h
      have : dl = [] := by rw [hdl, h]; rfl
      rw [this] at hcf
      simp at hcf
      omega
  refine ⟨⟨outType, y⟩, ?_, ⟨hne, h2⟩, rfl, ?_, ?_, ?_⟩
  · rw [inducedGated, if_pos hcheck, if_pos rfl]
    dsimp only
    rw [← hlab, hread]
    dsimp only
    rw [← hq, ← hgv, hw]
    dsimp only
    rw [← hot, ← hol, e1, e2, e3, ← horder, hloop, h1]
    exact if_pos h2
  · intro i c hc
    cases drop with
    | false => rfl
    | true => exact gated1Out_get x.ty gates c1 hc
  · intro j i c d r gfld hi hc hd hr hgf
    have hFi : F i = c := by rw [hF]; dsimp only; rw [hc]; rfl
    have hp : (order.flatMap (posOf labels))[j]? = some c := by rw [hP, List.getElem?_map, hi, Option.map_some, hFi]
    have hq : (order.flatMap (posOf outLabels))[j]? = some (if drop then i else c) := by
      rw [hQ]
      cases drop with
      | true => exact hi
      | false =>
        change ((fieldOrder dl order).map F)[j]? = some c
        rw [List.getElem?_map, hi, Option.map_some, hFi]
    have hpl : (∀ l ∈ order, ∀ c ∈ posOf labels l, c < (chunks (x.ty.map sz) x.data).length) := by
      intro l _ c hc
      rw [chunks_length, List.length_map, ← hll]; exact posOf_lt hc
    obtain ⟨l, hl, hcl, -, h5⟩ := loopVals_get (chunks (x.ty.map sz) x.data) (posOf labels) (posOf outLabels)
      φ order hpl hlenpo 0 hp hq
    rw [Nat.zero_add] at h5
    have hnd : (order.flatMap (posOf outLabels)).Nodup := fieldOrder_nodup outLabels order hon
    change (chunks (outType.map sz) y)[if drop then i else c]? = _
    rw [h3, writeIdx_get _ _ _ hnd h4.symm ?_ _, if_pos (List.mem_of_getElem? hq)]
    · have hidx : (order.flatMap (posOf outLabels)).idxOf (if drop then i else c) = j := by
        obtain ⟨hjl, he⟩ := List.getElem?_eq_some_iff.1 hq
        rw [← he]
        exact hnd.idxOf_getElem j hjl
      rw [hidx, h5]
      obtain ⟨r', rfl, a1, a2, a3, -⟩ := hkey l hl
      obtain ⟨r'', -, hr'', e⟩ := inducedGatedLabels_get sz subs x.ty gates (mem_posOf.1 hcl)
      rw [hr] at hr''
      cases hr''
      simp only [Prod.mk.injEq] at e
      rw [GTensor.fields]
      cases hf : (chunks (x.ty.map sz) x.data)[c]? with
      | none => rfl
      | some fld =>
        have hfl : fld.length = sz r := field_length hx hr (by rw [GTensor.fields]; exact hf)
        simp only [Option.map_some, φ, Option.getD_some]
        congr 1
        obtain ⟨g1, g2⟩ := eachField_get _ a1 _ (hφ0 _) q (j * q) fld (by rw [hfl, a2, e.1])
        apply List.ext_getElem?
        intro k
        rw [scaleSubfields, List.getElem?_mapIdx]
        by_cases hk : k < q * subSize subs r'
        · have hk2 : k / subSize subs r' < q := (Nat.div_lt_iff_lt_mul a1).2 hk
          have hkf : k < fld.length := by rw [hfl, ← e.1, ← a2]; exact hk
          rw [g2 k hk, hgvget j d gfld hd hgf _ hk2, List.getElem?_map, List.getElem?_take_of_lt (Nat.mod_lt _ a1), List.getElem?_drop,
            Nat.div_add_mod', List.getElem?_eq_getElem hkf, ← e.2]
          simp only [Option.map_some, Option.getD_some]
          congr 1
          funext p
          rw [Pi.mul_apply, mul_comm]
        · rw [List.getElem?_eq_none (by rw [g1]; omega), List.getElem?_eq_none (by rw [hfl, ← e.1, ← a2]; omega)]
          rfl
    · intro k hk
      obtain ⟨l, -, hm⟩ := List.mem_flatMap.1 hk
      rw [chunks_length, ← hlo]; exact posOf_lt hm
  · intro hd j c gfld hc hgf
    subst hd
    have hnd : (order.flatMap (posOf outLabels)).Nodup := fieldOrder_nodup outLabels order hon
    change (chunks (outType.map sz) y)[c]? = _
    rw [h3, writeIdx_get _ _ _ hnd h4.symm ?_ _, if_neg ?_, houtg rfl j c hc]
    · congr 1
      have hr : x.ty[c]? = some (x.ty[c]'(by have := hglt c (List.mem_of_getElem? hc); rwa [List.length_map] at this)) :=
        List.getElem?_eq_getElem _
      have hgfl : gfld.length = q := by
        rw [field_length hx hr hgf, (hg c _ (mem_posOf.1 (List.mem_of_getElem? hc)) hr).2]
      apply List.ext_getElem?
      intro i
      rw [hgfl, List.getElem?_map]
      by_cases hi : i < q
      · rw [List.getElem?_take_of_lt hi, List.getElem?_drop, hgvget j c gfld hc hgf i hi, List.getElem?_range hi, Option.map_some]
      · rw [List.getElem?_eq_none (by rw [List.length_take]; omega), List.getElem?_eq_none (by rw [List.length_range]; omega)]
        rfl
    · intro hm
      obtain ⟨l, hl, hm⟩ := List.mem_flatMap.1 hm
      obtain ⟨s, rfl⟩ := hos l hl
      have h5 : labels[c]? = some (some s) := by
        have := mem_posOf.1 hm
        rw [hoL] at this; exact this
      have h6 : labels[c]? = some none := by
        apply mem_posOf.1
        rw [L1]; exact List.mem_of_getElem? hc
      rw [h5] at h6
      simp at h6
    · intro k hk
      obtain ⟨l, -, hm⟩ := List.mem_flatMap.1 hk
      rw [chunks_length, ← hlo]; exact posOf_lt hm

end

end E2
