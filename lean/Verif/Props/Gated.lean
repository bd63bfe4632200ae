import Verif.Lemmas.Gated
import Verif.Props.Nonlin

/-!
# C34: the first gated nonlinearity
-/

set_option linter.unusedSectionVars false

namespace E2

open Mat

variable {P R : Type} [DecidableEq R]

/-- The channels of the gates, in the order of the fields. -/
def gateChannels (sz : R → ℕ) (gates : List Bool) (x : GTensor R (P → ℝ)) : List (P → ℝ) :=
  (posOf gates true).flatMap fun c => (x.fields sz)[c]?.getD []

theorem gated1Labels_get (sz : R → ℕ) (t : List R) (gates : List Bool) {c s : ℕ} (h : (gated1Labels sz t gates)[c]? = some (some s)) :
    (t.map sz)[c]? = some s := by
  rw [gated1Labels, List.getElem?_zipWith] at h
  rw [List.getElem?_map]
  rcases h1 : gates[c]? with _ | g
  · rw [h1] at h; simp at h
  · rcases h2 : t[c]? with _ | r
    · rw [h1, h2] at h; simp at h
    · rw [h1, h2] at h
      cases g <;> simp at h ⊢
      exact h

theorem gated1Out_get (t : List R) (gates : List Bool) (hl : gates.length = t.length) {i c : ℕ} (h : (posOf gates false)[i]? = some c) :
    (gated1Out t gates true)[i]? = t[c]? := by
  have key : ∀ z : List (Bool × R), ∀ i c : ℕ, (posOf (z.map Prod.fst) false)[i]? = some c →
      ((z.filter fun p => !p.1).map Prod.snd)[i]? = (z.map Prod.snd)[c]? := by
    intro z
    induction z using List.reverseRecOn with
    | nil => intro i c h; simp [posOf] at h
    | append_singleton z q ih =>
      intro i c h
      obtain ⟨b, r⟩ := q
      have hlen := posOf_false_length z
      rw [List.map_append, List.map_singleton, posOf_snoc] at h
      have hcl : ∀ c, (posOf (z.map Prod.fst) false)[i]? = some c → c < z.length := fun c hc => by
        have := posOf_lt (List.mem_of_getElem? hc); rwa [List.length_map] at this
      cases b with
      | true =>
        simp only [Bool.true_eq_false, if_false, List.append_nil] at h
        have := hcl c h
        rw [List.filter_append, List.map_append, List.map_append]
        rw [List.getElem?_append_left (l₁ := z.map Prod.snd) (by simpa using this)]
        simpa using ih i c h
      | false =>
        rw [if_pos rfl] at h
        rw [List.filter_append, List.map_append, List.map_append]
        by_cases hi : i < (posOf (z.map Prod.fst) false).length
        · rw [List.getElem?_append_left hi] at h
          have := hcl c h
          rw [List.getElem?_append_left (by rw [List.length_map, ← hlen]; exact hi), List.getElem?_append_left (by simpa using this)]
          exact ih i c h
        · have hi' : i = (posOf (z.map Prod.fst) false).length := by
            have := (List.getElem?_eq_some_iff.1 h).1
            rw [List.length_append, List.length_singleton] at this
            omega
          rw [hi', List.getElem?_append_right (le_refl _)] at h
          simp at h
          subst h
          rw [hi', List.getElem?_append_right (by rw [List.length_map, hlen]), List.getElem?_append_right (by simp)]
          simp [hlen]
  obtain ⟨e1, e2⟩ := gated1_zip hl
  have := key (gates.zip t) i c (by rw [← e1]; exact h)
  rw [gated1Out, if_pos rfl, this, ← e2]

/-- **C34, first gated nonlinearity**: when the constructor accepts the type and the list of gates, there is a bijection `ord` between the gates
and the gated fields such that the gated field number `ord[j]` is multiplied by the value of the gate `j`; when the gates are not dropped they
are replaced by their values. -/
theorem c34_gated1_scalars (sz : R → ℕ) (trivial supports : R → Bool) (htriv : ∀ r, trivial r = true → sz r = 1) (t : List R) (ht : t ≠ [])
    (hpos : ∀ r ∈ t, 0 < sz r) (gates : List Bool) (drop : Bool) (hcheck : gated1Check trivial supports t gates = true) (σ : ℝ → ℝ)
    (bias : List ℝ) (hb : bias.length = gates.count true) :
    ∃ ord : List ℕ, ord.Perm (List.range (gates.count false)) ∧ ∀ (junk : List (P → ℝ)) (x : GTensor R (P → ℝ)),
      junk.length = typeSize sz (gated1Out t gates drop) → x.WF sz → x.ty = t →
      ∃ y, gated1 sz trivial supports t gates drop σ bias junk x = some y ∧ y.WF sz ∧ y.ty = gated1Out t gates drop ∧
        (∀ i c : ℕ, (posOf gates false)[i]? = some c → y.ty[if drop then i else c]? = t[c]?) ∧
        (∀ j i c : ℕ, ord[j]? = some i → (posOf gates false)[i]? = some c → (y.fields sz)[if drop then i else c]? =
          ((x.fields sz)[c]?).map (scaleField (gateSpec σ bias (gateChannels sz gates x) j))) ∧
        (drop = false → ∀ j c : ℕ, (posOf gates true)[j]? = some c →
          (y.fields sz)[c]? = some [gateSpec σ bias (gateChannels sz gates x) j]) := by
  have hcc := hcheck
  simp only [gated1Check, Bool.and_eq_true, List.all_eq_true, beq_iff_eq] at hcc
  obtain ⟨⟨c1, c2⟩, c3⟩ := hcc
  obtain ⟨ez1, ez2⟩ := gated1_zip c1
  set labels := gated1Labels sz t gates with hlab
  set dl := (gated1Out t gates true).map (fun r => some (sz r)) with hdl
  set F : ℕ → ℕ := fun i => (posOf gates false)[i]?.getD 0 with hF
  have hdl' : dl = ((gates.zip t).filter fun p => !p.1).map (fun p => some (sz p.2)) := by
    rw [hdl, gated1Out, if_pos rfl, List.map_map]; rfl
  have hgl : (posOf gates false).length = dl.length := by
    have := posOf_false_length (gates.zip t)
    rw [← ez1] at this
    rw [this, hdl', List.length_map]
  have hcf : dl.length = gates.count false := by rw [← hgl, posOf_length_eq]; rfl
  have L1 : posOf labels none = posOf gates true := by
    rw [hlab, gated1Labels_eq, posOf_gLab_none, ← ez1]
  have L2 : ∀ s, posOf labels (some s) = (posOf dl (some s)).map F := by
    intro s
    rw [hlab, gated1Labels_eq, posOf_gLab_some, ← ez1, hdl, gated1Out, if_pos rfl]
  have hll : labels.length = t.length := by rw [hlab, gated1Labels, List.length_zipWith]; omega
  set order := gated1Order sz t gates with horder
  have hon : order.Nodup := by
    rw [horder, gated1Order]
    exact (sortedKeys_nodup _).map (fun a b h => Option.some.inj h)
  have hom : ∀ l, l ∈ order ↔ l ∈ dl := by
    intro l
    rw [horder, gated1Order, List.mem_map, hdl]
    constructor
    · rintro ⟨s, hs, rfl⟩
      rw [mem_sortedKeys, List.mem_map] at hs
      obtain ⟨r, hr, rfl⟩ := hs
      exact List.mem_map.2 ⟨r, hr, rfl⟩
    · intro h
      obtain ⟨r, hr, rfl⟩ := List.mem_map.1 h
      exact ⟨sz r, (mem_sortedKeys _ _).2 (List.mem_map.2 ⟨r, hr, rfl⟩), rfl⟩
  have hos : ∀ l ∈ order, ∃ s, l = some s := by
    intro l hl
    obtain ⟨r, -, rfl⟩ := List.mem_map.1 ((hom l).1 hl)
    exact ⟨_, rfl⟩
  have hP : order.flatMap (posOf labels) = (fieldOrder dl order).map F := by
    rw [fieldOrder, List.map_flatMap]
    apply List.flatMap_congr
    intro l hl
    obtain ⟨s, rfl⟩ := hos l hl
    exact L2 s
  have hmemt : ∀ r ∈ gated1Out t gates true, r ∈ t := by
    intro r hr
    rw [gated1Out, if_pos rfl, List.mem_map] at hr
    obtain ⟨p, hp, rfl⟩ := hr
    rw [ez2]
    exact List.mem_map_of_mem (List.mem_of_mem_filter hp)
  have hord : (fieldOrder dl order).Perm (List.range (gates.count false)) := by
    rw [← hcf]; exact fieldOrder_perm dl order hon fun l hl => (hom l).2 hl
  refine ⟨fieldOrder dl order, hord, ?_⟩
  intro junk x hj hx hxt
  subst hxt
  set outType := gated1Out x.ty gates drop with hot
  set outLabels := gated1OutLabels sz x.ty gates drop with hol
  have hposi : ∀ s ∈ x.ty.map sz, 0 < s := type_sizes sz hpos
  have hposo : ∀ s ∈ outType.map sz, 0 < s := by
    apply type_sizes
    intro r hr
    cases drop with
    | true => exact hpos r (hmemt r hr)
    | false => exact hpos r hr
  have hlo : outLabels.length = (outType.map sz).length := by
    rw [hol, gated1OutLabels, hot]
    cases drop
    · simp [← hlab, hll, gated1Out]
    · simp
  have hoL : outLabels = if drop then dl else labels := by
    rw [hol, gated1OutLabels]
    cases drop <;> rfl
  have hflag : ∀ l, l ∈ labels → FlagOk ((contigFlags labels l).getD false) (chanIdx (x.ty.map sz) (posOf labels l)) ∧
      FlagOk ((contigFlags labels l).getD false) (posOf labels l) := by
    intro l hl
    rcases h : contigFlags labels l with _ | b
    · exact absurd hl (((contigFlags_spec labels).2 l).1.1 h)
    · exact flagOk_contig labels (x.ty.map sz) (by rw [hll, List.length_map]) hposi l b h
  have hol' : ∀ l ∈ order, l ∈ labels := by
    intro l hl
    obtain ⟨s, rfl⟩ := hos l hl
    obtain ⟨i, hi⟩ := List.mem_iff_getElem?.1 ((hom _).1 hl)
    have h1 : i ∈ posOf dl (some s) := mem_posOf.2 hi
    have h2 : F i ∈ posOf labels (some s) := by rw [L2]; exact List.mem_map_of_mem h1
    exact List.mem_of_getElem? (mem_posOf.1 h2)
  have hcount : 0 < gates.count true := by
    have h1 : gates.count true + gates.count false = gates.length := by
      clear * -
      induction gates with
      | nil => rfl
      | cons b gates ih => cases b <;> simp <;> omega
    have h2 : 0 < gates.length := by rw [c1]; exact List.length_pos_of_ne_nil ht
    omega
  have hnone : none ∈ labels := by
    have h1 : 0 < (posOf labels none).length := by rw [L1, posOf_length_eq]; exact hcount
    obtain ⟨i, hi⟩ := List.exists_mem_of_length_pos h1
    exact List.mem_of_getElem? (mem_posOf.1 hi)
  have hgpos : ∀ c ∈ posOf gates true, ∃ r, x.ty[c]? = some r ∧ sz r = 1 := by
    intro c hc
    have h1 := mem_posOf.1 hc
    have h2 : c < x.ty.length := by rw [← c1]; exact posOf_lt hc
    refine ⟨x.ty[c], List.getElem?_eq_getElem h2, ?_⟩
    have h3 : (true, x.ty[c]) ∈ gates.zip x.ty := by
      apply List.mem_of_getElem? (i := c)
      rw [List.getElem?_zip_eq_some]
      exact ⟨h1, List.getElem?_eq_getElem h2⟩
    have := c2 _ h3
    exact htriv _ (by simpa using this)
  -- the gates
  have hglt : ∀ c ∈ posOf gates true, c < (x.ty.map sz).length := fun c hc => by rw [List.length_map, ← c1]; exact posOf_lt hc
  obtain ⟨g, hg1, hg2, hg3⟩ := chunks_gather (x.ty.map sz) x.data hx.2 (posOf gates true) hglt
  have hgsz : (posOf gates true).map (fun c => (x.ty.map sz)[c]?.getD 0) = List.replicate (posOf gates true).length 1 := by
    rw [List.eq_replicate_iff]
    refine ⟨by simp, fun b hb => ?_⟩
    obtain ⟨c, hc, rfl⟩ := List.mem_map.1 hb
    obtain ⟨r, h1, h2⟩ := hgpos c hc
    rw [List.getElem?_map, h1]; exact h2
  rw [hgsz] at hg2 hg3
  have hglen : g.length = gates.count true := by rw [hg3, posOf_length_eq]; simp [labelCount]
  have hgch : gateChannels sz gates x = g := by
    have h1 : (gather (x.fields sz) (posOf gates true)).map List.flatten = some g := by
      have := (gather_chanIdx (x.ty.map sz) x.data hx.2 (posOf gates true) hglt).1
      rw [hg1] at this; exact this.symm
    rw [Option.map_eq_some_iff] at h1
    obtain ⟨r, h1, rfl⟩ := h1
    rw [gateChannels, List.flatMap]
    congr 1
    have := (gather_some_iff _ _ _).1 h1
    have h2 := congrArg (List.map fun o : Option (List (P → ℝ)) => o.getD []) this
    simpa [Function.comp_def] using h2
  have hread : readGroup x.data ((contigFlags labels none).getD false) (labelChannels labels (x.ty.map sz) none) = some g := by
    have e : labelChannels labels (x.ty.map sz) none = chanIdx (x.ty.map sz) (posOf labels none) :=
      (labelIdx_eq labels (x.ty.map sz) (by rw [hll, List.length_map]) none).1
    rw [e, readGroup_ok (hflag none hnone).1, L1, hg1]
    intro i hi
    rw [L1] at hi
    rw [hx.2]
    exact chanIdx_lt _ _ hglt i hi
  set gv := gateValues σ bias g with hgv
  have hgvl : gv.length = gates.count true := by
    rw [hgv, gateValues, List.length_zipWith, hglen, hb]; exact min_self _
  -- the first write
  obtain ⟨out, hw, houtl, houtg⟩ : ∃ out, (if drop then some junk else writeGroup junk ((contigFlags labels none).getD false)
      (labelChannels labels (x.ty.map sz) none) gv) = some out ∧ out.length = (outType.map sz).sum ∧
      (drop = false → ∀ j c : ℕ, (posOf gates true)[j]? = some c → (chunks (outType.map sz) out)[c]? = some [gv[j]?.getD 0]) := by
    cases drop with
    | true => exact ⟨junk, rfl, hj, by simp⟩
    | false =>
      have e : labelChannels labels (x.ty.map sz) none = chanIdx (x.ty.map sz) (posOf gates true) := by
        rw [← L1]; exact (labelIdx_eq labels (x.ty.map sz) (by rw [hll, List.length_map]) none).1
      have hfl := (hflag none hnone).1
      rw [L1] at hfl
      have hj : junk.length = (x.ty.map sz).sum := hj
      have hsing : (gv.map fun v => [v]).map List.length = (posOf gates true).map fun c => (x.ty.map sz)[c]?.getD 0 := by
        rw [hgsz, List.map_map, posOf_length_eq]
        rw [List.eq_replicate_iff]
        refine ⟨by simp [hgvl, labelCount], fun b hb => ?_⟩
        obtain ⟨v, -, rfl⟩ := List.mem_map.1 hb
        rfl
      have hflat : (gv.map fun v => [v]).flatten = gv := by
        rw [← List.flatMap_def]; exact List.flatMap_singleton' gv
      have hgl2 : gv.length = (chanIdx (x.ty.map sz) (posOf gates true)).length := by
        conv_lhs => rw [← hflat, List.length_flatten, hsing]
        rw [chanIdx, List.length_flatMap]
        simp
      refine ⟨writeIdx junk (chanIdx (x.ty.map sz) (posOf gates true)) gv, ?_, ?_, ?_⟩
      · rw [if_neg (by simp), e]
        exact writeGroup_ok hfl (fun i hi => by rw [hj]; exact chanIdx_lt _ _ hglt i hi) hgl2
      · rw [writeIdx_length]; exact hj
      · intro _ j c hc
        change (chunks (x.ty.map sz) _)[c]? = _
        conv_lhs => rw [← hflat]
        rw [chunks_writeIdx _ junk hj _ hglt _ hsing, writeIdx_get _ _ _ (posOf_nodup _ _) _ _ c, if_pos (List.mem_of_getElem? hc)]
        · obtain ⟨hjl, rfl⟩ := List.getElem?_eq_some_iff.1 hc
          rw [(posOf_nodup gates true).idxOf_getElem j hjl, List.getElem?_map]
          have : j < gv.length := by rw [hgvl]; rw [posOf_length_eq] at hjl; exact hjl
          rw [List.getElem?_eq_getElem this]; rfl
        · rw [List.length_map, hgvl, posOf_length_eq]; rfl
        · intro i hi; rw [chunks_length]; exact hglt i hi
  -- the loop
  have hfo : ∀ l ∈ order, FlagOk ((contigFlags labels l).getD false) (chanIdx (outType.map sz) (posOf outLabels l)) := by
    intro l hl
    cases drop with
    | false => rw [hoL]; exact (hflag l (hol' l hl)).1
    | true =>
      rw [hoL, if_pos rfl]
      intro hb
      obtain ⟨s, rfl⟩ := hos l hl
      obtain ⟨a, n, h1⟩ := (hflag _ (hol' _ hl)).2 hb
      rw [L2] at h1
      obtain ⟨b, hb'⟩ := range'_of_map (m := dl.length) (fun i j hij hj => posOf_mono gates false i j hij (by rw [hgl]; exact hj))
        (posOf dl (some s)) (posOf_pairwise _ _) (fun i hi => posOf_lt hi) a n h1
      rw [hb']
      refine flagOk_chanIdx _ hposo b n ?_
      have : b + n ∈ posOf dl (some s) := by rw [hb', List.mem_range'_1]; omega
      have := posOf_lt this
      rw [hdl, List.length_map] at this
      rw [List.length_map]; exact this
  have hQ : order.flatMap (posOf outLabels) = if drop then fieldOrder dl order else (fieldOrder dl order).map F := by
    rw [hoL]
    cases drop with
    | true => rfl
    | false => exact hP
  obtain ⟨y, h1, h2, h3, h4⟩ := fieldLoop_vals x.data (x.ty.map sz) (outType.map sz) hx.2 (fun l => (contigFlags labels l).getD false)
    (posOf labels) (posOf outLabels) (fun l => l.getD 0) (fun l => l.getD 0) (fun _ k fld => fld.map (· * gv[k]?.getD 0)) order
    (by
      intro l hl
      obtain ⟨r, hr, rfl⟩ := List.mem_map.1 ((hom l).1 hl)
      exact hpos r (hmemt r hr))
    (by
      intro l hl c hc
      obtain ⟨s, rfl⟩ := hos l hl
      exact gated1Labels_get sz x.ty gates (mem_posOf.1 hc))
    (by
      intro l hl c hc
      obtain ⟨s, rfl⟩ := hos l hl
      have h := mem_posOf.1 hc
      rw [hoL] at h
      cases drop with
      | false => exact gated1Labels_get sz x.ty gates h
      | true =>
        rw [if_pos rfl, hdl, List.getElem?_map, Option.map_eq_some_iff] at h
        obtain ⟨r, hr, hs⟩ := h
        rw [hot, List.getElem?_map, hr]
        exact hs)
    (by
      intro l hl
      obtain ⟨s, rfl⟩ := hos l hl
      rw [hoL]
      cases drop with
      | false => rfl
      | true => rw [L2, List.length_map]; rfl)
    (fun l hl => (hflag l (hol' l hl)).1) hfo (fun l _ k fld h => by rw [List.length_map]; exact h) 0 out houtl
  have e1 : labelChannels labels (x.ty.map sz) = fun l => chanIdx (x.ty.map sz) (posOf labels l) := by
    funext l; exact (labelIdx_eq labels _ (by rw [hll, List.length_map]) l).1
  have e2 : labelChannels outLabels (outType.map sz) = fun l => chanIdx (outType.map sz) (posOf outLabels l) := by
    funext l; exact (labelIdx_eq outLabels _ hlo l).1
  have e3 : labelCount labels = fun l => (posOf labels l).length := by funext l; exact (posOf_length_eq labels l).symm
  have hne : outType ≠ [] := by
    rw [hot]
    cases drop with
    | false => exact ht
    | true =>
      intro h
      have : dl = [] := by rw [hdl, h]; rfl
      rw [this] at hcf
      simp at hcf
      omega
  refine ⟨⟨outType, y⟩, ?_, ⟨hne, h2⟩, rfl, ?_, ?_, ?_⟩
  · rw [gated1, if_pos hcheck, if_pos rfl]
    dsimp only
    rw [← hlab, hread]
    dsimp only
    rw [← hgv, hw]
    dsimp only
    rw [← hot, ← hol, e1, e2, e3, h1]
    exact if_pos h2
  · intro i c hc
    cases drop with
    | false => rfl
    | true => exact gated1Out_get x.ty gates c1 hc
  · intro j i c hi hc
    have hFi : F i = c := by rw [hF]; dsimp only; rw [hc]; rfl
    have hp : (order.flatMap (posOf labels))[j]? = some c := by rw [hP, List.getElem?_map, hi, Option.map_some, hFi]
    have hq : (order.flatMap (posOf outLabels))[j]? = some (if drop then i else c) := by
      rw [hQ]
      cases drop with
      | true => exact hi
      | false =>
        change ((fieldOrder dl order).map F)[j]? = some c
        rw [List.getElem?_map, hi, Option.map_some, hFi]
    have hpl : (∀ l ∈ order, ∀ c ∈ posOf labels l, c < (chunks (x.ty.map sz) x.data).length) := by
      intro l _ c hc
      rw [chunks_length, List.length_map, ← hll]; exact posOf_lt hc
    obtain ⟨l, -, -, -, h5⟩ := loopVals_get (chunks (x.ty.map sz) x.data) (posOf labels) (posOf outLabels)
      (fun _ k fld => fld.map (· * gv[k]?.getD 0)) order hpl (by
      intro l hl
      obtain ⟨s, rfl⟩ := hos l hl
      rw [hoL]
      cases drop with
      | false => rfl
      | true => rw [L2, List.length_map]; rfl) 0 hp hq
    rw [Nat.zero_add] at h5
    have hnd : (order.flatMap (posOf outLabels)).Nodup := fieldOrder_nodup outLabels order hon
    change (chunks (outType.map sz) y)[if drop then i else c]? = _
    rw [h3, writeIdx_get _ _ _ hnd h4.symm ?_ _, if_pos (List.mem_of_getElem? hq)]
    · have hidx : (order.flatMap (posOf outLabels)).idxOf (if drop then i else c) = j := by
        obtain ⟨hjl, he⟩ := List.getElem?_eq_some_iff.1 hq
        rw [← he]
        exact hnd.idxOf_getElem j hjl
      rw [hidx, h5, hgch]
      have hjl : j < gates.count true := by
        rw [c3, ← List.length_range (n := gates.count false), ← hord.length_eq]
        exact (List.getElem?_eq_some_iff.1 hi).1
      rw [hgv, gateValues_get σ bias g (by omega) (by omega)]
      rw [GTensor.fields]
      cases (chunks (x.ty.map sz) x.data)[c]? with
      | none => rfl
      | some fld =>
        simp only [Option.map_some]
        congr 1
        rw [scaleField]
        apply List.map_congr_left
        intro v _
        funext p
        rw [Pi.mul_apply, mul_comm]
    · intro k hk
      obtain ⟨l, -, hm⟩ := List.mem_flatMap.1 hk
      rw [chunks_length, ← hlo]; exact posOf_lt hm
  · intro hd j c hc
    subst hd
    have hnd : (order.flatMap (posOf outLabels)).Nodup := fieldOrder_nodup outLabels order hon
    change (chunks (outType.map sz) y)[c]? = _
    rw [h3, writeIdx_get _ _ _ hnd h4.symm ?_ _, if_neg ?_, houtg rfl j c hc]
    · obtain ⟨hjl, -⟩ := List.getElem?_eq_some_iff.1 hc
      rw [posOf_length_eq] at hjl
      change j < gates.count true at hjl
      rw [hgv, gateValues_get σ bias g (by omega) (by omega), hgch]
    · intro hm
      obtain ⟨l, hl, hm⟩ := List.mem_flatMap.1 hm
      obtain ⟨s, rfl⟩ := hos l hl
      have h5 : labels[c]? = some (some s) := by
        have := mem_posOf.1 hm
        rw [hoL] at this; exact this
      have h6 : labels[c]? = some none := by
        apply mem_posOf.1
        rw [L1]; exact List.mem_of_getElem? hc
      rw [h5] at h6
      simp at h6
    · intro k hk
      obtain ⟨l, -, hm⟩ := List.mem_flatMap.1 hk
      rw [chunks_length, ← hlo]; exact posOf_lt hm

/-- **C34, first gated nonlinearity**: the module commutes with all transformations which leave the gates unchanged. -/
theorem c34_gated1_equivariant (sz : R → ℕ) (trivial supports : R → Bool) (t : List R) (hpos : ∀ r ∈ t, 0 < sz r) (gates : List Bool)
    (drop : Bool) (hcheck : gated1Check trivial supports t gates = true) (σ : ℝ → ℝ) (bias : List ℝ) (hb : bias.length = gates.count true)
    (ρ : R → Mat) (π : P → P) (htriv : ∀ r, trivial r = true → sz r = 1 ∧ ρ r 0 0 = 1) (junk junk' : List (P → ℝ))
    (hj : junk.length = typeSize sz (gated1Out t gates drop)) (hj' : junk'.length = typeSize sz (gated1Out t gates drop))
    (x : GTensor R (P → ℝ)) (hx : x.WF sz) (hxt : x.ty = t) :
    ∃ y, gated1 sz trivial supports t gates drop σ bias junk x = some y ∧
      gated1 sz trivial supports t gates drop σ bias junk' (x.transform sz ρ π) = some (y.transform sz ρ π) := by
  obtain ⟨ord, hord, hall⟩ := c34_gated1_scalars (P := P) sz trivial supports (fun r h => (htriv r h).1) t (hxt ▸ hx.1) hpos gates drop hcheck σ bias hb
  obtain ⟨y, h1, h2, h3, h4, h5, h6⟩ := hall junk x hj hx hxt
  obtain ⟨y', h1', h2', h3', h4', h5', h6'⟩ := hall junk' (x.transform sz ρ π) hj' (transform_wf ρ π hx) hxt
  refine ⟨y, h1, ?_⟩
  rw [h1']
  congr 1
  have hcc := hcheck
  simp only [gated1Check, Bool.and_eq_true, List.all_eq_true, beq_iff_eq] at hcc
  obtain ⟨⟨c1, c2⟩, c3⟩ := hcc
  have hgate : ∀ c ∈ posOf gates true, ∀ r, t[c]? = some r → sz r = 1 ∧ ρ r 0 0 = 1 := by
    intro c hc r hr
    have h3 : (true, r) ∈ gates.zip t := by
      apply List.mem_of_getElem? (i := c)
      rw [List.getElem?_zip_eq_some]
      exact ⟨mem_posOf.1 hc, hr⟩
    have := c2 _ h3
    exact htriv _ (by simpa using this)
  have hone : ∀ (fld : List (P → ℝ)) r, sz r = 1 ∧ ρ r 0 0 = 1 → fld.length = 1 →
      moveField (sz r) (ρ r) π fld = fld.map fun v => v ∘ π := by
    intro fld r hr hl
    obtain ⟨v, rfl⟩ := List.length_eq_one_iff.1 hl
    rw [hr.1, moveField, chAct]
    simp [hr.2]
  have hch : gateChannels sz gates (x.transform sz ρ π) = (gateChannels sz gates x).map fun v => v ∘ π := by
    rw [gateChannels, gateChannels, List.map_flatMap]
    apply List.flatMap_congr
    intro c hc
    have hcl : c < t.length := by rw [← c1]; exact posOf_lt hc
    have hr : x.ty[c]? = some t[c] := by rw [hxt]; exact List.getElem?_eq_getElem hcl
    obtain ⟨fld, hf⟩ := field_exists (sz := sz) hr
    have hg := hgate c hc _ (List.getElem?_eq_getElem hcl)
    rw [transform_fields_get sz ρ π x hr, hf]
    simp only [Option.map_some, Option.getD_some]
    exact hone fld _ hg (by rw [field_length hx hr hf, hg.1])
  have hgs : ∀ j, gateSpec σ bias (gateChannels sz gates (x.transform sz ρ π)) j = gateSpec σ bias (gateChannels sz gates x) j ∘ π := by
    intro j
    rw [hch]
    funext p
    simp only [gateSpec, Function.comp_apply, List.getElem?_map]
    cases (gateChannels sz gates x)[j]? <;> rfl
  have hgated : ∀ i c : ℕ, (posOf gates false)[i]? = some c → ∀ r, y.ty[if drop then i else c]? = some r →
      (y'.fields sz)[if drop then i else c]? = ((y.fields sz)[if drop then i else c]?).map (moveField (sz r) (ρ r) π) := by
    intro i c hc r hr
    have hi : i < gates.count false := by
      have := (List.getElem?_eq_some_iff.1 hc).1
      rw [posOf_length_eq] at this; exact this
    obtain ⟨j, hj⟩ := List.mem_iff_getElem?.1 (hord.mem_iff.2 (List.mem_range.2 hi))
    have hr' : x.ty[c]? = some r := by rw [hxt, ← h4 i c hc]; exact hr
    rw [h5' j i c hj hc, h5 j i c hj hc, transform_fields_get sz ρ π x hr', hgs]
    cases (x.fields sz)[c]? with
    | none => rfl
    | some fld => simp only [Option.map_some, moveField_scale]
  refine transform_of_fields h2 h2' (h3'.trans h3.symm) ?_
  intro c r hr
  cases drop with
  | true =>
    have hc : c < (posOf gates false).length := by
      have := (List.getElem?_eq_some_iff.1 hr).1
      rw [h3, gated1Out, if_pos rfl, List.length_map] at this
      have e := posOf_false_length (gates.zip t)
      rw [← (gated1_zip c1).1] at e
      omega
    exact hgated c _ (List.getElem?_eq_getElem hc) r hr
  | false =>
    rw [h3] at hr
    have hr : t[c]? = some r := hr
    have hc : c < gates.length := by rw [c1]; exact (List.getElem?_eq_some_iff.1 hr).1
    cases hb : gates[c] with
    | false =>
      have hm : c ∈ posOf gates false := mem_posOf.2 (by rw [List.getElem?_eq_getElem hc, hb])
      obtain ⟨i, hi⟩ := List.mem_iff_getElem?.1 hm
      exact hgated i c hi r (by rw [h3]; exact hr)
    | true =>
      have hm : c ∈ posOf gates true := mem_posOf.2 (by rw [List.getElem?_eq_getElem hc, hb])
      obtain ⟨j, hj⟩ := List.mem_iff_getElem?.1 hm
      rw [h6' rfl j c hj, h6 rfl j c hj, hgs, Option.map_some, hone _ r (hgate c hm r hr) rfl]
      rfl

end E2
