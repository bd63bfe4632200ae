import Verif.Lemmas.Nonlin

/-!
# C34: norm and gated nonlinearities
-/

set_option linter.unusedSectionVars false

namespace E2

open Mat

variable {P R : Type} [DecidableEq R]

theorem type_sizes (sz : R → ℕ) {t : List R} (hpos : ∀ r ∈ t, 0 < sz r) : ∀ s ∈ t.map sz, 0 < s := by
  intro s hs
  obtain ⟨r, hr, rfl⟩ := List.mem_map.1 hs
  exact hpos r hr

/-- **C34, norm**: for every type there is a bijection `ord` between the biases and the fields such that field `ord[j]` is multiplied by one scalar:
zero where its norm is not above `eps`, else `f (norm - bias j) / norm`. -/
theorem c34_norm_scalars (sz : R → ℕ) (t : List R) (ht : t ≠ []) (hpos : ∀ r ∈ t, 0 < sz r) (f : ℝ → ℝ) (eps : ℝ) (bias : List ℝ) :
    ∃ ord : List ℕ, ord.Perm (List.range t.length) ∧ ∀ (junk : List (P → ℝ)) (x : GTensor R (P → ℝ)), junk.length = typeSize sz t → x.WF sz →
      x.ty = t → ∃ y, normNonlin sz t f eps bias junk x = some y ∧ y.WF sz ∧ y.ty = t ∧
        ∀ j c : ℕ, ord[j]? = some c → (y.fields sz)[c]? = ((x.fields sz)[c]?).map fun fld =>
          scaleField (fun p => if fieldNorm fld p ≤ eps then 0 else f (fieldNorm fld p - bias[j]?.getD 0) / fieldNorm fld p) fld := by
  refine ⟨fieldOrder (t.map sz) (sortedKeys (t.map sz)), ?_, ?_⟩
  · have := fieldOrder_perm (t.map sz) (sortedKeys (t.map sz)) (sortedKeys_nodup _) fun l hl => (mem_sortedKeys _ _).2 hl
    rwa [List.length_map] at this
  · intro junk x hj hx hxt
    subst hxt
    obtain ⟨m, h1, h2, h3⟩ := sizeLoop_spec x.data (x.ty.map sz) hx.2 (type_sizes sz hpos)
      (fun s k fld => List.replicate s fun p => normMultiplier f eps (bias[k]?.getD 0) (fieldNorm fld p)) (sortedKeys (x.ty.map sz))
      (sortedKeys_nodup _) (mem_sortedKeys _) (fun s k fld _ => by simp) junk hj
    have hl : (List.zipWith (· * ·) x.data m).length = typeSize sz x.ty := by
      rw [List.length_zipWith, h2, hx.2]; exact min_self _
    refine ⟨⟨x.ty, List.zipWith (· * ·) x.data m⟩, ?_, ⟨ht, hl⟩, rfl, ?_⟩
    · rw [normNonlin, if_pos rfl]
      dsimp only
      rw [h1]
      dsimp only
      rw [mkGT, if_pos hl]
    · intro j c hc
      obtain ⟨s, hs, h4⟩ := h3 j c hc
      rw [GTensor.fields, chunks_zipWith, List.getElem?_zipWith]
      dsimp only
      rw [h4]
      rcases hf : (chunks (x.ty.map sz) x.data)[c]? with _ | fld
      · simp [GTensor.fields, hf]
      · have hlen : fld.length = s := by
          have := congrArg (·[c]?) (chunks_map_length (x.ty.map sz) x.data hx.2)
          simp only [List.getElem?_map, hf, Option.map_some] at this
          rw [← List.getElem?_map, hs] at this
          exact Option.some.inj this
        simp only [GTensor.fields, hf, Option.map_some]
        congr 1
        rw [scaleField, ← hlen]
        apply List.ext_getElem
        · simp
        · intro i h5 h6
          simp only [List.getElem_zipWith, List.getElem_map, List.getElem_replicate]
          funext p
          rw [Pi.mul_apply, mul_comm, normMultiplier]
          by_cases he : fieldNorm fld p ≤ eps
          · simp [he]
          · rw [if_neg he, if_neg he, max_eq_left (le_of_lt (not_le.1 he))]

/-- **C34, norm**: the module commutes with all transformations by orthogonal matrices. -/
theorem c34_norm_equivariant (sz : R → ℕ) (t : List R) (hpos : ∀ r ∈ t, 0 < sz r) (f : ℝ → ℝ) (eps : ℝ) (bias : List ℝ)
    (ρ : R → Mat) (hρ : ∀ r ∈ t, Orth (sz r) (ρ r)) (π : P → P) (junk junk' : List (P → ℝ)) (hj : junk.length = typeSize sz t)
    (hj' : junk'.length = typeSize sz t) (x : GTensor R (P → ℝ)) (hx : x.WF sz) (hxt : x.ty = t) :
    ∃ y, normNonlin sz t f eps bias junk x = some y ∧ normNonlin sz t f eps bias junk' (x.transform sz ρ π) = some (y.transform sz ρ π) := by
  obtain ⟨ord, hord, hall⟩ := c34_norm_scalars (P := P) sz t (hxt ▸ hx.1) hpos f eps bias
  obtain ⟨y, h1, h2, h3, h4⟩ := hall junk x hj hx hxt
  obtain ⟨y', h1', h2', h3', h4'⟩ := hall junk' (x.transform sz ρ π) hj' (transform_wf ρ π hx) hxt
  refine ⟨y, h1, ?_⟩
  rw [h1']
  congr 1
  refine transform_of_fields h2 h2' (h3'.trans h3.symm) ?_
  intro c r hr
  have hc : c < t.length := by rw [← h3]; exact (List.getElem?_eq_some_iff.1 hr).1
  obtain ⟨j, hj⟩ := List.mem_iff_getElem?.1 (hord.mem_iff.2 (List.mem_range.2 hc))
  have hr' : x.ty[c]? = some r := by rw [hxt, ← h3]; exact hr
  obtain ⟨fld, hf⟩ := field_exists (sz := sz) hr'
  have hlen := field_length hx hr' hf
  have horth := hρ r (List.mem_of_getElem? (h3 ▸ hr))
  rw [h4' j c hj, h4 j c hj, transform_fields_get sz ρ π x hr', hf]
  simp only [Option.map_some]
  congr 1
  rw [moveField_scale, fieldNorm_move horth π fld hlen]
  rfl

/-! ### GatedNonLinearity2 -/

/-- The value of a gate: `σ (gate - bias)`. -/
def gateSpec (σ : ℝ → ℝ) (bias : List ℝ) (gates : List (P → ℝ)) (j : ℕ) : P → ℝ :=
  fun p => σ (gates[j]?.getD 0 p - bias[j]?.getD 0)

theorem gateValues_get (σ : ℝ → ℝ) (bias : List ℝ) (gates : List (P → ℝ)) {j : ℕ} (h1 : j < gates.length) (h2 : j < bias.length) :
    (gateValues σ bias gates)[j]?.getD 0 = gateSpec σ bias gates j := by
  rw [gateValues, List.getElem?_zipWith, List.getElem?_eq_getElem h1, List.getElem?_eq_getElem h2]
  funext p
  simp [gateSpec, h1, h2]

/-- **C34, second gated nonlinearity**: when the constructor accepts the types there is a bijection `ord` between the gates and the fields such
that field `ord[j]` is multiplied by the value of the gate `j`. -/
theorem c34_gated2_scalars (sz : R → ℕ) (trivial supports : R → Bool) (htriv : ∀ r, trivial r = true → sz r = 1) (tg t : List R) (ht : t ≠ [])
    (hpos : ∀ r ∈ t, 0 < sz r) (hcheck : gated2Check trivial supports tg t = true) (σ : ℝ → ℝ) (bias : List ℝ) (hb : bias.length = tg.length) :
    ∃ ord : List ℕ, ord.Perm (List.range t.length) ∧ ∀ (junk : List (P → ℝ)) (g x : GTensor R (P → ℝ)), junk.length = typeSize sz t →
      g.WF sz → g.ty = tg → x.WF sz → x.ty = t →
      ∃ y, gated2 sz trivial supports tg t σ bias junk g x = some y ∧ y.WF sz ∧ y.ty = t ∧
        ∀ j c : ℕ, ord[j]? = some c → (y.fields sz)[c]? = ((x.fields sz)[c]?).map (scaleField (gateSpec σ bias g.data j)) := by
  have hc := hcheck
  simp only [gated2Check, Bool.and_eq_true, List.all_eq_true, beq_iff_eq] at hc
  obtain ⟨⟨c1, c2⟩, c3⟩ := hc
  refine ⟨fieldOrder (t.map sz) (sortedKeys (t.map sz)), ?_, ?_⟩
  · have := fieldOrder_perm (t.map sz) (sortedKeys (t.map sz)) (sortedKeys_nodup _) fun l hl => (mem_sortedKeys _ _).2 hl
    rwa [List.length_map] at this
  · intro junk g x hj hg hgt hx hxt
    subst hxt
    obtain ⟨y, h1, h2, h3⟩ := sizeLoop_spec x.data (x.ty.map sz) hx.2 (type_sizes sz hpos)
      (fun s k fld => fld.map (· * (gateValues σ bias g.data)[k]?.getD 0)) (sortedKeys (x.ty.map sz))
      (sortedKeys_nodup _) (mem_sortedKeys _) (fun s k fld h => by simpa using h) junk hj
    refine ⟨⟨x.ty, y⟩, ?_, ⟨ht, h2⟩, rfl, ?_⟩
    · rw [gated2, if_pos hcheck, if_pos ⟨hgt, rfl⟩]
      dsimp only
      rw [h1]
      exact if_pos h2
    · intro j c hc
      obtain ⟨s, hs, h4⟩ := h3 j c hc
      have hjl : j < x.ty.length := by
        have h5 := (fieldOrder_perm (x.ty.map sz) (sortedKeys (x.ty.map sz)) (sortedKeys_nodup _)
          fun l hl => (mem_sortedKeys _ _).2 hl).length_eq
        rw [List.length_range, List.length_map] at h5
        rw [← h5]; exact (List.getElem?_eq_some_iff.1 hc).1
      have hgl : g.data.length = tg.length := by
        rw [hg.2, hgt, typeSize]
        clear * - htriv c1
        induction tg with
        | nil => rfl
        | cons r tg ih =>
          rw [List.map_cons, List.sum_cons, htriv r (c1 r (by simp)), ih fun q hq => c1 q (by simp [hq]), List.length_cons, add_comm]
      have hgv := gateValues_get σ bias g.data (j := j) (by omega) (by omega)
      rw [GTensor.fields, h4]
      simp only [GTensor.fields]
      rcases (chunks (x.ty.map sz) x.data)[c]? with _ | fld
      · rfl
      · simp only [Option.map_some, hgv]
        congr 1
        rw [scaleField]
        apply List.map_congr_left
        intro v _
        funext p
        rw [Pi.mul_apply, mul_comm]

/-- A transformation of trivial fields only moves the positions. -/
theorem transform_trivial (sz : R → ℕ) (ρ : R → Mat) (π : P → P) (g : GTensor R (P → ℝ)) (hg : g.WF sz)
    (h : ∀ r ∈ g.ty, sz r = 1 ∧ ρ r 0 0 = 1) : (g.transform sz ρ π).data = g.data.map fun v => v ∘ π := by
  rw [← GTensor.fields_flatten (transform_wf ρ π hg), transform_fields, ← GTensor.fields_flatten hg, List.map_flatten]
  congr 1
  apply List.ext_getElem
  · simp [GTensor.fields_length]
  · intro i h1 h2
    simp only [List.getElem_zipWith, List.getElem_map]
    have hi : i < g.ty.length := by simp [GTensor.fields_length] at h2; exact h2
    obtain ⟨e1, e2⟩ := h _ (List.getElem_mem hi)
    have hlen := field_length hg (List.getElem?_eq_getElem hi) (List.getElem?_eq_getElem (by rw [GTensor.fields_length]; exact hi))
    rw [e1] at hlen
    obtain ⟨v, hv⟩ := List.length_eq_one_iff.1 hlen
    rw [hv, e1, moveField, chAct]
    simp [e2]

/-- **C34, second gated nonlinearity**: the module commutes with all transformations which leave the gates unchanged. -/
theorem c34_gated2_equivariant (sz : R → ℕ) (trivial supports : R → Bool) (tg t : List R) (hpos : ∀ r ∈ t, 0 < sz r)
    (hcheck : gated2Check trivial supports tg t = true) (σ : ℝ → ℝ) (bias : List ℝ) (hb : bias.length = tg.length) (ρ : R → Mat) (π : P → P)
    (htriv : ∀ r, trivial r = true → sz r = 1 ∧ ρ r 0 0 = 1) (junk junk' : List (P → ℝ)) (hj : junk.length = typeSize sz t)
    (hj' : junk'.length = typeSize sz t) (g x : GTensor R (P → ℝ)) (hg : g.WF sz) (hgt : g.ty = tg) (hx : x.WF sz) (hxt : x.ty = t) :
    ∃ y, gated2 sz trivial supports tg t σ bias junk g x = some y ∧
      gated2 sz trivial supports tg t σ bias junk' (g.transform sz ρ π) (x.transform sz ρ π) = some (y.transform sz ρ π) := by
  obtain ⟨ord, hord, hall⟩ := c34_gated2_scalars (P := P) sz trivial supports (fun r h => (htriv r h).1) tg t (hxt ▸ hx.1) hpos hcheck σ bias hb
  obtain ⟨y, h1, h2, h3, h4⟩ := hall junk g x hj hg hgt hx hxt
  obtain ⟨y', h1', h2', h3', h4'⟩ := hall junk' (g.transform sz ρ π) (x.transform sz ρ π) hj' (transform_wf ρ π hg) hgt (transform_wf ρ π hx) hxt
  refine ⟨y, h1, ?_⟩
  rw [h1']
  congr 1
  refine transform_of_fields h2 h2' (h3'.trans h3.symm) ?_
  intro c r hr
  have hc : c < t.length := by rw [← h3]; exact (List.getElem?_eq_some_iff.1 hr).1
  obtain ⟨j, hj⟩ := List.mem_iff_getElem?.1 (hord.mem_iff.2 (List.mem_range.2 hc))
  have hr' : x.ty[c]? = some r := by rw [hxt, ← h3]; exact hr
  have htr : ∀ r ∈ g.ty, sz r = 1 ∧ ρ r 0 0 = 1 := by
    intro r hr
    apply htriv
    simp only [gated2Check, Bool.and_eq_true, List.all_eq_true] at hcheck
    exact hcheck.1.1 r (hgt ▸ hr)
  have hgs : gateSpec σ bias (g.transform sz ρ π).data j = gateSpec σ bias g.data j ∘ π := by
    rw [transform_trivial sz ρ π g hg htr]
    funext p
    simp only [gateSpec, Function.comp_apply, List.getElem?_map]
    cases g.data[j]? <;> rfl
  rw [h4' j c hj, h4 j c hj, transform_fields_get sz ρ π x hr', hgs]
  cases (x.fields sz)[c]? with
  | none => rfl
  | some fld => simp only [Option.map_some, moveField_scale]

end E2
