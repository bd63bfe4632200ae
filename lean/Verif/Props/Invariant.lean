import Verif.Lemmas.Invariant
import Verif.Lemmas.Conv
import Verif.Props.PointwiseGroups

/-!
The invariant maps (C36): what they compute from each field, and that the result does not change when the fibers are transformed.
-/

namespace E2

open Mat

variable {P R : Type}

theorem maxVal_greatest {v : List ℝ} (h : v ≠ []) : IsGreatest {a | a ∈ v} (maxVal v) := by
  rw [maxVal]
  cases hm : v.max? with
  | none => exact absurd (List.max?_eq_none_iff.1 hm) h
  | some m =>
    rw [Option.getD_some]
    rw [List.max?_eq_some_iff] at hm
    exact ⟨hm.1, fun a ha => hm.2 a ha⟩

/-- The value depends on the set of entries only. -/
theorem maxVal_congr {v w : List ℝ} (h : ∀ a, a ∈ v ↔ a ∈ w) : maxVal v = maxVal w := by
  by_cases hv : v = []
  · have : w = [] := by
      rw [List.eq_nil_iff_forall_not_mem]
      intro a ha
      rw [← h, hv] at ha
      simp at ha
    rw [hv, this]
  · have hw : w ≠ [] := by
      obtain ⟨a, ha⟩ := List.exists_mem_of_ne_nil _ hv
      exact List.ne_nil_of_mem ((h a).1 ha)
    refine (maxVal_greatest hv).unique ?_
    have := maxVal_greatest hw
    rwa [show {a | a ∈ w} = {a | a ∈ v} from Set.ext fun a => (h a).symm] at this

/-- The output of a map with one trivial field for each field, after moving the positions. -/
def moveScalars (π : P → P) (y : GTensor R (P → ℝ)) : GTensor R (P → ℝ) := ⟨y.ty, y.data.map fun v => v ∘ π⟩

/-- For one output channel per field, invariance follows from invariance field by field. -/
theorem scalars_invariant {sz : R → ℕ} {x : GTensor R (P → ℝ)} (hx : x.WF sz) (ρ : R → Mat) (π : P → P) {f : R → List (P → ℝ) → P → ℝ}
    (hf : ∀ r ∈ x.ty, ∀ fld, fld.length = sz r → f r (moveField (sz r) (ρ r) π fld) = f r fld ∘ π)
    {d d' : List (P → ℝ)} (hd : d.length = x.ty.length) (hd' : d'.length = x.ty.length)
    (h : ∀ (c : ℕ) r, x.ty[c]? = some r → d[c]? = ((x.fields sz)[c]?).map (f r))
    (h' : ∀ (c : ℕ) r, x.ty[c]? = some r → d'[c]? = (((x.transform sz ρ π).fields sz)[c]?).map (f r)) : d' = d.map fun v => v ∘ π := by
  apply List.ext_getElem?
  intro c
  rw [List.getElem?_map]
  by_cases hc : c < x.ty.length
  · have hr := List.getElem?_eq_getElem hc
    obtain ⟨fld, hfld⟩ := field_exists (sz := sz) hr
    rw [h c _ hr, h' c _ hr, transform_fields_get sz ρ π x hr, hfld]
    simp only [Option.map_some]
    rw [hf _ (List.getElem_mem hc) fld (field_length hx hr hfld)]
  · rw [List.getElem?_eq_none (by omega), List.getElem?_eq_none (by omega)]
    rfl

theorem fieldAt_perm {n : ℕ} {M : Mat} (hM : IsPerm n M) (π : P → P) {fld : List (P → ℝ)} (hl : fld.length = n) (p : P) (a : ℝ) :
    a ∈ fieldAt (moveField n M π fld) p ↔ a ∈ fieldAt fld (π p) := by
  obtain ⟨σ, h⟩ := hM
  have hget : ∀ i (hi : i < n), (fieldAt (moveField n M π fld) p)[i]'(by simpa [fieldAt, moveField_length] using hi)
      = (fieldAt fld (π p))[(σ ⟨i, hi⟩ : ℕ)]'(by simp [fieldAt, hl]) := by
    intro i hi
    have h1 := moveField_get n M π fld hi p
    rw [Finset.sum_eq_single (σ ⟨i, hi⟩ : ℕ)] at h1
    · rw [h ⟨i, hi⟩ (σ ⟨i, hi⟩), if_pos rfl, one_mul, List.getElem?_eq_getElem (by rw [moveField_length]; exact hi),
        List.getElem?_eq_getElem (by rw [hl]; exact (σ ⟨i, hi⟩).2)] at h1
      simpa [fieldAt] using h1
    · intro j hj hne
      rw [Finset.mem_range] at hj
      rw [h ⟨i, hi⟩ ⟨j, hj⟩, if_neg fun e => hne (congrArg Fin.val e), zero_mul]
    · intro hh
      exact absurd (Finset.mem_range.2 (σ ⟨i, hi⟩).2) hh
  constructor
  · intro ha
    obtain ⟨i, hi, rfl⟩ := List.getElem_of_mem ha
    rw [hget i (by simpa [fieldAt, moveField_length] using hi)]
    exact List.getElem_mem _
  · intro ha
    obtain ⟨j, hj, rfl⟩ := List.getElem_of_mem ha
    have hj' : j < n := by simpa [fieldAt, hl] using hj
    have := hget (σ.symm ⟨j, hj'⟩) (σ.symm ⟨j, hj'⟩).2
    simp only [Fin.eta, Equiv.apply_symm_apply] at this
    rw [← this]
    exact List.getElem_mem _

/-- C36, group pooling: each channel of the output is the largest entry of the corresponding field at each position. -/
theorem c36_groupPooling_max [DecidableEq R] (sz : R → ℕ) (t : List R) (triv : R) (htriv : sz triv = 1) (hpos : ∀ r ∈ t, 0 < sz r)
    (junk : List (P → ℝ)) (hj : junk.length = t.length) (x : GTensor R (P → ℝ)) (hx : x.WF sz) (hxt : x.ty = t) :
    ∃ d, groupPooling sz t triv junk x = some ⟨List.replicate t.length triv, d⟩ ∧ d.length = t.length ∧
      ∀ c (hc : c < d.length) fld, (x.fields sz)[c]? = some fld → ∀ p, IsGreatest {a | a ∈ fieldAt fld p} (d[c] p) := by
  obtain ⟨d, h1, h2, h3⟩ := poolBySize_spec sz t (hxt ▸ hx.1) triv htriv (fun fld p => maxVal (fld.map fun c => c p)) hpos junk hj x hx hxt
  refine ⟨d, h1, h2, fun c hc fld hf p => ?_⟩
  have h := h3 c (by omega)
  rw [hf, List.getElem?_eq_getElem hc] at h
  have hr : x.ty[c]? = some (t[c]'(by omega)) := by rw [hxt, List.getElem?_eq_getElem]
  have hl := field_length hx hr hf
  have := hpos _ (List.getElem_mem (show c < t.length by omega))
  rw [Option.some.inj h]
  exact maxVal_greatest (v := fieldAt fld p) (by
    intro e
    have e' := congrArg List.length e
    simp only [fieldAt, List.length_map, List.length_nil] at e'
    omega)

/-- C36, group pooling: the output does not change when the fibers of permutation fields are transformed; when the positions are moved, the
output is moved in the same way. -/
theorem c36_groupPooling_invariant [DecidableEq R] (sz : R → ℕ) (t : List R) (triv : R) (htriv : sz triv = 1) (hpos : ∀ r ∈ t, 0 < sz r)
    (junk : List (P → ℝ)) (hj : junk.length = t.length) (x : GTensor R (P → ℝ)) (hx : x.WF sz) (hxt : x.ty = t)
    (ρ : R → Mat) (hρ : ∀ r ∈ t, IsPerm (sz r) (ρ r)) (π : P → P) :
    ∃ y, groupPooling sz t triv junk x = some y ∧ groupPooling sz t triv junk (x.transform sz ρ id) = some y ∧
      groupPooling sz t triv junk (x.transform sz ρ π) = some (moveScalars π y) := by
  have hf : ∀ π : P → P, ∀ r ∈ x.ty, ∀ fld : List (P → ℝ), fld.length = sz r →
      (fun p => maxVal ((moveField (sz r) (ρ r) π fld).map fun c => c p)) = (fun p => maxVal (fld.map fun c => c p)) ∘ π := by
    intro π r hr fld hl
    funext p
    exact maxVal_congr fun a => fieldAt_perm (hρ r (hxt ▸ hr)) π hl p a
  obtain ⟨d, h1, h2, h3⟩ := poolBySize_spec sz t (hxt ▸ hx.1) triv htriv (fun fld p => maxVal (fld.map fun c => c p)) hpos junk hj x hx hxt
  have key : ∀ π : P → P, groupPooling sz t triv junk (x.transform sz ρ π) = some (moveScalars π ⟨List.replicate t.length triv, d⟩) := by
    intro π
    obtain ⟨d', h1', h2', h3'⟩ := poolBySize_spec sz t (hxt ▸ hx.1) triv htriv (fun fld p => maxVal (fld.map fun c => c p)) hpos junk hj
      (x.transform sz ρ π) (transform_wf ρ π hx) hxt
    rw [groupPooling, h1', moveScalars]
    have := scalars_invariant hx ρ π (f := fun _ fld p => maxVal (fld.map fun c => c p)) (hf π) (d := d) (d' := d') (by rw [hxt, h2]) (by rw [hxt, h2'])
      (fun c r hr => h3 c (by rw [← hxt]; exact (List.getElem?_eq_some_iff.1 hr).1))
      (fun c r hr => h3' c (by rw [← hxt]; exact (List.getElem?_eq_some_iff.1 hr).1))
    rw [this]
  refine ⟨_, h1, ?_, key π⟩
  rw [key id, moveScalars]
  simp

/-- C36, norm pooling: each channel of the output is the norm of the corresponding field, unchanged by transformations of the fibers with
orthogonal matrices. -/
theorem c36_normPool_norm [DecidableEq R] (sz : R → ℕ) (t : List R) (triv : R) (htriv : sz triv = 1) (hpos : ∀ r ∈ t, 0 < sz r)
    (junk : List (P → ℝ)) (hj : junk.length = t.length) (x : GTensor R (P → ℝ)) (hx : x.WF sz) (hxt : x.ty = t) :
    ∃ d, normPool sz t triv junk x = some ⟨List.replicate t.length triv, d⟩ ∧ d.length = t.length ∧
      ∀ c (hc : c < d.length) fld, (x.fields sz)[c]? = some fld → ∀ p, d[c] p = √((fieldAt fld p).map (· ^ 2)).sum := by
  obtain ⟨d, h1, h2, h3⟩ := poolBySize_spec sz t (hxt ▸ hx.1) triv htriv fieldNorm hpos junk hj x hx hxt
  refine ⟨d, h1, h2, fun c hc fld hf p => ?_⟩
  have h := h3 c (by omega)
  rw [hf, List.getElem?_eq_getElem hc] at h
  rw [Option.some.inj h, fieldNorm, fieldAt, List.map_map]
  rfl

theorem c36_normPool_invariant [DecidableEq R] (sz : R → ℕ) (t : List R) (triv : R) (htriv : sz triv = 1) (hpos : ∀ r ∈ t, 0 < sz r)
    (junk : List (P → ℝ)) (hj : junk.length = t.length) (x : GTensor R (P → ℝ)) (hx : x.WF sz) (hxt : x.ty = t)
    (ρ : R → Mat) (hρ : ∀ r ∈ t, Orth (sz r) (ρ r)) (π : P → P) :
    ∃ y, normPool sz t triv junk x = some y ∧ normPool sz t triv junk (x.transform sz ρ id) = some y ∧
      normPool sz t triv junk (x.transform sz ρ π) = some (moveScalars π y) := by
  obtain ⟨d, h1, h2, h3⟩ := poolBySize_spec sz t (hxt ▸ hx.1) triv htriv fieldNorm hpos junk hj x hx hxt
  have key : ∀ π : P → P, normPool sz t triv junk (x.transform sz ρ π) = some (moveScalars π ⟨List.replicate t.length triv, d⟩) := by
    intro π
    obtain ⟨d', h1', h2', h3'⟩ := poolBySize_spec sz t (hxt ▸ hx.1) triv htriv fieldNorm hpos junk hj
      (x.transform sz ρ π) (transform_wf ρ π hx) hxt
    rw [normPool, h1', moveScalars]
    have := scalars_invariant hx ρ π (f := fun _ => fieldNorm) (fun r hr fld hl => fieldNorm_move (hρ r (hxt ▸ hr)) π fld hl) (d := d) (d' := d')
      (by rw [hxt, h2]) (by rw [hxt, h2'])
      (fun c r hr => h3 c (by rw [← hxt]; exact (List.getElem?_eq_some_iff.1 hr).1))
      (fun c r hr => h3' c (by rw [← hxt]; exact (List.getElem?_eq_some_iff.1 hr).1))
    rw [this]
  refine ⟨_, h1, ?_, key π⟩
  rw [key id, moveScalars]
  simp

/-- Specification: an array which permutes the blocks of size `s`, acting by an orthogonal array on each. -/
def IsBlockPerm (n s : ℕ) (M : Mat) : Prop :=
  ∃ (σ : Equiv.Perm (Fin n)) (O : Fin n → Mat), (∀ i, Orth s (O i)) ∧
    ∀ (i j : Fin n) (a b : Fin s), M (i * s + a) (j * s + b) = if j = σ i then O i a b else 0

theorem subfield_get {n s : ℕ} {fld : List (P → ℝ)} {i : ℕ} (hi : i < n) :
    (chunks (List.replicate n s) fld)[i]? = some ((fld.drop (i * s)).take s) := by
  rw [chunks_get _ _ (by simpa using hi)]
  have : offset (List.replicate n s) i = i * s := by simp [offset, List.take_replicate, min_eq_left hi.le]
  rw [this, List.getElem_replicate]

theorem subfield_norm {n s : ℕ} {fld : List (P → ℝ)} (hl : fld.length = n * s) {i : ℕ} (hi : i < n) (p : P) :
    fieldNorm ((fld.drop (i * s)).take s) p = √(∑ a ∈ Finset.range s, (fld[i * s + a]?.getD 0 p) ^ 2) := by
  have hle : i * s + s ≤ n * s := by nlinarith
  rw [fieldNorm_eq s _ (by simp; omega)]
  congr 1
  apply Finset.sum_congr rfl
  intro a ha
  rw [List.getElem?_take_of_lt (Finset.mem_range.1 ha), List.getElem?_drop]

/-- The norm of a subfield of the transformed field is the norm of another subfield. -/
theorem subfield_norm_move {n s : ℕ} {M : Mat} {σ : Equiv.Perm (Fin n)} {O : Fin n → Mat} (hO : ∀ i, Orth s (O i))
    (hM : ∀ (i j : Fin n) (a b : Fin s), M (i * s + a) (j * s + b) = if j = σ i then O i a b else 0) (π : P → P) {fld : List (P → ℝ)}
    (hl : fld.length = n * s) (i : Fin n) (p : P) :
    fieldNorm (((moveField (n * s) M π fld).drop (i * s)).take s) p = fieldNorm ((fld.drop (σ i * s)).take s) (π p) := by
  have hb : ∀ (k : Fin n) (a : ℕ), a < s → k * s + a < n * s := fun k a ha => by
    have := k.2
    nlinarith
  rw [subfield_norm (moveField_length _ _ _ _) i.2, subfield_norm hl (σ i).2, 
    ← orth_sum_sq (hO i) fun b => fld[(σ i : ℕ) * s + b]?.getD 0 (π p)]
  congr 1
  apply Finset.sum_congr rfl
  intro a ha
  rw [Finset.mem_range] at ha
  rw [moveField_get (n * s) M π fld (hb i a ha), sum_range_blocks, Finset.sum_eq_single (σ i : ℕ)]
  · congr 1
    apply Finset.sum_congr rfl
    intro b hb
    rw [Finset.mem_range] at hb
    have := hM i (σ i) ⟨a, ha⟩ ⟨b, hb⟩
    rw [if_pos rfl] at this
    rw [this]
  · intro j hj hne
    rw [Finset.mem_range] at hj
    apply Finset.sum_eq_zero
    intro b hb
    rw [Finset.mem_range] at hb
    have := hM i ⟨j, hj⟩ ⟨a, ha⟩ ⟨b, hb⟩
    rw [if_neg fun e => hne (congrArg Fin.val e)] at this
    rw [this, zero_mul]
  · intro h; exact absurd (Finset.mem_range.2 (σ i).2) h

theorem mem_subfields {n s : ℕ} (hs : 0 < s) {fld : List (P → ℝ)} (hl : fld.length = n * s) (p : P) (a : ℝ) :
    a ∈ (viewFields s fld).map (fun g => fieldNorm g p) ↔ ∃ i : Fin n, a = fieldNorm ((fld.drop (i * s)).take s) p := by
  rw [viewFields_eq s n hs fld hl, List.mem_map]
  constructor
  · rintro ⟨g, hg, rfl⟩
    obtain ⟨i, hi⟩ := List.mem_iff_getElem?.1 hg
    have hin : i < n := by
      have := (List.getElem?_eq_some_iff.1 hi).1
      simpa [chunks_length] using this
    rw [subfield_get hin] at hi
    exact ⟨⟨i, hin⟩, by rw [← Option.some.inj hi]⟩
  · rintro ⟨i, rfl⟩
    exact ⟨_, List.mem_of_getElem? (subfield_get i.2), rfl⟩

theorem subfieldNorm_move {n s : ℕ} (hs : 0 < s) {M : Mat} (hM : IsBlockPerm n s M) (π : P → P) {fld : List (P → ℝ)} (hl : fld.length = n * s) :
    subfieldNorm s (moveField (n * s) M π fld) = subfieldNorm s fld ∘ π := by
  obtain ⟨σ, O, hO, hM⟩ := hM
  funext p
  refine maxVal_congr fun a => ?_
  rw [mem_subfields hs (moveField_length _ _ _ _), mem_subfields hs hl]
  constructor
  · rintro ⟨i, rfl⟩
    exact ⟨σ i, subfield_norm_move hO hM π hl i p⟩
  · rintro ⟨i, rfl⟩
    refine ⟨σ.symm i, ?_⟩
    rw [subfield_norm_move hO hM π hl (σ.symm i) p, Equiv.apply_symm_apply]

theorem inducedNormPool_spec [DecidableEq R] (sz sub : R → ℕ) (t : List R) (triv : R) (htriv : sz triv = 1) (hpos : ∀ r ∈ t, 0 < sz r)
    (hdiv : ∀ r ∈ t, sub r ∣ sz r) (junk : List (P → ℝ)) (hj : junk.length = t.length) (x : GTensor R (P → ℝ)) (hx : x.WF sz) (hxt : x.ty = t) :
    ∃ d, inducedNormPool sz sub t triv junk x = some ⟨List.replicate t.length triv, d⟩ ∧ d.length = t.length ∧
      ∀ (c : ℕ) r, t[c]? = some r → d[c]? = ((x.fields sz)[c]?).map (subfieldNorm (sub r)) := by
  subst hxt
  set ids := x.ty.map fun r => (sz r, sub r) with hids
  have hpos' : ∀ s ∈ x.ty.map sz, 0 < s := by
    intro s hs
    obtain ⟨r, hr, rfl⟩ := List.mem_map.1 hs
    exact hpos r hr
  have hlen : ids.length = (x.ty.map sz).length := by simp [hids]
  have hget : ∀ (c : ℕ) l, ids[c]? = some l → ∃ r, x.ty[c]? = some r ∧ l = (sz r, sub r) := by
    intro c l h
    rw [hids, List.getElem?_map] at h
    obtain ⟨r, hr, e⟩ := Option.map_eq_some_iff.1 h
    exact ⟨r, hr, e.symm⟩
  obtain ⟨y, h1, h2, h3⟩ := poolLoop_spec x.data ids (x.ty.map sz) hx.2 hlen (fun l => (contigFlags ids l).getD false) (fun l => l.1)
    (fun l => subfieldNorm l.2)
    (fun l hl => by obtain ⟨r, hr, rfl⟩ := List.mem_map.1 hl; exact hpos r hr)
    (fun c l h => by obtain ⟨r, hr, rfl⟩ := hget c l h; rw [List.getElem?_map, hr]; rfl)
    (fun l hl => by
      cases hc : contigFlags ids l with
      | none => exact absurd hl ((((contigFlags_spec ids).2 l).1).1 hc)
      | some b => exact flagOk_contig ids (x.ty.map sz) hlen hpos' l b hc) junk (by simpa [hids] using hj)
  refine ⟨y, ?_, by simpa [hids] using h2, ?_⟩
  · rw [inducedNormPool, if_pos ⟨rfl, fun r hr => Nat.mod_eq_zero_of_dvd (hdiv r hr)⟩]
    simp only [← hids, funext fun l => (labelIdx_eq ids (x.ty.map sz) hlen l).2,
      show labelChannels ids (x.ty.map sz) = fun l => chanIdx (x.ty.map sz) (posOf ids l) from
        funext fun l => (labelIdx_eq ids (x.ty.map sz) hlen l).1]
    rw [h1]
    dsimp only
    rw [mkGT, if_pos]
    rw [typeSize, List.map_replicate, htriv, List.sum_replicate, smul_eq_mul, mul_one]
    simpa [hids] using h2
  · intro c r hr
    exact h3 c (sz r, sub r) (by rw [hids, List.getElem?_map, hr]; rfl)

/-- C36, induced norm pooling: each channel of the output is the largest of the norms of the subfields of the corresponding field. -/
theorem c36_inducedNorm_max [DecidableEq R] (sz sub : R → ℕ) (t : List R) (triv : R) (htriv : sz triv = 1) (hpos : ∀ r ∈ t, 0 < sz r)
    (hdiv : ∀ r ∈ t, sub r ∣ sz r) (junk : List (P → ℝ)) (hj : junk.length = t.length) (x : GTensor R (P → ℝ)) (hx : x.WF sz) (hxt : x.ty = t) :
    ∃ d, inducedNormPool sz sub t triv junk x = some ⟨List.replicate t.length triv, d⟩ ∧ d.length = t.length ∧
      ∀ c (hc : c < d.length) r fld, t[c]? = some r → (x.fields sz)[c]? = some fld → ∀ p,
        IsGreatest {a | ∃ i < sz r / sub r, a = √(∑ b ∈ Finset.range (sub r), (fld[i * sub r + b]?.getD 0 p) ^ 2)} (d[c] p) := by
  obtain ⟨d, h1, h2, h3⟩ := inducedNormPool_spec sz sub t triv htriv hpos hdiv junk hj x hx hxt
  refine ⟨d, h1, h2, fun c hc r fld hr hf p => ?_⟩
  have h := h3 c r hr
  rw [hf, List.getElem?_eq_getElem hc] at h
  rw [Option.some.inj h]
  have hrm := List.mem_of_getElem? hr
  obtain ⟨n, hn⟩ := hdiv r hrm
  have hp := hpos r hrm
  have hs : 0 < sub r := Nat.pos_of_ne_zero fun e => by rw [e, zero_mul] at hn; omega
  have hl : fld.length = n * sub r := by rw [field_length hx (hxt ▸ hr) hf, hn, _root_.mul_comm]
  have hdivn : sz r / sub r = n := by rw [hn, Nat.mul_div_cancel_left _ hs]
  have hn0 : 0 < n := Nat.pos_of_ne_zero fun e => by rw [e, mul_zero] at hn; omega
  have hset : {a | ∃ i < sz r / sub r, a = √(∑ b ∈ Finset.range (sub r), (fld[i * sub r + b]?.getD 0 p) ^ 2)}
      = {a | a ∈ (viewFields (sub r) fld).map (fun g => fieldNorm g p)} := by
    ext a
    rw [Set.mem_ofPred_eq, Set.mem_ofPred_eq, mem_subfields hs hl, hdivn]
    constructor
    · rintro ⟨i, hi, rfl⟩
      exact ⟨⟨i, hi⟩, (subfield_norm hl hi p).symm⟩
    · rintro ⟨i, rfl⟩
      exact ⟨i, i.2, subfield_norm hl i.2 p⟩
  rw [hset]
  refine maxVal_greatest ?_
  have : fieldNorm ((fld.drop (0 * sub r)).take (sub r)) p ∈ (viewFields (sub r) fld).map (fun g => fieldNorm g p) :=
    (mem_subfields hs hl p _).2 ⟨⟨0, hn0⟩, rfl⟩
  exact List.ne_nil_of_mem this

/-- C36, induced norm pooling: the output does not change when the fibers are transformed by arrays which permute the subfields and act
orthogonally on them. -/
theorem c36_inducedNorm_invariant [DecidableEq R] (sz sub : R → ℕ) (t : List R) (triv : R) (htriv : sz triv = 1) (hpos : ∀ r ∈ t, 0 < sz r)
    (hdiv : ∀ r ∈ t, sub r ∣ sz r) (junk : List (P → ℝ)) (hj : junk.length = t.length) (x : GTensor R (P → ℝ)) (hx : x.WF sz) (hxt : x.ty = t)
    (ρ : R → Mat) (hρ : ∀ r ∈ t, IsBlockPerm (sz r / sub r) (sub r) (ρ r)) (π : P → P) :
    ∃ y, inducedNormPool sz sub t triv junk x = some y ∧ inducedNormPool sz sub t triv junk (x.transform sz ρ id) = some y ∧
      inducedNormPool sz sub t triv junk (x.transform sz ρ π) = some (moveScalars π y) := by
  obtain ⟨d, h1, h2, h3⟩ := inducedNormPool_spec sz sub t triv htriv hpos hdiv junk hj x hx hxt
  have key : ∀ π : P → P, inducedNormPool sz sub t triv junk (x.transform sz ρ π) = some (moveScalars π ⟨List.replicate t.length triv, d⟩) := by
    intro π
    obtain ⟨d', h1', h2', h3'⟩ := inducedNormPool_spec sz sub t triv htriv hpos hdiv junk hj (x.transform sz ρ π) (transform_wf ρ π hx) hxt
    rw [h1', moveScalars]
    have hf : ∀ r ∈ x.ty, ∀ fld : List (P → ℝ), fld.length = sz r →
        subfieldNorm (sub r) (moveField (sz r) (ρ r) π fld) = subfieldNorm (sub r) fld ∘ π := by
      intro r hr fld hl
      rw [hxt] at hr
      obtain ⟨n, hn⟩ := hdiv r hr
      have hp := hpos r hr
      have hs : 0 < sub r := Nat.pos_of_ne_zero fun e => by rw [e, zero_mul] at hn; omega
      have hn' : sz r = n * sub r := by rw [hn, _root_.mul_comm]
      have hdivn : sz r / sub r = n := by rw [hn, Nat.mul_div_cancel_left _ hs]
      have := hρ r hr
      rw [hdivn] at this
      rw [hn']
      exact subfieldNorm_move hs this π (by rw [hl, hn'])
    have := scalars_invariant hx ρ π (f := fun r => subfieldNorm (sub r)) hf (d := d) (d' := d')
      (by rw [hxt, h2]) (by rw [hxt, h2']) (fun c r hr => h3 c r (hxt ▸ hr)) (fun c r hr => h3' c r (hxt ▸ hr))
    rw [this]
  refine ⟨_, h1, ?_, key π⟩
  rw [key id, moveScalars]
  simp

variable {El El' : Type}

/-- Representations induced from orthogonal representations permute the subfields and act orthogonally on them. -/
theorem c36_induced_isBlockPerm [DecidableEq El] {G : Grp El} {els : List El} {H : Grp El'} {S : SubData El El'} (ok : SubOk G els H S)
    (hH : H.InvOk) {ρ : Irrep El'} (hρ : IsOrthRep H ρ.size ρ.mat) (hs : 0 < ρ.size) {reps : List El} {r : Repr El}
    (hr : IsInducedRep G H S ρ reps r) {g : El} (hg : G.isEl g) : IsBlockPerm (r.size / ρ.size) ρ.size (r.mat g) := by
  rw [hr.size, Nat.mul_div_cancel _ hs]
  have L := ok.lawG
  have T := hr.transversal
  obtain ⟨τ, hinj, hτ⟩ := coset_perm ok T hg
  let e : Equiv.Perm (Fin reps.length) := Equiv.ofBijective τ (Finite.injective_iff_bijective.1 hinj)
  have he : ∀ i, τ (e.symm i) = i := fun i => e.apply_symm_apply i
  have hel : ∀ i j : Fin reps.length, G.isEl (G.op (G.inv reps[(j : ℕ)]) (G.op g reps[(i : ℕ)])) := fun i j =>
    L.op_mem _ _ (L.inv_mem _ (T.mem _ (List.getElem_mem j.2))) (L.op_mem _ _ hg (T.mem _ (List.getElem_mem i.2)))
  have hsome : ∀ i j : Fin reps.length, (S.child (G.op (G.inv reps[(j : ℕ)]) (G.op g reps[(i : ℕ)]))).isSome ↔ j = τ i := by
    intro i j
    rw [child_isSome ok (hel i j), ← inCoset_iff ok (T.mem _ (List.getElem_mem j.2)) (L.op_mem _ _ hg (T.mem _ (List.getElem_mem i.2)))]
    exact hτ i j
  have hch : ∀ j : Fin reps.length, ∃ h, H.isEl h ∧ S.child (G.op (G.inv reps[(j : ℕ)]) (G.op g reps[(e.symm j : ℕ)])) = some h := by
    intro j
    obtain ⟨h, hh⟩ := Option.isSome_iff_exists.1 ((hsome (e.symm j) j).2 (he j).symm)
    exact ⟨h, (ok.pinv.parent_child _ _ (hel _ _) hh).1, hh⟩
  choose h hhm hhc using hch
  refine ⟨e.symm, fun j => ρ.mat (h j), fun j => hρ.orth hH _ (hhm j), ?_⟩
  intro j i a b
  rw [hr.mat g hg i i.2 j j.2 a b a.2 b.2]
  by_cases hij : i = e.symm j
  · rw [if_pos hij]
    subst hij
    simp only [hhc j]
  · rw [if_neg hij]
    have : S.child (G.op (G.inv reps[(j : ℕ)]) (G.op g reps[(i : ℕ)])) = none := by
      rw [← Option.not_isSome_iff_eq_none, hsome]
      intro hj
      exact hij (by rw [hj]; exact (e.symm_apply_apply i).symm)
    simp only [this]

/-- `MaxPoolChannels`, into which group pooling is exported, computes the same channels for types with fields of one size. -/
theorem c36_maxPoolChannels [DecidableEq R] (sz : R → ℕ) (t : List R) (triv : R) (htriv : sz triv = 1) (k : ℕ) (hk : 0 < k)
    (ht : ∀ r ∈ t, sz r = k) (junk : List (P → ℝ)) (hj : junk.length = t.length) (x : GTensor R (P → ℝ)) (hx : x.WF sz) (hxt : x.ty = t) :
    (groupPooling sz t triv junk x).map GTensor.data = maxPoolChannels k x.data := by
  have hsz : t.map sz = List.replicate t.length k := List.map_eq_replicate_iff.2 ht
  have hlen : x.data.length = t.length * k := by
    rw [hx.2, typeSize, hxt, hsz, List.sum_replicate, smul_eq_mul]
  obtain ⟨d, h1, h2, h3⟩ := poolBySize_spec sz t (hxt ▸ hx.1) triv htriv (fun fld p => maxVal (fld.map fun c => c p))
    (fun r hr => by rw [ht r hr]; exact hk) junk hj x hx hxt
  rw [groupPooling, h1, maxPoolChannels, if_pos (by rw [hlen]; exact Nat.mul_mod_left _ _), viewFields_eq k t.length hk _ hlen]
  simp only [Option.map_some]
  congr 1
  apply List.ext_getElem?
  intro c
  have hfc : x.fields sz = chunks (List.replicate t.length k) x.data := by rw [GTensor.fields, hxt, hsz]
  by_cases hc : c < t.length
  · rw [h3 c hc, List.getElem?_map, hfc]
  · rw [List.getElem?_eq_none (by omega), List.getElem?_eq_none (by rw [List.length_map, chunks_length, List.length_replicate]; omega)]

/-- Group pooling of a regular field of `C_N` between two trivial ones. -/
example (N : ℕ) (hN : 0 < N) : ∃ r, IsRegularRep (Cyclic.grp N) (Cyclic.elements N) r ∧ ∀ g, (Cyclic.grp N).isEl g →
    ∀ b : Bool, IsPerm (if b then N else 1) (if b then r.mat g else m1 1) := by
  obtain ⟨r, -, hr, -⟩ := c12_cyclic_regular N hN
  refine ⟨r, hr, fun g hg b => ?_⟩
  cases b with
  | false => exact isPerm_trivial rfl
  | true =>
    have := c33_regular_isPerm (Cyclic.lawful hN) (Cyclic.elements_nodup N)
      (fun e => (Cyclic.mem_elements N e).trans (Cyclic.isElement_iff N e).symm) hr hg
    rw [hr.size] at this
    simpa [Cyclic.elements] using this

/-- Permutations permute subfields of size one, so the quotient representations (`c33_quotient_isPerm`) meet the hypothesis of
`c36_inducedNorm_invariant`. -/
theorem IsPerm.isBlockPerm {n : ℕ} {M : Mat} (h : IsPerm n M) : IsBlockPerm n 1 M := by
  obtain ⟨σ, h⟩ := h
  refine ⟨σ, fun _ => Mat.one, fun _ => ?_, fun i j a b => ?_⟩
  · rw [Orth, MEq_iff_toM, toM_mul, toM_tr, toM_one]
    simp
  · have ha : a = 0 := Subsingleton.elim _ _
    have hb : b = 0 := Subsingleton.elim _ _
    subst ha hb
    simpa [Mat.one] using h i j

/-- The maximum of a field of three channels at a position. -/
example : maxVal [1, 5, -2] = 5 := by
  refine (maxVal_greatest (by simp)).unique ⟨by simp, ?_⟩
  intro a ha
  simp only [Set.mem_ofPred_eq, List.mem_cons, List.not_mem_nil, or_false] at ha
  rcases ha with rfl | rfl | rfl <;> norm_num

end E2
