import Verif.Model.Dropout
import Verif.Lemmas.Invariant
import Verif.Props.NonlinSpec

/-!
Field dropout (C38): in training mode each field is multiplied by one factor, 0 or `1 / (1 - p)`, at each position, and the module commutes with the action
on the fibers for fixed draws; in evaluation mode it is the identity.  The in-place form agrees with the other one exactly on the fields whose
group is contiguous; on the others it does nothing.
-/

namespace E2

open Mat

variable {P R L V : Type}

theorem dropField_scale {p : ℝ} (u : P → ℝ) (fld : List (P → ℝ)) [∀ q, Decidable (p < u q)] :
    dropField p u fld = scaleField (fun q => if p < u q then 1 / (1 - p) else 0) fld := by
  classical
  rw [dropField, scaleField]
  apply List.map_congr_left
  intro v _
  funext q
  by_cases h : p < u q
  · rw [if_pos h, if_pos h]; ring
  · rw [if_neg h, if_neg h]; ring

theorem dropField_length (p : ℝ) (u : P → ℝ) (fld : List (P → ℝ)) : (dropField p u fld).length = fld.length := by simp [dropField]

/-- The order in which the fields are treated, and so the number of the draws for each field: grouped by size. -/
def dropOrder (sz : R → ℕ) (t : List R) : List ℕ := fieldOrder (t.map sz) (firstKeys (t.map sz))

theorem dropOrder_perm (sz : R → ℕ) (t : List R) : (dropOrder sz t).Perm (List.range t.length) := by
  have := fieldOrder_perm (t.map sz) (firstKeys (t.map sz)) (firstKeys_nodup _) fun l hl => (mem_firstKeys _ _).2 hl
  simpa [dropOrder] using this

/-- C38, training mode: every field has its own draws (`dropOrder` is a permutation of the fields), and is multiplied at each position by
0 or `1 / (1 - p)`. -/
theorem c38_training [DecidableEq R] (sz : R → ℕ) (t : List R) (hpos : ∀ r ∈ t, 0 < sz r) (p : ℝ) (hp : p < 1) (u : ℕ → P → ℝ)
    [∀ k q, Decidable (p < u k q)] (junk : List (P → ℝ)) (x : GTensor R (P → ℝ)) (hx : x.WF sz) (hxt : x.ty = t) (hj : junk.length = x.data.length) :
    ∃ y, fieldDropout sz t p false true u junk x = some y ∧ y.WF sz ∧ y.ty = t ∧ (dropOrder sz t).Perm (List.range t.length) ∧
      ∀ j c : ℕ, (dropOrder sz t)[j]? = some c →
        (y.fields sz)[c]? = ((x.fields sz)[c]?).map (scaleField fun q => if p < u j q then 1 / (1 - p) else 0) := by
  subst hxt
  have hl : x.data.length = (x.ty.map sz).sum := hx.2
  obtain ⟨y, h1, h2, h3⟩ := sizeLoop_spec x.data (x.ty.map sz) hl (by
      intro s hs
      obtain ⟨r, hr, rfl⟩ := List.mem_map.1 hs
      exact hpos r hr) (fun _ k => dropField p (u k)) (firstKeys (x.ty.map sz)) (firstKeys_nodup _) (fun s => mem_firstKeys _ s)
    (fun s k fld h => by rw [dropField_length, h]) junk (by omega)
  refine ⟨⟨x.ty, y⟩, ?_, ⟨hx.1, h2⟩, rfl, dropOrder_perm sz x.ty, ?_⟩
  · rw [fieldDropout, if_pos rfl, if_pos rfl, if_neg hp.ne]
    dsimp only
    rw [if_neg (by simp), h1]
    exact if_pos h2
  · intro j c hjc
    obtain ⟨s, -, h4⟩ := h3 j c hjc
    change (chunks (x.ty.map sz) y)[c]? = _
    rw [h4]
    have : (dropField p (u j) : List (P → ℝ) → _) = scaleField fun q => if p < u j q then 1 / (1 - p) else 0 := funext fun fld => dropField_scale (u j) fld
    rw [this]
    rfl

/-- C38: for fixed draws the module commutes with the action on the fibers, whatever the representations; when the positions are moved, the
draws have to be moved with them. -/
theorem c38_equivariant [DecidableEq R] (sz : R → ℕ) (t : List R) (hpos : ∀ r ∈ t, 0 < sz r) (p : ℝ) (hp : p < 1) (u : ℕ → P → ℝ)
    (junk : List (P → ℝ)) (x : GTensor R (P → ℝ)) (hx : x.WF sz) (hxt : x.ty = t) (hj : junk.length = x.data.length) (ρ : R → Mat) (π : P → P) :
    ∃ y, fieldDropout sz t p false true u junk x = some y ∧
      fieldDropout sz t p false true u junk (x.transform sz ρ id) = some (y.transform sz ρ id) ∧
      fieldDropout sz t p false true (fun k => u k ∘ π) junk (x.transform sz ρ π) = some (y.transform sz ρ π) := by
  classical
  obtain ⟨y, h1, hy, hyt, hperm, h2⟩ := c38_training sz t hpos p hp u junk x hx hxt hj
  have key : ∀ π : P → P, fieldDropout sz t p false true (fun k => u k ∘ π) junk (x.transform sz ρ π) = some (y.transform sz ρ π) := by
    intro π
    have hl' : junk.length = (x.transform sz ρ π).data.length := by
      rw [hj, hx.2, (transform_wf ρ π hx).2]; rfl
    obtain ⟨y', h1', hy', hyt', -, h2'⟩ := c38_training sz t hpos p hp (fun k => u k ∘ π) junk (x.transform sz ρ π) (transform_wf ρ π hx) hxt hl'
    rw [h1']
    congr 1
    refine transform_of_fields hy hy' (by rw [hyt, hyt']) ?_
    intro c r hr
    rw [hyt] at hr
    have hc : c < t.length := (List.getElem?_eq_some_iff.1 hr).1
    obtain ⟨j, hj⟩ := List.mem_iff_getElem?.1 (hperm.mem_iff.2 (List.mem_range.2 hc))
    rw [h2' j c hj, h2 j c hj, transform_fields_get sz ρ π x (hxt ▸ hr), Option.map_map, Option.map_map]
    congr 1
    funext fld
    rw [Function.comp_apply, Function.comp_apply, moveField_scale]
    congr 1
  exact ⟨y, h1, key id, key π⟩

/-- C38, evaluation mode: the identity. -/
theorem c38_eval [DecidableEq R] (sz : R → ℕ) (p : ℝ) (inplace : Bool) (u : ℕ → P → ℝ) (junk : List (P → ℝ)) (x : GTensor R (P → ℝ)) :
    fieldDropout sz x.ty p inplace false u junk x = some x := by
  rw [fieldDropout, if_pos rfl, if_neg (by simp)]

/-- The constructor admits `p = 1`, but then training mode divides by zero. -/
theorem c38_p_one [DecidableEq R] (sz : R → ℕ) (inplace : Bool) (u : ℕ → P → ℝ) (junk : List (P → ℝ)) (x : GTensor R (P → ℝ)) :
    fieldDropout sz x.ty 1 inplace true u junk x = none := by
  rw [fieldDropout, if_pos rfl, if_pos rfl, if_pos rfl]

/-- The in-place loop, field by field. -/
theorem inplaceLoop_spec [DecidableEq L] (labels : List L) (sizes : List ℕ) (hl : labels.length = sizes.length) (contig : L → Bool) (s : L → ℕ)
    (φ : L → ℕ → List V → List V) (hφ : ∀ l k fld, fld.length = s l → (φ l k fld).length = s l)
    (hsi : ∀ (c : ℕ) l, labels[c]? = some l → sizes[c]? = some (s l)) (order : List L) (hn : order.Nodup) (hs : ∀ l ∈ order, 0 < s l)
    (hf : ∀ l ∈ order, FlagOk (contig l) (chanIdx sizes (posOf labels l))) (next : ℕ) (d : List V) (hd : d.length = sizes.sum) :
    ∃ y, inplaceLoop contig (labelChannels labels sizes) (labelCount labels) (fun l => eachField (s l) (φ l)) order next d = some y ∧
      y.length = sizes.sum ∧
      (∀ c, c ∉ fieldOrder labels order → (chunks sizes y)[c]? = (chunks sizes d)[c]?) ∧
      ∀ j c : ℕ, (fieldOrder labels order)[j]? = some c → ∃ l, labels[c]? = some l ∧
        (chunks sizes y)[c]? = if contig l then ((chunks sizes d)[c]?).map (φ l (next + j)) else (chunks sizes d)[c]? := by
  induction order generalizing next d with
  | nil => exact ⟨d, rfl, hd, fun _ _ => rfl, by simp [fieldOrder]⟩
  | cons l ls ih =>
    have hn' := List.nodup_cons.1 hn
    have e1 : labelChannels labels sizes = fun l => chanIdx sizes (posOf labels l) := by funext l; exact (labelIdx_eq labels sizes hl l).1
    have hdisj : ∀ c, c ∈ posOf labels l → c ∉ fieldOrder labels ls := by
      intro c hc h
      rw [fieldOrder, List.mem_flatMap] at h
      obtain ⟨l', hl', h'⟩ := h
      rw [mem_posOf] at hc h'
      rw [hc] at h'
      exact hn'.1 (Option.some.inj h' ▸ hl')
    have hord : fieldOrder labels (l :: ls) = posOf labels l ++ fieldOrder labels ls := by rw [fieldOrder, List.flatMap_cons, ← fieldOrder]
    have hcnt : (posOf labels l).length = labelCount labels l := posOf_length_eq labels l
    by_cases hc : contig l = true
    · -- the step writes the group
      obtain ⟨d1, g1, g2, g3, g4⟩ := fieldLoop_vals d sizes sizes hd contig (posOf labels) (posOf labels) s s φ [l]
        (fun l' h => by rw [List.mem_singleton.1 h]; exact hs l (by simp)) (fun l' _ c hc => hsi c l' (mem_posOf.1 hc))
        (fun l' _ c hc => hsi c l' (mem_posOf.1 hc)) (fun _ _ => rfl) (fun l' h => by rw [List.mem_singleton.1 h]; exact hf l (by simp))
        (fun l' h => by rw [List.mem_singleton.1 h]; exact hf l (by simp)) (fun l' _ k fld h => hφ l' k fld h) next d hd
      obtain ⟨y, h1, h2, h3, h4⟩ := ih hn'.2 (fun l' h => hs l' (by simp [h])) (fun l' h => hf l' (by simp [h])) (next + labelCount labels l) d1 g2
      have hstep : inplaceLoop contig (labelChannels labels sizes) (labelCount labels) (fun l => eachField (s l) (φ l)) (l :: ls) next d = some y := by
        rw [inplaceLoop, if_pos hc]
        rw [fieldLoop] at g1
        rw [e1]
        rw [hc] at g1
        cases hr : readGroup d true (chanIdx sizes (posOf labels l)) with
        | none => rw [hr] at g1; simp at g1
        | some g =>
          rw [hr] at g1
          dsimp only at g1 ⊢
          cases hw : writeGroup d true (chanIdx sizes (posOf labels l)) (eachField (s l) (φ l) next g) with
          | none => rw [hw] at g1; simp at g1
          | some d' =>
            rw [hw] at g1
            simp only [fieldLoop, Option.some.injEq] at g1
            rw [g1, ← h1, e1]
      have hfm : [l].flatMap (posOf labels) = posOf labels l := by simp
      rw [hfm] at g3 g4
      have hch : ∀ c, (chunks sizes d1)[c]? = if c ∈ posOf labels l then
          (loopVals (chunks sizes d) (posOf labels) (fun l => (posOf labels l).length) φ [l] next)[(posOf labels l).idxOf c]? else (chunks sizes d)[c]? := by
        intro c
        rw [g3, writeIdx_get _ _ _ (posOf_nodup labels l) g4.symm]
        intro i hi
        rw [chunks_length, ← hl]
        exact posOf_lt hi
      refine ⟨y, hstep, h2, ?_, ?_⟩
      · intro c hc'
        rw [hord, List.mem_append, not_or] at hc'
        rw [h3 c hc'.2, hch c, if_neg hc'.1]
      · intro j c hj
        rw [hord] at hj
        by_cases hjl : j < (posOf labels l).length
        · rw [List.getElem?_append_left hjl] at hj
          have hmem := List.mem_of_getElem? hj
          refine ⟨l, mem_posOf.1 hmem, ?_⟩
          rw [if_pos hc, h3 c (hdisj c hmem), hch c, if_pos hmem]
          have hidx : (posOf labels l).idxOf c = j := by
            obtain ⟨hj', e⟩ := List.getElem?_eq_some_iff.1 hj
            rw [← e]
            exact (posOf_nodup labels l).idxOf_getElem j hj'
          rw [hidx]
          obtain ⟨l', hl', -, -, h5⟩ := loopVals_get (chunks sizes d) (posOf labels) (posOf labels) φ [l]
            (fun l' _ c hc => by rw [chunks_length, ← hl]; exact posOf_lt hc) (fun _ _ => rfl) next (by rw [hfm]; exact hj) (by rw [hfm]; exact hj)
          rw [List.mem_singleton.1 hl'] at h5
          exact h5
        · rw [List.getElem?_append_right (by omega)] at hj
          obtain ⟨l', hl', h5⟩ := h4 _ c hj
          refine ⟨l', hl', ?_⟩
          have hnm : c ∉ posOf labels l := fun h => hdisj c h (List.mem_of_getElem? hj)
          rw [h5, hch c, if_neg hnm, show next + labelCount labels l + (j - (posOf labels l).length) = next + j by omega]
    · obtain ⟨y, h1, h2, h3, h4⟩ := ih hn'.2 (fun l' h => hs l' (by simp [h])) (fun l' h => hf l' (by simp [h])) (next + labelCount labels l) d hd
      refine ⟨y, ?_, h2, ?_, ?_⟩
      · rw [inplaceLoop, if_neg hc, h1]
      · intro c hc'
        rw [hord, List.mem_append, not_or] at hc'
        exact h3 c hc'.2
      · intro j c hj
        rw [hord] at hj
        by_cases hjl : j < (posOf labels l).length
        · rw [List.getElem?_append_left hjl] at hj
          have hmem := List.mem_of_getElem? hj
          refine ⟨l, mem_posOf.1 hmem, ?_⟩
          rw [if_neg hc, h3 c (hdisj c hmem)]
        · rw [List.getElem?_append_right (by omega)] at hj
          obtain ⟨l', hl', h5⟩ := h4 _ c hj
          refine ⟨l', hl', ?_⟩
          rw [h5, show next + labelCount labels l + (j - (posOf labels l).length) = next + j by omega]

/-- The fields with label `l` follow each other in the list. -/
def OneRun (labels : List L) (l : L) : Prop :=
  ∀ i j k : ℕ, i ≤ j → j ≤ k → labels[i]? = some l → labels[k]? = some l → labels[j]? = some l

theorem contigFlags_of_oneRun [DecidableEq L] (labels : List L) (l : L) (hl : l ∈ labels) (h : OneRun labels l) : contigFlags labels l = some true := by
  induction labels using List.reverseRecOn with
  | nil => simp at hl
  | append_singleton ls m ih =>
    have hls : OneRun ls l := by
      intro i j k hij hjk hi hk
      have hkl := (List.getElem?_eq_some_iff.1 hk).1
      have := h i j k hij hjk (by rw [List.getElem?_append_left (by omega)]; exact hi) (by rw [List.getElem?_append_left hkl]; exact hk)
      rwa [List.getElem?_append_left (by omega)] at this
    obtain ⟨i1, i2⟩ := contigFlags_spec ls
    have e : contigFlags (ls ++ [m]) l = (contigStep (ls.foldl contigStep (none, fun _ => none)) m).2 l := by
      rw [contigFlags, List.foldl_append]; rfl
    have e' : contigFlags ls = (ls.foldl contigStep (none, fun _ => none)).2 := rfl
    rw [e, contigStep, i1, ← e']
    by_cases hm : some m ≠ ls.getLast?
    · rw [if_pos hm]
      dsimp only
      by_cases hlm : l = m
      · rw [if_pos hlm]
        have hn : m ∉ ls := by
          intro hmem
          obtain ⟨i, hi⟩ := List.mem_iff_getElem?.1 hmem
          have hil := (List.getElem?_eq_some_iff.1 hi).1
          have := h i (ls.length - 1) ls.length (by omega) (by omega) (by rw [List.getElem?_append_left hil, hlm]; exact hi) (by simp [hlm])
          rw [List.getElem?_append_left (by omega), ← List.getLast?_eq_getElem?] at this
          exact hm (by rw [this, hlm])
        rw [((i2 m).1).2 hn]
        rfl
      · rw [if_neg hlm]
        exact ih (by simpa [hlm] using hl) hls
    · rw [if_neg hm]
      rw [not_not] at hm
      refine ih ?_ hls
      rcases List.mem_append.1 hl with h' | h'
      · exact h'
      · rw [List.mem_singleton.1 h']
        exact List.mem_of_mem_getLast? hm.symm

/-- Whether the fields with a label were found to be contiguous is whether they follow each other. -/
theorem contigFlags_iff [DecidableEq L] (labels : List L) (l : L) (hl : l ∈ labels) : contigFlags labels l = some true ↔ OneRun labels l := by
  refine ⟨fun hc => ?_, contigFlags_of_oneRun labels l hl⟩
  obtain ⟨a, n, h1, -⟩ := ((contigFlags_spec labels).2 l).2 hc
  intro i j k hij hjk hi hk
  rw [← mem_posOf, h1, List.mem_range'_1] at hi hk ⊢
  omega

/-- What the in-place form computes: the fields of a size whose fields follow each other are multiplied as in the other form, the others
are not changed. -/
theorem c38_inplace [DecidableEq R] (sz : R → ℕ) (t : List R) (hpos : ∀ r ∈ t, 0 < sz r) (p : ℝ) (hp : p < 1) (u : ℕ → P → ℝ)
    [∀ k q, Decidable (p < u k q)] (junk : List (P → ℝ)) (x : GTensor R (P → ℝ)) (hx : x.WF sz) (hxt : x.ty = t) :
    ∃ y, fieldDropout sz t p true true u junk x = some y ∧ y.WF sz ∧ y.ty = t ∧
      ∀ j c : ℕ, (dropOrder sz t)[j]? = some c → ∀ r, t[c]? = some r →
        (OneRun (t.map sz) (sz r) → (y.fields sz)[c]? = ((x.fields sz)[c]?).map (scaleField fun q => if p < u j q then 1 / (1 - p) else 0)) ∧
        (¬ OneRun (t.map sz) (sz r) → (y.fields sz)[c]? = (x.fields sz)[c]?) := by
  subst hxt
  have hpos' : ∀ s ∈ x.ty.map sz, 0 < s := by
    intro s hs
    obtain ⟨r, hr, rfl⟩ := List.mem_map.1 hs
    exact hpos r hr
  have hsome : ∀ s ∈ x.ty.map sz, ∃ b, contigFlags (x.ty.map sz) s = some b := by
    intro s hs
    cases hc : contigFlags (x.ty.map sz) s with
    | none => exact absurd hs ((((contigFlags_spec _).2 s).1).1 hc)
    | some b => exact ⟨b, rfl⟩
  obtain ⟨y, h1, h2, -, h3⟩ := inplaceLoop_spec (x.ty.map sz) (x.ty.map sz) rfl (fun s => (contigFlags (x.ty.map sz) s).getD false) id
    (fun _ k => dropField p (u k)) (fun s k fld h => by rw [dropField_length, h]) (fun c l h => h) (firstKeys (x.ty.map sz)) (firstKeys_nodup _)
    (fun l hl => hpos' l ((mem_firstKeys _ _).1 hl))
    (fun l hl => by
      obtain ⟨b, hb⟩ := hsome l ((mem_firstKeys _ _).1 hl)
      simp only [hb]
      exact (flagOk_contig _ _ rfl hpos' l b hb).1) 0 x.data hx.2
  refine ⟨⟨x.ty, y⟩, ?_, ⟨hx.1, h2⟩, rfl, ?_⟩
  · rw [fieldDropout, if_pos rfl, if_pos rfl, if_neg hp.ne]
    dsimp only
    rw [if_pos rfl]
    rw [show (fun s => eachField s fun (k : ℕ) => dropField p (u k)) = (fun s : ℕ => eachField (id s) fun k => dropField p (u k)) from rfl, h1]
    exact if_pos h2
  · intro j c hjc r hr
    have hrm : sz r ∈ x.ty.map sz := List.mem_map.2 ⟨r, List.mem_of_getElem? hr, rfl⟩
    obtain ⟨b, hb⟩ := hsome (sz r) hrm
    rw [← contigFlags_iff _ _ hrm, hb, Option.some.injEq]
    obtain ⟨s, hs, h4⟩ := h3 j c hjc
    rw [List.getElem?_map, hr] at hs
    obtain rfl := Option.some.inj hs
    change (_ → (chunks (x.ty.map sz) y)[c]? = _) ∧ (_ → (chunks (x.ty.map sz) y)[c]? = _)
    rw [h4]
    simp only [hb, Option.getD_some, zero_add]
    have : (dropField p (u j) : List (P → ℝ) → _) = scaleField fun q => if p < u j q then 1 / (1 - p) else 0 := funext fun fld => dropField_scale (u j) fld
    rw [this]
    exact ⟨fun h => by rw [if_pos h]; rfl, fun h => by rw [if_neg h]; rfl⟩

/-- C38 (partial: only for types in which the fields of each size follow each other): the in-place and the out-of-place form compute the same
values. -/
theorem c38_inplace_partial [DecidableEq R] (sz : R → ℕ) (t : List R) (hpos : ∀ r ∈ t, 0 < sz r)
    (hc : ∀ r ∈ t, OneRun (t.map sz) (sz r)) (p : ℝ) (hp : p < 1) (u : ℕ → P → ℝ)
    (junk junk' : List (P → ℝ)) (x : GTensor R (P → ℝ)) (hx : x.WF sz) (hxt : x.ty = t) (hj : junk.length = x.data.length) :
    fieldDropout sz t p true true u junk' x = fieldDropout sz t p false true u junk x := by
  classical
  obtain ⟨y, h1, hy, hyt, hperm, h2⟩ := c38_training sz t hpos p hp u junk x hx hxt hj
  obtain ⟨y', h1', hy', hyt', h2'⟩ := c38_inplace sz t hpos p hp u junk' x hx hxt
  rw [h1, h1']
  congr 1
  refine GTensor.ext_fields hy' hy (by rw [hyt, hyt']) ?_
  apply List.ext_getElem?
  intro c
  by_cases hcl : c < t.length
  · obtain ⟨j, hj⟩ := List.mem_iff_getElem?.1 (hperm.mem_iff.2 (List.mem_range.2 hcl))
    have hr := List.getElem?_eq_getElem hcl
    rw [(h2' j c hj _ hr).1 (hc _ (List.getElem_mem hcl)), h2 j c hj]
  · rw [List.getElem?_eq_none (by rw [GTensor.fields_length, hyt']; omega), List.getElem?_eq_none (by rw [GTensor.fields_length, hyt]; omega)]

/-- The in-place form does not drop fields whose size occurs in two runs: a type with fields of sizes 1, 2, 1, all draws below `p`. -/
theorem c38_inplace_false : ∃ (x : GTensor ℕ (Unit → ℝ)) (u : ℕ → Unit → ℝ), x.WF id ∧
    ∀ junk junk', junk.length = x.data.length →
      fieldDropout id x.ty (1 / 2) true true u junk' x ≠ fieldDropout id x.ty (1 / 2) false true u junk x := by
  refine ⟨⟨[1, 2, 1], [fun _ => 1, fun _ => 1, fun _ => 1, fun _ => 1]⟩, fun _ _ => 0, ⟨by simp, rfl⟩, ?_⟩
  intro junk junk' hj h
  classical
  obtain ⟨y, h1, -, -, -, h2⟩ := c38_training id [1, 2, 1] (by simp) (1 / 2) (by norm_num) (fun _ (_ : Unit) => 0) junk
    ⟨[1, 2, 1], [fun _ => 1, fun _ => 1, fun _ => 1, fun _ => 1]⟩ ⟨by simp, rfl⟩ rfl hj
  obtain ⟨y', h1', -, -, h2'⟩ := c38_inplace id [1, 2, 1] (by simp) (1 / 2) (by norm_num) (fun _ (_ : Unit) => 0) junk'
    ⟨[1, 2, 1], [fun _ => 1, fun _ => 1, fun _ => 1, fun _ => 1]⟩ ⟨by simp, rfl⟩ rfl
  have hord : (dropOrder id [1, 2, 1])[0]? = some 0 := by decide
  have e1 := h2 0 0 hord
  have e2 := (h2' 0 0 hord 1 rfl).2 fun hrun => by
    have := hrun 0 1 2 (by norm_num) (by norm_num) rfl rfl
    simp at this
  dsimp only at h
  rw [h1, h1', Option.some.injEq] at h
  rw [h, e1] at e2
  have e3 := congrArg (fun o => o.map fun l : List (Unit → ℝ) => l.map fun v => v ()) e2
  norm_num [GTensor.fields, chunks, scaleField] at e3

/-- A type with two fields of size 2 followed by one of size 3 meets the condition of `c38_inplace_partial`. -/
example : ∀ r ∈ [2, 2, 3], OneRun ([2, 2, 3].map id) (id r) := by
  intro r hr
  rw [← contigFlags_iff _ _ (by simpa using hr)]
  revert r
  decide

end E2
