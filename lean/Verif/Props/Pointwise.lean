import Verif.Model.Pointwise
import Verif.Lemmas.Nonlin
import Verif.Props.NonlinGroups
import Verif.Props.Regular

/-!
# C33: pointwise and concatenated nonlinearities
-/

set_option linter.unusedSectionVars false

namespace E2

open Mat

variable {P R : Type} [DecidableEq R]

/-! ### Pointwise -/

theorem moveField_ext {n : ℕ} {a b : List (P → ℝ)} (ha : a.length = n) (hb : b.length = n)
    (h : ∀ i < n, ∀ p, a[i]?.getD 0 p = b[i]?.getD 0 p) : a = b := by
  apply List.ext_getElem (by omega)
  intro i h1 h2
  funext p
  have := h i (by omega) p
  rwa [List.getElem?_eq_getElem h1, List.getElem?_eq_getElem h2] at this

theorem getD_map_fun {f : ℝ → ℝ} (fld : List (P → ℝ)) {i : ℕ} (hi : i < fld.length) (p : P) :
    (fld.map fun (v : P → ℝ) (p : P) => f (v p))[i]?.getD 0 p = f (fld[i]?.getD 0 p) := by
  rw [List.getElem?_map, List.getElem?_eq_getElem hi]; rfl

theorem moveField_perm {n : ℕ} {M : Mat} {σ : Equiv.Perm (Fin n)} (h : ∀ i j : Fin n, M i j = if j = σ i then 1 else 0) (π : P → P)
    (fld : List (P → ℝ)) (i : Fin n) (p : P) : (moveField n M π fld)[(i : ℕ)]?.getD 0 p = fld[(σ i : ℕ)]?.getD 0 (π p) := by
  rw [moveField_get _ _ _ _ i.2, Finset.sum_range fun j => M i j * fld[j]?.getD 0 (π p)]
  rw [Finset.sum_eq_single (σ i)]
  · rw [h, if_pos rfl, one_mul]
  · intro j _ hj; rw [h, if_neg hj, zero_mul]
  · simp

/-- **C33, pointwise**: every function applied channel by channel commutes with all transformations by permutation matrices. -/
theorem c33_pointwise (sz : R → ℕ) (t : List R) (f : ℝ → ℝ) (ρ : R → Mat) (hρ : ∀ r ∈ t, IsPerm (sz r) (ρ r)) (π : P → P)
    (x : GTensor R (P → ℝ)) (hx : x.WF sz) (hxt : x.ty = t) :
    ∃ y, pointwise sz t f x = some y ∧ y.ty = t ∧ pointwise sz t f (x.transform sz ρ π) = some (y.transform sz ρ π) := by
  subst hxt
  have hl : (x.data.map fun v (p : P) => f (v p)).length = typeSize sz x.ty := by rw [List.length_map]; exact hx.2
  have hl' : ((x.transform sz ρ π).data.map fun v (p : P) => f (v p)).length = typeSize sz x.ty := by
    rw [List.length_map]; exact (transform_wf ρ π hx).2
  refine ⟨⟨x.ty, x.data.map fun v p => f (v p)⟩, ?_, rfl, ?_⟩
  · rw [pointwise, if_pos rfl]; exact if_pos hl
  · rw [pointwise, if_pos (by rfl), mkGT, if_pos hl']
    congr 1
    refine transform_of_fields ⟨hx.1, hl⟩ ⟨hx.1, hl'⟩ rfl ?_
    intro c r hr
    have hr : x.ty[c]? = some r := hr
    change (chunks (x.ty.map sz) _)[c]? = ((chunks (x.ty.map sz) _)[c]?).map _
    rw [chunks_map, chunks_map, List.getElem?_map, List.getElem?_map]
    have h1 := transform_fields_get sz ρ π x hr
    have h2 : (chunks (x.ty.map sz) (x.transform sz ρ π).data)[c]? = ((x.transform sz ρ π).fields sz)[c]? := rfl
    rw [h2, h1]
    obtain ⟨fld, hf⟩ := field_exists (sz := sz) hr
    have hlen := field_length hx hr hf
    have h3 : (chunks (x.ty.map sz) x.data)[c]? = some fld := hf
    rw [h3, hf]
    simp only [Option.map_some]
    congr 1
    obtain ⟨σ, hσ⟩ := hρ r (List.mem_of_getElem? hr)
    apply moveField_ext (n := sz r) (by rw [List.length_map, moveField_length]) (moveField_length _ _ _ _)
    intro i hi p
    rw [getD_map_fun _ (by rw [moveField_length]; exact hi), moveField_perm hσ π fld ⟨i, hi⟩, moveField_perm hσ π _ ⟨i, hi⟩,
      getD_map_fun _ (by rw [hlen]; exact (σ ⟨i, hi⟩).2)]

/-! ### Concatenated -/

theorem concatChannels_eq (f : ℝ → ℝ) (x : List (P → ℝ)) :
    concatChannels f x = x.flatMap fun v => [fun p => f (v p), fun p => f (-1 * v p)] := by
  induction x using List.reverseRecOn with
  | nil => rfl
  | append_singleton x v ih =>
    rw [List.flatMap_append, ← ih, concatChannels, concatChannels, List.length_append, List.length_singleton,
      show 2 * (x.length + 1) = 2 * x.length + 1 + 1 by ring, List.range_succ, List.range_succ, List.map_append, List.map_append,
      List.append_assoc]
    congr 1
    · apply List.map_congr_left
      intro k hk
      rw [List.mem_range] at hk
      rw [List.getElem?_append_left (by omega)]
    · have h1 : (2 * x.length + 1) / 2 = x.length := by omega
      have h2 : (2 * x.length) / 2 = x.length := by omega
      have h3 : (2 * x.length + 1) % 2 = 1 := by omega
      simp only [List.map_cons, List.map_nil, List.singleton_append, List.flatMap_cons, List.flatMap_nil, List.append_nil, h1, h2, h3]
      simp

theorem concatChannels_length (f : ℝ → ℝ) (x : List (P → ℝ)) : (concatChannels f x).length = 2 * x.length := by simp [concatChannels]

theorem chunks_concat (f : ℝ → ℝ) (s : List ℕ) (x : List (P → ℝ)) :
    chunks (s.map (2 * ·)) (concatChannels f x) = (chunks s x).map (concatChannels f) := by
  induction s generalizing x with
  | nil => rfl
  | cons a s ih =>
    rw [List.map_cons, chunks, chunks, List.map_cons, ← ih]
    have h : concatChannels f x = concatChannels f (x.take a) ++ concatChannels f (x.drop a) := by
      rw [concatChannels_eq, concatChannels_eq, concatChannels_eq, ← List.flatMap_append, List.take_append_drop]
    by_cases ha : a ≤ x.length
    · have hl : (concatChannels f (x.take a)).length = 2 * a := by rw [concatChannels_length, List.length_take]; omega
      rw [h, List.take_left' hl, List.drop_left' hl]
    · have h1 : x.take a = x := List.take_of_length_le (by omega)
      have h2 : x.drop a = [] := List.drop_of_length_le (by omega)
      rw [h1, h2]
      rw [List.take_of_length_le (by rw [concatChannels_length]; omega), List.drop_of_length_le (by rw [concatChannels_length]; omega)]
      rfl

/-- A row with a single entry, 1 or -1. -/
def SignedRow (s : ℕ) (r : Mat) (i e : ℕ) (ε : ℝ) : Prop := e < s ∧ (ε = 1 ∨ ε = -1) ∧ ∀ j < s, r i j = if j = e then ε else 0

theorem signedRow_of_concatOk {s : ℕ} {r : Mat} (h : ConcatOk s r) {i : ℕ} (hi : i < s) (hn : ∃ j < s, r i j ≠ 0) :
    ∃ e ε, SignedRow s r i e ε := by
  obtain ⟨e, he, hne⟩ := hn
  have hm : e ∈ nonzeroCols s r i := by
    rw [nonzeroCols, List.mem_filter]
    exact ⟨List.mem_range.2 he, by simpa using hne⟩
  have hall : ∀ j < s, r i j ≠ 0 → j = e := by
    intro j hj hjn
    have hm' : j ∈ nonzeroCols s r i := by
      rw [nonzeroCols, List.mem_filter]
      exact ⟨List.mem_range.2 hj, by simpa using hjn⟩
    have := h.1 i hi
    rcases hc : nonzeroCols s r i with _ | ⟨a, l⟩
    · rw [hc] at hm; simp at hm
    · rw [hc] at this hm hm'
      have hl : l = [] := by
        rw [List.length_cons] at this
        exact List.length_eq_zero_iff.1 (by omega)
      subst hl
      rw [List.mem_singleton] at hm hm'
      rw [hm, hm']
  refine ⟨e, r i e, he, ?_, ?_⟩
  · rcases h.2.2 i hi e he with h1 | h1 | h1
    · exact Or.inl h1
    · exact Or.inr h1
    · exact absurd h1 hne
  · intro j hj
    by_cases hje : j = e
    · rw [if_pos hje, hje]
    · rw [if_neg hje]
      by_contra hc
      exact hje (hall j hj hc)

/-- The column of the single entry of row `a` of the matrix built from a signed permutation. -/
noncomputable def concatCol (e : ℕ) (ε : ℝ) (a : ℕ) : ℕ := by classical exact 2 * e + if ε = 1 then a % 2 else 1 - a % 2

theorem concatMat_row {s : ℕ} {r : Mat} {a e : ℕ} {ε : ℝ} (h : SignedRow s r (a / 2) e ε) {b : ℕ} (hb : b < 2 * s) :
    concatMat r a b = if b = concatCol e ε a then 1 else 0 := by
  have hb2 : b / 2 < s := by omega
  have ha := Nat.mod_two_eq_zero_or_one a
  have hbm := Nat.mod_two_eq_zero_or_one b
  unfold concatMat concatCol
  rw [h.2.2 _ hb2]
  by_cases he : b / 2 = e
  · rw [if_pos he]
    rcases h.2.1 with h1 | h1
    · rw [if_pos h1, if_pos h1]
      by_cases hp : a % 2 = b % 2
      · rw [if_pos hp, if_pos (by omega)]
      · rw [if_neg hp, if_neg (by omega)]
    · have hne : ¬ ε = 1 := by rw [h1]; norm_num
      rw [if_neg hne, if_pos h1, if_neg hne]
      by_cases hp : a % 2 = b % 2
      · rw [if_pos hp, if_neg (by omega)]
      · rw [if_neg hp, if_pos (by omega)]
  · rw [if_neg he, if_neg (by norm_num), if_neg (by norm_num), if_neg]
    split <;> omega

theorem concatCol_lt {s e : ℕ} (ε : ℝ) (a : ℕ) (he : e < s) : concatCol e ε a < 2 * s := by
  unfold concatCol
  split <;> omega

theorem concatChannels_get (f : ℝ → ℝ) (x : List (P → ℝ)) {k : ℕ} (hk : k < 2 * x.length) (p : P) :
    (concatChannels f x)[k]?.getD 0 p = if k % 2 = 0 then f (x[k / 2]?.getD 0 p) else f (-1 * x[k / 2]?.getD 0 p) := by
  rw [concatChannels, List.getElem?_map, List.getElem?_range hk]
  rfl

theorem moveField_signed {s : ℕ} {r : Mat} {i e : ℕ} {ε : ℝ} (hi : i < s) (h : SignedRow s r i e ε) (π : P → P) (fld : List (P → ℝ)) (p : P) :
    (moveField s r π fld)[i]?.getD 0 p = ε * fld[e]?.getD 0 (π p) := by
  rw [moveField_get _ _ _ _ hi, Finset.sum_eq_single e]
  · rw [h.2.2 e h.1, if_pos rfl]
  · intro j hj hje
    rw [h.2.2 j (Finset.mem_range.1 hj), if_neg hje, zero_mul]
  · intro hh; exact absurd (Finset.mem_range.2 h.1) hh

/-- One field. -/
theorem concat_field {s : ℕ} {r : Mat} (hr : ∀ i < s, ∃ e ε, SignedRow s r i e ε) (f : ℝ → ℝ) (π : P → P) (fld : List (P → ℝ))
    (hl : fld.length = s) : concatChannels f (moveField s r π fld) = moveField (2 * s) (concatMat r) π (concatChannels f fld) := by
  apply moveField_ext (n := 2 * s) (by rw [concatChannels_length, moveField_length]) (moveField_length _ _ _ _)
  intro a ha p
  obtain ⟨e, ε, h⟩ := hr (a / 2) (by omega)
  have hcol := concatCol_lt ε a h.1
  rw [concatChannels_get f _ (by rw [moveField_length]; exact ha), moveField_signed (by omega) h, moveField_get _ _ _ _ ha,
    Finset.sum_eq_single (concatCol e ε a)]
  · rw [concatMat_row h hcol, if_pos rfl, one_mul, concatChannels_get f _ (by rw [hl]; exact hcol)]
    rcases h.2.1 with h1 | h1
    · have e1 : concatCol e ε a % 2 = a % 2 := by unfold concatCol; rw [if_pos h1]; omega
      have e2 : concatCol e ε a / 2 = e := by unfold concatCol; rw [if_pos h1]; omega
      rw [e1, e2, h1]
      simp
    · have hne : ¬ ε = 1 := by rw [h1]; norm_num
      have e1 : concatCol e ε a % 2 = 1 - a % 2 := by unfold concatCol; rw [if_neg hne]; omega
      have e2 : concatCol e ε a / 2 = e := by unfold concatCol; rw [if_neg hne]; omega
      rw [e1, e2, h1]
      rcases Nat.mod_two_eq_zero_or_one a with h2 | h2 <;> simp [h2]
  · intro b hb hbne
    rw [concatMat_row h (Finset.mem_range.1 hb), if_neg hbne, zero_mul]
  · intro hh; exact absurd (Finset.mem_range.2 hcol) hh

/-- **C33, concatenated**: for representations that the constructor accepts (for the element considered, whose matrices have no zero row),
`(f(x), f(-x))` maps transformed inputs to outputs transformed by the matrices of the declared output type. -/
theorem c33_concatenated (sz sz' : R → ℕ) (outRep : R → R) (t : List R) (hsz : ∀ r ∈ t, sz' (outRep r) = 2 * sz r) (f : ℝ → ℝ) (ρ ρ' : R → Mat)
    (hok : ∀ r ∈ t, ConcatOk (sz r) (ρ r)) (hrow : ∀ r ∈ t, ∀ i < sz r, ∃ j < sz r, ρ r i j ≠ 0)
    (hρ' : ∀ r ∈ t, Mat.MEq (2 * sz r) (2 * sz r) (ρ' (outRep r)) (concatMat (ρ r))) (π : P → P) (x : GTensor R (P → ℝ)) (hx : x.WF sz) (hxt : x.ty = t) :
    ∃ y, concatenated sz' outRep t f x = some y ∧ y.ty = t.map outRep ∧
      concatenated sz' outRep t f (x.transform sz ρ π) = some (y.transform sz' ρ' π) := by
  subst hxt
  have hsizes : (x.ty.map outRep).map sz' = (x.ty.map sz).map (2 * ·) := by
    rw [List.map_map, List.map_map]
    apply List.map_congr_left
    intro r hr
    exact hsz r hr
  have hsum : typeSize sz' (x.ty.map outRep) = 2 * typeSize sz x.ty := by
    rw [typeSize, hsizes, typeSize, List.sum_map_mul_left, List.map_id']
  have hl : (concatChannels f x.data).length = typeSize sz' (x.ty.map outRep) := by rw [concatChannels_length, hsum, hx.2]
  have hl' : (concatChannels f (x.transform sz ρ π).data).length = typeSize sz' (x.ty.map outRep) := by
    rw [concatChannels_length, hsum, (transform_wf ρ π hx).2]; rfl
  have hne : x.ty.map outRep ≠ [] := by simpa using hx.1
  refine ⟨⟨x.ty.map outRep, concatChannels f x.data⟩, ?_, rfl, ?_⟩
  · rw [concatenated, if_pos rfl]; exact if_pos hl
  · rw [concatenated, if_pos (by rfl), mkGT, if_pos hl']
    congr 1
    refine transform_of_fields ⟨hne, hl⟩ ⟨hne, hl'⟩ rfl ?_
    intro c r' hr'
    have hr' : (x.ty.map outRep)[c]? = some r' := hr'
    rw [List.getElem?_map, Option.map_eq_some_iff] at hr'
    obtain ⟨r, hr, rfl⟩ := hr'
    have hmem := List.mem_of_getElem? hr
    rw [GTensor.fields, GTensor.fields]
    dsimp only
    rw [hsizes, chunks_concat, chunks_concat, List.getElem?_map, List.getElem?_map]
    have h2 : (chunks (x.ty.map sz) (x.transform sz ρ π).data)[c]? = ((x.transform sz ρ π).fields sz)[c]? := rfl
    rw [h2, transform_fields_get sz ρ π x hr]
    obtain ⟨fld, hf⟩ := field_exists (sz := sz) hr
    have h3 : (chunks (x.ty.map sz) x.data)[c]? = some fld := hf
    rw [h3, hf]
    simp only [Option.map_some]
    congr 1
    rw [hsz r hmem, concat_field (fun i hi => signedRow_of_concatOk (hok r hmem) hi (hrow r hmem i hi)) f π fld (field_length hx hr hf)]
    refine moveField_ext (moveField_length _ _ _ _) (moveField_length _ _ _ _) fun i hi p => ?_
    rw [moveField_get _ _ _ _ hi, moveField_get _ _ _ _ hi]
    exact Finset.sum_congr rfl fun j hj => by rw [hρ' r hmem i hi j (Finset.mem_range.1 hj)]

/-- The matrices of the output multiply like the matrices of the input: they form a representation. -/
theorem c33_concatenated_mul {s : ℕ} {A B : Mat} (hA : ∀ i < s, ∃ e ε, SignedRow s A i e ε) (hB : ∀ i < s, ∃ e ε, SignedRow s B i e ε) :
    MEq (2 * s) (2 * s) (concatMat (Mat.mul s A B)) (Mat.mul (2 * s) (concatMat A) (concatMat B)) := by
  intro a ha b hb
  obtain ⟨e, ε, h⟩ := hA (a / 2) (by omega)
  obtain ⟨e', ε', h'⟩ := hB e h.1
  have hAB : SignedRow s (Mat.mul s A B) (a / 2) e' (ε * ε') := by
    refine ⟨h'.1, ?_, ?_⟩
    · rcases h.2.1 with h1 | h1 <;> rcases h'.2.1 with h2 | h2 <;> rw [h1, h2] <;> norm_num
    · intro j hj
      rw [Mat.mul, Finset.sum_eq_single e]
      · rw [h.2.2 e h.1, if_pos rfl, h'.2.2 j hj]; split <;> simp
      · intro k hk hke
        rw [h.2.2 k (Finset.mem_range.1 hk), if_neg hke, zero_mul]
      · intro hh; exact absurd (Finset.mem_range.2 h.1) hh
  have hcol := concatCol_lt ε a h.1
  have hce : concatCol e ε a / 2 = e := by unfold concatCol; split <;> omega
  rw [concatMat_row hAB hb, Mat.mul, Finset.sum_eq_single (concatCol e ε a)]
  · rw [concatMat_row h hcol, if_pos rfl, one_mul, concatMat_row (a := concatCol e ε a) (by rw [hce]; exact h') hb]
    have : concatCol e' (ε * ε') a = concatCol e' ε' (concatCol e ε a) := by
      unfold concatCol
      rcases h.2.1 with h1 | h1 <;> rcases h'.2.1 with h2 | h2 <;> rw [h1, h2] <;> norm_num <;> omega
    rw [this]
  · intro c hc hcne
    rw [concatMat_row h (Finset.mem_range.1 hc), if_neg hcne, zero_mul]
  · intro hh; exact absurd (Finset.mem_range.2 hcol) hh

end E2
