import Verif.Model.Nonlin
import Verif.Props.NonlinSpec
import Verif.Lemmas.FieldLoop
import Verif.Lemmas.Rep
import Mathlib.Algebra.BigOperators.Ring.List

/-!
# Transformations of fields
-/

namespace E2

open Mat

variable {P R : Type}

theorem moveField_length (n : ℕ) (M : Mat) (π : P → P) (fld : List (P → ℝ)) : (moveField n M π fld).length = n := by
  simp [moveField, chAct_length]

theorem chunks_map {V W : Type} (f : V → W) (s : List ℕ) (x : List V) : chunks s (x.map f) = (chunks s x).map (List.map f) := by
  induction s generalizing x with
  | nil => rfl
  | cons a s ih => rw [chunks, chunks, List.map_cons, ← ih, List.map_take, List.map_drop]

theorem chunks_zipWith {U V W : Type} (f : U → V → W) (s : List ℕ) (x : List U) (y : List V) :
    chunks s (List.zipWith f x y) = List.zipWith (List.zipWith f) (chunks s x) (chunks s y) := by
  induction s generalizing x y with
  | nil => rfl
  | cons a s ih => rw [chunks, chunks, chunks, List.zipWith_cons_cons, ← ih, List.take_zipWith, List.drop_zipWith]

theorem transform_wf {sz : R → ℕ} {x : GTensor R (P → ℝ)} (ρ : R → Mat) (π : P → P) (h : x.WF sz) : (x.transform sz ρ π).WF sz := by
  have := GTensor.act_wf ρ h
  exact ⟨this.1, by simpa [GTensor.transform] using this.2⟩

theorem transform_fields (sz : R → ℕ) (ρ : R → Mat) (π : P → P) (x : GTensor R (P → ℝ)) :
    (x.transform sz ρ π).fields sz = List.zipWith (fun r f => moveField (sz r) (ρ r) π f) x.ty (x.fields sz) := by
  have := GTensor.act_fields sz ρ x
  rw [GTensor.fields] at this
  rw [GTensor.fields, GTensor.transform, chunks_map]
  dsimp only
  rw [GTensor.act_ty] at this
  rw [this, List.map_zipWith]
  rfl

theorem transform_fields_get (sz : R → ℕ) (ρ : R → Mat) (π : P → P) (x : GTensor R (P → ℝ)) {c : ℕ} {r : R} (hr : x.ty[c]? = some r) :
    ((x.transform sz ρ π).fields sz)[c]? = ((x.fields sz)[c]?).map (moveField (sz r) (ρ r) π) := by
  rw [transform_fields, List.getElem?_zipWith, hr]
  cases (x.fields sz)[c]? <;> rfl

theorem field_length {sz : R → ℕ} {x : GTensor R (P → ℝ)} (hx : x.WF sz) {c : ℕ} {r : R} (hr : x.ty[c]? = some r) {fld : List (P → ℝ)}
    (hf : (x.fields sz)[c]? = some fld) : fld.length = sz r := by
  have := congrArg (·[c]?) (GTensor.fields_map_length hx)
  simp only [List.getElem?_map, hr, hf, Option.map_some, Option.some.injEq] at this
  exact this

theorem field_exists {sz : R → ℕ} {x : GTensor R (P → ℝ)} {c : ℕ} {r : R} (hr : x.ty[c]? = some r) :
    ∃ fld, (x.fields sz)[c]? = some fld := by
  have h : c < (x.fields sz).length := by rw [GTensor.fields_length]; exact (List.getElem?_eq_some_iff.1 hr).1
  exact ⟨_, List.getElem?_eq_getElem h⟩

/-- Two tensors related field by field. -/
theorem transform_of_fields {sz : R → ℕ} {ρ : R → Mat} {π : P → P} {y y' : GTensor R (P → ℝ)} (hy : y.WF sz) (hy' : y'.WF sz)
    (ht : y'.ty = y.ty) (h : ∀ (c : ℕ) r, y.ty[c]? = some r → (y'.fields sz)[c]? = ((y.fields sz)[c]?).map (moveField (sz r) (ρ r) π)) :
    y' = y.transform sz ρ π := by
  refine GTensor.ext_fields hy' (transform_wf ρ π hy) ht ?_
  apply List.ext_getElem?
  intro c
  rcases hr : y.ty[c]? with _ | r
  · have h1 : y.ty.length ≤ c := List.getElem?_eq_none_iff.1 hr
    rw [List.getElem?_eq_none (by rw [GTensor.fields_length, ht]; exact h1),
      List.getElem?_eq_none (by rw [GTensor.fields_length]; exact h1)]
  · rw [h c r hr, transform_fields_get sz ρ π y hr]

theorem sum_list_fin {n : ℕ} (l : List ℝ) (h : l.length = n) : l.sum = ∑ i ∈ Finset.range n, l[i]?.getD 0 := by
  subst h
  induction l with
  | nil => rfl
  | cons a l ih =>
    rw [List.sum_cons, List.length_cons, Finset.sum_range_succ', ih, add_comm]
    simp

theorem moveField_scale (n : ℕ) (M : Mat) (π : P → P) (m : P → ℝ) (fld : List (P → ℝ)) :
    moveField n M π (scaleField m fld) = scaleField (m ∘ π) (moveField n M π fld) := by
  unfold moveField scaleField chAct
  simp only [List.map_map]
  apply List.map_congr_left
  intro c _
  funext p
  simp only [Function.comp_apply, Finset.sum_apply, Pi.smul_apply, smul_eq_mul, Finset.mul_sum]
  apply Finset.sum_congr rfl
  intro j _
  rw [List.getElem?_map]
  cases fld[j]? <;> simp; ring

theorem fieldNorm_eq (n : ℕ) (fld : List (P → ℝ)) (h : fld.length = n) (p : P) :
    fieldNorm fld p = √(∑ i ∈ Finset.range n, (fld[i]?.getD 0 p) ^ 2) := by
  rw [fieldNorm, sum_list_fin _ (by simpa using h)]
  congr 1
  apply Finset.sum_congr rfl
  intro i _
  rw [List.getElem?_map]
  cases fld[i]? <;> simp

theorem orth_sum_sq {n : ℕ} {M : Mat} (hM : Orth n M) (v : ℕ → ℝ) :
    ∑ i ∈ Finset.range n, (∑ j ∈ Finset.range n, M i j * v j) ^ 2 = ∑ j ∈ Finset.range n, v j ^ 2 := by
  have h1 : ∀ i, (∑ j ∈ Finset.range n, M i j * v j) ^ 2 =
      ∑ j ∈ Finset.range n, ∑ k ∈ Finset.range n, (M i j * M i k) * (v j * v k) := by
    intro i
    rw [pow_two, Finset.sum_mul_sum]
    exact Finset.sum_congr rfl fun j _ => Finset.sum_congr rfl fun k _ => by ring
  simp only [h1]
  rw [Finset.sum_comm]
  apply Finset.sum_congr rfl
  intro j hj
  rw [Finset.sum_comm]
  have h2 : ∀ k ∈ Finset.range n, ∑ i ∈ Finset.range n, (M i j * M i k) * (v j * v k) = if j = k then v j ^ 2 else 0 := by
    intro k hk
    rw [← Finset.sum_mul]
    have := hM j (Finset.mem_range.1 hj) k (Finset.mem_range.1 hk)
    have e : ∑ i ∈ Finset.range n, M i j * M i k = Mat.mul n (Mat.tr M) M j k := rfl
    rw [e, this, Mat.one]
    by_cases h : j = k
    · subst h; simp [pow_two]
    · simp [h]
  rw [Finset.sum_congr rfl h2, Finset.sum_ite_eq, if_pos hj]

theorem moveField_get (n : ℕ) (M : Mat) (π : P → P) (fld : List (P → ℝ)) {i : ℕ} (hi : i < n) (p : P) :
    (moveField n M π fld)[i]?.getD 0 p = ∑ j ∈ Finset.range n, M i j * fld[j]?.getD 0 (π p) := by
  rw [moveField, List.getElem?_map, chAct_get _ _ _ hi]
  simp

theorem fieldNorm_move {n : ℕ} {M : Mat} (hM : Orth n M) (π : P → P) (fld : List (P → ℝ)) (h : fld.length = n) :
    fieldNorm (moveField n M π fld) = fieldNorm fld ∘ π := by
  funext p
  rw [Function.comp_apply, fieldNorm_eq n _ (moveField_length _ _ _ _), fieldNorm_eq n fld h, ← orth_sum_sq hM (fun j => fld[j]?.getD 0 (π p))]
  congr 1
  apply Finset.sum_congr rfl
  intro i hi
  rw [moveField_get _ _ _ _ (Finset.mem_range.1 hi)]

theorem mem_sortedKeys (sizes : List ℕ) (s : ℕ) : s ∈ sortedKeys sizes ↔ s ∈ sizes := by
  rw [sortedKeys, List.mem_mergeSort, List.mem_dedup]

theorem sortedKeys_nodup (sizes : List ℕ) : (sortedKeys sizes).Nodup :=
  ((List.mergeSort_perm _ _).nodup_iff).2 (List.nodup_dedup _)

/-- The loop with the sizes as labels. -/
theorem sizeLoop_spec {V W : Type} (x : List V) (sizes : List ℕ) (hx : x.length = sizes.sum) (hpos : ∀ s ∈ sizes, 0 < s)
    (φ : ℕ → ℕ → List V → List W) (order : List ℕ) (hn : order.Nodup) (hm : ∀ s, s ∈ order ↔ s ∈ sizes)
    (hφ : ∀ s k fld, fld.length = s → (φ s k fld).length = s) (out : List W) (hout : out.length = sizes.sum) :
    ∃ y, fieldLoop x (fun s => (contigFlags sizes s).getD false) (labelChannels sizes sizes) (labelChannels sizes sizes) (labelCount sizes)
        (fun s => eachField s (φ s)) order 0 out = some y ∧ y.length = sizes.sum ∧
      ∀ j c : ℕ, (fieldOrder sizes order)[j]? = some c → ∃ s, sizes[c]? = some s ∧ (chunks sizes y)[c]? = ((chunks sizes x)[c]?).map (φ s j) := by
  have hflag : ∀ l ∈ order, FlagOk ((contigFlags sizes l).getD false) (labelChannels sizes sizes l) := by
    intro l hl
    rcases h : contigFlags sizes l with _ | b
    · exact absurd ((hm l).1 hl) (((contigFlags_spec sizes).2 l).1.1 h)
    · have e : labelChannels sizes sizes l = chanIdx sizes (posOf sizes l) := (labelIdx_eq sizes sizes rfl l).1
      rw [e]
      exact (flagOk_contig sizes sizes rfl hpos l b h).1
  exact fieldLoop_spec x sizes sizes sizes hx rfl rfl _ id id φ order hn (fun l hl => hpos l ((hm l).1 hl))
    (fun c l h => h) (fun c l h => h) hflag hflag (fun l _ k fld h => hφ l k fld h) out hout

end E2
