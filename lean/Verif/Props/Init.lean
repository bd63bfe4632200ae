import Verif.Model.Init
import Verif.Props.StoredFilters
import Mathlib.MeasureTheory.Integral.Bochner.SumMeasure

/-!
# C60: weight initialisation
-/

set_option linter.unusedSectionVars false

namespace E2

open Finset MeasureTheory

variable {Nm : Type} [DecidableEq Nm]

/-! ## The generalised He initialisation -/

/-- The types of input irreps which occur among the parameters for the output irrep at position `o`. -/
def inputTypes (infos : List (WInfo Nm)) (o : ℕ) : Finset Nm := ((infos.filter fun a => a.outPos = o).map WInfo.inIrr).toFinset

theorem heCounts_concat (l : List (WInfo Nm)) (a : WInfo Nm) : heCounts (l ++ [a]) = (heCounts l).step a := by
  rw [heCounts, List.foldl_append]; rfl

theorem heCounts_inputs (l : List (WInfo Nm)) (o : ℕ) : ((heCounts l).inputs o).Nodup ∧ ((heCounts l).inputs o).toFinset = inputTypes l o := by
  induction l using List.reverseRecOn with
  | nil => simp [heCounts, inputTypes]
  | append_singleton l a ih =>
    rw [heCounts_concat]
    simp only [HeCounts.step]
    by_cases h : o = a.outPos
    · rw [if_pos h]
      refine ⟨ih.1.insert, ?_⟩
      ext x
      have := congrArg (x ∈ ·) ih.2
      simp only [List.mem_toFinset, inputTypes, List.mem_map, List.mem_filter, eq_iff_iff] at this
      simp only [List.mem_toFinset, List.mem_insert_iff, inputTypes, List.mem_map, List.mem_filter, List.mem_append, List.mem_singleton, this]
      constructor
      · rintro (rfl | ⟨y, ⟨hy, h1⟩, rfl⟩)
        · exact ⟨a, ⟨Or.inr rfl, by simp [h]⟩, rfl⟩
        · exact ⟨y, ⟨Or.inl hy, h1⟩, rfl⟩
      · rintro ⟨y, ⟨hy | rfl, h1⟩, rfl⟩
        · exact Or.inr ⟨y, ⟨hy, h1⟩, rfl⟩
        · exact Or.inl rfl
    · rw [if_neg h]
      refine ⟨ih.1, ?_⟩
      rw [ih.2, inputTypes, inputTypes, List.filter_append]
      simp [Ne.symm h]

theorem heCounts_basis (l : List (WInfo Nm)) (i : Nm) (o : ℕ) :
    (heCounts l).basis i o = (l.filter fun a => a.outPos = o ∧ a.inIrr = i).length := by
  induction l using List.reverseRecOn with
  | nil => simp [heCounts]
  | append_singleton l a ih =>
    rw [heCounts_concat, List.filter_append, List.length_append, ← ih]
    simp only [HeCounts.step]
    by_cases h : i = a.inIrr ∧ o = a.outPos
    · rw [if_pos h]; simp [h.1, h.2]
    · rw [if_neg h, List.filter_cons_of_neg (by
        rw [decide_eq_true_eq]
        exact fun h' => h ⟨h'.2.symm, h'.1.symm⟩)]; simp

theorem zip_map_self {α β : Type} (f : α → β) (l : List α) : l.zip (l.map f) = l.map fun a => (a, f a) := by
  induction l with
  | nil => rfl
  | cons a l ih => simp [ih]

/-- Summing over a list by the values of a function. -/
theorem sum_by {α β : Type} [DecidableEq β] (h : α → β) (g : α → ℝ) (T : Finset β) (l : List α) (hT : ∀ a ∈ l, h a ∈ T) :
    (l.map g).sum = ∑ j ∈ T, ((l.filter fun a => h a = j).map g).sum := by
  induction l with
  | nil => simp
  | cons a l ih =>
    rw [List.map_cons, List.sum_cons, ih fun b hb => hT b (by simp [hb])]
    have : ∀ j, (((a :: l).filter fun a => h a = j).map g).sum = (if h a = j then g a else 0) + ((l.filter fun a => h a = j).map g).sum := by
      intro j
      by_cases hj : h a = j
      · rw [List.filter_cons_of_pos (by simp [hj]), if_pos hj, List.map_cons, List.sum_cons]
      · rw [List.filter_cons_of_neg (by simp [hj]), if_neg hj, zero_add]
    simp only [this, Finset.sum_add_distrib]
    rw [Finset.sum_ite_eq, if_pos (hT a (by simp))]

/-- **C60, the generalised He initialisation.** The numbers multiplying the normal variables are positive, one for each parameter.  For every output irrep (position `o`)
with parameters their squares add up to 1, the types of input irreps have equal shares of this, and the parameters with one output irrep and one type have
equal numbers. -/
theorem c60_he (infos : List (WInfo Nm)) (dim : ℕ) (hd : dim = infos.length) :
    ∃ σ, heVars dim infos = some σ ∧ σ.length = dim ∧ (∀ x ∈ σ, 0 < x) ∧
      (∀ o, (∃ a ∈ infos, a.outPos = o) → (((infos.zip σ).filter fun q => q.1.outPos = o).map fun q => (q.2 : ℝ) ^ 2).sum = 1) ∧
      (∀ o, ∀ j ∈ inputTypes infos o,
        (((infos.zip σ).filter fun q => q.1.outPos = o ∧ q.1.inIrr = j).map fun q => (q.2 : ℝ) ^ 2).sum = 1 / ((inputTypes infos o).card : ℝ)) ∧
      ∀ q ∈ infos.zip σ, ∀ q' ∈ infos.zip σ, q.1.outPos = q'.1.outPos → q.1.inIrr = q'.1.inIrr → q.2 = q'.2 := by
  set f : WInfo Nm → ℝ := fun a => 1 / Real.sqrt ((((heCounts infos).inputs a.outPos).length * (heCounts infos).basis a.inIrr a.outPos : ℕ) : ℝ) with hf
  have hcard : ∀ o, ((heCounts infos).inputs o).length = (inputTypes infos o).card := fun o => by
    rw [← (heCounts_inputs infos o).2, List.toFinset_card_of_nodup (heCounts_inputs infos o).1]
  have hmem : ∀ a ∈ infos, a.inIrr ∈ inputTypes infos a.outPos := fun a ha => by
    simp only [inputTypes, List.mem_toFinset, List.mem_map, List.mem_filter, decide_eq_true_eq]
    exact ⟨a, ⟨ha, rfl⟩, rfl⟩
  have hT : ∀ a ∈ infos, 0 < (inputTypes infos a.outPos).card := fun a ha => Finset.card_pos.2 ⟨_, hmem a ha⟩
  have hB : ∀ a ∈ infos, 0 < (heCounts infos).basis a.inIrr a.outPos := fun a ha => by
    rw [heCounts_basis]
    exact List.length_pos_of_mem (List.mem_filter.2 ⟨ha, by simp⟩)
  have hv : heVars dim infos = some (infos.map f) := by
    rw [heVars, if_pos hd.ge, hd, Nat.sub_self]; simp [hf]
  have hpos : ∀ a ∈ infos, 0 < f a := fun a ha => by
    apply one_div_pos.2
    apply Real.sqrt_pos.2
    rw [hcard]
    exact_mod_cast Nat.mul_pos (hT a ha) (hB a ha)
  have hsq : ∀ a ∈ infos, f a ^ 2 = 1 / ((inputTypes infos a.outPos).card * (heCounts infos).basis a.inIrr a.outPos) := fun a ha => by
    rw [hf]
    simp only [div_pow, one_pow, hcard]
    rw [Real.sq_sqrt (Nat.cast_nonneg _)]
    push_cast
    rfl
  have hzip : infos.zip (infos.map f) = infos.map fun a => (a, f a) := zip_map_self f infos
  have hfil : ∀ p : WInfo Nm → Bool, (((infos.zip (infos.map f)).filter fun q => p q.1).map fun q => q.2 ^ 2) = (infos.filter p).map fun a => f a ^ 2 := by
    intro p
    rw [hzip, List.filter_map, List.map_map]
    rfl
  have hshare : ∀ o, ∀ j ∈ inputTypes infos o, ((infos.filter fun a => a.outPos = o ∧ a.inIrr = j).map fun a => f a ^ 2).sum = 1 / ((inputTypes infos o).card : ℝ) := by
    intro o j hj
    obtain ⟨a, ha, rfl⟩ : ∃ a ∈ infos.filter (fun a => a.outPos = o), a.inIrr = j := by
      simpa [inputTypes] using hj
    obtain ⟨ha1, ha2⟩ := List.mem_filter.1 ha
    have ho : a.outPos = o := by simpa using ha2
    subst ho
    have hc : ∀ x ∈ (infos.filter fun b => b.outPos = a.outPos ∧ b.inIrr = a.inIrr).map fun b => f b ^ 2, x = f a ^ 2 := by
      intro x hx
      obtain ⟨b, hb, rfl⟩ := List.mem_map.1 hx
      obtain ⟨-, hb2⟩ := List.mem_filter.1 hb
      have hb3 : b.outPos = a.outPos ∧ b.inIrr = a.inIrr := by simpa using hb2
      simp only [hf, hb3.1, hb3.2]
    rw [List.eq_replicate_of_mem hc, List.sum_replicate, List.length_map, ← heCounts_basis, nsmul_eq_mul, hsq a ha1]
    have h1 : ((inputTypes infos a.outPos).card : ℝ) ≠ 0 := by exact_mod_cast (hT a ha1).ne'
    have h2 : ((heCounts infos).basis a.inIrr a.outPos : ℝ) ≠ 0 := by exact_mod_cast (hB a ha1).ne'
    field_simp
  refine ⟨_, hv, by simp [hd], ?_, ?_, ?_, ?_⟩
  · intro x hx
    obtain ⟨a, ha, rfl⟩ := List.mem_map.1 hx
    exact hpos a ha
  · rintro o ⟨a, ha, rfl⟩
    rw [hfil fun b => decide (b.outPos = a.outPos), sum_by WInfo.inIrr _ (inputTypes infos a.outPos)]
    · rw [Finset.sum_congr rfl (g := fun _ => 1 / ((inputTypes infos a.outPos).card : ℝ))]
      · rw [Finset.sum_const, nsmul_eq_mul]
        have : ((inputTypes infos a.outPos).card : ℝ) ≠ 0 := by exact_mod_cast (hT a ha).ne'
        field_simp
      · intro j hj
        rw [← hshare _ j hj, List.filter_filter]
        congr 3
        funext b
        simp [and_comm]
    · intro b hb
      obtain ⟨h1, h2⟩ := List.mem_filter.1 hb
      have : b.outPos = a.outPos := by simpa using h2
      rw [← this]
      exact hmem b h1
  · intro o j hj
    rw [hfil fun b => decide (b.outPos = o ∧ b.inIrr = j)]
    exact hshare o j hj
  · intro q hq q' hq' h1 h2
    rw [hzip] at hq hq'
    obtain ⟨a, -, rfl⟩ := List.mem_map.1 hq
    obtain ⟨a', -, rfl⟩ := List.mem_map.1 hq'
    simp only at h1 h2
    simp only [hf, h1, h2]

/-- Two output irreps, the first with two types of inputs (one with two parameters). -/
example : ∃ σ, heVars 4 ([⟨0, 0, 0, 0, none⟩, ⟨0, 0, 0, 0, none⟩, ⟨1, 0, 1, 0, none⟩, ⟨1, 1, 1, 1, none⟩] : List (WInfo ℕ)) = some σ ∧ σ.length = 4 :=
  let ⟨σ, h1, h2, _⟩ := c60_he ([⟨0, 0, 0, 0, none⟩, ⟨0, 0, 0, 0, none⟩, ⟨1, 0, 1, 0, none⟩, ⟨1, 1, 1, 1, none⟩] : List (WInfo ℕ)) 4 rfl
  ⟨σ, h1, h2⟩

/-- The part of a filter belonging to the parameters for the output irrep at position `o`: the parameter at index `k` is `σ k` times the `k`-th normal variable. -/
noncomputable def outPart (infos : List (WInfo Nm)) (o : ℕ) (σ noise : ℕ → ℝ) (b : ℕ → Arr3) : Arr3 := fun r c s =>
  ∑ k ∈ (range infos.length).filter fun k => ∃ a, infos[k]? = some a ∧ a.outPos = o, σ k * noise k * b k r c s

theorem sum_filter_zip (l : List (WInfo Nm)) (σ : List ℝ) (hl : σ.length = l.length) (o : ℕ) :
    (((l.zip σ).filter fun q => q.1.outPos = o).map fun q => (q.2 : ℝ) ^ 2).sum
      = ∑ k ∈ (range l.length).filter fun k => ∃ a, l[k]? = some a ∧ a.outPos = o, (σ.getD k 0) ^ 2 := by
  induction l generalizing σ with
  | nil => simp
  | cons a l ih =>
    cases σ with
    | nil => simp at hl
    | cons x σ =>
      have := ih σ (by simpa using hl)
      rw [Finset.sum_filter, List.length_cons, Finset.sum_range_succ']
      rw [Finset.sum_filter] at this
      simp only [List.getElem?_cons_succ, List.getElem?_cons_zero, Option.some.injEq, exists_eq_left', List.getD_cons_succ, List.getD_cons_zero]
      rw [← this, List.zip_cons_cons]
      by_cases h : a.outPos = o
      · rw [List.filter_cons_of_pos (by simpa using h), if_pos h, List.map_cons, List.sum_cons, add_comm]
      · rw [List.filter_cons_of_neg (by simpa using h), if_neg h, add_zero]

/-- **C60, the energy of the filters.** If the normal variables are uncorrelated with mean square 1 and the basis elements of an output irrep have squared norm `d`, the
expected squared norm of the part of the filter for this irrep is `d`.  `SingleBlockBasisExpansion` makes the squared norm equal to the size of the
output irrep (`sqNorm_normalize`). -/
theorem c60_he_energy {Ω : Type} [MeasurableSpace Ω] (μ : Measure Ω) (z : ℕ → Ω → ℝ) (infos : List (WInfo Nm))
    (hint : ∀ k < infos.length, ∀ l < infos.length, Integrable (fun ω => z k ω * z l ω) μ)
    (huncor : ∀ k < infos.length, ∀ l < infos.length, ∫ ω, z k ω * z l ω ∂μ = if k = l then 1 else 0) (σ : List ℝ)
    (hσ : heVars infos.length infos = some σ) (o : ℕ) (ho : ∃ a ∈ infos, a.outPos = o) (so si S : ℕ) (b : ℕ → Arr3) (d : ℝ)
    (hb : ∀ (k : ℕ) a, infos[k]? = some a → a.outPos = o → sqNorm so si S (b k) = d) :
    ∫ ω, sqNorm so si S (outPart infos o (fun k => σ.getD k 0) (fun k => z k ω) b) ∂μ = d := by
  obtain ⟨σ', h1, h2, -, h3, -, -⟩ := c60_he infos infos.length rfl
  obtain rfl : σ' = σ := by rw [h1] at hσ; exact Option.some.inj hσ
  have h4 := h3 o ho
  rw [sum_filter_zip infos σ' h2] at h4
  set K := (range infos.length).filter fun k => ∃ a, infos[k]? = some a ∧ a.outPos = o with hK
  have hexp : ∀ ω, sqNorm so si S (outPart infos o (fun k => σ'.getD k 0) (fun k => z k ω) b)
      = ∑ k ∈ K, ∑ l ∈ K, σ'.getD k 0 * σ'.getD l 0 * (∑ r ∈ range so, ∑ c ∈ range si, ∑ s ∈ range S, b k r c s * b l r c s) * (z k ω * z l ω) := by
    intro ω
    have e1 : ∀ r c s, (outPart infos o (fun k => σ'.getD k 0) (fun k => z k ω) b r c s) ^ 2
        = ∑ k ∈ K, ∑ l ∈ K, σ'.getD k 0 * σ'.getD l 0 * (z k ω * z l ω) * (b k r c s * b l r c s) := by
      intro r c s
      rw [outPart, ← hK, sq, Finset.sum_mul_sum]
      exact Finset.sum_congr rfl fun k _ => Finset.sum_congr rfl fun l _ => by ring
    simp only [sqNorm, e1]
    have e2 : ∀ r c, ∑ s ∈ range S, ∑ k ∈ K, ∑ l ∈ K, σ'.getD k 0 * σ'.getD l 0 * (z k ω * z l ω) * (b k r c s * b l r c s)
        = ∑ k ∈ K, ∑ l ∈ K, σ'.getD k 0 * σ'.getD l 0 * (z k ω * z l ω) * ∑ s ∈ range S, b k r c s * b l r c s := by
      intro r c
      rw [Finset.sum_comm]
      refine Finset.sum_congr rfl fun k _ => ?_
      rw [Finset.sum_comm]
      exact Finset.sum_congr rfl fun l _ => by rw [Finset.mul_sum]
    have e3 : ∀ r, ∑ c ∈ range si, ∑ k ∈ K, ∑ l ∈ K, σ'.getD k 0 * σ'.getD l 0 * (z k ω * z l ω) * ∑ s ∈ range S, b k r c s * b l r c s
        = ∑ k ∈ K, ∑ l ∈ K, σ'.getD k 0 * σ'.getD l 0 * (z k ω * z l ω) * ∑ c ∈ range si, ∑ s ∈ range S, b k r c s * b l r c s := by
      intro r
      rw [Finset.sum_comm]
      refine Finset.sum_congr rfl fun k _ => ?_
      rw [Finset.sum_comm]
      exact Finset.sum_congr rfl fun l _ => by rw [Finset.mul_sum]
    simp only [e2, e3]
    rw [Finset.sum_comm]
    refine Finset.sum_congr rfl fun k _ => ?_
    rw [Finset.sum_comm]
    refine Finset.sum_congr rfl fun l _ => ?_
    rw [← Finset.mul_sum]
    ring
  simp only [hexp]
  have hKn : ∀ k ∈ K, k < infos.length := fun k hk => Finset.mem_range.1 (Finset.mem_filter.1 hk).1
  rw [integral_finsetSum _ fun k hk => integrable_finsetSum _ fun l hl => (hint k (hKn k hk) l (hKn l hl)).const_mul _]
  have hk : ∀ k ∈ K, ∫ ω, ∑ l ∈ K, σ'.getD k 0 * σ'.getD l 0 * (∑ r ∈ range so, ∑ c ∈ range si, ∑ s ∈ range S, b k r c s * b l r c s) * (z k ω * z l ω) ∂μ
      = σ'.getD k 0 ^ 2 * d := by
    intro k hkK
    rw [integral_finsetSum _ fun l hl => (hint k (hKn k hkK) l (hKn l hl)).const_mul _]
    have e4 : ∀ l ∈ K, ∫ ω, σ'.getD k 0 * σ'.getD l 0 * (∑ r ∈ range so, ∑ c ∈ range si, ∑ s ∈ range S, b k r c s * b l r c s) * (z k ω * z l ω) ∂μ
        = if k = l then σ'.getD k 0 * σ'.getD l 0 * (∑ r ∈ range so, ∑ c ∈ range si, ∑ s ∈ range S, b k r c s * b l r c s) else 0 := by
      intro l hl
      rw [integral_const_mul, huncor k (hKn k hkK) l (hKn l hl), mul_ite, mul_one, mul_zero]
    rw [Finset.sum_congr rfl e4, Finset.sum_ite_eq, if_pos hkK]
    obtain ⟨-, a, ha, hao⟩ := Finset.mem_filter.1 hkK
    rw [← hb k a ha hao, sqNorm, sq]
    congr 1
    exact Finset.sum_congr rfl fun r _ => Finset.sum_congr rfl fun c _ => Finset.sum_congr rfl fun s _ => (sq _).symm
  rw [Finset.sum_congr rfl hk, ← Finset.sum_mul, h4, one_mul]

/-- Two parameters for one output irrep, and two uncorrelated variables on a space with two points. -/
example : ∃ (μ : Measure Bool) (z : ℕ → Bool → ℝ), (∀ k < 2, ∀ l < 2, Integrable (fun ω => z k ω * z l ω) μ) ∧
    ∀ k < 2, ∀ l < 2, ∫ ω, z k ω * z l ω ∂μ = if k = l then 1 else 0 := by
  refine ⟨(2⁻¹ : ENNReal) • Measure.count, fun k ω => if k = 1 ∧ ω = false then -1 else 1, fun k _ l _ => ?_, fun k hk l hl => ?_⟩
  · exact (Integrable.of_finite).smul_measure (by simp)
  · rw [integral_smul_measure, integral_count]
    interval_cases k <;> interval_cases l <;> norm_num

open Classical in
/-- **C60, the cache.** If equal expansions have the same attributes (up to renaming they have the same deviations), every sequence of calls with and without the cache gives the tensors of
the uncached computation. -/
theorem c60_he_cache {K : Type} (same : K → K → Prop) (dim : K → ℕ) (infos : K → List (WInfo Nm))
    (hsame : ∀ a b, same a b → heVars (dim a) (infos a) = heVars (dim b) (infos b)) (cs : List (HeCall K)) :
    heRun same dim infos [] cs = cs.map fun c =>
      if c.len = dim c.exp then (heVars (dim c.exp) (infos c.exp)).map fun v => List.zipWith (· * ·) v c.noise else none := by
  suffices H : ∀ mem : List (K × List ℝ), (∀ e ∈ mem, heVars (dim e.1) (infos e.1) = some e.2) →
      heRun same dim infos mem cs = cs.map fun c =>
        if c.len = dim c.exp then (heVars (dim c.exp) (infos c.exp)).map fun v => List.zipWith (· * ·) v c.noise else none from H [] (by simp)
  induction cs with
  | nil => intros; rfl
  | cons c cs ih =>
    intro mem hmem
    rw [heRun, List.map_cons]
    have key : (heInit same dim infos mem c).1
        = (if c.len = dim c.exp then (heVars (dim c.exp) (infos c.exp)).map fun v => List.zipWith (· * ·) v c.noise else none) ∧
        ∀ e ∈ (heInit same dim infos mem c).2, heVars (dim e.1) (infos e.1) = some e.2 := by
      unfold heInit
      by_cases hlen : c.len = dim c.exp
      · rw [if_neg (not_not.2 hlen), if_pos hlen]
        dsimp only
        by_cases hc : c.cache
        · rw [if_pos hc]
          cases hf : mem.find? fun e => decide (same e.1 c.exp) with
          | some e =>
            have hs : same e.1 c.exp := by simpa using List.find?_some hf
            refine ⟨?_, hmem⟩
            rw [← hsame _ _ hs, hmem e (List.mem_of_find?_eq_some hf)]
            rfl
          | none =>
            cases hv : heVars (dim c.exp) (infos c.exp) with
            | none => exact ⟨rfl, hmem⟩
            | some v =>
              refine ⟨rfl, fun e he => ?_⟩
              rcases List.mem_cons.1 he with rfl | he
              · exact hv
              · exact hmem e he
        · rw [if_neg hc]
          exact ⟨rfl, hmem⟩
      · rw [if_pos hlen, if_neg hlen]
        exact ⟨rfl, hmem⟩
    rw [key.1, ih _ key.2]

end E2
