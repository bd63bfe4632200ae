import Verif.Props.Expansion
import Verif.Props.ExpansionEq
import Verif.Props.Caches
import Verif.Props.BatchReset
import Verif.Props.BandLimit
import Verif.Props.Sequential

/-!
# Concrete cases for the theorems about basis expansions, caches and containers
-/

namespace E2

open Mat

/-! ### Basis expansions (C24, C86) -/

theorem idExp_wf : idExp.WF :=
  filterExp_wf (rep := fun _ : ℕ => (⟨[SO2.irrep 1], Mat.one, Mat.one⟩ : Repr ℝ))
    (⟨by simp, by simp, fun _ _ => by decide, fun _ _ => by decide, fun _ _ _ _ => by simp⟩ :
      FilterInput (fun _ : ℕ => (⟨[SO2.irrep 1], Mat.one, Mat.one⟩ : Repr ℝ)) [0] [0, 0] (fun _ _ => [((0 : ℕ), fun _ : ℝ × ℝ => Mat.one)]) (id : ℕ → ℕ))
    1 (fun _ => ((0 : ℝ), (0 : ℝ))) (fun _ => true) (fun _ => 2) id id

theorem idExp_pairs : idExp.pairs = [(0, 0)] := by
  obtain ⟨e, he, ha⟩ := idExp_gen
  have : idExp.pairsRaw = [(0, 0)] := by
    have h1 : idExp.inT = [0] := rfl
    have h2 : idExp.outT = [0, 0] := rfl
    simp [Exp.pairsRaw, h1, h2, he]
  rw [Exp.pairs, this, List.mergeSort_singleton]

theorem idExp_dim : idExp.dimension = 2 := by
  obtain ⟨e, he, ha⟩ := idExp_gen
  have hb : idExp.block (0, 0) = [e] := by rw [Exp.block, he]; rfl
  rw [Exp.WF.dimension_eq idExp_wf, Exp.total]
  change ((idExp.pairs.map idExp.len).sum) = 2
  rw [idExp_pairs, List.map_cons, List.map_nil, Exp.len, hb]
  rfl

/-- The expansion of a layer with one input field and two output fields: its only pair of representations has both parameters. -/
example : ∃ r ∈ idExp.ranges, r.1 = (0, 0) ∧ r.2.2 - r.2.1 = 2 := by
  obtain ⟨h1, -, -, h2, -⟩ := c24_ranges idExp idExp_wf
  rw [idExp_pairs] at h1
  obtain ⟨⟨p, a, b⟩, hr, hp⟩ := List.map_eq_singleton_iff.1 h1
  obtain rfl : p = (0, 0) := hp
  obtain ⟨-, -, -, h3, -, h5⟩ := h2 0 (0, 0) a b (by rw [hr]; rfl)
  refine ⟨((0, 0), a, b), by rw [hr]; simp, rfl, ?_⟩
  have h6 := h5 (by rw [hr]; rfl)
  rw [idExp_dim] at h6
  simp [h3 rfl, h6]

example : idExp.basisInfo.length = 2 ∧ idExp.basisToIds.length = 2 := by
  obtain ⟨h1, -, -, h2, -⟩ := c24_reported idExp idExp_wf
  rw [idExp_dim] at h1 h2
  exact ⟨h1, h2⟩

example : ∃ info, idExp.elementInfo 1 = some info ∧ info.attr = 0 := by
  obtain ⟨info, bl, b, h1, h2, h3, h4, h5, h6, -, -⟩ := c24_attributes idExp idExp_wf 1 (by rw [idExp_dim]; norm_num)
  obtain ⟨e, he, ha⟩ := idExp_gen
  have hi : info.inRepr = 0 := by
    have := List.mem_of_getElem? h2
    simpa [idExp, filterExp] using this
  have ho : info.outRepr = 0 := by
    have := List.mem_of_getElem? h3
    simpa [idExp, filterExp] using this
  rw [hi, ho, he] at h4
  obtain rfl := Option.some.inj h4
  rw [List.mem_singleton.1 h5, ha] at h6
  exact ⟨info, h1, h6.symm⟩

example (v w : ℝ) : ∃ f, idExp.forward [v, w] = some f := by
  obtain ⟨ker, -, h⟩ := c24_filter idExp idExp_wf fun _ => by rw [idExp_pairs]; simp
  obtain ⟨f, h, -⟩ := h [v, w] idExp_dim.symm
  exact ⟨f, h⟩

/-- Another value for the second parameter changes only one of the two blocks of the filter. -/
example (v w u : ℝ) : ∃ info f f', idExp.elementInfo 1 = some info ∧ idExp.forward [v, w] = some f ∧ idExp.forward [v, u] = some f' ∧
    ∀ a < typeSize idExp.sz idExp.outT, ∀ b < typeSize idExp.sz idExp.inT, ¬ (((idExp.outT.map idExp.sz).take info.outField).sum ≤ a ∧
      a < ((idExp.outT.map idExp.sz).take info.outField).sum + idExp.sz info.outRepr) → f' a b 0 = f a b 0 := by
  obtain ⟨info, bl, b, h1, -⟩ := c24_attributes idExp idExp_wf 1 (by rw [idExp_dim]; norm_num)
  obtain ⟨f, f', h2, h3, h4⟩ := c24_weight_effect idExp idExp_wf (fun _ => by rw [idExp_pairs]; simp) [v, w] idExp_dim.symm 1 u info h1
  exact ⟨info, f, f', h1, h2, h3, fun a ha b hb hn => h4 a ha b hb 0 fun h => hn h.1⟩

/-- The cache of He's initialisation with two expansions which are equal as objects but have different types: the second call finds the entry of the first. -/
example (u v : List ℝ) :
    let E : ℕ → {E : Exp ℕ Unit Unit // E.WF ∧ E.IdxOk ∧ E.outIdx = (eqExp 0).outIdx} := fun n => ⟨eqExp n, eqExp_wf n, eqExp_idx n, rfl⟩
    (heRun (fun E E' => E.1.eqv 1 E'.1) (fun E => E.1.dimension) (fun E => E.1.winfos (fun _ => (0 : ℕ)) (fun _ => 0) fun _ => none) [] [⟨E 0, true, 1, u⟩, ⟨E 3, true, 1, v⟩]).length = 2 := by
  intro E
  rw [c86_cache 1 (fun _ => (0 : ℕ)) (fun _ => 0) (fun _ => none) (eqExp 0).outIdx (fun E E' => E.1.eqv 1 E'.1) (fun _ _ h => h)]
  rfl

/-! ### The bases remembered by a space (C42) -/

/-- Three requests for kernels, the third equal to the first. -/
example (gen : BasisGen ℕ Unit Unit ℕ ℕ) (hg : gen.name = id) :
    let q : BasisReq ℕ Unit Unit := .kernel 0 1 (.inl 1) [0, 1] fun _ => none
    let q' : BasisReq ℕ Unit Unit := .kernel 1 1 (.inl 1) [0, 1] fun _ => none
    (buildAll gen (fun _ _ => none) [q, q', q]).1 = [freshBasis gen q, freshBasis gen q', freshBasis gen q] := by
  intro q q'
  refine c42_kernels gen [q, q', q] ?_ ?_ (by rw [hg]; exact Function.injective_id)
  · intro r hr
    simp only [List.mem_cons, List.not_mem_nil, or_false] at hr
    rcases hr with rfl | rfl | rfl <;> exact trivial
  · intro r hr
    simp only [List.mem_cons, List.not_mem_nil, or_false] at hr
    rcases hr with rfl | rfl | rfl <;> exact ⟨rfl, rfl⟩

/-! ### Batch normalisation (C101) and band limits (C52) -/

/-- After one batch in training mode `reset_running_stats` of `NormBatchNorm` without parameters gives a new module. -/
example (a b c : ℝ) (o : BNObj ℝ ℝ) (ys : List (BNOut ℕ)) (x : BNIn ℕ) (hx : Batch.Ok id [2, 1] x)
    (h : (normClass id [2, 1] none 1).run [.call true ⟨1, [0, 0, 0], ⟨[2, 1], [![a], ![b], ![c]]⟩⟩] ((normClass (R := ℕ) id [2, 1] none 1).construct false) = some (o, ys)) :
    ((normClass id [2, 1] none 1).run [.call false x] ((normClass (R := ℕ) id [2, 1] none 1).resetRunning o)).map Prod.snd =
      ((normClass id [2, 1] none 1).run [.call false x] ⟨((normClass (R := ℕ) id [2, 1] none 1).construct false).state, o.params⟩).map Prod.snd :=
  c101_norm_partial (R := ℕ) id [2, 1] (by simp) none 1 false _ (by simp [BNOp.Ok, Batch.Ok, GTensor.WF]; rfl) o ys h _ (by simpa [BNOp.Ok] using hx)

/-- A cutoff which is negative on all rings leaves no kernel. -/
example (l : List AngElem) : bandKept (fun _ => -1) [0, 1] l = [] :=
  c52_negative (F := -1) (by norm_num [maximumFrequency, listMax, pyInt]) (by norm_num) l

end E2
