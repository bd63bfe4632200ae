import Mathlib.MeasureTheory.SpecificCodomains.Pi
import Mathlib.MeasureTheory.Function.SpecialFunctions.Basic
import Mathlib.MeasureTheory.Constructions.BorelSpace.Complex
import Mathlib.MeasureTheory.Measure.Lebesgue.Basic
import Mathlib.MeasureTheory.Measure.Haar.Unique
import Mathlib.MeasureTheory.Measure.Lebesgue.Complex
import Verif.Props.PlaneConvSpec
import Verif.Model.R2ConvInit
import Verif.Props.Expansion

/-!
# Lemmas for C92: the kernels are measurable and bounded, and the filters are values of kernels on the plane
-/

set_option linter.unusedSectionVars false

namespace E2

open MeasureTheory Mat Real Finset

variable {El F A I X : Type}

/-! ## Continuity in the angle -/

theorem m2_continuous {f1 f2 f3 f4 : ℝ → ℝ} (h1 : Continuous f1) (h2 : Continuous f2) (h3 : Continuous f3) (h4 : Continuous f4) (a b : ℕ) :
    Continuous fun φ => m2 (f1 φ) (f2 φ) (f3 φ) (f4 φ) a b := by
  match a, b with
  | 0, 0 => exact h1
  | 0, 1 => exact h2
  | 1, 0 => exact h3
  | 1, 1 => exact h4
  | 0, n + 2 => exact continuous_const
  | 1, n + 2 => exact continuous_const
  | n + 2, _ => exact continuous_const

theorem angMat_continuous (so si : ℕ) (e : AngElem) (a b : ℕ) : Continuous fun φ => angMat so si e φ a b := by
  unfold angMat
  split_ifs
  · unfold psichi
    refine m2_continuous ?_ ?_ ?_ ?_ a b <;> fun_prop
  · beta_reduce
    split_ifs <;> fun_prop
  · beta_reduce
    split_ifs <;> fun_prop
  · unfold m1
    beta_reduce
    split_ifs <;> fun_prop
  · beta_reduce
    fun_prop

theorem angSamp_continuous (axis : ℝ) (i o : Irrep El) (e : AngElem) (a b : ℕ) : Continuous fun φ => angSamp axis i o e (some φ) a b := by
  simp only [angSamp, angSample, reduceCtorEq, false_and, if_false, Option.getD_some]
  exact (angMat_continuous _ _ e a b).comp (continuous_id.sub continuous_const)

section loops
variable {E : Type} (samp : Irrep El → Irrep El → E → X → Mat) (g : ℝ → X) (h : ∀ i o e a b, Continuous fun φ => samp i o e (g φ) a b) (bases : Irrep El → Irrep El → List E)
include h

theorem loopOut_continuous (i : Irrep El) (inPos : ℕ) (os : List (Irrep El)) :
    ∀ (outPos count : ℕ) (out : ℝ → Arr3), (∀ a b k, Continuous fun φ => out φ a b k) →
      (∃ c, ∀ φ, (SBasis.loopOut samp bases (g φ) i inPos os outPos count (out φ)).1 = c) ∧
      ∀ a b k, Continuous fun φ => (SBasis.loopOut samp bases (g φ) i inPos os outPos count (out φ)).2 a b k := by
  induction os with
  | nil =>
    intro outPos count out hout
    exact ⟨⟨count, fun _ => rfl⟩, hout⟩
  | cons o os ih =>
    intro outPos count out hout
    by_cases hb : bases i o = []
    · simp only [SBasis.loopOut, if_pos hb]
      exact ih _ _ out hout
    · simp only [SBasis.loopOut, if_neg hb]
      refine ih _ _ (fun φ => SBasis.writeBlock (out φ) outPos o.size inPos i.size count (bases i o).length (SBasis.irrepSample samp i o (bases i o) (g φ))) fun a b k => ?_
      unfold SBasis.writeBlock
      split_ifs
      · unfold SBasis.irrepSample
        split
        · exact h _ _ _ _ _
        · exact continuous_const
      · exact hout a b k

theorem loopIn_continuous (outs is : List (Irrep El)) :
    ∀ (inPos count : ℕ) (out : ℝ → Arr3), (∀ a b k, Continuous fun φ => out φ a b k) →
      ∀ a b k, Continuous fun φ => SBasis.loopIn samp bases (g φ) outs is inPos count (out φ) a b k := by
  induction is with
  | nil =>
    intro inPos count out hout
    exact hout
  | cons i is ih =>
    intro inPos count out hout
    obtain ⟨⟨c, hc⟩, h2⟩ := loopOut_continuous samp g h bases i inPos outs 0 count out hout
    simp only [SBasis.loopIn, hc]
    exact ih _ _ _ h2

theorem sample_continuous (S : SBasis El E) (a b k : ℕ) : Continuous fun φ => S.sample samp (g φ) a b k := by
  have h1 : ∀ a b k, Continuous fun φ => S.sampleDirectSum samp (g φ) a b k := fun a b k =>
    loopIn_continuous samp g h S.bases S.outs S.ins 0 0 (fun _ _ _ _ => 0) (fun _ _ _ => continuous_const) a b k
  unfold SBasis.sample
  cases S.Ainv <;> cases S.B <;> dsimp only
  · exact h1 a b k
  · exact continuous_finsetSum _ fun o _ => continuous_const.mul (h1 _ _ _)
  · exact continuous_finsetSum _ fun o _ => (h1 _ _ _).mul continuous_const
  · exact continuous_finsetSum _ fun o _ => continuous_finsetSum _ fun o' _ => (continuous_const.mul (h1 _ _ _)).mul continuous_const

end loops

/-! ## Periodicity in the angle -/

section congr
variable {E X : Type} {samp : Irrep El → Irrep El → E → X → Mat} {x y : X} (h : ∀ i o e, samp i o e x = samp i o e y)
include h

theorem loopOut_point (bases : Irrep El → Irrep El → List E) (i : Irrep El) (inPos : ℕ) (os : List (Irrep El)) :
    ∀ (outPos count : ℕ) (out : Arr3), SBasis.loopOut samp bases x i inPos os outPos count out = SBasis.loopOut samp bases y i inPos os outPos count out := by
  induction os with
  | nil => exact fun _ _ _ => rfl
  | cons o os ih =>
    intro outPos count out
    have e : SBasis.irrepSample samp i o (bases i o) x = SBasis.irrepSample samp i o (bases i o) y := by
      funext a b k
      unfold SBasis.irrepSample
      simp only [h]
    simp only [SBasis.loopOut, ih, e]

theorem loopIn_point (bases : Irrep El → Irrep El → List E) (outs is : List (Irrep El)) :
    ∀ (inPos count : ℕ) (out : Arr3), SBasis.loopIn samp bases x outs is inPos count out = SBasis.loopIn samp bases y outs is inPos count out := by
  induction is with
  | nil => exact fun _ _ _ => rfl
  | cons i is ih =>
    intro inPos count out
    simp only [SBasis.loopIn, ih, loopOut_point h]

theorem sample_point (S : SBasis El E) : S.sample samp x = S.sample samp y := by
  have e : S.sampleDirectSum samp x = S.sampleDirectSum samp y := loopIn_point h _ _ _ _ _ _
  simp only [SBasis.sample, e]

end congr

theorem angSamp_periodic (axis : ℝ) (i o : Irrep El) (e : AngElem) (φ : ℝ) : angSamp axis i o e (some (φ + 2 * π)) = angSamp axis i o e (some φ) := by
  simp only [angSamp, angSample, reduceCtorEq, false_and, if_false, Option.getD_some]
  have := angMat_periodic o.size i.size e (φ - axis) 1
  rw [Int.cast_one, one_mul] at this
  rw [add_sub_right_comm, this]

/-- Continuous periodic functions of the angle are continuous outside of the origin. -/
theorem continuousAt_periodic_arg {f : ℝ → ℝ} (hf : Continuous f) (hp : Function.Periodic f (2 * π)) {z : ℂ} (hz : z ≠ 0) : ContinuousAt (fun z => f (Complex.arg z)) z := by
  have hc : Continuous (hp.lift : Real.Angle → ℝ) := continuous_coinduced_dom.2 hf
  exact hc.continuousAt.comp (Complex.continuousAt_arg_coe_angle hz)

/-! ## Regular kernels -/

theorem measurable_radius : Measurable radius := by
  unfold radius
  fun_prop

theorem measurable_arg : Measurable fun p : ℝ × ℝ => Complex.arg ⟨p.1, p.2⟩ := by
  have : (fun p : ℝ × ℝ => Complex.arg ⟨p.1, p.2⟩) = fun p => Complex.arg (Complex.measurableEquivRealProd.symm p) := rfl
  rw [this]
  exact Complex.measurable_arg.comp Complex.measurableEquivRealProd.symm.measurable

theorem continuous_radius : Continuous radius := by
  unfold radius
  fun_prop

theorem regular_angle {f : Option ℝ → ℝ} (hf : Continuous fun φ => f (some φ)) (hp : Function.Periodic (fun φ => f (some φ)) (2 * π)) :
    Measurable (fun p => f (angle p)) ∧ (∃ C, ∀ p, |f (angle p)| ≤ C) ∧ ∀ p, radius p ≠ 1e-9 → ContinuousAt (fun p => f (angle p)) p := by
  classical
  have e : ∀ p, f (angle p) = if radius p < 1e-9 then f none else f (some (Complex.arg ⟨p.1, p.2⟩)) := by
    intro p
    unfold angle
    split_ifs <;> rfl
  refine ⟨?_, ?_, ?_⟩
  · simp only [e]
    exact Measurable.ite (measurableSet_lt measurable_radius measurable_const) measurable_const (hf.measurable.comp measurable_arg)
  · obtain ⟨C, hC⟩ := (isCompact_Icc (a := -π) (b := π)).exists_bound_of_continuousOn hf.continuousOn
    refine ⟨max |f none| C, fun p => ?_⟩
    rw [e]
    split_ifs
    · exact le_max_left _ _
    · exact (hC _ ⟨(Complex.neg_pi_lt_arg _).le, Complex.arg_le_pi _⟩).trans (le_max_right _ _)
  · intro p hr
    rcases lt_or_gt_of_ne hr with h | h
    · have : (fun p => f (angle p)) =ᶠ[nhds p] fun _ => f none := by
        filter_upwards [(isOpen_lt continuous_radius continuous_const).mem_nhds h] with q hq
        rw [e, if_pos hq]
      exact continuousAt_const.congr this.symm
    · have : (fun p => f (angle p)) =ᶠ[nhds p] fun p => f (some (Complex.arg ⟨p.1, p.2⟩)) := by
        filter_upwards [(isOpen_lt continuous_const continuous_radius).mem_nhds h] with q hq
        rw [e, if_neg (not_lt.2 (le_of_lt hq))]
      refine ContinuousAt.congr ?_ this.symm
      have hz : (⟨p.1, p.2⟩ : ℂ) ≠ 0 := by
        intro h0
        have h1 := congrArg Complex.re h0
        have h2 := congrArg Complex.im h0
        simp only [Complex.zero_re, Complex.zero_im] at h1 h2
        rw [radius, h1, h2] at h
        norm_num at h
      exact ContinuousAt.comp (f := fun p : ℝ × ℝ => (⟨p.1, p.2⟩ : ℂ)) (g := fun z => f (some (Complex.arg z))) (continuousAt_periodic_arg hf hp hz)
        Complex.equivRealProdCLM.symm.continuous.continuousAt

theorem planeKernel_regular (axis : ℝ) (rings : List (ℝ × ℝ)) (S : SBasis El AngElem) (k : ℕ) :
    KernelRegular (planeKernel axis (rings.map fun q => gaussian q.1 q.2) S k) := by
  intro a b
  obtain ⟨h1, ⟨C, h2⟩, h3⟩ := regular_angle (f := fun φ => S.sample (angSamp axis) φ a b (k % S.dim)) (sample_continuous (angSamp axis) some (angSamp_continuous axis) S a b _)
    fun φ => by
      show S.sample (angSamp axis) (some (φ + 2 * π)) a b _ = _
      rw [sample_point fun i o e => angSamp_periodic axis i o e φ]
  have hr : Measurable (fun p : ℝ × ℝ => match (rings.map fun q => gaussian q.1 q.2)[k / S.dim]? with | some f => f (radius p) | none => 0) ∧
      (∀ p : ℝ × ℝ, abs (match (rings.map fun q => gaussian q.1 q.2)[k / S.dim]? with | some f => f (radius p) | none => 0) ≤ 1) ∧
      Continuous (fun p : ℝ × ℝ => match (rings.map fun q => gaussian q.1 q.2)[k / S.dim]? with | some f => f (radius p) | none => 0) := by
    rw [List.getElem?_map]
    cases rings[k / S.dim]? with
    | none => exact ⟨measurable_const, fun p => by simp, continuous_const⟩
    | some q =>
      simp only [Option.map_some]
      refine ⟨?_, ?_, ?_⟩
      · unfold gaussian
        have := measurable_radius
        fun_prop
      · intro p
        rw [gaussian, abs_of_pos (exp_pos _), exp_le_one_iff]
        have : 0 ≤ (q.1 - radius p) ^ 2 / q.2 ^ 2 := by positivity
        have e : -0.5 * (q.1 - radius p) ^ 2 / q.2 ^ 2 = -0.5 * ((q.1 - radius p) ^ 2 / q.2 ^ 2) := by ring
        rw [e]
        nlinarith
      · unfold gaussian
        have := continuous_radius
        fun_prop
  refine ⟨hr.1.mul h1, ⟨C, fun p => ?_⟩, fun p hp => hr.2.2.continuousAt.mul (h3 p hp)⟩
  show |_ * _| ≤ C
  rw [abs_mul]
  exact (mul_le_mul (hr.2.1 p) (h2 p) (abs_nonneg _) zero_le_one).trans (by rw [one_mul])

theorem KernelRegular.sum {n : ℕ} {w : ℕ → ℝ} {κ : ℕ → ℝ × ℝ → Mat} (h : ∀ k < n, KernelRegular (κ k)) :
    KernelRegular fun p a b => ∑ k ∈ range n, w k * κ k p a b := by
  intro a b
  refine ⟨?_, ?_, ?_⟩
  · exact Finset.measurable_sum _ fun k hk => measurable_const.mul (h k (Finset.mem_range.1 hk) a b).1
  · choose! C hC using fun k hk => (h k hk a b).2.1
    refine ⟨∑ k ∈ range n, |w k| * C k, fun p => (Finset.abs_sum_le_sum_abs _ _).trans (Finset.sum_le_sum fun k hk => ?_)⟩
    rw [abs_mul]
    exact mul_le_mul_of_nonneg_left (hC k (Finset.mem_range.1 hk) p) (abs_nonneg _)
  · intro p hp
    exact tendsto_finsetSum _ fun k hk => (continuousAt_const (y := w k)).mul ((h k (Finset.mem_range.1 hk) a b).2.2 p hp)

theorem KernelRegular.div {κ : ℝ × ℝ → Mat} (h : KernelRegular κ) (c : ℝ) : KernelRegular fun p a b => κ p a b / c := by
  intro a b
  obtain ⟨h1, ⟨C, h2⟩, h3⟩ := h a b
  refine ⟨h1.div_const c, ⟨C / |c|, fun p => ?_⟩, fun p hp => (h3 p hp).div_const c⟩
  rw [abs_div]
  exact div_le_div_of_nonneg_right (h2 p) (abs_nonneg _)

theorem KernelRegular.place {κ : ℝ × ℝ → Mat} (h : KernelRegular κ) (r0 rs c0 cs : ℕ) : KernelRegular fun p => Mat.place r0 rs c0 cs (κ p) := by
  intro a b
  by_cases hc : (r0 ≤ a ∧ a < r0 + rs) ∧ (c0 ≤ b ∧ b < c0 + cs)
  · simp only [Mat.place, if_pos hc]
    exact h _ _
  · simp only [Mat.place, if_neg hc]
    exact ⟨measurable_const, ⟨0, fun p => by simp⟩, fun _ _ => continuousAt_const⟩

/-- The integrals of the convolution of a test function exist. -/
theorem KernelRegular.integrable {κ : ℝ × ℝ → Mat} (h : KernelRegular κ) {so si : ℕ} {f : PField si} (hf : f.Test) (x : ℝ × ℝ) :
    Integrable fun y => ((κ (y - x)).corner so si).mulVec (f y) := by
  refine Integrable.of_eval fun o => ?_
  have : ∀ y, ((κ (y - x)).corner so si).mulVec (f y) o = ∑ j : Fin si, κ (y - x) o j * f y j := fun y => rfl
  simp only [this]
  refine integrable_finsetSum _ fun j _ => ?_
  obtain ⟨h1, ⟨C, h2⟩, -⟩ := h o j
  refine Integrable.bdd_mul (c := C) ?_ (h1.comp (measurable_id.sub_const x)).aestronglyMeasurable (ae_of_all _ fun y => h2 _)
  exact ((hf.1.integrable_of_hasCompactSupport hf.2).eval j)

/-! ## Filters as values of kernels -/

/-- The kernel on the plane of which the expanded filter has the values: the same sum, without the restriction to the points of the filter. -/
theorem filter_kernel (G : Grp El) (act : El → X → X) (rep : F → Repr El) (inT outT : List F) (S : ℕ) (points : ℕ → X)
    (basis : F → F → List (A × (X → Mat))) (keep : A → Bool) (shape0 : A → ℕ) (ident : A → I) (inIdx outIdx : A → ℕ)
    (h : FilterInput rep inT outT basis ident)
    (hK : ∀ i ∈ inT, ∀ o ∈ outT, ∀ b ∈ basis i o, KernelConstraint G act (rep o).size (rep i).size (rep o).mat (rep i).mat b.2)
    [LinearOrder F] [DecidableEq I]
    (E : Exp F A I) (hE : E = filterExp rep inT outT S points basis keep shape0 ident inIdx outIdx)
    (hone : E.nPairs = 1 → E.pairs ≠ []) (w : List ℝ) (hw : w.length = E.dimension) :
    ∃ f, E.forward w = some f ∧ ∃ κ : ℕ → X → Mat, (∀ k < E.dimension, ∃ i ∈ inT, ∃ o ∈ outT, ∃ b ∈ basis i o, ∃ c : ℝ, κ k = fun p r q => b.2 p r q / c) ∧
      let Φ : X → Mat := fun p a b => ∑ k ∈ range E.dimension, w.getD k 0 * E.inBlock k (κ k p) a b
      KernelConstraint G act (typeSize (fun n => (rep n).size) outT) (typeSize (fun n => (rep n).size) inT) (typeMat rep outT) (typeMat rep inT) Φ ∧
      ∀ s, MEq (typeSize (fun n => (rep n).size) outT) (typeSize (fun n => (rep n).size) inT) (f.at s) (Φ (points s)) := by
  have hwf : E.WF := hE ▸ filterExp_wf h S points keep shape0 inIdx outIdx
  obtain ⟨ker, hker, hf⟩ := c24_filter E hwf hone
  obtain ⟨f, hfw, hf⟩ := hf w hw
  have hsz : E.sz = fun n => (rep n).size := by rw [hE]; rfl
  have hin : E.inT = inT := by rw [hE]; rfl
  have hout : E.outT = outT := by rw [hE]; rfl
  rw [hsz, hin, hout] at hf
  have hex : ∀ k, k < E.dimension → ∃ κ : X → Mat, (∀ s, (ker k).at s = κ (points s)) ∧ (∃ i ∈ inT, ∃ o ∈ outT, ∃ b ∈ basis i o, ∃ c : ℝ, κ = fun p r q => b.2 p r q / c) ∧
      ∃ info : Info F A, E.elementInfo k = some info ∧ inT[info.inField]? = some info.inRepr ∧ outT[info.outField]? = some info.outRepr ∧
        KernelConstraint G act (rep info.outRepr).size (rep info.inRepr).size (rep info.outRepr).mat (rep info.inRepr).mat κ := by
    intro k hk
    obtain ⟨info, bl, e, h1, h2, h3, h4, h5, h6, -, -⟩ := c24_attributes E hwf k hk
    obtain ⟨bl', e', h4', h5', h6', h7'⟩ := hker k info h1
    rw [hin] at h2
    rw [hout] at h3
    have hm1 : info.inRepr ∈ inT := List.mem_of_getElem? h2
    have hm2 : info.outRepr ∈ outT := List.mem_of_getElem? h3
    have hgen : E.gen info.inRepr info.outRepr = singleBlock (rep info.outRepr).size (rep info.inRepr).size S keep shape0
        ((basis info.inRepr info.outRepr).map fun b => ⟨b.1, fun r c s => b.2 (points s) r c⟩) := by rw [hE]; rfl
    rw [hgen] at h4'
    obtain ⟨b0, hb0, c0, -, -, hc0⟩ := (singleBlock_spec h4').2.2 e' h5'
    obtain ⟨b1, hb1, rfl⟩ := List.mem_map.1 hb0
    refine ⟨fun p r q => b1.2 p r q / c0, fun s => ?_, ⟨_, hm1, _, hm2, b1, hb1, c0, rfl⟩, info, h1, h2, h3, fun g hg x r hr c hc => ?_⟩
    · funext r q
      rw [h7']
      exact hc0 r q s
    · have := hK _ hm1 _ hm2 b1 hb1 g hg x r hr c hc
      simp only [Mat.mul] at this ⊢
      rw [this, Finset.sum_div]
      refine Finset.sum_congr rfl fun l _ => ?_
      rw [mul_div_right_comm, Finset.sum_div]
      congr 1
      exact Finset.sum_congr rfl fun m _ => by ring
  choose! κ k1 k2 k3 using hex
  refine ⟨f, hfw, κ, k2, ?_, ?_⟩
  · intro g hg x
    rw [mul_sum_left', mul_sum_right']
    intro a ha b hb
    refine Finset.sum_congr rfl fun k hk => ?_
    congr 1
    obtain ⟨info, h1, h2, h3, hcon⟩ := k3 k (Finset.mem_range.1 hk)
    have h1' := h1
    rw [E.elementInfo_eq] at h1'
    have hib : ∀ M, E.inBlock k M = Mat.place (offset (outT.map fun n => (rep n).size) info.outField) (rep info.outRepr).size
        (offset (inT.map fun n => (rep n).size) info.inField) (rep info.inRepr).size M := by
      intro M
      rw [Exp.inBlock, h1', hsz, hin, hout]
    rw [hib, hib]
    obtain ⟨x1, x2⟩ := List.getElem?_eq_some_iff.1 h2
    obtain ⟨x3, x4⟩ := List.getElem?_eq_some_iff.1 h3
    have lem1 := bdiag_mul_place (outT.map fun n => ((rep n).size, (rep n).mat g)) (k := info.outField) (by simpa using x3)
      (offset (inT.map fun n => (rep n).size) info.inField) (rep info.inRepr).size (κ k x)
    have lem2 := fun M => place_mul_bdiag (inT.map fun n => ((rep n).size, (rep n).mat (G.inv g))) (k := info.inField) (by simpa using x1)
      (offset (outT.map fun n => (rep n).size) info.outField) (rep info.outRepr).size M
    simp only [List.map_map, Function.comp_def, List.getElem_map, x2, x4] at lem1 lem2
    have hsum : ∀ t : List F, (t.map fun n => (rep n).size).sum = typeSize (fun n => (rep n).size) t := fun t => rfl
    rw [hsum] at lem1 lem2
    rw [typeMat, typeMat, lem1, lem2]
    exact MEq_place (hcon g hg x) a ha b hb
  · intro s a ha b hb
    rw [hf s a ha b hb]
    exact Finset.sum_congr rfl fun k hk => by rw [k1 k (Finset.mem_range.1 hk)]

end E2
