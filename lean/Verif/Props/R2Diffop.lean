import Verif.Model.R2Diffop
import Verif.Lemmas.FilterAt
import Verif.Props.FiniteDiff
import Verif.Props.Conv

/-!
# C65: `R2Diffop` commutes with the rotations of the pixel grid

For all types, groups, paddings and modes, dilations and strides such that the windows cover the padded image exactly, all weights and all images:
transforming the input by a rotation of the group by a multiple of a right angle and applying the operator is the same as applying the operator and
transforming the output.  With operators of even orders only, the same holds for the reflections which permute the pixels.  With operators of odd
orders it is false for the reflections: the output has the opposite sign.

The constructor chooses the missing one of kernel size and maximum order so that the requested accuracy is guaranteed and all the operators can be
discretised.
-/

set_option linter.unusedSectionVars false

namespace E2

open Finset Mat Real

variable {El F B I : Type} [LinearOrder F] [DecidableEq I]

/-! ### The choice of the kernel size and of the maximum order -/

/-- **C65, the smallest kernel**: with a maximum order and an accuracy the kernel size is the smallest one which guarantees the accuracy, and all the
operators up to this order can be discretised. -/
theorem c65_kernel_size (order accuracy : ℤ) (ho : 0 ≤ order) (ha : 1 ≤ accuracy) :
    ∃ k, diffopSizes none (some order) (some accuracy) = some (k, order) ∧ order < k ∧
      (∃ a, guaranteedAccuracy k order = some a ∧ accuracy ≤ a) ∧
      ∀ n a, guaranteedAccuracy n order = some a → accuracy ≤ a → k ≤ n := by
  obtain ⟨h1, h2⟩ := c49_required_points order accuracy ha
  refine ⟨_, rfl, ?_, h1, h2⟩
  simp only [Option.getD_some]
  unfold requiredPoints
  split_ifs <;> omega

/-- **C65, the largest order**: with a kernel size and an accuracy not larger than it, the maximum order is the largest one for which the accuracy is
guaranteed, and all the operators up to this order can be discretised. -/
theorem c65_maximum_order (kernelSize accuracy : ℤ) (ha : 1 ≤ accuracy) (hk : accuracy ≤ kernelSize) :
    ∃ o, diffopSizes (some kernelSize) none (some accuracy) = some (kernelSize, o) ∧ 0 ≤ o ∧ o < kernelSize ∧
      (∃ a, guaranteedAccuracy kernelSize o = some a ∧ accuracy ≤ a) ∧
      ∀ o' a, guaranteedAccuracy kernelSize o' = some a → accuracy ≤ a → o' ≤ o := by
  obtain ⟨o, h1, h2, h3, h4⟩ := c49_largest_order_partial kernelSize accuracy ha hk
  refine ⟨o, by simp [diffopSizes, h1], h2, ?_, h3, h4⟩
  unfold largestPossibleOrder at h1
  dsimp only at h1
  split_ifs at h1 <;> simp only [Option.some.injEq] at h1 <;> omega

/-- **C65, the defaults**: without an accuracy the given one of kernel size and maximum order determines the other, with one point more than the
order; with both given they are kept; with none or with all three given the constructor fails. -/
theorem c65_defaults (k o : ℤ) (a : ℤ) :
    (0 ≤ o → diffopSizes none (some o) none = some (o + 1, o)) ∧ (1 ≤ k → diffopSizes (some k) none none = some (k, k - 1)) ∧
    diffopSizes (some k) (some o) none = some (k, o) ∧ diffopSizes (some k) (some o) (some a) = none ∧ diffopSizes none none (some a) = none ∧
    diffopSizes none none none = none := by
  refine ⟨fun ho => ?_, fun hk => ?_, rfl, rfl, rfl, rfl⟩
  · simp only [diffopSizes, Option.getD_none, requiredPoints]
    split_ifs <;> simp <;> omega
  · simp only [diffopSizes, Option.getD_none, largestPossibleOrder]
    split_ifs <;> simp <;> omega

/-! ### Discretisation -/

theorem offD_deg (off : Option ℝ) (D : DArr) : (offD off D).deg = D.deg := by
  cases off <;> rfl

/-- An operator of order smaller than the kernel size can be discretised, for all angle offsets. -/
theorem fdSample_isSome (fd : ℕ → List ℝ → ℕ → ℝ) {k d so si : ℕ} {off : Option ℝ} {D : DArr} (h : D.deg < k) :
    (fdSample fd k d so si off D).isSome := by
  classical
  have key : ∀ D' : DArr, D'.deg = D.deg → ∀ i j, (fdDisc fd k d (D'.entry i j)).isSome := by
    intro D' hD i j
    unfold fdDisc
    rw [if_pos]
    · rfl
    · intro m hm _
      have : m ≤ D'.deg := hm
      show D'.deg - m < k ∧ m < k
      omega
  unfold fdSample
  cases off with
  | none =>
    dsimp only
    rw [if_pos fun i _ j _ => key D rfl i j]
    rfl
  | some θ =>
    dsimp only
    rw [if_pos fun i _ j _ => key (D.transform (psi θ 1 0)) rfl i j]
    rfl

/-- **C65, the operators can be discretised**: with a maximum order smaller than the kernel size no assertion fails. -/
theorem c65_sampled (c : DiffopCfg B I) (fd : ℕ → List ℝ → ℕ → ℝ) {k o : ℕ} (hk : o < k) (rep : F → Repr El) (inG outT : List F)
    (ops : F → F → Option (List DArr)) (attr : F → F → ℕ → B) : c.Sampled (fdSample fd) k o rep inG outT ops attr := by
  intro i _ j _ D _ hkeep
  simp only [DiffopCfg.keepOf, Bool.and_eq_true, decide_eq_true_eq] at hkeep
  exact fdSample_isSome fd (by omega)

theorem resolve_pos {c : DiffopCfg B I} {k o pw : ℕ} (h : c.resolve = some (k, o, pw)) : 0 < k := by
  unfold DiffopCfg.resolve at h
  split at h
  · simp at h
  · split_ifs at h with h1
    have := (Prod.ext_iff.1 (Option.some.inj h)).1
    dsimp only at this
    omega

/-! ### The forward pass -/

/-- The operators of all pairs of fields are equivariant (C47). -/
def OpsOk (Sp : Space El) (rep : F → Repr El) (inT outT : List F) (ops : F → F → Option (List DArr)) : Prop :=
  ∀ i ∈ inT, ∀ o ∈ outT, ∃ l, ops i o = some l ∧ ∀ D ∈ l, KernelConstraint Sp.G Sp.act (rep o).size (rep i).size (rep o).mat (rep i).mat D.eval

/-- The sampled operators which pass the filter satisfy the constraint on the grid at `g`, up to the factor `ε`. -/
theorem diffop_sym (Sp : Space El) (hgrid : Sp.GridAction) (hinv : Sp.G.InvOk) (rep : F → Repr El) (inT outT : List F)
    (smp : Sampler) (ops : ℕ → ℕ → F → F → Option (List DArr)) (attr : F → F → ℕ → B) (c : DiffopCfg B I)
    (hrep : ∀ n ∈ inT, IsRep Sp.G (rep n).size (rep n).mat) (k o pw : ℕ) (inG : List F) (hr : c.resolve = some (k, o, pw)) (hok : c.Sampled smp k o rep inG outT (ops o pw) attr)
    (hi : FilterInput rep inT outT (diffopBasis smp k c.d c.angle rep (ops o pw) attr) c.ident)
    (n m : ℕ) (w b : List ℝ) (hg : 0 < c.groups) (hG : convGroups c.groups inT outT = some inG)
    (hdim : (c.exp smp k o rep inG outT (ops o pw) attr).dimension ≠ 0)
    (hw : w.length = (c.exp smp k o rep inG outT (ops o pw) attr).dimension)
    (hpad : padOk c.mode n c.p) (hm : convSize n c.p k c.s c.d = some m) (hdiv : c.s ∣ n + 2 * c.p - c.d * (k - 1) - 1) :
    ∃ layer : Fmap → Fmap, (∀ x, r2diffop c smp rep inT outT ops attr w b n x = some (layer x)) ∧
      ∀ g, Sp.G.isEl g → Sp.grid g → ∀ ε : ℝ, (∀ i ∈ inT, ∀ o' ∈ outT, ∀ l, ops o pw i o' = some l → ∀ idx D, l[idx]? = some D → D.deg ≤ o →
          c.keep (D.deg, attr i o' idx) = true → ∀ f, smp k c.d (rep o').size (rep i).size c.angle D = some f → ∀ q < k * k, ∀ q',
          gridCoords k c.d q' = Sp.act g (gridCoords k c.d q) →
          MEq (rep o').size (rep i).size (f q') fun r t =>
            ε * Mat.mul (rep i).size (Mat.mul (rep o').size ((rep o').mat g) (f q)) ((rep i).mat (Sp.G.inv g)) r t) →
        (∀ i < typeSize (fun n => (rep n).size) outT,
          ε * mulVec (typeSize (fun n => (rep n).size) outT) (typeMat rep outT g) (outBias rep outT b) i = outBias rep outT b i) → ∀ x,
        FEq (typeSize (fun m => (rep m).size) outT) m
          (layer (fieldAct (typeSize (fun m => (rep m).size) inT) (typeMat rep inT g) (Sp.base n g) x))
          (fieldAct (typeSize (fun m => (rep m).size) outT) (fun r t => ε * typeMat rep outT g r t) (Sp.base m g) (layer x)) := by
  obtain ⟨hin, outG, hout⟩ := convGroups_spec hG hg hi.inNe hi.outNe
  have hsub : ∀ n ∈ inG, n ∈ inT := by
    intro n hn
    rw [hin, List.mem_flatten]
    exact ⟨inG, List.mem_replicate.2 ⟨by omega, rfl⟩, hn⟩
  have hi' : FilterInput rep inG outT (diffopBasis smp k c.d c.angle rep (ops o pw) attr) c.ident := by
    refine ⟨?_, hi.outNe, fun n hn => hi.inSz n (hsub n hn), hi.outSz, fun i hh o ho => hi.ids i (hsub i hh) o ho⟩
    rintro rfl
    exact hi.inNe (by rw [hin]; simp)
  obtain ⟨f, hf, hcon⟩ := filter_at rep inG outT (k * k) id (diffopBasis smp k c.d c.angle rep (ops o pw) attr) (c.keepOf o) c.shape0 c.ident
    c.inIdx c.outIdx hi' (c.exp smp k o rep inG outT (ops o pw) attr) rfl (fun _ => Exp.pairs_ne_nil hdim) w hw
  have hso : typeSize (fun m => (rep m).size) outT = c.groups * typeSize (fun m => (rep m).size) outG := by rw [hout, typeSize_flatten]
  have hsi : typeSize (fun m => (rep m).size) inT = c.groups * typeSize (fun m => (rep m).size) inG := by
    rw [congrArg (typeSize _) hin, typeSize_flatten]
  have hdv : typeSize (fun m => (rep m).size) outT / c.groups = typeSize (fun m => (rep m).size) outG := by
    rw [hso, Nat.mul_div_cancel_left _ hg]
  have hsam := hok
  refine ⟨_, fun x => by rw [r2diffop, hr]; dsimp only; rw [hG]; dsimp only; rw [if_pos hsam, if_neg hdim, hf], ?_⟩
  intro g hg1 hg2 ε hsym hbias x
  obtain ⟨τ, t1, t2⟩ := hgrid g hg1 hg2
  rw [hdv, hso, hsi]
  refine conv_sym τ hpad (convSize_cond hm hdiv) _ _ (typeMat rep inG g) (fun r t => ε * typeMat rep outG g r t) (typeMat rep inG (Sp.G.inv g)) _ _
    (fun x i j => t1 n x i j) (fun x i j => t1 m x i j) ?_ ?_ ?_ _ ?_ _ ?_ x
  · intro q hq q' hq' a ha a' ha'
    rw [congrArg (typeMat rep) hin]
    exact typeMat_flatten rep c.groups inG g q q' a a' hq hq' ha ha'
  · intro q hq q' hq' a ha a' ha'
    have := typeMat_flatten rep c.groups outG g q q' a a' hq hq' ha ha'
    rw [hout, this]
    split_ifs <;> simp
  · exact (typeMat_isRep Sp.G rep inG fun n hn => hrep n (hsub n hn)).inv_mul hinv g hg1
  · intro a b' ha hb o1 ho1 ch hch
    obtain ⟨u1, u2⟩ := τ.ap_lt ha hb
    have hlt : (τ.ap k (a, b')).1 * k + (τ.ap k (a, b')).2 < k * k := by
      calc _ < (τ.ap k (a, b')).1 * k + k := by omega
        _ = ((τ.ap k (a, b')).1 + 1) * k := by ring
        _ ≤ k * k := Nat.mul_le_mul_right _ (by omega)
    have := hcon g (Sp.G.inv g) ε ((τ.ap k (a, b')).1 * k + (τ.ap k (a, b')).2) (a * k + b') (by
      intro i hi1 o' ho' bb hbb hkeep
      simp only [diffopBasis, List.mem_map] at hbb
      obtain ⟨⟨D, idx⟩, hD, rfl⟩ := hbb
      have hDl : D ∈ (ops o pw i o').getD [] := (List.mem_zipIdx' hD).2 ▸ List.getElem_mem _
      have hs := hsam i hi1 o' ho' (D, idx) hD hkeep
      simp only [DiffopCfg.keepOf, Bool.and_eq_true, decide_eq_true_eq] at hkeep
      obtain ⟨fs, hfs⟩ := Option.isSome_iff_exists.1 hs
      dsimp only at hfs
      dsimp only [id]
      rw [hfs]
      cases hl : ops o pw i o' with
      | none => rw [hl] at hDl; simp at hDl
      | some l =>
        rw [hl] at hDl
        exact hsym i (hsub i hi1) o' ho' l hl idx D (by rw [hl] at hD; exact List.mem_zipIdx_iff_getElem?.1 hD) hkeep.2 hkeep.1 fs hfs _ hlt _
          (by rw [gridCoords_ap τ _ _ _ _ ha hb, t2]))
    rw [← hso] at ho1 ⊢
    have h2 := this o1 ho1 ch hch
    simp only [Mat.mul] at h2
    refine Eq.trans h2 ?_
    rw [Finset.mul_sum]
    refine Finset.sum_congr rfl fun l _ => ?_
    rw [← _root_.mul_assoc, Finset.mul_sum]
    congr 1
    exact Finset.sum_congr rfl fun l' _ => by rw [← _root_.mul_assoc]; rfl
  · intro o1 ho1
    rw [← hso] at ho1 ⊢
    have := hbias o1 ho1
    rw [mulVec, Finset.mul_sum] at this
    rw [← this]
    exact Finset.sum_congr rfl fun l' _ => by rw [_root_.mul_assoc]

/-- The claim for one space, one configuration and the elements selected by `sel`: the constructor succeeds, and the layer commutes with the
transformation of images. -/
def DiffopCommutes (Sp : Space El) (rep : F → Repr El) (inT outT : List F) (smp : Sampler)
    (ops : ℕ → ℕ → F → F → Option (List DArr)) (attr : F → F → ℕ → B) (c : DiffopCfg B I) (sel : El → Prop) : Prop :=
  ∀ (k o pw : ℕ) (inG : List F) (n m : ℕ) (w b : List ℝ),
    -- the choice of the kernel size, the order and the power of the Laplacian; the kernel has enough points for the operators (see `c65_sampled`)
    c.resolve = some (k, o, pw) → c.Sampled smp k o rep inG outT (ops o pw) attr →
    -- the identifiers of the operators, and the checks of the constructor
    FilterInput rep inT outT (diffopBasis smp k c.d c.angle rep (ops o pw) attr) c.ident →
    0 < c.d → 0 < c.groups → convGroups c.groups inT outT = some inG →
    (c.exp smp k o rep inG outT (ops o pw) attr).dimension ≠ 0 → w.length = (c.exp smp k o rep inG outT (ops o pw) attr).dimension →
    -- the padding is accepted, the output has `m × m` pixels, the windows cover the padded image
    padOk c.mode n c.p → convSize n c.p k c.s c.d = some m → c.s ∣ n + 2 * c.p - c.d * (k - 1) - 1 →
    ∃ layer : Fmap → Fmap, (∀ x, r2diffop c smp rep inT outT ops attr w b n x = some (layer x)) ∧
      ∀ g, Sp.G.isEl g → Sp.grid g → sel g → ∀ x,
        FEq (typeSize (fun m => (rep m).size) outT) m
          (layer (fieldAct (typeSize (fun m => (rep m).size) inT) (typeMat rep inT g) (Sp.base n g) x))
          (fieldAct (typeSize (fun m => (rep m).size) outT) (typeMat rep outT g) (Sp.base m g) (layer x))

/-- The element acts on the plane as a rotation by a multiple of a right angle. -/
def Turns (Sp : Space El) (g : El) : Prop := ∃ α, Quarter α ∧ ∀ p, Sp.act g p = rot α p

/-- The element acts on the plane as a reflection which permutes the pixels. -/
def Reflects (Sp : Space El) (g : El) : Prop := ∃ a, Quarter (2 * a) ∧ ∀ p, Sp.act g p = refl a p

/-- **C65, rotations**, from the steerability of the operators (C47), their discretisation (C48) and the invariance of the bias (C26). -/
theorem c65_rotations_partial {fd : ℕ → List ℝ → ℕ → ℝ} (hfd : FDSpec fd) (Sp : Space El) (hgrid : Sp.GridAction) (hinv : Sp.G.InvOk)
    (rep : F → Repr El) (inT outT : List F) (ops : ℕ → ℕ → F → F → Option (List DArr)) (attr : F → F → ℕ → B) (c : DiffopCfg B I)
    (hops : ∀ o pw, OpsOk Sp rep inT outT (ops o pw)) (hrep : ∀ n ∈ inT, IsRep Sp.G (rep n).size (rep n).mat) (hbias : BiasOk Sp.G rep outT) :
    DiffopCommutes Sp rep inT outT (fdSample fd) ops attr c (Turns Sp) := by
  intro k o pw inG n m w b hr hok hi hd hg hG hdim hw hpad hm hdiv
  obtain ⟨layer, h1, h2⟩ := diffop_sym Sp hgrid hinv rep inT outT (fdSample fd) ops attr c hrep k o pw inG hr hok hi n m w b hg hG hdim hw hpad hm hdiv
  refine ⟨layer, h1, ?_⟩
  rintro g hg1 hg2 ⟨α, hα, hact⟩ x
  have := h2 g hg1 hg2 1 (by
    intro i hii o' ho' l hl idx D hD' _ _ f hf q hq q' hqq
    have hD := List.mem_of_getElem? hD'
    obtain ⟨l', hl', hK⟩ := hops o pw i hii o' ho'
    obtain rfl : l' = l := by rw [hl] at hl'; exact (Option.some.inj hl').symm
    simpa only [one_mul] using c48_rotations_partial hfd (hK D hD) hd hf hg1 hα hact hq hqq)
    (by simpa only [one_mul] using hbias.1 b g hg1) x
  simpa only [one_mul] using this

/-- **C65, operators of even orders**: without an angle offset the layer commutes with all the elements which permute the pixels. -/
theorem c65_even_orders {fd : ℕ → List ℝ → ℕ → ℝ} (hfd : FDSpec fd) (Sp : Space El) (hgrid : Sp.GridAction) (hinv : Sp.G.InvOk)
    (rep : F → Repr El) (inT outT : List F) (ops : ℕ → ℕ → F → F → Option (List DArr)) (attr : F → F → ℕ → B) (c : DiffopCfg B I)
    (hops : ∀ o pw, OpsOk Sp rep inT outT (ops o pw)) (hrep : ∀ n ∈ inT, IsRep Sp.G (rep n).size (rep n).mat) (hbias : BiasOk Sp.G rep outT)
    (hoff : c.angle = none)
    (heven : ∀ k o pw, c.resolve = some (k, o, pw) → ∀ i ∈ inT, ∀ o' ∈ outT, ∀ l, ops o pw i o' = some l → ∀ idx D, l[idx]? = some D → D.deg ≤ o →
      c.keep (D.deg, attr i o' idx) = true → Even D.deg) :
    DiffopCommutes Sp rep inT outT (fdSample fd) ops attr c fun g => Turns Sp g ∨ Reflects Sp g := by
  intro k o pw inG n m w b hr hok hi hd hg hG hdim hw hpad hm hdiv
  obtain ⟨layer, h1, h2⟩ := diffop_sym Sp hgrid hinv rep inT outT (fdSample fd) ops attr c hrep k o pw inG hr hok hi n m w b hg hG hdim hw hpad hm hdiv
  refine ⟨layer, h1, ?_⟩
  intro g hg1 hg2 hsel x
  have := h2 g hg1 hg2 1 (by
    intro i hii o' ho' l hl idx D hD' hdeg hkeep f hf q hq q' hqq
    have hD := List.mem_of_getElem? hD'
    obtain ⟨l', hl', hK⟩ := hops o pw i hii o' ho'
    obtain rfl : l' = l := by rw [hl] at hl'; exact (Option.some.inj hl').symm
    rcases hsel with ⟨α, hα, hact⟩ | ⟨a, ha, hact⟩
    · simpa only [one_mul] using c48_rotations_partial hfd (hK D hD) hd hf hg1 hα hact hq hqq
    · rw [hoff] at hf
      simpa only [one_mul] using c48_even_order hfd (hK D hD) hd hf (heven k o pw hr i hii o' ho' _ hl idx D hD' hdeg hkeep) hg1 ha hact hq hqq)
    (by simpa only [one_mul] using hbias.1 b g hg1) x
  simpa only [one_mul] using this

/-- **C65, operators of odd orders at the reflections**: without an angle offset and with zero bias the layer commutes with a reflection only up to the
sign: the output has the opposite sign. -/
theorem c65_odd_orders {fd : ℕ → List ℝ → ℕ → ℝ} (hfd : FDSpec fd) (Sp : Space El) (hgrid : Sp.GridAction) (hinv : Sp.G.InvOk)
    (rep : F → Repr El) (inT outT : List F) (ops : ℕ → ℕ → F → F → Option (List DArr)) (attr : F → F → ℕ → B) (c : DiffopCfg B I)
    (hops : ∀ o pw, OpsOk Sp rep inT outT (ops o pw)) (hrep : ∀ n ∈ inT, IsRep Sp.G (rep n).size (rep n).mat)
    (hoff : c.angle = none)
    (k o pw : ℕ)
    (hodd : ∀ i ∈ inT, ∀ o' ∈ outT, ∀ l, ops o pw i o' = some l → ∀ idx D, l[idx]? = some D → D.deg ≤ o →
      c.keep (D.deg, attr i o' idx) = true → Odd D.deg)
    (inG : List F) (n m : ℕ) (w b : List ℝ) (hr : c.resolve = some (k, o, pw)) (hok : c.Sampled (fdSample fd) k o rep inG outT (ops o pw) attr)
    (hi : FilterInput rep inT outT (diffopBasis (fdSample fd) k c.d c.angle rep (ops o pw) attr) c.ident)
    (hd : 0 < c.d) (hg : 0 < c.groups) (hG : convGroups c.groups inT outT = some inG)
    (hdim : (c.exp (fdSample fd) k o rep inG outT (ops o pw) attr).dimension ≠ 0)
    (hw : w.length = (c.exp (fdSample fd) k o rep inG outT (ops o pw) attr).dimension)
    (hpad : padOk c.mode n c.p) (hm : convSize n c.p k c.s c.d = some m) (hdiv : c.s ∣ n + 2 * c.p - c.d * (k - 1) - 1)
    (hb : ∀ i, outBias rep outT b i = 0) :
    ∃ layer : Fmap → Fmap, (∀ x, r2diffop c (fdSample fd) rep inT outT ops attr w b n x = some (layer x)) ∧
      ∀ g, Sp.G.isEl g → Sp.grid g → Reflects Sp g → ∀ x,
        FEq (typeSize (fun m => (rep m).size) outT) m
          (layer (fieldAct (typeSize (fun m => (rep m).size) inT) (typeMat rep inT g) (Sp.base n g) x))
          fun ch i j => -fieldAct (typeSize (fun m => (rep m).size) outT) (typeMat rep outT g) (Sp.base m g) (layer x) ch i j := by
  obtain ⟨layer, h1, h2⟩ := diffop_sym Sp hgrid hinv rep inT outT (fdSample fd) ops attr c hrep k o pw inG hr hok hi n m w b hg hG hdim hw hpad hm hdiv
  refine ⟨layer, h1, ?_⟩
  rintro g hg1 hg2 ⟨a, ha, hact⟩ x
  have := h2 g hg1 hg2 (-1) (by
    intro i hii o' ho' l hl idx D hD' hdeg hkeep f hf q hq q' hqq
    have hD := List.mem_of_getElem? hD'
    obtain ⟨l', hl', hK⟩ := hops o pw i hii o' ho'
    obtain rfl : l' = l := by rw [hl] at hl'; exact (Option.some.inj hl').symm
    rw [hoff] at hf
    have := c48_reflection hfd (hK D hD) hd hf hg1 ha hact hq hqq
    rw [(hodd i hii o' ho' _ hl idx D hD' hdeg hkeep).neg_one_pow] at this
    exact this)
    (fun i hi => by simp [mulVec, hb]) x
  intro ch hch i hi j hj
  rw [this ch hch i hi j hj]
  obtain ⟨τ, t1, -⟩ := hgrid g hg1 hg2
  simp only [fieldAct]
  rw [t1 m _ i j hi hj, t1 m _ i j hi hj, ← Finset.sum_neg_distrib]
  exact Finset.sum_congr rfl fun _ _ => by ring

/-- A convolution without padding on an image with as many pixels as the window is the value of the filter at the only pixel which is not zero. -/
theorem conv2d_delta (k s d cinG coutG : ℕ) (hd : 0 < d) (f : ℕ → ℕ → ℕ → ℕ → ℝ) (bias : ℕ → ℝ) (o c0 a0 b0 : ℕ) (hc : c0 < cinG) (ha : a0 < k)
    (hb : b0 < k) :
    conv2d .zeros (d * (k - 1) + 1) 0 k s d cinG coutG f bias
      (fun c i j => if c = o / coutG * cinG + c0 ∧ i = a0 * d ∧ j = b0 * d then 1 else 0) o 0 0 = f o c0 a0 b0 + bias o := by
  have hlt : ∀ a < k, a * d < d * (k - 1) + 1 := by
    intro a ha
    have : d * a ≤ d * (k - 1) := Nat.mul_le_mul_left _ (by omega)
    rw [Nat.mul_comm]
    omega
  have hread : ∀ (x : Img) (a b : ℕ), a < k → b < k → readPad .zeros (d * (k - 1) + 1) 0 x (0 * s + a * d) (0 * s + b * d) = x (a * d) (b * d) := by
    intro x a b ha hb
    simp [readPad, padIdx, hlt a ha, hlt b hb]
  unfold conv2d
  congr 1
  rw [Finset.sum_eq_single_of_mem c0 (Finset.mem_range.2 hc), Finset.sum_eq_single_of_mem a0 (Finset.mem_range.2 ha),
    Finset.sum_eq_single_of_mem b0 (Finset.mem_range.2 hb)]
  · rw [hread _ _ _ ha hb]
    simp
  · intro b hb' hne
    rw [hread _ _ _ ha (Finset.mem_range.1 hb')]
    dsimp only
    rw [if_neg, mul_zero]
    rintro ⟨-, -, h⟩
    exact hne (Nat.eq_of_mul_eq_mul_right hd h)
  · intro a ha' hne
    refine Finset.sum_eq_zero fun b hb' => ?_
    rw [hread _ _ _ (Finset.mem_range.1 ha') (Finset.mem_range.1 hb')]
    dsimp only
    rw [if_neg, mul_zero]
    rintro ⟨-, h, -⟩
    exact hne (Nat.eq_of_mul_eq_mul_right hd h)
  · intro c hc' hne
    refine Finset.sum_eq_zero fun a ha' => Finset.sum_eq_zero fun b hb' => ?_
    rw [hread _ _ _ (Finset.mem_range.1 ha') (Finset.mem_range.1 hb')]
    dsimp only
    rw [if_neg, mul_zero]
    rintro ⟨h, -, -⟩
    exact hne (by omega)

/-- **C65 is false at the reflections**: with operators of odd orders only, without an angle offset, padding and bias, for every reflection of the
group which permutes the pixels there are weights and an image for which the layer does not commute with it. -/
theorem c65_reflections_wrong {fd : ℕ → List ℝ → ℕ → ℝ} (hfd : FDSpec fd) (Sp : Space El) (hgrid : Sp.GridAction) (hinv : Sp.G.InvOk)
    (rep : F → Repr El) (inT outT : List F) (ops : ℕ → ℕ → F → F → Option (List DArr)) (attr : F → F → ℕ → B) (c : DiffopCfg B I)
    (hops : ∀ o pw, OpsOk Sp rep inT outT (ops o pw)) (hrep : ∀ n ∈ inT ++ outT, IsRep Sp.G (rep n).size (rep n).mat)
    (hoff : c.angle = none)
    (k o pw : ℕ)
    (hodd : ∀ i ∈ inT, ∀ o' ∈ outT, ∀ l, ops o pw i o' = some l → ∀ idx D, l[idx]? = some D → D.deg ≤ o →
      c.keep (D.deg, attr i o' idx) = true → Odd D.deg)
    (inG : List F) (hr : c.resolve = some (k, o, pw)) (hok : c.Sampled (fdSample fd) k o rep inG outT (ops o pw) attr)
    (hi : FilterInput rep inT outT (diffopBasis (fdSample fd) k c.d c.angle rep (ops o pw) attr) c.ident)
    (hd : 0 < c.d) (hg : 0 < c.groups) (hG : convGroups c.groups inT outT = some inG)
    (hdim : (c.exp (fdSample fd) k o rep inG outT (ops o pw) attr).dimension ≠ 0) (hp : c.p = 0) (hmode : c.mode = .zeros)
    (g : El) (hg1 : Sp.G.isEl g) (hg2 : Sp.grid g) (hg3 : Reflects Sp g) :
    ∃ (w : List ℝ) (n : ℕ) (layer : Fmap → Fmap), convSize n c.p k c.s c.d = some 1 ∧
      (∀ x, r2diffop c (fdSample fd) rep inT outT ops attr w [] n x = some (layer x)) ∧
      ∃ x, ¬ FEq (typeSize (fun m => (rep m).size) outT) 1
        (layer (fieldAct (typeSize (fun m => (rep m).size) inT) (typeMat rep inT g) (Sp.base n g) x))
        (fieldAct (typeSize (fun m => (rep m).size) outT) (typeMat rep outT g) (Sp.base 1 g) (layer x)) := by
  obtain ⟨hin, outG, hout⟩ := convGroups_spec hG hg hi.inNe hi.outNe
  have hsub : ∀ n ∈ inG, n ∈ inT := by
    intro n hn
    rw [hin, List.mem_flatten]
    exact ⟨inG, List.mem_replicate.2 ⟨by omega, rfl⟩, hn⟩
  have hi' : FilterInput rep inG outT (diffopBasis (fdSample fd) k c.d c.angle rep (ops o pw) attr) c.ident := by
    refine ⟨?_, hi.outNe, fun n hn => hi.inSz n (hsub n hn), hi.outSz, fun i hh o ho => hi.ids i (hsub i hh) o ho⟩
    rintro rfl
    exact hi.inNe (by rw [hin]; simp)
  obtain ⟨w, hw, f, hf, o1, ho1, c1, hc1, q, hq, hne⟩ := filter_ne_zero rep inG outT (k * k) id (diffopBasis (fdSample fd) k c.d c.angle rep (ops o pw) attr)
    (c.keepOf o) c.shape0 c.ident c.inIdx c.outIdx hi' (c.exp (fdSample fd) k o rep inG outT (ops o pw) attr) rfl hdim
  have hkpos : 0 < k := resolve_pos hr
  have hm : convSize (c.d * (k - 1) + 1) c.p k c.s c.d = some 1 := by
    unfold convSize
    rw [hp, if_pos (by omega)]
    have : c.d * (k - 1) + 1 + 2 * 0 - c.d * (k - 1) - 1 = 0 := by omega
    rw [this, Nat.zero_div]
  have hdiv : c.s ∣ c.d * (k - 1) + 1 + 2 * c.p - c.d * (k - 1) - 1 := by
    have : c.d * (k - 1) + 1 + 2 * c.p - c.d * (k - 1) - 1 = 0 := by omega
    rw [this]
    exact dvd_zero _
  have hb0 : ∀ i, outBias rep outT [] i = 0 := fun i => by simp [outBias, expandBias]
  obtain ⟨layer, h1, h2⟩ := c65_odd_orders hfd Sp hgrid hinv rep inT outT ops attr c hops (fun n hn => hrep n (List.mem_append_left _ hn)) hoff
    k o pw hodd inG (c.d * (k - 1) + 1) 1 w [] hr hok hi hd hg hG hdim hw (by rw [hmode]; trivial) hm hdiv hb0
  refine ⟨w, _, layer, hm, h1, ?_⟩
  by_contra hall
  push Not at hall
  set x : Fmap := fun ch i j =>
    if ch = o1 / (typeSize (fun m => (rep m).size) outT / c.groups) * typeSize (fun m => (rep m).size) inG + c1 ∧ i = q / k * c.d ∧ j = q % k * c.d
    then 1 else 0 with hx
  have hval : layer x o1 0 0 ≠ 0 := by
    have := h1 x
    rw [r2diffop, hr] at this
    dsimp only at this
    rw [hG] at this
    dsimp only at this
    rw [if_pos hok, if_neg hdim, hf] at this
    rw [← Option.some.inj this, hmode, hp, hx, conv2d_delta k c.s c.d _ _ hd _ _ o1 c1 (q / k) (q % k) hc1
      ((Nat.div_lt_iff_lt_mul hkpos).2 hq) (Nat.mod_lt _ hkpos), hb0, add_zero, reshapeFilter, Nat.div_add_mod']
    exact hne
  obtain ⟨τ, t1, -⟩ := hgrid g hg1 hg2
  -- the transformed output is zero
  have hzero : ∀ ch < typeSize (fun m => (rep m).size) outT,
      mulVec (typeSize (fun m => (rep m).size) outT) (typeMat rep outT g) (fun c => layer x c 0 0) ch = 0 := by
    intro ch hch
    have e1 := h2 g hg1 hg2 hg3 x ch hch 0 one_pos 0 one_pos
    have e2 := hall x ch hch 0 one_pos 0 one_pos
    rw [e2] at e1
    have e3 : fieldAct (typeSize (fun m => (rep m).size) outT) (typeMat rep outT g) (Sp.base 1 g) (layer x) ch 0 0 = 0 := by linarith
    rw [fieldAct, t1 1 _ 0 0 one_pos one_pos] at e3
    obtain ⟨u1, u2⟩ := τ.ap_lt (n := 1) one_pos one_pos
    rw [Nat.lt_one_iff.1 u1, Nat.lt_one_iff.1 u2] at e3
    exact e3
  -- so the output is zero
  have hinvm := (typeMat_isRep Sp.G rep outT fun n hn => hrep n (List.mem_append_right _ hn)).inv_mul hinv g hg1
  apply hval
  have : layer x o1 0 0 = ∑ l ∈ range (typeSize (fun m => (rep m).size) outT), typeMat rep outT (Sp.G.inv g) o1 l *
      mulVec (typeSize (fun m => (rep m).size) outT) (typeMat rep outT g) (fun c => layer x c 0 0) l := by
    have e := fun t (ht : t < typeSize (fun m => (rep m).size) outT) => hinvm o1 ho1 t ht
    simp only [mulVec, Finset.mul_sum]
    rw [Finset.sum_comm]
    rw [Finset.sum_congr rfl (g := fun t => (if o1 = t then 1 else 0) * layer x t 0 0)]
    · simp [ho1]
    · intro t ht
      have := e t (Finset.mem_range.1 ht)
      simp only [Mat.mul, Mat.one] at this
      rw [← this, Finset.sum_mul]
      exact Finset.sum_congr rfl fun l _ => by ring
  rw [this]
  exact Finset.sum_eq_zero fun l hl => by rw [hzero l (Finset.mem_range.1 hl), mul_zero]

/-! ### The spaces of the library, with their operators -/

theorem DiffopCommutes.mono {Sp : Space El} {rep : F → Repr El} {inT outT : List F} {smp : Sampler}
    {ops : ℕ → ℕ → F → F → Option (List DArr)} {attr : F → F → ℕ → B} {c : DiffopCfg B I} {sel sel' : El → Prop}
    (h : DiffopCommutes Sp rep inT outT smp ops attr c sel) (hs : ∀ g, Sp.G.isEl g → Sp.grid g → sel' g → sel g) :
    DiffopCommutes Sp rep inT outT smp ops attr c sel' := by
  intro k o pw inG n m w b hr hok hi hd hg hG hdim hw hpad hm hdiv
  obtain ⟨layer, h1, h2⟩ := h k o pw inG n m w b hr hok hi hd hg hG hdim hw hpad hm hdiv
  exact ⟨layer, h1, fun g hg1 hg2 hs' => h2 g hg1 hg2 (hs g hg1 hg2 hs')⟩

variable (attr : F → F → ℕ → B) (c : DiffopCfg B I) (inT outT : List F) (interp : ℝ → Img → Img)

/-- **C65 for `Rot2dOnR2` with a cyclic group**: all types, all the rotations of the group by multiples of a right angle. -/
theorem c65_cyclic {fd : ℕ → List ℝ → ℕ → ℝ} (hfd : FDSpec fd) (N : ℕ) (hN : 0 < N) (rep : F → Repr ℤ)
    (hr : ∀ n ∈ inT ++ outT, (rep n).WF ∧ ∀ i ∈ (rep n).irreps, ∃ k, Cyclic.irrep N k = some i) (maxOff : Option ℕ) :
    DiffopCommutes (rotSpace interp N) rep inT outT (fdSample fd)
      (fun o pw i j => tensorBasis (fun a b => dRot N a b (some o) maxOff) (dSamp 0) (rep i) (rep j) pw) attr c fun _ => True := by
  refine (c65_rotations_partial hfd _ (rotSpace_grid interp N hN) (Cyclic.invOk hN) rep inT outT _ attr c (fun o pw i hi j hj => ?_)
    (fun n hn => Cyclic.isRep_of hN (hr n (List.mem_append_left _ hn)))
    (c26_cyclic N hN rep outT fun n hn => hr n (List.mem_append_right _ hn))).mono fun g _ hq _ => ⟨_, hq, fun p => rfl⟩
  have h1 := hr i (List.mem_append_left _ hi)
  have h2 := hr j (List.mem_append_right _ hj)
  obtain ⟨l, hl, -, hK⟩ := c47_cyclic_diffops N hN (rep i) (rep j) h1.1 h2.1 h1.2 h2.2 (some o) maxOff (by simp) pw
  exact ⟨l, hl, hK⟩

/-- **C65 for `Rot2dOnR2` with SO(2)**. -/
theorem c65_so2 {fd : ℕ → List ℝ → ℕ → ℝ} (hfd : FDSpec fd) (rep : F → Repr ℝ)
    (hr : ∀ n ∈ inT ++ outT, (rep n).WF ∧ ∀ i ∈ (rep n).irreps, ∃ k, i = SO2.irrep k) :
    DiffopCommutes (so2Space interp) rep inT outT (fdSample fd)
      (fun _ pw i j => tensorBasis dCont (fun a b => dCoefCont b.size a.size) (rep i) (rep j) pw) attr c fun _ => True := by
  refine (c65_rotations_partial hfd _ (so2Space_grid interp) SO2.invOk rep inT outT _ attr c (fun o pw i hi j hj => ?_)
    (fun n hn => SO2.isRep_of (hr n (List.mem_append_left _ hn)))
    (c26_so2 rep outT fun n hn => hr n (List.mem_append_right _ hn))).mono fun g _ hq _ => ⟨_, hq, fun p => rfl⟩
  have h1 := hr i (List.mem_append_left _ hi)
  have h2 := hr j (List.mem_append_right _ hj)
  obtain ⟨l, hl, -, hK⟩ := c47_so2_diffops (rep i) (rep j) h1.1 h2.1 h1.2 h2.2 pw
  exact ⟨l, hl, hK⟩

theorem planeAct_turn (axis θ : ℝ) (p : ℝ × ℝ) : planeAct axis (0, θ) p = rot θ p := by
  simp [planeAct]

/-- The operators of `FlipRot2dOnR2` with a dihedral group. -/
theorem opsOk_dihedral (N : ℕ) (hN : 0 < N) (axis : ℝ) (rep : F → Repr (ℤ × ℤ))
    (hr : ∀ n ∈ inT ++ outT, (rep n).WF ∧ ∀ i ∈ (rep n).irreps, ∃ j k, Dihedral.irrep N j k = some i) (maxOff : Option ℕ) (o pw : ℕ) :
    OpsOk (flipRotSpace interp N axis) rep inT outT
      (fun i j => tensorBasis (fun a b => dFlipRot N a b (some o) maxOff) (dSamp axis) (rep i) (rep j) pw) := by
  intro i hi j hj
  have h1 := hr i (List.mem_append_left _ hi)
  have h2 := hr j (List.mem_append_right _ hj)
  obtain ⟨l, hl, -, hK⟩ := c47_dihedral_diffops N hN axis (rep i) (rep j) h1.1 h2.1 h1.2 h2.2 (some o) maxOff (by simp) pw
  exact ⟨l, hl, hK⟩

/-- The operators of `FlipRot2dOnR2` with O(2). -/
theorem opsOk_o2 (axis : ℝ) (rep : F → Repr (ℤ × ℝ))
    (hr : ∀ n ∈ inT ++ outT, (rep n).WF ∧ ∀ i ∈ (rep n).irreps, ∃ j k, O2.irrep j k = some i) (pw : ℕ) :
    OpsOk (o2Space interp axis) rep inT outT (fun i j => tensorBasis dFlipCont (dSamp axis) (rep i) (rep j) pw) := by
  intro i hi j hj
  have h1 := hr i (List.mem_append_left _ hi)
  have h2 := hr j (List.mem_append_right _ hj)
  obtain ⟨l, hl, -, hK⟩ := c47_o2_diffops axis (rep i) (rep j) h1.1 h2.1 h1.2 h2.2 pw
  exact ⟨l, hl, hK⟩

/-- The operators of `Flip2dOnR2`. -/
theorem opsOk_flip (axis : ℝ) (rep : F → Repr ℤ)
    (hr : ∀ n ∈ inT ++ outT, (rep n).WF ∧ ∀ i ∈ (rep n).irreps, ∃ k, Cyclic.irrep 2 k = some i) (maxOff : Option ℕ) (o pw : ℕ) :
    OpsOk (flipSpace interp axis) rep inT outT
      (fun i j => tensorBasis (fun a b => dFlips a b (some o) maxOff) (dSamp axis) (rep i) (rep j) pw) := by
  intro i hi j hj
  have h1 := hr i (List.mem_append_left _ hi)
  have h2 := hr j (List.mem_append_right _ hj)
  obtain ⟨l, hl, -, hK⟩ := c47_flip_diffops axis (rep i) (rep j) h1.1 h2.1 h1.2 h2.2 (some o) maxOff (by simp) pw
  exact ⟨l, hl, hK⟩

/-- **C65 for `FlipRot2dOnR2` with a dihedral group**: the rotations.  Missing: the reflections, for which the claim is false
(`c65_reflections_wrong`). -/
theorem c65_dihedral_partial {fd : ℕ → List ℝ → ℕ → ℝ} (hfd : FDSpec fd) (N : ℕ) (hN : 0 < N) (axis : ℝ) (rep : F → Repr (ℤ × ℤ))
    (hr : ∀ n ∈ inT ++ outT, (rep n).WF ∧ ∀ i ∈ (rep n).irreps, ∃ j k, Dihedral.irrep N j k = some i) (maxOff : Option ℕ) :
    DiffopCommutes (flipRotSpace interp N axis) rep inT outT (fdSample fd)
      (fun o pw i j => tensorBasis (fun a b => dFlipRot N a b (some o) maxOff) (dSamp axis) (rep i) (rep j) pw) attr c fun g => g.1 = 0 := by
  refine (c65_rotations_partial hfd _ (flipRotSpace_grid interp N axis) (Dihedral.invOk hN) rep inT outT _ attr c
    (opsOk_dihedral inT outT interp N hN axis rep hr maxOff)
    (fun n hn => Dihedral.isRep_of hN (hr n (List.mem_append_left _ hn)))
    (c26_dihedral N hN rep outT fun n hn => hr n (List.mem_append_right _ hn))).mono fun g _ hq h0 => ?_
  obtain ⟨s, r⟩ := g
  obtain rfl : s = 0 := h0
  exact ⟨_, by simpa [flipRotSpace] using hq, fun p => planeAct_turn _ _ p⟩

/-- **C65 for `FlipRot2dOnR2` with O(2)**: the rotations.  Missing: the reflections (`c65_reflections_wrong`). -/
theorem c65_o2_partial {fd : ℕ → List ℝ → ℕ → ℝ} (hfd : FDSpec fd) (axis : ℝ) (rep : F → Repr (ℤ × ℝ))
    (hr : ∀ n ∈ inT ++ outT, (rep n).WF ∧ ∀ i ∈ (rep n).irreps, ∃ j k, O2.irrep j k = some i) :
    DiffopCommutes (o2Space interp axis) rep inT outT (fdSample fd)
      (fun _ pw i j => tensorBasis dFlipCont (dSamp axis) (rep i) (rep j) pw) attr c fun g => g.1 = 0 := by
  refine (c65_rotations_partial hfd _ (o2Space_grid interp axis) O2.invOk rep inT outT _ attr c
    (fun _ => opsOk_o2 inT outT interp axis rep hr)
    (fun n hn => O2.isRep_of (hr n (List.mem_append_left _ hn)))
    (c26_o2 rep outT fun n hn => hr n (List.mem_append_right _ hn))).mono fun g _ hq h0 => ?_
  obtain ⟨s, r⟩ := g
  obtain rfl : s = 0 := h0
  exact ⟨_, by simpa [o2Space] using hq, fun p => planeAct_turn _ _ p⟩

theorem planeAct_reflect (axis θ : ℝ) (f : ℤ) (hf : f ≠ 0) (p : ℝ × ℝ) : planeAct axis (f, θ) p = refl (axis + θ / 2) p := by
  have h : 2 * (axis + θ / 2) = θ + 2 * axis := by ring
  simp only [planeAct, if_neg hf, rot, refl, h, cos_add, sin_add]
  refine Prod.ext ?_ ?_ <;> simp only <;> ring

theorem planeAct_cases (axis : ℝ) (f : ℤ) (θ : ℝ) (hq : Quarter (θ + if f = 0 then 0 else 2 * axis)) :
    (∃ α, Quarter α ∧ ∀ p, planeAct axis (f, θ) p = rot α p) ∨ ∃ a, Quarter (2 * a) ∧ ∀ p, planeAct axis (f, θ) p = refl a p := by
  by_cases hf : f = 0
  · subst hf
    exact Or.inl ⟨θ, by simpa using hq, planeAct_turn axis θ⟩
  · rw [if_neg hf] at hq
    refine Or.inr ⟨axis + θ / 2, ?_, planeAct_reflect axis θ f hf⟩
    rwa [show 2 * (axis + θ / 2) = θ + 2 * axis by ring]

/-- **C65 for `FlipRot2dOnR2` with a dihedral group and operators of even orders**: all the elements which permute the pixels. -/
theorem c65_dihedral_even {fd : ℕ → List ℝ → ℕ → ℝ} (hfd : FDSpec fd) (N : ℕ) (hN : 0 < N) (axis : ℝ) (rep : F → Repr (ℤ × ℤ))
    (hr : ∀ n ∈ inT ++ outT, (rep n).WF ∧ ∀ i ∈ (rep n).irreps, ∃ j k, Dihedral.irrep N j k = some i) (maxOff : Option ℕ)
    (hoff : c.angle = none) (heven : ∀ a, c.keep a = true → Even a.1) :
    DiffopCommutes (flipRotSpace interp N axis) rep inT outT (fdSample fd)
      (fun o pw i j => tensorBasis (fun a b => dFlipRot N a b (some o) maxOff) (dSamp axis) (rep i) (rep j) pw) attr c fun _ => True :=
  (c65_even_orders hfd _ (flipRotSpace_grid interp N axis) (Dihedral.invOk hN) rep inT outT _ attr c
    (opsOk_dihedral inT outT interp N hN axis rep hr maxOff)
    (fun n hn => Dihedral.isRep_of hN (hr n (List.mem_append_left _ hn)))
    (c26_dihedral N hN rep outT fun n hn => hr n (List.mem_append_right _ hn)) hoff
    (fun _ _ _ _ _ _ _ _ _ _ _ _ _ _ ha => heven _ ha)).mono fun g _ hq _ => planeAct_cases axis g.1 _ hq

/-- **C65 for `FlipRot2dOnR2` with O(2) and operators of even orders**: all the elements which permute the pixels. -/
theorem c65_o2_even {fd : ℕ → List ℝ → ℕ → ℝ} (hfd : FDSpec fd) (axis : ℝ) (rep : F → Repr (ℤ × ℝ))
    (hr : ∀ n ∈ inT ++ outT, (rep n).WF ∧ ∀ i ∈ (rep n).irreps, ∃ j k, O2.irrep j k = some i)
    (hoff : c.angle = none) (heven : ∀ a, c.keep a = true → Even a.1) :
    DiffopCommutes (o2Space interp axis) rep inT outT (fdSample fd)
      (fun _ pw i j => tensorBasis dFlipCont (dSamp axis) (rep i) (rep j) pw) attr c fun _ => True :=
  (c65_even_orders hfd _ (o2Space_grid interp axis) O2.invOk rep inT outT _ attr c (fun _ => opsOk_o2 inT outT interp axis rep hr)
    (fun n hn => O2.isRep_of (hr n (List.mem_append_left _ hn)))
    (c26_o2 rep outT fun n hn => hr n (List.mem_append_right _ hn)) hoff
    (fun _ _ _ _ _ _ _ _ _ _ _ _ _ _ ha => heven _ ha)).mono fun g _ hq _ => planeAct_cases axis g.1 g.2 hq

/-- **C65 for `Flip2dOnR2` with operators of even orders.** -/
theorem c65_flip_even {fd : ℕ → List ℝ → ℕ → ℝ} (hfd : FDSpec fd) (axis : ℝ) (rep : F → Repr ℤ)
    (hr : ∀ n ∈ inT ++ outT, (rep n).WF ∧ ∀ i ∈ (rep n).irreps, ∃ k, Cyclic.irrep 2 k = some i) (maxOff : Option ℕ)
    (hoff : c.angle = none) (heven : ∀ a, c.keep a = true → Even a.1) :
    DiffopCommutes (flipSpace interp axis) rep inT outT (fdSample fd)
      (fun o pw i j => tensorBasis (fun a b => dFlips a b (some o) maxOff) (dSamp axis) (rep i) (rep j) pw) attr c fun _ => True := by
  refine (c65_even_orders hfd _ (flipSpace_grid interp axis) (Cyclic.invOk (N := 2) (by norm_num)) rep inT outT _ attr c
    (opsOk_flip inT outT interp axis rep hr maxOff)
    (fun n hn => Cyclic.isRep_of (N := 2) (by norm_num) (hr n (List.mem_append_left _ hn)))
    (c26_cyclic 2 (by norm_num) rep outT fun n hn => hr n (List.mem_append_right _ hn)) hoff
    (fun _ _ _ _ _ _ _ _ _ _ _ _ _ _ ha => heven _ ha)).mono fun g _ hq _ => ?_
  by_cases hg : g = 0
  · exact Or.inl ⟨0, quarter_zero, fun p => by simp [flipSpace, hg, rot_zero]⟩
  · exact Or.inr ⟨axis, (hq.resolve_left hg), fun p => by simp [flipSpace, hg]⟩

/-! ### A concrete reflection -/

/-- The trivial representation (`0`) and the sign representation (`1`) of the group of two elements. -/
noncomputable def exFlipRep (n : ℕ) : Repr ℤ := ⟨(Cyclic.irrep 2 (if n = 0 then 0 else 1)).toList, Mat.one, Mat.one⟩

/-- Operators of order at most 1 on a kernel of size 3. -/
def exDiffop : DiffopCfg ℕ ℕ where
  kernelSize := some 3
  maxOrder := some 1
  accuracy := none
  maxPower := none
  angle := none
  p := 0
  s := 1
  d := 1
  groups := 1
  mode := .zeros
  keep := fun _ => true
  shape0 := fun _ => 1
  ident := fun a => a.2
  inIdx := fun _ => 0
  outIdx := fun _ => 0

/-- The operators of `Flip2dOnR2(axis=0)`. -/
noncomputable def exFlipOps (o pw i j : ℕ) : Option (List DArr) :=
  tensorBasis (fun a b => dFlips a b (some o) none) (dSamp 0) (exFlipRep i) (exFlipRep j) pw

/-- An element with a norm above the thresholds is kept. -/
theorem sqNorm_normalize_eq (so si S size : ℕ) (hs : 0 < size) (b : Arr3) (h : 1e-2 ≤ sqNorm so si S b / size) :
    sqNorm so si S (normalizeElem so si S size b) = size := by
  have hs' : (0 : ℝ) < size := by exact_mod_cast hs
  have hn0 : (∑ s ∈ range S, ∑ o ∈ range so, ∑ p ∈ range si, b o p s * b o p s) = sqNorm so si S b := by
    unfold sqNorm
    rw [Finset.sum_comm]
    refine Finset.sum_congr rfl fun o _ => ?_
    rw [Finset.sum_comm]
    exact Finset.sum_congr rfl fun p _ => Finset.sum_congr rfl fun s _ => by ring
  have hel : elemNorm so si S size b = Real.sqrt (sqNorm so si S b / size) := by
    unfold elemNorm
    dsimp only
    rw [hn0, if_neg (not_lt.2 (le_trans (by norm_num) h)), if_neg]
    rw [not_lt]
    exact Real.le_sqrt_of_sq_le (le_trans (by norm_num) h)
  have hpos : 0 < sqNorm so si S b / size := lt_of_lt_of_le (by norm_num) h
  have : sqNorm so si S (normalizeElem so si S size b) = sqNorm so si S b / (elemNorm so si S size b) ^ 2 := by
    unfold sqNorm normalizeElem
    simp only [div_pow, Finset.sum_div]
  rw [this, hel, Real.sq_sqrt hpos.le]
  have h2 : sqNorm so si S b ≠ 0 := by
    intro h0
    rw [h0, zero_div] at hpos
    exact lt_irrefl _ hpos
  field_simp

/-- The first order of the operators from the trivial to the sign representation is the derivative along the second axis alone. -/
theorem exFlipOps_eq : ∃ D : DArr, exFlipOps 1 0 0 1 = some [D] ∧ D.deg = 1 ∧ D.co 0 0 0 = 0 ∧ D.co 0 0 1 = 1 := by
  have h0 : (exFlipRep 0).irreps = [{ size := 1, socs := 1, mat := fun _ => m1 1, freq := 0, flip := 0 }] := by
    simp [exFlipRep, Cyclic.irrep]
  have h1 : (exFlipRep 1).irreps = [{ size := 1, socs := 1, freq := 1, flip := 0, mat := fun e => m1 (cos (e * π)) }] := by
    simp [exFlipRep, Cyclic.irrep, Cyclic.order_eq]
  have hl : dFlips { size := 1, socs := 1, mat := fun _ => m1 1, freq := 0, flip := 0 }
      { size := 1, socs := 1, freq := 1, flip := 0, mat := fun e => m1 (cos (e * π)) } (some 1) none = some [⟨1, 1, 0, 1⟩] := by
    have ho : offsets 0 1 none (some 1) true = some [0, 1] := by
      simp [offsets]
      rfl
    unfold dFlips dLoop
    simp [ho, freqOk]
  have hc0 : MEq (exFlipRep 0).size (exFlipRep 0).size (exFlipRep 0).cobInv Mat.one := MEq.refl _
  have hc1 : MEq (exFlipRep 1).size (exFlipRep 1).size (exFlipRep 1).cob Mat.one := MEq.refl _
  unfold exFlipOps tensorBasis steerable
  rw [if_pos hc0, if_pos hc1, h0, h1, if_pos (by simp [hl])]
  simp only [Option.map_some, SBasis.dCoefs, SBasis.dLoopIn, SBasis.dLoopOut, hl, Option.getD_some, List.map_cons, List.map_nil, List.append_nil,
    SBasis.dChange, tensorCoefs, laplaceProfile, List.flatMap_cons, List.flatMap_nil, zero_add, List.range_one, List.singleton_append]
  refine ⟨_, rfl, ?_, ?_, ?_⟩
  · simp [DArr.fill, DArr.place, dSamp, dAxis, dCoef, HPoly.laplacian]
  · simp [DArr.fill, DArr.place, dSamp, dAxis, dCoef, HPoly.laplacian, HPoly.mul, DArr.entry, hcheby, HPoly.chebyU, Finset.sum_range_succ]
  · simp [DArr.fill, DArr.place, dSamp, dAxis, dCoef, HPoly.laplacian, HPoly.mul, DArr.entry, hcheby, HPoly.chebyU, Finset.sum_range_succ]

theorem exFlipRep_ok (n : ℕ) : (exFlipRep n).WF ∧ (exFlipRep n).size = 1 ∧ ∀ i ∈ (exFlipRep n).irreps, ∃ k, Cyclic.irrep 2 k = some i := by
  have hs : (exFlipRep n).size = 1 := by
    by_cases hn : n = 0 <;> simp [exFlipRep, Repr.size, Cyclic.irrep, Cyclic.order_eq, hn]
  refine ⟨IsInv.one _, hs, ?_⟩
  · intro i hi
    exact ⟨_, Option.mem_toList.1 hi⟩

/-- Two finite difference weights on three points. -/
theorem fd_three {fd : ℕ → List ℝ → ℕ → ℝ} (hfd : FDSpec fd) :
    fd 0 (axisPts 3 1) 0 = 0 ∧ fd 0 (axisPts 3 1) 1 = 1 ∧ fd 0 (axisPts 3 1) 2 = 0 ∧
    fd 1 (axisPts 3 1) 0 = -(1 / 2) ∧ fd 1 (axisPts 3 1) 1 = 0 ∧ fd 1 (axisPts 3 1) 2 = 1 / 2 := by
  have w0 := hfd.axis (k := 3) (d := 1) (n := 0) (by omega) (by omega)
  have w1 := hfd.axis (k := 3) (d := 1) (n := 1) (by omega) (by omega)
  have a0 := w0 0 (by omega)
  have a1 := w0 1 (by omega)
  have a2 := w0 2 (by omega)
  have b0 := w1 0 (by omega)
  have b1 := w1 1 (by omega)
  have b2 := w1 2 (by omega)
  simp [Finset.sum_range_succ, axisPt] at a0 a1 a2 b0 b1 b2
  norm_num at a0 a1 a2 b0 b1 b2
  refine ⟨?_, ?_, ?_, ?_, ?_, ?_⟩ <;> linarith

/-- A basis with an element above the thresholds is not empty. -/
theorem singleBlock_isSome {A : Type} {so si S : ℕ} {keep : A → Bool} {shape0 : A → ℕ} {basis : List (Elem A)} {e : Elem A} (he : e ∈ basis)
    (hk : keep e.attr = true) (hs : 0 < shape0 e.attr) (hn : 1e-2 ≤ sqNorm so si S e.ker / shape0 e.attr) :
    (singleBlock so si S keep shape0 basis).isSome := by
  have hm : e ∈ basis.filter fun e => keep e.attr := List.mem_filter.2 ⟨he, hk⟩
  unfold singleBlock
  dsimp only
  rw [if_neg (List.ne_nil_of_mem hm), if_neg]
  · rfl
  · have h1 : (⟨e.attr, normalizeElem so si S (shape0 e.attr) e.ker⟩ : Elem A) ∈ (basis.filter fun e => keep e.attr).map
        fun e => (⟨e.attr, normalizeElem so si S (shape0 e.attr) e.ker⟩ : Elem A) := List.mem_map.2 ⟨e, hm, rfl⟩
    refine List.ne_nil_of_mem (List.mem_filter.2 ⟨h1, ?_⟩)
    have h2 : (1 : ℝ) ≤ shape0 e.attr := by exact_mod_cast hs
    rw [decide_eq_true_eq, sqNorm_normalize_eq so si S _ hs _ hn]
    exact lt_of_lt_of_le (by norm_num) h2

/-- With the derivative along the second axis among the operators, the constructor of the layer accepts them. -/
theorem exDiffop_dimension {fd : ℕ → List ℝ → ℕ → ℝ} (hfd : FDSpec fd) (ops : ℕ → ℕ → Option (List DArr)) (l : List DArr) (hl : ops 0 1 = some l)
    (D : DArr) (hD : D ∈ l) (hdeg : D.deg = 1) (h0 : D.co 0 0 0 = 0) (h1 : D.co 0 0 1 = 1) :
    FilterInput exFlipRep [0] [1] (diffopBasis (fdSample fd) 3 1 none exFlipRep ops fun _ _ k => k) exDiffop.ident ∧
    (exDiffop.exp (fdSample fd) 3 1 exFlipRep [0] [1] ops fun _ _ k => k).dimension ≠ 0 := by
  have hi : FilterInput exFlipRep [0] [1] (diffopBasis (fdSample fd) 3 1 none exFlipRep ops fun _ _ k => k) exDiffop.ident := by
    refine ⟨by simp, by simp, fun n _ => by rw [(exFlipRep_ok n).2.1]; exact one_pos, fun n _ => by rw [(exFlipRep_ok n).2.1]; exact one_pos, ?_⟩
    intro i hi o ho
    obtain rfl := List.mem_singleton.1 hi
    obtain rfl := List.mem_singleton.1 ho
    rw [diffopBasis, hl, List.map_map]
    have : (List.zipIdx ((some l).getD [])).map ((fun b => exDiffop.ident b.1) ∘ fun D : DArr × ℕ =>
        ((D.1.deg, D.2), (fdSample fd 3 1 (exFlipRep 1).size (exFlipRep 0).size none D.1).getD fun _ _ _ => 0)) = l.zipIdx.map Prod.snd := by
      rfl
    rw [this, List.zipIdx_map_snd]
    exact List.nodup_range' ..
  refine ⟨hi, ?_⟩
  have hwf := filterExp_wf hi (3 * 3) id (exDiffop.keepOf 1) exDiffop.shape0 exDiffop.inIdx exDiffop.outIdx
  refine hwf.dimension_ne_zero (i := 0) (o := 1) (by simp [filterExp]) (by simp [filterExp]) ?_
  obtain ⟨f, hf⟩ := Option.isSome_iff_exists.1 (fdSample_isSome fd (k := 3) (d := 1) (so := (exFlipRep 1).size) (si := (exFlipRep 0).size)
    (off := none) (D := D) (by omega))
  have hv := (fdSample_spec hf).2
  obtain ⟨p0, p1, p2, q0, q1, q2⟩ := fd_three hfd
  have hval : ∀ q, f q 0 0 = fd 0 (axisPts 3 1) (q / 3) * fd 1 (axisPts 3 1) (q % 3) := by
    intro q
    have := hv q 0 (by rw [(exFlipRep_ok 1).2.1]; exact one_pos) 0 (by rw [(exFlipRep_ok 0).2.1]; exact one_pos)
    simpa [offD, hdeg, Finset.sum_range_succ, h0, h1] using this
  have hsq : sqNorm 1 1 (3 * 3) (fun r c s => f s r c) = 1 / 2 := by
    simp [sqNorm, Finset.sum_range_succ, hval, p0, p1, p2, q0, q1, q2]
    norm_num
  obtain ⟨q, hq⟩ := List.mem_iff_getElem?.1 hD
  have hmem : ((D.deg, q), f) ∈ diffopBasis (fdSample fd) 3 1 none exFlipRep ops (fun _ _ k => k) 0 1 := by
    rw [diffopBasis, hl]
    refine List.mem_map.2 ⟨(D, q), List.mem_zipIdx_iff_getElem?.2 hq, ?_⟩
    rw [hf]
    rfl
  refine singleBlock_isSome (List.mem_map.2 ⟨_, hmem, rfl⟩) ?_ one_pos ?_
  · simp [exDiffop, DiffopCfg.keepOf, hdeg]
  · rw [(exFlipRep_ok 1).2.1, (exFlipRep_ok 0).2.1]
    refine le_of_le_of_eq ?_ (congrArg (· / ((1 : ℕ) : ℝ)) hsq.symm)
    norm_num

/-- **C65 is false at the reflections, a concrete layer**: `R2Diffop` with a kernel of size 3 and operators of order at most 1 on `Flip2dOnR2(axis=0)`, from a trivial field to a
field of the sign representation. -/
theorem c65_flip_wrong {fd : ℕ → List ℝ → ℕ → ℝ} (hfd : FDSpec fd) (interp : ℝ → Img → Img) :
    ∃ (w : List ℝ) (n : ℕ) (layer : Fmap → Fmap), convSize n 0 3 1 1 = some 1 ∧
      (∀ x, r2diffop exDiffop (fdSample fd) exFlipRep [0] [1] exFlipOps (fun _ _ k => k) w [] n x = some (layer x)) ∧
      ∃ x, ¬ FEq 1 1 (layer (fieldAct 1 (typeMat exFlipRep [0] 1) ((flipSpace interp 0).base n 1) x))
        (fieldAct 1 (typeMat exFlipRep [1] 1) ((flipSpace interp 0).base 1 1) (layer x)) := by
  have hsz : ∀ n, typeSize (fun m => (exFlipRep m).size) [n] = 1 := fun n => by simp [typeSize, (exFlipRep_ok n).2.1]
  obtain ⟨D, hD, hdeg, h0, h1⟩ := exFlipOps_eq
  obtain ⟨hi, hdim⟩ := exDiffop_dimension hfd _ _ hD D (List.mem_singleton.2 rfl) hdeg h0 h1
  have h := c65_reflections_wrong hfd (flipSpace interp 0) (flipSpace_grid interp 0) (Cyclic.invOk (N := 2) (by norm_num)) exFlipRep [0] [1]
    exFlipOps (fun _ _ k => k) exDiffop
    (opsOk_flip [0] [1] interp 0 exFlipRep (fun n _ => ⟨(exFlipRep_ok n).1, (exFlipRep_ok n).2.2⟩) none)
    (fun n _ => Cyclic.isRep_of (N := 2) (by norm_num) ⟨(exFlipRep_ok n).1, (exFlipRep_ok n).2.2⟩) rfl 3 1 0 ?_ [0] ?_ (c65_sampled _ _ (by norm_num) _ _ _ _ _) hi one_pos one_pos ?_ hdim rfl rfl
    1 ?_ ?_ ?_
  · rw [hsz, hsz] at h
    exact h
  · intro i hi o ho l hl idx D' hD' _ _
    have hD' := List.mem_of_getElem? hD'
    obtain rfl := List.mem_singleton.1 hi
    obtain rfl := List.mem_singleton.1 ho
    rw [hD] at hl
    obtain rfl := Option.some.inj hl
    obtain rfl := List.mem_singleton.1 hD'
    rw [hdeg]
    exact odd_one
  · rfl
  · simp [convGroups, exDiffop]
  · simp [flipSpace, Cyclic.grp, Cyclic.isElement, Cyclic.order_eq]
  · exact Or.inr ⟨0, by simp⟩
  · exact ⟨0, ⟨0, by simp⟩, fun p => by simp [flipSpace]⟩

/-- The operators of `Rot2dOnR2(2)`. -/
noncomputable def exRotOps (o pw i j : ℕ) : Option (List DArr) :=
  tensorBasis (fun a b => dRot 2 a b (some o) none) (dSamp 0) (exFlipRep i) (exFlipRep j) pw

/-- From the trivial to the sign representation of the rotations by half a turn the operators of order at most 1 are the two derivatives. -/
theorem exRotOps_eq : ∃ D D' : DArr, exRotOps 1 0 0 1 = some [D', D] ∧ D.deg = 1 ∧ D.co 0 0 0 = 0 ∧ D.co 0 0 1 = 1 := by
  have h0 : (exFlipRep 0).irreps = [{ size := 1, socs := 1, mat := fun _ => m1 1, freq := 0, flip := 0 }] := by
    simp [exFlipRep, Cyclic.irrep]
  have h1 : (exFlipRep 1).irreps = [{ size := 1, socs := 1, freq := 1, flip := 0, mat := fun e => m1 (cos (e * π)) }] := by
    simp [exFlipRep, Cyclic.irrep, Cyclic.order_eq]
  have hl : dRot 2 { size := 1, socs := 1, mat := fun _ => m1 1, freq := 0, flip := 0 }
      { size := 1, socs := 1, freq := 1, flip := 0, mat := fun e => m1 (cos (e * π)) } (some 1) none = some [⟨1, 0, 0, 0⟩, ⟨1, 1, 0, 0⟩] := by
    have ho : offsets 1 2 none (some 1) true = some [0] := by
      simp [offsets]
      norm_num
      rfl
    unfold dRot dLoop
    simp [ho, freqOk, concatOpt]
  have hc0 : MEq (exFlipRep 0).size (exFlipRep 0).size (exFlipRep 0).cobInv Mat.one := MEq.refl _
  have hc1 : MEq (exFlipRep 1).size (exFlipRep 1).size (exFlipRep 1).cob Mat.one := MEq.refl _
  unfold exRotOps tensorBasis steerable
  rw [if_pos hc0, if_pos hc1, h0, h1, if_pos (by simp [hl])]
  simp only [Option.map_some, SBasis.dCoefs, SBasis.dLoopIn, SBasis.dLoopOut, hl, Option.getD_some, List.map_cons, List.map_nil, List.append_nil,
    SBasis.dChange, tensorCoefs, laplaceProfile, List.flatMap_cons, List.flatMap_nil, zero_add, List.range_one, List.singleton_append]
  refine ⟨_, _, rfl, ?_, ?_, ?_⟩
  · simp [DArr.fill, DArr.place, dSamp, dAxis, dCoef, HPoly.laplacian]
  · simp [DArr.fill, DArr.place, dSamp, dAxis, dCoef, HPoly.laplacian, HPoly.mul, DArr.entry, hcheby, HPoly.chebyU, Finset.sum_range_succ]
  · simp [DArr.fill, DArr.place, dSamp, dAxis, dCoef, HPoly.laplacian, HPoly.mul, DArr.entry, hcheby, HPoly.chebyU, Finset.sum_range_succ]

/-- A concrete layer on `Rot2dOnR2(2)` commutes with the rotation by half a turn, for all weights and all images: the hypotheses of `c65_cyclic` are
met. -/
example {fd : ℕ → List ℝ → ℕ → ℝ} (hfd : FDSpec fd) (interp : ℝ → Img → Img) (n : ℕ) (hn : 3 ≤ n) :
    ∃ d ≠ 0, ∀ w : List ℝ, w.length = d → ∃ layer : Fmap → Fmap,
      (∀ x, r2diffop exDiffop (fdSample fd) exFlipRep [0] [1] exRotOps (fun _ _ k => k) w [] n x = some (layer x)) ∧
      ∀ x, FEq 1 (n - 2) (layer (fieldAct 1 (typeMat exFlipRep [0] 1) ((rotSpace interp 2).base n 1) x))
        (fieldAct 1 (typeMat exFlipRep [1] 1) ((rotSpace interp 2).base (n - 2) 1) (layer x)) := by
  have hsz : ∀ n, typeSize (fun m => (exFlipRep m).size) [n] = 1 := fun n => by simp [typeSize, (exFlipRep_ok n).2.1]
  obtain ⟨D, D', hD, hdeg, h0, h1⟩ := exRotOps_eq
  obtain ⟨hi, hdim⟩ := exDiffop_dimension hfd _ _ hD D (by simp) hdeg h0 h1
  refine ⟨_, hdim, fun w hw => ?_⟩
  obtain ⟨layer, h2, h3⟩ := c65_cyclic (fun _ _ k => k) exDiffop [0] [1] interp hfd 2 (by norm_num) exFlipRep
    (fun n _ => ⟨(exFlipRep_ok n).1, (exFlipRep_ok n).2.2⟩) none
    3 1 0 [0] n (n - 2) w [] rfl (c65_sampled _ _ (by norm_num) _ _ _ _ _) hi one_pos one_pos (by simp [convGroups, exDiffop]) hdim hw trivial
    (by show convSize n 0 3 1 1 = _; unfold convSize; rw [if_pos (by omega)]; congr 1; omega) (one_dvd _)
  refine ⟨layer, h2, fun x => ?_⟩
  have h4 := h3 1 (by simp [rotSpace, Cyclic.grp, Cyclic.isElement, Cyclic.order_eq]) ⟨2, by simp; ring⟩ trivial x
  rw [hsz, hsz] at h4
  exact h4

end E2
