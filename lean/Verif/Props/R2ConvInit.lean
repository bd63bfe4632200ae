import Verif.Model.R2ConvInit
import Verif.Lemmas.FilterAt
import Verif.Props.Conv
import Verif.Props.BandLimit
import Verif.Props.R2Diffop
import Mathlib.Data.List.ProdSigma

/-!
# C66: `R2Conv` built from its public arguments is equivariant

The statements of C25 with everything the constructor computes put in its place: the basis of the space, the rings, widths and frequencies, the band limit, the
attributes and the identifiers of the parameters.
-/

set_option linter.unusedSectionVars false

namespace E2

open Finset Mat Real

namespace SBasis

variable {El E : Type}

theorem iterLoop_ids (bases : Irrep El → Irrep El → List E) (ps : List ((ℕ × Irrep El) × (ℕ × Irrep El))) (c : ℕ)
    (h : (ps.map fun p => (p.1.1, p.2.1)).Nodup) :
    ((iterLoop bases ps c).map fun a => ((a.inIdx, a.outIdx), a.innerIdx)).Nodup := by
  induction ps generalizing c with
  | nil => exact List.nodup_nil
  | cons p ps ih =>
    obtain ⟨⟨ii, i⟩, ⟨oo, o⟩⟩ := p
    rw [List.map_cons, List.nodup_cons] at h
    simp only [iterLoop, List.map_append, List.map_map]
    refine List.Nodup.append ?_ (ih _ h.2) ?_
    · have : ((enum (bases i o)).map ((fun a : Attr El E => ((a.inIdx, a.outIdx), a.innerIdx)) ∘ fun p => ⟨i, o, ii, oo, p.1, p.2, c + p.1⟩)) =
          (List.range (bases i o).length).map fun k => ((ii, oo), k) := by
        apply List.ext_getElem?
        intro k
        rw [List.getElem?_map, enum_getElem?, Option.map_map, List.getElem?_map]
        by_cases hk : k < (bases i o).length
        · rw [List.getElem?_eq_getElem hk, List.getElem?_range hk]
          rfl
        · rw [List.getElem?_eq_none (by omega), List.getElem?_eq_none (by simpa using hk)]
          rfl
      rw [this]
      refine List.nodup_range.map fun a b hab => ?_
      exact (Prod.ext_iff.1 hab).2
    · intro x hx hx'
      obtain ⟨q, -, rfl⟩ := List.mem_map.1 hx
      obtain ⟨a, ha, hax⟩ := List.mem_map.1 hx'
      obtain ⟨k, hk⟩ := List.mem_iff_getElem?.1 ha
      obtain ⟨h1, -, -⟩ := iterLoop_get bases ps _ k hk
      refine h.1 (List.mem_map.2 ⟨_, h1, ?_⟩)
      exact (Prod.ext_iff.1 hax).1

/-- The indices of the two irreps and the index in their basis identify an element. -/
theorem iter_ids (S : SBasis El E) : (S.iter.map fun a => ((a.inIdx, a.outIdx), a.innerIdx)).Nodup := by
  refine iterLoop_ids _ _ _ ?_
  have h : ∀ (l : List (Irrep El)), (enum l).map Prod.fst = List.range l.length := by
    intro l
    apply List.ext_getElem?
    intro k
    rw [List.getElem?_map, enum_getElem?, Option.map_map]
    by_cases hk : k < l.length
    · rw [List.getElem?_eq_getElem hk, List.getElem?_range hk]
      rfl
    · rw [List.getElem?_eq_none (by omega), List.getElem?_eq_none (by simpa using hk)]
      rfl
  have h2 : S.pairs.map (fun p => (p.1.1, p.2.1)) = (List.range S.ins.length) ×ˢ (List.range S.outs.length) := by
    rw [pairs, List.map_flatMap, ← h, ← h]
    simp only [List.map_map, SProd.sprod, List.product, List.flatMap_map]
    rfl
  rw [h2]
  exact List.nodup_range.product List.nodup_range

end SBasis

variable {El F : Type} [LinearOrder F]

theorem mem_polarIter {R A : Type} {ridx : R → ℕ} {aidx : A → ℕ} {riter : List R} {aiter : List A} {a : PolarAttr R A}
    (h : a ∈ polarIter ridx aidx riter aiter) : a.idx < riter.length * aiter.length := by
  obtain ⟨p, hp, rfl⟩ := List.mem_map.1 h
  obtain ⟨k, hk⟩ := List.mem_iff_getElem?.1 hp
  rw [SBasis.enum_getElem?, Option.map_eq_some_iff] at hk
  obtain ⟨q, hq, rfl⟩ := hk
  have := (List.getElem?_eq_some_iff.1 hq).1
  simpa [List.length_flatMap, Function.comp_def] using this

/-- The identifiers of the elements of one basis differ if the radii do. -/
theorem polarBasis_ids (axis : ℝ) (rings : List (ℝ × ℝ)) (bas : Irrep El → Irrep El → Option (List AngElem)) (rin rout : Repr El)
    (l : List (BasisAttr El × (ℝ × ℝ → Mat))) (h : polarBasis axis rings bas rin rout = some l) (hr : (rings.map Prod.fst).Nodup) :
    (l.map fun b => attrId b.1).Nodup := by
  obtain ⟨S, -, rfl⟩ := Option.map_eq_some_iff.1 h
  refine List.Nodup.of_map (fun t : AttrId => (t.2.2.1, ((t.1.2, t.2.1.2), t.2.2.2.2))) ?_
  rw [List.map_map, List.map_map, polarIter, List.map_map]
  have h1 : ∀ (α β : Type) (f : α → β) (l : List α), (SBasis.enum l).map (fun p => f p.2) = l.map f := by
    intro α β f l
    rw [SBasis.enum, List.map_map, ← List.zipIdx_map_fst 0 l, List.map_map, List.zipIdx_map_fst]
    rfl
  have h2 : (SBasis.enum ((gaussianIter rings).flatMap fun r => S.iter.map fun a => (r, a))).map
      (((((fun t : AttrId => (t.2.2.1, ((t.1.2, t.2.1.2), t.2.2.2.2))) ∘ fun b : BasisAttr El × (ℝ × ℝ → Mat) => attrId b.1) ∘
        fun a : BasisAttr El => (a, planeKernel axis (rings.map fun q => gaussian q.1 q.2) S a.idx))) ∘
        fun p : ℕ × ((ℝ × ℝ) × ℕ) × SBasis.Attr El AngElem => ⟨p.2.1, p.2.2, p.1, p.2.1.2, p.2.2.idx⟩) =
      (rings.map Prod.fst) ×ˢ (S.iter.map fun a => ((a.inIdx, a.outIdx), a.innerIdx)) := by
    rw [show ((((fun t : AttrId => (t.2.2.1, ((t.1.2, t.2.1.2), t.2.2.2.2))) ∘ fun b : BasisAttr El × (ℝ × ℝ → Mat) => attrId b.1) ∘
        fun a : BasisAttr El => (a, planeKernel axis (rings.map fun q => gaussian q.1 q.2) S a.idx)) ∘
        fun p : ℕ × ((ℝ × ℝ) × ℕ) × SBasis.Attr El AngElem => ⟨p.2.1, p.2.2, p.1, p.2.1.2, p.2.2.idx⟩) =
        fun p => (fun q : ((ℝ × ℝ) × ℕ) × SBasis.Attr El AngElem => (q.1.1.1, ((q.2.inIdx, q.2.outIdx), q.2.innerIdx))) p.2 from rfl]
    rw [h1 _ _ (fun q : ((ℝ × ℝ) × ℕ) × SBasis.Attr El AngElem => (q.1.1.1, ((q.2.inIdx, q.2.outIdx), q.2.innerIdx)))]
    simp only [SProd.sprod, List.product, List.map_flatMap, List.flatMap_map, List.map_map, gaussianIter]
    conv_rhs => rw [← List.zipIdx_map_fst 0 rings, List.flatMap_map]
    rfl
  exact h2 ▸ hr.product S.iter_ids

/-- The default rings have radii `0, d, 2 d, ...`. -/
theorem basisRings_default (k d : ℕ) : basisRings k d none = (List.range ((k + 1) / 2)).map fun i : ℕ => (i : ℝ) * d := by
  unfold basisRings linspace0
  rw [List.map_map]
  refine List.map_congr_left fun i hi => ?_
  have hi' := List.mem_range.1 hi
  simp only [Function.comp]
  by_cases h1 : (k + 1) / 2 = 1
  · have : i = 0 := by omega
    simp [h1, this]
  · have h2 : (k - 1) / 2 = (k + 1) / 2 - 1 := by omega
    have h3 : (((k + 1) / 2 - 1 : ℕ) : ℝ) ≠ 0 := by
      have : (k + 1) / 2 - 1 ≠ 0 := by omega
      exact_mod_cast this
    rw [if_neg h1, h2, mul_div_assoc, div_self h3, mul_one]

theorem basisRings_nodup (k d : ℕ) (hd : 0 < d) (rings : Option (List ℝ)) (h : ∀ l, rings = some l → l.Nodup) : (basisRings k d rings).Nodup := by
  cases rings with
  | some l => exact h l rfl
  | none =>
    rw [basisRings_default]
    refine List.nodup_range.map fun a b hab => ?_
    have hd' : (d : ℝ) ≠ 0 := by exact_mod_cast hd.ne'
    exact_mod_cast mul_right_cancel₀ hd' hab

/-- All the kernels which the space builds for the representations of the types satisfy the constraint of its action. -/
def GenOk (Sp : Space El) (G : KernelGen El) (rep : F → Repr El) (inT outT : List F) : Prop :=
  ∀ mf mo bas, G.bas mf mo = some bas → ∀ i ∈ inT, ∀ o ∈ outT, ∀ radials : List (ℝ → ℝ), ∃ S, steerable bas (rep i) (rep o) = some S ∧
    ∀ k < radials.length * S.dim, KernelConstraint Sp.G Sp.act (rep o).size (rep i).size (rep o).mat (rep i).mat (planeKernel G.axis radials S k)

/-- **C66, the kernels**: every kernel of `build_kernel_basis` satisfies the constraint. -/
theorem c66_build_kernel_basis (Sp : Space El) (G : KernelGen El) (rep : F → Repr El) (inT outT : List F) (hG : GenOk Sp G rep inT outT)
    (sigma rings : List ℝ) (mf mo : Option ℤ) (i o : F) (hi : i ∈ inT) (ho : o ∈ outT) (l : List (BasisAttr El × (ℝ × ℝ → Mat)))
    (h : buildKernelBasis G sigma rings mf mo (rep i) (rep o) = some l) :
    ∀ b ∈ l, KernelConstraint Sp.G Sp.act (rep o).size (rep i).size (rep o).mat (rep i).mat b.2 := by
  classical
  unfold buildKernelBasis at h
  split_ifs at h with h1
  cases hb : G.bas mf mo with
  | none => simp [hb] at h
  | some bas =>
    rw [hb] at h
    obtain ⟨S, hS, rfl⟩ := Option.map_eq_some_iff.1 h
    obtain ⟨S', hS', hK⟩ := hG mf mo bas hb i hi o ho ((rings.zip sigma).map fun q => gaussian q.1 q.2)
    obtain rfl : S = S' := Option.some.inj (hS.symm.trans hS')
    intro b hb'
    obtain ⟨a, ha, rfl⟩ := List.mem_map.1 hb'
    refine hK _ ?_
    have := mem_polarIter ha
    rw [S.length_iter] at this
    simpa [gaussianIter] using this

theorem buildKernelBasis_ids {G : KernelGen El} {sigma rings : List ℝ} {mf mo : Option ℤ} {rin rout : Repr El} {l : List (BasisAttr El × (ℝ × ℝ → Mat))}
    (h : buildKernelBasis G sigma rings mf mo rin rout = some l) (hr : rings.Nodup) : (l.map fun b => attrId b.1).Nodup := by
  classical
  unfold buildKernelBasis at h
  split_ifs at h with h1
  cases hb : G.bas mf mo with
  | none => simp [hb] at h
  | some bas =>
    rw [hb] at h
    refine polarBasis_ids _ _ _ _ _ _ h ?_
    rw [List.map_fst_zip (by omega)]
    exact hr

/-- The claim for one space and its kernels: whatever the arguments, if the constructor succeeds then the layer accepts every weights, biases and images and commutes
with the elements of the group which permute the pixels. -/
def R2ConvEquivariant (Sp : Space El) (G : KernelGen El) (rep : F → Repr El) (inT outT : List F) : Prop :=
  ∀ (a : ConvArgs El) (M : ConvModule El F), r2convInit G a rep inT outT = some M →
    -- rings given by the caller are distinct
    (∀ l, a.rings = some l → l.Nodup) → 0 < a.groups → 0 < a.dilation →
    -- one weight for each parameter; the padding is accepted, the output has `m × m` pixels, the windows cover the padded image
    ∀ (w b : List ℝ) (n m : ℕ), w.length = M.dim → padOk a.paddingMode n a.padding → convSize n a.padding a.kernelSize a.stride a.dilation = some m →
    a.stride ∣ n + 2 * a.padding - a.dilation * (a.kernelSize - 1) - 1 →
    ∃ layer : Fmap → Fmap, (∀ x, M.forward rep inT outT w b n x = some (layer x)) ∧
      ∀ g, Sp.G.isEl g → Sp.grid g → ∀ x,
        FEq (typeSize (fun m => (rep m).size) outT) m
          (layer (fieldAct (typeSize (fun m => (rep m).size) inT) (typeMat rep inT g) (Sp.base n g) x))
          (fieldAct (typeSize (fun m => (rep m).size) outT) (typeMat rep outT g) (Sp.base m g) (layer x))

/-- **C66 for a space whose kernels satisfy the constraint.** -/
theorem c66_conv (Sp : Space El) (hgrid : Sp.GridAction) (hinv : Sp.G.InvOk) (G : KernelGen El) (rep : F → Repr El) (inT outT : List F)
    (hG : GenOk Sp G rep inT outT) (hne : inT ≠ [] ∧ outT ≠ []) (hsz : ∀ n ∈ inT ++ outT, 0 < (rep n).size)
    (hrep : ∀ n ∈ inT, IsRep Sp.G (rep n).size (rep n).mat) (hbias : BiasOk Sp.G rep outT) : R2ConvEquivariant Sp G rep inT outT := by
  classical
  intro a M hM hrings hg hd w b n m hw hpad hm hdiv
  unfold r2convInit at hM
  cases hgr : convGroups a.groups inT outT with
  | none => simp [hgr] at hM
  | some inG =>
    rw [hgr] at hM
    cases hp : computeBasisParams a.kernelSize a.dilation a.cutoff a.rings a.sigma with
    | none => simp [hp] at hM
    | some q =>
      obtain ⟨rings, sigma, fco, maxFreq⟩ := q
      rw [hp] at hM
      dsimp only at hM
      split_ifs at hM with hall hdim
      obtain rfl := Option.some.inj hM
      have hr : rings = basisRings a.kernelSize a.dilation a.rings := by
        unfold computeBasisParams at hp
        dsimp only at hp
        split_ifs at hp
        obtain ⟨F', -, h⟩ := Option.map_eq_some_iff.1 hp
        exact (Prod.ext_iff.1 h).1.symm
      have hnd : rings.Nodup := hr ▸ basisRings_nodup _ _ hd _ hrings
      obtain ⟨hin, outG, hout⟩ := convGroups_spec hgr hg hne.1 hne.2
      have hsub : ∀ n ∈ inT, n ∈ inG := by
        intro n hn
        rw [hin, List.mem_flatten] at hn
        obtain ⟨l, hl, hn⟩ := hn
        rwa [(List.mem_replicate.1 hl).2] at hn
      set basis : F → F → List (BasisAttr El × (ℝ × ℝ → Mat)) :=
        fun i o => (buildKernelBasis G sigma rings (some maxFreq) a.maximumOffset (rep i) (rep o)).getD [] with hbasis
      have hi : FilterInput rep inT outT basis attrId := by
        refine ⟨hne.1, hne.2, fun n hn => hsz n (List.mem_append_left _ hn), fun n hn => hsz n (List.mem_append_right _ hn), ?_⟩
        intro i hii o ho
        obtain ⟨l, hl⟩ := Option.ne_none_iff_exists'.1 (hall i (hsub i hii) o ho)
        simp only [hbasis, hl, Option.getD_some]
        exact buildKernelBasis_ids hl hnd
      have hfc : ∀ inG', (∀ n ∈ inG', n ∈ inT) → FiltersConstrained Sp.G Sp.act rep inG' outT basis attrId := by
        intro inG' hsub' hi' S points keep shape0 inIdx outIdx E hE hone w hw
        refine c23_filter_constraint Sp.G Sp.act rep inG' outT S points basis keep shape0 attrId inIdx outIdx hi' ?_ E hE hone w hw
        intro i hii o ho b hb
        obtain ⟨l, hl⟩ := Option.ne_none_iff_exists'.1 (hall i (hsub i (hsub' i hii)) o ho)
        simp only [hbasis, hl, Option.getD_some] at hb
        exact c66_build_kernel_basis Sp G rep inT outT hG sigma rings _ _ i o (hsub' i hii) ho l hl b hb
      exact c25_conv Sp hgrid hinv rep inT outT basis attrId hi hfc hrep hbias (a.cfg fco) inG n m w b rfl hg hgr (fun _ => Exp.pairs_ne_nil hdim) hw hpad hm hdiv

/-! ### The spaces of the library -/

theorem checkBounds_some {mf mo : Option ℤ} {b : Option ℕ × Option ℕ} (h : checkBounds mf mo = some b) : ¬ (b.1 = none ∧ b.2 = none) := by
  unfold checkBounds at h
  split_ifs at h with h1
  obtain rfl := Option.some.inj h
  rintro ⟨h2, h3⟩
  exact h1.2.2 ⟨by simpa using h2, by simpa using h3⟩

section generators

variable (interp : ℝ → Img → Img) (inT outT : List F)

theorem genOk_cyclic (N : ℕ) (hN : 0 < N) (rep : F → Repr ℤ)
    (hr : ∀ n ∈ inT ++ outT, (rep n).WF ∧ ∀ i ∈ (rep n).irreps, ∃ k, Cyclic.irrep N k = some i) :
    GenOk (rotSpace interp N) (rot2dGen N) rep inT outT := by
  intro mf mo bas hb i hi o ho radials
  have h1 := hr i (List.mem_append_left _ hi)
  have h2 := hr o (List.mem_append_right _ ho)
  obtain ⟨b, hcb, rfl⟩ := Option.map_eq_some_iff.1 hb
  obtain ⟨S, hS, -, -, hK⟩ := c21_cyclic_kernels N hN (rep i) (rep o) h1.1 h2.1 h1.2 h2.2 b.1 b.2 (checkBounds_some hcb) radials
  exact ⟨S, hS, hK⟩

theorem genOk_so2 (rep : F → Repr ℝ)
    (hr : ∀ n ∈ inT ++ outT, (rep n).WF ∧ ∀ i ∈ (rep n).irreps, ∃ k, i = SO2.irrep k) :
    GenOk (so2Space interp) so2Gen rep inT outT := by
  intro mf mo bas hb i hi o ho radials
  have h1 := hr i (List.mem_append_left _ hi)
  have h2 := hr o (List.mem_append_right _ ho)
  obtain rfl := Option.some.inj hb
  obtain ⟨S, hS, -, -, hK⟩ := c21_so2_kernels (rep i) (rep o) h1.1 h2.1 h1.2 h2.2 radials
  exact ⟨S, hS, hK⟩

theorem genOk_flip (axis : ℝ) (rep : F → Repr ℤ)
    (hr : ∀ n ∈ inT ++ outT, (rep n).WF ∧ ∀ i ∈ (rep n).irreps, ∃ k, Cyclic.irrep 2 k = some i) :
    GenOk (flipSpace interp axis) (flip2dGen axis) rep inT outT := by
  intro mf mo bas hb i hi o ho radials
  have h1 := hr i (List.mem_append_left _ hi)
  have h2 := hr o (List.mem_append_right _ ho)
  obtain ⟨b, hcb, rfl⟩ := Option.map_eq_some_iff.1 hb
  obtain ⟨S, hS, -, -, hK⟩ := c21_flip_kernels axis (rep i) (rep o) h1.1 h2.1 h1.2 h2.2 b.1 b.2 (checkBounds_some hcb) radials
  exact ⟨S, hS, hK⟩

theorem genOk_dihedral (N : ℕ) (hN : 0 < N) (axis : ℝ) (rep : F → Repr (ℤ × ℤ))
    (hr : ∀ n ∈ inT ++ outT, (rep n).WF ∧ ∀ i ∈ (rep n).irreps, ∃ j k, Dihedral.irrep N j k = some i) :
    GenOk (flipRotSpace interp N axis) (flipRot2dGen N axis) rep inT outT := by
  intro mf mo bas hb i hi o ho radials
  have h1 := hr i (List.mem_append_left _ hi)
  have h2 := hr o (List.mem_append_right _ ho)
  obtain ⟨b, hcb, rfl⟩ := Option.map_eq_some_iff.1 hb
  obtain ⟨S, hS, -, -, hK⟩ := c21_dihedral_kernels N hN axis (rep i) (rep o) h1.1 h2.1 h1.2 h2.2 b.1 b.2 (checkBounds_some hcb) radials
  exact ⟨S, hS, hK⟩

theorem genOk_o2 (axis : ℝ) (rep : F → Repr (ℤ × ℝ))
    (hr : ∀ n ∈ inT ++ outT, (rep n).WF ∧ ∀ i ∈ (rep n).irreps, ∃ j k, O2.irrep j k = some i) :
    GenOk (o2Space interp axis) (o2Gen axis) rep inT outT := by
  intro mf mo bas hb i hi o ho radials
  have h1 := hr i (List.mem_append_left _ hi)
  have h2 := hr o (List.mem_append_right _ ho)
  obtain rfl := Option.some.inj hb
  obtain ⟨S, hS, -, -, hK⟩ := c21_o2_kernels axis (rep i) (rep o) h1.1 h2.1 h1.2 h2.2 radials
  exact ⟨S, hS, hK⟩

theorem genOk_trivial (rep : F → Repr ℤ)
    (hr : ∀ n ∈ inT ++ outT, (rep n).WF ∧ ∀ i ∈ (rep n).irreps, ∃ k, Cyclic.irrep 1 k = some i) :
    GenOk trivialSpace trivialGen rep inT outT := by
  intro mf mo bas hb i hi o ho radials
  have h1 := hr i (List.mem_append_left _ hi)
  have h2 := hr o (List.mem_append_right _ ho)
  obtain ⟨b, hcb, rfl⟩ := Option.map_eq_some_iff.1 hb
  obtain ⟨S, hS, -, -, hK⟩ := c21_cyclic_kernels 1 (by norm_num) (rep i) (rep o) h1.1 h2.1 h1.2 h2.2 b.1 b.2 (checkBounds_some hcb) radials
  refine ⟨S, hS, fun k hk g hg p => ?_⟩
  have h0 : g = 0 := by
    have h' : Cyclic.isElement 1 g = true := hg
    simp [Cyclic.isElement, Cyclic.order_eq] at h'
    omega
  have h := hK k hk g hg p
  subst h0
  simpa [rot_zero, trivialSpace, trivialGen] using h

end generators

section spaces

variable (interp : ℝ → Img → Img) (inT outT : List F) (hne : inT ≠ [] ∧ outT ≠ [])

include hne

/-- **C66 for `Rot2dOnR2(N)`.** -/
theorem c66_cyclic (N : ℕ) (hN : 0 < N) (rep : F → Repr ℤ) (hsz : ∀ n ∈ inT ++ outT, 0 < (rep n).size)
    (hr : ∀ n ∈ inT ++ outT, (rep n).WF ∧ ∀ i ∈ (rep n).irreps, ∃ k, Cyclic.irrep N k = some i) :
    R2ConvEquivariant (rotSpace interp N) (rot2dGen N) rep inT outT :=
  c66_conv _ (rotSpace_grid interp N hN) (Cyclic.invOk hN) _ rep inT outT (genOk_cyclic interp inT outT N hN rep hr) hne hsz
    (fun n hn => Cyclic.isRep_of hN (hr n (List.mem_append_left _ hn))) (c26_cyclic N hN rep outT fun n hn => hr n (List.mem_append_right _ hn))

/-- **C66 for `Rot2dOnR2(-1)`.** -/
theorem c66_so2 (rep : F → Repr ℝ) (hsz : ∀ n ∈ inT ++ outT, 0 < (rep n).size)
    (hr : ∀ n ∈ inT ++ outT, (rep n).WF ∧ ∀ i ∈ (rep n).irreps, ∃ k, i = SO2.irrep k) :
    R2ConvEquivariant (so2Space interp) so2Gen rep inT outT :=
  c66_conv _ (so2Space_grid interp) SO2.invOk _ rep inT outT (genOk_so2 interp inT outT rep hr) hne hsz
    (fun n hn => SO2.isRep_of (hr n (List.mem_append_left _ hn))) (c26_so2 rep outT fun n hn => hr n (List.mem_append_right _ hn))

/-- **C66 for `Flip2dOnR2(axis)`.** -/
theorem c66_flip (axis : ℝ) (rep : F → Repr ℤ) (hsz : ∀ n ∈ inT ++ outT, 0 < (rep n).size)
    (hr : ∀ n ∈ inT ++ outT, (rep n).WF ∧ ∀ i ∈ (rep n).irreps, ∃ k, Cyclic.irrep 2 k = some i) :
    R2ConvEquivariant (flipSpace interp axis) (flip2dGen axis) rep inT outT :=
  c66_conv _ (flipSpace_grid interp axis) (Cyclic.invOk (N := 2) (by norm_num)) _ rep inT outT (genOk_flip interp inT outT axis rep hr) hne hsz
    (fun n hn => Cyclic.isRep_of (N := 2) (by norm_num) (hr n (List.mem_append_left _ hn)))
    (c26_cyclic 2 (by norm_num) rep outT fun n hn => hr n (List.mem_append_right _ hn))

/-- **C66 for `FlipRot2dOnR2(N, axis=axis)`.** -/
theorem c66_dihedral (N : ℕ) (hN : 0 < N) (axis : ℝ) (rep : F → Repr (ℤ × ℤ)) (hsz : ∀ n ∈ inT ++ outT, 0 < (rep n).size)
    (hr : ∀ n ∈ inT ++ outT, (rep n).WF ∧ ∀ i ∈ (rep n).irreps, ∃ j k, Dihedral.irrep N j k = some i) :
    R2ConvEquivariant (flipRotSpace interp N axis) (flipRot2dGen N axis) rep inT outT :=
  c66_conv _ (flipRotSpace_grid interp N axis) (Dihedral.invOk hN) _ rep inT outT (genOk_dihedral interp inT outT N hN axis rep hr) hne hsz
    (fun n hn => Dihedral.isRep_of hN (hr n (List.mem_append_left _ hn))) (c26_dihedral N hN rep outT fun n hn => hr n (List.mem_append_right _ hn))

/-- **C66 for `FlipRot2dOnR2(-1, axis=axis)`.** -/
theorem c66_o2 (axis : ℝ) (rep : F → Repr (ℤ × ℝ)) (hsz : ∀ n ∈ inT ++ outT, 0 < (rep n).size)
    (hr : ∀ n ∈ inT ++ outT, (rep n).WF ∧ ∀ i ∈ (rep n).irreps, ∃ j k, O2.irrep j k = some i) :
    R2ConvEquivariant (o2Space interp axis) (o2Gen axis) rep inT outT :=
  c66_conv _ (o2Space_grid interp axis) O2.invOk _ rep inT outT (genOk_o2 interp inT outT axis rep hr) hne hsz
    (fun n hn => O2.isRep_of (hr n (List.mem_append_left _ hn))) (c26_o2 rep outT fun n hn => hr n (List.mem_append_right _ hn))

/-- **C66 for `TrivialOnR2()`.** -/
theorem c66_trivial (rep : F → Repr ℤ) (hsz : ∀ n ∈ inT ++ outT, 0 < (rep n).size)
    (hr : ∀ n ∈ inT ++ outT, (rep n).WF ∧ ∀ i ∈ (rep n).irreps, ∃ k, Cyclic.irrep 1 k = some i) :
    R2ConvEquivariant trivialSpace trivialGen rep inT outT :=
  c66_conv _ trivialSpace_grid (Cyclic.invOk (N := 1) (by norm_num)) _ rep inT outT (genOk_trivial inT outT rep hr) hne hsz
    (fun n hn => Cyclic.isRep_of (N := 1) (by norm_num) (hr n (List.mem_append_left _ hn)))
    (c26_cyclic 1 (by norm_num) rep outT fun n hn => hr n (List.mem_append_right _ hn))

end spaces

/-! ### Which kernel sizes can be built with the default arguments

Scalar fields over `Rot2dOnR2(-1)`, whose basis has one element for each ring. -/

/-- The trivial representation of SO(2). -/
noncomputable def so2Triv : Repr ℝ := ⟨[SO2.irrep 0], Mat.one, Mat.one⟩

/-- The basis between trivial representations. -/
noncomputable def so2TrivBasis : SBasis ℝ AngElem := ⟨[SO2.irrep 0], [SO2.irrep 0], none, none, fun i o => (contBasis i o).getD []⟩

theorem contBasis_triv : contBasis (SO2.irrep 0) (SO2.irrep 0) = some [⟨0, 0, 0, 0⟩] := by
  have hp : ¬ (π / 2 : ℝ) = 0 := by positivity
  simp [contBasis, SO2.irrep, hp]

theorem so2Triv_size : so2Triv.size = 1 := by simp [Repr.size, so2Triv, SO2.irrep]

theorem steerable_triv : steerable contBasis so2Triv so2Triv = some so2TrivBasis := by
  unfold steerable
  rw [if_pos (by
    intro i hi o ho
    obtain rfl := List.mem_singleton.1 hi
    obtain rfl := List.mem_singleton.1 ho
    rw [contBasis_triv]
    simp)]
  congr 1
  have h : MEq so2Triv.size so2Triv.size (Mat.one) Mat.one := fun _ _ _ _ => rfl
  simp only [so2Triv] at h
  simp only [so2TrivBasis, so2Triv, h, if_true]

theorem so2TrivBasis_dim : so2TrivBasis.dim = 1 := by
  simp [SBasis.dim, so2TrivBasis, contBasis_triv]

theorem so2TrivBasis_sample (φ : Option ℝ) : so2TrivBasis.sample (angSamp 0) φ 0 0 0 = 1 := by
  have h1 : (SO2.irrep 0).size = 1 := by simp [SO2.irrep]
  simp [SBasis.sample, SBasis.sampleDirectSum, SBasis.loopIn, SBasis.loopOut, so2TrivBasis, contBasis_triv, SBasis.writeBlock, SBasis.irrepSample, angSamp,
    angSample, angMat, h1, m1]

theorem so2TrivBasis_iter : so2TrivBasis.iter = [⟨SO2.irrep 0, SO2.irrep 0, 0, 0, 0, ⟨0, 0, 0, 0⟩, 0⟩] := by
  simp [SBasis.iter, SBasis.pairs, so2TrivBasis, SBasis.enum, SBasis.iterLoop, contBasis_triv]

/-- The attributes of the elements between trivial representations. -/
noncomputable def so2TrivAttr (q : (ℝ × ℝ) × ℕ) : BasisAttr ℝ := ⟨q, ⟨SO2.irrep 0, SO2.irrep 0, 0, 0, 0, ⟨0, 0, 0, 0⟩, 0⟩, q.2, q.2, 0⟩

theorem polarBasis_triv (rings : List (ℝ × ℝ)) : ∃ κ : ℕ → ℝ × ℝ → Mat,
    polarBasis 0 rings contBasis so2Triv so2Triv = some (rings.zipIdx.map fun q => (so2TrivAttr q, κ q.2)) ∧
    ∀ k (q : ℝ × ℝ), rings[k]? = some q → ∀ p, κ k p 0 0 = gaussian q.1 q.2 (radius p) := by
  refine ⟨fun k => planeKernel 0 (rings.map fun q => gaussian q.1 q.2) so2TrivBasis k, ?_, ?_⟩
  · rw [polarBasis, steerable_triv, Option.map_some]
    congr 1
    rw [polarIter, so2TrivBasis_iter, gaussianIter]
    simp only [List.map_cons, List.map_nil]
    have h1 : (rings.zipIdx.flatMap fun r => [(r, (⟨SO2.irrep 0, SO2.irrep 0, 0, 0, 0, ⟨0, 0, 0, 0⟩, 0⟩ : SBasis.Attr ℝ AngElem))]) =
        rings.zipIdx.map fun r => (r, ⟨SO2.irrep 0, SO2.irrep 0, 0, 0, 0, ⟨0, 0, 0, 0⟩, 0⟩) := by
      exact List.flatMap_pure_eq_map _ _
    rw [h1, List.map_map]
    refine List.ext_getElem? fun k => ?_
    rw [List.getElem?_map, List.getElem?_map, SBasis.enum_getElem?, List.getElem?_map, List.getElem?_zipIdx]
    cases rings[k]? with
    | none => rfl
    | some q => simp [so2TrivAttr]
  · intro k q hq p
    simp only [planeKernel, Arr3.slice, polarSample, so2TrivBasis_dim, Nat.div_one, Nat.mod_one, List.getElem?_map, hq, Option.map_some]
    rw [so2TrivBasis_sample, mul_one]

/-- The default arguments, with a kernel size, padding, stride and dilation. -/
noncomputable def defaultArgs (k p s d : ℕ) : ConvArgs ℝ := ⟨k, p, s, d, .zeros, 1, none, .inl (-1), none, none, none⟩

theorem gridCoords_centre (m d : ℕ) : gridCoords (2 * m + 1) d (m * (2 * m + 1) + m) = (0, 0) := by
  unfold gridCoords
  have h1 : (m * (2 * m + 1) + m) / (2 * m + 1) = m := by
    rw [Nat.add_comm, Nat.add_mul_div_right _ _ (by omega), Nat.div_eq_of_lt (by omega), Nat.zero_add]
  have h2 : (m * (2 * m + 1) + m) % (2 * m + 1) = m := by
    rw [Nat.add_comm, Nat.add_mul_mod_self_right, Nat.mod_eq_of_lt (by omega)]
  simp only [h1, h2]
  push_cast
  ext <;> ring

/-- **C66, the hypotheses can be met**: with odd kernel sizes and default arguments the constructor succeeds for scalar fields. -/
theorem c66_odd_sizes (m p s d : ℕ) (inT outT : List F) (hne : inT ≠ [] ∧ outT ≠ []) (hd : 0 < d) :
    ∃ M : ConvModule ℝ F, r2convInit so2Gen (defaultArgs (2 * m + 1) p s d) (fun _ => so2Triv) inT outT = some M ∧ M.dim ≠ 0 := by
  classical
  set a := defaultArgs (2 * m + 1) p s d with ha
  obtain ⟨rings, sigma, mf, hp, hlen, hsl, hs0, hmf⟩ := c52_defaults (2 * m + 1) d (by omega) (.inl (-1))
  have hr : rings = basisRings (2 * m + 1) d none ∧ sigma = basisSigma rings none := by
    unfold computeBasisParams at hp
    dsimp only at hp
    split_ifs at hp
    obtain ⟨F', -, h⟩ := Option.map_eq_some_iff.1 hp
    have h1 := (Prod.ext_iff.1 h).1
    dsimp only at h1
    exact ⟨h1.symm, by rw [← h1]; exact (Prod.ext_iff.1 (Prod.ext_iff.1 h).2).1.symm⟩
  obtain ⟨κ, hκ, hval⟩ := polarBasis_triv (rings.zip sigma)
  have hbuild : buildKernelBasis so2Gen sigma rings (some mf) none so2Triv so2Triv = some ((rings.zip sigma).zipIdx.map fun q => (so2TrivAttr q, κ q.2)) := by
    unfold buildKernelBasis
    rw [if_pos ⟨hs0, hsl⟩]
    exact hκ
  have hrings0 : rings[0]? = some 0 := by
    rw [hr.1, basisRings_default, List.getElem?_map, List.getElem?_range (by omega)]
    simp
  have hsig0 : sigma[0]? = some (0.005 : ℝ) := by
    have : 0 < rings.length := by rw [hlen]; omega
    rw [hr.2, basisSigma, List.getElem?_map, List.getElem?_range this]
    simp [List.getD, hrings0]
  have hz : (rings.zip sigma)[0]? = some ((0 : ℝ), (0.005 : ℝ)) := by
    rw [List.getElem?_zip_eq_some]
    exact ⟨hrings0, hsig0⟩
  set basis : F → F → List (BasisAttr ℝ × (ℝ × ℝ → Mat)) := fun _ _ => (rings.zip sigma).zipIdx.map fun q => (so2TrivAttr q, κ q.2) with hbasis
  have hi : FilterInput (fun _ : F => so2Triv) inT outT basis attrId := by
    refine ⟨hne.1, hne.2, fun n _ => by rw [so2Triv_size]; exact one_pos, fun n _ => by rw [so2Triv_size]; exact one_pos, fun i _ o _ => ?_⟩
    exact buildKernelBasis_ids hbuild (hr.1 ▸ basisRings_nodup _ _ hd _ (by simp))
  have hdim : ((a.cfg (cutoffFun (2 * m + 1) (.inl (-1)))).exp (fun _ => so2Triv) inT outT basis).dimension ≠ 0 := by
    have hwf := filterExp_wf hi (a.kernelSize * a.kernelSize) (gridCoords a.kernelSize a.dilation) (a.cfg (cutoffFun (2 * m + 1) (.inl (-1)))).keep
      (a.cfg (cutoffFun (2 * m + 1) (.inl (-1)))).shape0 (a.cfg (cutoffFun (2 * m + 1) (.inl (-1)))).inIdx (a.cfg (cutoffFun (2 * m + 1) (.inl (-1)))).outIdx
    obtain ⟨i, hii⟩ := List.exists_mem_of_ne_nil _ hne.1
    obtain ⟨o, hoo⟩ := List.exists_mem_of_ne_nil _ hne.2
    refine hwf.dimension_ne_zero (i := i) (o := o) hii hoo ?_
    have hmem : (((0, 0.005), 0) : (ℝ × ℝ) × ℕ) ∈ (rings.zip sigma).zipIdx := by
      refine List.mem_iff_getElem?.2 ⟨0, ?_⟩
      rw [List.getElem?_zipIdx, hz]
      rfl
    refine singleBlock_isSome (e := ⟨so2TrivAttr ((0, 0.005), 0), fun r c s => κ 0 (gridCoords a.kernelSize a.dilation s) r c⟩) ?_ ?_ ?_ ?_
    · exact List.mem_map.2 ⟨_, List.mem_map.2 ⟨_, hmem, rfl⟩, rfl⟩
    · simp [ConvArgs.cfg, ha, defaultArgs, so2TrivAttr, blFilter, cutoffFun, manualFco1]
    · simp [ConvArgs.cfg, so2TrivAttr, SO2.irrep]
    · simp only [ConvArgs.cfg, so2TrivAttr, so2Triv_size]
      have h1 : (SO2.irrep 0).size = 1 := by simp [SO2.irrep]
      rw [h1]
      unfold sqNorm
      simp only [Finset.sum_range_one, Nat.cast_one, div_one]
      have hc : m * (2 * m + 1) + m < a.kernelSize * a.kernelSize := by
        show m * (2 * m + 1) + m < (2 * m + 1) * (2 * m + 1)
        nlinarith
      refine le_trans ?_ (Finset.single_le_sum (fun q _ => sq_nonneg _) (Finset.mem_range.2 hc))
      have : κ 0 (gridCoords a.kernelSize a.dilation (m * (2 * m + 1) + m)) 0 0 = 1 := by
        rw [hval 0 _ hz]
        show gaussian 0 0.005 (radius (gridCoords (2 * m + 1) d (m * (2 * m + 1) + m))) = 1
        rw [gridCoords_centre]
        simp [gaussian, radius]
      rw [this]
      norm_num
  refine ⟨⟨a.cfg (cutoffFun (2 * m + 1) (.inl (-1))), basis, _⟩, ?_, hdim⟩
  unfold r2convInit
  have hg : convGroups a.groups inT outT = some inT := by simp [convGroups, ha, defaultArgs]
  rw [hg]
  dsimp only
  have hp' : computeBasisParams a.kernelSize a.dilation a.cutoff a.rings a.sigma = some (rings, sigma, cutoffFun (2 * m + 1) (.inl (-1)), mf) := hp
  rw [hp']
  dsimp only
  have hb' : ∀ i o : F, buildKernelBasis so2Gen sigma rings (some mf) a.maximumOffset so2Triv so2Triv = some (basis i o) := fun _ _ => hbuild
  rw [if_pos (fun i _ o _ => by rw [hb' i o]; simp)]
  have hb2 : (fun _ _ : F => (buildKernelBasis so2Gen sigma rings (some mf) a.maximumOffset so2Triv so2Triv).getD []) = basis := by
    funext i o
    rw [hb' i o]
    rfl
  rw [hb2, if_neg hdim]
  rfl

theorem exp_small (d : ℕ) (hd : 0 < d) : Real.exp (-10000 * (d : ℝ) ^ 2) ≤ 1e-9 := by
  have h1 : (1 : ℝ) ≤ (d : ℝ) ^ 2 := by
    have : (1 : ℝ) ≤ d := by exact_mod_cast hd
    nlinarith
  have h2 : Real.exp (-10000 * (d : ℝ) ^ 2) ≤ Real.exp (-(40 : ℕ)) := Real.exp_le_exp.2 (by push_cast; linarith)
  refine h2.trans ?_
  rw [Real.exp_neg, ← Real.exp_one_pow]
  have h3 : (2 : ℝ) ≤ Real.exp 1 := by have := Real.add_one_le_exp (1 : ℝ); linarith
  have h4 : (2 : ℝ) ^ 40 ≤ Real.exp 1 ^ 40 := pow_le_pow_left₀ (by norm_num) h3 40
  refine (inv_anti₀ (by positivity) h4).trans (by norm_num)

theorem radius_two (d q : ℕ) (hq : q < 2 * 2) : radius (gridCoords 2 d q) ^ 2 = (d : ℝ) ^ 2 / 2 := by
  unfold radius
  rw [Real.sq_sqrt (by positivity)]
  unfold gridCoords
  interval_cases q <;> norm_num <;> ring

/-- With `kernel_size=2` and default arguments the parameters of the basis are accepted, but no element of the basis is left after the sampling. -/
theorem size_two_empty (p s d : ℕ) (inT outT : List F) (hd : 0 < d) : ∃ rings sigma mf,
    computeBasisParams 2 d (.inl (-1)) none none = some (rings, sigma, cutoffFun 2 (.inl (-1)), mf) ∧
    buildKernelBasis so2Gen sigma rings (some mf) none so2Triv so2Triv ≠ none ∧
    (((defaultArgs 2 p s d).cfg (cutoffFun 2 (.inl (-1)))).exp (fun _ => so2Triv) inT outT
      fun _ _ => (buildKernelBasis so2Gen sigma rings (some mf) none so2Triv so2Triv).getD []).pairs = [] := by
  classical
  set a := defaultArgs 2 p s d with ha
  obtain ⟨rings, sigma, mf, hp, hlen, hsl, hs0, hmf⟩ := c52_defaults 2 d (by omega) (.inl (-1))
  have hr : rings = basisRings 2 d none ∧ sigma = basisSigma rings none := by
    unfold computeBasisParams at hp
    dsimp only at hp
    split_ifs at hp
    obtain ⟨F', -, h⟩ := Option.map_eq_some_iff.1 hp
    have h1 := (Prod.ext_iff.1 h).1
    dsimp only at h1
    exact ⟨h1.symm, by rw [← h1]; exact (Prod.ext_iff.1 (Prod.ext_iff.1 h).2).1.symm⟩
  have hrings : rings = [0] := by rw [hr.1, basisRings_default]; simp
  have hsig : sigma = [0.005] := by rw [hr.2, hrings]; simp [basisSigma]
  obtain ⟨κ, hκ, hval⟩ := polarBasis_triv (rings.zip sigma)
  have hbuild : buildKernelBasis so2Gen sigma rings (some mf) none so2Triv so2Triv = some ((rings.zip sigma).zipIdx.map fun q => (so2TrivAttr q, κ q.2)) := by
    unfold buildKernelBasis
    rw [if_pos ⟨hs0, hsl⟩]
    exact hκ
  have hv : ∀ q < 2 * 2, κ 0 (gridCoords 2 d q) 0 0 = Real.exp (-10000 * (d : ℝ) ^ 2) := by
    intro q hq
    rw [hval 0 (0, 0.005) (by rw [hrings, hsig]; rfl), gaussian]
    congr 1
    have := radius_two d q hq
    rw [zero_sub, neg_sq, this]
    ring
  have hsq : sqNorm 1 1 (2 * 2) (fun r c q => κ 0 (gridCoords 2 d q) r c) ≤ 4 * (1e-9) ^ 2 := by
    unfold sqNorm
    simp only [Finset.sum_range_one]
    have h9 := exp_small d hd
    have h0 := (Real.exp_pos (-10000 * (d : ℝ) ^ 2)).le
    have hb : ∀ q ∈ range (2 * 2), κ 0 (gridCoords 2 d q) 0 0 ^ 2 ≤ (1e-9 : ℝ) ^ 2 := fun q hq => by
      rw [hv q (Finset.mem_range.1 hq)]
      exact pow_le_pow_left₀ h0 h9 2
    refine (Finset.sum_le_sum hb).trans ?_
    simp
  have hb' : buildKernelBasis so2Gen sigma rings (some mf) none so2Triv so2Triv = some [(so2TrivAttr ((0, 0.005), 0), κ 0)] := by
    rw [hbuild, hrings, hsig]
    rfl
  refine ⟨rings, sigma, mf, hp, by rw [hb']; simp, ?_⟩
  have hgen : ∀ i o : F, ((a.cfg (cutoffFun 2 (.inl (-1)))).exp (fun _ => so2Triv) inT outT
      fun _ _ => (buildKernelBasis so2Gen sigma rings (some mf) none so2Triv so2Triv).getD []).gen i o = none := by
    intro i o
    rw [hb']
    show singleBlock so2Triv.size so2Triv.size (2 * 2) _ _ _ = none
    rw [so2Triv_size]
    unfold singleBlock
    dsimp only [Option.getD_some, List.map_cons, List.map_nil]
    have hkeep : (a.cfg (cutoffFun 2 (.inl (-1)))).keep (so2TrivAttr ((0, 0.005), 0)) = true := by
      simp [ConvArgs.cfg, ha, defaultArgs, so2TrivAttr, blFilter, cutoffFun, manualFco1]
    rw [List.map_cons, List.map_nil, List.filter_cons_of_pos (by exact hkeep), List.filter_nil, if_neg (by simp), if_pos]
    rw [List.map_cons, List.map_nil, List.filter_cons_of_neg, List.filter_nil]
    rw [decide_eq_true_eq, not_lt]
    have hone : elemNorm 1 1 (2 * 2) ((a.cfg (cutoffFun 2 (.inl (-1)))).shape0 (so2TrivAttr ((0, 0.005), 0))) (fun r c q => κ 0 (gridCoords 2 d q) r c) = 1 := by
      have h1 : (a.cfg (cutoffFun 2 (.inl (-1)))).shape0 (so2TrivAttr ((0, 0.005), 0)) = 1 := by simp [ConvArgs.cfg, so2TrivAttr, SO2.irrep]
      rw [h1]
      unfold elemNorm
      have h2 : (∑ s ∈ range (2 * 2), ∑ o ∈ range 1, ∑ p ∈ range 1, κ 0 (gridCoords 2 d s) o p * κ 0 (gridCoords 2 d s) o p) / ((1 : ℕ) : ℝ) < 1e-15 := by
        have h3 : (∑ s ∈ range (2 * 2), ∑ o ∈ range 1, ∑ p ∈ range 1, κ 0 (gridCoords 2 d s) o p * κ 0 (gridCoords 2 d s) o p) =
            sqNorm 1 1 (2 * 2) (fun r c q => κ 0 (gridCoords 2 d q) r c) := by
          unfold sqNorm
          simp only [Finset.sum_range_one]
          exact Finset.sum_congr rfl fun q _ => by ring
        rw [h3, Nat.cast_one, div_one]
        exact hsq.trans_lt (by norm_num)
      dsimp only
      rw [if_pos h2, Real.sqrt_zero, if_pos (by norm_num)]
    have h4 : normalizeElem 1 1 (2 * 2) ((a.cfg (cutoffFun 2 (.inl (-1)))).shape0 (so2TrivAttr ((0, 0.005), 0))) (fun r c q => κ 0 (gridCoords 2 d q) r c) =
        fun r c q => κ 0 (gridCoords 2 d q) r c := by
      unfold normalizeElem
      rw [hone]
      simp
    exact (congrArg (sqNorm 1 1 (2 * 2)) h4).le.trans (hsq.trans (by norm_num))
  refine List.eq_nil_iff_forall_not_mem.2 fun q hq => ?_
  have := ((Exp.mem_pairs _ _).1 hq).2.2
  rw [hgen] at this
  simp at this

/-- **C66, the size which can not be built**: with `kernel_size=2` and default arguments the constructor raises, whatever the padding, stride and dilation:
the only ring has radius 0 and width 0.005, no sample is closer than `d / √2`, so the only element is discarded. -/
theorem c66_size_two (p s d : ℕ) (inT outT : List F) (hd : 0 < d) :
    r2convInit so2Gen (defaultArgs 2 p s d) (fun _ => so2Triv) inT outT = none := by
  classical
  obtain ⟨rings, sigma, mf, hp, hb, hpairs⟩ := size_two_empty p s d inT outT hd
  unfold r2convInit
  have hg : convGroups (defaultArgs 2 p s d).groups inT outT = some inT := by simp [convGroups, defaultArgs]
  rw [hg]
  dsimp only
  have hp' : computeBasisParams (defaultArgs 2 p s d).kernelSize (defaultArgs 2 p s d).dilation (defaultArgs 2 p s d).cutoff (defaultArgs 2 p s d).rings
      (defaultArgs 2 p s d).sigma = some (rings, sigma, cutoffFun 2 (.inl (-1)), mf) := hp
  rw [hp']
  dsimp only
  rw [if_pos (by intro i _ o _; exact hb), if_pos]
  have hpairs' : (((defaultArgs 2 p s d).cfg (cutoffFun 2 (.inl (-1)))).exp (fun _ => so2Triv) inT outT
      fun _ _ => (buildKernelBasis so2Gen sigma rings (some mf) (defaultArgs 2 p s d).maximumOffset so2Triv so2Triv).getD []).pairs = [] := hpairs
  simp only [Exp.dimension, Exp.basisToIds, hpairs', List.flatMap_nil, List.dedup_nil, List.length_nil]

/-- A layer of C66 built with the default arguments, from scalar fields to scalar fields, commutes with the rotations by multiples of `π / 2`. -/
example (interp : ℝ → Img → Img) (m : ℕ) : ∃ M : ConvModule ℝ ℕ, r2convInit so2Gen (defaultArgs (2 * m + 1) m 1 1) (fun _ => so2Triv) [0, 1] [0] = some M ∧
    0 < M.dim ∧ ∀ (w b : List ℝ) (n : ℕ), 0 < n → w.length = M.dim → ∃ layer : Fmap → Fmap, (∀ x, M.forward (fun _ => so2Triv) [0, 1] [0] w b n x = some (layer x)) ∧
      ∀ g, Quarter g → ∀ x,
        FEq 1 n (layer (fieldAct 2 (typeMat (fun _ => so2Triv) [0, 1] g) ((so2Space interp).base n g) x))
          (fieldAct 1 (typeMat (fun _ => so2Triv) [0] g) ((so2Space interp).base n g) (layer x)) := by
  obtain ⟨M, hM, hdim⟩ := c66_odd_sizes (F := ℕ) m m 1 1 [0, 1] [0] (by simp) one_pos
  refine ⟨M, hM, Nat.pos_of_ne_zero hdim, fun w b n hn hw => ?_⟩
  obtain ⟨layer, h1, h2⟩ := c66_so2 interp [0, 1] [0] (by simp) (fun _ : ℕ => so2Triv) (fun n _ => by rw [so2Triv_size]; exact one_pos)
    (fun n _ => ⟨IsInv.one _, fun i hi => ⟨0, List.mem_singleton.1 hi⟩⟩) _ M hM (by simp [defaultArgs]) one_pos one_pos w b n n hw trivial
    (by show convSize n m (2 * m + 1) 1 1 = _; unfold convSize; rw [if_pos (by omega)]; congr 1; omega) (one_dvd _)
  refine ⟨layer, h1, fun g hg x => ?_⟩
  have := h2 g trivial hg x
  simpa [typeSize, so2Triv_size] using this

end E2
