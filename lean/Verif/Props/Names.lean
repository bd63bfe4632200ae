import Verif.Lemmas.Names
import Verif.Props.OneByOne
import Verif.Props.DirectSum

/-!
# C80: convolutions between types in which representations share their names
-/

set_option linter.unusedSectionVars false

namespace E2

open Finset Mat Real

variable {El F : Type} [LinearOrder F]

/-- What the constructor computes. -/
theorem r2convInit_some {G : KernelGen El} {a : ConvArgs El} {rep : F → Repr El} {inT outT inG : List F} (hg : convGroups a.groups inT outT = some inG) {M : ConvModule El F}
    (hM : r2convInit G a rep inT outT = some M) :
    ∃ rings sigma fco mf, computeBasisParams a.kernelSize a.dilation a.cutoff a.rings a.sigma = some (rings, sigma, fco, mf) ∧
      (∀ i ∈ inG, ∀ o ∈ outT, buildKernelBasis G sigma rings (some mf) a.maximumOffset (rep i) (rep o) ≠ none) ∧
      M.cfg = a.cfg fco ∧ M.basis = (fun i o => (buildKernelBasis G sigma rings (some mf) a.maximumOffset (rep i) (rep o)).getD []) ∧
      M.dim = (M.cfg.exp rep inG outT M.basis).dimension ∧ M.dim ≠ 0 := by
  classical
  unfold r2convInit at hM
  rw [hg] at hM
  dsimp only at hM
  cases hp : computeBasisParams a.kernelSize a.dilation a.cutoff a.rings a.sigma with
  | none => rw [hp] at hM; exact absurd hM (by simp)
  | some q =>
    obtain ⟨rings, sigma, fco, mf⟩ := q
    rw [hp] at hM
    dsimp only at hM
    split_ifs at hM with h2 h3
    obtain rfl := Option.some.inj hM
    exact ⟨rings, sigma, fco, mf, rfl, h2, rfl, rfl, rfl, h3⟩

/-- The layer for types with names is the layer for the representations `rep`, if the expansions agree. -/
theorem named_layer {G : KernelGen El} {a : ConvArgs El} {rep : F → Repr El} {inT outT inG ins outs : List (NRep El F)} {M : ConvModule El F}
    (hg : convGroups a.groups inT outT = some inG)
    (hgn : convGroups a.groups (inT.map NRep.name) (outT.map NRep.name) = some (inG.map NRep.name))
    (hM : r2convInit G a rep (inT.map NRep.name) (outT.map NRep.name) = some M)
    (hins : ∀ rings sigma mf, (∀ i ∈ inG, ∀ o ∈ outT, buildKernelBasis G sigma rings (some mf) a.maximumOffset (rep i.name) (rep o.name) ≠ none) →
      computeBasisParams a.kernelSize a.dilation a.cutoff a.rings a.sigma = some (rings, sigma, cutoffFun a.kernelSize a.cutoff, mf) →
      ∀ i ∈ ins, ∀ o ∈ outs, buildKernelBasis G sigma rings (some mf) a.maximumOffset i.rep o.rep ≠ none)
    (hagree : ∀ rings sigma fco mf, computeBasisParams a.kernelSize a.dilation a.cutoff a.rings a.sigma = some (rings, sigma, fco, mf) →
      Exp.Agree (namedExp inG outT ins outs (a.kernelSize * a.kernelSize) (gridCoords a.kernelSize a.dilation)
        (fun ri ro => (buildKernelBasis G sigma rings (some mf) a.maximumOffset ri ro).getD []) (a.cfg fco).keep (a.cfg fco).shape0 attrId
        (a.cfg fco).inIdx (a.cfg fco).outIdx) (M.cfg.exp rep (inG.map NRep.name) (outT.map NRep.name) M.basis))
    (hin : ∀ f ∈ inG, (rep f.name).size = f.rep.size) (hout : ∀ f ∈ outT, rep f.name = f.rep)
    (hk : ins.length * outs.length = (M.cfg.exp rep (inG.map NRep.name) (outT.map NRep.name) M.basis).nPairs ∨
      (ins.length * outs.length ≠ 1 ∧ (M.cfg.exp rep (inG.map NRep.name) (outT.map NRep.name) M.basis).nPairs ≠ 1)) :
    ∃ N, namedConvInit G a inT outT ins outs = some N ∧ N.exp.dimension = M.dim ∧
      ∀ w b n x, N.forward inT outT w b n x = M.forward rep (inT.map NRep.name) (outT.map NRep.name) w b n x := by
  classical
  obtain ⟨rings, sigma, fco, mf, hp, hall, hcfg, hbas, hdim, hd⟩ := r2convInit_some hgn hM
  have hfco : fco = cutoffFun a.kernelSize a.cutoff := by
    unfold computeBasisParams at hp
    dsimp only at hp
    split_ifs at hp
    obtain ⟨F', -, h⟩ := Option.map_eq_some_iff.1 hp
    exact (Prod.ext_iff.1 (Prod.ext_iff.1 (Prod.ext_iff.1 h).2).2).1.symm
  have hA := hagree rings sigma fco mf hp
  have hall' := hins rings sigma mf (fun i hi o ho => hall _ (List.mem_map_of_mem hi) _ (List.mem_map_of_mem ho)) (by rw [hp, hfco])
  have e1 : (namedExp inG outT ins outs (a.kernelSize * a.kernelSize) (gridCoords a.kernelSize a.dilation)
        (fun ri ro => (buildKernelBasis G sigma rings (some mf) a.maximumOffset ri ro).getD []) (a.cfg fco).keep (a.cfg fco).shape0 attrId
        (a.cfg fco).inIdx (a.cfg fco).outIdx).dimension = M.dim := hA.dimension.trans hdim.symm
  refine ⟨⟨a.cfg fco, namedExp inG outT ins outs (a.kernelSize * a.kernelSize) (gridCoords a.kernelSize a.dilation)
        (fun ri ro => (buildKernelBasis G sigma rings (some mf) a.maximumOffset ri ro).getD []) (a.cfg fco).keep (a.cfg fco).shape0 attrId
        (a.cfg fco).inIdx (a.cfg fco).outIdx, ins.length * outs.length⟩, ?_, e1, fun w b n x => ?_⟩
  · unfold namedConvInit
    rw [hg]
    dsimp only
    rw [hp]
    dsimp only
    rw [if_pos hall']
    exact if_neg (by
      show (namedExp inG outT ins outs (a.kernelSize * a.kernelSize) (gridCoords a.kernelSize a.dilation)
        (fun ri ro => (buildKernelBasis G sigma rings (some mf) a.maximumOffset ri ro).getD []) (a.cfg fco).keep (a.cfg fco).shape0 attrId
        (a.cfg fco).inIdx (a.cfg fco).outIdx).dimension ≠ 0
      rw [e1]
      exact hd)
  · unfold NamedConv.forward ConvModule.forward r2conv
    have h1 : convGroups M.cfg.groups (inT.map NRep.name) (outT.map NRep.name) = some (inG.map NRep.name) := by rw [hcfg]; exact hgn
    rw [h1]
    have h1' : convGroups (a.cfg fco).groups inT outT = some inG := hg
    dsimp only
    rw [h1']
    dsimp only
    rw [hA.forwardWith]
    have h2 : (M.cfg.exp rep (inG.map NRep.name) (outT.map NRep.name) M.basis).forwardWith (ins.length * outs.length) w =
        (M.cfg.exp rep (inG.map NRep.name) (outT.map NRep.name) M.basis).forward w := by
      rcases hk with hk | ⟨k1, k2⟩
      · rw [hk]; rfl
      · exact Exp.forwardWith_of_ne _ k1 k2 w
    rw [h2]
    have s1 : typeSize (fun m => (rep m).size) (inG.map NRep.name) = typeSize (fun f => f.rep.size) inG := by
      unfold typeSize
      rw [List.map_map]
      exact congrArg List.sum (List.map_congr_left hin)
    have s2 : typeSize (fun m => (rep m).size) (outT.map NRep.name) = typeSize (fun f => f.rep.size) outT := by
      unfold typeSize
      rw [List.map_map]
      exact congrArg List.sum (List.map_congr_left fun f hf => congrArg Repr.size (hout f hf))
    have s3 : outBias rep (outT.map NRep.name) b = outBias NRep.rep outT b := by
      unfold outBias
      rw [List.map_map]
      exact congrArg (fun l => expandBias (biasCols 0 l) b) (List.map_congr_left hout)
    rw [s1, s2, s3, hcfg]
    cases ((a.cfg fco).exp rep (inG.map NRep.name) (outT.map NRep.name) M.basis).forward w <;> rfl

/-- **C80** (`_partial`): if the names of the fields of the two types determine their representations, the layer built from the dictionaries indexed by names is
the one of C66 and C78, with any number of groups, in whatever order the sets of representations are visited. -/
theorem c80_names_partial (G : KernelGen El) (a : ConvArgs El) (rep : F → Repr El) (inT outT ins outs : List (NRep El F))
    (hn : NamesDetermine rep inT outT) (hi : UniqueOf ins inT) (ho : UniqueOf outs outT) (M : ConvModule El F)
    (hM : r2convInit G a rep (inT.map NRep.name) (outT.map NRep.name) = some M) :
    ∃ N, namedConvInit G a inT outT ins outs = some N ∧ N.exp.dimension = M.dim ∧
      ∀ w b n x, N.forward inT outT w b n x = M.forward rep (inT.map NRep.name) (outT.map NRep.name) w b n x := by
  cases hg : convGroups a.groups inT outT with
  | none =>
    unfold r2convInit at hM
    rw [hn.convGroups, hg] at hM
    exact absurd hM (by simp)
  | some inG =>
  have hgn := hn.convGroups a.groups
  rw [hg, Option.map_some] at hgn
  replace hi := hi.group hg
  replace hn := hn.group hg
  refine named_layer hg hgn hM ?_ ?_ (fun f hf => congrArg Repr.size (hn f (List.mem_append_left _ hf))) (fun f hf => hn f (List.mem_append_right _ hf)) (Or.inl ?_)
  · intro rings sigma mf hall hp i hi' o ho'
    have h1 := hall i ((hi.2 i).1 hi') o ((ho.2 o).1 ho')
    rwa [hn i (List.mem_append_left _ ((hi.2 i).1 hi')), hn o (List.mem_append_right _ ((ho.2 o).1 ho'))] at h1
  · intro rings sigma fco mf hp
    obtain ⟨rings', sigma', fco', mf', hp', -, hcfg, hbas, -⟩ := r2convInit_some hgn hM
    obtain ⟨rfl, h⟩ := Prod.ext_iff.1 (Option.some.inj (hp.symm.trans hp'))
    obtain ⟨rfl, h⟩ := Prod.ext_iff.1 h
    obtain ⟨rfl, rfl⟩ := Prod.ext_iff.1 h
    dsimp only at hcfg hbas
    rw [hcfg, hbas]
    exact hn.agree hi ho _ _ _ _ _ _ _ _
  · show ins.length * outs.length = (inG.map NRep.name).dedup.length * (outT.map NRep.name).dedup.length
    rw [hn.length (fun f hf => List.mem_append_left _ hf) hi, hn.length (fun f hf => List.mem_append_right _ hf) ho]

/-- If the layer of C66 cannot be built then neither can the one for types with names. -/
theorem named_none {G : KernelGen El} {a : ConvArgs El} {rep : F → Repr El} {inT outT ins outs : List (NRep El F)}
    (hn : NamesDetermine rep inT outT) (hi : UniqueOf ins inT) (ho : UniqueOf outs outT)
    (hM : r2convInit G a rep (inT.map NRep.name) (outT.map NRep.name) = none) : namedConvInit G a inT outT ins outs = none := by
  classical
  unfold namedConvInit
  cases hg : convGroups a.groups inT outT with
  | none => rfl
  | some inG =>
  have hgn := hn.convGroups a.groups
  rw [hg, Option.map_some] at hgn
  replace hi := hi.group hg
  replace hn := hn.group hg
  unfold r2convInit at hM
  rw [hgn] at hM
  dsimp only at hM ⊢
  cases hp : computeBasisParams a.kernelSize a.dilation a.cutoff a.rings a.sigma with
  | none => rfl
  | some q =>
    obtain ⟨rings, sigma, fco, mf⟩ := q
    rw [hp] at hM
    dsimp only at hM ⊢
    by_cases hall : ∀ i ∈ ins, ∀ o ∈ outs, buildKernelBasis G sigma rings (some mf) a.maximumOffset i.rep o.rep ≠ none
    · rw [if_pos hall]
      have hall' : ∀ i ∈ inG.map NRep.name, ∀ o ∈ outT.map NRep.name, buildKernelBasis G sigma rings (some mf) a.maximumOffset (rep i) (rep o) ≠ none := by
        intro i hi' o ho'
        obtain ⟨f, hf, rfl⟩ := List.mem_map.1 hi'
        obtain ⟨q, hq, rfl⟩ := List.mem_map.1 ho'
        rw [hn f (List.mem_append_left _ hf), hn q (List.mem_append_right _ hq)]
        exact hall f ((hi.2 f).2 hf) q ((ho.2 q).2 hq)
      rw [if_pos hall'] at hM
      split_ifs at hM with hd
      have := (hn.agree hi ho ((a.cfg fco).k * (a.cfg fco).k) (gridCoords (a.cfg fco).k (a.cfg fco).d)
        (fun ri ro => (buildKernelBasis G sigma rings (some mf) a.maximumOffset ri ro).getD []) (a.cfg fco).keep (a.cfg fco).shape0 (a.cfg fco).ident
        (a.cfg fco).inIdx (a.cfg fco).outIdx).dimension
      exact if_pos (this.trans hd)
    · rw [if_neg hall]

/-- In every type in which fields of the same name have the same representation, the names determine the representations. -/
theorem exists_namesOk (inT outT : List (NRep El F)) (h : ∀ f ∈ inT ++ outT, ∀ q ∈ inT ++ outT, f.name = q.name → f.rep = q.rep) :
    ∃ rep : F → Repr El, NamesDetermine rep inT outT := by
  refine ⟨fun n => ((inT ++ outT).find? fun f => f.name = n).elim ⟨[], Mat.one, Mat.one⟩ NRep.rep, fun f hf => ?_⟩
  dsimp only
  cases he : (inT ++ outT).find? fun q => q.name = f.name with
  | none => exact absurd (List.find?_eq_none.1 he f hf) (by simp)
  | some q => exact h q (List.mem_of_find?_eq_some he) f hf (by simpa using List.find?_some he)

/-- The claim for one space: whatever the arguments and the order in which the sets of representations are visited, if the constructor succeeds then the layer
accepts every weights, biases and images and commutes with the elements of the group which permute the pixels. -/
def NamedEquivariant (Sp : Space El) (G : KernelGen El) (inT outT : List (NRep El F)) : Prop :=
  ∀ (a : ConvArgs El) (ins outs : List (NRep El F)) (N : NamedConv El F), 0 < a.groups → UniqueOf ins inT → UniqueOf outs outT →
    namedConvInit G a inT outT ins outs = some N → (∀ l, a.rings = some l → l.Nodup) → 0 < a.dilation →
    ∀ (w b : List ℝ) (n m : ℕ), w.length = N.exp.dimension → padOk a.paddingMode n a.padding → convSize n a.padding a.kernelSize a.stride a.dilation = some m →
    a.stride ∣ n + 2 * a.padding - a.dilation * (a.kernelSize - 1) - 1 →
    ∃ layer : Fmap → Fmap, (∀ x, N.forward inT outT w b n x = some (layer x)) ∧
      ∀ g, Sp.G.isEl g → Sp.grid g → ∀ x,
        FEq (typeSize (fun f => f.rep.size) outT) m
          (layer (fieldAct (typeSize (fun f => f.rep.size) inT) (typeMat NRep.rep inT g) (Sp.base n g) x))
          (fieldAct (typeSize (fun f => f.rep.size) outT) (typeMat NRep.rep outT g) (Sp.base m g) (layer x))

theorem NamesDetermine.equivariant {Sp : Space El} {G : KernelGen El} {inT outT : List (NRep El F)} {rep : F → Repr El} (hn : NamesDetermine rep inT outT)
    (h : R2ConvEquivariant Sp G rep (inT.map NRep.name) (outT.map NRep.name)) : NamedEquivariant Sp G inT outT := by
  intro a ins outs N hg hi ho hN hrings hd w b n m hw hpad hm hdiv
  cases hM : r2convInit G a rep (inT.map NRep.name) (outT.map NRep.name) with
  | none => rw [named_none hn hi ho hM] at hN; exact absurd hN (by simp)
  | some M =>
    obtain ⟨N', hN', hdim, hf⟩ := c80_names_partial G a rep inT outT ins outs hn hi ho M hM
    obtain rfl := Option.some.inj (hN.symm.trans hN')
    obtain ⟨layer, h1, h2⟩ := h a M hM hrings hg hd w b n m (by rw [hw, hdim]) hpad hm hdiv
    refine ⟨layer, fun x => (hf w b n x).trans (h1 x), fun g hg hgr x => ?_⟩
    have e : ∀ t : List (NRep El F), (∀ f ∈ t, f ∈ inT ++ outT) → typeSize (fun m => (rep m).size) (t.map NRep.name) = typeSize (fun f => f.rep.size) t ∧
        typeMat rep (t.map NRep.name) = typeMat NRep.rep t := by
      intro t ht
      constructor
      · unfold typeSize
        rw [List.map_map]
        exact congrArg List.sum (List.map_congr_left fun f hf => congrArg Repr.size (hn f (ht f hf)))
      · funext g
        unfold typeMat
        rw [List.map_map]
        refine congrArg bdiag (List.map_congr_left fun f hf => ?_)
        show ((rep f.name).size, (rep f.name).mat g) = _
        rw [hn f (ht f hf)]
    have := h2 g hg hgr x
    rwa [(e inT fun f hf => List.mem_append_left _ hf).1, (e inT fun f hf => List.mem_append_left _ hf).2,
      (e outT fun f hf => List.mem_append_right _ hf).1, (e outT fun f hf => List.mem_append_right _ hf).2] at this

/-- From representations to names. -/
theorem named_of {Sp : Space El} {G : KernelGen El} {inT outT : List (NRep El F)} {P : Repr El → Prop}
    (hname : ∀ f ∈ inT ++ outT, ∀ q ∈ inT ++ outT, f.name = q.name → f.rep = q.rep) (hsz : ∀ f ∈ inT ++ outT, 0 < f.rep.size)
    (hr : ∀ f ∈ inT ++ outT, P f.rep)
    (h : ∀ rep : F → Repr El, (∀ n ∈ inT.map NRep.name ++ outT.map NRep.name, 0 < (rep n).size) → (∀ n ∈ inT.map NRep.name ++ outT.map NRep.name, P (rep n)) →
      R2ConvEquivariant Sp G rep (inT.map NRep.name) (outT.map NRep.name)) : NamedEquivariant Sp G inT outT := by
  obtain ⟨rep, hn⟩ := exists_namesOk inT outT hname
  have hmem : ∀ n ∈ inT.map NRep.name ++ outT.map NRep.name, ∃ f ∈ inT ++ outT, rep n = f.rep := by
    intro n hnn
    rw [← List.map_append] at hnn
    obtain ⟨f, hf, rfl⟩ := List.mem_map.1 hnn
    exact ⟨f, hf, hn f hf⟩
  refine hn.equivariant (h rep (fun n hnn => ?_) fun n hnn => ?_)
  · obtain ⟨f, hf, e⟩ := hmem n hnn
    rw [e]
    exact hsz f hf
  · obtain ⟨f, hf, e⟩ := hmem n hnn
    rw [e]
    exact hr f hf

/-- **C80 for `TrivialOnR2`** (`_partial`): if fields of the same name have the same representation then the layer is equivariant for the representations of
the fields. -/
theorem c80_trivial_partial (inT outT : List (NRep ℤ F)) (hne : inT ≠ [] ∧ outT ≠ [])
    (hname : ∀ f ∈ inT ++ outT, ∀ q ∈ inT ++ outT, f.name = q.name → f.rep = q.rep) (hsz : ∀ f ∈ inT ++ outT, 0 < f.rep.size)
    (hr : ∀ f ∈ inT ++ outT, f.rep.WF ∧ ∀ i ∈ f.rep.irreps, ∃ k, Cyclic.irrep 1 k = some i) :
    NamedEquivariant trivialSpace trivialGen inT outT :=
  named_of (P := fun r => r.WF ∧ ∀ i ∈ r.irreps, ∃ k, Cyclic.irrep 1 k = some i) hname hsz hr fun rep h1 h2 =>
    c66_trivial _ _ ⟨by simpa using hne.1, by simpa using hne.2⟩ rep h1 h2

/-- **C80 for `Rot2dOnR2(N)`** (`_partial`): if fields of the same name have the same representation then the layer is equivariant for the representations of
the fields. -/
theorem c80_cyclic_partial (interp : ℝ → Img → Img) (N : ℕ) (hN : 0 < N) (inT outT : List (NRep ℤ F)) (hne : inT ≠ [] ∧ outT ≠ [])
    (hname : ∀ f ∈ inT ++ outT, ∀ q ∈ inT ++ outT, f.name = q.name → f.rep = q.rep) (hsz : ∀ f ∈ inT ++ outT, 0 < f.rep.size)
    (hr : ∀ f ∈ inT ++ outT, f.rep.WF ∧ ∀ i ∈ f.rep.irreps, ∃ k, Cyclic.irrep N k = some i) :
    NamedEquivariant (rotSpace interp N) (rot2dGen N) inT outT :=
  named_of (P := fun r => r.WF ∧ ∀ i ∈ r.irreps, ∃ k, Cyclic.irrep N k = some i) hname hsz hr fun rep h1 h2 =>
    c66_cyclic interp _ _ ⟨by simpa using hne.1, by simpa using hne.2⟩ N hN rep h1 h2

/-- **C80 for `Rot2dOnR2(-1)`** (`_partial`): if fields of the same name have the same representation then the layer is equivariant for the representations of
the fields. -/
theorem c80_so2_partial (interp : ℝ → Img → Img) (inT outT : List (NRep ℝ F)) (hne : inT ≠ [] ∧ outT ≠ [])
    (hname : ∀ f ∈ inT ++ outT, ∀ q ∈ inT ++ outT, f.name = q.name → f.rep = q.rep) (hsz : ∀ f ∈ inT ++ outT, 0 < f.rep.size)
    (hr : ∀ f ∈ inT ++ outT, f.rep.WF ∧ ∀ i ∈ f.rep.irreps, ∃ k, i = SO2.irrep k) :
    NamedEquivariant (so2Space interp) so2Gen inT outT :=
  named_of (P := fun r => r.WF ∧ ∀ i ∈ r.irreps, ∃ k, i = SO2.irrep k) hname hsz hr fun rep h1 h2 =>
    c66_so2 interp _ _ ⟨by simpa using hne.1, by simpa using hne.2⟩ rep h1 h2

/-- **C80 for `Flip2dOnR2`** (`_partial`): if fields of the same name have the same representation then the layer is equivariant for the representations of
the fields. -/
theorem c80_flip_partial (interp : ℝ → Img → Img) (axis : ℝ) (inT outT : List (NRep ℤ F)) (hne : inT ≠ [] ∧ outT ≠ [])
    (hname : ∀ f ∈ inT ++ outT, ∀ q ∈ inT ++ outT, f.name = q.name → f.rep = q.rep) (hsz : ∀ f ∈ inT ++ outT, 0 < f.rep.size)
    (hr : ∀ f ∈ inT ++ outT, f.rep.WF ∧ ∀ i ∈ f.rep.irreps, ∃ k, Cyclic.irrep 2 k = some i) :
    NamedEquivariant (flipSpace interp axis) (flip2dGen axis) inT outT :=
  named_of (P := fun r => r.WF ∧ ∀ i ∈ r.irreps, ∃ k, Cyclic.irrep 2 k = some i) hname hsz hr fun rep h1 h2 =>
    c66_flip interp _ _ ⟨by simpa using hne.1, by simpa using hne.2⟩ axis rep h1 h2

/-- **C80 for `FlipRot2dOnR2(N)`** (`_partial`): if fields of the same name have the same representation then the layer is equivariant for the representations of
the fields. -/
theorem c80_dihedral_partial (interp : ℝ → Img → Img) (N : ℕ) (hN : 0 < N) (axis : ℝ) (inT outT : List (NRep (ℤ × ℤ) F)) (hne : inT ≠ [] ∧ outT ≠ [])
    (hname : ∀ f ∈ inT ++ outT, ∀ q ∈ inT ++ outT, f.name = q.name → f.rep = q.rep) (hsz : ∀ f ∈ inT ++ outT, 0 < f.rep.size)
    (hr : ∀ f ∈ inT ++ outT, f.rep.WF ∧ ∀ i ∈ f.rep.irreps, ∃ j k, Dihedral.irrep N j k = some i) :
    NamedEquivariant (flipRotSpace interp N axis) (flipRot2dGen N axis) inT outT :=
  named_of (P := fun r => r.WF ∧ ∀ i ∈ r.irreps, ∃ j k, Dihedral.irrep N j k = some i) hname hsz hr fun rep h1 h2 =>
    c66_dihedral interp _ _ ⟨by simpa using hne.1, by simpa using hne.2⟩ N hN axis rep h1 h2

/-- **C80 for `FlipRot2dOnR2(-1)`** (`_partial`): if fields of the same name have the same representation then the layer is equivariant for the representations of
the fields. -/
theorem c80_o2_partial (interp : ℝ → Img → Img) (axis : ℝ) (inT outT : List (NRep (ℤ × ℝ) F)) (hne : inT ≠ [] ∧ outT ≠ [])
    (hname : ∀ f ∈ inT ++ outT, ∀ q ∈ inT ++ outT, f.name = q.name → f.rep = q.rep) (hsz : ∀ f ∈ inT ++ outT, 0 < f.rep.size)
    (hr : ∀ f ∈ inT ++ outT, f.rep.WF ∧ ∀ i ∈ f.rep.irreps, ∃ j k, O2.irrep j k = some i) :
    NamedEquivariant (o2Space interp axis) (o2Gen axis) inT outT :=
  named_of (P := fun r => r.WF ∧ ∀ i ∈ r.irreps, ∃ j k, O2.irrep j k = some i) hname hsz hr fun rep h1 h2 =>
    c66_o2 interp _ _ ⟨by simpa using hne.1, by simpa using hne.2⟩ axis rep h1 h2

/-! ## Two direct sums with the same name -/

/-- The irreps 0 and 1 of `C_2` (cyclicgroup.py:237-288). -/
noncomputable def c2Irrep (k : ℕ) : Irrep ℤ :=
  { size := 1, socs := 1, mat := fun e => m1 (if k = 0 then 1 else cos (k * e * (2 * π / 2))), freq := k, flip := 0 }

theorem c2Irrep_eq (k : ℕ) (hk : k < 2) : Cyclic.irrep 2 k = some (c2Irrep k) := by
  interval_cases k
  · simp [Cyclic.irrep, c2Irrep]
  · simp [Cyclic.irrep, c2Irrep, Cyclic.order, Cyclic.elements]

/-- The irreps as representations with their names (cyclicgroup.py:203-222, 237-288). -/
noncomputable def c2Field (k : ℕ) : NRep ℤ String := ⟨"irrep_" ++ toString k, ⟨[c2Irrep k], Mat.one, Mat.one⟩⟩

/-- The exchange of two coordinates. -/
def swap2 : Mat := m2 0 1 1 0

/-- `directsum([irrep_0, irrep_1])`. -/
noncomputable def sum01 : NRep ℤ String := nDirectsum [c2Field 0, c2Field 1] none

/-- `directsum([irrep_0, irrep_1], change_of_basis=[[0, 1], [1, 0]])`. -/
noncomputable def sum10 : NRep ℤ String := nDirectsum [c2Field 0, c2Field 1] (some swap2)

/-- The default name does not mention the change of basis. -/
theorem sum_name : sum10.name = sum01.name := rfl

theorem swap2_inv : IsInv 2 swap2 swap2 := by
  refine isInv_of_left fun i hi j hj => ?_
  interval_cases i <;> interval_cases j <;> simp [Mat.mul, swap2, m2, Mat.one, Finset.sum_range_succ]

theorem sum01_rep : sum01.rep = ⟨[c2Irrep 0, c2Irrep 1], bdiag [(1, Mat.one), (1, Mat.one)], bdiag [(1, Mat.one), (1, Mat.one)]⟩ := by
  simp [sum01, nDirectsum, c2Field, Repr.directsum, Repr.size, c2Irrep]

theorem bdiag_ones : MEq 2 2 (bdiag [(1, Mat.one), (1, Mat.one)]) Mat.one := by
  intro i hi j hj
  interval_cases i <;> interval_cases j <;> simp [bdiag, Mat.one]

theorem sum10_cob : MEq 2 2 sum10.rep.cob swap2 := by
  have : sum10.rep.cob = Mat.mul 2 swap2 (bdiag [(1, Mat.one), (1, Mat.one)]) := by
    simp [sum10, nDirectsum, c2Field, Repr.directsumCob, Repr.mk', Repr.size, c2Irrep]
  rw [this]
  exact ((MEq.refl _).mul bdiag_ones).trans (MEq_mul_one _ _ _)

theorem sum10_irreps : sum10.rep.irreps = [c2Irrep 0, c2Irrep 1] := by
  simp [sum10, nDirectsum, c2Field, Repr.directsumCob, Repr.mk']

theorem sum10_size : sum10.rep.size = 2 := by rw [Repr.size, sum10_irreps]; rfl

theorem sum01_size : sum01.rep.size = 2 := by rw [sum01_rep]; rfl

theorem sum10_isInv : IsInv 2 sum10.rep.cob swap2 := by
  refine isInv_of_left ((sum10_cob.mul (MEq.refl _)).trans swap2_inv.1)

theorem sum10_wf : sum10.rep.WF := by
  have h : sum10.rep.cobInv = Mat.inv 2 sum10.rep.cob := by
    simp [sum10, nDirectsum, c2Field, Repr.directsumCob, Repr.mk', c2Irrep]
  unfold Repr.WF
  rw [sum10_size, h]
  exact isInv_inv sum10_isInv

theorem sum10_cobInv : MEq 2 2 sum10.rep.cobInv swap2 := by
  have := sum10_wf
  unfold Repr.WF at this
  rw [sum10_size] at this
  exact this.unique sum10_isInv

/-- The two matrices. -/
theorem sum01_mat (g : ℤ) : MEq 2 2 (sum01.rep.mat g) (m2 1 0 0 (cos (g * π))) := by
  have h : sum01.rep.mat g = bdiag [(1, (c2Field 0).rep.mat g), (1, (c2Field 1).rep.mat g)] := by
    show (Repr.directsum _).mat g = _
    rw [Repr.directsum_mat]
    rfl
  rw [h]
  have e : (1 : ℝ) * g * (2 * π / 2) = g * π := by ring
  intro i hi j hj
  interval_cases i <;> interval_cases j <;>
    simp [bdiag, c2Field, Repr.mat, Repr.size, Repr.blocks, c2Irrep, Mat.mul, Mat.one, m1, m2]

theorem sum10_mat (g : ℤ) : MEq 2 2 (sum10.rep.mat g) (m2 (cos (g * π)) 0 0 1) := by
  unfold Repr.mat
  rw [sum10_size, sum10_irreps]
  refine ((sum10_cob.mul (MEq.refl _)).mul sum10_cobInv).trans fun i hi j hj => ?_
  interval_cases i <;> interval_cases j <;>
    simp [Repr.blocks, bdiag, c2Irrep, Mat.mul, swap2, m1, m2, Finset.sum_range_succ]

theorem sum01_ne : sum01 ≠ sum10 := by
  intro h
  have h1 := sum01_mat 1 0 two_pos 0 two_pos
  have h2 := sum10_mat 1 0 two_pos 0 two_pos
  rw [h, h2] at h1
  norm_num [m2] at h1

theorem c2Field_plane (k : ℕ) (hk : k < 2) : (c2Field k).rep.Plane fun i => ∃ k, Cyclic.irrep 2 k = some i :=
  irrep_plane one_pos ⟨k, c2Irrep_eq k hk⟩

theorem sum01_plane : sum01.rep.Plane fun i => ∃ k, Cyclic.irrep 2 k = some i := by
  have hz : ∀ n, IsInv n Mat.one Mat.one := fun n => ⟨MEq_one_mul _ _ _, MEq_one_mul _ _ _⟩
  have hb : IsInv 2 (bdiag [(1, Mat.one), (1, Mat.one)]) (bdiag [(1, Mat.one), (1, Mat.one)]) :=
    isInv_of_left ((bdiag_ones.mul bdiag_ones).trans (MEq_one_mul _ _ _))
  have ht : MEq 2 2 (tr (bdiag [(1, Mat.one), (1, Mat.one)])) Mat.one := fun i hi j hj => by
    rw [tr, bdiag_ones j hj i hi]
    simp [Mat.one, eq_comm]
  refine ⟨by rw [sum01_size]; norm_num, ?_, ?_, ?_⟩
  · unfold Repr.WF
    rw [sum01_size, sum01_rep]
    exact hb
  · unfold Repr.OrthCob
    rw [sum01_size, sum01_rep]
    exact isInv_of_left ((bdiag_ones.mul ht).trans (MEq_one_mul _ _ _))
  · rw [sum01_rep]
    intro i hi
    simp only [List.mem_cons, List.not_mem_nil, or_false] at hi
    rcases hi with rfl | rfl
    · exact ⟨0, c2Irrep_eq 0 (by norm_num)⟩
    · exact ⟨1, c2Irrep_eq 1 (by norm_num)⟩

theorem sum10_plane : sum10.rep.Plane fun i => ∃ k, Cyclic.irrep 2 k = some i := by
  have ht : MEq 2 2 (tr sum10.rep.cob) swap2 := fun i hi j hj => by
    rw [tr, sum10_cob j hj i hi]
    interval_cases i <;> interval_cases j <;> simp [swap2, m2]
  refine ⟨by rw [sum10_size]; norm_num, sum10_wf, ?_, ?_⟩
  · unfold Repr.OrthCob
    rw [sum10_size]
    exact isInv_of_left ((sum10_cob.mul ht).trans swap2_inv.1)
  · rw [sum10_irreps]
    intro i hi
    simp only [List.mem_cons, List.not_mem_nil, or_false] at hi
    rcases hi with rfl | rfl
    · exact ⟨0, c2Irrep_eq 0 (by norm_num)⟩
    · exact ⟨1, c2Irrep_eq 1 (by norm_num)⟩

/-- The representations by names, with `r` for the direct sums. -/
noncomputable def ofName (r : Repr ℤ) (n : String) : Repr ℤ :=
  if n = (c2Field 0).name then (c2Field 0).rep else if n = (c2Field 1).name then (c2Field 1).rep else r

theorem ofName_0 (r : Repr ℤ) : ofName r (c2Field 0).name = (c2Field 0).rep := if_pos rfl

theorem ofName_1 (r : Repr ℤ) : ofName r (c2Field 1).name = (c2Field 1).rep := by
  unfold ofName
  rw [if_neg (by decide), if_pos rfl]

theorem ofName_sum (r : Repr ℤ) : ofName r sum01.name = r := by
  unfold ofName
  rw [if_neg (by decide), if_neg (by decide)]

/-- The matrix of a layer of kernel size 1 with a direct sum twice: the coordinate `t` of each field is invariant, the other one changes its sign. -/
def pickMat (t : ℕ) : Mat := fun o c => if o = 0 then (if c % 2 = t then 1 else 0) else (if c % 2 = t then 0 else 1)

theorem c2Field_mat (k : ℕ) (g : ℤ) : MEq 1 1 ((c2Field k).rep.mat g) (m1 (if k = 0 then 1 else cos (k * g * π))) := by
  intro i hi j hj
  interval_cases i; interval_cases j
  simp [c2Field, Repr.mat, Repr.size, Repr.blocks, c2Irrep, bdiag, Mat.mul, Mat.one, m1]

theorem out_mat (g : ℤ) : MEq 2 2 (bdiag [(1, (c2Field 0).rep.mat g), (1, (c2Field 1).rep.mat g)]) (m2 1 0 0 (cos (g * π))) := by
  have h0 := c2Field_mat 0 g 0 one_pos 0 one_pos
  have h1 := c2Field_mat 1 g 0 one_pos 0 one_pos
  intro i hi j hj
  interval_cases i <;> interval_cases j <;> simp [bdiag, h0, h1, m1, m2]

theorem pick_intertwines (R : ℤ → Mat) (t : ℕ) (ht : t < 2)
    (hR : ∀ g, MEq 2 2 (R g) (m2 (if t = 0 then 1 else cos (g * π)) 0 0 (if t = 0 then cos (g * π) else 1))) :
    Intertwines (Cyclic.grp 2) 2 4 (fun g => bdiag [(1, (c2Field 0).rep.mat g), (1, (c2Field 1).rep.mat g)]) (fun g => bdiag [(2, R g), (2, R g)]) (pickMat t) := by
  intro g _ i hi j hj
  have e := out_mat g
  have h00 := hR g 0 two_pos 0 two_pos
  have h01 := hR g 0 two_pos 1 one_lt_two
  have h10 := hR g 1 one_lt_two 0 two_pos
  have h11 := hR g 1 one_lt_two 1 one_lt_two
  rw [Mat.mul, Mat.mul, Finset.sum_range_succ, Finset.sum_range_succ, Finset.sum_range_zero]
  dsimp only
  rw [e i hi 0 two_pos, e i hi 1 one_lt_two]
  simp only [Finset.sum_range_succ, Finset.sum_range_zero]
  interval_cases t <;> interval_cases i <;> interval_cases j <;> simp [bdiag, h00, h01, h10, h11, m2, pickMat]

/-- The layer built from two fields `a`, `b` with the name `nm` when the last of them which is visited is `r`: some weights give the matrix `pickMat`. -/
theorem wrong_core {G : KernelGen ℤ} {act : ℤ → ℝ × ℝ → ℝ × ℝ} (hG : PlaneGroup G (Cyclic.grp 2) act fun i => ∃ k, Cyclic.irrep 2 k = some i)
    (A B : Repr ℤ) (nm : String) (has : A.size = 2) (hbs : B.size = 2)
    (hn0 : nm ≠ (c2Field 0).name) (hn1 : nm ≠ (c2Field 1).name) (s r : NRep ℤ String) (t : ℕ) (ht : t < 2) (hr : r.name = nm) (hrs : r.rep.size = 2)
    (hps : s.rep.Plane fun i => ∃ k, Cyclic.irrep 2 k = some i) (hpr : r.rep.Plane fun i => ∃ k, Cyclic.irrep 2 k = some i)
    (his : c2Irrep 0 ∈ s.rep.irreps) (hir : ∀ k < 2, c2Irrep k ∈ r.rep.irreps)
    (hR : ∀ g, MEq 2 2 (r.rep.mat g) (m2 (if t = 0 then 1 else cos (g * π)) 0 0 (if t = 0 then cos (g * π) else 1)))
    (outs : List (NRep ℤ String)) (ho : UniqueOf outs [c2Field 0, c2Field 1]) :
    ∃ N, namedConvInit (G) (plainArgs ℤ 1) [NRep.mk nm A, NRep.mk nm B] [c2Field 0, c2Field 1] [s, r] outs = some N ∧
      ∃ w : List ℝ, w.length = N.exp.dimension ∧ ∀ x, ∃ y, N.forward [NRep.mk nm A, NRep.mk nm B] [c2Field 0, c2Field 1] w [] 1 x = some y ∧
        ∀ o < 2, y o 0 0 = (∑ c ∈ range 4, pickMat t o c * x c 0 0) + outBias NRep.rep [c2Field 0, c2Field 1] [] o := by
  classical
  have ofName_sum : ∀ q : Repr ℤ, ofName q nm = q := fun q => by
    unfold ofName
    rw [if_neg hn0, if_neg hn1]
  have hmemo : ∀ o ∈ outs, o = c2Field 0 ∨ o = c2Field 1 := fun o h => by simpa using (ho.2 o).1 h
  have hplane : ∀ (q : NRep ℤ String), (q.rep.Plane fun i => ∃ k, Cyclic.irrep 2 k = some i) →
      (∀ n ∈ [nm, nm], (ofName q.rep n).Plane fun i => ∃ k, Cyclic.irrep 2 k = some i) ∧
      (∀ n ∈ [(c2Field 0).name, (c2Field 1).name], (ofName q.rep n).Plane fun i => ∃ k, Cyclic.irrep 2 k = some i) := by
    intro q hq
    constructor
    · intro n hn
      obtain rfl : nm = n := by simpa [eq_comm] using hn
      rw [ofName_sum]
      exact hq
    · intro n hn
      simp only [List.mem_cons, List.not_mem_nil, or_false] at hn
      rcases hn with rfl | rfl
      · rw [ofName_0]; exact c2Field_plane 0 (by norm_num)
      · rw [ofName_1]; exact c2Field_plane 1 (by norm_num)
  have hbuild : ∀ (q : NRep ℤ String), (q.rep.Plane fun i => ∃ k, Cyclic.irrep 2 k = some i) → c2Irrep 0 ∈ q.rep.irreps →
      ∃ M : ConvModule ℤ String, r2convInit (G) (plainArgs ℤ 1) (ofName q.rep) [nm, nm] [(c2Field 0).name, (c2Field 1).name] = some M := by
    intro q hq hi
    obtain ⟨M, hM, -⟩ := c75_conv (hG.gen) (plainArgs ℤ 1) 0 (plainArgs_default 0) (ofName q.rep) [nm, nm]
      [(c2Field 0).name, (c2Field 1).name] [nm, nm] rfl (hplane q hq).1 (hplane q hq).2
      ⟨nm, by simp, (c2Field 0).name, by simp, c2Irrep 0, by rw [ofName_sum]; exact hi, by rw [ofName_0]; simp [c2Field]⟩
    exact ⟨M, hM⟩
  obtain ⟨Ms, hMs⟩ := hbuild s hps his
  obtain ⟨M, hM⟩ := hbuild r hpr (hir 0 two_pos)
  obtain ⟨rings, sigma, fco, mf, hp, hall, hcfg, hbas, hdim, hd⟩ := r2convInit_some rfl hM
  obtain ⟨rings', sigma', fco', mf', hp', hall', -⟩ := r2convInit_some rfl hMs
  obtain ⟨rfl, h⟩ := Prod.ext_iff.1 (Option.some.inj (hp.symm.trans hp'))
  obtain ⟨rfl, h⟩ := Prod.ext_iff.1 h
  obtain ⟨rfl, rfl⟩ := Prod.ext_iff.1 h
  dsimp only at *
  have hname : ∀ o ∈ outs, o.name ∈ [(c2Field 0).name, (c2Field 1).name] ∧ ∀ q : Repr ℤ, ofName q o.name = o.rep := by
    intro o h
    rcases hmemo o h with rfl | rfl
    · exact ⟨by simp, ofName_0⟩
    · exact ⟨by simp, ofName_1⟩
  have hsz : typeSize (fun n => (ofName r.rep n).size) [nm, nm] = 4 := by
    simp [typeSize, ofName_sum, hrs]
  have hsz' : typeSize (fun n => (ofName r.rep n).size) [(c2Field 0).name, (c2Field 1).name] = 2 := by
    simp only [typeSize, List.map_cons, List.map_nil, ofName_0, ofName_1]
    rfl
  have hin' : typeMat (ofName r.rep) [nm, nm] = fun g => bdiag [(2, r.rep.mat g), (2, r.rep.mat g)] := by
    funext g
    simp [typeMat, ofName_sum, hrs]
  have hout' : typeMat (ofName r.rep) [(c2Field 0).name, (c2Field 1).name] = fun g => bdiag [(1, (c2Field 0).rep.mat g), (1, (c2Field 1).rep.mat g)] := by
    funext g
    simp only [typeMat, List.map_cons, List.map_nil, ofName_0, ofName_1]
    rfl
  have hA := pick_intertwines (fun g => r.rep.mat g) t ht hR
  obtain ⟨-, h2⟩ := c78_one_by_one (hG) (plainArgs ℤ 1) (plainArgs_default 0) (ofName r.rep) [nm, nm]
    [(c2Field 0).name, (c2Field 1).name] [nm, nm] rfl (hplane r hpr).1 (hplane r hpr).2 M hM
  rw [hsz, hsz', hin', hout'] at h2
  obtain ⟨w, ⟨hw, hreal⟩, -⟩ := h2 _ hA
  have hkname : ∀ k < 2, ofName r.rep (c2Field k).name = (c2Field k).rep := by
    intro k hk
    interval_cases k
    · exact ofName_0 _
    · exact ofName_1 _
  have houtk : ∀ n ∈ [(c2Field 0).name, (c2Field 1).name], ∃ k < 2, n = (c2Field k).name := by
    intro n hn
    simp only [List.mem_cons, List.not_mem_nil, or_false] at hn
    rcases hn with rfl | rfl
    · exact ⟨0, two_pos, rfl⟩
    · exact ⟨1, one_lt_two, rfl⟩
  have hgen : ∀ k < 2, (M.cfg.exp (ofName r.rep) [nm, nm] [(c2Field 0).name, (c2Field 1).name] M.basis).gen nm (c2Field k).name ≠ none := by
    intro k hk
    obtain ⟨M1, hM1, -⟩ := c75_conv (hG.gen) (plainArgs ℤ 1) 0 (plainArgs_default 0) (ofName r.rep) [nm]
      [(c2Field k).name] [nm] rfl (fun n hn => (hplane r hpr).1 n (by simpa using hn)) (fun n hn => by
        obtain rfl : n = (c2Field k).name := by simpa using hn
        rw [hkname k hk]
        exact c2Field_plane k hk)
      ⟨nm, by simp, (c2Field k).name, by simp, c2Irrep k, by rw [ofName_sum]; exact hir k hk, by rw [hkname k hk]; simp [c2Field]⟩
    obtain ⟨rings1, sigma1, fco1, mf1, hp1, hall1, hcfg1, hbas1, hdim1, hd1⟩ := r2convInit_some rfl hM1
    obtain ⟨rfl, h⟩ := Prod.ext_iff.1 (Option.some.inj (hp.symm.trans hp1))
    obtain ⟨rfl, h⟩ := Prod.ext_iff.1 h
    obtain ⟨rfl, rfl⟩ := Prod.ext_iff.1 h
    dsimp only at hcfg1 hbas1
    obtain ⟨p, hpm⟩ := List.exists_mem_of_ne_nil _ (Exp.pairs_ne_nil (hdim1 ▸ hd1))
    obtain ⟨m1, m2, m3⟩ := (Exp.mem_pairs _ _).1 hpm
    have e1 : p.1 = nm := List.mem_singleton.1 m1
    have e2 : p.2 = (c2Field k).name := List.mem_singleton.1 m2
    rw [e1, e2, hcfg1, hbas1] at m3
    rw [hcfg, hbas]
    intro hnone
    rw [show ((ConvArgs.cfg (plainArgs ℤ 1) fco).exp (ofName r.rep) [nm] [(c2Field k).name]
      (fun i o => (buildKernelBasis (G) sigma rings (some mf) (plainArgs ℤ 1).maximumOffset (ofName r.rep i) (ofName r.rep o)).getD [])).gen
        nm (c2Field k).name = none from hnone] at m3
    exact absurd m3 (by simp)
  obtain ⟨N, hN, hNd, hNf⟩ := named_layer (rep := ofName r.rep) (inT := [NRep.mk nm A, NRep.mk nm B]) (outT := [c2Field 0, c2Field 1]) (ins := [s, r]) (outs := outs)
    (a := plainArgs ℤ 1) (inG := [NRep.mk nm A, NRep.mk nm B]) rfl rfl hM (by
      intro rings1 sigma1 mf1 _ hp1 i hi o ho'
      obtain ⟨rfl, h⟩ := Prod.ext_iff.1 (Option.some.inj (hp.symm.trans hp1))
      obtain ⟨rfl, h⟩ := Prod.ext_iff.1 h
      obtain ⟨-, rfl⟩ := Prod.ext_iff.1 h
      obtain ⟨n1, n2⟩ := hname o ho'
      simp only [List.mem_cons, List.not_mem_nil, or_false] at hi
      rcases hi with rfl | rfl
      · have := hall' nm (by simp) o.name n1
        rwa [ofName_sum, n2] at this
      · have := hall nm (by simp) o.name n1
        rwa [ofName_sum, n2] at this) (by
      intro rings1 sigma1 fco1 mf1 hp1
      obtain ⟨rfl, h⟩ := Prod.ext_iff.1 (Option.some.inj (hp.symm.trans hp1))
      obtain ⟨rfl, h⟩ := Prod.ext_iff.1 h
      obtain ⟨rfl, rfl⟩ := Prod.ext_iff.1 h
      dsimp only
      refine ⟨rfl, rfl, by rw [hcfg]; rfl, fun n hn => ?_, fun n hn => ?_, fun n hn m hm => ?_⟩
      · obtain rfl : nm = n := by
          have : n ∈ [nm, nm] := hn
          simpa [eq_comm] using this
        show ((([NRep.mk nm A, NRep.mk nm B] ++ [c2Field 0, c2Field 1]).find? fun f => f.name = nm).elim 0 fun f => f.rep.size) = (ofName r.rep nm).size
        rw [List.cons_append, List.find?_cons_of_pos (by simp), ofName_sum, hrs]
        exact has
      · obtain ⟨k, hk, rfl⟩ := houtk n hn
        show ((([NRep.mk nm A, NRep.mk nm B] ++ [c2Field 0, c2Field 1]).find? fun f => f.name = (c2Field k).name).elim 0 fun f => f.rep.size) = (ofName r.rep (c2Field k).name).size
        rw [hkname k hk]
        interval_cases k
        · rw [List.cons_append, List.find?_cons_of_neg (by simpa using hn0), List.cons_append, List.find?_cons_of_neg (by simpa using hn0), List.nil_append,
            show [c2Field 0, c2Field 1].find? (fun f => f.name = (c2Field 0).name) = some (c2Field 0) from rfl]
          rfl
        · rw [List.cons_append, List.find?_cons_of_neg (by simpa using hn1), List.cons_append, List.find?_cons_of_neg (by simpa using hn1), List.nil_append,
            show [c2Field 0, c2Field 1].find? (fun f => f.name = (c2Field 1).name) = some (c2Field 1) from rfl]
          rfl
      · obtain rfl : nm = n := by
          have : n ∈ [nm, nm] := hn
          simpa [eq_comm] using this
        obtain ⟨k, hk, rfl⟩ := houtk m hm
        obtain ⟨b, hb⟩ := Option.ne_none_iff_exists'.1 (hgen k hk)
        refine Eq.trans ?_ hb.symm
        unfold namedExp
        dsimp only
        rw [show [s, r] = [s] ++ [r] from rfl]
        refine blockDict_append _ [s] r hr (fun o ho' e => ?_) ⟨c2Field k, (ho.2 _).2 ?_, rfl⟩
        · have e2 : o.rep = (c2Field k).rep := by rw [← (hname o ho').2 r.rep, e, hkname k hk]
          rw [hcfg, hbas] at hb
          simp only [ConvCfg.exp, filterExp] at hb
          rw [ofName_sum, hkname k hk] at hb
          rw [e2]
          exact hb
        · interval_cases k <;> simp) (by
      intro f hf
      simp only [List.mem_cons, List.not_mem_nil, or_false] at hf
      rcases hf with rfl | rfl
      · rw [show (NRep.mk nm A).name = nm from rfl, ofName_sum, hrs, has]
      · rw [show (NRep.mk nm B).name = nm from rfl, ofName_sum, hrs, hbs]) (by
      intro f hf
      simp only [List.mem_cons, List.not_mem_nil, or_false] at hf
      rcases hf with rfl | rfl
      · exact ofName_0 _
      · exact ofName_1 _) (by
      refine Or.inr ⟨?_, ?_⟩
      · simp only [List.length_cons, List.length_nil]
        omega
      · show [nm, nm].dedup.length * [(c2Field 0).name, (c2Field 1).name].dedup.length ≠ 1
        rw [show [(c2Field 0).name, (c2Field 1).name].dedup.length = 2 by decide]
        omega)
  refine ⟨N, hN, w, by rw [hNd]; exact hw, fun x => ?_⟩
  obtain ⟨y, hy, hyv⟩ := c78_layer M (plainArgs ℤ 1) (plainArgs_default 0) rfl rfl (ofName r.rep) _ _ hM w [] (pickMat t) (by
    unfold ConvModule.Realises at hreal ⊢
    exact hreal) 1 x
  refine ⟨y, (hNf w [] 1 x).trans hy, fun o ho' => ?_⟩
  have := hyv o (by rw [hsz']; exact ho') 0 0 (by simp) (by simp)
  rw [hsz] at this
  simp only [zero_mul] at this
  rw [this]
  congr 1

theorem unique_two {a b : NRep ℤ String} (hab : a ≠ b) {l : List (NRep ℤ String)} (h : UniqueOf l [a, b]) : l = [a, b] ∨ l = [b, a] := by
  classical
  have hp : l.Perm [a, b] := (List.perm_ext_iff_of_nodup h.1 (by simpa using hab)).2 fun f => h.2 f
  have hl := hp.length_eq
  match l, hl with
  | [p, q], _ =>
    have hpm := (h.2 p).1 (by simp)
    have hqm := (h.2 q).1 (by simp)
    have hne : p ≠ q := by simpa using h.1
    simp only [List.mem_cons, List.not_mem_nil, or_false] at hpm hqm
    rcases hpm with rfl | rfl <;> rcases hqm with rfl | rfl
    · exact absurd rfl hne
    · exact Or.inl rfl
    · exact Or.inr rfl
    · exact absurd rfl hne

/-- Two fields of `C_2` with one name and different representations, diag(1, ±1) and diag(±1, 1): the layer of kernel size 1 is built, and some weights do not commute with the group. -/
theorem wrong_conv {G : KernelGen ℤ} {act : ℤ → ℝ × ℝ → ℝ × ℝ} (hG : PlaneGroup G (Cyclic.grp 2) act fun i => ∃ k, Cyclic.irrep 2 k = some i)
    (a b : NRep ℤ String) (hab : b.name = a.name) (has : a.rep.size = 2) (hbs : b.rep.size = 2) (hn0 : a.name ≠ (c2Field 0).name) (hn1 : a.name ≠ (c2Field 1).name)
    (hpa : a.rep.Plane fun i => ∃ k, Cyclic.irrep 2 k = some i) (hpb : b.rep.Plane fun i => ∃ k, Cyclic.irrep 2 k = some i)
    (hia : ∀ k < 2, c2Irrep k ∈ a.rep.irreps) (hib : ∀ k < 2, c2Irrep k ∈ b.rep.irreps)
    (hA : ∀ g : ℤ, MEq 2 2 (a.rep.mat g) (m2 1 0 0 (cos (g * π)))) (hB : ∀ g : ℤ, MEq 2 2 (b.rep.mat g) (m2 (cos (g * π)) 0 0 1)) :
    a ≠ b ∧ ∀ ins outs, UniqueOf ins [a, b] → UniqueOf outs [c2Field 0, c2Field 1] →
      ∃ N, namedConvInit G (plainArgs ℤ 1) [a, b] [c2Field 0, c2Field 1] ins outs = some N ∧
        ∃ w : List ℝ, w.length = N.exp.dimension ∧ ∃ x y y',
          N.forward [a, b] [c2Field 0, c2Field 1] w [] 1 x = some y ∧
          N.forward [a, b] [c2Field 0, c2Field 1] w [] 1 (transformFibers 4 (typeMat NRep.rep [a, b] 1) x) = some y' ∧
          y' 0 0 0 ≠ transformFibers 2 (typeMat NRep.rep [c2Field 0, c2Field 1] 1) y 0 0 0 := by
  obtain ⟨nm, A⟩ := a
  obtain ⟨nm', B⟩ := b
  obtain rfl : nm = nm' := hab.symm
  have hne : NRep.mk nm A ≠ NRep.mk nm B := by
    intro e
    obtain rfl : A = B := congrArg NRep.rep e
    have := (hA 1 0 two_pos 0 two_pos).symm.trans (hB 1 0 two_pos 0 two_pos)
    norm_num [m2] at this
  refine ⟨hne, fun ins outs hi ho => ?_⟩
  have hin : typeMat NRep.rep [NRep.mk nm A, NRep.mk nm B] 1 = bdiag [(2, A.mat 1), (2, B.mat 1)] := by
    have h1 : A.size = 2 := has
    have h2 : B.size = 2 := hbs
    simp [typeMat, h1, h2]
  have hout : typeMat NRep.rep [c2Field 0, c2Field 1] 1 = bdiag [(1, (c2Field 0).rep.mat 1), (1, (c2Field 1).rep.mat 1)] := rfl
  have e0 := out_mat 1 0 two_pos 0 two_pos
  have e1 := out_mat 1 0 two_pos 1 one_lt_two
  have a00 := hA 1 0 two_pos 0 two_pos
  have a01 := hA 1 0 two_pos 1 one_lt_two
  have a10 := hA 1 1 one_lt_two 0 two_pos
  have a11 := hA 1 1 one_lt_two 1 one_lt_two
  have b00 := hB 1 0 two_pos 0 two_pos
  have b01 := hB 1 0 two_pos 1 one_lt_two
  have b10 := hB 1 1 one_lt_two 0 two_pos
  have b11 := hB 1 1 one_lt_two 1 one_lt_two
  have hR : ∀ y : Fmap, transformFibers 2 (typeMat NRep.rep [c2Field 0, c2Field 1] 1) y 0 0 0 = y 0 0 0 := by
    intro y
    rw [transformFibers, Finset.sum_range_succ, Finset.sum_range_one, hout, e0, e1]
    simp [m2]
  rcases unique_two hne hi with rfl | rfl
  · obtain ⟨N, hN, w, hw, hf⟩ := wrong_core hG A B nm has hbs hn0 hn1 ⟨nm, A⟩ ⟨nm, B⟩ 1 one_lt_two rfl hbs hpa hpb (hia 0 two_pos) hib (by simpa using hB) outs ho
    refine ⟨N, hN, w, hw, fun c _ _ => if c = 1 then 1 else 0, ?_⟩
    obtain ⟨y, hy, hyv⟩ := hf fun c _ _ => if c = 1 then 1 else 0
    obtain ⟨y', hy', hyv'⟩ := hf (transformFibers 4 (typeMat NRep.rep [NRep.mk nm A, NRep.mk nm B] 1) fun c _ _ => if c = 1 then 1 else 0)
    refine ⟨y, y', hy, hy', ?_⟩
    rw [hR, hyv' 0 two_pos, hyv 0 two_pos, hin]
    norm_num [m2, Finset.sum_range_succ, pickMat, transformFibers, bdiag, a00, a01, a10, a11, b00, b01, b10, b11]
  · obtain ⟨N, hN, w, hw, hf⟩ := wrong_core hG A B nm has hbs hn0 hn1 ⟨nm, B⟩ ⟨nm, A⟩ 0 two_pos rfl has hpb hpa (hib 0 two_pos) hia (by simpa using hA) outs ho
    refine ⟨N, hN, w, hw, fun c _ _ => if c = 2 then 1 else 0, ?_⟩
    obtain ⟨y, hy, hyv⟩ := hf fun c _ _ => if c = 2 then 1 else 0
    obtain ⟨y', hy', hyv'⟩ := hf (transformFibers 4 (typeMat NRep.rep [NRep.mk nm A, NRep.mk nm B] 1) fun c _ _ => if c = 2 then 1 else 0)
    refine ⟨y, y', hy, hy', ?_⟩
    rw [hR, hyv' 0 two_pos, hyv 0 two_pos, hin]
    norm_num [m2, Finset.sum_range_succ, pickMat, transformFibers, bdiag, a00, a01, a10, a11, b00, b01, b10, b11]

/-- **C80, the negation**: `directsum([irrep_0, irrep_1])` of `C_2`, with and without a change of basis, are two representations with one name.  In whatever order
the sets are visited, the convolution of kernel size 1 from the type with both of them to `irrep_0`, `irrep_1` is built without an error, and with some weights
it does not commute with the rotation by 180 degrees, already on images of one pixel. -/
theorem c80_names_wrong : sum01.name = sum10.name ∧ sum01 ≠ sum10 ∧
    ∀ ins outs, UniqueOf ins [sum01, sum10] → UniqueOf outs [c2Field 0, c2Field 1] →
      ∃ N, namedConvInit (rot2dGen 2) (plainArgs ℤ 1) [sum01, sum10] [c2Field 0, c2Field 1] ins outs = some N ∧
        ∃ w : List ℝ, w.length = N.exp.dimension ∧ ∃ x y y',
          N.forward [sum01, sum10] [c2Field 0, c2Field 1] w [] 1 x = some y ∧
          N.forward [sum01, sum10] [c2Field 0, c2Field 1] w [] 1 (transformFibers 4 (typeMat NRep.rep [sum01, sum10] 1) x) = some y' ∧
          y' 0 0 0 ≠ transformFibers 2 (typeMat NRep.rep [c2Field 0, c2Field 1] 1) y 0 0 0 := by
  have h0 : ∀ k < 2, c2Irrep k ∈ sum01.rep.irreps := fun k hk => by rw [sum01_rep]; interval_cases k <;> simp
  have h1 : ∀ k < 2, c2Irrep k ∈ sum10.rep.irreps := fun k hk => by rw [sum10_irreps]; interval_cases k <;> simp
  exact ⟨rfl, wrong_conv (PlaneGroup.rot two_pos) sum01 sum10 rfl sum01_size sum10_size (by decide) (by decide) sum01_plane sum10_plane h0 h1 sum01_mat sum10_mat⟩

/-- The hypotheses of `c80_cyclic_partial` with the names of a direct sum and of two irreps of `C_2`. -/
example (interp : ℝ → Img → Img) : NamedEquivariant (rotSpace interp 2) (rot2dGen 2) [sum10, c2Field 0, sum10] [c2Field 0, c2Field 1] := by
  have hm : ∀ f ∈ [sum10, c2Field 0, sum10] ++ [c2Field 0, c2Field 1], f = sum10 ∨ f = c2Field 0 ∨ f = c2Field 1 := by
    intro f hf
    simp only [List.cons_append, List.nil_append, List.mem_cons, List.not_mem_nil, or_false] at hf
    tauto
  have hP : ∀ f ∈ [sum10, c2Field 0, sum10] ++ [c2Field 0, c2Field 1], f.rep.Plane fun i => ∃ k, Cyclic.irrep 2 k = some i := by
    intro f hf
    rcases hm f hf with rfl | rfl | rfl
    · exact sum10_plane
    · exact c2Field_plane 0 (by norm_num)
    · exact c2Field_plane 1 (by norm_num)
  have n0 : sum10.name ≠ (c2Field 0).name := by decide
  have n1 : sum10.name ≠ (c2Field 1).name := by decide
  have n2 : (c2Field 0).name ≠ (c2Field 1).name := by decide
  refine c80_cyclic_partial interp 2 two_pos _ _ ⟨by simp, by simp⟩ (fun f hf q hq e => ?_) (fun f hf => (hP f hf).pos) fun f hf => ⟨(hP f hf).wf, (hP f hf).irr⟩
  rcases hm f hf with rfl | rfl | rfl <;> rcases hm q hq with rfl | rfl | rfl <;> first
    | rfl
    | exact absurd e n0
    | exact absurd e n1
    | exact absurd e n2
    | exact absurd e.symm n0
    | exact absurd e.symm n1
    | exact absurd e.symm n2

/-- Two groups of two fields: the constructor takes the first group. -/
example : convGroups 2 [sum10, c2Field 0, sum10, c2Field 0] [c2Field 1, c2Field 1] = some [sum10, c2Field 0] := by
  unfold convGroups
  refine (if_pos (by norm_num)).trans (if_pos ⟨rfl, rfl, fun i hi => ?_, fun i hi => ?_⟩)
  · replace hi : i < 4 := hi
    interval_cases i <;> rfl
  · replace hi : i < 2 := hi
    interval_cases i <;> rfl

/-! ### The default names of direct sums -/

theorem bracket_cancel {a b r s : List Char} (ha : ']' ∉ a) (hb : ']' ∉ b) (h : a ++ ']' :: r = b ++ ']' :: s) : a = b ∧ r = s := by
  induction a generalizing b with
  | nil =>
    cases b with
    | nil => exact ⟨rfl, (List.cons.inj h).2⟩
    | cons c b => exact absurd (List.cons.inj h).1 (fun e => hb (e ▸ List.mem_cons_self))
  | cons c a ih =>
    cases b with
    | nil => exact absurd (List.cons.inj h).1 (fun e => ha (e ▸ List.mem_cons_self))
    | cons d b =>
      obtain ⟨h1, h2⟩ := List.cons.inj h
      obtain ⟨h3, h4⟩ := ih (fun m => ha (List.mem_cons_of_mem _ m)) (fun m => hb (List.mem_cons_of_mem _ m)) h2
      exact ⟨by rw [h1, h3], h4⟩

theorem directsumName_cons (n : String) (l : List String) :
    (directsumName (n :: l)).toList = '[' :: (n.toList ++ ']' :: if l = [] then [] else '_' :: (directsumName l).toList) := by
  unfold directsumName
  cases l with
  | nil => simp
  | cons m l => simp

/-- **C80, default names**: if no name contains a closing bracket, the default names of two direct sums are equal only if the summands have the same names, in the same
order.  (The change of basis is not part of the name, see `c80_names_wrong`.) -/
theorem c80_default_names_partial (l l' : List String) (hl : ∀ n ∈ l, ']' ∉ n.toList) (hl' : ∀ n ∈ l', ']' ∉ n.toList) (h : directsumName l = directsumName l') : l = l' := by
  induction l generalizing l' with
  | nil =>
    cases l' with
    | nil => rfl
    | cons n l' =>
      have := congrArg String.toList h
      rw [directsumName_cons] at this
      simp [directsumName] at this
  | cons n l ih =>
    cases l' with
    | nil =>
      have := congrArg String.toList h
      rw [directsumName_cons] at this
      simp [directsumName] at this
    | cons n' l' =>
      have h1 := congrArg String.toList h
      rw [directsumName_cons, directsumName_cons] at h1
      obtain ⟨h2, h3⟩ := bracket_cancel (hl n (by simp)) (hl' n' (by simp)) (List.cons.inj h1).2
      obtain rfl := String.toList_inj.1 h2
      congr 1
      by_cases e : l = [] <;> by_cases e' : l' = []
      · rw [e, e']
      · rw [if_pos e, if_neg e'] at h3
        cases h3
      · rw [if_neg e, if_pos e'] at h3
        cases h3
      · rw [if_neg e, if_neg e'] at h3
        exact ih l' (fun m hm => hl m (by simp [hm])) (fun m hm => hl' m (by simp [hm])) (String.toList_inj.1 (List.cons.inj h3).2)

/-- Without the brackets, the sum of `a` and `b_c` could not be told from the sum of `a_b` and `c`. -/
example : directsumName ["a", "b_c"] ≠ directsumName ["a_b", "c"] := fun h => by
  have := c80_default_names_partial _ _ (by decide) (by decide) h
  revert this
  decide

end E2
