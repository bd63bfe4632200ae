import Verif.Model.R2DiffopInit
import Verif.Props.R2Diffop
import Verif.Props.R2ConvInit

/-!
# C68: `R2Diffop` built from its public arguments

The statements of C65 with everything the constructor computes put in its place: the operators of the space, the sizes, orders and powers, the attributes and
the identifiers of the parameters.
-/

set_option linter.unusedSectionVars false

namespace E2

open Finset Mat Real

variable {El F : Type} [LinearOrder F]

/-! ### The attributes and the coefficients -/

/-- The pairs of an element of the steerable basis and a power of the Laplacian, in the order of the iteration. -/
def tensorPairs (S : SBasis El DElem) (maxPower : ℕ) : List (SBasis.Attr El DElem × ℕ) :=
  S.iter.flatMap fun a => (List.range (maxPower + 1)).map fun k => (a, k)

theorem tensorCoefs_pairs (S : SBasis El DElem) (cf : Irrep El → Irrep El → DElem → DArr) (maxPower : ℕ) :
    ∃ h : SBasis.Attr El DElem × ℕ → DArr, tensorCoefs (S.dCoefs cf) (laplaceProfile maxPower) = (tensorPairs S maxPower).map h ∧
      ∀ q, (h q).deg = (cf q.1.inIrrep q.1.outIrrep q.1.elem).deg + 2 * q.2 := by
  refine ⟨fun q => DArr.fill ((S.dChange ((cf q.1.inIrrep q.1.outIrrep q.1.elem).place (offset (S.outs.map Irrep.size) q.1.outIdx) q.1.outIrrep.size
        (offset (S.ins.map Irrep.size) q.1.inIdx) q.1.inIrrep.size)).deg + 1 + ((HPoly.laplacian q.2).deg + 1) - 2) fun i k =>
      ((S.dChange ((cf q.1.inIrrep q.1.outIrrep q.1.elem).place (offset (S.outs.map Irrep.size) q.1.outIdx) q.1.outIrrep.size
        (offset (S.ins.map Irrep.size) q.1.inIdx) q.1.inIrrep.size)).entry i k).mul (HPoly.laplacian q.2), ?_, ?_⟩
  · rw [SBasis.dCoefs, SBasis.dLoopIn_eq, tensorCoefs, tensorPairs, laplaceProfile]
    simp only [List.map_flatMap, List.flatMap_map, List.map_map]
    rfl
  · intro q
    simp only [DArr.fill, SBasis.dChange_deg, DArr.place, HPoly.laplacian]
    omega

theorem tensor_zip (S : SBasis El DElem) (cf : Irrep El → Irrep El → DElem → DArr) (maxPower : ℕ) :
    ∃ h : SBasis.Attr El DElem × ℕ → DArr, (∀ q, (h q).deg = (cf q.1.inIrrep q.1.outIrrep q.1.elem).deg + 2 * q.2) ∧
      tensorCoefs (S.dCoefs cf) (laplaceProfile maxPower) = (tensorPairs S maxPower).map h ∧
      (tensorIter S maxPower).zip (tensorCoefs (S.dCoefs cf) (laplaceProfile maxPower)) =
        (SBasis.enum (tensorPairs S maxPower)).map fun p => (⟨p.2.1, p.2.2, p.1, p.2.1.idx, p.2.2⟩, h p.2) := by
  obtain ⟨h, h1, h2⟩ := tensorCoefs_pairs S cf maxPower
  refine ⟨h, h2, h1, ?_⟩
  rw [h1, tensorIter]
  refine List.ext_getElem? fun k => ?_
  rw [List.getElem?_map, SBasis.enum_getElem?, Option.map_map]
  show (List.zip (List.map _ (SBasis.enum (tensorPairs S maxPower))) _)[k]? = _
  cases hk : (tensorPairs S maxPower)[k]? with
  | none =>
    rw [Option.map_none, List.getElem?_eq_none_iff]
    rw [List.getElem?_eq_none_iff] at hk
    simp only [List.length_zip, List.length_map]
    omega
  | some q =>
    rw [Option.map_some, List.getElem?_zip_eq_some]
    constructor
    · rw [List.getElem?_map, SBasis.enum_getElem?, hk]
      rfl
    · rw [List.getElem?_map, hk]
      rfl

theorem mem_tensorPairs {S : SBasis El DElem} {maxPower : ℕ} {q : SBasis.Attr El DElem × ℕ} (h : q ∈ tensorPairs S maxPower) :
    q.1 ∈ S.iter ∧ q.2 ≤ maxPower := by
  obtain ⟨a, ha, hq⟩ := List.mem_flatMap.1 h
  obtain ⟨k, hk, rfl⟩ := List.mem_map.1 hq
  have := List.mem_range.1 hk
  exact ⟨ha, by dsimp only; omega⟩

theorem enum_map_snd {α β : Type} (f : α → β) (l : List α) : (SBasis.enum l).map (fun p => f p.2) = l.map f := by
  rw [SBasis.enum, List.map_map, ← List.zipIdx_map_fst 0 l, List.map_map, List.zipIdx_map_fst]
  rfl

theorem mem_enum {α : Type} {l : List α} {p : ℕ × α} (h : p ∈ SBasis.enum l) : p.2 ∈ l := by
  rw [← List.map_id l, ← enum_map_snd]
  exact List.mem_map.2 ⟨p, h, rfl⟩

/-- The identifiers of the operators of one basis differ. -/
theorem diffopBasis_ids (S : SBasis El DElem) (cf : Irrep El → Irrep El → DElem → DArr) (maxPower : ℕ) :
    (((tensorIter S maxPower).zip (tensorCoefs (S.dCoefs cf) (laplaceProfile maxPower))).map fun b => diffopId b.1).Nodup := by
  obtain ⟨h, -, -, hz⟩ := tensor_zip S cf maxPower
  refine List.Nodup.of_map (fun t : DiffopId => (((t.1.2, t.2.1.2), t.2.2.2.2), (t.2.2.1 - t.2.2.2.1.natAbs) / 2)) ?_
  rw [hz, List.map_map, List.map_map]
  have h2 : (SBasis.enum (tensorPairs S maxPower)).map (((fun t : DiffopId => (((t.1.2, t.2.1.2), t.2.2.2.2), (t.2.2.1 - t.2.2.2.1.natAbs) / 2)) ∘
      fun b : TensorAttr El × DArr => diffopId b.1) ∘ fun p => (⟨p.2.1, p.2.2, p.1, p.2.1.idx, p.2.2⟩, h p.2)) =
      (S.iter.map fun a => ((a.inIdx, a.outIdx), a.innerIdx)) ×ˢ List.range (maxPower + 1) := by
    rw [show ((((fun t : DiffopId => (((t.1.2, t.2.1.2), t.2.2.2.2), (t.2.2.1 - t.2.2.2.1.natAbs) / 2)) ∘
      fun b : TensorAttr El × DArr => diffopId b.1) ∘ fun p : ℕ × SBasis.Attr El DElem × ℕ => (⟨p.2.1, p.2.2, p.1, p.2.1.idx, p.2.2⟩, h p.2))) =
      fun p => (fun q : SBasis.Attr El DElem × ℕ => (((q.1.inIdx, q.1.outIdx), q.1.innerIdx), q.2)) p.2 from by
        funext p
        simp only [Function.comp, diffopId, TensorAttr.order, Prod.mk.injEq, true_and]
        omega]
    rw [enum_map_snd (fun q : SBasis.Attr El DElem × ℕ => (((q.1.inIdx, q.1.outIdx), q.1.innerIdx), q.2))]
    simp only [tensorPairs, SProd.sprod, List.product, List.map_flatMap, List.flatMap_map, List.map_map]
    rfl
  rw [h2]
  exact S.iter_ids.product List.nodup_range

/-! ### The operators of a space -/

/-- All the operators which the space builds for the irreps of the representations of the types have the order of their attributes and satisfy the constraint
of its action, which preserves the distance to the origin. -/
def DiffopGenOk (Sp : Space El) (G : DiffopGen El) (rep : F → Repr El) (inT outT : List F) : Prop :=
  (∀ g p, radius (Sp.act g p) = radius p) ∧ (∀ n ∈ inT ++ outT, (rep n).WF) ∧
  ∀ mf mo bas, G.bas mf mo = some bas → ∀ i ∈ inT, ∀ o ∈ outT, ∀ ri ∈ (rep i).irreps, ∀ ro ∈ (rep o).irreps, ∃ l, bas ri ro = some l ∧
    ∀ e ∈ l, (G.cf ri ro e).deg = e.mu.natAbs ∧ KernelConstraint Sp.G Sp.act ro.size ri.size ro.mat ri.mat (G.cf ri ro e).eval

/-- **C68, the operators**: every operator of `build_diffop_basis` has the order of its attributes and satisfies the constraint; the identifiers differ. -/
theorem c68_build_diffop_basis (Sp : Space El) (G : DiffopGen El) (rep : F → Repr El) (inT outT : List F) (hG : DiffopGenOk Sp G rep inT outT)
    (pw : ℕ) (mf mo : Option ℤ) (i o : F) (hi : i ∈ inT) (ho : o ∈ outT) (l : List (TensorAttr El × DArr))
    (h : buildDiffopBasis G pw mf mo (rep i) (rep o) = some l) :
    (∀ b ∈ l, b.2.deg = b.1.order ∧ KernelConstraint Sp.G Sp.act (rep o).size (rep i).size (rep o).mat (rep i).mat b.2.eval) ∧
    (l.map fun b => diffopId b.1).Nodup := by
  unfold buildDiffopBasis at h
  cases hb : G.bas mf mo with
  | none => simp [hb] at h
  | some bas =>
    rw [hb] at h
    obtain ⟨S, hS, rfl⟩ := Option.map_eq_some_iff.1 h
    refine ⟨?_, diffopBasis_ids S G.cf pw⟩
    have hbas := hG.2.2 mf mo bas hb i hi o ho
    obtain ⟨S', hS', -, -, -, hK⟩ := c47_steerable Sp.G Sp.act bas G.cf (rep i) (rep o) (hG.2.1 i (List.mem_append_left _ hi))
      (hG.2.1 o (List.mem_append_right _ ho)) (fun ri h1 ro h2 => by
        obtain ⟨l, h3, h4⟩ := hbas ri h1 ro h2
        exact ⟨l, h3, fun e he => (h4 e he).2⟩)
    obtain rfl : S = S' := Option.some.inj (hS.symm.trans hS')
    obtain ⟨-, hK⟩ := c47_tensor hG.1 (S.dCoefs G.cf) hK pw
    intro b hb'
    refine ⟨?_, hK _ (List.of_mem_zip hb').2⟩
    obtain ⟨f, hf, -, hz⟩ := tensor_zip S G.cf pw
    rw [hz] at hb'
    obtain ⟨p, hp, rfl⟩ := List.mem_map.1 hb'
    obtain ⟨h1, -⟩ := mem_tensorPairs (mem_enum hp)
    obtain ⟨idx, hidx⟩ := List.mem_iff_getElem?.1 h1
    obtain ⟨a1, a2, a3, -⟩ := S.iter_get hidx
    unfold steerable at hS
    split at hS
    swap
    · exact absurd hS (by simp)
    obtain rfl := Option.some.inj hS
    obtain ⟨l, h3, h4⟩ := hbas _ (List.mem_of_getElem? a1) _ (List.mem_of_getElem? a2)
    simp only [h3, Option.getD_some] at a3
    show (f p.2).deg = p.2.1.elem.mu.natAbs + 2 * p.2.2
    rw [hf, (h4 _ (List.mem_of_getElem? a3)).1]

/-! ### The constructor -/

instance : Inhabited (TensorAttr El) := ⟨⟨⟨⟨0, 0, fun _ => Mat.one, 0, 0, none⟩, ⟨0, 0, fun _ => Mat.one, 0, 0, none⟩, 0, 0, 0, ⟨0, 0, 0, 0⟩, 0⟩, 0, 0, 0, 0⟩⟩

/-- The operators of a module, as the argument of C65. -/
def DiffopModule.ops (M : DiffopModule El F) : ℕ → ℕ → F → F → Option (List DArr) := fun _ _ i j => some ((M.basis i j).map Prod.snd)

/-- The attributes of a module, as the argument of C65. -/
def DiffopModule.attr (M : DiffopModule El F) (i j : F) (idx : ℕ) : TensorAttr El := ((M.basis i j)[idx]?.map Prod.fst).getD default

/-- What the constructor computes. -/
theorem r2diffopInit_spec {smp : Sampler} {G : DiffopGen El} {a : DiffopArgs El} {rep : F → Repr El} {inT outT : List F} {M : DiffopModule El F}
    (h : r2diffopInit smp G a rep inT outT = some M) :
    M.cfg = a.cfg ∧ ∃ pw, a.cfg.resolve = some (M.size, M.order, pw) ∧ convGroups a.groups inT outT = some M.inG ∧
      (∀ i ∈ M.inG, ∀ j ∈ outT, buildDiffopBasis G pw (some M.order) a.maximumOffset (rep i) (rep j) = some (M.basis i j)) ∧
      (∀ i j, ¬ (i ∈ M.inG ∧ j ∈ outT) → M.basis i j = []) ∧
      (∀ i ∈ M.inG, ∀ j ∈ outT, ∀ b ∈ M.basis i j, M.cfg.keepOf M.order (b.1.order, b.1) = true →
        (smp M.size a.dilation (rep j).size (rep i).size a.angleOffset b.2).isSome) ∧
      (M.exp smp rep outT).dimension ≠ 0 := by
  classical
  unfold r2diffopInit at h
  cases hr : a.cfg.resolve with
  | none => simp [hr] at h
  | some t =>
    obtain ⟨k, o, pw⟩ := t
    rw [hr] at h
    cases hg : convGroups a.groups inT outT with
    | none => simp [hg] at h
    | some inG =>
      rw [hg] at h
      dsimp only at h
      split_ifs at h with h1 h2 h3
      obtain rfl := Option.some.inj h
      refine ⟨rfl, pw, rfl, rfl, ?_, ?_, h2, h3⟩
      · intro i hi j hj
        obtain ⟨l, hl⟩ := Option.ne_none_iff_exists'.1 (h1 i hi j hj)
        simp only [hl, Option.getD_some]
        rw [if_pos ⟨hi, hj⟩]
      · intro i j hij
        exact if_neg hij

/-- The samples of a module are those of C65. -/
theorem sampled_eq (smp : Sampler) (M : DiffopModule El F) (rep : F → Repr El) (hdeg : ∀ i j, ∀ b ∈ M.basis i j, b.2.deg = b.1.order) (o pw : ℕ) :
    diffopBasis smp M.size M.cfg.d M.cfg.angle rep (M.ops o pw) M.attr = M.sampled smp rep := by
  funext i j
  refine List.ext_getElem? fun k => ?_
  simp only [diffopBasis, DiffopModule.sampled, DiffopModule.ops, Option.getD_some, List.getElem?_map, List.getElem?_zipIdx, Option.map_map, DiffopModule.attr]
  cases hk : (M.basis i j)[k]? with
  | none => rfl
  | some b =>
    have := hdeg i j b (List.mem_of_getElem? hk)
    simp [this, hk]

/-- The module in the terms of C65. -/
theorem forward_eq {smp : Sampler} {Sp : Space El} {G : DiffopGen El} {a : DiffopArgs El} {rep : F → Repr El} {inT outT : List F}
    {M : DiffopModule El F} (hG : DiffopGenOk Sp G rep inT outT) (hne : inT ≠ [] ∧ outT ≠ []) (hsz : ∀ n ∈ inT ++ outT, 0 < (rep n).size)
    (hg : 0 < a.groups) (h : r2diffopInit smp G a rep inT outT = some M) :
    ∃ pw, a.cfg.resolve = some (M.size, M.order, pw) ∧ convGroups a.groups inT outT = some M.inG ∧
      (∀ i j, ∀ b ∈ M.basis i j, b.2.deg = b.1.order) ∧
      a.cfg.Sampled smp M.size M.order rep M.inG outT (M.ops M.order pw) M.attr ∧
      FilterInput rep inT outT (diffopBasis smp M.size a.cfg.d a.cfg.angle rep (M.ops M.order pw) M.attr) a.cfg.ident ∧
      a.cfg.exp smp M.size M.order rep M.inG outT (M.ops M.order pw) M.attr = M.exp smp rep outT ∧ (M.exp smp rep outT).dimension ≠ 0 ∧
      (∀ o pw, OpsOk Sp rep inT outT (M.ops o pw)) ∧
      ∀ w b n x, M.forward smp rep outT w b n x = r2diffop a.cfg smp rep inT outT M.ops M.attr w b n x := by
  classical
  obtain ⟨hcfg, pw, hr, hgr, hbas, hout, hsam, hdim⟩ := r2diffopInit_spec h
  obtain ⟨hin, outG, -⟩ := convGroups_spec hgr hg hne.1 hne.2
  have hsub : ∀ n, n ∈ M.inG ↔ n ∈ inT := by
    intro n
    rw [hin, List.mem_flatten]
    exact ⟨fun hn => ⟨M.inG, List.mem_replicate.2 ⟨by omega, rfl⟩, hn⟩, fun ⟨l, hl, hn⟩ => (List.mem_replicate.1 hl).2 ▸ hn⟩
  have hb : ∀ i ∈ inT, ∀ j ∈ outT, (∀ b ∈ M.basis i j, b.2.deg = b.1.order ∧
      KernelConstraint Sp.G Sp.act (rep j).size (rep i).size (rep j).mat (rep i).mat b.2.eval) ∧ ((M.basis i j).map fun b => diffopId b.1).Nodup :=
    fun i hi j hj => c68_build_diffop_basis Sp G rep inT outT hG pw _ _ i j hi hj _ (hbas i ((hsub i).2 hi) j hj)
  have hdeg : ∀ i j, ∀ b ∈ M.basis i j, b.2.deg = b.1.order := by
    intro i j b hbm
    by_cases hij : i ∈ M.inG ∧ j ∈ outT
    · exact ((hb i ((hsub i).1 hij.1) j hij.2).1 b hbm).1
    · rw [hout i j hij] at hbm
      simp at hbm
  have hseq := sampled_eq smp M rep hdeg M.order pw
  rw [hcfg] at hseq
  have hS : a.cfg.Sampled smp M.size M.order rep M.inG outT (M.ops M.order pw) M.attr := by
    intro i hi j hj D hD hkeep
    obtain ⟨D, idx⟩ := D
    have hD' := List.mem_zipIdx_iff_getElem?.1 hD
    simp only [DiffopModule.ops, Option.getD_some, List.getElem?_map] at hD'
    obtain ⟨b, hbm, rfl⟩ := Option.map_eq_some_iff.1 hD'
    have := hdeg i j b (List.mem_of_getElem? hbm)
    refine hsam i hi j hj b (List.mem_of_getElem? hbm) ?_
    simp only [DiffopModule.attr, hbm, Option.map_some, Option.getD_some, this] at hkeep
    rw [hcfg]
    exact hkeep
  have hexp : a.cfg.exp smp M.size M.order rep M.inG outT (M.ops M.order pw) M.attr = M.exp smp rep outT := by
    rw [DiffopCfg.exp, DiffopModule.exp, hseq, hcfg]
  refine ⟨pw, hr, hgr, hdeg, hS, ?_, hexp, hdim, ?_, ?_⟩
  · refine ⟨hne.1, hne.2, fun n hn => hsz n (List.mem_append_left _ hn), fun n hn => hsz n (List.mem_append_right _ hn), ?_⟩
    intro i hi j hj
    rw [hseq, DiffopModule.sampled, List.map_map]
    exact (hb i hi j hj).2
  · intro o' pw' i hi j hj
    refine ⟨_, rfl, fun D hD => ?_⟩
    obtain ⟨b, hbm, rfl⟩ := List.mem_map.1 hD
    exact ((hb i hi j hj).1 b hbm).2
  · intro w b n x
    have hg' : convGroups a.cfg.groups inT outT = some M.inG := hgr
    rw [r2diffop, hr]
    dsimp only
    rw [hg']
    dsimp only
    rw [if_pos hS, hexp, if_neg hdim, DiffopModule.forward, hcfg]
    cases (M.exp smp rep outT).forward w <;> rfl

/-- The claim for one space and its operators, the arguments selected by `ok` and the elements selected by `sel`: if the constructor succeeds then the layer
accepts every weights, biases and images and commutes with the elements. -/
def R2DiffopCommutes (smp : Sampler) (Sp : Space El) (G : DiffopGen El) (rep : F → Repr El) (inT outT : List F)
    (ok : DiffopArgs El → DiffopModule El F → Prop) (sel : El → Prop) : Prop :=
  ∀ (a : DiffopArgs El) (M : DiffopModule El F), r2diffopInit smp G a rep inT outT = some M → ok a M → 0 < a.groups → 0 < a.dilation →
    -- one weight for each parameter; the padding is accepted, the output has `m × m` pixels, the windows cover the padded image
    ∀ (w b : List ℝ) (n m : ℕ), w.length = (M.exp smp rep outT).dimension → padOk a.paddingMode n a.padding →
    convSize n a.padding M.size a.stride a.dilation = some m → a.stride ∣ n + 2 * a.padding - a.dilation * (M.size - 1) - 1 →
    ∃ layer : Fmap → Fmap, (∀ x, M.forward smp rep outT w b n x = some (layer x)) ∧
      ∀ g, Sp.G.isEl g → Sp.grid g → sel g → ∀ x,
        FEq (typeSize (fun m => (rep m).size) outT) m
          (layer (fieldAct (typeSize (fun m => (rep m).size) inT) (typeMat rep inT g) (Sp.base n g) x))
          (fieldAct (typeSize (fun m => (rep m).size) outT) (typeMat rep outT g) (Sp.base m g) (layer x))

/-- All the operators which pass the filter have even order, and there is no angle offset. -/
def EvenOps (a : DiffopArgs El) (M : DiffopModule El F) : Prop :=
  a.angleOffset = none ∧ ∀ i j, ∀ b ∈ M.basis i j, M.cfg.keepOf M.order (b.1.order, b.1) = true → Even b.1.order

/-- All the operators which pass the filter have odd order, and there is no angle offset. -/
def OddOps (a : DiffopArgs El) (M : DiffopModule El F) : Prop :=
  a.angleOffset = none ∧ ∀ i j, ∀ b ∈ M.basis i j, M.cfg.keepOf M.order (b.1.order, b.1) = true → Odd b.1.order

theorem R2DiffopCommutes.mono {smp : Sampler} {Sp : Space El} {G : DiffopGen El} {rep : F → Repr El} {inT outT : List F}
    {ok : DiffopArgs El → DiffopModule El F → Prop} {sel sel' : El → Prop} (h : R2DiffopCommutes smp Sp G rep inT outT ok sel)
    (hs : ∀ g, Sp.G.isEl g → Sp.grid g → sel' g → sel g) : R2DiffopCommutes smp Sp G rep inT outT ok sel' := by
  intro a M hM hok hg hd w b n m hw hpad hm hdiv
  obtain ⟨layer, h1, h2⟩ := h a M hM hok hg hd w b n m hw hpad hm hdiv
  exact ⟨layer, h1, fun g hg1 hg2 hs' => h2 g hg1 hg2 (hs g hg1 hg2 hs')⟩

/-- **C68, rotations**, for a space whose operators satisfy the constraint.  Missing: the reflections, for which the claim is false
(`c68_reflections_wrong`). -/
theorem c68_rotations_partial {fd : ℕ → List ℝ → ℕ → ℝ} (hfd : FDSpec fd) (Sp : Space El) (hgrid : Sp.GridAction) (hinv : Sp.G.InvOk) (G : DiffopGen El)
    (rep : F → Repr El) (inT outT : List F) (hG : DiffopGenOk Sp G rep inT outT) (hne : inT ≠ [] ∧ outT ≠ []) (hsz : ∀ n ∈ inT ++ outT, 0 < (rep n).size)
    (hrep : ∀ n ∈ inT, IsRep Sp.G (rep n).size (rep n).mat) (hbias : BiasOk Sp.G rep outT) :
    R2DiffopCommutes (fdSample fd) Sp G rep inT outT (fun _ _ => True) (Turns Sp) := by
  intro a M hM _ hg hd w b n m hw hpad hm hdiv
  obtain ⟨pw, hr, hgr, hdeg, hS, hi, hexp, hdim, hops, hf⟩ := forward_eq hG hne hsz hg hM
  obtain ⟨layer, h1, h2⟩ := c65_rotations_partial hfd Sp hgrid hinv rep inT outT M.ops M.attr a.cfg hops hrep hbias M.size M.order pw M.inG n m w b hr hS hi hd hg
    hgr (by rw [hexp]; exact hdim) (by rw [hexp]; exact hw) hpad hm hdiv
  exact ⟨layer, fun x => by rw [hf, h1], h2⟩

/-- What passes the filter, in the terms of C65. -/
theorem DiffopModule.kept {M : DiffopModule El F} {a : DiffopArgs El} (hcfg : M.cfg = a.cfg) (hdeg : ∀ i j, ∀ b ∈ M.basis i j, b.2.deg = b.1.order)
    {o pw : ℕ} {i j : F} {l : List DArr} (hl : M.ops o pw i j = some l) {idx : ℕ} {D : DArr} (hD : l[idx]? = some D) (hle : D.deg ≤ M.order)
    (hk : a.cfg.keep (D.deg, M.attr i j idx) = true) :
    ∃ b ∈ M.basis i j, b.1.order = D.deg ∧ M.cfg.keepOf M.order (b.1.order, b.1) = true := by
  obtain rfl := Option.some.inj hl
  rw [List.getElem?_map] at hD
  obtain ⟨b, hb, rfl⟩ := Option.map_eq_some_iff.1 hD
  have h1 := hdeg i j b (List.mem_of_getElem? hb)
  refine ⟨b, List.mem_of_getElem? hb, h1.symm, ?_⟩
  simp only [DiffopModule.attr, hb, Option.map_some, Option.getD_some, h1] at hk
  rw [h1] at hle
  rw [hcfg, DiffopCfg.keepOf, hk, decide_eq_true hle]
  rfl

/-- **C68, operators of even orders**: without an angle offset the layer commutes with all the elements which permute the pixels. -/
theorem c68_even_orders {fd : ℕ → List ℝ → ℕ → ℝ} (hfd : FDSpec fd) (Sp : Space El) (hgrid : Sp.GridAction) (hinv : Sp.G.InvOk) (G : DiffopGen El)
    (rep : F → Repr El) (inT outT : List F) (hG : DiffopGenOk Sp G rep inT outT) (hne : inT ≠ [] ∧ outT ≠ []) (hsz : ∀ n ∈ inT ++ outT, 0 < (rep n).size)
    (hrep : ∀ n ∈ inT, IsRep Sp.G (rep n).size (rep n).mat) (hbias : BiasOk Sp.G rep outT) :
    R2DiffopCommutes (fdSample fd) Sp G rep inT outT EvenOps fun g => Turns Sp g ∨ Reflects Sp g := by
  intro a M hM hok hg hd w b n m hw hpad hm hdiv
  have hcfg := (r2diffopInit_spec hM).1
  obtain ⟨pw, hr, hgr, hdeg, hS, hi, hexp, hdim, hops, hf⟩ := forward_eq hG hne hsz hg hM
  obtain ⟨layer, h1, h2⟩ := c65_even_orders hfd Sp hgrid hinv rep inT outT M.ops M.attr a.cfg hops hrep hbias hok.1 (by
      intro k o pw' hr' i _ j _ l hl idx D hD hle hk
      rw [hr] at hr'
      obtain ⟨rfl, rfl, rfl⟩ : M.size = k ∧ M.order = o ∧ pw = pw' := by simpa using hr'
      obtain ⟨b, hb, h3, h4⟩ := DiffopModule.kept hcfg hdeg hl hD hle hk
      rw [← h3]
      exact hok.2 i j b hb h4)
    M.size M.order pw M.inG n m w b hr hS hi hd hg hgr (by rw [hexp]; exact hdim) (by rw [hexp]; exact hw) hpad hm hdiv
  exact ⟨layer, fun x => by rw [hf, h1], h2⟩

/-- **C68 is false at the reflections**: if all the operators which pass the filter have odd order, then, without an angle offset, padding and bias, for every
reflection of the group which permutes the pixels there are weights and an image for which the layer built by the constructor does not commute with it. -/
theorem c68_reflections_wrong {fd : ℕ → List ℝ → ℕ → ℝ} (hfd : FDSpec fd) (Sp : Space El) (hgrid : Sp.GridAction) (hinv : Sp.G.InvOk) (G : DiffopGen El)
    (rep : F → Repr El) (inT outT : List F) (hG : DiffopGenOk Sp G rep inT outT) (hne : inT ≠ [] ∧ outT ≠ []) (hsz : ∀ n ∈ inT ++ outT, 0 < (rep n).size)
    (hrep : ∀ n ∈ inT ++ outT, IsRep Sp.G (rep n).size (rep n).mat) (a : DiffopArgs El) (M : DiffopModule El F)
    (hM : r2diffopInit (fdSample fd) G a rep inT outT = some M) (hok : OddOps a M) (hg : 0 < a.groups) (hd : 0 < a.dilation) (hp : a.padding = 0)
    (hmode : a.paddingMode = .zeros) (g : El) (hg1 : Sp.G.isEl g) (hg2 : Sp.grid g) (hg3 : Reflects Sp g) :
    ∃ (w : List ℝ) (n : ℕ) (layer : Fmap → Fmap), convSize n a.padding M.size a.stride a.dilation = some 1 ∧
      (∀ x, M.forward (fdSample fd) rep outT w [] n x = some (layer x)) ∧
      ∃ x, ¬ FEq (typeSize (fun m => (rep m).size) outT) 1
        (layer (fieldAct (typeSize (fun m => (rep m).size) inT) (typeMat rep inT g) (Sp.base n g) x))
        (fieldAct (typeSize (fun m => (rep m).size) outT) (typeMat rep outT g) (Sp.base 1 g) (layer x)) := by
  have hcfg := (r2diffopInit_spec hM).1
  obtain ⟨pw, hr, hgr, hdeg, hS, hi, hexp, hdim, hops, hf⟩ := forward_eq hG hne hsz hg hM
  obtain ⟨w, n, layer, h1, h2, h3⟩ := c65_reflections_wrong hfd Sp hgrid hinv rep inT outT M.ops M.attr a.cfg hops hrep hok.1 M.size M.order pw (by
      intro i _ j _ l hl idx D hD hle hk
      obtain ⟨b, hb, h3, h4⟩ := DiffopModule.kept hcfg hdeg hl hD hle hk
      rw [← h3]
      exact hok.2 i j b hb h4)
    M.inG hr hS hi hd hg hgr (by rw [hexp]; exact hdim) hp hmode g hg1 hg2 hg3
  exact ⟨w, n, layer, h1, fun x => by rw [hf, h2], h3⟩

/-! ### The spaces of the library -/

section spaces

variable (interp : ℝ → Img → Img) (inT outT : List F) (hne : inT ≠ [] ∧ outT ≠ [])

theorem diffopGenOk_cyclic (N : ℕ) (hN : 0 < N) (rep : F → Repr ℤ)
    (hr : ∀ n ∈ inT ++ outT, (rep n).WF ∧ ∀ i ∈ (rep n).irreps, ∃ k, Cyclic.irrep N k = some i) :
    DiffopGenOk (rotSpace interp N) (rot2dDiffops N) rep inT outT := by
  refine ⟨fun g p => radius_rot _ p, fun n hn => (hr n hn).1, ?_⟩
  intro mf mo bas hb i hi o ho ri hri ro hro
  obtain ⟨b, hcb, rfl⟩ := Option.map_eq_some_iff.1 hb
  obtain ⟨n, hn⟩ := (hr i (List.mem_append_left _ hi)).2 ri hri
  obtain ⟨m, hm⟩ := (hr o (List.mem_append_right _ ho)).2 ro hro
  obtain ⟨l, h1, -, h2⟩ := c47_cyclic_irreps N hN n m ri ro hn hm b.1 b.2 (checkBounds_some hcb)
  exact ⟨l, h1, h2⟩

theorem diffopGenOk_so2 (rep : F → Repr ℝ) (hr : ∀ n ∈ inT ++ outT, (rep n).WF ∧ ∀ i ∈ (rep n).irreps, ∃ k, i = SO2.irrep k) :
    DiffopGenOk (so2Space interp) so2Diffops rep inT outT := by
  refine ⟨fun g p => radius_rot _ p, fun n hn => (hr n hn).1, ?_⟩
  intro mf mo bas hb i hi o ho ri hri ro hro
  obtain rfl := Option.some.inj hb
  obtain ⟨n, rfl⟩ := (hr i (List.mem_append_left _ hi)).2 ri hri
  obtain ⟨m, rfl⟩ := (hr o (List.mem_append_right _ ho)).2 ro hro
  obtain ⟨l, h1, -, h2⟩ := c47_so2_irreps n m
  exact ⟨l, h1, h2⟩

theorem diffopGenOk_flip (axis : ℝ) (rep : F → Repr ℤ)
    (hr : ∀ n ∈ inT ++ outT, (rep n).WF ∧ ∀ i ∈ (rep n).irreps, ∃ k, Cyclic.irrep 2 k = some i) :
    DiffopGenOk (flipSpace interp axis) (flip2dDiffops axis) rep inT outT := by
  refine ⟨fun g p => ?_, fun n hn => (hr n hn).1, ?_⟩
  · show radius (if g = 0 then p else refl axis p) = _
    split_ifs
    exacts [rfl, radius_refl _ _]
  intro mf mo bas hb i hi o ho ri hri ro hro
  obtain ⟨b, hcb, rfl⟩ := Option.map_eq_some_iff.1 hb
  obtain ⟨n, hn⟩ := (hr i (List.mem_append_left _ hi)).2 ri hri
  obtain ⟨m, hm⟩ := (hr o (List.mem_append_right _ ho)).2 ro hro
  obtain ⟨l, h1, -, h2⟩ := c47_flip_irreps axis n m ri ro hn hm b.1 b.2 (checkBounds_some hcb)
  exact ⟨l, h1, h2⟩

theorem diffopGenOk_dihedral (N : ℕ) (hN : 0 < N) (axis : ℝ) (rep : F → Repr (ℤ × ℤ))
    (hr : ∀ n ∈ inT ++ outT, (rep n).WF ∧ ∀ i ∈ (rep n).irreps, ∃ j k, Dihedral.irrep N j k = some i) :
    DiffopGenOk (flipRotSpace interp N axis) (flipRot2dDiffops N axis) rep inT outT := by
  refine ⟨fun g p => radius_planeAct axis _ p, fun n hn => (hr n hn).1, ?_⟩
  intro mf mo bas hb i hi o ho ri hri ro hro
  obtain ⟨b, hcb, rfl⟩ := Option.map_eq_some_iff.1 hb
  obtain ⟨j, n, hn⟩ := (hr i (List.mem_append_left _ hi)).2 ri hri
  obtain ⟨j', m, hm⟩ := (hr o (List.mem_append_right _ ho)).2 ro hro
  obtain ⟨l, h1, -, h2⟩ := c47_dihedral_irreps N hN axis j n j' m ri ro hn hm b.1 b.2 (checkBounds_some hcb)
  exact ⟨l, h1, h2⟩

theorem diffopGenOk_o2 (axis : ℝ) (rep : F → Repr (ℤ × ℝ))
    (hr : ∀ n ∈ inT ++ outT, (rep n).WF ∧ ∀ i ∈ (rep n).irreps, ∃ j k, O2.irrep j k = some i) :
    DiffopGenOk (o2Space interp axis) (o2Diffops axis) rep inT outT := by
  refine ⟨fun g p => radius_planeAct axis g p, fun n hn => (hr n hn).1, ?_⟩
  intro mf mo bas hb i hi o ho ri hri ro hro
  obtain rfl := Option.some.inj hb
  obtain ⟨j, n, hn⟩ := (hr i (List.mem_append_left _ hi)).2 ri hri
  obtain ⟨j', m, hm⟩ := (hr o (List.mem_append_right _ ho)).2 ro hro
  obtain ⟨l, h1, -, h2⟩ := c47_o2_irreps axis j n j' m ri ro hn hm
  exact ⟨l, h1, h2⟩

theorem diffopGenOk_trivial (rep : F → Repr ℤ) (hr : ∀ n ∈ inT ++ outT, (rep n).WF ∧ ∀ i ∈ (rep n).irreps, ∃ k, Cyclic.irrep 1 k = some i) :
    DiffopGenOk trivialSpace trivialDiffops rep inT outT := by
  refine ⟨fun g p => rfl, fun n hn => (hr n hn).1, ?_⟩
  intro mf mo bas hb i hi o ho ri hri ro hro
  obtain ⟨b, hcb, rfl⟩ := Option.map_eq_some_iff.1 hb
  obtain ⟨n, hn⟩ := (hr i (List.mem_append_left _ hi)).2 ri hri
  obtain ⟨m, hm⟩ := (hr o (List.mem_append_right _ ho)).2 ro hro
  obtain ⟨l, h1, -, h2⟩ := c47_cyclic_irreps 1 (by norm_num) n m ri ro hn hm b.1 b.2 (checkBounds_some hcb)
  refine ⟨l, h1, fun e he => ⟨(h2 e he).1, fun g hg p => ?_⟩⟩
  have h0 : g = 0 := by
    have h' : Cyclic.isElement 1 g = true := hg
    simp [Cyclic.isElement, Cyclic.order_eq] at h'
    omega
  have h := (h2 e he).2 g hg p
  subst h0
  simpa [rot_zero, trivialSpace, trivialDiffops] using h

include hne

/-- **C68 for `Rot2dOnR2(N)`**: all arguments, all the rotations of the group by multiples of a right angle. -/
theorem c68_cyclic {fd : ℕ → List ℝ → ℕ → ℝ} (hfd : FDSpec fd) (N : ℕ) (hN : 0 < N) (rep : F → Repr ℤ) (hsz : ∀ n ∈ inT ++ outT, 0 < (rep n).size)
    (hr : ∀ n ∈ inT ++ outT, (rep n).WF ∧ ∀ i ∈ (rep n).irreps, ∃ k, Cyclic.irrep N k = some i) :
    R2DiffopCommutes (fdSample fd) (rotSpace interp N) (rot2dDiffops N) rep inT outT (fun _ _ => True) fun _ => True :=
  (c68_rotations_partial hfd _ (rotSpace_grid interp N hN) (Cyclic.invOk hN) _ rep inT outT (diffopGenOk_cyclic interp inT outT N hN rep hr) hne hsz
    (fun n hn => Cyclic.isRep_of hN (hr n (List.mem_append_left _ hn)))
    (c26_cyclic N hN rep outT fun n hn => hr n (List.mem_append_right _ hn))).mono fun g _ hq _ => ⟨_, hq, fun p => rfl⟩

/-- **C68 for `Rot2dOnR2(-1)`.** -/
theorem c68_so2 {fd : ℕ → List ℝ → ℕ → ℝ} (hfd : FDSpec fd) (rep : F → Repr ℝ) (hsz : ∀ n ∈ inT ++ outT, 0 < (rep n).size)
    (hr : ∀ n ∈ inT ++ outT, (rep n).WF ∧ ∀ i ∈ (rep n).irreps, ∃ k, i = SO2.irrep k) :
    R2DiffopCommutes (fdSample fd) (so2Space interp) so2Diffops rep inT outT (fun _ _ => True) fun _ => True :=
  (c68_rotations_partial hfd _ (so2Space_grid interp) SO2.invOk _ rep inT outT (diffopGenOk_so2 interp inT outT rep hr) hne hsz
    (fun n hn => SO2.isRep_of (hr n (List.mem_append_left _ hn)))
    (c26_so2 rep outT fun n hn => hr n (List.mem_append_right _ hn))).mono fun g _ hq _ => ⟨_, hq, fun p => rfl⟩

/-- **C68 for `TrivialOnR2()`.** -/
theorem c68_trivial {fd : ℕ → List ℝ → ℕ → ℝ} (hfd : FDSpec fd) (rep : F → Repr ℤ) (hsz : ∀ n ∈ inT ++ outT, 0 < (rep n).size)
    (hr : ∀ n ∈ inT ++ outT, (rep n).WF ∧ ∀ i ∈ (rep n).irreps, ∃ k, Cyclic.irrep 1 k = some i) :
    R2DiffopCommutes (fdSample fd) trivialSpace trivialDiffops rep inT outT (fun _ _ => True) fun _ => True :=
  (c68_rotations_partial hfd _ trivialSpace_grid (Cyclic.invOk (N := 1) (by norm_num)) _ rep inT outT (diffopGenOk_trivial inT outT rep hr) hne hsz
    (fun n hn => Cyclic.isRep_of (N := 1) (by norm_num) (hr n (List.mem_append_left _ hn)))
    (c26_cyclic 1 (by norm_num) rep outT fun n hn => hr n (List.mem_append_right _ hn))).mono fun g _ hq _ =>
      ⟨0, quarter_zero, fun p => by simp [trivialSpace, rot_zero]⟩

/-- **C68 for `FlipRot2dOnR2(N)`**: the rotations.  Missing: the reflections (`c68_reflections_wrong`). -/
theorem c68_dihedral_partial {fd : ℕ → List ℝ → ℕ → ℝ} (hfd : FDSpec fd) (N : ℕ) (hN : 0 < N) (axis : ℝ) (rep : F → Repr (ℤ × ℤ))
    (hsz : ∀ n ∈ inT ++ outT, 0 < (rep n).size)
    (hr : ∀ n ∈ inT ++ outT, (rep n).WF ∧ ∀ i ∈ (rep n).irreps, ∃ j k, Dihedral.irrep N j k = some i) :
    R2DiffopCommutes (fdSample fd) (flipRotSpace interp N axis) (flipRot2dDiffops N axis) rep inT outT (fun _ _ => True) fun g => g.1 = 0 := by
  refine (c68_rotations_partial hfd _ (flipRotSpace_grid interp N axis) (Dihedral.invOk hN) _ rep inT outT
    (diffopGenOk_dihedral interp inT outT N hN axis rep hr) hne hsz (fun n hn => Dihedral.isRep_of hN (hr n (List.mem_append_left _ hn)))
    (c26_dihedral N hN rep outT fun n hn => hr n (List.mem_append_right _ hn))).mono fun g _ hq h0 => ?_
  obtain ⟨s, r⟩ := g
  obtain rfl : s = 0 := h0
  exact ⟨_, by simpa [flipRotSpace] using hq, fun p => planeAct_turn _ _ p⟩

/-- **C68 for `FlipRot2dOnR2(-1)`**: the rotations.  Missing: the reflections (`c68_reflections_wrong`). -/
theorem c68_o2_partial {fd : ℕ → List ℝ → ℕ → ℝ} (hfd : FDSpec fd) (axis : ℝ) (rep : F → Repr (ℤ × ℝ)) (hsz : ∀ n ∈ inT ++ outT, 0 < (rep n).size)
    (hr : ∀ n ∈ inT ++ outT, (rep n).WF ∧ ∀ i ∈ (rep n).irreps, ∃ j k, O2.irrep j k = some i) :
    R2DiffopCommutes (fdSample fd) (o2Space interp axis) (o2Diffops axis) rep inT outT (fun _ _ => True) fun g => g.1 = 0 := by
  refine (c68_rotations_partial hfd _ (o2Space_grid interp axis) O2.invOk _ rep inT outT
    (diffopGenOk_o2 interp inT outT axis rep hr) hne hsz (fun n hn => O2.isRep_of (hr n (List.mem_append_left _ hn)))
    (c26_o2 rep outT fun n hn => hr n (List.mem_append_right _ hn))).mono fun g _ hq h0 => ?_
  obtain ⟨s, r⟩ := g
  obtain rfl : s = 0 := h0
  exact ⟨_, by simpa [o2Space] using hq, fun p => planeAct_turn _ _ p⟩

/-- **C68 for `FlipRot2dOnR2(N)` with operators of even orders**: all the elements which permute the pixels. -/
theorem c68_dihedral_even {fd : ℕ → List ℝ → ℕ → ℝ} (hfd : FDSpec fd) (N : ℕ) (hN : 0 < N) (axis : ℝ) (rep : F → Repr (ℤ × ℤ))
    (hsz : ∀ n ∈ inT ++ outT, 0 < (rep n).size)
    (hr : ∀ n ∈ inT ++ outT, (rep n).WF ∧ ∀ i ∈ (rep n).irreps, ∃ j k, Dihedral.irrep N j k = some i) :
    R2DiffopCommutes (fdSample fd) (flipRotSpace interp N axis) (flipRot2dDiffops N axis) rep inT outT EvenOps fun _ => True :=
  (c68_even_orders hfd _ (flipRotSpace_grid interp N axis) (Dihedral.invOk hN) _ rep inT outT
    (diffopGenOk_dihedral interp inT outT N hN axis rep hr) hne hsz (fun n hn => Dihedral.isRep_of hN (hr n (List.mem_append_left _ hn)))
    (c26_dihedral N hN rep outT fun n hn => hr n (List.mem_append_right _ hn))).mono fun g _ hq _ => planeAct_cases axis g.1 _ hq

/-- **C68 for `FlipRot2dOnR2(-1)` with operators of even orders.** -/
theorem c68_o2_even {fd : ℕ → List ℝ → ℕ → ℝ} (hfd : FDSpec fd) (axis : ℝ) (rep : F → Repr (ℤ × ℝ)) (hsz : ∀ n ∈ inT ++ outT, 0 < (rep n).size)
    (hr : ∀ n ∈ inT ++ outT, (rep n).WF ∧ ∀ i ∈ (rep n).irreps, ∃ j k, O2.irrep j k = some i) :
    R2DiffopCommutes (fdSample fd) (o2Space interp axis) (o2Diffops axis) rep inT outT EvenOps fun _ => True :=
  (c68_even_orders hfd _ (o2Space_grid interp axis) O2.invOk _ rep inT outT
    (diffopGenOk_o2 interp inT outT axis rep hr) hne hsz (fun n hn => O2.isRep_of (hr n (List.mem_append_left _ hn)))
    (c26_o2 rep outT fun n hn => hr n (List.mem_append_right _ hn))).mono fun g _ hq _ => planeAct_cases axis g.1 g.2 hq

/-- **C68 for `Flip2dOnR2(axis)` with operators of even orders.** -/
theorem c68_flip_even {fd : ℕ → List ℝ → ℕ → ℝ} (hfd : FDSpec fd) (axis : ℝ) (rep : F → Repr ℤ) (hsz : ∀ n ∈ inT ++ outT, 0 < (rep n).size)
    (hr : ∀ n ∈ inT ++ outT, (rep n).WF ∧ ∀ i ∈ (rep n).irreps, ∃ k, Cyclic.irrep 2 k = some i) :
    R2DiffopCommutes (fdSample fd) (flipSpace interp axis) (flip2dDiffops axis) rep inT outT EvenOps fun _ => True := by
  refine (c68_even_orders hfd _ (flipSpace_grid interp axis) (Cyclic.invOk (N := 2) (by norm_num)) _ rep inT outT
    (diffopGenOk_flip interp inT outT axis rep hr) hne hsz
    (fun n hn => Cyclic.isRep_of (N := 2) (by norm_num) (hr n (List.mem_append_left _ hn)))
    (c26_cyclic 2 (by norm_num) rep outT fun n hn => hr n (List.mem_append_right _ hn))).mono fun g _ hq _ => ?_
  by_cases hg : g = 0
  · exact Or.inl ⟨0, quarter_zero, fun p => by simp [flipSpace, hg, rot_zero]⟩
  · exact Or.inr ⟨axis, (hq.resolve_left hg), fun p => by simp [flipSpace, hg]⟩

end spaces

/-! ### Concrete layers -/

theorem buildDiffopBasis_ops {G : DiffopGen El} {pw : ℕ} {mf mo : Option ℤ} {rin rout : Repr El} {bas : Irrep El → Irrep El → Option (List DElem)}
    (hb : G.bas mf mo = some bas) {ds : List DArr} (hd : tensorBasis bas G.cf rin rout pw = some ds) :
    ∃ l, buildDiffopBasis G pw mf mo rin rout = some l ∧ l.map Prod.snd = ds ∧ ∀ b ∈ l, b.1.angular.outIrrep ∈ rout.irreps := by
  obtain ⟨S, hS, rfl⟩ := Option.map_eq_some_iff.1 hd
  refine ⟨_, by rw [buildDiffopBasis, hb]; dsimp only; rw [hS, Option.map_some], ?_, ?_⟩
  · obtain ⟨h, -, h1, h2⟩ := tensor_zip S G.cf pw
    rw [h2, h1, List.map_map]
    exact enum_map_snd h _
  · intro b hbm
    obtain ⟨f, -, -, hz⟩ := tensor_zip S G.cf pw
    rw [hz] at hbm
    obtain ⟨p, hp, rfl⟩ := List.mem_map.1 hbm
    obtain ⟨h1, -⟩ := mem_tensorPairs (mem_enum hp)
    obtain ⟨idx, hidx⟩ := List.mem_iff_getElem?.1 h1
    obtain ⟨-, a2, -, -⟩ := S.iter_get hidx
    unfold steerable at hS
    split at hS
    swap
    · exact absurd hS (by simp)
    obtain rfl := Option.some.inj hS
    exact List.mem_of_getElem? a2

/-- The arguments `kernel_size=3, maximum_order=1` and the defaults. -/
def exArgs : DiffopArgs ℤ := ⟨some 3, none, some 1, none, none, 0, 1, 1, .zeros, 1, none, none⟩

/-- With the derivative along the second axis among the operators, the constructor succeeds if its filter is not small. -/
theorem exArgs_init_of (smp : Sampler) (hsome : ∀ D : DArr, D.deg ≤ 1 → (smp 3 1 1 1 none D).isSome)
    (hnorm : ∀ D : DArr, D.deg = 1 → D.co 0 0 0 = 0 → D.co 0 0 1 = 1 → ∀ f, smp 3 1 1 1 none D = some f → 1e-2 ≤ sqNorm 1 1 (3 * 3) fun r c s => f s r c) (Sp : Space ℤ) (G : DiffopGen ℤ) (hG : DiffopGenOk Sp G exFlipRep [0] [1])
    {bas : Irrep ℤ → Irrep ℤ → Option (List DElem)} (hb : G.bas (some 1) none = some bas) {ds : List DArr}
    (hds : tensorBasis bas G.cf (exFlipRep 0) (exFlipRep 1) 0 = some ds) (D : DArr) (hD : D ∈ ds) (hdeg : D.deg = 1) (h0 : D.co 0 0 0 = 0)
    (h1 : D.co 0 0 1 = 1) :
    ∃ M, r2diffopInit smp G exArgs exFlipRep [0] [1] = some M ∧ M.size = 3 ∧ M.order = 1 ∧ (M.basis 0 1).map Prod.snd = ds ∧
      ∀ i j, ¬ (i = 0 ∧ j = 1) → M.basis i j = [] := by
  classical
  obtain ⟨l, hl, hsnd, hirr⟩ := buildDiffopBasis_ops hb hds
  obtain ⟨hdl, hnd⟩ := c68_build_diffop_basis Sp G exFlipRep [0] [1] hG 0 _ _ 0 1 (by simp) (by simp) l hl
  set M : DiffopModule ℤ ℕ := ⟨exArgs.cfg, 3, 1, [0], fun i j =>
    if i ∈ [0] ∧ j ∈ [1] then (buildDiffopBasis G 0 (some ((1 : ℕ) : ℤ)) none (exFlipRep i) (exFlipRep j)).getD [] else []⟩ with hM
  have hMb : M.basis 0 1 = l := by
    show (if (0 : ℕ) ∈ [0] ∧ (1 : ℕ) ∈ [1] then (buildDiffopBasis G 0 (some ((1 : ℕ) : ℤ)) none (exFlipRep 0) (exFlipRep 1)).getD [] else []) = l
    rw [if_pos (by simp)]
    rw [show buildDiffopBasis G 0 (some ((1 : ℕ) : ℤ)) none (exFlipRep 0) (exFlipRep 1) = some l from hl, Option.getD_some]
  have hMne : ∀ i j, ¬ (i = 0 ∧ j = 1) → M.basis i j = [] := fun i j hij => if_neg (by simpa using hij)
  have hsamp : ∀ b : TensorAttr ℤ × DArr, b.2.deg = b.1.order → M.cfg.keepOf 1 (b.1.order, b.1) = true →
      (smp 3 1 (exFlipRep 1).size (exFlipRep 0).size none b.2).isSome := by
    intro b hbd hk
    simp only [DiffopCfg.keepOf, Bool.and_eq_true, decide_eq_true_eq] at hk
    rw [(exFlipRep_ok 1).2.1, (exFlipRep_ok 0).2.1]
    exact hsome _ (by omega)
  have hi : FilterInput exFlipRep [0] [1] (M.sampled smp exFlipRep) M.cfg.ident := by
    refine ⟨by simp, by simp, fun n _ => by rw [(exFlipRep_ok n).2.1]; exact one_pos, fun n _ => by rw [(exFlipRep_ok n).2.1]; exact one_pos, ?_⟩
    intro i hi o ho
    obtain rfl := List.mem_singleton.1 hi
    obtain rfl := List.mem_singleton.1 ho
    rw [DiffopModule.sampled, hMb, List.map_map]
    exact hnd
  have hdim : (M.exp smp exFlipRep [1]).dimension ≠ 0 := by
    have hwf := filterExp_wf hi (3 * 3) id (M.cfg.keepOf 1) M.cfg.shape0 M.cfg.inIdx M.cfg.outIdx
    refine hwf.dimension_ne_zero (i := 0) (o := 1) (by simp [filterExp]) (by simp [filterExp]) ?_
    rw [← hsnd] at hD
    obtain ⟨b, hbm, rfl⟩ := List.mem_map.1 hD
    have hbo := (hdl b hbm).1
    obtain ⟨f, hf⟩ := Option.isSome_iff_exists.1 (hsome b.2 (by omega))
    have hsq := hnorm b.2 hdeg h0 h1 f hf
    have hmem : ((b.1.order, b.1), f) ∈ M.sampled smp exFlipRep 0 1 := by
      rw [DiffopModule.sampled, hMb]
      refine List.mem_map.2 ⟨b, hbm, ?_⟩
      have : smp M.size M.cfg.d (exFlipRep 1).size (exFlipRep 0).size M.cfg.angle b.2 = some f := by
        rw [(exFlipRep_ok 1).2.1, (exFlipRep_ok 0).2.1]
        exact hf
      rw [this]
      rfl
    have hone : b.1.angular.outIrrep.size = 1 := by
      have := hirr b hbm
      have h2 : (exFlipRep 1).irreps = [{ size := 1, socs := 1, freq := 1, flip := 0, mat := fun e => m1 (cos (e * π)) }] := by
        simp [exFlipRep, Cyclic.irrep, Cyclic.order_eq]
      rw [h2] at this
      rw [List.mem_singleton.1 this]
    refine singleBlock_isSome (List.mem_map.2 ⟨_, hmem, rfl⟩) ?_ ?_ ?_
    · simp [hM, exArgs, DiffopArgs.cfg, DiffopCfg.keepOf, ← hbo, hdeg]
    · show 0 < b.1.angular.outIrrep.size
      rw [hone]
      exact one_pos
    · rw [(exFlipRep_ok 1).2.1, (exFlipRep_ok 0).2.1]
      show _ ≤ sqNorm 1 1 (3 * 3) (fun r c s => f s r c) / ((b.1.angular.outIrrep.size : ℕ) : ℝ)
      rw [hone, Nat.cast_one, div_one]
      exact hsq
  refine ⟨M, ?_, rfl, rfl, by rw [hMb, hsnd], hMne⟩
  unfold r2diffopInit
  have hr : exArgs.cfg.resolve = some (3, 1, 0) := rfl
  have hg : convGroups exArgs.groups [0] [1] = some [0] := by simp [convGroups, exArgs]
  rw [hr]
  dsimp only
  rw [hg]
  dsimp only
  rw [if_pos, if_pos, if_neg]
  · rfl
  · exact hdim
  · intro i hi j hj b hbm hk
    obtain rfl := List.mem_singleton.1 hi
    obtain rfl := List.mem_singleton.1 hj
    refine hsamp b ?_ hk
    have hbm' : b ∈ M.basis 0 1 := hbm
    rw [hMb] at hbm'
    exact (hdl b hbm').1
  · intro i hi j hj
    obtain rfl := List.mem_singleton.1 hi
    obtain rfl := List.mem_singleton.1 hj
    rw [show buildDiffopBasis G 0 (some ((1 : ℕ) : ℤ)) exArgs.maximumOffset (exFlipRep 0) (exFlipRep 1) = some l from hl]
    simp

/-- With the derivative along the second axis among the operators, the constructor succeeds. -/
theorem exArgs_init {fd : ℕ → List ℝ → ℕ → ℝ} (hfd : FDSpec fd) (Sp : Space ℤ) (G : DiffopGen ℤ) (hG : DiffopGenOk Sp G exFlipRep [0] [1])
    {bas : Irrep ℤ → Irrep ℤ → Option (List DElem)} (hb : G.bas (some 1) none = some bas) {ds : List DArr}
    (hds : tensorBasis bas G.cf (exFlipRep 0) (exFlipRep 1) 0 = some ds) (D : DArr) (hD : D ∈ ds) (hdeg : D.deg = 1) (h0 : D.co 0 0 0 = 0)
    (h1 : D.co 0 0 1 = 1) :
    ∃ M, r2diffopInit (fdSample fd) G exArgs exFlipRep [0] [1] = some M ∧ M.size = 3 ∧ M.order = 1 ∧ (M.basis 0 1).map Prod.snd = ds ∧
      ∀ i j, ¬ (i = 0 ∧ j = 1) → M.basis i j = [] := by
  refine exArgs_init_of (fdSample fd) (fun D h => fdSample_isSome fd (by omega)) ?_ Sp G hG hb hds D hD hdeg h0 h1
  intro D hdeg h0 h1 f hf
  have hv := (fdSample_spec hf).2
  obtain ⟨p0, p1, p2, q0, q1, q2⟩ := fd_three hfd
  have hval : ∀ q, f q 0 0 = fd 0 (axisPts 3 1) (q / 3) * fd 1 (axisPts 3 1) (q % 3) := by
    intro q
    have := hv q 0 one_pos 0 one_pos
    simpa [offD, hdeg, Finset.sum_range_succ, h0, h1] using this
  simp [sqNorm, Finset.sum_range_succ, hval, p0, p1, p2, q0, q1, q2]
  norm_num

/-- **C68 is false at the reflections, a concrete layer**: `R2Diffop(kernel_size=3, maximum_order=1)` on `Flip2dOnR2(axis=0)`, from a trivial field to a field of
the sign representation. -/
theorem c68_flip_wrong {fd : ℕ → List ℝ → ℕ → ℝ} (hfd : FDSpec fd) (interp : ℝ → Img → Img) :
    ∃ M, r2diffopInit (fdSample fd) (flip2dDiffops 0) exArgs exFlipRep [0] [1] = some M ∧
    ∃ (w : List ℝ) (n : ℕ) (layer : Fmap → Fmap), convSize n 0 3 1 1 = some 1 ∧ (∀ x, M.forward (fdSample fd) exFlipRep [1] w [] n x = some (layer x)) ∧
      ∃ x, ¬ FEq 1 1 (layer (fieldAct 1 (typeMat exFlipRep [0] 1) ((flipSpace interp 0).base n 1) x))
        (fieldAct 1 (typeMat exFlipRep [1] 1) ((flipSpace interp 0).base 1 1) (layer x)) := by
  have hsz : ∀ n, typeSize (fun m => (exFlipRep m).size) [n] = 1 := fun n => by simp [typeSize, (exFlipRep_ok n).2.1]
  have hok : ∀ n ∈ [0] ++ [1], (exFlipRep n).WF ∧ ∀ i ∈ (exFlipRep n).irreps, ∃ k, Cyclic.irrep 2 k = some i :=
    fun n _ => ⟨(exFlipRep_ok n).1, (exFlipRep_ok n).2.2⟩
  have hG := diffopGenOk_flip interp [0] [1] 0 exFlipRep hok
  obtain ⟨D, hD, hdeg, h0, h1⟩ := exFlipOps_eq
  have hb : (flip2dDiffops 0).bas (some 1) none = some fun i o => dFlips i o (some 1) none := by
    simp [flip2dDiffops, checkBounds]
  obtain ⟨M, hM, hs, ho, hds, hne⟩ := exArgs_init hfd _ _ hG hb hD D (by simp) hdeg h0 h1
  refine ⟨M, hM, ?_⟩
  have h := c68_reflections_wrong hfd (flipSpace interp 0) (flipSpace_grid interp 0) (Cyclic.invOk (N := 2) (by norm_num)) _ exFlipRep [0] [1] hG (by simp)
    (fun n _ => by rw [(exFlipRep_ok n).2.1]; exact one_pos) (fun n hn => Cyclic.isRep_of (N := 2) (by norm_num) (hok n hn)) exArgs M hM
    ⟨rfl, ?_⟩ one_pos one_pos rfl rfl 1 (by simp [flipSpace, Cyclic.grp, Cyclic.isElement, Cyclic.order_eq]) (Or.inr ⟨0, by simp⟩)
    ⟨0, ⟨0, by simp⟩, fun p => by simp [flipSpace]⟩
  · rw [hsz, hsz, hs] at h
    exact h
  · intro i j b hbm _
    by_cases hij : i = 0 ∧ j = 1
    · obtain ⟨rfl, rfl⟩ := hij
      obtain ⟨-, -, -, hdg, -⟩ := forward_eq hG (by simp) (fun n _ => by rw [(exFlipRep_ok n).2.1]; exact one_pos) one_pos hM
      rw [← hdg 0 1 b hbm]
      have : b.2 ∈ (M.basis 0 1).map Prod.snd := List.mem_map.2 ⟨b, hbm, rfl⟩
      rw [hds, List.mem_singleton] at this
      rw [this, hdeg]
      exact odd_one
    · rw [hne i j hij] at hbm
      simp at hbm

/-- The hypotheses of `c68_cyclic` can be met: `R2Diffop(kernel_size=3, maximum_order=1)` on `Rot2dOnR2(2)` from a trivial field to a field of the sign
representation is built, and commutes with the rotation by half a turn for all weights and all images. -/
example {fd : ℕ → List ℝ → ℕ → ℝ} (hfd : FDSpec fd) (interp : ℝ → Img → Img) :
    ∃ M, r2diffopInit (fdSample fd) (rot2dDiffops 2) exArgs exFlipRep [0] [1] = some M ∧ 0 < (M.exp (fdSample fd) exFlipRep [1]).dimension ∧
    ∀ (w b : List ℝ) (n : ℕ), 3 ≤ n → w.length = (M.exp (fdSample fd) exFlipRep [1]).dimension →
      ∃ layer : Fmap → Fmap, (∀ x, M.forward (fdSample fd) exFlipRep [1] w b n x = some (layer x)) ∧
      ∀ x, FEq 1 (n - 2) (layer (fieldAct 1 (typeMat exFlipRep [0] 1) ((rotSpace interp 2).base n 1) x))
        (fieldAct 1 (typeMat exFlipRep [1] 1) ((rotSpace interp 2).base (n - 2) 1) (layer x)) := by
  have hsz : ∀ n, typeSize (fun m => (exFlipRep m).size) [n] = 1 := fun n => by simp [typeSize, (exFlipRep_ok n).2.1]
  have hok : ∀ n ∈ [0] ++ [1], (exFlipRep n).WF ∧ ∀ i ∈ (exFlipRep n).irreps, ∃ k, Cyclic.irrep 2 k = some i :=
    fun n _ => ⟨(exFlipRep_ok n).1, (exFlipRep_ok n).2.2⟩
  have hG := diffopGenOk_cyclic interp [0] [1] 2 (by norm_num) exFlipRep hok
  obtain ⟨D, D', hD, hdeg, h0, h1⟩ := exRotOps_eq
  have hb : (rot2dDiffops 2).bas (some 1) none = some fun i o => dRot 2 i o (some 1) none := by
    simp [rot2dDiffops, checkBounds]
  obtain ⟨M, hM, hs, ho, hds, hne⟩ := exArgs_init hfd _ _ hG hb hD D (by simp) hdeg h0 h1
  refine ⟨M, hM, Nat.pos_of_ne_zero (r2diffopInit_spec hM).2.choose_spec.2.2.2.2.2, fun w b n hn hw => ?_⟩
  obtain ⟨layer, h2, h3⟩ := c68_cyclic interp [0] [1] (by simp) hfd 2 (by norm_num) exFlipRep (fun n _ => by rw [(exFlipRep_ok n).2.1]; exact one_pos) hok
    exArgs M hM trivial one_pos one_pos w b n (n - 2) hw trivial
    (by rw [hs]; show convSize n 0 3 1 1 = _; unfold convSize; rw [if_pos (by omega)]; congr 1; omega) (one_dvd _)
  refine ⟨layer, h2, fun x => ?_⟩
  have h4 := h3 1 (by simp [rotSpace, Cyclic.grp, Cyclic.isElement, Cyclic.order_eq]) ⟨2, by simp; ring⟩ trivial x
  rw [hsz, hsz] at h4
  exact h4

end E2
