import Verif.Lemmas.Export
import Verif.Props.Shapes

/-!
The exports (C50): the plain PyTorch module returned by `export` computes the same tensor as the module in evaluation mode, for nested sequences
of all exportable modules; except for `PointwiseMaxPool` with `ceil_mode`, `R2ConvTransposed` with `output_padding` and `R2Upsampling` with
`size`, whose exports lose the argument.
-/

set_option linter.unusedSectionVars false

namespace E2

variable {B R : Type} [DecidableEq R] [Fintype B]

/-- A list of representations which the constructor of `FieldType` accepts. -/
def TypeOk (sz : R → ℕ) (t : List R) : Prop := t ≠ [] ∧ ∀ r ∈ t, 0 < sz r

mutual

/-- The types of a module, and of the modules inside, are types. -/
def EqMod.Ok (sz : R → ℕ) : EqMod R → Prop
  | .innerBatchNorm t .. | .pointwiseMaxPool t .. | .pointwiseMaxPoolAntialiased t .. | .pointwiseAvgPool t .. | .pointwiseAdaptiveAvgPool t ..
  | .pointwiseAdaptiveMaxPool t .. | .r2upsampling t _ | .relu t | .elu t _ | .pointwiseDropout t | .identity t => TypeOk sz t
  | .r2conv inT outT .. | .r2convTransposed inT outT .. | .restriction inT outT => TypeOk sz inT ∧ TypeOk sz outT
  | .groupPooling t triv => TypeOk sz t ∧ sz triv = 1
  | .sequential inT outT l => TypeOk sz inT ∧ TypeOk sz outT ∧ EqMod.OkAll sz l

/-- The same for each module of a list. -/
def EqMod.OkAll (sz : R → ℕ) : List (EqMod R) → Prop
  | [] => True
  | m :: ms => EqMod.Ok sz m ∧ EqMod.OkAll sz ms

end

mutual

/-- None of the arguments which the exports forget is used, in the module or inside of it. -/
def EqMod.Kept : EqMod R → Prop
  | .pointwiseMaxPool _ _ _ _ _ ceil => ceil = false
  | .r2convTransposed _ _ _ _ op _ _ _ _ _ => op = 0
  | .r2upsampling _ c => c.size = none
  | .sequential _ _ l => EqMod.KeptAll l
  | _ => True

/-- The same for each module of a list. -/
def EqMod.KeptAll : List (EqMod R) → Prop
  | [] => True
  | m :: ms => EqMod.Kept m ∧ EqMod.KeptAll ms

end

/-- A tensor of the library: as many channels as the size of its type. -/
def ETensor.WF (sz : R → ℕ) (x : ETensor R B) : Prop := x.x.WF sz

theorem mkE_eq {sz : R → ℕ} {y : PTensor B} {t : List R} {z : ETensor R B} (h : mkE sz y t = some z) : z.plain = y ∧ (t ≠ [] → z.WF sz) := by
  rw [mkE, mkGT] at h
  split_ifs at h with hl
  · simp only [Option.map_some, Option.some.injEq] at h
    subst h
    exact ⟨rfl, fun ht => ⟨ht, hl⟩⟩
  · simp at h

theorem wrapped_eq {sz : R → ℕ} {inT outT : List R} {f : PTensor B → Option (PTensor B)} {x y : ETensor R B}
    (h : wrapped sz inT outT f x = some y) : f x.plain = some y.plain ∧ (outT ≠ [] → y.WF sz) := by
  rw [wrapped] at h
  split_ifs at h with ht
  split at h
  · simp at h
  · rename_i z hz
    obtain ⟨h1, h2⟩ := mkE_eq h
    rw [h1]
    exact ⟨hz, h2⟩

theorem channelwise_data {V W : Type} {sz : R → ℕ} {t : List R} {f : V → W} {x : GTensor R V} {y : GTensor R W}
    (h : channelwise sz t f x = some y) : y.data = x.data.map f ∧ (t ≠ [] → y.WF sz) := by
  rw [channelwise, mkGT] at h
  split_ifs at h with h1 h2
  simp only [Option.some.injEq] at h
  subst h
  exact ⟨rfl, fun ht => ⟨ht, h2⟩⟩

/-- Batch normalisation: the buffers of the exported module hold the statistics of the field of each channel. -/
theorem inner_export {P : Type} [Fintype P] (sz : R → ℕ) (t : List R) (hpos : ∀ r ∈ t, 0 < sz r) (momentum : Option ℝ) (eps : ℝ) (w b : ℕ → ℝ) (st : NormState (ℝ × ℝ))
    (mean var w' b' : List ℝ) (h1 : exportBuffer sz t (fun k => (st.stats k).1) 0 = some mean)
    (h2 : exportBuffer sz t (fun k => (st.stats k).2) 1 = some var) (h3 : exportBuffer sz t w 1 = some w')
    (h4 : exportBuffer sz t b 0 = some b') (x : GTensor R (P → ℝ)) (hx : x.WF sz) (hxt : x.ty = t) (junk : List (P → ℝ))
    (hj : junk.length = x.data.length) (st' : NormState (ℝ × ℝ)) (y : GTensor R (P → ℝ))
    (hy : innerBatchNorm sz t momentum eps true w b false st junk x = some (st', y)) :
    batchNorm2d eps mean var w' b' x.data = some y.data ∧ y.WF sz := by
  subst hxt
  obtain ⟨l1, k1⟩ := exportBuffer_spec sz x.ty hpos _ _ _ h1
  obtain ⟨l2, k2⟩ := exportBuffer_spec sz x.ty hpos _ _ _ h2
  obtain ⟨l3, k3⟩ := exportBuffer_spec sz x.ty hpos _ _ _ h3
  obtain ⟨l4, k4⟩ := exportBuffer_spec sz x.ty hpos _ _ _ h4
  have hxl : x.data.length = (x.ty.map sz).sum := hx.2
  have hs : ∀ s ∈ firstKeys (x.ty.map sz), 0 < s := by
    intro s hs
    obtain ⟨r, hr, rfl⟩ := List.mem_map.1 ((mem_firstKeys _ _).1 hs)
    exact hpos r hr
  obtain ⟨st1, d, g1, g2, -, g3, -⟩ := bnForward_spec (innerBN momentum eps true w b) (x.ty.map sz) (x.ty.map sz)
    (fun s => ((indexesFromLabels sz x.ty (x.ty.map sz) s).map fun e => e.1).getD false) (firstKeys (x.ty.map sz)) x.data junk hxl
    (hj.trans hxl) rfl (firstKeys_nodup _) hs (fun c l h => h)
    (fun l hl => inner_flagOk sz x.ty hpos ((mem_firstKeys _ _).1 hl)) (fun b l k fld st _ h => by simpa [innerBN] using h) false st
  have hyd : y = ⟨x.ty, d⟩ := by
    rw [innerBatchNorm, bnModule, if_pos rfl, g1] at hy
    simp only [mkGT] at hy
    rw [if_pos (show d.length = typeSize sz x.ty from g2)] at hy
    simp only [Option.map_some, Option.some.injEq, Prod.mk.injEq] at hy
    exact hy.2.symm
  subst hyd
  refine ⟨?_, hx.1, g2⟩
  rw [batchNorm2d, if_pos (hx.2.trans l1.symm)]
  congr 1
  have hlm : (x.data.mapIdx fun c v p => (v p - mean.getD c 0) / √(var.getD c 0 + eps) * w'.getD c 0 + b'.getD c 0).length = (x.ty.map sz).sum := by
    rw [List.length_mapIdx, hxl]
  apply eq_of_chunks hlm g2
  apply List.ext_getElem?
  intro c
  by_cases hc : c < (x.ty.map sz).length
  swap
  · rw [List.getElem?_eq_none (by rw [chunks_length]; omega), List.getElem?_eq_none (by rw [chunks_length]; omega)]
  -- the number of the field in the order of the module
  have hmem : c ∈ fieldOrder (x.ty.map sz) (firstKeys (x.ty.map sz)) := by
    rw [fieldOrder, List.mem_flatMap]
    exact ⟨(x.ty.map sz)[c], (mem_firstKeys _ _).2 (List.getElem_mem hc), mem_posOf.2 (List.getElem?_eq_getElem hc)⟩
  obtain ⟨j, hj⟩ := List.getElem?_of_mem hmem
  obtain ⟨l, fld, e1, e2, e3, e4⟩ := g3 j c hj
  rw [e4]
  have hl : l = (x.ty.map sz)[c] := by
    rw [List.getElem?_eq_getElem hc] at e1
    exact (Option.some.inj e1).symm
  rw [chunks_get _ _ hc] at e2 ⊢
  have hfld := Option.some.inj e2
  -- the entries of a buffer
  have buf : ∀ (u : List ℝ) (v : ℝ) (_ : ∃ s, (x.ty.map sz)[c]? = some s ∧ (chunks (x.ty.map sz) u)[c]? = some (List.replicate s v)) (a : ℕ),
      a < (x.ty.map sz)[c] → u.getD (Mat.offset (x.ty.map sz) c + a) 0 = v := by
    rintro u v ⟨s, hs, hu⟩ a ha
    rw [List.getElem?_eq_getElem hc] at hs
    rw [chunks_get _ _ hc] at hu
    have h := congrArg (fun l => l[a]?) (Option.some.inj hu)
    simp only [List.getElem?_take, List.getElem?_drop, ha, if_true, List.getElem?_replicate, ← Option.some.inj hs] at h
    rw [List.getD_eq_getElem?_getD, h]
    rfl
  congr 1
  apply List.ext_getElem?
  intro a
  have hst : st1.stats j = st.stats j := by rw [e3]; rfl
  simp only [innerBN, Bool.not_true, Bool.or_self, Bool.false_eq_true, if_false]
  rw [← hfld, hst]
  simp only [List.getElem?_take, List.getElem?_map, List.getElem?_drop, List.getElem?_mapIdx]
  split_ifs with ha
  · cases x.data[Mat.offset (x.ty.map sz) c + a]? with
    | none => rfl
    | some v =>
      simp only [Option.map_some]
      rw [buf mean _ (k1 j c hj) a ha, buf var _ (k2 j c hj) a ha, buf w' _ (k3 j c hj) a ha, buf b' _ (k4 j c hj) a ha]
  · rfl

theorem firstKeys_singleton {l : List ℕ} {s : ℕ} (h : firstKeys l = [s]) : ∀ a ∈ l, a = s := by
  intro a ha
  have := (mem_firstKeys l a).2 ha
  rw [h] at this
  simpa using this

mutual

theorem export_one (sz : R → ℕ) (junk : (c n : ℕ) → List (Pix B n → ℝ)) (hj : ∀ c n, (junk c n).length = c) :
    (m : EqMod R) → m.Ok sz → m.Kept → ∀ l, m.export sz = some l → ∀ x y : ETensor R B, x.WF sz → m.forward sz junk x = some y →
      l.run x.plain = some y.plain ∧ y.WF sz
  | .innerBatchNorm t momentum eps track w b st, hok, _, l, hl, x, y, hx, h => by
    simp only [EqMod.export, exportInner] at hl
    split_ifs at hl with htr
    split at hl
    · rename_i mean var w' b' h1 h2 h3 h4
      simp only [Option.some.injEq] at hl
      subst hl
      simp only [EqMod.forward, Option.map_eq_some_iff] at h
      obtain ⟨⟨st', z⟩, hz, rfl⟩ := h
      have hxt : x.x.ty = t := by
        by_contra hne
        rw [innerBatchNorm, bnModule, if_neg hne] at hz
        simp at hz
      subst htr
      obtain ⟨g1, g2⟩ := inner_export sz t hok.2 momentum eps w b st mean var w' b' h1 h2 h3 h4 x.x hx hxt _ (hj _ _) st' z hz
      refine ⟨?_, g2⟩
      simp only [Plain.run, ETensor.plain]
      rw [g1]
      rfl
    · simp at hl
  | .pointwiseMaxPool t k s p d ceil, hok, hk, l, hl, x, y, hx, h => by
    have hk : ceil = false := hk
    subst hk
    simp only [EqMod.export, Option.some.injEq] at hl
    subst hl
    simp only [EqMod.forward] at h
    split at h
    · simp at h
    · rename_i m hm
      simp only [Option.map_eq_some_iff] at h
      obtain ⟨z, hz, rfl⟩ := h
      obtain ⟨g1, g2⟩ := channelwise_data hz
      refine ⟨?_, g2 hok.1⟩
      simp only [Plain.run, ETensor.plain]
      rw [hm, g1]
      rfl
  | .pointwiseMaxPoolAntialiased t k s p ceil fs sigma, hok, _, l, hl, x, y, hx, h => by
    simp only [EqMod.export, Option.some.injEq] at hl
    subst hl
    simp only [EqMod.forward] at h
    obtain ⟨g1, g2⟩ := wrapped_eq h
    refine ⟨?_, g2 hok.1⟩
    rw [← g1]
    simp only [Plain.run, Plain.runAll]
    cases poolSize ceil x.plain.n p k 1 1 with
    | none => rfl
    | some n1 =>
      simp only [Option.map_some]
      cases convSize n1 (p + (fs - 1) / 2) fs s 1 <;> rfl
  | .pointwiseAvgPool .., _, _, l, hl, _, _, _, _ => by simp [EqMod.export] at hl
  | .pointwiseAdaptiveAvgPool t m, hok, _, l, hl, x, y, hx, h => by
    simp only [EqMod.export, Option.some.injEq] at hl
    subst hl
    simp only [EqMod.forward, Option.map_eq_some_iff] at h
    obtain ⟨z, hz, rfl⟩ := h
    obtain ⟨g1, g2⟩ := channelwise_data hz
    refine ⟨?_, g2 hok.1⟩
    simp only [Plain.run, ETensor.plain]
    rw [g1]
  | .pointwiseAdaptiveMaxPool t m, hok, _, l, hl, x, y, hx, h => by
    simp only [EqMod.export, Option.some.injEq] at hl
    subst hl
    simp only [EqMod.forward, Option.map_eq_some_iff] at h
    obtain ⟨z, hz, rfl⟩ := h
    obtain ⟨g1, g2⟩ := channelwise_data hz
    refine ⟨?_, g2 hok.1⟩
    simp only [Plain.run, ETensor.plain]
    rw [g1]
  | .r2conv inT outT k p s d groups mode f bias, hok, _, l, hl, x, y, hx, h => by
    simp only [EqMod.export, Option.some.injEq] at hl
    subst hl
    simp only [EqMod.forward] at h
    obtain ⟨g1, g2⟩ := wrapped_eq h
    refine ⟨?_, g2 hok.2.1⟩
    simp only [Plain.run]
    exact g1
  | .r2convTransposed inT outT k p op s d groups f bias, hok, hk, l, hl, x, y, hx, h => by
    have hk : op = 0 := hk
    subst hk
    simp only [EqMod.export, Option.some.injEq] at hl
    subst hl
    simp only [EqMod.forward] at h
    obtain ⟨g1, g2⟩ := wrapped_eq h
    refine ⟨?_, g2 hok.2.1⟩
    simp only [Plain.run]
    exact g1
  | .r2upsampling t c, hok, hk, l, hl, x, y, hx, h => by
    have hk : c.size = none := hk
    simp only [EqMod.export, Option.some.injEq] at hl
    subst hl
    simp only [EqMod.forward] at h
    split at h
    · simp at h
    · rename_i r hr
      simp only [Option.map_eq_some_iff] at h
      obtain ⟨z, hz, rfl⟩ := h
      obtain ⟨g1, g2⟩ := channelwise_data hz
      refine ⟨?_, g2 hok.1⟩
      rw [hk] at hr
      simp only [Plain.run, ETensor.plain, runUp]
      rw [hr, g1]
      rfl
  | .relu t, hok, _, l, hl, x, y, hx, h => by
    simp only [EqMod.export, Option.some.injEq] at hl
    subst hl
    simp only [EqMod.forward, Option.map_eq_some_iff] at h
    obtain ⟨z, hz, rfl⟩ := h
    obtain ⟨g1, g2⟩ := channelwise_data hz
    refine ⟨?_, g2 hok.1⟩
    simp only [Plain.run, ETensor.plain]
    rw [g1]
  | .elu t alpha, hok, _, l, hl, x, y, hx, h => by
    simp only [EqMod.export, Option.some.injEq] at hl
    subst hl
    simp only [EqMod.forward, Option.map_eq_some_iff] at h
    obtain ⟨z, hz, rfl⟩ := h
    obtain ⟨g1, g2⟩ := channelwise_data hz
    refine ⟨?_, g2 hok.1⟩
    simp only [Plain.run, ETensor.plain]
    rw [g1]
  | .pointwiseDropout t, hok, _, l, hl, x, y, hx, h => by
    simp only [EqMod.export, Option.some.injEq] at hl
    subst hl
    simp only [EqMod.forward] at h
    obtain ⟨g1, g2⟩ := wrapped_eq h
    exact ⟨by simpa only [Plain.run] using g1, g2 hok.1⟩
  | .identity t, hok, _, l, hl, x, y, hx, h => by
    simp only [EqMod.export, Option.some.injEq] at hl
    subst hl
    simp only [EqMod.forward] at h
    split_ifs at h
    simp only [Option.some.injEq] at h
    subst h
    exact ⟨by simp only [Plain.run], hx⟩
  | .restriction inT outT, hok, _, l, hl, x, y, hx, h => by
    simp only [EqMod.export, Option.some.injEq] at hl
    subst hl
    simp only [EqMod.forward] at h
    obtain ⟨g1, g2⟩ := wrapped_eq h
    exact ⟨by simpa only [Plain.run] using g1, g2 hok.2.1⟩
  | .groupPooling t triv, hok, _, l, hl, x, y, hx, h => by
    simp only [EqMod.export] at hl
    split at hl
    · rename_i s hs
      simp only [Option.some.injEq] at hl
      subst hl
      have hall : ∀ r ∈ t, sz r = s := fun r hr => firstKeys_singleton hs _ (List.mem_map_of_mem hr)
      have hs0 : 0 < s := by
        obtain ⟨r, hr⟩ := List.exists_mem_of_ne_nil t hok.1.1
        rw [← hall r hr]
        exact hok.1.2 r hr
      simp only [EqMod.forward, Option.map_eq_some_iff] at h
      obtain ⟨z, hz, rfl⟩ := h
      have hxt : x.x.ty = t := by
        by_contra hne
        rw [groupPooling, poolBySize, if_neg hne] at hz
        simp at hz
      have h1 := c36_maxPoolChannels sz t triv hok.2 s hs0 hall (junk t.length x.n) (hj _ _) x.x hx hxt
      rw [hz] at h1
      refine ⟨?_, ?_⟩
      · simp only [Plain.run, ETensor.plain]
        rw [← h1]
        rfl
      · rw [groupPooling, poolBySize, if_pos hxt] at hz
        dsimp only at hz
        split at hz
        · simp at hz
        · rw [mkGT] at hz
          split_ifs at hz with hlen
          simp only [Option.some.injEq] at hz
          subst hz
          refine ⟨?_, hlen⟩
          simpa using hok.1.1
    · simp at hl
  | .sequential inT outT ms, hok, hk, l, hl, x, y, hx, h => by
    simp only [EqMod.export, Option.map_eq_some_iff] at hl
    obtain ⟨ls, hls, rfl⟩ := hl
    simp only [EqMod.forward] at h
    split_ifs at h
    split at h
    · simp at h
    · rename_i z hz
      split_ifs at h
      simp only [Option.some.injEq] at h
      subst h
      simp only [Plain.run]
      exact export_all sz junk hj ms hok.2.2 hk ls hls x z hx hz

theorem export_all (sz : R → ℕ) (junk : (c n : ℕ) → List (Pix B n → ℝ)) (hj : ∀ c n, (junk c n).length = c) :
    (ms : List (EqMod R)) → EqMod.OkAll sz ms → EqMod.KeptAll ms → ∀ ls, EqMod.exportAll sz ms = some ls → ∀ x y : ETensor R B, x.WF sz →
      EqMod.forwardAll sz junk ms x = some y → Plain.runAll ls x.plain = some y.plain ∧ y.WF sz
  | [], _, _, ls, hl, x, y, hx, h => by
    simp only [EqMod.exportAll, Option.some.injEq] at hl
    subst hl
    simp only [EqMod.forwardAll, Option.some.injEq] at h
    subst h
    exact ⟨by simp only [Plain.runAll], hx⟩
  | m :: ms, hok, hk, ls, hl, x, y, hx, h => by
    simp only [EqMod.exportAll] at hl
    split at hl
    · rename_i l ls' h1 h2
      simp only [Option.some.injEq] at hl
      subst hl
      simp only [EqMod.forwardAll] at h
      split at h
      · simp at h
      · rename_i z hz
        obtain ⟨g1, g2⟩ := export_one sz junk hj m hok.1 hk.1 l h1 x z hx hz
        simp only [Plain.runAll]
        rw [g1]
        exact export_all sz junk hj ms hok.2 hk.2 ls' h2 z y g2 h
    · simp at hl

end

/-- The full statement: whenever `export` returns a module, it computes the same tensor as the module in evaluation mode.  It is false
(`c50_ceil_wrong`, `c50_output_padding_wrong`, `c50_size_wrong`). -/
def ExportFaithful (R B : Type) [DecidableEq R] [Fintype B] : Prop :=
  ∀ (sz : R → ℕ) (junk : (c n : ℕ) → List (Pix B n → ℝ)) (_ : ∀ c n, (junk c n).length = c) (m : EqMod R) (_ : m.Ok sz) (l : Plain)
    (_ : m.export sz = some l) (x y : ETensor R B) (_ : x.WF sz) (_ : m.forward sz junk x = some y), l.run x.plain = some y.plain

/-- **C50**, when the arguments which the exports forget are not used.  Missing: `PointwiseMaxPool` with `ceil_mode`, `R2ConvTransposed` with
`output_padding`, `R2Upsampling` with `size`, for which the claim is false. -/
theorem c50_export_partial (sz : R → ℕ) (junk : (c n : ℕ) → List (Pix B n → ℝ)) (hj : ∀ c n, (junk c n).length = c) (m : EqMod R) (hok : m.Ok sz)
    (hk : m.Kept) (l : Plain) (hl : m.export sz = some l) (x y : ETensor R B) (hx : x.WF sz) (h : m.forward sz junk x = some y) :
    l.run x.plain = some y.plain :=
  (export_one sz junk hj m hok hk l hl x y hx h).1

/-- `InnerBatchNorm` can be exported exactly when it tracks running statistics and the fields of each size are contiguous. -/
theorem c50_inner_exportable (sz : R → ℕ) (t : List R) (hpos : ∀ r ∈ t, 0 < sz r) (eps : ℝ) (track : Bool) (w b : ℕ → ℝ) (st : NormState (ℝ × ℝ)) :
    (exportInner sz t eps track w b st).isSome ↔ track = true ∧
      ∀ s ∈ t.map sz, (indexesFromLabels sz t (t.map sz) s).map (fun e => e.1) = some true := by
  have buf : ∀ (vals : ℕ → ℝ) (init : ℝ), (exportBuffer sz t vals init).isSome ↔
      ∀ s ∈ t.map sz, (indexesFromLabels sz t (t.map sz) s).map (fun e => e.1) = some true := by
    intro vals init
    have key : ∀ (order : List ℕ) (_ : ∀ s ∈ order, s ∈ t.map sz) (next : ℕ) (out : List ℝ) (_ : out.length = (t.map sz).sum),
        (expandFields (fun s => ((indexesFromLabels sz t (t.map sz) s).map fun e => e.1).getD false) (labelChannels (t.map sz) (t.map sz))
          (labelCount (t.map sz)) vals order next out).isSome ↔
        ∀ s ∈ order, (indexesFromLabels sz t (t.map sz) s).map (fun e => e.1) = some true := by
      intro order
      induction order with
      | nil => intro _ next out _; simp [expandFields]
      | cons s ss ih =>
        intro hm next out hout
        rw [expandFields]
        obtain ⟨c, h1, h2, -⟩ := flagOk_indexes sz t hpos (t.map sz) (by simp) (hm s List.mem_cons_self)
        have hflag : ((indexesFromLabels sz t (t.map sz) s).map fun e => e.1) = some c := by rw [h1]; rfl
        cases c with
        | false =>
          rw [if_neg (by rw [hflag]; simp)]
          constructor
          · intro h; simp at h
          · intro h
            have := h s List.mem_cons_self
            rw [hflag] at this
            simp at this
        | true =>
          rw [if_pos (by rw [hflag]; rfl)]
          have hidx : labelChannels (t.map sz) (t.map sz) s = chanIdx (t.map sz) (posOf (t.map sz) s) := (labelIdx_eq (t.map sz) (t.map sz) rfl s).1
          have hlt : ∀ i ∈ labelChannels (t.map sz) (t.map sz) s, i < out.length := by
            intro i hi
            rw [hidx] at hi
            rw [hout]
            exact chanIdx_lt _ _ (fun c hc => posOf_lt hc) i hi
          have hlen : ((List.range (labelCount (t.map sz) s)).flatMap fun k => List.replicate s (vals (next + k))).length
              = (labelChannels (t.map sz) (t.map sz) s).length := by
            have h3 := chanIdx_posOf_length (fun a : ℕ => a) (t.map sz) s
            rw [List.map_id'] at h3
            rw [hidx, h3, List.length_flatMap]
            simp [labelCount]
          rw [← hidx] at h2
          rw [writeGroup_ok h2 hlt hlen]
          dsimp only
          rw [ih (fun s hs => hm s (List.mem_cons_of_mem _ hs)) _ _ (by rw [writeIdx_length, hout])]
          constructor
          · intro h a ha
            rcases List.mem_cons.1 ha with rfl | ha
            · exact hflag
            · exact h a ha
          · exact fun h a ha => h a (List.mem_cons_of_mem _ ha)
    rw [exportBuffer, key _ (fun s hs => (mem_firstKeys _ _).1 hs) 0 _ (by rw [List.length_replicate]; rfl)]
    exact ⟨fun h s hs => h s ((mem_firstKeys _ _).2 hs), fun h s hs => h s ((mem_firstKeys _ _).1 hs)⟩
  rw [exportInner]
  by_cases htr : track = true
  · rw [if_pos htr]
    by_cases hall : ∀ s ∈ t.map sz, (indexesFromLabels sz t (t.map sz) s).map (fun e => e.1) = some true
    · obtain ⟨b1, e1⟩ := Option.isSome_iff_exists.1 ((buf (fun k => (st.stats k).1) 0).2 hall)
      obtain ⟨b2, e2⟩ := Option.isSome_iff_exists.1 ((buf (fun k => (st.stats k).2) 1).2 hall)
      obtain ⟨b3, e3⟩ := Option.isSome_iff_exists.1 ((buf w 1).2 hall)
      obtain ⟨b4, e4⟩ := Option.isSome_iff_exists.1 ((buf b 0).2 hall)
      rw [e1, e2, e3, e4]
      exact ⟨fun _ => ⟨htr, hall⟩, fun _ => rfl⟩
    · have e1 : exportBuffer sz t (fun k => (st.stats k).1) 0 = none := by
        by_contra h
        exact hall ((buf _ 0).1 (Option.ne_none_iff_isSome.1 h))
      rw [e1]
      exact ⟨fun h => by simp at h, fun h => absurd h.2 hall⟩
  · rw [if_neg htr]
    simp [htr]

/-! ### The arguments which are lost -/

/-- A tensor with one channel. -/
def oneChannel (n : ℕ) : ETensor Unit Unit := ⟨n, ⟨[()], [fun _ => 0]⟩⟩

theorem oneChannel_wf (n : ℕ) : (oneChannel n).WF fun _ => 1 := ⟨by simp [oneChannel], by simp [oneChannel, typeSize]⟩

/-- `PointwiseMaxPool` with `ceil_mode` on a `3 × 3` image has two windows on each axis, the exported module one. -/
theorem c50_ceil_wrong : ∃ (m : EqMod Unit) (l : Plain) (y : ETensor Unit Unit) (z : PTensor Unit), m.Ok (fun _ => 1) ∧
    m.export (fun _ => 1) = some l ∧ m.forward (fun _ => 1) (fun c _ => List.replicate c 0) (oneChannel 3) = some y ∧
    l.run (oneChannel 3).plain = some z ∧ y.plain.n = 2 ∧ z.n = 1 := by
  refine ⟨.pointwiseMaxPool [()] 2 2 0 1 true, .maxPool2d 2 2 0 1 false, ⟨2, ⟨[()], [maxPool2d 3 0 2 2 1 2 fun _ => 0]⟩⟩,
    ⟨1, [maxPool2d 3 0 2 2 1 1 fun _ => 0]⟩, ?_, rfl, ?_, ?_, rfl, rfl⟩
  · simp [EqMod.Ok, TypeOk]
  · simp only [EqMod.forward]
    have h1 : poolSize true (oneChannel 3).n 0 2 2 1 = some 2 := by decide
    rw [h1]
    simp [pointwiseMaxPool, channelwise, mkGT, oneChannel, typeSize]
  · simp only [Plain.run]
    have h1 : poolSize false (oneChannel 3).plain.n 0 2 2 1 = some 1 := by decide
    rw [h1]
    rfl

/-- `R2ConvTransposed` with `output_padding`: the exported module returns a smaller image. -/
theorem c50_output_padding_wrong (f : ℕ → ℕ → ℕ → ℕ → ℝ) : ∃ (m : EqMod Unit) (l : Plain) (y : ETensor Unit Unit) (z : PTensor Unit),
    m = .r2convTransposed [()] [()] 3 1 1 2 1 1 f none ∧ m.Ok (fun _ => 1) ∧
    m.export (fun _ => 1) = some l ∧ m.forward (fun _ => 1) (fun c _ => List.replicate c 0) (oneChannel 4) = some y ∧
    l.run (oneChannel 4).plain = some z ∧ y.plain.n = 8 ∧ z.n = 7 := by
  have h1 : convTSize 4 1 1 3 2 1 = some 8 := by decide
  have h2 : convTSize 4 1 0 3 2 1 = some 7 := by decide
  refine ⟨_, _, ⟨8, ⟨[()], (List.range 1).map fun c q => convT2d 4 1 3 2 1 (1 / 1) (1 / 1) f ((none : Option (ℕ → ℝ)).getD 0) (chanImg (oneChannel 4).x.data q.1) c q.2.1 q.2.2⟩⟩,
    ⟨7, (List.range 1).map fun c q => convT2d 4 1 3 2 1 (1 / 1) (1 / 1) f ((none : Option (ℕ → ℝ)).getD 0) (chanImg (oneChannel 4).x.data q.1) c q.2.1 q.2.2⟩, rfl, ?_, rfl, ?_, ?_, rfl, rfl⟩
  · simp [EqMod.Ok, TypeOk]
  · simp only [EqMod.forward, wrapped]
    rw [if_pos (by rfl)]
    have : runConvT ⟨typeSize (fun _ => 1) [()], typeSize (fun _ => 1) [()], 3, 1, 2, 1, 1⟩ 1 f none (oneChannel 4).plain
        = some ⟨8, (List.range 1).map fun c q => convT2d 4 1 3 2 1 (1 / 1) (1 / 1) f ((none : Option (ℕ → ℝ)).getD 0) (chanImg (oneChannel 4).x.data q.1) c q.2.1 q.2.2⟩ := by
      rw [runConvT, if_pos (by rfl)]
      change (convTSize 4 1 1 3 2 1).map _ = _
      rw [h1]
      rfl
    rw [this]
    simp [mkE, mkGT, typeSize]
  · simp only [Plain.run]
    rw [runConvT, if_pos (by rfl)]
    change (convTSize 4 1 0 3 2 1).map _ = _
    rw [h2]
    rfl

/-- `R2Upsampling` with `size`: the exported module has neither a size nor a factor, and fails on every input. -/
theorem c50_size_wrong (t : List R) (sz : R → ℕ) (k : ℕ) (mode : UpMode) (align : Bool) (x : PTensor B) : ∃ l,
    (EqMod.r2upsampling t ⟨none, some k, mode, align⟩).export sz = some l ∧ l.run x = none :=
  ⟨_, rfl, by simp [Plain.run, runUp, upSize]⟩

theorem c50_not_faithful : ¬ ExportFaithful Unit Unit := by
  intro h
  obtain ⟨m, l, y, z, h1, h2, h3, h4, h5, h6⟩ := c50_ceil_wrong
  have := h (fun _ => 1) (fun c _ => List.replicate c 0) (fun c _ => List.length_replicate) m h1 l h2 (oneChannel 3) y (oneChannel_wf 3) h3
  rw [h4] at this
  have := congrArg PTensor.n (Option.some.inj this)
  omega

/-- A convolution, a batch normalisation, a rectifier and an upsampling, one after the other in a nested sequence: all hypotheses are met. -/
example (f : ℕ → ℕ → ℕ → ℕ → ℝ) (w b : ℕ → ℝ) (st : NormState (ℝ × ℝ)) :
    let m : EqMod ℕ := .sequential [0] [1, 1] [.r2conv [0] [1, 1] 3 1 1 1 1 .zeros f none,
      .sequential [1, 1] [1, 1] [.innerBatchNorm [1, 1] none 1 true w b st, .relu [1, 1]], .r2upsampling [1, 1] ⟨some 2, none, .bilinear, false⟩]
    m.Ok (fun r => if r = 0 then 1 else 4) ∧ m.Kept ∧ (m.export fun r => if r = 0 then 1 else 4).isSome := by
  refine ⟨?_, ?_, ?_⟩
  · simp [EqMod.Ok, EqMod.OkAll, TypeOk]
  · simp [EqMod.Kept, EqMod.KeptAll]
  · have h : ∀ (w b : ℕ → ℝ) (st : NormState (ℝ × ℝ)), (exportInner (fun r : ℕ => if r = 0 then 1 else 4) [1, 1] 1 true w b st).isSome := by
      intro w b st
      rw [c50_inner_exportable _ _ (by simp)]
      refine ⟨rfl, ?_⟩
      intro s hs
      have : s = 4 := by simpa using hs
      subst this
      simp [checkConsecutive, consecutiveLoop, indexesFromLabels, labelIdxFrom, dictAppend, List.range'_succ]
      norm_num
    obtain ⟨l, hl⟩ := Option.isSome_iff_exists.1 (h w b st)
    simp [EqMod.export, EqMod.exportAll, hl]

end E2
