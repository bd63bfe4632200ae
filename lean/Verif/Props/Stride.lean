import Verif.Lemmas.Stride
import Verif.Props.PlaneConv

/-!
# C93: for which strides and image sizes the layers are equivariant

The convolutions (C66) and the poolings (C39) commute with the symmetries of the grid when the windows cover the padded image.  Here the converse: an element of the group which
reverses an axis of the image (a rotation by 180 degrees, a reflection along a row or a column) does not commute with any convolution, except the constant ones, nor with max and
average pooling, when the windows do not cover the padded image.
-/

set_option linter.unusedSectionVars false

namespace E2

open Finset Mat Real

variable {El F : Type} [LinearOrder F]

/-- The element of the group reverses the first or the second coordinate of the plane, or both, and does not exchange them. -/
def Space.ReversesAxis (Sp : Space El) (g : El) : Prop :=
  ∃ a b : ℝ, (a = 1 ∨ a = -1) ∧ (b = 1 ∨ b = -1) ∧ (a = -1 ∨ b = -1) ∧ ∀ p, Sp.act g p = (a * p.1, b * p.2)

/-- The claim for one space and its kernels: a layer which zero-pads the images, at least one window of which lies in the image, is constant, or else it commutes with an element which
reverses an axis exactly when the stride divides the range of the windows. -/
def R2ConvStride (Sp : Space El) (G : KernelGen El) (rep : F → Repr El) (inT outT : List F) : Prop :=
  ∀ (a : ConvArgs El) (M : ConvModule El F), r2convInit G a rep inT outT = some M →
    (∀ l, a.rings = some l → l.Nodup) → 0 < a.groups → 0 < a.dilation → 0 < a.stride → a.paddingMode = .zeros →
    ∀ (w b : List ℝ) (n m : ℕ), w.length = M.dim → convSize n a.padding a.kernelSize a.stride a.dilation = some m →
    -- a window lies in the image
    (∃ i < m, a.padding ≤ i * a.stride ∧ i * a.stride + a.dilation * (a.kernelSize - 1) < a.padding + n) →
    ∀ cin cout, cin = typeSize (fun m => (rep m).size) inT → cout = typeSize (fun m => (rep m).size) outT →
    ∃ layer : Fmap → Fmap, (∀ x, M.forward rep inT outT w b n x = some (layer x)) ∧
      ∀ g, Sp.G.isEl g → Sp.grid g → Sp.ReversesAxis g →
        (∀ x y, FEq cout m (layer x) (layer y)) ∨
        ((∀ x, FEq cout m (layer (fieldAct cin (typeMat rep inT g) (Sp.base n g) x)) (fieldAct cout (typeMat rep outT g) (Sp.base m g) (layer x))) ↔
          a.stride ∣ n + 2 * a.padding - a.dilation * (a.kernelSize - 1) - 1)

theorem reverses_of {Sp : Space El} {g : El} {τ : GSym} (h : Sp.ReversesAxis g) (hτ : ∀ p, Sp.act g (τ.lin p) = p) : τ.Reverses := by
  obtain ⟨a, b, ha, hb, hab, hact⟩ := h
  obtain ⟨s, u, v⟩ := τ
  have h1 := hτ (1, 0)
  have h2 := hτ (0, 1)
  rw [hact] at h1 h2
  have h11 := congrArg Prod.fst h1
  have h12 := congrArg Prod.snd h2
  cases s <;> cases u <;> cases v <;> simp [GSym.lin] at h11 h12 <;> simp [GSym.Reverses]
  subst h11 h12
  rcases hab with h | h <;> norm_num at h

theorem GSym.Reverses.twice {τ : GSym} (h : τ.Reverses) {k a b : ℕ} (ha : a < k) (hb : b < k) : τ.ap k (τ.ap k (a, b)) = (a, b) := by
  obtain ⟨s, u, v⟩ := τ
  obtain ⟨h, -⟩ := h
  simp only at h
  subst h
  cases u <;> cases v <;> simp [GSym.ap] <;> omega

theorem convSize_lt {n p k s d m : ℕ} (hs : 0 < s) (hm : convSize n p k s d = some m) (hdiv : ¬ s ∣ n + 2 * p - d * (k - 1) - 1) :
    (m - 1) * s + (k - 1) * d + 1 < n + 2 * p := by
  unfold convSize at hm
  split_ifs at hm with h
  simp only [Option.some.injEq] at hm
  subst hm
  rw [Nat.add_sub_cancel, Nat.mul_comm (k - 1) d]
  have h1 := Nat.div_add_mod (n + 2 * p - d * (k - 1) - 1) s
  have h2 : 0 < (n + 2 * p - d * (k - 1) - 1) % s := Nat.pos_of_ne_zero fun h0 => hdiv (Nat.dvd_of_mod_eq_zero h0)
  rw [Nat.mul_comm s] at h1
  omega

/-- **C93 for a space whose layers are equivariant and have kernels on the plane.** -/
theorem c93_conv (Sp : Space El) (hgrid : Sp.GridAction) (hinv : Sp.G.InvOk) (G : KernelGen El) (rep : F → Repr El) (inT outT : List F)
    (heq : R2ConvEquivariant Sp G rep inT outT) (hpl : R2ConvOnPlane Sp G rep inT outT)
    (hrep : ∀ n ∈ outT, IsRep Sp.G (rep n).size (rep n).mat) : R2ConvStride Sp G rep inT outT := by
  intro a M hM hrings hg hd hs hmode w b n m hw hm hwin cin cout hcin hcout
  obtain ⟨f, κ, h1, h2, h3, -, h5, -⟩ := hpl a M hM hrings hg hd w hw cin cout hcin hcout
  refine ⟨_, h1 b n, fun g hg1 hg2 hrev => ?_⟩
  rw [hmode]
  by_cases hz : ∀ o < cout, ∀ c < cin / a.groups, ∀ u < a.kernelSize, ∀ v < a.kernelSize, f o c u v = 0
  · refine Or.inl fun x y o ho i _ j _ => ?_
    unfold conv2d
    congr 1
    refine sum_congr rfl fun c hc => sum_congr rfl fun u hu => sum_congr rfl fun v hv => ?_
    rw [hz o ho c (mem_range.1 hc) u (mem_range.1 hu) v (mem_range.1 hv), zero_mul, zero_mul]
  refine Or.inr ⟨fun hcomm => ?_, fun hdiv x => ?_⟩
  · by_contra hdiv
    refine hz ?_
    obtain ⟨τ, t1, t2⟩ := hgrid g hg1 hg2
    have hτ := reverses_of hrev t2
    obtain ⟨i0, hi0, hw0, hw1⟩ := hwin
    have hR := typeMat_isRep Sp.G rep outT hrep
    rw [← hcout] at hR
    refine conv_stride hd τ hτ _ _ _ _ _ (fun x i j => t1 n x i j) (fun x i j => t1 m x i j) (hR.inv_mul hinv g hg1) f _ hcomm ?_
      (convSize_lt hs hm hdiv) hi0 hw0 (by rwa [Nat.mul_comm (a.kernelSize - 1)])
    intro u hu v hv h0 o ho c hc
    obtain ⟨hu', hv'⟩ := τ.ap_lt hu hv
    have hc' : o / (cout / a.groups) * (cin / a.groups) + c < cin := by
      have e1 : o / (cout / a.groups) < a.groups := by
        by_contra hcon
        push Not at hcon
        have hpos : 0 < cout / a.groups := Nat.pos_of_ne_zero fun h0 => by rw [h0, Nat.div_zero] at hcon; omega
        have e2 := Nat.mul_le_mul_right (cout / a.groups) hcon
        have e3 := Nat.div_mul_le_self o (cout / a.groups)
        have hdv : a.groups * (cout / a.groups) = cout := by
          unfold r2convInit at hM
          cases hgr : convGroups a.groups inT outT with
          | none => simp [hgr] at hM
          | some inG =>
            have hne : inT ≠ [] ∧ outT ≠ [] := by
              refine ⟨?_, ?_⟩ <;> rintro rfl
              · have hc0 : cin = 0 := by rw [hcin]; simp [typeSize]
                rw [hc0, Nat.zero_div] at hc
                omega
              · have hc0 : cout = 0 := by rw [hcout]; simp [typeSize]
                omega
            obtain ⟨-, outG, hout⟩ := convGroups_spec hgr hg hne.1 hne.2
            rw [hcout, hout, typeSize_flatten, Nat.mul_div_cancel_left _ hg]
        omega
      have e2 := group_index_lt e1 hc
      exact lt_of_lt_of_le e2 (Nat.mul_div_le cin a.groups)
    have hpt : ∀ u v : ℕ, v < a.kernelSize → ((a.dilation : ℝ) * (v - ((a.kernelSize : ℝ) - 1) / 2), (a.dilation : ℝ) * (((a.kernelSize : ℝ) - 1) / 2 - u)) =
        gridCoords a.kernelSize a.dilation (u * a.kernelSize + v) := fun u v hv => (gridCoords_point hv).symm
    have hk := h5 g hg1 (gridCoords a.kernelSize a.dilation (u * a.kernelSize + v)) o ho _ hc'
    have hmv : Sp.act g (gridCoords a.kernelSize a.dilation (u * a.kernelSize + v)) =
        gridCoords a.kernelSize a.dilation ((τ.ap a.kernelSize (u, v)).1 * a.kernelSize + (τ.ap a.kernelSize (u, v)).2) := by
      have e := gridCoords_ap τ a.kernelSize a.dilation _ _ hu' hv'
      rw [Prod.mk.eta, hτ.twice hu hv] at e
      simp only at e
      rw [e, t2]
    rw [h2 o ho c hc _ hu' _ hv', hpt _ _ hv', ← hmv, hk]
    refine sum_eq_zero fun l hl => ?_
    have : Mat.mul cout (typeMat rep outT g) (κ (gridCoords a.kernelSize a.dilation (u * a.kernelSize + v))) o l = 0 := by
      refine sum_eq_zero fun o' ho' => ?_
      have hl' := mem_range.1 hl
      have ho'' := mem_range.1 ho'
      by_cases hgrp : l / (cin / a.groups) = o' / (cout / a.groups)
      · have hpos : 0 < cin / a.groups := by omega
        have := h2 o' ho'' (l % (cin / a.groups)) (Nat.mod_lt _ hpos) u hu v hv
        rw [h0 o' ho'' _ (Nat.mod_lt _ hpos), hpt _ _ hv, ← hgrp, Nat.div_add_mod'] at this
        rw [← this, mul_zero]
      · rw [h3 _ o' ho'' l hl' hgrp, mul_zero]
    rw [this, zero_mul]
  · obtain ⟨layer, l1, l2⟩ := heq a M hM hrings hg hd w b n m hw (by rw [hmode]; trivial) hm hdiv
    have hl : layer = conv2d PadMode.zeros n a.padding a.kernelSize a.stride a.dilation (cin / a.groups) (cout / a.groups) f (outBias rep outT b) := by
      funext x
      have := (l1 x).symm.trans (h1 b n x)
      rw [hmode] at this
      exact Option.some.inj this
    subst hcin hcout
    have := l2 g hg1 hg2 x
    rw [hl] at this
    exact this

/-! ### Layers which are not constant -/

/-- The weights with only one parameter equal to 1. -/
def unitWeights (dim k : ℕ) : List ℝ := (List.range dim).map fun i => if i = k then 1 else 0

theorem singleBlock_nonzero {A : Type} {so si S : ℕ} {keep : A → Bool} {shape0 : A → ℕ} {basis bl : List (Elem A)} (h : singleBlock so si S keep shape0 basis = some bl)
    {e : Elem A} (he : e ∈ bl) : ∃ o < so, ∃ i < si, ∃ s < S, e.ker o i s ≠ 0 := by
  classical
  unfold singleBlock at h
  dsimp only at h
  split_ifs at h with h1 h2
  rw [Option.some.injEq] at h
  subst h
  have hn := of_decide_eq_true (List.mem_filter.1 he).2
  by_contra hcon
  push Not at hcon
  have : sqNorm so si S e.ker = 0 := by
    refine sum_eq_zero fun o ho => sum_eq_zero fun i hi => sum_eq_zero fun s hs => ?_
    rw [hcon o (mem_range.1 ho) i (mem_range.1 hi) s (mem_range.1 hs)]
    norm_num
  rw [this] at hn
  norm_num at hn

/-- The filter of a single parameter is not zero. -/
theorem unit_filter_nonzero {A I X : Type} [DecidableEq I] (rep : F → Repr El) (inT outT : List F) (S : ℕ) (points : ℕ → X) (basis : F → F → List (A × (X → Mat))) (keep : A → Bool)
    (shape0 : A → ℕ) (ident : A → I) (inIdx outIdx : A → ℕ) (h : FilterInput rep inT outT basis ident) (E : Exp F A I)
    (hE : E = filterExp rep inT outT S points basis keep shape0 ident inIdx outIdx) (hone : E.nPairs = 1 → E.pairs ≠ []) (k : ℕ) (hk : k < E.dimension) :
    ∃ f, E.forward (unitWeights E.dimension k) = some f ∧
      ∃ o < typeSize (fun n => (rep n).size) outT, ∃ i < typeSize (fun n => (rep n).size) inT, ∃ s < S, f o i s ≠ 0 := by
  have hwf : E.WF := hE ▸ filterExp_wf h S points keep shape0 inIdx outIdx
  obtain ⟨ker, hker, hf⟩ := c24_filter E hwf hone
  obtain ⟨f, hfw, hf⟩ := hf (unitWeights E.dimension k) (by simp [unitWeights])
  obtain ⟨info, bl, e, h1, h2, h3, -⟩ := c24_attributes E hwf k hk
  obtain ⟨bl', e', h4', h5', -, h7'⟩ := hker k info h1
  have hsz : E.sz = fun n => (rep n).size := by rw [hE]; rfl
  have hin : E.inT = inT := by rw [hE]; rfl
  have hout : E.outT = outT := by rw [hE]; rfl
  rw [hin] at h2
  rw [hout] at h3
  have hgen : E.gen info.inRepr info.outRepr = singleBlock (rep info.outRepr).size (rep info.inRepr).size S keep shape0
      ((basis info.inRepr info.outRepr).map fun b => ⟨b.1, fun r c s => b.2 (points s) r c⟩) := by rw [hE]; rfl
  rw [hgen] at h4'
  obtain ⟨o, ho, i, hi, s, hs, hne⟩ := singleBlock_nonzero h4' h5'
  obtain ⟨lo, eo⟩ := List.getElem?_eq_some_iff.1 h3
  obtain ⟨li, ei⟩ := List.getElem?_eq_some_iff.1 h2
  have b1 : offset (outT.map fun n => (rep n).size) info.outField + o < typeSize (fun n => (rep n).size) outT := by
    have := offset_add_le (outT.map fun n => (rep n).size) (k := info.outField) (by simpa using lo)
    simp only [List.getElem_map, eo] at this
    unfold typeSize
    omega
  have b2 : offset (inT.map fun n => (rep n).size) info.inField + i < typeSize (fun n => (rep n).size) inT := by
    have := offset_add_le (inT.map fun n => (rep n).size) (k := info.inField) (by simpa using li)
    simp only [List.getElem_map, ei] at this
    unfold typeSize
    omega
  refine ⟨f, hfw, _, b1, _, b2, s, hs, ?_⟩
  have hv := hf s
  rw [hsz, hin, hout] at hv
  have hv' := hv _ b1 _ b2
  simp only at hv'
  have hif : E.inBlock k ((ker k).at s) (offset (outT.map fun n => (rep n).size) info.outField + o) (offset (inT.map fun n => (rep n).size) info.inField + i) = e'.ker o i s := by
    have h1' := h1
    rw [E.elementInfo_eq] at h1'
    rw [Exp.inBlock, h1']
    simp only [hsz, hin, hout, Mat.place]
    rw [if_pos ⟨⟨by omega, by omega⟩, by omega, by omega⟩, Nat.add_sub_cancel_left, Nat.add_sub_cancel_left, h7']
    rfl
  have hu : ∀ j < E.dimension, (unitWeights E.dimension k).getD j 0 = if j = k then 1 else 0 := by
    intro j hj
    simp [unitWeights, List.getD, hj]
  rw [sum_eq_single k, hu k hk, if_pos rfl, one_mul, hif] at hv'
  · exact fun h0 => hne (hv'.symm.trans h0)
  · intro j hj hjk
    rw [hu j (mem_range.1 hj), if_neg hjk, zero_mul]
  · intro hcon
    exact absurd (mem_range.2 hk) hcon

/-- **C93, the layers are not constant**: with all parameters but one equal to zero, whatever the bias, a layer is not constant on the images in which a window lies. -/
theorem c93_not_constant (G : KernelGen El) (rep : F → Repr El) (inT outT : List F) (hne : inT ≠ [] ∧ outT ≠ []) (hsz : ∀ n ∈ inT ++ outT, 0 < (rep n).size) (a : ConvArgs El)
    (M : ConvModule El F) (hM : r2convInit G a rep inT outT = some M) (hrings : ∀ l, a.rings = some l → l.Nodup) (hg : 0 < a.groups) (hd : 0 < a.dilation)
    (hmode : a.paddingMode = .zeros) (k : ℕ) (hk : k < M.dim) (b : List ℝ) (n m : ℕ)
    (hwin : ∃ i < m, a.padding ≤ i * a.stride ∧ i * a.stride + a.dilation * (a.kernelSize - 1) < a.padding + n) :
    ∃ layer : Fmap → Fmap, (∀ x, M.forward rep inT outT (unitWeights M.dim k) b n x = some (layer x)) ∧
      ∃ x y, ¬ FEq (typeSize (fun m => (rep m).size) outT) m (layer x) (layer y) := by
  classical
  unfold r2convInit at hM
  cases hgr : convGroups a.groups inT outT with
  | none => simp [hgr] at hM
  | some inG =>
    rw [hgr] at hM
    cases hq : computeBasisParams a.kernelSize a.dilation a.cutoff a.rings a.sigma with
    | none => simp [hq] at hM
    | some q =>
      obtain ⟨rings, sigma, fco, maxFreq⟩ := q
      rw [hq] at hM
      dsimp only at hM
      split_ifs at hM with hall hdim
      obtain rfl := Option.some.inj hM
      have hr : rings = basisRings a.kernelSize a.dilation a.rings := by
        unfold computeBasisParams at hq
        dsimp only at hq
        split_ifs at hq
        obtain ⟨F', -, h⟩ := Option.map_eq_some_iff.1 hq
        exact (Prod.ext_iff.1 h).1.symm
      have hnd : rings.Nodup := hr ▸ basisRings_nodup _ _ hd _ hrings
      obtain ⟨hin, outG, hout⟩ := convGroups_spec hgr hg hne.1 hne.2
      have hsub : ∀ n ∈ inG, n ∈ inT := by
        intro n hn
        rw [hin, List.mem_flatten]
        exact ⟨inG, List.mem_replicate.2 ⟨by omega, rfl⟩, hn⟩
      have hinG : inG ≠ [] := by
        rintro rfl
        refine hne.1 ?_
        rw [hin]
        simp
      set basis : F → F → List (BasisAttr El × (ℝ × ℝ → Mat)) :=
        fun i o => (buildKernelBasis G sigma rings (some maxFreq) a.maximumOffset (rep i) (rep o)).getD [] with hbasis
      have hi : FilterInput rep inG outT basis attrId := by
        refine ⟨hinG, hne.2, fun n hn => hsz n (List.mem_append_left _ (hsub n hn)), fun n hn => hsz n (List.mem_append_right _ hn), ?_⟩
        intro i hii o ho
        obtain ⟨l, hl⟩ := Option.ne_none_iff_exists'.1 (hall i hii o ho)
        simp only [hbasis, hl, Option.getD_some]
        exact buildKernelBasis_ids hl hnd
      obtain ⟨f, hf, o, ho, c, hc, q, hq', hfne⟩ := unit_filter_nonzero rep inG outT _ _ basis _ _ attrId _ _ hi ((a.cfg fco).exp rep inG outT basis) rfl
        (fun _ => Exp.pairs_ne_nil hdim) k hk
      refine ⟨conv2d a.paddingMode n a.padding a.kernelSize a.stride a.dilation (typeSize (fun m => (rep m).size) inG) (typeSize (fun m => (rep m).size) outT / a.groups)
        (reshapeFilter a.kernelSize f) (outBias rep outT b), fun x => ?_, ?_⟩
      · unfold ConvModule.forward r2conv
        rw [show (a.cfg fco).groups = a.groups from rfl, hgr]
        dsimp only
        rw [hf]
        rfl
      obtain ⟨i0, hi0, w0, w1⟩ := hwin
      have hk0 : 0 < a.kernelSize := Nat.pos_of_ne_zero fun h0 => by
        have : q < a.kernelSize * a.kernelSize := hq'
        rw [h0] at this
        omega
      have hle : ∀ u < a.kernelSize, u * a.dilation ≤ a.dilation * (a.kernelSize - 1) := fun u hu => by
        rw [Nat.mul_comm]
        exact Nat.mul_le_mul_left _ (by omega)
      have hin' : ∀ u < a.kernelSize, a.padding ≤ i0 * a.stride + u * a.dilation ∧ i0 * a.stride + u * a.dilation < a.padding + n :=
        fun u hu => ⟨by omega, by have := hle u hu; omega⟩
      have hu : q / a.kernelSize < a.kernelSize := (Nat.div_lt_iff_lt_mul hk0).2 hq'
      have hv : q % a.kernelSize < a.kernelSize := Nat.mod_lt _ hk0
      set coutG := typeSize (fun m => (rep m).size) outT / a.groups with hcoutG
      refine ⟨unitPixel (o / coutG * typeSize (fun m => (rep m).size) inG + c) (i0 * a.stride + q / a.kernelSize * a.dilation - a.padding)
        (i0 * a.stride + q % a.kernelSize * a.dilation - a.padding), fun _ _ _ => 0, fun hcon => ?_⟩
      have e := hcon o ho i0 hi0 i0 hi0
      rw [hmode, conv2d_unitPixel hd _ _ hu hv (hin' _ hu) (hin' _ hv), sum_eq_single c] at e
      · rw [if_pos rfl] at e
        have e2 : conv2d PadMode.zeros n a.padding a.kernelSize a.stride a.dilation (typeSize (fun m => (rep m).size) inG) coutG (reshapeFilter a.kernelSize f)
            (outBias rep outT b) (fun _ _ _ => 0) o i0 i0 = outBias rep outT b o := by
          unfold conv2d
          rw [add_eq_right]
          refine sum_eq_zero fun c _ => sum_eq_zero fun u _ => sum_eq_zero fun v _ => ?_
          rw [readPad_zeros]
          simp
        rw [e2, add_eq_right, reshapeFilter, Nat.div_add_mod'] at e
        exact hfne e
      · intro c' _ hne'
        rw [if_neg]
        omega
      · intro h
        exact absurd (mem_range.2 hc) h

section spaces

variable (interp : ℝ → Img → Img) (inT outT : List F) (hne : inT ≠ [] ∧ outT ≠ [])

include hne

/-- **C93 for `Rot2dOnR2(N)`.** -/
theorem c93_cyclic (N : ℕ) (hN : 0 < N) (rep : F → Repr ℤ) (hsz : ∀ n ∈ inT ++ outT, 0 < (rep n).size)
    (hr : ∀ n ∈ inT ++ outT, (rep n).WF ∧ ∀ i ∈ (rep n).irreps, ∃ k, Cyclic.irrep N k = some i) : R2ConvStride (rotSpace interp N) (rot2dGen N) rep inT outT :=
  c93_conv _ (rotSpace_grid interp N hN) (Cyclic.invOk hN) _ rep inT outT (c66_cyclic interp inT outT hne N hN rep hsz hr) (c92_cyclic interp inT outT hne N hN rep hsz hr)
    fun n hn => Cyclic.isRep_of hN (hr n (List.mem_append_right _ hn))

/-- **C93 for `Rot2dOnR2(-1)`.** -/
theorem c93_so2 (rep : F → Repr ℝ) (hsz : ∀ n ∈ inT ++ outT, 0 < (rep n).size)
    (hr : ∀ n ∈ inT ++ outT, (rep n).WF ∧ ∀ i ∈ (rep n).irreps, ∃ k, i = SO2.irrep k) : R2ConvStride (so2Space interp) so2Gen rep inT outT :=
  c93_conv _ (so2Space_grid interp) SO2.invOk _ rep inT outT (c66_so2 interp inT outT hne rep hsz hr) (c92_so2 interp inT outT hne rep hsz hr)
    fun n hn => SO2.isRep_of (hr n (List.mem_append_right _ hn))

/-- **C93 for `Flip2dOnR2(axis)`.** -/
theorem c93_flip (axis : ℝ) (rep : F → Repr ℤ) (hsz : ∀ n ∈ inT ++ outT, 0 < (rep n).size)
    (hr : ∀ n ∈ inT ++ outT, (rep n).WF ∧ ∀ i ∈ (rep n).irreps, ∃ k, Cyclic.irrep 2 k = some i) : R2ConvStride (flipSpace interp axis) (flip2dGen axis) rep inT outT :=
  c93_conv _ (flipSpace_grid interp axis) (Cyclic.invOk (N := 2) (by norm_num)) _ rep inT outT (c66_flip interp inT outT hne axis rep hsz hr)
    (c92_flip interp inT outT hne axis rep hsz hr) fun n hn => Cyclic.isRep_of (N := 2) (by norm_num) (hr n (List.mem_append_right _ hn))

/-- **C93 for `FlipRot2dOnR2(N, axis=axis)`.** -/
theorem c93_dihedral (N : ℕ) (hN : 0 < N) (axis : ℝ) (rep : F → Repr (ℤ × ℤ)) (hsz : ∀ n ∈ inT ++ outT, 0 < (rep n).size)
    (hr : ∀ n ∈ inT ++ outT, (rep n).WF ∧ ∀ i ∈ (rep n).irreps, ∃ j k, Dihedral.irrep N j k = some i) :
    R2ConvStride (flipRotSpace interp N axis) (flipRot2dGen N axis) rep inT outT :=
  c93_conv _ (flipRotSpace_grid interp N axis) (Dihedral.invOk hN) _ rep inT outT (c66_dihedral interp inT outT hne N hN axis rep hsz hr)
    (c92_dihedral interp inT outT hne N hN axis rep hsz hr) fun n hn => Dihedral.isRep_of hN (hr n (List.mem_append_right _ hn))

/-- **C93 for `FlipRot2dOnR2(-1, axis=axis)`.** -/
theorem c93_o2 (axis : ℝ) (rep : F → Repr (ℤ × ℝ)) (hsz : ∀ n ∈ inT ++ outT, 0 < (rep n).size)
    (hr : ∀ n ∈ inT ++ outT, (rep n).WF ∧ ∀ i ∈ (rep n).irreps, ∃ j k, O2.irrep j k = some i) : R2ConvStride (o2Space interp axis) (o2Gen axis) rep inT outT :=
  c93_conv _ (o2Space_grid interp axis) O2.invOk _ rep inT outT (c66_o2 interp inT outT hne axis rep hsz hr) (c92_o2 interp inT outT hne axis rep hsz hr)
    fun n hn => O2.isRep_of (hr n (List.mem_append_right _ hn))

end spaces

/-! ### Elements which reverse an axis -/

theorem rot_pi (p : ℝ × ℝ) : rot π p = (-1 * p.1, -1 * p.2) := by
  rw [rot, cos_pi, sin_pi]
  congr 1 <;> ring

/-- The rotation by 180 degrees of `C_N` for even `N`. -/
theorem rotSpace_reverses (interp : ℝ → Img → Img) (N : ℕ) (hN : 0 < N) :
    (rotSpace interp (2 * N)).G.isEl (N : ℤ) ∧ (rotSpace interp (2 * N)).grid (N : ℤ) ∧ (rotSpace interp (2 * N)).ReversesAxis (N : ℤ) := by
  have e : ((N : ℤ) : ℝ) * (2 * π / ((2 * N : ℕ) : ℝ)) = π := by
    have : (N : ℝ) ≠ 0 := by positivity
    push_cast
    field_simp
  refine ⟨?_, ?_, -1, -1, Or.inr rfl, Or.inr rfl, Or.inl rfl, fun p => ?_⟩
  · simp only [rotSpace, Cyclic.grp, Cyclic.isElement, Cyclic.order, Cyclic.elements, List.length_map, List.length_range, Bool.and_eq_true, decide_eq_true_eq]
    push_cast
    omega
  · simp only [rotSpace]
    rw [e]
    exact ⟨2, by push_cast; ring⟩
  · simp only [rotSpace]
    rw [e, rot_pi]

/-- The rotation by 180 degrees in SO(2). -/
theorem so2Space_reverses (interp : ℝ → Img → Img) : (so2Space interp).grid π ∧ (so2Space interp).ReversesAxis π :=
  ⟨⟨2, by push_cast; ring⟩, -1, -1, Or.inr rfl, Or.inr rfl, Or.inl rfl, rot_pi⟩

/-- The reflection with respect to the horizontal or the vertical axis. -/
theorem flipSpace_reverses (interp : ℝ → Img → Img) (v : Bool) (axis : ℝ) (h : axis = if v then π / 2 else 0) :
    (flipSpace interp axis).G.isEl 1 ∧ (flipSpace interp axis).grid 1 ∧ (flipSpace interp axis).ReversesAxis 1 := by
  subst h
  refine ⟨by simp [flipSpace, Cyclic.grp, Cyclic.isElement, Cyclic.order, Cyclic.elements], Or.inr ?_, if v then -1 else 1, if v then 1 else -1, ?_, ?_, ?_, fun p => ?_⟩
  · cases v
    · exact ⟨0, by simp⟩
    · exact ⟨2, by push_cast; simp⟩
  · cases v <;> simp
  · cases v <;> simp
  · cases v <;> simp
  · simp only [flipSpace, if_neg one_ne_zero, refl]
    cases v <;> simp <;> rw [mul_div_cancel₀ π two_ne_zero] <;> simp

/-! ### Pooling -/

section pooling

variable {B : Type}

theorem mem_axisPix_mk {n p k s d i u : ℕ} (hu : u < n) : (⟨u, hu⟩ : Fin n) ∈ axisPix n p k s d i ↔ ∃ a < k, u + p = i * s + a * d := mem_axisPix

/-- If the windows do not cover the padded image then a pixel is in a window along one axis and the reversed pixel is not in the reversed window. -/
theorem exists_uncovered {n p k s d m i0 : ℕ} (hk : 0 < k) (hc : ¬ Covers n p k s d m) (hi0 : i0 < m) (h0 : p ≤ i0 * s) (h1 : i0 * s + (k - 1) * d < p + n) :
    ∃ u : Fin n, u ∈ axisPix n p k s d i0 ∧ ∀ w : Fin n, (w : ℕ) = n - 1 - u → w ∉ axisPix n p k s d (m - 1 - i0) := by
  have e1 : (m - 1 - i0) * s = (m - 1) * s - i0 * s := Nat.sub_mul _ _ _
  have e2 : i0 * s ≤ (m - 1) * s := Nat.mul_le_mul_right _ (by omega)
  have hle : ∀ a < k, a * d ≤ (k - 1) * d := fun a ha => Nat.mul_le_mul_right _ (by omega)
  rw [Covers] at hc
  rcases Nat.lt_or_gt_of_ne hc with hlt | hgt
  · -- the last window leaves the image
    refine ⟨⟨i0 * s + (k - 1) * d - p, by omega⟩, mem_axisPix.2 ⟨k - 1, by omega, by simp only; omega⟩, ?_⟩
    intro w hw hm
    obtain ⟨a, ha, h⟩ := mem_axisPix.1 hm
    simp only at hw
    omega
  · refine ⟨⟨i0 * s - p, by omega⟩, mem_axisPix.2 ⟨0, hk, by simp only; omega⟩, ?_⟩
    intro w hw hm
    obtain ⟨a, ha, h⟩ := mem_axisPix.1 hm
    have := hle a ha
    simp only at hw
    omega

/-- An output pixel and an input pixel such that the pixel is in the window and the moved pixel is not in the moved window. -/
theorem exists_uncovered_pixel {n p k s d m : ℕ} (hk : 0 < k) (hc : ¬ Covers n p k s d m) (hwin : ∃ i < m, p ≤ i * s ∧ i * s + (k - 1) * d < p + n) {τ : GSym} (hτ : τ.Reverses) :
    ∃ (q : Fin m × Fin m) (u : Fin n × Fin n), (τ.fin n u ∈ windowPix n p k s d (τ.fin m q).1 (τ.fin m q).2) ∧ u ∉ windowPix n p k s d q.1 q.2 := by
  obtain ⟨i0, hi0, h0, h1⟩ := hwin
  obtain ⟨u, hu, hu'⟩ := exists_uncovered hk hc hi0 h0 h1
  obtain ⟨s', ri, rj⟩ := τ
  obtain ⟨hs, hrev⟩ := hτ
  simp only at hs hrev
  subst hs
  have hun := u.2
  have hr : n - 1 - (n - 1 - (u : ℕ)) = u := by omega
  have hm : m - 1 - (m - 1 - i0) = i0 := by omega
  by_cases hri : ri = true
  · subst hri
    refine ⟨(⟨m - 1 - i0, by omega⟩, ⟨if rj then m - 1 - i0 else i0, by split_ifs <;> omega⟩), (⟨n - 1 - u, by omega⟩, ⟨if rj then n - 1 - u else u, by split_ifs <;> omega⟩), ?_, ?_⟩
    · rw [mem_windowPix]
      cases rj <;> simp [GSym.fin, GSym.ap, hr, hm, hu]
    · rw [mem_windowPix]
      exact fun h => hu' _ rfl h.1
  · have hrj : rj = true := by tauto
    have hri : ri = false := by simpa using hri
    subst hri hrj
    refine ⟨(⟨i0, hi0⟩, ⟨m - 1 - i0, by omega⟩), (u, ⟨n - 1 - u, by omega⟩), ?_, ?_⟩
    · rw [mem_windowPix]
      simp [GSym.fin, GSym.ap, hr, hm, hu]
    · rw [mem_windowPix]
      exact fun h => hu' _ rfl h.2

open Classical in
/-- The image of a batch with one pixel equal to 1. -/
noncomputable def onePix {n : ℕ} (u : Fin n × Fin n) : Pix B n → ℝ := fun q => if q.2 = u then 1 else 0

/-- **C93 for `PointwiseMaxPool`**: on one channel it commutes with the reversal of an axis exactly when the windows cover the padded image. -/
theorem c93_maxpool [Nonempty B] {n p k s d m : ℕ} (hk : 0 < k) (hwin : ∃ i < m, p ≤ i * s ∧ i * s + (k - 1) * d < p + n) (τ : GSym) (hτ : τ.Reverses) :
    (∀ v : Pix B n → ℝ, maxPool2d n p k s d m (v ∘ Pix.move τ) = maxPool2d n p k s d m v ∘ Pix.move τ) ↔ Covers n p k s d m := by
  refine ⟨fun h => ?_, fun hc v => maxPool2d_sym hc τ v⟩
  by_contra hc
  obtain ⟨q, u, h1, h2⟩ := exists_uncovered_pixel hk hc hwin hτ
  obtain ⟨b⟩ := ‹Nonempty B›
  have e := congrFun (h (onePix (τ.fin n u))) (b, q)
  have hr : (maxPool2d n p k s d m (onePix (τ.fin n u)) ∘ Pix.move τ) (b, q) = 1 := by
    have hg := maxPool2d_greatest (onePix (B := B) (τ.fin n u)) (Pix.move τ (b, q)) (List.ne_nil_of_mem h1)
    refine le_antisymm ?_ (hg.2 ⟨_, h1, by simp [onePix]⟩)
    obtain ⟨w, -, hw⟩ := hg.1
    rw [Function.comp_apply, hw, onePix]
    split_ifs <;> norm_num
  have hl : maxPool2d n p k s d m (onePix (B := B) (τ.fin n u) ∘ Pix.move τ) (b, q) = 0 := by
    have hz : ∀ w ∈ windowPix n p k s d q.1 q.2, (onePix (B := B) (τ.fin n u) ∘ Pix.move τ) (b, w) = 0 := by
      intro w hw
      rw [Function.comp_apply, onePix, Pix.move, if_neg]
      intro e
      exact h2 ((τ.fin_injective n e) ▸ hw)
    by_cases hne : windowPix n p k s d q.1 q.2 = []
    · rw [maxPool2d, hne]
      rfl
    · obtain ⟨w, hw, he⟩ := (maxPool2d_greatest (onePix (B := B) (τ.fin n u) ∘ Pix.move τ) (b, q) hne).1
      rw [he, hz w hw]
  rw [hr, hl] at e
  exact zero_ne_one e

/-- The sum of a window of an image with one pixel. -/
theorem window_onePix {n p k s i j : ℕ} (f : ℕ → ℕ → ℝ) (b : B) (u : Fin n × Fin n) :
    (∑ a ∈ range k, ∑ c ∈ range k, f a c * readZ n p (onePix (B := B) u) b (i * s + a) (j * s + c)) =
      ∑ a ∈ range k, ∑ c ∈ range k, if (u.1 : ℕ) + p = i * s + a ∧ (u.2 : ℕ) + p = j * s + c then f a c else 0 := by
  refine sum_congr rfl fun a _ => sum_congr rfl fun c _ => ?_
  have h1 := u.1.2
  have h2 := u.2.2
  unfold readZ onePix
  by_cases h : (u.1 : ℕ) + p = i * s + a ∧ (u.2 : ℕ) + p = j * s + c
  · rw [if_pos h, dif_pos (by omega), if_pos, mul_one]
    exact Prod.ext (Fin.ext (by simp only; omega)) (Fin.ext (by simp only; omega))
  · rw [if_neg h]
    split_ifs with g1 g2
    · exfalso
      apply h
      rw [← g2]
      simp only
      omega
    · rw [mul_zero]
    · rw [mul_zero]

/-- A weighted sum of a window is positive if it contains the pixel, and zero otherwise. -/
theorem window_onePix_pos {n p k s i j : ℕ} {f : ℕ → ℕ → ℝ} (hf : ∀ a b, 0 < f a b) (b : B) (u : Fin n × Fin n) :
    (u ∈ windowPix n p k s 1 i j → 0 < ∑ a ∈ range k, ∑ c ∈ range k, f a c * readZ n p (onePix (B := B) u) b (i * s + a) (j * s + c)) ∧
    (u ∉ windowPix n p k s 1 i j → ∑ a ∈ range k, ∑ c ∈ range k, f a c * readZ n p (onePix (B := B) u) b (i * s + a) (j * s + c) = 0) := by
  rw [window_onePix, mem_windowPix, mem_axisPix, mem_axisPix]
  constructor
  · rintro ⟨⟨a, ha, h1⟩, c, hc, h2⟩
    rw [mul_one] at h1 h2
    refine sum_pos' (fun a _ => sum_nonneg fun c _ => ?_) ⟨a, mem_range.2 ha, sum_pos' (fun c _ => ?_) ⟨c, mem_range.2 hc, ?_⟩⟩
    · split_ifs
      · exact (hf a c).le
      · exact le_rfl
    · split_ifs
      · exact (hf a c).le
      · exact le_rfl
    · rw [if_pos ⟨h1, h2⟩]
      exact hf a c
  · intro h
    refine sum_eq_zero fun a ha => sum_eq_zero fun c hc => if_neg fun hcon => h ?_
    exact ⟨⟨a, mem_range.1 ha, by rw [mul_one]; exact hcon.1⟩, c, mem_range.1 hc, by rw [mul_one]; exact hcon.2⟩

theorem onePix_move {n : ℕ} (τ : GSym) (u : Fin n × Fin n) : onePix (B := B) (τ.fin n u) ∘ Pix.move τ = onePix u := by
  funext q
  simp only [Function.comp_apply, onePix, Pix.move, (τ.fin_injective n).eq_iff]

/-- A weighted sum over windows commutes with the reversal of an axis only if the windows cover the padded image. -/
theorem depthConv_covers [Nonempty B] {n p k s m : ℕ} {f : ℕ → ℕ → ℝ} (hf : ∀ a b, 0 < f a b) (hk : 0 < k) (hwin : ∃ i < m, p ≤ i * s ∧ i * s + (k - 1) * 1 < p + n) {τ : GSym}
    (hτ : τ.Reverses) (z : Fin m → Fin m → ℝ) (hz : ∀ q : Fin m × Fin m, (∃ u, u ∈ windowPix n p k s 1 q.1 q.2) → z q.1 q.2 ≠ 0)
    (h : ∀ v : Pix B n → ℝ, ∀ q, depthConv n p k s m f (v ∘ Pix.move τ) q / z q.2.1 q.2.2 = depthConv n p k s m f v (Pix.move τ q) / z (Pix.move τ q).2.1 (Pix.move τ q).2.2) :
    Covers n p k s 1 m := by
  by_contra hc
  obtain ⟨q, u, h1, h2⟩ := exists_uncovered_pixel hk hc hwin hτ
  obtain ⟨b⟩ := ‹Nonempty B›
  have e := h (onePix (τ.fin n u)) (b, q)
  rw [onePix_move, depthConv, (window_onePix_pos hf b u).2 h2, zero_div] at e
  have hp := (window_onePix_pos hf b (τ.fin n u)).1 h1
  have hq := hz (τ.fin m q) ⟨_, h1⟩
  exact (div_ne_zero hp.ne' hq) e.symm

/-- **C93 for `PointwiseAvgPool`**: on one channel it commutes with the reversal of an axis exactly when the windows cover the padded image. -/
theorem c93_avgpool [Nonempty B] {n p k s m : ℕ} (hk : 0 < k) (hwin : ∃ i < m, p ≤ i * s ∧ i * s + (k - 1) < p + n) (τ : GSym) (hτ : τ.Reverses) :
    (∀ v : Pix B n → ℝ, avgPool2d n p k s m (v ∘ Pix.move τ) = avgPool2d n p k s m v ∘ Pix.move τ) ↔ Covers n p k s 1 m := by
  refine ⟨fun h => ?_, fun hc v => ?_⟩
  · refine depthConv_covers (B := B) (f := fun _ _ => 1) (fun _ _ => one_pos) hk (by simpa using hwin) hτ
      (fun i j => (((min ((i : ℕ) * s + k) (n + 2 * p) - i * s) * (min ((j : ℕ) * s + k) (n + 2 * p) - j * s) : ℕ) : ℝ)) ?_ ?_
    · rintro q ⟨u, hu⟩
      rw [mem_windowPix, mem_axisPix, mem_axisPix] at hu
      obtain ⟨⟨a, ha, h1⟩, c, hc, h2⟩ := hu
      have g1 := u.1.2
      have g2 := u.2.2
      refine Nat.cast_ne_zero.2 (Nat.mul_ne_zero ?_ ?_) <;> omega
    · intro v q
      have := congrFun (h v) q
      simp only [avgPool2d, Function.comp_apply] at this
      simp only [depthConv, one_mul]
      exact this
  · rw [avgPool2d_eq hc, avgPool2d_eq hc]
    exact depthConv_sym hc _ τ (fun _ _ _ _ => rfl) v

/-- **C93 for `PointwiseAvgPoolAntialiased`**: on one channel, with the Gaussian filter of size `fs`. -/
theorem c93_avgpool_antialiased [Nonempty B] {n p s m fs : ℕ} {sigma : ℝ} (hk : 0 < fs) (hwin : ∃ i < m, p ≤ i * s ∧ i * s + (fs - 1) < p + n) (τ : GSym)
    (hτ : τ.Reverses) :
    (∀ v : Pix B n → ℝ, depthConv n p fs s m (gaussFilter fs sigma) (v ∘ Pix.move τ) = depthConv n p fs s m (gaussFilter fs sigma) v ∘ Pix.move τ) ↔ Covers n p fs s 1 m := by
  refine ⟨fun h => ?_, fun hc v => depthConv_sym hc _ τ (gaussFilter_sym fs sigma τ) v⟩
  refine depthConv_covers (B := B) (f := gaussFilter fs sigma) (fun a b => ?_) hk (by simpa using hwin) hτ (fun _ _ => 1) (fun _ _ => one_ne_zero) fun v q => ?_
  · refine div_pos (exp_pos _) (sum_pos (fun a _ => sum_pos (fun b _ => exp_pos _) ?_) ?_) <;> exact nonempty_range_iff.2 hk.ne'
  · rw [h v]
    rfl

end pooling

/-! ### Examples -/

/-- A 3 × 3 convolution of scalar fields with stride 2 and without padding: for suitable weights it commutes with the rotation by 180 degrees on images with 7 × 7 pixels and does not on
images with 8 × 8 pixels. -/
theorem c93_example (interp : ℝ → Img → Img) : ∃ (M : ConvModule ℝ ℕ) (w : List ℝ), r2convInit so2Gen (defaultArgs 3 0 2 1) (fun _ => so2Triv) [0] [0] = some M ∧
    w.length = M.dim ∧ ∀ n, (n = 7 ∨ n = 8) → ∃ layer : Fmap → Fmap, (∀ x, M.forward (fun _ => so2Triv) [0] [0] w [] n x = some (layer x)) ∧
      ((∀ x, FEq 1 3 (layer (fieldAct 1 (typeMat (fun _ => so2Triv) [0] π) ((so2Space interp).base n π) x))
        (fieldAct 1 (typeMat (fun _ => so2Triv) [0] π) ((so2Space interp).base 3 π) (layer x))) ↔ n = 7) := by
  obtain ⟨M, hM, hdim⟩ := c66_odd_sizes (F := ℕ) 1 0 2 1 [0] [0] (by simp) one_pos
  refine ⟨M, unitWeights M.dim 0, hM, by simp [unitWeights], fun n hn => ?_⟩
  have hne : ([0] : List ℕ) ≠ [] ∧ ([0] : List ℕ) ≠ [] := by simp
  have hsz : ∀ n ∈ ([0] ++ [0] : List ℕ), 0 < so2Triv.size := fun _ _ => by rw [so2Triv_size]; exact one_pos
  have hsize : 1 = typeSize (fun _ : ℕ => so2Triv.size) [0] := by simp [typeSize, so2Triv_size]
  have hrings : ∀ l, (defaultArgs 3 0 2 1).rings = some l → l.Nodup := by simp [defaultArgs]
  have hm : convSize n 0 3 2 1 = some 3 := by rcases hn with rfl | rfl <;> rfl
  have hwin : ∃ i < 3, 0 ≤ i * 2 ∧ i * 2 + 1 * (3 - 1) < 0 + n := ⟨0, by omega, by omega, by omega⟩
  obtain ⟨layer, l1, l2⟩ := c93_so2 interp [0] [0] hne (fun _ => so2Triv) hsz (fun _ _ => ⟨IsInv.one _, fun i hi => ⟨0, List.mem_singleton.1 hi⟩⟩)
    _ M hM hrings one_pos one_pos two_pos rfl (unitWeights M.dim 0) [] n 3 (by simp [unitWeights]) hm hwin 1 1 hsize hsize
  obtain ⟨layer', l1', x, y, hxy⟩ := c93_not_constant so2Gen (fun _ => so2Triv) [0] [0] hne hsz _ M hM hrings one_pos one_pos rfl 0 (by omega) [] n 3 hwin
  have hl : layer' = layer := funext fun x => Option.some.inj ((l1' x).symm.trans (l1 x))
  refine ⟨layer, l1, ?_⟩
  rcases l2 π trivial (so2Space_reverses interp).1 (so2Space_reverses interp).2 with h | h
  · rw [hl, ← hsize] at hxy
    exact absurd (h x y) hxy
  · rw [h]
    rcases hn with rfl | rfl <;> simp [defaultArgs]

/-- The hypotheses of `c93_maxpool` and `c93_avgpool`: windows of size 2 with stride 2 on images with 5 × 5 pixels. -/
example : ¬ ∀ v : Pix Unit 5 → ℝ, maxPool2d 5 0 2 2 1 2 (v ∘ Pix.move ⟨false, true, true⟩) = maxPool2d 5 0 2 2 1 2 v ∘ Pix.move ⟨false, true, true⟩ := by
  rw [c93_maxpool two_pos ⟨0, by norm_num, by norm_num, by norm_num⟩ _ ⟨rfl, Or.inl rfl⟩]
  simp [Covers]

end E2
