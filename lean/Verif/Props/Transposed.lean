import Verif.Props.Conv
import Verif.Props.BandLimit
import Verif.Lemmas.Transposed

/-!
# C61: transposed convolutions

For all types, groups, kernel sizes, paddings, strides and dilations, all weights and all images: without output padding a transposed convolution commutes with
the elements of the group which permute the pixels.  With output padding it does not, unless it is constant.  The checks and the defaults of its parameters differ
from those of `R2Conv`.
-/

set_option linter.unusedSectionVars false

namespace E2

open Finset Mat Real

variable {El F A I : Type} [LinearOrder F] [DecidableEq I]

/-- The claim for one space, with the bases `basis`, for layers with the output padding `op`. -/
def ConvTEquivariant (op : ℕ) (Sp : Space El) (rep : F → Repr El) (inT outT : List F) (basis : F → F → List (A × (ℝ × ℝ → Mat))) (ident : A → I) : Prop :=
  ∀ (c : ConvCfg A I) (outG : List F) (n m : ℕ) (w b : List ℝ),
    -- the identifiers of the basis, and the checks of the constructor
    c.ident = ident → 0 < c.groups → transGroups c.groups inT outT = some outG →
    ((c.exp rep inT outG basis).nPairs = 1 → (c.exp rep inT outG basis).pairs ≠ []) → w.length = (c.exp rep inT outG basis).dimension →
    -- the output has `m × m` pixels
    convTSize n c.p op c.k c.s c.d = some m → 0 < m →
    ∃ layer : Fmap → Fmap, (∀ x, r2convT c rep inT outT basis w b n x = some (layer x)) ∧
      ∀ g, Sp.G.isEl g → Sp.grid g → ∀ x,
        FEq (typeSize (fun m => (rep m).size) outT) m
          (layer (fieldAct (typeSize (fun m => (rep m).size) inT) (typeMat rep inT g) (Sp.base n g) x))
          (fieldAct (typeSize (fun m => (rep m).size) outT) (typeMat rep outT g) (Sp.base m g) (layer x))

theorem convTSize_cond {n p k s d m : ℕ} (hm : convTSize n p 0 k s d = some m) (h0 : 0 < m) : m + 2 * p = (n - 1) * s + (k - 1) * d + 1 := by
  unfold convTSize at hm
  split_ifs at hm
  rw [Option.some.injEq] at hm
  have : d * (k - 1) = (k - 1) * d := Nat.mul_comm _ _
  omega

/-- **C61**, from the constraint on the filters (C23) and the invariance of the bias (C26): without output padding. -/
theorem c61_conv_partial (Sp : Space El) (hgrid : Sp.GridAction) (hinv : Sp.G.InvOk) (rep : F → Repr El) (inT outT : List F)
    (basis : F → F → List (A × (ℝ × ℝ → Mat))) (ident : A → I)
    (hi : FilterInput rep inT outT basis ident)
    (hfc : ∀ outG, (∀ n ∈ outG, n ∈ outT) → FiltersConstrained Sp.G Sp.act rep inT outG basis ident)
    (hrep : ∀ n ∈ inT, IsRep Sp.G (rep n).size (rep n).mat) (hbias : BiasOk Sp.G rep outT) :
    ConvTEquivariant 0 Sp rep inT outT basis ident := by
  intro c outG n m w b hid hg hG hone hw hm hm0
  obtain ⟨hout, inG, hin⟩ := convGroups_spec ((transGroups_eq _ _ _).symm.trans hG) hg hi.outNe hi.inNe
  have hsub : ∀ n ∈ outG, n ∈ outT := by
    intro n hn
    rw [hout, List.mem_flatten]
    exact ⟨outG, List.mem_replicate.2 ⟨by omega, rfl⟩, hn⟩
  have hsubI : ∀ n ∈ inG, n ∈ inT := by
    intro n hn
    rw [hin, List.mem_flatten]
    exact ⟨inG, List.mem_replicate.2 ⟨by omega, rfl⟩, hn⟩
  have hi' : FilterInput rep inT outG basis ident := by
    refine ⟨hi.inNe, ?_, hi.inSz, fun n hn => hi.outSz n (hsub n hn), fun i hh o ho => hi.ids i hh o (hsub o ho)⟩
    rintro rfl
    exact hi.outNe (by rw [hout]; simp)
  obtain ⟨f, hf, hcon⟩ := hfc outG hsub hi' (c.k * c.k) (gridCoords c.k c.d) c.keep c.shape0 c.inIdx c.outIdx _
    (by rw [ConvCfg.exp, hid]) hone w hw
  have hso : typeSize (fun m => (rep m).size) outT = c.groups * typeSize (fun m => (rep m).size) outG := by
    rw [congrArg (typeSize _) hout, typeSize_flatten]
  have hsi : typeSize (fun m => (rep m).size) inT = c.groups * typeSize (fun m => (rep m).size) inG := by
    rw [congrArg (typeSize _) hin, typeSize_flatten]
  have hdv : typeSize (fun m => (rep m).size) inT / c.groups = typeSize (fun m => (rep m).size) inG := by
    rw [hsi, Nat.mul_div_cancel_left _ hg]
  refine ⟨_, fun x => by rw [r2convT, hG]; dsimp only; rw [hf], ?_⟩
  intro g hg1 hg2 x
  obtain ⟨τ, t1, t2⟩ := hgrid g hg1 hg2
  rw [hdv, hso, hsi]
  refine convT_sym τ (convTSize_cond hm hm0) _ _ (typeMat rep inG g) (typeMat rep outG g) (typeMat rep inG (Sp.G.inv g)) _ _
    (fun x i j => t1 n x i j) (fun x i j => t1 m x i j) ?_ ?_ ?_ _ ?_ _ ?_ x
  · intro q hq q' hq' a ha a' ha'
    rw [congrArg (typeMat rep) hin]
    exact typeMat_flatten rep c.groups inG g q q' a a' hq hq' ha ha'
  · intro q hq q' hq' a ha a' ha'
    rw [congrArg (typeMat rep) hout]
    exact typeMat_flatten rep c.groups outG g q q' a a' hq hq' ha ha'
  · exact (typeMat_isRep Sp.G rep inG fun n hn => hrep n (hsubI n hn)).inv_mul hinv g hg1
  · intro a b' ha hb q hq o ho ch hch
    have hlt : ∀ q < c.groups, ∀ ch < typeSize (fun m => (rep m).size) inG,
        q * typeSize (fun m => (rep m).size) inG + ch < c.groups * typeSize (fun m => (rep m).size) inG := by
      intro q hq ch hch
      calc q * typeSize (fun m => (rep m).size) inG + ch < (q + 1) * typeSize (fun m => (rep m).size) inG := by rw [Nat.succ_mul]; omega
        _ ≤ _ := Nat.mul_le_mul_right _ hq
    have := hcon g hg1 ((τ.ap c.k (a, b')).1 * c.k + (τ.ap c.k (a, b')).2) (a * c.k + b')
      (by rw [gridCoords_ap τ _ _ _ _ ha hb, t2]) o ho (q * typeSize (fun m => (rep m).size) inG + ch) (by rw [hsi]; exact hlt q hq ch hch)
    refine this.trans ?_
    unfold transposeFilter Mat.mul
    rw [hsi, sum_range_blocks, sum_eq_single q]
    · refine sum_congr rfl fun c1 hc1 => ?_
      rw [congrArg (typeMat rep) hin, typeMat_flatten rep c.groups inG _ q q c1 ch hq hq (mem_range.1 hc1) hch, if_pos rfl]
      rfl
    · intro q' hq' hne
      refine sum_eq_zero fun c1 hc1 => ?_
      rw [congrArg (typeMat rep) hin, typeMat_flatten rep c.groups inG _ q' q c1 ch (mem_range.1 hq') hq (mem_range.1 hc1) hch, if_neg hne, mul_zero]
    · intro h; exact absurd (mem_range.2 hq) h
  · intro o ho
    rw [← hso] at ho ⊢
    exact hbias.1 b g hg1 o ho

/-! ### The spaces of the library, with their bases -/

variable (radials : List (ℝ → ℝ)) (attr : F → F → ℕ → A) (ident : A → I) (inT outT : List F) (interp : ℝ → Img → Img)

theorem sub_append_left {F : Type} {inT outT outG : List F} (h : ∀ n ∈ outG, n ∈ outT) : ∀ n ∈ inT ++ outG, n ∈ inT ++ outT := fun n hn => by
  rcases List.mem_append.1 hn with h' | h'; exacts [List.mem_append_left _ h', List.mem_append_right _ (h n h')]

/-- **C61 for `Rot2dOnR2` with a cyclic group**. -/
theorem c61_cyclic_partial (N : ℕ) (hN : 0 < N) (rep : F → Repr ℤ)
    (hr : ∀ n ∈ inT ++ outT, (rep n).WF ∧ ∀ i ∈ (rep n).irreps, ∃ k, Cyclic.irrep N k = some i)
    (maxFreq maxOff : Option ℕ) (hb : ¬ (maxFreq = none ∧ maxOff = none))
    (hi : FilterInput rep inT outT (planeBasis 0 radials (fun i o => rotBasis N i o maxFreq maxOff) attr rep) ident) :
    ConvTEquivariant 0 (rotSpace interp N) rep inT outT (planeBasis 0 radials (fun i o => rotBasis N i o maxFreq maxOff) attr rep) ident :=
  c61_conv_partial _ (rotSpace_grid interp N hN) (Cyclic.invOk hN) rep inT outT _ ident hi
    (fun outG h => c23_cyclic radials attr ident inT outG N hN rep (fun n hn => hr n (sub_append_left h n hn)) maxFreq maxOff hb)
    (fun n hn => Cyclic.isRep_of hN (hr n (List.mem_append_left _ hn)))
    (c26_cyclic N hN rep outT fun n hn => hr n (List.mem_append_right _ hn))

/-- **C61 for `Rot2dOnR2` with SO(2)**. -/
theorem c61_so2_partial (rep : F → Repr ℝ) (hr : ∀ n ∈ inT ++ outT, (rep n).WF ∧ ∀ i ∈ (rep n).irreps, ∃ k, i = SO2.irrep k)
    (hi : FilterInput rep inT outT (planeBasis 0 radials contBasis attr rep) ident) :
    ConvTEquivariant 0 (so2Space interp) rep inT outT (planeBasis 0 radials contBasis attr rep) ident :=
  c61_conv_partial _ (so2Space_grid interp) SO2.invOk rep inT outT _ ident hi
    (fun outG h => c23_so2 radials attr ident inT outG rep (fun n hn => hr n (sub_append_left h n hn)))
    (fun n hn => SO2.isRep_of (hr n (List.mem_append_left _ hn)))
    (c26_so2 rep outT fun n hn => hr n (List.mem_append_right _ hn))

/-- **C61 for `Flip2dOnR2`**, for the axes whose reflection permutes the pixels. -/
theorem c61_flip_partial (axis : ℝ) (rep : F → Repr ℤ)
    (hr : ∀ n ∈ inT ++ outT, (rep n).WF ∧ ∀ i ∈ (rep n).irreps, ∃ k, Cyclic.irrep 2 k = some i)
    (maxFreq maxOff : Option ℕ) (hb : ¬ (maxFreq = none ∧ maxOff = none))
    (hi : FilterInput rep inT outT (planeBasis axis radials (fun i o => flipsBasis i o maxFreq maxOff) attr rep) ident) :
    ConvTEquivariant 0 (flipSpace interp axis) rep inT outT (planeBasis axis radials (fun i o => flipsBasis i o maxFreq maxOff) attr rep) ident :=
  c61_conv_partial _ (flipSpace_grid interp axis) (Cyclic.invOk (by omega)) rep inT outT _ ident hi
    (fun outG h => c23_flip radials attr ident inT outG axis rep (fun n hn => hr n (sub_append_left h n hn)) maxFreq maxOff hb)
    (fun n hn => Cyclic.isRep_of (by omega) (hr n (List.mem_append_left _ hn)))
    (c26_cyclic 2 (by omega) rep outT fun n hn => hr n (List.mem_append_right _ hn))

/-- **C61 for `FlipRot2dOnR2` with a dihedral group**. -/
theorem c61_dihedral_partial (N : ℕ) (hN : 0 < N) (axis : ℝ) (rep : F → Repr (ℤ × ℤ))
    (hr : ∀ n ∈ inT ++ outT, (rep n).WF ∧ ∀ i ∈ (rep n).irreps, ∃ j k, Dihedral.irrep N j k = some i)
    (maxFreq maxOff : Option ℕ) (hb : ¬ (maxFreq = none ∧ maxOff = none))
    (hi : FilterInput rep inT outT (planeBasis axis radials (fun i o => flipRotBasis N i o maxFreq maxOff) attr rep) ident) :
    ConvTEquivariant 0 (flipRotSpace interp N axis) rep inT outT (planeBasis axis radials (fun i o => flipRotBasis N i o maxFreq maxOff) attr rep) ident :=
  c61_conv_partial _ (flipRotSpace_grid interp N axis) (Dihedral.invOk hN) rep inT outT _ ident hi
    (fun outG h => c23_dihedral radials attr ident inT outG N hN axis rep (fun n hn => hr n (sub_append_left h n hn)) maxFreq maxOff hb)
    (fun n hn => Dihedral.isRep_of hN (hr n (List.mem_append_left _ hn)))
    (c26_dihedral N hN rep outT fun n hn => hr n (List.mem_append_right _ hn))

/-- **C61 for `FlipRot2dOnR2` with O(2)**. -/
theorem c61_o2_partial (axis : ℝ) (rep : F → Repr (ℤ × ℝ))
    (hr : ∀ n ∈ inT ++ outT, (rep n).WF ∧ ∀ i ∈ (rep n).irreps, ∃ j k, O2.irrep j k = some i)
    (hi : FilterInput rep inT outT (planeBasis axis radials flipContBasis attr rep) ident) :
    ConvTEquivariant 0 (o2Space interp axis) rep inT outT (planeBasis axis radials flipContBasis attr rep) ident :=
  c61_conv_partial _ (o2Space_grid interp axis) O2.invOk rep inT outT _ ident hi
    (fun outG h => c23_o2 radials attr ident inT outG axis rep (fun n hn => hr n (sub_append_left h n hn)))
    (fun n hn => O2.isRep_of (hr n (List.mem_append_left _ hn)))
    (c26_o2 rep outT fun n hn => hr n (List.mem_append_right _ hn))

open Classical in
/-- The hypotheses of `c61_cyclic_partial` are met: `C_4`, the input with two different fields (frequencies 0 and 1), `3 × 3` kernels from the basis of
the library with two rings, padding 1, stride 2, on images with `3 × 3` pixels; the output has `5 × 5` pixels. -/
example : ∃ w : List ℝ, ∃ layer : Fmap → Fmap, (∀ x, r2convT exCfg exRep [0, 1] [1] exBasis w [] 3 x = some (layer x)) ∧
      ∀ x, FEq 2 5 (layer (fieldAct 3 (typeMat exRep [0, 1] 1) (rotBase interp 4 3 1) x))
          (fieldAct 2 (typeMat exRep [1] 1) (rotBase interp 4 5 1) (layer x)) := by
  have hd : (exCfg.exp exRep [0, 1] [1] exBasis).nPairs = 2 := rfl
  obtain ⟨layer, e1, e2⟩ := c61_cyclic_partial _ _ planeIdent [0, 1] [1] interp 4 (by omega) exRep (fun n _ => exRep_ok n) (some 2) none (by simp) exInput
    exCfg [1] 3 5 (List.replicate (exCfg.exp exRep [0, 1] [1] exBasis).dimension 1) []
    rfl Nat.one_pos rfl (fun h => absurd (h.symm.trans hd) (by omega)) List.length_replicate rfl (by omega)
  refine ⟨_, layer, e1, fun x => ?_⟩
  have := e2 1 rfl ⟨1, by norm_num; ring⟩ x
  have s1 : typeSize (fun m => (exRep m).size) [0, 1] = 3 := by simp [typeSize, exRep_size]
  have s2 : typeSize (fun m => (exRep m).size) [1] = 2 := by simp [typeSize, exRep_size]
  rw [s1, s2] at this
  exact this

/-! ### Output padding -/

/-- **C61 is false with output padding**: `1 × 1` kernels, stride 2 and output padding 1 on an image with one pixel, for the rotation by a right angle and all
types and bases.  If the layer commutes with the rotation, its output does not depend on the image. -/
theorem c61_output_padding_wrong (rep : F → Repr ℤ) (inT outT : List F) (basis : F → F → List (A × (ℝ × ℝ → Mat))) (c : ConvCfg A I)
    (hr : ∀ n ∈ outT, (rep n).WF ∧ ∀ i ∈ (rep n).irreps, ∃ k, Cyclic.irrep 4 k = some i)
    (hk : c.k = 1) (hp : c.p = 0) (hs : c.s = 2) (hd : c.d = 1) (w b : List ℝ) (layer : Fmap → Fmap)
    (hl : ∀ x, r2convT c rep inT outT basis w b 1 x = some (layer x)) :
    -- the output has `2 × 2` pixels
    convTSize 1 c.p 1 c.k c.s c.d = some 2 ∧
    ((∀ x, FEq (typeSize (fun m => (rep m).size) outT) 2
        (layer (fieldAct (typeSize (fun m => (rep m).size) inT) (typeMat rep inT 1) (rotBase interp 4 1 1) x))
        (fieldAct (typeSize (fun m => (rep m).size) outT) (typeMat rep outT 1) (rotBase interp 4 2 1) (layer x))) →
      ∀ x x', FEq (typeSize (fun m => (rep m).size) outT) 2 (layer x) (layer x')) := by
  refine ⟨by rw [hk, hp, hs, hd]; rfl, fun h => ?_⟩
  set so := typeSize (fun m => (rep m).size) outT with hso
  set B := outBias rep outT b with hB
  -- only the first pixel depends on the image
  have hval : ∀ x o i j, i < 2 → j < 2 → ¬ (i = 0 ∧ j = 0) → layer x o i j = B o := by
    intro x o i j hi hj hij
    have := hl x
    rw [r2convT] at this
    split at this
    · simp at this
    · split at this
      · simp at this
      · rw [Option.some.injEq] at this
        rw [← this]
        unfold convT2d
        rw [hk, hp, hs, hd]
        rw [Finset.sum_eq_zero, zero_add]
        intro ch _
        simp only [Finset.range_one, Finset.sum_singleton, zero_mul, zero_add, Nat.add_zero]
        exact if_neg fun e => hij ⟨e.1.symm, e.2.symm⟩
  have hq : ∀ x : Img, rotBase interp 4 2 1 x 1 0 = x 0 0 := by
    intro x
    rw [rotBase, if_pos (by norm_num), rotateArray_quarter interp 2 x (k := 1) (by push_cast; ring)]
    simp [rot90, Img.flip1, Img.transp]
  have hR := typeMat_isRep (Cyclic.grp 4) rep outT fun n hn => Cyclic.isRep_of (by omega) (hr n hn)
  have hone := hR.inv_mul (Cyclic.invOk (by omega)) 1 rfl
  -- at the pixel whose image is the first one
  have h1 : ∀ x, ∀ o < so, B o = ∑ o' ∈ Finset.range so, typeMat rep outT 1 o o' * layer x o' 0 0 := by
    intro x o ho
    have := h x o ho 1 (by omega) 0 (by omega)
    rw [hval _ _ _ _ (by omega) (by omega) (by omega), fieldAct, hq] at this
    exact this
  have h2 : ∀ x, ∀ o < so, layer x o 0 0 = ∑ o' ∈ Finset.range so, typeMat rep outT ((Cyclic.grp 4).inv 1) o o' * B o' := by
    intro x o ho
    rw [Finset.sum_congr rfl fun o' ho' => by rw [h1 x o' (Finset.mem_range.1 ho'), Finset.mul_sum], Finset.sum_comm]
    have e : ∀ o' ∈ Finset.range so, ∑ y ∈ Finset.range so, typeMat rep outT ((Cyclic.grp 4).inv 1) o y * (typeMat rep outT 1 y o' * layer x o' 0 0)
        = Mat.one o o' * layer x o' 0 0 := by
      intro o' ho'
      rw [← hone o ho o' (Finset.mem_range.1 ho'), Mat.mul, Finset.sum_mul]
      exact Finset.sum_congr rfl fun y _ => by ring
    rw [Finset.sum_congr rfl e, Finset.sum_eq_single o]
    · simp [Mat.one]
    · intro o' _ hne; simp [Mat.one, Ne.symm hne]
    · intro hh; exact absurd (Finset.mem_range.2 ho) hh
  intro x x' o ho i hi j hj
  by_cases hij : i = 0 ∧ j = 0
  · rw [hij.1, hij.2, h2 x o ho, h2 x' o ho]
  · rw [hval x o i j hi hj hij, hval x' o i j hi hj hij]

/-- `1 × 1` kernels with stride 2. -/
def padCfg : ConvCfg Unit Unit := ⟨1, 0, 2, 1, 1, .zeros, fun _ => true, fun _ => 1, id, fun _ => 0, fun _ => 0⟩

/-- The only kernel of size 1 between two trivial representations. -/
noncomputable def padBasis : ℕ → ℕ → List (Unit × (ℝ × ℝ → Mat)) := fun _ _ => [((), fun _ => Mat.one)]

theorem padForward : ∃ f, (padCfg.exp exRep [0] [0] padBasis).forward [1] = some f ∧ f 0 0 0 = 1 := by
  set E := padCfg.exp exRep [0] [0] padBasis with hE
  have hs : (exRep 0).size = 1 := by rw [exRep_size, if_pos rfl]
  have hn : ∀ b : Arr3, b 0 0 0 = 1 → elemNorm 1 1 1 1 b = 1 := by
    intro b hb
    simp only [elemNorm, Finset.range_one, Finset.sum_singleton, hb, Nat.cast_one, mul_one, div_one]
    rw [if_neg (by norm_num : ¬ (1 : ℝ) < 1e-15), Real.sqrt_one, if_neg (by norm_num)]
  have hgen : ∃ e : Elem Unit, E.gen 0 0 = some [e] ∧ e.ker 0 0 0 = 1 := by
    refine ⟨⟨(), normalizeElem 1 1 1 1 fun r c _ => Mat.one r c⟩, ?_, ?_⟩
    · have h1 : E.gen 0 0 = singleBlock 1 1 1 (fun _ => true) (fun _ => 1) [(⟨(), fun r c _ => Mat.one r c⟩ : Elem Unit)] := by
        rw [hE, ConvCfg.exp, filterExp]
        simp only [hs]
        rfl
      rw [h1, singleBlock]
      have h2 : sqNorm 1 1 1 (normalizeElem 1 1 1 1 fun r c _ => Mat.one r c) > 1e-2 := by
        simp only [sqNorm, Finset.range_one, Finset.sum_singleton, normalizeElem]
        rw [hn _ (by simp [Mat.one])]
        simp only [Mat.one]; norm_num
      simp [h2]
    · simp only [normalizeElem]
      rw [hn _ (by simp [Mat.one])]
      simp [Mat.one]
  obtain ⟨e, hg, he⟩ := hgen
  have hp : E.pairs = [(0, 0)] := by
    have h1 : E.inT = [0] := rfl
    have h2 : E.outT = [0] := rfl
    simp [Exp.pairs, Exp.pairsRaw, h1, h2, hg]
  have hb : E.block (0, 0) = [e] := by rw [Exp.block, hg]; rfl
  have hids : E.basisIds (0, 0) = [⟨0, 0, 0, 0, ()⟩] := by
    have h1 : E.inT = [0] := rfl
    have h2 : E.outT = [0] := rfl
    rw [Exp.basisIds, hb, h1, h2]; simp
  have hd : E.dimension = 1 := by
    rw [Exp.dimension, Exp.basisToIds, hp, List.flatMap_cons, List.flatMap_nil, hids]; decide
  have hr : E.ranges = [((0, 0), 0, 1)] := by
    rw [Exp.ranges, hp, Exp.rangesLoop, Exp.rangesLoop, hids]; rfl
  have hc : E.contig [0] 0 = some true := by
    have : E.sz 0 = 1 := hs
    unfold Exp.contig Exp.indices
    rw [List.map_cons, List.map_nil, this]
    simp [labelIdxFrom, checkConsecutive, dictAppend, consecutiveLoop]
  have hx : ∃ X, E.expandBlock [1] (0, 0) = some X ∧ X 0 0 0 0 0 = 1 := by
    unfold Exp.expandBlock
    rw [hr, hb]
    refine ⟨_, by simp only [List.find?_cons, decide_true]; rw [if_pos]; exact ⟨by simp [pySlice], by simp [pySlice, show E.inT = [0] from rfl, show E.outT = [0] from rfl]⟩, ?_⟩
    simp [blockForward, he, pySlice]
  obtain ⟨X, hX, hX'⟩ := hx
  refine ⟨Exp.mergeAxes 1 1 X, ?_, hX'⟩
  rw [Exp.forward, if_pos (by rw [hd]; rfl), if_pos (by simp [Exp.nPairs, show E.inT = [0] from rfl, show E.outT = [0] from rfl]), hp]
  dsimp only
  rw [show E.inT = [0] from rfl, show E.outT = [0] from rfl, hc, Option.bind_some, Option.bind_some, if_pos (by simp), hX, Option.map_some, show E.sz 0 = 1 from hs]

/-- The hypotheses of `c61_output_padding_wrong` are met by a layer which is not constant, which hence does not commute with the rotation. -/
example : ∃ layer : Fmap → Fmap, (∀ x, r2convT padCfg exRep [0] [0] padBasis [1] [] 1 x = some (layer x)) ∧
    ¬ ∀ x, FEq 1 2 (layer (fieldAct 1 (typeMat exRep [0] 1) (rotBase interp 4 1 1) x))
        (fieldAct 1 (typeMat exRep [0] 1) (rotBase interp 4 2 1) (layer x)) := by
  obtain ⟨f, hf, h1⟩ := padForward
  have hl : ∀ x, r2convT padCfg exRep [0] [0] padBasis [1] [] 1 x = some _ := fun x => by
    rw [r2convT, show transGroups padCfg.groups [0] [0] = some [0] from rfl]; dsimp only; rw [hf]
  refine ⟨_, hl, fun h => ?_⟩
  have s1 : typeSize (fun m => (exRep m).size) [0] = 1 := by simp [typeSize, exRep_size]
  have := (c61_output_padding_wrong interp exRep [0] [0] padBasis padCfg (fun n _ => exRep_ok n) rfl rfl rfl rfl [1] [] _ hl).2
  rw [s1] at this
  have := this h (fun _ _ _ => 0) (fun _ _ _ => 1) 0 (by omega) 0 (by omega) 0 (by omega)
  simp [convT2d, padCfg, transposeFilter, h1] at this

/-! ### The parameters -/

theorem axisPt_sq_le (k d j : ℕ) (hj : j < k) : axisPt k d j ^ 2 ≤ ((d : ℝ) * ((k : ℝ) - 1) / 2) ^ 2 := by
  have hd : (0 : ℝ) ≤ d := Nat.cast_nonneg d
  have h0 : (0 : ℝ) ≤ j := Nat.cast_nonneg j
  have h1 : (j : ℝ) ≤ (k : ℝ) - 1 := by
    have : ((j + 1 : ℕ) : ℝ) ≤ k := by exact_mod_cast hj
    push_cast at this; linarith
  refine sq_le_sq' ?_ ?_
  · unfold axisPt; nlinarith [mul_nonneg h0 hd]
  · unfold axisPt; nlinarith [mul_le_mul_of_nonneg_right h1 hd]

theorem gridMaxRadius_le_of (k d : ℕ) (B : ℝ) (hB : 0 ≤ B)
    (h : ∀ q < k * k, √((gridCoords k d q).1 ^ 2 + (gridCoords k d q).2 ^ 2) ≤ B) : gridMaxRadius k d ≤ B := by
  unfold gridMaxRadius
  have main : ∀ y ∈ (List.range (k * k)).map fun q => √((gridCoords k d q).1 ^ 2 + (gridCoords k d q).2 ^ 2), y ≤ B := by
    intro y hy
    obtain ⟨q, hq, rfl⟩ := List.mem_map.1 hy
    exact h q (List.mem_range.1 hq)
  generalize (List.range (k * k)).map _ = l at main
  induction l with
  | nil => exact hB
  | cons a l ih => rw [List.foldr_cons]; exact max_le (main a (by simp)) (ih fun y hy => main y (by simp [hy]))

/-- No pixel is further than the corners. -/
theorem grid_sq_le (k d q : ℕ) (hq : q < k * k) :
    (gridCoords k d q).1 ^ 2 + (gridCoords k d q).2 ^ 2 ≤ 2 * ((d : ℝ) * ((k : ℝ) - 1) / 2) ^ 2 := by
  have hk : 0 < k := Nat.pos_of_ne_zero fun h => by simp [h] at hq
  rw [gridCoords_axis]
  have h1 := axisPt_sq_le k d (q % k) (Nat.mod_lt _ hk)
  have h2 := axisPt_sq_le k d (q / k) ((Nat.div_lt_iff_lt_mul hk).2 hq)
  simp only [neg_sq]
  linarith

/-- The largest distance is at most the value computed by the transposed convolution. -/
theorem gridMaxRadius_le (k d : ℕ) : gridMaxRadius k d ≤ gridMaxRadiusT k d := by
  refine gridMaxRadius_le_of k d _ (le_trans (Real.sqrt_nonneg _) (le_max_left _ _)) fun q hq => ?_
  have hk : 0 < k := Nat.pos_of_ne_zero fun h => by simp [h] at hq
  refine le_trans (Real.sqrt_le_sqrt ((grid_sq_le k d q hq).trans ?_)) (le_max_left _ _)
  rcases Nat.lt_or_ge 1 k with h1 | h1
  · have hne : (0 : ℕ) ≠ k - 1 := by omega
    have hsub : ({0, k - 1} : Finset ℕ) ⊆ Finset.range (k * k) := by
      intro q hq
      rw [Finset.mem_insert, Finset.mem_singleton] at hq
      rw [Finset.mem_range]
      have : k ≤ k * k := Nat.le_mul_of_pos_left k hk
      omega
    refine le_trans ?_ (Finset.sum_le_sum_of_subset_of_nonneg hsub fun q _ _ => sq_nonneg _)
    rw [Finset.sum_pair hne, gridCoords_axis, gridCoords_axis]
    simp only [Nat.zero_mod, Nat.mod_eq_of_lt (show k - 1 < k by omega)]
    have e1 : axisPt k d 0 = -((d : ℝ) * ((k : ℝ) - 1) / 2) := by unfold axisPt; push_cast; ring
    have e2 : axisPt k d (k - 1) = (d : ℝ) * ((k : ℝ) - 1) / 2 := by
      unfold axisPt; rw [Nat.cast_sub hk]; push_cast; ring
    rw [e1, e2]
    apply le_of_eq; ring
  · obtain rfl : k = 1 := by omega
    refine le_trans (le_of_eq ?_) (Finset.sum_nonneg fun q _ => sq_nonneg _)
    simp

/-- **C61, the parameters**: when the constructor of `R2Conv` accepts the rings given, or the default rings without dilation, the transposed convolution computes
the same rings, widths, cutoff and maximum frequency. -/
theorem c61_params_partial (k d : ℕ) (fco : Cutoff) (rings : Option (List ℝ)) (sigma : Option (ℝ ⊕ List ℝ)) (h : rings = none → d = 1) (v)
    (hv : computeBasisParams k d fco rings sigma = some v) : computeBasisParamsT k d fco rings sigma = some v := by
  have e : basisRingsT k rings = basisRings k d rings := by
    cases rings with
    | some r => rfl
    | none => simp [basisRingsT, basisRings, h rfl]
  unfold computeBasisParams at hv
  unfold computeBasisParamsT
  dsimp only at hv ⊢
  rw [e]
  split_ifs at hv with h1
  rw [if_pos fun r hr => ⟨(h1 r hr).1.trans (gridMaxRadius_le k d), (h1 r hr).2⟩]
  exact hv

/-- The default rings of a dilated transposed convolution are not those of `R2Conv`: for a kernel of size 5 with dilation 2 the last ring has radius 2 instead of 4, where
the outermost pixels on the axes are. -/
theorem c61_rings_wrong : (basisRings 5 2 none).getLast? = some 4 ∧ (basisRingsT 5 none).getLast? = some 2 := by
  constructor <;> simp [basisRings, basisRingsT, linspace0, List.range_succ] <;> norm_num

/-- A ring out of the grid, which `R2Conv` refuses, is accepted: kernels of size 3, whose pixels are at distance `√2` at most, and a ring of radius 2. -/
theorem c61_radius_wrong (fco : Cutoff) (sigma : Option (ℝ ⊕ List ℝ)) :
    computeBasisParams 3 1 fco (some [2]) sigma = none ∧ (computeBasisParamsT 3 1 fco (some [2]) sigma).isSome := by
  constructor
  · unfold computeBasisParams
    dsimp only
    rw [if_neg]
    intro h
    have h1 := (h 2 (by simp [basisRings])).1
    have h2 : gridMaxRadius 3 1 ≤ √2 := gridMaxRadius_le_of 3 1 _ (Real.sqrt_nonneg _) fun q hq => by
      refine Real.sqrt_le_sqrt ((grid_sq_le 3 1 q hq).trans ?_)
      norm_num
    have h3 : √(2 : ℝ) < 2 := by rw [Real.sqrt_lt' (by norm_num)]; norm_num
    linarith
  · unfold computeBasisParamsT
    dsimp only
    rw [if_pos]
    · simp [basisRingsT, maximumFrequency, listMax]
    · intro r hr
      simp only [basisRingsT, List.mem_singleton] at hr
      subst hr
      refine ⟨le_trans ?_ (le_max_left _ _), by norm_num⟩
      refine Real.le_sqrt_of_sq_le ?_
      simp only [gridCoords_axis, axisPt, Finset.sum_range_succ, Finset.sum_range_zero]
      norm_num

/-- The hypotheses of `c61_params_partial` are met: kernels of size 5 with dilation 2 and three rings at the pixels. -/
example (fco : Cutoff) : ∃ v, computeBasisParams 5 2 fco (some [0, 2, 4]) none = some v ∧ computeBasisParamsT 5 2 fco (some [0, 2, 4]) none = some v := by
  have h : ∃ v, computeBasisParams 5 2 fco (some [0, 2, 4]) none = some v := by
    refine Option.isSome_iff_exists.1 ?_
    unfold computeBasisParams
    dsimp only
    rw [if_pos]
    · simp [basisRings, maximumFrequency, listMax]
    · intro r hr
      have := gridMaxRadius_ge 5 2 (by omega)
      norm_num at this
      simp only [basisRings, List.mem_cons, List.not_mem_nil, or_false] at hr
      rcases hr with rfl | rfl | rfl <;> constructor <;> linarith
  obtain ⟨v, hv⟩ := h
  exact ⟨v, hv, c61_params_partial 5 2 fco _ _ (by simp) v hv⟩

end E2
