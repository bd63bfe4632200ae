import Verif.Props.Bias
import Verif.Lemmas.Conv
import Verif.Props.Image

/-!
# C25: convolutions commute with the symmetries of the grid

For all types, groups, kernel sizes (odd and even), paddings and modes, dilations and strides such that the windows cover the padded image
exactly, all weights and all images: transforming the input by an element of the group which permutes the pixels and convolving is the
same as convolving and transforming the output.
-/

namespace E2

open Finset Mat

variable {El F A I : Type} [LinearOrder F] [DecidableEq I]

theorem typeMat_isRep {F : Type} (G : Grp El) (rep : F → Repr El) (t : List F) (h : ∀ n ∈ t, IsRep G (rep n).size (rep n).mat) :
    IsRep G (typeSize (fun n => (rep n).size) t) (typeMat rep t) where
  one := by
    unfold typeMat
    rw [bdiag_congr (fun n => (rep n).size) (fun n => (rep n).mat G.one) (fun _ => Mat.one) t fun i hi => (h i hi).one]
    exact bdiag_one _ _
  mul a b ha hb := by
    unfold typeMat typeSize
    rw [bdiag_mul, bdiag_congr (fun n => (rep n).size) (fun n => (rep n).mat (G.op a b))
      (fun n => Mat.mul (rep n).size ((rep n).mat a) ((rep n).mat b)) t fun i hi => (h i hi).mul a b ha hb]
    exact MEq.refl _

theorem IsRep.inv_mul {G : Grp El} {n : ℕ} {ρ : El → Mat} (h : IsRep G n ρ) (hG : G.InvOk) (g : El) (hg : G.isEl g) :
    MEq n n (Mat.mul n (ρ (G.inv g)) (ρ g)) Mat.one := by
  have := h.mul_inv hG g hg
  rw [MEq_iff_toM, toM_mul, toM_one] at this ⊢
  exact mul_eq_one_comm.1 this

/-- The claim for one space, with the bases `basis`. -/
def ConvEquivariant (Sp : Space El) (rep : F → Repr El) (inT outT : List F) (basis : F → F → List (A × (ℝ × ℝ → Mat))) (ident : A → I) : Prop :=
  ∀ (c : ConvCfg A I) (inG : List F) (n m : ℕ) (w b : List ℝ),
    -- the identifiers of the basis, and the checks of the constructor
    c.ident = ident → 0 < c.groups → convGroups c.groups inT outT = some inG →
    ((c.exp rep inG outT basis).nPairs = 1 → (c.exp rep inG outT basis).pairs ≠ []) → w.length = (c.exp rep inG outT basis).dimension →
    -- the padding is accepted, the output has `m × m` pixels, the windows cover the padded image
    padOk c.mode n c.p → convSize n c.p c.k c.s c.d = some m → c.s ∣ n + 2 * c.p - c.d * (c.k - 1) - 1 →
    ∃ layer : Fmap → Fmap, (∀ x, r2conv c rep inT outT basis w b n x = some (layer x)) ∧
      ∀ g, Sp.G.isEl g → Sp.grid g → ∀ x,
        FEq (typeSize (fun m => (rep m).size) outT) m
          (layer (fieldAct (typeSize (fun m => (rep m).size) inT) (typeMat rep inT g) (Sp.base n g) x))
          (fieldAct (typeSize (fun m => (rep m).size) outT) (typeMat rep outT g) (Sp.base m g) (layer x))

theorem typeSize_flatten {R : Type} (sz : R → ℕ) (g : ℕ) (t : List R) : typeSize sz (List.replicate g t).flatten = g * typeSize sz t := by
  induction g with
  | zero => simp [typeSize]
  | succ g ih =>
    rw [List.replicate_succ, List.flatten_cons, typeSize, List.map_append, List.sum_append, Nat.succ_mul, Nat.add_comm]
    congr 1

theorem typeMat_flatten {F : Type} (rep : F → Repr El) (g : ℕ) (t : List F) (e : El) (q q' c c' : ℕ) (hq : q < g) (hq' : q' < g)
    (hc : c < typeSize (fun m => (rep m).size) t) (hc' : c' < typeSize (fun m => (rep m).size) t) :
    typeMat rep (List.replicate g t).flatten e (q * typeSize (fun m => (rep m).size) t + c) (q' * typeSize (fun m => (rep m).size) t + c') =
      if q = q' then typeMat rep t e c c' else 0 := by
  rw [typeMat, List.map_flatten, List.map_replicate]
  exact bdiag_flatten_replicate _ _ (by simp [total, typeSize, Function.comp_def]) g q q' c c' hq hq' hc hc'

/-- **C25**, from the constraint on the filters (C23) and the invariance of the bias (C26). -/
theorem c25_conv (Sp : Space El) (hgrid : Sp.GridAction) (hinv : Sp.G.InvOk) (rep : F → Repr El) (inT outT : List F)
    (basis : F → F → List (A × (ℝ × ℝ → Mat))) (ident : A → I)
    (hi : FilterInput rep inT outT basis ident)
    (hfc : ∀ inG, (∀ n ∈ inG, n ∈ inT) → FiltersConstrained Sp.G Sp.act rep inG outT basis ident)
    (hrep : ∀ n ∈ inT, IsRep Sp.G (rep n).size (rep n).mat) (hbias : BiasOk Sp.G rep outT) :
    ConvEquivariant Sp rep inT outT basis ident := by
  intro c inG n m w b hid hg hG hone hw hpad hm hdiv
  obtain ⟨hin, outG, hout⟩ := convGroups_spec hG hg hi.inNe hi.outNe
  have hsub : ∀ n ∈ inG, n ∈ inT := by
    intro n hn
    rw [hin, List.mem_flatten]
    exact ⟨inG, List.mem_replicate.2 ⟨by omega, rfl⟩, hn⟩
  have hi' : FilterInput rep inG outT basis ident := by
    refine ⟨?_, hi.outNe, fun n hn => hi.inSz n (hsub n hn), hi.outSz, fun i hh o ho => hi.ids i (hsub i hh) o ho⟩
    rintro rfl
    exact hi.inNe (by rw [hin]; simp)
  obtain ⟨f, hf, hcon⟩ := hfc inG hsub hi' (c.k * c.k) (gridCoords c.k c.d) c.keep c.shape0 c.inIdx c.outIdx _
    (by rw [ConvCfg.exp, hid]) hone w hw
  have hso : typeSize (fun m => (rep m).size) outT = c.groups * typeSize (fun m => (rep m).size) outG := by rw [hout, typeSize_flatten]
  have hsi : typeSize (fun m => (rep m).size) inT = c.groups * typeSize (fun m => (rep m).size) inG := by
    rw [congrArg (typeSize _) hin, typeSize_flatten]
  have hdv : typeSize (fun m => (rep m).size) outT / c.groups = typeSize (fun m => (rep m).size) outG := by
    rw [hso, Nat.mul_div_cancel_left _ hg]
  refine ⟨_, fun x => by rw [r2conv, hG]; dsimp only; rw [hf], ?_⟩
  intro g hg1 hg2 x
  obtain ⟨τ, t1, t2⟩ := hgrid g hg1 hg2
  rw [hdv, hso, hsi]
  refine conv_sym τ hpad (convSize_cond hm hdiv) _ _ (typeMat rep inG g) (typeMat rep outG g) (typeMat rep inG (Sp.G.inv g)) _ _
    (fun x i j => t1 n x i j) (fun x i j => t1 m x i j) ?_ ?_ ?_ _ ?_ _ ?_ x
  · intro q hq q' hq' a ha a' ha'
    rw [congrArg (typeMat rep) hin]
    exact typeMat_flatten rep c.groups inG g q q' a a' hq hq' ha ha'
  · intro q hq q' hq' a ha a' ha'
    rw [hout]
    exact typeMat_flatten rep c.groups outG g q q' a a' hq hq' ha ha'
  · exact (typeMat_isRep Sp.G rep inG fun n hn => hrep n (hsub n hn)).inv_mul hinv g hg1
  · intro a b' ha hb o ho ch hch
    have := hcon g hg1 ((τ.ap c.k (a, b')).1 * c.k + (τ.ap c.k (a, b')).2) (a * c.k + b')
      (by rw [gridCoords_ap τ _ _ _ _ ha hb, t2])
    rw [← hso] at ho ⊢
    exact this o ho ch hch
  · intro o ho
    rw [← hso] at ho ⊢
    exact hbias.1 b g hg1 o ho

/-! ### The spaces of the library, with their bases -/

variable (radials : List (ℝ → ℝ)) (attr : F → F → ℕ → A) (ident : A → I) (inT outT : List F) (interp : ℝ → Img → Img)

theorem Cyclic.isRep_of {N : ℕ} (hN : 0 < N) {r : Repr ℤ} (h : r.WF ∧ ∀ i ∈ r.irreps, ∃ k, Cyclic.irrep N k = some i) :
    IsRep (Cyclic.grp N) r.size r.mat :=
  Repr.mat_isRep _ r h.1 fun i hi => by obtain ⟨k, hk⟩ := h.2 i hi; exact (Cyclic.irrep_isOrthRep hN hk).toIsRep

theorem Dihedral.isRep_of {N : ℕ} (hN : 0 < N) {r : Repr (ℤ × ℤ)} (h : r.WF ∧ ∀ i ∈ r.irreps, ∃ j k, Dihedral.irrep N j k = some i) :
    IsRep (Dihedral.grp N) r.size r.mat :=
  Repr.mat_isRep _ r h.1 fun i hi => by obtain ⟨j, k, hk⟩ := h.2 i hi; exact (Dihedral.irrep_isOrthRep hN hk).toIsRep

theorem SO2.isRep_of {r : Repr ℝ} (h : r.WF ∧ ∀ i ∈ r.irreps, ∃ k, i = SO2.irrep k) : IsRep SO2.grp r.size r.mat :=
  Repr.mat_isRep _ r h.1 fun i hi => by obtain ⟨k, rfl⟩ := h.2 i hi; exact (c05_so2_irreps k).1.toIsRep

theorem O2.isRep_of {r : Repr (ℤ × ℝ)} (h : r.WF ∧ ∀ i ∈ r.irreps, ∃ j k, O2.irrep j k = some i) : IsRep O2.grp r.size r.mat :=
  Repr.mat_isRep _ r h.1 fun i hi => by obtain ⟨j, k, hk⟩ := h.2 i hi; exact ((c05_o2_irreps j k).2 i hk).1.toIsRep

/-- **C25 for `Rot2dOnR2` with a cyclic group**: all types, the rotations by multiples of a right angle. -/
theorem c25_cyclic (N : ℕ) (hN : 0 < N) (rep : F → Repr ℤ)
    (hr : ∀ n ∈ inT ++ outT, (rep n).WF ∧ ∀ i ∈ (rep n).irreps, ∃ k, Cyclic.irrep N k = some i)
    (maxFreq maxOff : Option ℕ) (hb : ¬ (maxFreq = none ∧ maxOff = none))
    (hi : FilterInput rep inT outT (planeBasis 0 radials (fun i o => rotBasis N i o maxFreq maxOff) attr rep) ident) :
    ConvEquivariant (rotSpace interp N) rep inT outT (planeBasis 0 radials (fun i o => rotBasis N i o maxFreq maxOff) attr rep) ident :=
  c25_conv _ (rotSpace_grid interp N hN) (Cyclic.invOk hN) rep inT outT _ ident hi
    (fun inG h => c23_cyclic radials attr ident inG outT N hN rep
      (fun n hn => hr n (by rcases List.mem_append.1 hn with h' | h'; exacts [List.mem_append_left _ (h n h'), List.mem_append_right _ h'])) maxFreq maxOff hb)
    (fun n hn => Cyclic.isRep_of hN (hr n (List.mem_append_left _ hn)))
    (c26_cyclic N hN rep outT fun n hn => hr n (List.mem_append_right _ hn))

/-- **C25 for `Rot2dOnR2` with SO(2)**. -/
theorem c25_so2 (rep : F → Repr ℝ) (hr : ∀ n ∈ inT ++ outT, (rep n).WF ∧ ∀ i ∈ (rep n).irreps, ∃ k, i = SO2.irrep k)
    (hi : FilterInput rep inT outT (planeBasis 0 radials contBasis attr rep) ident) :
    ConvEquivariant (so2Space interp) rep inT outT (planeBasis 0 radials contBasis attr rep) ident :=
  c25_conv _ (so2Space_grid interp) SO2.invOk rep inT outT _ ident hi
    (fun inG h => c23_so2 radials attr ident inG outT rep
      (fun n hn => hr n (by rcases List.mem_append.1 hn with h' | h'; exacts [List.mem_append_left _ (h n h'), List.mem_append_right _ h'])))
    (fun n hn => SO2.isRep_of (hr n (List.mem_append_left _ hn)))
    (c26_so2 rep outT fun n hn => hr n (List.mem_append_right _ hn))

/-- **C25 for `Flip2dOnR2`**, for the axes whose reflection permutes the pixels. -/
theorem c25_flip (axis : ℝ) (rep : F → Repr ℤ)
    (hr : ∀ n ∈ inT ++ outT, (rep n).WF ∧ ∀ i ∈ (rep n).irreps, ∃ k, Cyclic.irrep 2 k = some i)
    (maxFreq maxOff : Option ℕ) (hb : ¬ (maxFreq = none ∧ maxOff = none))
    (hi : FilterInput rep inT outT (planeBasis axis radials (fun i o => flipsBasis i o maxFreq maxOff) attr rep) ident) :
    ConvEquivariant (flipSpace interp axis) rep inT outT (planeBasis axis radials (fun i o => flipsBasis i o maxFreq maxOff) attr rep) ident :=
  c25_conv _ (flipSpace_grid interp axis) (Cyclic.invOk (by omega)) rep inT outT _ ident hi
    (fun inG h => c23_flip radials attr ident inG outT axis rep
      (fun n hn => hr n (by rcases List.mem_append.1 hn with h' | h'; exacts [List.mem_append_left _ (h n h'), List.mem_append_right _ h'])) maxFreq maxOff hb)
    (fun n hn => Cyclic.isRep_of (by omega) (hr n (List.mem_append_left _ hn)))
    (c26_cyclic 2 (by omega) rep outT fun n hn => hr n (List.mem_append_right _ hn))

/-- **C25 for `FlipRot2dOnR2` with a dihedral group**. -/
theorem c25_dihedral (N : ℕ) (hN : 0 < N) (axis : ℝ) (rep : F → Repr (ℤ × ℤ))
    (hr : ∀ n ∈ inT ++ outT, (rep n).WF ∧ ∀ i ∈ (rep n).irreps, ∃ j k, Dihedral.irrep N j k = some i)
    (maxFreq maxOff : Option ℕ) (hb : ¬ (maxFreq = none ∧ maxOff = none))
    (hi : FilterInput rep inT outT (planeBasis axis radials (fun i o => flipRotBasis N i o maxFreq maxOff) attr rep) ident) :
    ConvEquivariant (flipRotSpace interp N axis) rep inT outT (planeBasis axis radials (fun i o => flipRotBasis N i o maxFreq maxOff) attr rep) ident :=
  c25_conv _ (flipRotSpace_grid interp N axis) (Dihedral.invOk hN) rep inT outT _ ident hi
    (fun inG h => c23_dihedral radials attr ident inG outT N hN axis rep
      (fun n hn => hr n (by rcases List.mem_append.1 hn with h' | h'; exacts [List.mem_append_left _ (h n h'), List.mem_append_right _ h'])) maxFreq maxOff hb)
    (fun n hn => Dihedral.isRep_of hN (hr n (List.mem_append_left _ hn)))
    (c26_dihedral N hN rep outT fun n hn => hr n (List.mem_append_right _ hn))

/-- **C25 for `FlipRot2dOnR2` with O(2)**. -/
theorem c25_o2 (axis : ℝ) (rep : F → Repr (ℤ × ℝ))
    (hr : ∀ n ∈ inT ++ outT, (rep n).WF ∧ ∀ i ∈ (rep n).irreps, ∃ j k, O2.irrep j k = some i)
    (hi : FilterInput rep inT outT (planeBasis axis radials flipContBasis attr rep) ident) :
    ConvEquivariant (o2Space interp axis) rep inT outT (planeBasis axis radials flipContBasis attr rep) ident :=
  c25_conv _ (o2Space_grid interp axis) O2.invOk rep inT outT _ ident hi
    (fun inG h => c23_o2 radials attr ident inG outT axis rep
      (fun n hn => hr n (by rcases List.mem_append.1 hn with h' | h'; exacts [List.mem_append_left _ (h n h'), List.mem_append_right _ h'])))
    (fun n hn => O2.isRep_of (hr n (List.mem_append_left _ hn)))
    (c26_o2 rep outT fun n hn => hr n (List.mem_append_right _ hn))

/-! ### A concrete layer -/

/-- The irreps of frequencies 0 and 1 of `C_4`. -/
noncomputable def exRep (n : ℕ) : Repr ℤ := ⟨(Cyclic.irrep 4 (if n = 0 then 0 else 1)).toList, Mat.one, Mat.one⟩

/-- The basis of the library for `C_4` with two rings. -/
noncomputable def exBasis : ℕ → ℕ → List (Option (PolarAttr ((ℝ × ℝ) × ℕ) (SBasis.Attr ℤ AngElem)) × (ℝ × ℝ → Mat)) :=
  planeBasis 0 ([(0, 1), (1, 1)].map fun q : ℝ × ℝ => gaussian q.1 q.2) (fun i o => rotBasis 4 i o (some 2) none)
    (planeAttr [(0, 1), (1, 1)] (fun i o => rotBasis 4 i o (some 2) none) exRep) exRep

/-- `3 × 3` kernels, padding 1, stride 2. -/
noncomputable def exCfg : ConvCfg (Option (PolarAttr ((ℝ × ℝ) × ℕ) (SBasis.Attr ℤ AngElem))) (Option (ℕ × ℕ × ℝ × ℕ)) :=
  ⟨3, 1, 2, 1, 1, .zeros, fun _ => true, fun _ => 1, planeIdent, fun _ => 0, fun _ => 0⟩

theorem exRep_ok (n : ℕ) : (exRep n).WF ∧ ∀ i ∈ (exRep n).irreps, ∃ k, Cyclic.irrep 4 k = some i :=
  ⟨⟨MEq_one_mul _ _ _, MEq_one_mul _ _ _⟩, fun i hi => ⟨_, by simpa [exRep] using hi⟩⟩

theorem exRep_size (n : ℕ) : (exRep n).size = if n = 0 then 1 else 2 := by
  have hs : ((Cyclic.irrep 4 (if n = 0 then 0 else 1)).isSome : Prop) := by
    unfold Cyclic.irrep; rw [Cyclic.order_eq]; split_ifs <;> simp_all
  obtain ⟨i, hi⟩ := Option.isSome_iff_exists.1 hs
  have := Cyclic.irrep_size hi
  rw [Repr.size, exRep, hi]
  by_cases h : n = 0 <;> simp_all

open Classical in
theorem exInput : FilterInput exRep [0, 1] [1] exBasis planeIdent := by
  refine ⟨by simp, by simp, ?_, ?_, fun i _ o _ => c24_identifiers_distinct 0 _ (by simp) _ exRep i o⟩
  · intro n hn; rw [exRep_size]; split_ifs <;> omega
  · intro n hn; rw [exRep_size]; split_ifs <;> omega

open Classical in
/-- The hypotheses of `c25_cyclic` are met: `C_4`, the input with two different fields (frequencies 0 and 1), `3 × 3` kernels from the basis of
the library with two rings, padding 1, stride 2, on images with `5 × 5` pixels; the output has `3 × 3` pixels. -/
example : ∃ w : List ℝ, ∃ layer : Fmap → Fmap, (∀ x, r2conv exCfg exRep [0, 1] [1] exBasis w [] 5 x = some (layer x)) ∧
      ∀ x, FEq 2 3 (layer (fieldAct 3 (typeMat exRep [0, 1] 1) (rotBase interp 4 5 1) x))
          (fieldAct 2 (typeMat exRep [1] 1) (rotBase interp 4 3 1) (layer x)) := by
  have hd : (exCfg.exp exRep [0, 1] [1] exBasis).nPairs = 2 := rfl
  obtain ⟨layer, e1, e2⟩ := c25_cyclic _ _ planeIdent [0, 1] [1] interp 4 (by omega) exRep (fun n _ => exRep_ok n) (some 2) none (by simp) exInput
    exCfg [0, 1] 5 3 (List.replicate (exCfg.exp exRep [0, 1] [1] exBasis).dimension 1) []
    rfl Nat.one_pos rfl (fun h => absurd (h.symm.trans hd) (by omega)) List.length_replicate trivial rfl (by decide)
  refine ⟨_, layer, e1, fun x => ?_⟩
  have := e2 1 rfl ⟨1, by norm_num; ring⟩ x
  have s1 : typeSize (fun m => (exRep m).size) [0, 1] = 3 := by simp [typeSize, exRep_size]
  have s2 : typeSize (fun m => (exRep m).size) [1] = 2 := by simp [typeSize, exRep_size]
  rw [s1, s2] at this
  exact this

end E2
