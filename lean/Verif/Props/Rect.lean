import Verif.Lemmas.Rect
import Verif.Props.R2ConvInit

/-!
# C94: rectangular images, and paddings which differ along the two axes

The image may have any height and width, and `padding` may be a tuple.  Reversals of the axes always commute with the layer; the elements which exchange the axes do
when the two paddings are equal.
-/

set_option linter.unusedSectionVars false

namespace E2

open Finset Mat Real

/-- The centre of a pixel of an image with `h × w` pixels, in the plane with the origin in the centre of the image. -/
noncomputable def pixR (h w : ℕ) (p : ℕ × ℕ) : ℝ × ℝ := ((p.2 : ℝ) - ((w : ℝ) - 1) / 2, ((h : ℝ) - 1) / 2 - p.1)

/-- The element maps the horizontal axis to the vertical one. -/
def Space.Turns {El : Type} (Sp : Space El) (g : El) : Prop := (Sp.act g (1, 0)).1 = 0

open Classical in
/-- The shape of an image with `h × w` pixels transformed by `g`. -/
noncomputable def Space.turned {El : Type} (Sp : Space El) (g : El) (h w : ℕ) : ℕ × ℕ := if Sp.Turns g then (w, h) else (h, w)

theorem Space.turns_iff {El : Type} {Sp : Space El} {g : El} {τ : GSym} (t : ∀ p, Sp.act g (τ.lin p) = p) : Sp.Turns g ↔ τ.swap = true := by
  unfold Space.Turns
  obtain ⟨s, a, b⟩ := τ
  cases s
  · cases b
    · have := t (1, 0)
      simp [GSym.lin] at this
      simp [this]
    · have := t (-1, 0)
      simp [GSym.lin] at this
      simp [this]
  · cases b
    · have := t (0, -1)
      simp [GSym.lin] at this
      simp [this]
    · have := t (0, 1)
      simp [GSym.lin] at this
      simp [this]

theorem Space.turned_eq {El : Type} {Sp : Space El} {g : El} {τ : GSym} (t : ∀ p, Sp.act g (τ.lin p) = p) (h w : ℕ) :
    Sp.turned g h w = τ.shape h w := by
  unfold Space.turned GSym.shape
  by_cases hs : τ.swap = true
  · rw [if_pos ((Space.turns_iff t).2 hs), if_pos hs]
  · rw [if_neg (fun h => hs ((Space.turns_iff t).1 h)), if_neg hs]

theorem GSym.pix_apR (τ : GSym) {h w i j : ℕ} (hi : i < (τ.shape h w).1) (hj : j < (τ.shape h w).2) :
    (τ.apR h w (i, j)).1 < h ∧ (τ.apR h w (i, j)).2 < w ∧ pixR h w (τ.apR h w (i, j)) = τ.lin (pixR (τ.shape h w).1 (τ.shape h w).2 (i, j)) := by
  have key : ∀ {n i : ℕ}, i < n → ((n - 1 - i : ℕ) : ℝ) = n - 1 - i := by
    intro n i hi
    rw [Nat.sub_sub, Nat.cast_sub (by omega)]; push_cast; ring
  obtain ⟨s, a, b⟩ := τ
  cases s
  · have hi' : i < h := hi
    have hj' : j < w := hj
    cases a <;> cases b <;> refine ⟨by simp [apR]; try omega, by simp [apR]; try omega, ?_⟩ <;>
      simp only [apR, lin, pixR, shape, key hi', key hj', if_true, if_false, Bool.false_eq_true] <;>
      refine Prod.ext ?_ ?_ <;> simp only <;> ring
  · have hi' : i < w := hi
    have hj' : j < h := hj
    cases a <;> cases b <;> refine ⟨by simp [apR]; try omega, by simp [apR]; try omega, ?_⟩ <;>
      simp only [apR, lin, pixR, shape, key hi', key hj', if_true, if_false, Bool.false_eq_true] <;>
      refine Prod.ext ?_ ?_ <;> simp only <;> ring

variable {El F A I : Type} [LinearOrder F] [DecidableEq I]

/-- **C94, the formula of the action**: the transformed image at the pixel `q` of the turned rectangle is the matrix of `g` applied to the image at the pixel
`g⁻¹ q`. -/
theorem c94_formula (Sp : Space El) (base : ℕ → ℕ → El → Img → Img) (hr : Sp.RectAction base) (size : ℕ) (ρ : Mat) (g : El) (h1 : Sp.G.isEl g) (h2 : Sp.grid g)
    (h w i j : ℕ) (hi : i < (Sp.turned g h w).1) (hj : j < (Sp.turned g h w).2) :
    ∃ i' < h, ∃ j' < w, pixR (Sp.turned g h w).1 (Sp.turned g h w).2 (i, j) = Sp.act g (pixR h w (i', j')) ∧
      ∀ (x : Fmap) o, fieldAct size ρ (base h w g) x o i j = ∑ c ∈ Finset.range size, ρ o c * x c i' j' := by
  obtain ⟨τ, t1, t2⟩ := hr g h1 h2
  rw [Space.turned_eq t2] at hi hj ⊢
  obtain ⟨l1, l2, l3⟩ := τ.pix_apR hi hj
  refine ⟨_, l1, _, l2, ?_, fun x o => ?_⟩
  · change _ = Sp.act g (pixR h w (τ.apR h w (i, j)))
    rw [l3, t2]
  · unfold fieldAct
    rw [t1 h w _ i j hi hj]

/-- On square images these are the actions of C45. -/
theorem c94_square_action (interp : ℝ → Img → Img) (N n : ℕ) (axis : ℝ) :
    rotBaseR interp N n n = (rotSpace interp N).base n ∧ so2BaseR interp n n = (so2Space interp).base n ∧
    flipBaseR interp axis n n = (flipSpace interp axis).base n ∧ flipRotBaseR interp N axis n n = (flipRotSpace interp N axis).base n ∧
    o2BaseR interp axis n n = (o2Space interp axis).base n ∧ trivialBaseR n n = trivialSpace.base n := ⟨rfl, rfl, rfl, rfl, rfl, rfl⟩

/-- **C94, square images**: with one number for the padding, and on square images, the module is the one of C66. -/
theorem c94_square (M : ConvModule El F) (rep : F → Repr El) (inT outT : List F) (wts b : List ℝ) (n : ℕ) (x : Fmap) :
    M.forwardR (.int M.cfg.p) rep inT outT wts b n n x = M.forward rep inT outT wts b n x := by
  unfold ConvModule.forwardR ConvModule.forward r2convR r2conv
  have : (Padding.int M.cfg.p).used M.cfg.mode = (M.cfg.p, M.cfg.p) := by
    cases M.cfg.mode <;> rfl
  simp only [this]
  rfl

/-- Rows and columns are padded by the first and by the second number, whatever the mode. -/
theorem Padding.used_eq (p : Padding) (mode : PadMode) : p.used mode = p.both := by
  cases mode <;> rfl

/-- The claim for one space and its kernels: whatever the arguments, the padding and the size of the image, if the constructor succeeds then the layer accepts all
weights, biases and images and commutes with the elements of the group which permute the pixels, if they do not exchange the axes or the paddings agree. -/
def R2ConvRect (Sp : Space El) (base : ℕ → ℕ → El → Img → Img) (G : KernelGen El) (rep : F → Repr El) (inT outT : List F) : Prop :=
  ∀ (a : ConvArgs El) (M : ConvModule El F), r2convInit G a rep inT outT = some M →
    (∀ l, a.rings = some l → l.Nodup) → 0 < a.groups → 0 < a.dilation →
    ∀ (p : Padding) (wts b : List ℝ) (h w mh mw : ℕ), wts.length = M.dim →
    -- the padding is accepted, the output has `mh × mw` pixels, the windows cover the padded image
    padOk a.paddingMode h p.both.1 → padOk a.paddingMode w p.both.2 →
    convSize h p.both.1 a.kernelSize a.stride a.dilation = some mh → convSize w p.both.2 a.kernelSize a.stride a.dilation = some mw →
    a.stride ∣ h + 2 * p.both.1 - a.dilation * (a.kernelSize - 1) - 1 → a.stride ∣ w + 2 * p.both.2 - a.dilation * (a.kernelSize - 1) - 1 →
    ∃ layer : ℕ → ℕ → Fmap → Fmap, (∀ h w x, M.forwardR p rep inT outT wts b h w x = some (layer h w x)) ∧
      ∀ g, Sp.G.isEl g → Sp.grid g → ¬ Sp.Turns g ∨ p.both.1 = p.both.2 → ∀ x,
        FEqR (typeSize (fun m => (rep m).size) outT) (Sp.turned g mh mw).1 (Sp.turned g mh mw).2
          (layer (Sp.turned g h w).1 (Sp.turned g h w).2 (fieldAct (typeSize (fun m => (rep m).size) inT) (typeMat rep inT g) (base h w g) x))
          (fieldAct (typeSize (fun m => (rep m).size) outT) (typeMat rep outT g) (base mh mw g) (layer h w x))

theorem r2convR_equivariant (Sp : Space El) (base : ℕ → ℕ → El → Img → Img) (hgrid : Sp.RectAction base) (hinv : Sp.G.InvOk) (rep : F → Repr El) (inT outT : List F)
    (basis : F → F → List (A × (ℝ × ℝ → Mat))) (ident : A → I)
    (hi : FilterInput rep inT outT basis ident)
    (hfc : ∀ inG, (∀ n ∈ inG, n ∈ inT) → FiltersConstrained Sp.G Sp.act rep inG outT basis ident)
    (hrep : ∀ n ∈ inT, IsRep Sp.G (rep n).size (rep n).mat) (hbias : BiasOk Sp.G rep outT)
    (c : ConvCfg A I) (p : Padding) (inG : List F) (h w mh mw : ℕ) (wts b : List ℝ) (hid : c.ident = ident) (hg : 0 < c.groups)
    (hG : convGroups c.groups inT outT = some inG)
    (hone : (c.exp rep inG outT basis).nPairs = 1 → (c.exp rep inG outT basis).pairs ≠ []) (hw : wts.length = (c.exp rep inG outT basis).dimension)
    (hpad : padOk c.mode h (p.used c.mode).1 ∧ padOk c.mode w (p.used c.mode).2)
    (hm : convSize h (p.used c.mode).1 c.k c.s c.d = some mh ∧ convSize w (p.used c.mode).2 c.k c.s c.d = some mw)
    (hdiv : c.s ∣ h + 2 * (p.used c.mode).1 - c.d * (c.k - 1) - 1 ∧ c.s ∣ w + 2 * (p.used c.mode).2 - c.d * (c.k - 1) - 1) :
    ∃ layer : ℕ → ℕ → Fmap → Fmap, (∀ h w x, r2convR c p rep inT outT basis wts b h w x = some (layer h w x)) ∧
      ∀ g, Sp.G.isEl g → Sp.grid g → ¬ Sp.Turns g ∨ (p.used c.mode).1 = (p.used c.mode).2 → ∀ x,
        FEqR (typeSize (fun m => (rep m).size) outT) (Sp.turned g mh mw).1 (Sp.turned g mh mw).2
          (layer (Sp.turned g h w).1 (Sp.turned g h w).2 (fieldAct (typeSize (fun m => (rep m).size) inT) (typeMat rep inT g) (base h w g) x))
          (fieldAct (typeSize (fun m => (rep m).size) outT) (typeMat rep outT g) (base mh mw g) (layer h w x)) := by
  obtain ⟨hin, outG, hout⟩ := convGroups_spec hG hg hi.inNe hi.outNe
  have hsub : ∀ n ∈ inG, n ∈ inT := by
    intro n hn
    rw [hin, List.mem_flatten]
    exact ⟨inG, List.mem_replicate.2 ⟨by omega, rfl⟩, hn⟩
  have hi' : FilterInput rep inG outT basis ident := by
    refine ⟨?_, hi.outNe, fun n hn => hi.inSz n (hsub n hn), hi.outSz, fun i hh o ho => hi.ids i (hsub i hh) o ho⟩
    rintro rfl
    exact hi.inNe (by rw [hin]; simp)
  obtain ⟨f, hf, hcon⟩ := hfc inG hsub hi' (c.k * c.k) (gridCoords c.k c.d) c.keep c.shape0 c.inIdx c.outIdx _
    (by rw [ConvCfg.exp, hid]) hone wts hw
  have hso : typeSize (fun m => (rep m).size) outT = c.groups * typeSize (fun m => (rep m).size) outG := by rw [hout, typeSize_flatten]
  have hsi : typeSize (fun m => (rep m).size) inT = c.groups * typeSize (fun m => (rep m).size) inG := by
    rw [congrArg (typeSize _) hin, typeSize_flatten]
  have hdv : typeSize (fun m => (rep m).size) outT / c.groups = typeSize (fun m => (rep m).size) outG := by
    rw [hso, Nat.mul_div_cancel_left _ hg]
  refine ⟨_, fun h w x => by rw [r2convR, hG]; dsimp only; rw [hf], ?_⟩
  intro g hg1 hg2 htr x
  obtain ⟨τ, t1, t2⟩ := hgrid g hg1 hg2
  have hsh := Space.turned_eq t2
  have hsw : τ.swap = true → (p.used c.mode).1 = (p.used c.mode).2 := fun hs => htr.resolve_left (not_not.2 ((Space.turns_iff t2).2 hs))
  rw [hdv, hso, hsi, hsh, hsh]
  refine conv_symR τ hpad hsw (convSize_cond hm.1 hdiv.1) (convSize_cond hm.2 hdiv.2) _ _ (typeMat rep inG g) (typeMat rep outG g) (typeMat rep inG (Sp.G.inv g)) _ _
    (fun x i j => t1 h w x i j) (fun x i j => t1 mh mw x i j) ?_ ?_ ?_ _ ?_ _ ?_ x
  · intro q hq q' hq' a ha a' ha'
    rw [congrArg (typeMat rep) hin]
    exact typeMat_flatten rep c.groups inG g q q' a a' hq hq' ha ha'
  · intro q hq q' hq' a ha a' ha'
    rw [hout]
    exact typeMat_flatten rep c.groups outG g q q' a a' hq hq' ha ha'
  · exact (typeMat_isRep Sp.G rep inG fun n hn => hrep n (hsub n hn)).inv_mul hinv g hg1
  · intro a b' ha hb o ho ch hch
    have := hcon g hg1 ((τ.ap c.k (a, b')).1 * c.k + (τ.ap c.k (a, b')).2) (a * c.k + b')
      (by rw [gridCoords_ap τ _ _ _ _ ha hb, t2])
    rw [← hso] at ho ⊢
    exact this o ho ch hch
  · intro o ho
    rw [← hso] at ho ⊢
    exact hbias.1 b g hg1 o ho

/-- What the constructor of `R2Conv` guarantees about its module. -/
theorem r2convInit_data (Sp : Space El) (G : KernelGen El) (rep : F → Repr El) (inT outT : List F)
    (hG : GenOk Sp G rep inT outT) (hne : inT ≠ [] ∧ outT ≠ []) (hsz : ∀ n ∈ inT ++ outT, 0 < (rep n).size)
    (a : ConvArgs El) (M : ConvModule El F) (hM : r2convInit G a rep inT outT = some M) (hrings : ∀ l, a.rings = some l → l.Nodup)
    (hg : 0 < a.groups) (hd : 0 < a.dilation) :
    ∃ fco inG, M.cfg = a.cfg fco ∧ convGroups a.groups inT outT = some inG ∧ FilterInput rep inT outT M.basis attrId ∧
      (∀ inG', (∀ n ∈ inG', n ∈ inT) → FiltersConstrained Sp.G Sp.act rep inG' outT M.basis attrId) ∧
      ((M.cfg.exp rep inG outT M.basis).nPairs = 1 → (M.cfg.exp rep inG outT M.basis).pairs ≠ []) ∧
      M.dim = (M.cfg.exp rep inG outT M.basis).dimension := by
  classical
    unfold r2convInit at hM
  cases hgr : convGroups a.groups inT outT with
  | none => simp [hgr] at hM
  | some inG =>
    rw [hgr] at hM
    cases hp : computeBasisParams a.kernelSize a.dilation a.cutoff a.rings a.sigma with
    | none => simp [hp] at hM
    | some q =>
      obtain ⟨rings, sigma, fco, maxFreq⟩ := q
      rw [hp] at hM
      dsimp only at hM
      split_ifs at hM with hall hdim
      obtain rfl := Option.some.inj hM
      have hr : rings = basisRings a.kernelSize a.dilation a.rings := by
        unfold computeBasisParams at hp
        dsimp only at hp
        split_ifs at hp
        obtain ⟨F', -, h⟩ := Option.map_eq_some_iff.1 hp
        exact (Prod.ext_iff.1 h).1.symm
      have hnd : rings.Nodup := hr ▸ basisRings_nodup _ _ hd _ hrings
      obtain ⟨hin, outG, hout⟩ := convGroups_spec hgr hg hne.1 hne.2
      have hsub : ∀ n ∈ inT, n ∈ inG := by
        intro n hn
        rw [hin, List.mem_flatten] at hn
        obtain ⟨l, hl, hn⟩ := hn
        rwa [(List.mem_replicate.1 hl).2] at hn
      set basis : F → F → List (BasisAttr El × (ℝ × ℝ → Mat)) :=
        fun i o => (buildKernelBasis G sigma rings (some maxFreq) a.maximumOffset (rep i) (rep o)).getD [] with hbasis
      have hi : FilterInput rep inT outT basis attrId := by
        refine ⟨hne.1, hne.2, fun n hn => hsz n (List.mem_append_left _ hn), fun n hn => hsz n (List.mem_append_right _ hn), ?_⟩
        intro i hii o ho
        obtain ⟨l, hl⟩ := Option.ne_none_iff_exists'.1 (hall i (hsub i hii) o ho)
        simp only [hbasis, hl, Option.getD_some]
        exact buildKernelBasis_ids hl hnd
      have hfc : ∀ inG', (∀ n ∈ inG', n ∈ inT) → FiltersConstrained Sp.G Sp.act rep inG' outT basis attrId := by
        intro inG' hsub' hi' S points keep shape0 inIdx outIdx E hE hone w hw
        refine c23_filter_constraint Sp.G Sp.act rep inG' outT S points basis keep shape0 attrId inIdx outIdx hi' ?_ E hE hone w hw
        intro i hii o ho b hb
        obtain ⟨l, hl⟩ := Option.ne_none_iff_exists'.1 (hall i (hsub i (hsub' i hii)) o ho)
        simp only [hbasis, hl, Option.getD_some] at hb
        exact c66_build_kernel_basis Sp G rep inT outT hG sigma rings _ _ i o (hsub' i hii) ho l hl b hb
      exact ⟨fco, inG, rfl, rfl, hi, hfc, fun _ => Exp.pairs_ne_nil hdim, rfl⟩

/-- **C94 for a space whose kernels satisfy the constraint.** -/
theorem c94_conv (Sp : Space El) (base : ℕ → ℕ → El → Img → Img) (hgrid : Sp.RectAction base) (hinv : Sp.G.InvOk) (G : KernelGen El) (rep : F → Repr El)
    (inT outT : List F) (hG : GenOk Sp G rep inT outT) (hne : inT ≠ [] ∧ outT ≠ []) (hsz : ∀ n ∈ inT ++ outT, 0 < (rep n).size)
    (hrep : ∀ n ∈ inT, IsRep Sp.G (rep n).size (rep n).mat) (hbias : BiasOk Sp.G rep outT) : R2ConvRect Sp base G rep inT outT := by
  intro a M hM hrings hg hd p wts b h w mh mw hw hp1 hp2 hm1 hm2 hd1 hd2
  obtain ⟨fco, inG, hcfg, hgr, hi, hfc, hone, hdim⟩ := r2convInit_data Sp G rep inT outT hG hne hsz a M hM hrings hg hd
  have := r2convR_equivariant Sp base hgrid hinv rep inT outT M.basis attrId hi hfc hrep hbias M.cfg p inG h w mh mw wts b (by rw [hcfg]; rfl)
    (by rw [hcfg]; exact hg) (by rw [hcfg]; exact hgr) hone (hw.trans hdim)
  rw [p.used_eq, hcfg] at this
  obtain ⟨layer, h1, h2⟩ := this ⟨hp1, hp2⟩ ⟨hm1, hm2⟩ ⟨hd1, hd2⟩
  refine ⟨layer, fun h w x => ?_, h2⟩
  rw [← h1 h w x, ← hcfg]
  rfl

section spaces

variable (interp : ℝ → Img → Img) (inT outT : List F) (hne : inT ≠ [] ∧ outT ≠ [])

include hne

/-- **C94 for `Rot2dOnR2(N)`.** -/
theorem c94_cyclic (N : ℕ) (hN : 0 < N) (rep : F → Repr ℤ) (hsz : ∀ n ∈ inT ++ outT, 0 < (rep n).size)
    (hr : ∀ n ∈ inT ++ outT, (rep n).WF ∧ ∀ i ∈ (rep n).irreps, ∃ k, Cyclic.irrep N k = some i) :
    R2ConvRect (rotSpace interp N) (rotBaseR interp N) (rot2dGen N) rep inT outT :=
  c94_conv _ _ (rotSpace_rect interp N hN) (Cyclic.invOk hN) _ rep inT outT (genOk_cyclic interp inT outT N hN rep hr) hne hsz
    (fun n hn => Cyclic.isRep_of hN (hr n (List.mem_append_left _ hn))) (c26_cyclic N hN rep outT fun n hn => hr n (List.mem_append_right _ hn))

/-- **C94 for `Rot2dOnR2(-1)`.** -/
theorem c94_so2 (rep : F → Repr ℝ) (hsz : ∀ n ∈ inT ++ outT, 0 < (rep n).size)
    (hr : ∀ n ∈ inT ++ outT, (rep n).WF ∧ ∀ i ∈ (rep n).irreps, ∃ k, i = SO2.irrep k) :
    R2ConvRect (so2Space interp) (so2BaseR interp) so2Gen rep inT outT :=
  c94_conv _ _ (so2Space_rect interp) SO2.invOk _ rep inT outT (genOk_so2 interp inT outT rep hr) hne hsz
    (fun n hn => SO2.isRep_of (hr n (List.mem_append_left _ hn))) (c26_so2 rep outT fun n hn => hr n (List.mem_append_right _ hn))

/-- **C94 for `Flip2dOnR2(axis)`.** -/
theorem c94_flip (axis : ℝ) (rep : F → Repr ℤ) (hsz : ∀ n ∈ inT ++ outT, 0 < (rep n).size)
    (hr : ∀ n ∈ inT ++ outT, (rep n).WF ∧ ∀ i ∈ (rep n).irreps, ∃ k, Cyclic.irrep 2 k = some i) :
    R2ConvRect (flipSpace interp axis) (flipBaseR interp axis) (flip2dGen axis) rep inT outT :=
  c94_conv _ _ (flipSpace_rect interp axis) (Cyclic.invOk (N := 2) (by norm_num)) _ rep inT outT (genOk_flip interp inT outT axis rep hr) hne hsz
    (fun n hn => Cyclic.isRep_of (N := 2) (by norm_num) (hr n (List.mem_append_left _ hn)))
    (c26_cyclic 2 (by norm_num) rep outT fun n hn => hr n (List.mem_append_right _ hn))

/-- **C94 for `FlipRot2dOnR2(N, axis=axis)`.** -/
theorem c94_dihedral (N : ℕ) (hN : 0 < N) (axis : ℝ) (rep : F → Repr (ℤ × ℤ)) (hsz : ∀ n ∈ inT ++ outT, 0 < (rep n).size)
    (hr : ∀ n ∈ inT ++ outT, (rep n).WF ∧ ∀ i ∈ (rep n).irreps, ∃ j k, Dihedral.irrep N j k = some i) :
    R2ConvRect (flipRotSpace interp N axis) (flipRotBaseR interp N axis) (flipRot2dGen N axis) rep inT outT :=
  c94_conv _ _ (flipRotSpace_rect interp N axis) (Dihedral.invOk hN) _ rep inT outT (genOk_dihedral interp inT outT N hN axis rep hr) hne hsz
    (fun n hn => Dihedral.isRep_of hN (hr n (List.mem_append_left _ hn))) (c26_dihedral N hN rep outT fun n hn => hr n (List.mem_append_right _ hn))

/-- **C94 for `FlipRot2dOnR2(-1, axis=axis)`.** -/
theorem c94_o2 (axis : ℝ) (rep : F → Repr (ℤ × ℝ)) (hsz : ∀ n ∈ inT ++ outT, 0 < (rep n).size)
    (hr : ∀ n ∈ inT ++ outT, (rep n).WF ∧ ∀ i ∈ (rep n).irreps, ∃ j k, O2.irrep j k = some i) :
    R2ConvRect (o2Space interp axis) (o2BaseR interp axis) (o2Gen axis) rep inT outT :=
  c94_conv _ _ (o2Space_rect interp axis) O2.invOk _ rep inT outT (genOk_o2 interp inT outT axis rep hr) hne hsz
    (fun n hn => O2.isRep_of (hr n (List.mem_append_left _ hn))) (c26_o2 rep outT fun n hn => hr n (List.mem_append_right _ hn))

/-- **C94 for `TrivialOnR2()`.** -/
theorem c94_trivial (rep : F → Repr ℤ) (hsz : ∀ n ∈ inT ++ outT, 0 < (rep n).size)
    (hr : ∀ n ∈ inT ++ outT, (rep n).WF ∧ ∀ i ∈ (rep n).irreps, ∃ k, Cyclic.irrep 1 k = some i) :
    R2ConvRect trivialSpace trivialBaseR trivialGen rep inT outT :=
  c94_conv _ _ trivialSpace_rect (Cyclic.invOk (N := 1) (by norm_num)) _ rep inT outT (genOk_trivial inT outT rep hr) hne hsz
    (fun n hn => Cyclic.isRep_of (N := 1) (by norm_num) (hr n (List.mem_append_left _ hn)))
    (c26_cyclic 1 (by norm_num) rep outT fun n hn => hr n (List.mem_append_right _ hn))

end spaces

/-- **C94, the condition on the paddings is necessary**: with stride 1 the layer gives outputs of the same shape, for the turned image and for the image, only if the
two paddings agree. -/
theorem c94_tuple_wrong (h w ph pw k d : ℕ) (mh mw mh' mw' : ℕ) (h1 : convSize h ph k 1 d = some mh) (h2 : convSize w pw k 1 d = some mw)
    (h1' : convSize w ph k 1 d = some mh') (h2' : convSize h pw k 1 d = some mw') : (mh', mw') = (mw, mh) ↔ ph = pw := by
  unfold convSize at h1 h2 h1' h2'
  split_ifs at h1 h2 h1' h2'
  simp only [Nat.div_one, Option.some.injEq] at h1 h2 h1' h2'
  rw [Prod.mk.injEq]
  constructor
  · rintro ⟨e1, e2⟩
    omega
  · rintro rfl
    omega

/-- **C94, the declared shape**: with a tuple `evaluate_output_shape` raises on every shape, although the layer accepts it. -/
theorem c94_declared_shape_raises (inS outS ph pw k s d : ℕ) (sh : Shape) : declConvP inS outS (.pair ph pw) k s d sh = none := rfl

/-- Scalar fields over SO(2), kernel size 3, an image with 5 × 8 pixels, one row and no column of padding, half turns. -/
example (interp : ℝ → Img → Img) : ∃ M : ConvModule ℝ ℕ, r2convInit so2Gen (defaultArgs 3 0 1 1) (fun _ => so2Triv) [0] [0, 0] = some M ∧
    ∃ layer : ℕ → ℕ → Fmap → Fmap,
      (∀ h w x, M.forwardR (.pair 1 0) (fun _ => so2Triv) [0] [0, 0] (List.replicate M.dim 1) [3, 4] h w x = some (layer h w x)) ∧
      ∀ x, FEqR 2 5 6 (layer 5 8 (fieldAct 1 (typeMat (fun _ => so2Triv) [0] π) (so2BaseR interp 5 8 π) x))
        (fieldAct 2 (typeMat (fun _ => so2Triv) [0, 0] π) (so2BaseR interp 5 6 π) (layer 5 8 x)) := by
  obtain ⟨M, hM, -⟩ := c66_odd_sizes (F := ℕ) 1 0 1 1 [0] [0, 0] (by simp) (by norm_num)
  refine ⟨M, hM, ?_⟩
  obtain ⟨layer, h1, h2⟩ := c94_so2 interp [0] [0, 0] (by simp) (fun _ => so2Triv) (fun _ _ => by rw [so2Triv_size]; exact one_pos)
    (fun _ _ => ⟨IsInv.one _, fun i hi => ⟨0, List.mem_singleton.1 hi⟩⟩) (defaultArgs 3 0 1 1) M hM (by simp [defaultArgs]) (by simp [defaultArgs])
    (by simp [defaultArgs]) (.pair 1 0) (List.replicate M.dim 1) [3, 4] 5 8 5 6 (by simp) trivial trivial (by simp [defaultArgs, convSize, Padding.both])
    (by simp [defaultArgs, convSize, Padding.both]) (by simp [defaultArgs]) (by simp [defaultArgs])
  refine ⟨layer, h1, fun x => ?_⟩
  have ht : ¬ (so2Space interp).Turns π := by simp [Space.Turns, so2Space, rot]
  have := h2 π trivial ⟨2, by push_cast; ring⟩ (Or.inl ht) x
  simpa [Space.turned, ht, typeSize, so2Triv_size] using this

end E2
