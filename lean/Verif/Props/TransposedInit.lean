import Verif.Model.TransposedInit
import Verif.Props.R2ConvInit
import Verif.Props.Transposed

/-!
# C85: `R2ConvTransposed` built from its public arguments

The statements of C61 with everything the constructor computes put in its place, and the arguments for which the constructor succeeds but the layer can not be used.
-/

set_option linter.unusedSectionVars false

namespace E2

open Finset Mat Real

variable {El F : Type} [LinearOrder F]

theorem basisRingsT_nodup (k : ℕ) (rings : Option (List ℝ)) (h : ∀ l, rings = some l → l.Nodup) : (basisRingsT k rings).Nodup := by
  cases rings with
  | some l => exact h l rfl
  | none =>
    have h1 : basisRingsT k none = basisRings k 1 none := by simp [basisRingsT, basisRings]
    rw [h1]
    exact basisRings_nodup k 1 one_pos none (by simp)

/-- The claim for one space and its kernels: whatever the arguments, if the constructor succeeds and the layer has a weight, then the layer accepts every weights, biases and
images and commutes with the elements of the group which permute the pixels. -/
def R2ConvTEquivariant (Sp : Space El) (G : KernelGen El) (rep : F → Repr El) (inT outT : List F) : Prop :=
  ∀ (a : ConvArgs El) (M : ConvModule El F), r2convTInit G a rep inT outT = some M →
    -- rings given by the caller are distinct
    (∀ l, a.rings = some l → l.Nodup) → 0 < a.groups → M.dim ≠ 0 →
    -- one weight for each parameter; the output has `m × m` pixels
    ∀ (w b : List ℝ) (n m : ℕ), w.length = M.dim → convTSize n a.padding 0 a.kernelSize a.stride a.dilation = some m → 0 < m →
    ∃ layer : Fmap → Fmap, (∀ x, M.forwardT rep inT outT w b n x = some (layer x)) ∧
      ∀ g, Sp.G.isEl g → Sp.grid g → ∀ x,
        FEq (typeSize (fun m => (rep m).size) outT) m
          (layer (fieldAct (typeSize (fun m => (rep m).size) inT) (typeMat rep inT g) (Sp.base n g) x))
          (fieldAct (typeSize (fun m => (rep m).size) outT) (typeMat rep outT g) (Sp.base m g) (layer x))

/-- **C85 for a space whose kernels satisfy the constraint.** -/
theorem c85_conv_partial (Sp : Space El) (hgrid : Sp.GridAction) (hinv : Sp.G.InvOk) (G : KernelGen El) (rep : F → Repr El) (inT outT : List F)
    (hG : GenOk Sp G rep inT outT) (hne : inT ≠ [] ∧ outT ≠ []) (hsz : ∀ n ∈ inT ++ outT, 0 < (rep n).size)
    (hrep : ∀ n ∈ inT, IsRep Sp.G (rep n).size (rep n).mat) (hbias : BiasOk Sp.G rep outT) : R2ConvTEquivariant Sp G rep inT outT := by
  classical
  intro a M hM hrings hg hdim w b n m hw hm hm0
  unfold r2convTInit at hM
  cases hgr : transGroups a.groups inT outT with
  | none => simp [hgr] at hM
  | some outG =>
    rw [hgr] at hM
    cases hp : computeBasisParamsT a.kernelSize a.dilation a.cutoff a.rings a.sigma with
    | none => simp [hp] at hM
    | some q =>
      obtain ⟨rings, sigma, fco, maxFreq⟩ := q
      rw [hp] at hM
      dsimp only at hM
      split_ifs at hM with hall
      obtain rfl := Option.some.inj hM
      have hr : rings = basisRingsT a.kernelSize a.rings := by
        unfold computeBasisParamsT at hp
        dsimp only at hp
        split_ifs at hp
        obtain ⟨F', -, h⟩ := Option.map_eq_some_iff.1 hp
        exact (Prod.ext_iff.1 h).1.symm
      have hnd : rings.Nodup := hr ▸ basisRingsT_nodup _ _ hrings
      obtain ⟨hout, inG, hin⟩ := convGroups_spec ((transGroups_eq _ _ _).symm.trans hgr) hg hne.2 hne.1
      have hsub : ∀ n ∈ outT, n ∈ outG := by
        intro n hn
        rw [hout, List.mem_flatten] at hn
        obtain ⟨l, hl, hn⟩ := hn
        rwa [(List.mem_replicate.1 hl).2] at hn
      set basis : F → F → List (BasisAttr El × (ℝ × ℝ → Mat)) :=
        fun i o => (buildKernelBasis G sigma rings (some maxFreq) a.maximumOffset (rep i) (rep o)).getD [] with hbasis
      have hi : FilterInput rep inT outT basis attrId := by
        refine ⟨hne.1, hne.2, fun n hn => hsz n (List.mem_append_left _ hn), fun n hn => hsz n (List.mem_append_right _ hn), ?_⟩
        intro i hii o ho
        obtain ⟨l, hl⟩ := Option.ne_none_iff_exists'.1 (hall i hii o (hsub o ho))
        simp only [hbasis, hl, Option.getD_some]
        exact buildKernelBasis_ids hl hnd
      have hfc : ∀ outG', (∀ n ∈ outG', n ∈ outT) → FiltersConstrained Sp.G Sp.act rep inT outG' basis attrId := by
        intro outG' hsub' hi' S points keep shape0 inIdx outIdx E hE hone w hw
        refine c23_filter_constraint Sp.G Sp.act rep inT outG' S points basis keep shape0 attrId inIdx outIdx hi' ?_ E hE hone w hw
        intro i hii o ho b hb
        obtain ⟨l, hl⟩ := Option.ne_none_iff_exists'.1 (hall i hii o (hsub o (hsub' o ho)))
        simp only [hbasis, hl, Option.getD_some] at hb
        exact c66_build_kernel_basis Sp G rep inT outT hG sigma rings _ _ i o hii (hsub' o ho) l hl b hb
      exact c61_conv_partial Sp hgrid hinv rep inT outT basis attrId hi hfc hrep hbias (a.cfg fco) outG n m w b rfl hg hgr
        (fun _ => Exp.pairs_ne_nil hdim) hw hm hm0

/-! ### The spaces of the library -/

section spaces

variable (interp : ℝ → Img → Img) (inT outT : List F) (hne : inT ≠ [] ∧ outT ≠ [])

include hne

/-- **C85 for `Rot2dOnR2(N)`.** -/
theorem c85_cyclic_partial (N : ℕ) (hN : 0 < N) (rep : F → Repr ℤ) (hsz : ∀ n ∈ inT ++ outT, 0 < (rep n).size)
    (hr : ∀ n ∈ inT ++ outT, (rep n).WF ∧ ∀ i ∈ (rep n).irreps, ∃ k, Cyclic.irrep N k = some i) :
    R2ConvTEquivariant (rotSpace interp N) (rot2dGen N) rep inT outT :=
  c85_conv_partial _ (rotSpace_grid interp N hN) (Cyclic.invOk hN) _ rep inT outT (genOk_cyclic interp inT outT N hN rep hr) hne hsz
    (fun n hn => Cyclic.isRep_of hN (hr n (List.mem_append_left _ hn))) (c26_cyclic N hN rep outT fun n hn => hr n (List.mem_append_right _ hn))

/-- **C85 for `Rot2dOnR2(-1)`.** -/
theorem c85_so2_partial (rep : F → Repr ℝ) (hsz : ∀ n ∈ inT ++ outT, 0 < (rep n).size)
    (hr : ∀ n ∈ inT ++ outT, (rep n).WF ∧ ∀ i ∈ (rep n).irreps, ∃ k, i = SO2.irrep k) :
    R2ConvTEquivariant (so2Space interp) so2Gen rep inT outT :=
  c85_conv_partial _ (so2Space_grid interp) SO2.invOk _ rep inT outT (genOk_so2 interp inT outT rep hr) hne hsz
    (fun n hn => SO2.isRep_of (hr n (List.mem_append_left _ hn))) (c26_so2 rep outT fun n hn => hr n (List.mem_append_right _ hn))

/-- **C85 for `Flip2dOnR2(axis)`.** -/
theorem c85_flip_partial (axis : ℝ) (rep : F → Repr ℤ) (hsz : ∀ n ∈ inT ++ outT, 0 < (rep n).size)
    (hr : ∀ n ∈ inT ++ outT, (rep n).WF ∧ ∀ i ∈ (rep n).irreps, ∃ k, Cyclic.irrep 2 k = some i) :
    R2ConvTEquivariant (flipSpace interp axis) (flip2dGen axis) rep inT outT :=
  c85_conv_partial _ (flipSpace_grid interp axis) (Cyclic.invOk (N := 2) (by norm_num)) _ rep inT outT (genOk_flip interp inT outT axis rep hr) hne hsz
    (fun n hn => Cyclic.isRep_of (N := 2) (by norm_num) (hr n (List.mem_append_left _ hn)))
    (c26_cyclic 2 (by norm_num) rep outT fun n hn => hr n (List.mem_append_right _ hn))

/-- **C85 for `FlipRot2dOnR2(N, axis=axis)`.** -/
theorem c85_dihedral_partial (N : ℕ) (hN : 0 < N) (axis : ℝ) (rep : F → Repr (ℤ × ℤ)) (hsz : ∀ n ∈ inT ++ outT, 0 < (rep n).size)
    (hr : ∀ n ∈ inT ++ outT, (rep n).WF ∧ ∀ i ∈ (rep n).irreps, ∃ j k, Dihedral.irrep N j k = some i) :
    R2ConvTEquivariant (flipRotSpace interp N axis) (flipRot2dGen N axis) rep inT outT :=
  c85_conv_partial _ (flipRotSpace_grid interp N axis) (Dihedral.invOk hN) _ rep inT outT (genOk_dihedral interp inT outT N hN axis rep hr) hne hsz
    (fun n hn => Dihedral.isRep_of hN (hr n (List.mem_append_left _ hn))) (c26_dihedral N hN rep outT fun n hn => hr n (List.mem_append_right _ hn))

/-- **C85 for `FlipRot2dOnR2(-1, axis=axis)`.** -/
theorem c85_o2_partial (axis : ℝ) (rep : F → Repr (ℤ × ℝ)) (hsz : ∀ n ∈ inT ++ outT, 0 < (rep n).size)
    (hr : ∀ n ∈ inT ++ outT, (rep n).WF ∧ ∀ i ∈ (rep n).irreps, ∃ j k, O2.irrep j k = some i) :
    R2ConvTEquivariant (o2Space interp axis) (o2Gen axis) rep inT outT :=
  c85_conv_partial _ (o2Space_grid interp axis) O2.invOk _ rep inT outT (genOk_o2 interp inT outT axis rep hr) hne hsz
    (fun n hn => O2.isRep_of (hr n (List.mem_append_left _ hn))) (c26_o2 rep outT fun n hn => hr n (List.mem_append_right _ hn))

/-- **C85 for `TrivialOnR2()`.** -/
theorem c85_trivial_partial (rep : F → Repr ℤ) (hsz : ∀ n ∈ inT ++ outT, 0 < (rep n).size)
    (hr : ∀ n ∈ inT ++ outT, (rep n).WF ∧ ∀ i ∈ (rep n).irreps, ∃ k, Cyclic.irrep 1 k = some i) :
    R2ConvTEquivariant trivialSpace trivialGen rep inT outT :=
  c85_conv_partial _ trivialSpace_grid (Cyclic.invOk (N := 1) (by norm_num)) _ rep inT outT (genOk_trivial inT outT rep hr) hne hsz
    (fun n hn => Cyclic.isRep_of (N := 1) (by norm_num) (hr n (List.mem_append_left _ hn)))
    (c26_cyclic 1 (by norm_num) rep outT fun n hn => hr n (List.mem_append_right _ hn))

end spaces

/-! ### When the constructor succeeds -/

/-- **C85, same module**: with one group, and without dilation of the default rings, arguments accepted by `R2Conv` are accepted by `R2ConvTransposed`, and give the same
configuration, bases and number of weights. -/
theorem c85_same_module_partial (G : KernelGen El) (a : ConvArgs El) (rep : F → Repr El) (inT outT : List F) (hg : a.groups ≤ 1) (hd : a.rings = none → a.dilation = 1)
    (M : ConvModule El F) (h : r2convInit G a rep inT outT = some M) : r2convTInit G a rep inT outT = some M := by
  classical
  unfold r2convInit at h
  unfold r2convTInit
  have h1 : convGroups a.groups inT outT = some inT := by simp [convGroups, Nat.not_lt.2 hg]
  have h2 : transGroups a.groups inT outT = some outT := by simp [transGroups, Nat.not_lt.2 hg]
  rw [h1] at h
  rw [h2]
  cases hp : computeBasisParams a.kernelSize a.dilation a.cutoff a.rings a.sigma with
  | none => simp [hp] at h
  | some q =>
    obtain ⟨rings, sigma, fco, maxFreq⟩ := q
    rw [hp] at h
    dsimp only at h ⊢
    rw [c61_params_partial _ _ _ _ _ hd _ hp]
    dsimp only
    split_ifs at h with h3 h4
    rw [if_pos h3]
    exact h

/-- **C85, the hypotheses can be met**: with odd kernel sizes and default arguments the constructor succeeds for scalar fields, and the layer has weights. -/
theorem c85_odd_sizes (m p s : ℕ) (inT outT : List F) (hne : inT ≠ [] ∧ outT ≠ []) :
    ∃ M : ConvModule ℝ F, r2convTInit so2Gen (defaultArgs (2 * m + 1) p s 1) (fun _ => so2Triv) inT outT = some M ∧ M.dim ≠ 0 := by
  obtain ⟨M, hM, hd⟩ := c66_odd_sizes m p s 1 inT outT hne one_pos
  exact ⟨M, c85_same_module_partial _ _ _ _ _ le_rfl (fun _ => rfl) M hM, hd⟩

/-! ### An empty basis is accepted -/

/-- **C85, an empty basis**: a layer without weights, which `R2Conv` refuses to build, raises in its forward pass if the input and the output have one representation
each. -/
theorem c85_empty_raises (M : ConvModule El F) (rep : F → Repr El) (inT outT outG : List F) (hG : transGroups M.cfg.groups inT outT = some outG)
    (hpairs : (M.cfg.exp rep inT outG M.basis).pairs = []) (h1 : (M.cfg.exp rep inT outG M.basis).nPairs = 1) (w b : List ℝ) (n : ℕ) (x : Fmap) :
    M.forwardT rep inT outT w b n x = none := by
  unfold ConvModule.forwardT r2convT
  rw [hG]
  dsimp only
  have h2 : (M.cfg.exp rep inT outG M.basis).forward w = none := by
    unfold Exp.forward
    rw [hpairs, if_pos h1]
    simp
  rw [h2]

/-- **C85, an empty basis**: otherwise the image of the layer is its bias, whatever the input. -/
theorem c85_empty_constant (M : ConvModule El F) (rep : F → Repr El) (inT outT outG : List F) (hG : transGroups M.cfg.groups inT outT = some outG)
    (hpairs : (M.cfg.exp rep inT outG M.basis).pairs = []) (h1 : (M.cfg.exp rep inT outG M.basis).nPairs ≠ 1) (b : List ℝ) (n : ℕ) (x : Fmap) :
    M.forwardT rep inT outT [] b n x = some fun o _ _ => outBias rep outT b o := by
  unfold ConvModule.forwardT r2convT
  rw [hG]
  dsimp only
  have h0 : (M.cfg.exp rep inT outG M.basis).dimension = 0 := by
    simp only [Exp.dimension, Exp.basisToIds, hpairs, List.flatMap_nil, List.dedup_nil, List.length_nil]
  have h2 : (M.cfg.exp rep inT outG M.basis).forward [] = some fun _ _ _ => 0 := by
    unfold Exp.forward
    rw [hpairs, if_neg h1, if_pos (by rw [h0]; rfl)]
    rfl
  rw [h2]
  dsimp only
  congr 1
  funext o i j
  simp [convT2d, transposeFilter]

/-- With `kernel_size=2` and default arguments the constructor succeeds, and no pair of representations has a basis. -/
theorem size_two_T (p s d : ℕ) (inT outT : List F) (hd : 0 < d) : ∃ M : ConvModule ℝ F,
    r2convTInit so2Gen (defaultArgs 2 p s d) (fun _ => so2Triv) inT outT = some M ∧ M.dim = 0 ∧ transGroups M.cfg.groups inT outT = some outT ∧
      (M.cfg.exp (fun _ => so2Triv) inT outT M.basis).pairs = [] := by
  classical
  obtain ⟨rings, sigma, mf, hp, hb, hpairs⟩ := size_two_empty p s d inT outT hd
  have hg : transGroups (defaultArgs 2 p s d).groups inT outT = some outT := by simp [transGroups, defaultArgs]
  have hrings : basisRingsT 2 none = basisRings 2 d none := by rw [basisRings_default]; simp [basisRingsT, linspace0]
  have hpT : computeBasisParamsT 2 d (.inl (-1)) none none = some (rings, sigma, cutoffFun 2 (.inl (-1)), mf) := by
    unfold computeBasisParams at hp
    unfold computeBasisParamsT
    dsimp only at hp ⊢
    rw [hrings]
    split_ifs at hp with h1
    rw [if_pos fun r hr => ⟨(h1 r hr).1.trans (gridMaxRadius_le 2 d), (h1 r hr).2⟩]
    exact hp
  refine ⟨⟨(defaultArgs 2 p s d).cfg (cutoffFun 2 (.inl (-1))), fun _ _ => (buildKernelBasis so2Gen sigma rings (some mf) none so2Triv so2Triv).getD [], 0⟩, ?_, rfl,
    hg, hpairs⟩
  unfold r2convTInit
  rw [hg]
  dsimp only
  have hp' : computeBasisParamsT (defaultArgs 2 p s d).kernelSize (defaultArgs 2 p s d).dilation (defaultArgs 2 p s d).cutoff (defaultArgs 2 p s d).rings
      (defaultArgs 2 p s d).sigma = some (rings, sigma, cutoffFun 2 (.inl (-1)), mf) := hpT
  rw [hp']
  dsimp only
  rw [if_pos (by intro i _ o _; exact hb)]
  congr 2
  have hpairs' : (((defaultArgs 2 p s d).cfg (cutoffFun 2 (.inl (-1)))).exp (fun _ => so2Triv) inT outT
      fun _ _ => (buildKernelBasis so2Gen sigma rings (some mf) (defaultArgs 2 p s d).maximumOffset so2Triv so2Triv).getD []).pairs = [] := hpairs
  simp only [Exp.dimension, Exp.basisToIds, hpairs', List.flatMap_nil, List.dedup_nil, List.length_nil]

/-- **C85, the constructor accepts what the layer can not use**: with `kernel_size=2` and default arguments, for every padding, stride and dilation, `R2Conv` raises (C66)
but `R2ConvTransposed` does not; the layer has no weights.  Between scalar fields which are all equal, every forward pass raises. -/
theorem c85_size_two_wrong (p s d : ℕ) (i o : ℕ) (fi fo : F) (hd : 0 < d) :
    r2convInit so2Gen (defaultArgs 2 p s d) (fun _ => so2Triv) (List.replicate (i + 1) fi) (List.replicate (o + 1) fo) = none ∧
    ∃ M : ConvModule ℝ F, r2convTInit so2Gen (defaultArgs 2 p s d) (fun _ => so2Triv) (List.replicate (i + 1) fi) (List.replicate (o + 1) fo) = some M ∧ M.dim = 0 ∧
      ∀ w b n x, M.forwardT (fun _ => so2Triv) (List.replicate (i + 1) fi) (List.replicate (o + 1) fo) w b n x = none := by
  refine ⟨c66_size_two p s d _ _ hd, ?_⟩
  obtain ⟨M, hM, h0, hg, hpairs⟩ := size_two_T p s d (List.replicate (i + 1) fi) (List.replicate (o + 1) fo) hd
  refine ⟨M, hM, h0, fun w b n x => c85_empty_raises _ _ _ _ _ hg hpairs ?_ w b n x⟩
  show (List.replicate (i + 1) fi).dedup.length * (List.replicate (o + 1) fo).dedup.length = 1
  have h : ∀ (k : ℕ) (f : F), (List.replicate (k + 1) f).dedup = [f] := fun k f => List.replicate_dedup (by omega)
  rw [h, h]
  rfl

/-- The hypotheses of `c85_empty_constant` are met: `kernel_size=2`, two different scalar representations in the input.  The layer ignores its input. -/
example (p s d : ℕ) (hd : 0 < d) : ∃ M : ConvModule ℝ ℕ, r2convTInit so2Gen (defaultArgs 2 p s d) (fun _ => so2Triv) [0, 1] [0] = some M ∧
    ∀ b n x, M.forwardT (fun _ => so2Triv) [0, 1] [0] [] b n x = some fun o _ _ => outBias (fun _ => so2Triv) [0] b o := by
  obtain ⟨M, hM, -, hg, hpairs⟩ := size_two_T p s d [0, 1] [0] hd
  exact ⟨M, hM, fun b n x => c85_empty_constant M _ _ _ _ hg hpairs (by show [0, 1].dedup.length * [0].dedup.length ≠ 1; decide) b n x⟩

/-- A layer of C85 built with the default arguments, stride 2 and padding `m`, from scalar fields to scalar fields: it commutes with the rotations by multiples of `π / 2`,
for images with `n + 1` pixels in and `2 n + 1` pixels out. -/
example (interp : ℝ → Img → Img) (m : ℕ) : ∃ M : ConvModule ℝ ℕ, r2convTInit so2Gen (defaultArgs (2 * m + 1) m 2 1) (fun _ => so2Triv) [0, 1] [0] = some M ∧
    0 < M.dim ∧ ∀ (w b : List ℝ) (n : ℕ), w.length = M.dim → ∃ layer : Fmap → Fmap, (∀ x, M.forwardT (fun _ => so2Triv) [0, 1] [0] w b (n + 1) x = some (layer x)) ∧
      ∀ g, Quarter g → ∀ x,
        FEq 1 (2 * n + 1) (layer (fieldAct 2 (typeMat (fun _ => so2Triv) [0, 1] g) ((so2Space interp).base (n + 1) g) x))
          (fieldAct 1 (typeMat (fun _ => so2Triv) [0] g) ((so2Space interp).base (2 * n + 1) g) (layer x)) := by
  obtain ⟨M, hM, hdim⟩ := c85_odd_sizes (F := ℕ) m m 2 [0, 1] [0] (by simp)
  refine ⟨M, hM, Nat.pos_of_ne_zero hdim, fun w b n hw => ?_⟩
  obtain ⟨layer, h1, h2⟩ := c85_so2_partial interp [0, 1] [0] (by simp) (fun _ : ℕ => so2Triv) (fun n _ => by rw [so2Triv_size]; exact one_pos)
    (fun n _ => ⟨IsInv.one _, fun i hi => ⟨0, List.mem_singleton.1 hi⟩⟩) _ M hM (by simp [defaultArgs]) one_pos hdim w b (n + 1) (2 * n + 1) hw
    (by show convTSize (n + 1) m 0 (2 * m + 1) 2 1 = _; unfold convTSize; rw [if_pos (by omega)]; congr 1; omega) (by omega)
  refine ⟨layer, h1, fun g hg x => ?_⟩
  have := h2 g trivial hg x
  simpa [typeSize, so2Triv_size] using this

end E2
