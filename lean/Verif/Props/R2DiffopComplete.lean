import Verif.Props.DiffopComplete
import Verif.Props.R2DiffopInit

/-!
# C72: the parameters of `R2Diffop` range over all the equivariant differential operators up to its maximum order
-/

set_option linter.unusedSimpArgs false

namespace E2

open Finset Mat Real

variable {El F : Type} [LinearOrder F]

/-- The space's operators for a maximum frequency and a maximum power of the Laplacian are independent and include, up to combinations, all the homogeneous equivariant ones. -/
def DiffopGenComplete (Sp : Space El) (G : DiffopGen El) (rin rout : Repr El) : Prop :=
  ∀ (N P : ℕ), ∃ bas, G.bas (some (N : ℤ)) none = some bas ∧ ∃ l, tensorBasis bas G.cf rin rout P = some l ∧ DIndependent rout.size rin.size l ∧
    ∀ D : DArr, D.deg ≤ N → D.deg / 2 ≤ P → KernelConstraint Sp.G Sp.act rout.size rin.size rout.mat rin.mat D.eval → DSpans rout.size rin.size l D

/-- The operators of a pair of representations that a layer uses. -/
def DiffopModule.usedOps (M : DiffopModule El F) (i j : F) : List DArr :=
  ((M.basis i j).filter fun b => M.cfg.keepOf M.order (b.1.order, b.1)).map Prod.snd

/-- Every equivariant operator with constant coefficients of order at most `N` is a combination of the operators of the list. An operator is given by its symbol, the sum of its
homogeneous parts. -/
def AllOps (Sp : Space El) (rin rout : Repr El) (N : ℕ) (l : List DArr) : Prop :=
  ∀ Ds : ℕ → DArr, (∀ d, (Ds d).deg = d) →
    KernelConstraint Sp.G Sp.act rout.size rin.size rout.mat rin.mat (fun p a b => ∑ d ∈ range (N + 1), (Ds d).eval p a b) →
    ∃ w : Fin l.length → ℝ, ∀ p, MEq rout.size rin.size (fun a b => ∑ d ∈ range (N + 1), (Ds d).eval p a b) fun a b => ∑ k, w k * l[k].eval p a b

/-- The homogeneous parts of an equivariant symbol are equivariant. -/
theorem parts_constraint {G : Grp El} {act : El → ℝ × ℝ → ℝ × ℝ} (hlin : ∀ g c p, act g (scale c p) = scale c (act g p)) {so si : ℕ} {ρo ρi : El → Mat}
    (N : ℕ) (Ds : ℕ → DArr) (hd : ∀ d, (Ds d).deg = d)
    (h : KernelConstraint G act so si ρo ρi fun p a b => ∑ d ∈ range N, (Ds d).eval p a b) (d : ℕ) (hdN : d < N) :
    KernelConstraint G act so si ρo ρi (Ds d).eval := by
  intro g hg p a ha b hb
  have key := powers_zero N (fun d => (Ds d).eval (act g p) a b - Mat.mul si (Mat.mul so (ρo g) ((Ds d).eval p)) (ρi (G.inv g)) a b) id (by
    intro r _
    have h1 := h g hg (scale r p) a ha b hb
    rw [hlin] at h1
    have e : ∀ d q x y, (Ds d).eval (scale r q) x y = r ^ d * (Ds d).eval q x y := fun d q x y => by
      have := (Ds d).eval_scale r q x y
      rw [hd] at this
      exact this
    simp only [e] at h1
    rw [show (Mat.mul so (ρo g) fun a b => ∑ d ∈ range N, r ^ d * (Ds d).eval p a b)
      = fun a b => ∑ d ∈ range N, r ^ d * Mat.mul so (ρo g) ((Ds d).eval p) a b from mul_range_sum _ _ _ _ _] at h1
    rw [range_sum_mul] at h1
    simp only [id, sub_mul, Finset.sum_sub_distrib]
    rw [sub_eq_zero]
    refine Eq.trans ?_ (h1.trans ?_)
    · exact Finset.sum_congr rfl fun _ _ => by ring
    · exact Finset.sum_congr rfl fun _ _ => by ring) d
  simp only [id] at key
  rw [Finset.sum_ite_eq' (range N) d, if_pos (Finset.mem_range.2 hdN), sub_eq_zero] at key
  exact key

theorem resolve_power {a : DiffopArgs El} (hp : a.maximumPower = none) {k o pw : ℕ} (h : a.cfg.resolve = some (k, o, pw)) : pw = o / 2 := by
  unfold DiffopCfg.resolve at h
  split at h
  · simp at h
  · split_ifs at h with h1
    simp only [DiffopArgs.cfg, hp, diffopPower, Option.some.injEq, Prod.mk.injEq] at h h1
    omega

/-- **C72 for `R2Diffop`.** A layer built with the default power of the Laplacian, offset and filter: for every pair of fields its operators are independent, and every
equivariant operator with constant coefficients, of order at most the maximum order of the layer, is a combination of them. -/
theorem c72_layer {smp : Sampler} (Sp : Space El) (hlin : ∀ g c p, Sp.act g (scale c p) = scale c (Sp.act g p)) (G : DiffopGen El)
    (rep : F → Repr El) (inT outT : List F) (hne : inT ≠ [] ∧ outT ≠ []) (hG : DiffopGenOk Sp G rep inT outT)
    (hC : ∀ i ∈ inT, ∀ j ∈ outT, DiffopGenComplete Sp G (rep i) (rep j)) (a : DiffopArgs El) (hp : a.maximumPower = none) (ho : a.maximumOffset = none)
    (hf : a.basisFilter = none) (hg : 0 < a.groups) (M : DiffopModule El F) (hM : r2diffopInit smp G a rep inT outT = some M) (i j : F) (hi : i ∈ M.inG) (hj : j ∈ outT) :
    DIndependent (rep j).size (rep i).size (M.usedOps i j) ∧ AllOps Sp (rep i) (rep j) M.order (M.usedOps i j) := by
  obtain ⟨hcfg, pw, hr, hgr, hb, -, -, -⟩ := r2diffopInit_spec hM
  have hi' : i ∈ inT := by
    rw [(convGroups_spec hgr hg hne.1 hne.2).1]
    obtain ⟨n, hn⟩ : ∃ n, a.groups = n + 1 := ⟨a.groups - 1, by omega⟩
    rw [hn, List.replicate_succ, List.flatten_cons]
    exact List.mem_append_left _ hi
  have hbuild := hb i hi j hj
  rw [ho] at hbuild
  have hdeg := (c68_build_diffop_basis Sp G rep inT outT hG pw _ _ i j hi' hj _ hbuild).1
  obtain ⟨bas, hbas, l, hl, hind, hspan⟩ := hC i hi' j hj M.order pw
  have hmap : (M.basis i j).map Prod.snd = l := by
    rw [buildDiffopBasis, hbas] at hbuild
    dsimp only at hbuild
    rw [tensorBasis] at hl
    obtain ⟨S, hS, rfl⟩ := Option.map_eq_some_iff.1 hl
    rw [hS, Option.map_some] at hbuild
    rw [← Option.some.inj hbuild, List.map_snd_zip]
    rw [tensorIter, List.length_map]
    obtain ⟨h, -, h2, -⟩ := tensor_zip S G.cf pw
    rw [h2, List.length_map]
    simp [SBasis.enum, tensorPairs]
  have hkept : M.usedOps i j = l.filter fun T => decide (T.deg ≤ M.order) := by
    rw [DiffopModule.usedOps, ← hmap, List.filter_map]
    congr 1
    refine List.filter_congr fun b hb => ?_
    have : M.cfg.keep (b.1.order, b.1) = true := by rw [hcfg]; simp [DiffopArgs.cfg, hf]
    simp only [DiffopCfg.keepOf, this, Bool.true_and, Function.comp_apply, (hdeg b hb).1]
  obtain ⟨hf1, hf2⟩ := c72_filter hind M.order
  rw [hkept]
  refine ⟨hf1, fun Ds hd hκ => ?_⟩
  have hpw := resolve_power hp hr
  have each : ∀ d, d < M.order + 1 → DSpans (rep j).size (rep i).size (l.filter fun T => decide (T.deg ≤ M.order)) (Ds d) := fun d hlt =>
    hf2 _ (by rw [hd]; omega) (hspan _ (by rw [hd]; omega) (by rw [hd, hpw]; exact Nat.div_le_div_right (by omega))
      (parts_constraint hlin _ Ds hd hκ d hlt))
  choose! w hw1 hw2 using each
  refine ⟨fun k => ∑ d ∈ range (M.order + 1), w d k, fun p x hx y hy => ?_⟩
  dsimp only
  rw [Finset.sum_congr rfl fun d hd' => hw2 d (Finset.mem_range.1 hd') p x hx y hy, Finset.sum_comm]
  exact Finset.sum_congr rfl fun k _ => by rw [Finset.sum_mul]

section
variable (interp : ℝ → Img → Img)

theorem checkBounds_nat (N : ℕ) : checkBounds (some (N : ℤ)) none = some (some N, none) := by
  unfold checkBounds
  rw [if_pos]
  · simp
  · refine ⟨fun f hf => ?_, by simp, by simp⟩
    cases hf
    exact Int.natCast_nonneg N

theorem diffopGenComplete_cyclic (N : ℕ) (hN : 0 < N) (rin rout : Repr ℤ) (hin : rin.WF ∧ ∀ i ∈ rin.irreps, ∃ k, Cyclic.irrep N k = some i)
    (hout : rout.WF ∧ ∀ i ∈ rout.irreps, ∃ k, Cyclic.irrep N k = some i) : DiffopGenComplete (rotSpace interp N) (rot2dDiffops N) rin rout := by
  intro F P
  obtain ⟨l, h⟩ := c72_cyclic N hN rin rout hin.1 hout.1 hin.2 hout.2 F P
  exact ⟨_, by simp only [rot2dDiffops, checkBounds_nat, Option.map_some], l, h⟩

theorem diffopGenComplete_so2 (rin rout : Repr ℝ) (hin : rin.WF ∧ ∀ i ∈ rin.irreps, ∃ k, i = SO2.irrep k)
    (hout : rout.WF ∧ ∀ i ∈ rout.irreps, ∃ k, i = SO2.irrep k) : DiffopGenComplete (so2Space interp) so2Diffops rin rout := by
  intro F P
  obtain ⟨l, h1, h2, h3⟩ := c72_so2 rin rout hin.1 hout.1 hin.2 hout.2 P
  exact ⟨_, rfl, l, h1, h2, fun D _ => h3 D⟩

theorem diffopGenComplete_flip (axis : ℝ) (rin rout : Repr ℤ) (hin : rin.WF ∧ ∀ i ∈ rin.irreps, ∃ k, Cyclic.irrep 2 k = some i)
    (hout : rout.WF ∧ ∀ i ∈ rout.irreps, ∃ k, Cyclic.irrep 2 k = some i) : DiffopGenComplete (flipSpace interp axis) (flip2dDiffops axis) rin rout := by
  intro F P
  obtain ⟨l, h⟩ := c72_flip axis rin rout hin.1 hout.1 hin.2 hout.2 F P
  exact ⟨_, by simp only [flip2dDiffops, checkBounds_nat, Option.map_some], l, h⟩

theorem diffopGenComplete_dihedral (N : ℕ) (hN : 0 < N) (axis : ℝ) (rin rout : Repr (ℤ × ℤ))
    (hin : rin.WF ∧ ∀ i ∈ rin.irreps, ∃ j k, Dihedral.irrep N j k = some i)
    (hout : rout.WF ∧ ∀ i ∈ rout.irreps, ∃ j k, Dihedral.irrep N j k = some i) :
    DiffopGenComplete (flipRotSpace interp N axis) (flipRot2dDiffops N axis) rin rout := by
  intro F P
  obtain ⟨l, h⟩ := c72_dihedral N hN axis rin rout hin.1 hout.1 hin.2 hout.2 F P
  exact ⟨_, by simp only [flipRot2dDiffops, checkBounds_nat, Option.map_some], l, h⟩

theorem diffopGenComplete_o2 (axis : ℝ) (rin rout : Repr (ℤ × ℝ)) (hin : rin.WF ∧ ∀ i ∈ rin.irreps, ∃ j k, O2.irrep j k = some i)
    (hout : rout.WF ∧ ∀ i ∈ rout.irreps, ∃ j k, O2.irrep j k = some i) : DiffopGenComplete (o2Space interp axis) (o2Diffops axis) rin rout := by
  intro F P
  obtain ⟨l, h1, h2, h3⟩ := c72_o2 axis rin rout hin.1 hout.1 hin.2 hout.2 P
  exact ⟨_, rfl, l, h1, h2, fun D _ => h3 D⟩

/-- What C72 says about a layer: for every pair of fields of the types its operators are independent, and every equivariant operator with constant coefficients of order at most
the maximum order of the layer is a combination of them. -/
def R2DiffopComplete (smp : Sampler) (Sp : Space El) (G : DiffopGen El) (rep : F → Repr El) (inT outT : List F) : Prop :=
  ∀ (a : DiffopArgs El) (M : DiffopModule El F), r2diffopInit smp G a rep inT outT = some M → a.maximumPower = none → a.maximumOffset = none → a.basisFilter = none →
    0 < a.groups → ∀ i ∈ M.inG, ∀ j ∈ outT, DIndependent (rep j).size (rep i).size (M.usedOps i j) ∧ AllOps Sp (rep i) (rep j) M.order (M.usedOps i j)

variable (inT outT : List F) (hne : inT ≠ [] ∧ outT ≠ []) (smp : Sampler)
include hne

/-- **C72 for the layers on `Rot2dOnR2(N)`.** -/
theorem c72_layer_cyclic (N : ℕ) (hN : 0 < N) (rep : F → Repr ℤ)
    (hr : ∀ n ∈ inT ++ outT, (rep n).WF ∧ ∀ i ∈ (rep n).irreps, ∃ k, Cyclic.irrep N k = some i) :
    R2DiffopComplete smp (rotSpace interp N) (rot2dDiffops N) rep inT outT := fun a M hM hp ho hf hg i hi j hj =>
  c72_layer _ (fun _ c p => rot_scale _ c p) _ rep inT outT hne (diffopGenOk_cyclic interp inT outT N hN rep hr)
    (fun i hi j hj => diffopGenComplete_cyclic interp N hN _ _ (hr i (List.mem_append_left _ hi)) (hr j (List.mem_append_right _ hj))) a hp ho hf hg M hM i j hi hj

/-- **C72 for the layers on `Rot2dOnR2(-1)`.** -/
theorem c72_layer_so2 (rep : F → Repr ℝ) (hr : ∀ n ∈ inT ++ outT, (rep n).WF ∧ ∀ i ∈ (rep n).irreps, ∃ k, i = SO2.irrep k) :
    R2DiffopComplete smp (so2Space interp) so2Diffops rep inT outT := fun a M hM hp ho hf hg i hi j hj =>
  c72_layer _ (fun _ c p => rot_scale _ c p) _ rep inT outT hne (diffopGenOk_so2 interp inT outT rep hr)
    (fun i hi j hj => diffopGenComplete_so2 interp _ _ (hr i (List.mem_append_left _ hi)) (hr j (List.mem_append_right _ hj))) a hp ho hf hg M hM i j hi hj

/-- **C72 for the layers on `Flip2dOnR2`.** -/
theorem c72_layer_flip (axis : ℝ) (rep : F → Repr ℤ)
    (hr : ∀ n ∈ inT ++ outT, (rep n).WF ∧ ∀ i ∈ (rep n).irreps, ∃ k, Cyclic.irrep 2 k = some i) :
    R2DiffopComplete smp (flipSpace interp axis) (flip2dDiffops axis) rep inT outT := fun a M hM hp ho hf hg i hi j hj =>
  c72_layer _ (fun g c p => by
      show (if g = 0 then scale c p else refl axis (scale c p)) = scale c (if g = 0 then p else refl axis p)
      split_ifs
      exacts [rfl, refl_scale _ _ _]) _ rep inT outT hne (diffopGenOk_flip interp inT outT axis rep hr)
    (fun i hi j hj => diffopGenComplete_flip interp axis _ _ (hr i (List.mem_append_left _ hi)) (hr j (List.mem_append_right _ hj))) a hp ho hf hg M hM i j hi hj

/-- **C72 for the layers on `FlipRot2dOnR2(N)`.** -/
theorem c72_layer_dihedral (N : ℕ) (hN : 0 < N) (axis : ℝ) (rep : F → Repr (ℤ × ℤ))
    (hr : ∀ n ∈ inT ++ outT, (rep n).WF ∧ ∀ i ∈ (rep n).irreps, ∃ j k, Dihedral.irrep N j k = some i) :
    R2DiffopComplete smp (flipRotSpace interp N axis) (flipRot2dDiffops N axis) rep inT outT := fun a M hM hp ho hf hg i hi j hj =>
  c72_layer _ (fun _ c p => planeAct_scale axis _ c p) _ rep inT outT hne (diffopGenOk_dihedral interp inT outT N hN axis rep hr)
    (fun i hi j hj => diffopGenComplete_dihedral interp N hN axis _ _ (hr i (List.mem_append_left _ hi)) (hr j (List.mem_append_right _ hj)))
    a hp ho hf hg M hM i j hi hj

/-- **C72 for the layers on `FlipRot2dOnR2(-1)`.** -/
theorem c72_layer_o2 (axis : ℝ) (rep : F → Repr (ℤ × ℝ))
    (hr : ∀ n ∈ inT ++ outT, (rep n).WF ∧ ∀ i ∈ (rep n).irreps, ∃ j k, O2.irrep j k = some i) :
    R2DiffopComplete smp (o2Space interp axis) (o2Diffops axis) rep inT outT := fun a M hM hp ho hf hg i hi j hj =>
  c72_layer _ (fun g c p => planeAct_scale axis g c p) _ rep inT outT hne (diffopGenOk_o2 interp inT outT axis rep hr)
    (fun i hi j hj => diffopGenComplete_o2 interp axis _ _ (hr i (List.mem_append_left _ hi)) (hr j (List.mem_append_right _ hj))) a hp ho hf hg M hM i j hi hj

/-- **C72 for the layers on `TrivialOnR2`.** -/
theorem c72_layer_trivial (rep : F → Repr ℤ) (hr : ∀ n ∈ inT ++ outT, (rep n).WF ∧ ∀ i ∈ (rep n).irreps, ∃ k, Cyclic.irrep 1 k = some i) :
    R2DiffopComplete smp trivialSpace trivialDiffops rep inT outT := fun a M hM hp ho hf hg i hi j hj =>
  c72_layer _ (fun _ _ _ => rfl) _ rep inT outT hne (diffopGenOk_trivial inT outT rep hr)
    (fun i hi j hj F P => by
      obtain ⟨bas, h1, l, h2, h3, h4⟩ := diffopGenComplete_cyclic (fun _ x => x) 1 (by norm_num) _ _ (hr i (List.mem_append_left _ hi))
        (hr j (List.mem_append_right _ hj)) F P
      refine ⟨bas, h1, l, h2, h3, fun D hF hP hD => h4 D hF hP fun g hg p => ?_⟩
      have h0 : g = 0 := by
        have h' : Cyclic.isElement 1 g = true := hg
        simp [Cyclic.isElement, Cyclic.order_eq] at h'
        omega
      have h := hD g hg p
      subst h0
      simpa [rot_zero, trivialSpace, rotSpace] using h) a hp ho hf hg M hM i j hi hj

end


theorem exFlipRep_mat (g : ℤ) : (exFlipRep 0).mat g 0 0 = 1 ∧ (exFlipRep 1).mat g 0 0 = cos (g * π) := by
  have h0 : (exFlipRep 0).irreps = [{ size := 1, socs := 1, mat := fun _ => m1 1, freq := 0, flip := 0 }] := by
    simp [exFlipRep, Cyclic.irrep, Cyclic.order_eq]
  have h1 : (exFlipRep 1).irreps = [{ size := 1, socs := 1, freq := 1, flip := 0, mat := fun e => m1 (cos (e * π)) }] := by
    simp [exFlipRep, Cyclic.irrep, Cyclic.order_eq]
  constructor
  · rw [Repr.mat, Repr.blocks, (exFlipRep_ok 0).2.1, h0]
    simp [Mat.mul, exFlipRep, Mat.one, bdiag, m1]
  · rw [Repr.mat, Repr.blocks, (exFlipRep_ok 1).2.1, h1]
    simp [Mat.mul, exFlipRep, Mat.one, bdiag, m1]

/-- The hypotheses can be met: `R2Diffop(kernel_size=3, maximum_order=1)` on `Rot2dOnR2(2)` from a trivial field to a field of the sign representation. The derivatives in all
directions are equivariant, and so they are combinations of the operators of the layer. -/
example {fd : ℕ → List ℝ → ℕ → ℝ} (hfd : FDSpec fd) : ∃ M, r2diffopInit (fdSample fd) (rot2dDiffops 2) exArgs exFlipRep [0] [1] = some M ∧
    ∀ u v : ℝ, ∃ w : Fin (M.usedOps 0 1).length → ℝ, ∀ p : ℝ × ℝ, u * p.1 + v * p.2 = ∑ k, w k * (M.usedOps 0 1)[k].eval p 0 0 := by
  have hok : ∀ n ∈ [0] ++ [1], (exFlipRep n).WF ∧ ∀ i ∈ (exFlipRep n).irreps, ∃ k, Cyclic.irrep 2 k = some i :=
    fun n _ => ⟨(exFlipRep_ok n).1, (exFlipRep_ok n).2.2⟩
  have hG := diffopGenOk_cyclic (fun _ x => x) [0] [1] 2 (by norm_num) exFlipRep hok
  obtain ⟨D, D', hD, hdeg, h0, h1⟩ := exRotOps_eq
  have hb : (rot2dDiffops 2).bas (some 1) none = some fun i o => dRot 2 i o (some 1) none := by
    simp [rot2dDiffops, checkBounds]
  obtain ⟨M, hM, hs, ho, -, -⟩ := exArgs_init hfd _ _ hG hb hD D (by simp) hdeg h0 h1
  have hin : M.inG = [0] := by
    have := (r2diffopInit_spec hM).2.choose_spec.2.1
    simpa [convGroups, exArgs] using this.symm
  refine ⟨M, hM, fun u v => ?_⟩
  obtain ⟨-, h⟩ := c72_layer_cyclic (fun _ x => x) [0] [1] (by simp) (fdSample fd) 2 (by norm_num) exFlipRep hok exArgs M hM rfl rfl rfl one_pos 0 (by simp [hin]) 1 (by simp)
  have hev : ∀ p : ℝ × ℝ, ∀ x y, ∑ d ∈ range (M.order + 1), DArr.eval ⟨d, fun _ _ k => if d = 1 then (if k = 0 then u else v) else 0⟩ p x y = u * p.1 + v * p.2 := by
    intro p x y
    rw [ho]
    simp [Finset.sum_range_succ, DArr.eval, DArr.entry, HPoly.eval]
  obtain ⟨w, hw⟩ := h (fun d => ⟨d, fun _ _ k => if d = 1 then (if k = 0 then u else v) else 0⟩) (fun _ => rfl) (by
    intro g hg p x hx y hy
    rw [(exFlipRep_ok 1).2.1] at hx
    rw [(exFlipRep_ok 0).2.1] at hy
    obtain rfl : x = 0 := by omega
    obtain rfl : y = 0 := by omega
    simp only [hev, (exFlipRep_ok 1).2.1, (exFlipRep_ok 0).2.1]
    simp only [Mat.mul, Finset.sum_range_one, (exFlipRep_mat _).1, (exFlipRep_mat _).2]
    have h2 : ((g : ℝ) * (2 * π / (2 : ℕ))) = g * π := by push_cast; ring
    simp only [rotSpace, rot, h2, Real.sin_int_mul_pi]
    ring)
  refine ⟨w, fun p => ?_⟩
  have := hw p 0 (by rw [(exFlipRep_ok 1).2.1]; exact one_pos) 0 (by rw [(exFlipRep_ok 0).2.1]; exact one_pos)
  dsimp only at this
  rwa [hev] at this

end E2
