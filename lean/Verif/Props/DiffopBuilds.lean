import Verif.Lemmas.DiffopBuilds
import Verif.Props.GaussDiff

/-!
# C99: `R2Diffop` can be built between any two representations which share an irrep, if the kernel has more points than the maximum order

The basis has the identity of the common irrep as an operator of order 0.  Its filter has the finite difference weights of the value at the origin, which
are not small for any number of points, so that the expansion keeps it.  Kernels which are too small for the maximum order are refused.
-/

set_option linter.unusedSectionVars false

namespace E2

open Finset Mat Real

variable {El F : Type} [LinearOrder F]

/-- The operators of the spaces of the library with the irreps of their groups (gspaces/r2/*.py). -/
inductive PlaneOps : {El : Type} → DiffopGen El → (Irrep El → Prop) → Prop where
  | rot {N : ℕ} (hN : 0 < N) : PlaneOps (rot2dDiffops N) fun i => ∃ k, Cyclic.irrep N k = some i
  | trivial : PlaneOps trivialDiffops fun i => ∃ k, Cyclic.irrep 1 k = some i
  | flip (axis : ℝ) : PlaneOps (flip2dDiffops axis) fun i => ∃ k, Cyclic.irrep 2 k = some i
  | flipRot {N : ℕ} (hN : 0 < N) (axis : ℝ) : PlaneOps (flipRot2dDiffops N axis) fun i => ∃ j k, Dihedral.irrep N j k = some i
  | so2 : PlaneOps so2Diffops fun i => ∃ k, SO2.irrep k = i
  | o2 (axis : ℝ) : PlaneOps (o2Diffops axis) fun i => ∃ j k, O2.irrep j k = some i

/-- The operators of a space go with its kernels. -/
theorem PlaneOps.kernels {G : DiffopGen El} {P : Irrep El → Prop} (h : PlaneOps G P) : ∃ K, PlaneGen K P ∧ G.Like K ∧ ∃ axis, G.Coefs P axis := by
  cases h with
  | @rot N hN =>
    refine ⟨rot2dGen N, .rot hN, fun mf mo => ?_, 0, ?_⟩
    · simp only [rot2dDiffops, rot2dGen, Option.map_map, Function.comp_def, dRot_ang]
    · rintro mf mo bas hb i o ⟨n, hn⟩ ⟨m, hm⟩ l hl e he
      obtain ⟨b, -, rfl⟩ := Option.map_eq_some_iff.1 hb
      exact ⟨dRot_ok hl e he, dSamp_deg _ _ _ _, fun _ => rfl⟩
  | trivial =>
    refine ⟨trivialGen, .trivial, fun mf mo => ?_, 0, ?_⟩
    · simp only [trivialDiffops, trivialGen, Option.map_map, Function.comp_def, dRot_ang]
    · rintro mf mo bas hb i o ⟨n, hn⟩ ⟨m, hm⟩ l hl e he
      obtain ⟨b, -, rfl⟩ := Option.map_eq_some_iff.1 hb
      exact ⟨dRot_ok hl e he, dSamp_deg _ _ _ _, fun _ => rfl⟩
  | flip axis =>
    refine ⟨flip2dGen axis, .flip axis, fun mf mo => ?_, axis, ?_⟩
    · simp only [flip2dDiffops, flip2dGen, Option.map_map, Function.comp_def, dFlips_ang]
    · rintro mf mo bas hb i o ⟨n, hn⟩ ⟨m, hm⟩ l hl e he
      obtain ⟨b, -, rfl⟩ := Option.map_eq_some_iff.1 hb
      exact ⟨dFlips_ok hl e he, dSamp_deg _ _ _ _, fun _ => rfl⟩
  | @flipRot N hN axis =>
    refine ⟨flipRot2dGen N axis, .flipRot hN axis, fun mf mo => ?_, axis, ?_⟩
    · simp only [flipRot2dDiffops, flipRot2dGen, Option.map_map, Function.comp_def, dFlipRot_ang]
    · rintro mf mo bas hb i o ⟨j, n, hn⟩ ⟨j', m, hm⟩ l hl e he
      obtain ⟨b, -, rfl⟩ := Option.map_eq_some_iff.1 hb
      obtain ⟨g1, -, -, j1⟩ := Dihedral.irrep_freq' hn
      obtain ⟨g2, -, -, j2⟩ := Dihedral.irrep_freq' hm
      exact ⟨dFlipRot_ok (g1 ▸ j1) (g2 ▸ j2) hl e he, dSamp_deg _ _ _ _, fun _ => rfl⟩
  | so2 =>
    refine ⟨so2Gen, .so2, fun mf mo => ?_, 0, ?_⟩
    · simp only [so2Diffops, so2Gen, Option.map_some, dCont_ang]
    · rintro mf mo bas hb i o ⟨n, rfl⟩ ⟨m, rfl⟩ l hl e he
      cases hb
      exact ⟨dCont_ok hl e he, (dCoefCont_eval (SO2.size12 n) (SO2.size12 m) hl he (0, 0)).1,
        fun p => (dCoefCont_eval (SO2.size12 n) (SO2.size12 m) hl he p).2⟩
  | o2 axis =>
    refine ⟨o2Gen axis, .o2 axis, fun mf mo => ?_, axis, ?_⟩
    · simp only [o2Diffops, o2Gen, Option.map_some, dFlipCont_ang]
    · rintro mf mo bas hb i o ⟨j, n, hn⟩ ⟨j', m, hm⟩ l hl e he
      cases hb
      obtain ⟨-, -, -, -, gn, -⟩ := (c05_o2_irreps j n).2 i hn
      obtain ⟨-, -, -, -, gm, -⟩ := (c05_o2_irreps j' m).2 o hm
      have jn := (c05_o2_irreps j n).1.1 (by simp [hn])
      have jm := (c05_o2_irreps j' m).1.1 (by simp [hm])
      exact ⟨dFlipCont_ok (by omega) (by omega) hl e he, dSamp_deg _ _ _ _, fun _ => rfl⟩

theorem PlaneOps.full {G : DiffopGen El} {P : Irrep El → Prop} (h : PlaneOps G P) : G.Full P := by
  obtain ⟨K, hK, hl, axis, hc⟩ := h.kernels
  exact DiffopGen.full_of hK.full hK.size hl hc

theorem PlaneOps.sep {G : DiffopGen El} {P : Irrep El → Prop} (h : PlaneOps G P) : G.Sep P := by
  obtain ⟨K, hK, hl, -⟩ := h.kernels
  exact DiffopGen.sep_of hK.sep hl

theorem PlaneOps.size {G : DiffopGen El} {P : Irrep El → Prop} (h : PlaneOps G P) : ∀ i, P i → i.size = 1 ∨ i.size = 2 := by
  obtain ⟨K, hK, -⟩ := h.kernels
  exact hK.size

/-- The sizes which the constructor computes, if the power of the Laplacian is not negative. -/
theorem resolve_of {a : DiffopArgs El} {k o : ℤ} (hs : diffopSizes a.kernelSize a.maximumOrder a.accuracy = some (k, o)) (h0 : 0 ≤ o) (hk : 1 ≤ k)
    (hpw : ∀ p, a.maximumPower = some p → 0 ≤ p) : a.cfg.resolve = some (k.toNat, o.toNat, (diffopPower o a.maximumPower).toNat) := by
  have hp : 0 ≤ diffopPower o a.maximumPower := by
    unfold diffopPower
    cases h : a.maximumPower with
    | none => show 0 ≤ o / 2; omega
    | some p =>
      have := hpw p h
      show 0 ≤ min p (o / 2)
      omega
  unfold DiffopCfg.resolve
  show (match diffopSizes a.kernelSize a.maximumOrder a.accuracy with | none => none | some (k, o) => _) = _
  rw [hs]
  exact if_pos ⟨hk, h0, hp⟩

/-- The constructor for a discretisation which can be applied to all operators up to the maximum order and which keeps a quarter of those of order 0. -/
theorem diffop_builds {G : DiffopGen El} {P : Irrep El → Prop} (hG : PlaneOps G P) (smp : Sampler) (a : DiffopArgs El)
    (rep : F → Repr El) (inT outT inG : List F) (hg : convGroups a.groups inT outT = some inG)
    (hin : ∀ n ∈ inG, (rep n).Plane P) (hout : ∀ n ∈ outT, (rep n).Plane P)
    {k o : ℕ} (hs : diffopSizes a.kernelSize a.maximumOrder a.accuracy = some ((k : ℤ), (o : ℤ))) (hk1 : 1 ≤ k)
    (hpw : ∀ p, a.maximumPower = some p → 0 ≤ p) (hoff : a.maximumOffset = none) (hfil : a.basisFilter = none)
    (hsome' : ∀ so si D, D.deg ≤ o → (smp k a.dilation so si a.angleOffset D).isSome)
    (hsq' : ∀ so si D f, D.deg = 0 → smp k a.dilation so si a.angleOffset D = some f →
      1 / 4 * ∑ i ∈ range so, ∑ j ∈ range si, D.eval (1, 0) i j ^ 2 ≤ sqNorm so si (k * k) fun i j q => f q i j)
    (hshare : ∃ i ∈ inG, ∃ j ∈ outT, ∃ ψ ∈ (rep i).irreps, ψ ∈ (rep j).irreps) :
    ∃ M : DiffopModule El F, r2diffopInit smp G a rep inT outT = some M ∧ M.size = k ∧ M.order = o ∧
      (M.exp smp rep outT).dimension ≠ 0 := by
  classical
  obtain ⟨i, hi, j, hj, ψ, hψi, hψj⟩ := hshare
  have hr := resolve_of hs (by omega) (by omega) hpw
  simp only [Int.toNat_natCast] at hr
  set pw := (diffopPower o a.maximumPower).toNat
  have hb : ∀ i ∈ inG, ∀ j ∈ outT, ∃ l, buildDiffopBasis G pw (some (o : ℤ)) none (rep i) (rep j) = some l ∧ (l.map fun b => diffopId b.1).Nodup ∧
      ∀ b ∈ l, b.2.deg = b.1.order := fun i hi j hj => by
    obtain ⟨l, h1, h2, h3, -⟩ := diffopBasis_centre hG.full hG.size (hin i hi).irr (hout j hj).irr o pw
    exact ⟨l, h1, h2, h3⟩
  set M : DiffopModule El F := ⟨a.cfg, k, o, inG, fun i j =>
    if i ∈ inG ∧ j ∈ outT then (buildDiffopBasis G pw (some (o : ℤ)) a.maximumOffset (rep i) (rep j)).getD [] else []⟩ with hM
  have hMb : ∀ i ∈ inG, ∀ j ∈ outT, ∀ l, buildDiffopBasis G pw (some (o : ℤ)) none (rep i) (rep j) = some l → M.basis i j = l := by
    intro i hi j hj l hl
    show (if i ∈ inG ∧ j ∈ outT then (buildDiffopBasis G pw (some (o : ℤ)) a.maximumOffset (rep i) (rep j)).getD [] else []) = l
    rw [if_pos ⟨hi, hj⟩, hoff, hl, Option.getD_some]
  have hsome : ∀ i ∈ inG, ∀ j ∈ outT, ∀ b ∈ M.basis i j, M.cfg.keepOf o (b.1.order, b.1) = true →
      (smp k a.dilation (rep j).size (rep i).size a.angleOffset b.2).isSome := by
    intro i hi j hj b hbm hkeep
    obtain ⟨l, h1, -, h3⟩ := hb i hi j hj
    rw [hMb i hi j hj l h1] at hbm
    simp only [DiffopCfg.keepOf, Bool.and_eq_true, decide_eq_true_eq] at hkeep
    exact hsome' _ _ _ (by rw [h3 b hbm]; exact hkeep.2)
  have hinp : FilterInput rep inG outT (M.sampled smp rep) M.cfg.ident := by
    refine ⟨List.ne_nil_of_mem hi, List.ne_nil_of_mem hj, fun n hn => (hin n hn).pos, fun n hn => (hout n hn).pos, fun i hi j hj => ?_⟩
    obtain ⟨l, h1, h2, -⟩ := hb i hi j hj
    rw [DiffopModule.sampled, hMb i hi j hj l h1, List.map_map]
    exact h2
  have hdim : (M.exp smp rep outT).dimension ≠ 0 := by
    have hwf := filterExp_wf hinp (k * k) id (M.cfg.keepOf o) M.cfg.shape0 M.cfg.inIdx M.cfg.outIdx
    refine hwf.dimension_ne_zero (i := i) (o := j) hi hj ?_
    obtain ⟨l, hl, -, h3, hel⟩ := diffopBasis_centre hG.full hG.size (hin i hi).irr (hout j hj).irr o pw
    obtain ⟨b, hbl, hord, hψ, A, hA, hn⟩ := hel (hin i hi).wf (hin i hi).orth (hout j hj).orth ψ hψi hψj 0 (Nat.zero_le _)
    have hdeg : b.2.deg = 0 := by rw [h3 b hbl, hord]
    obtain ⟨f, hf⟩ := Option.isSome_iff_exists.1
      (hsome' (rep j).size (rep i).size b.2 (by omega))
    have hmem : ((b.1.order, b.1), f) ∈ M.sampled smp rep i j := by
      rw [DiffopModule.sampled, hMb i hi j hj l hl]
      refine List.mem_map.2 ⟨b, hbl, ?_⟩
      have : smp M.size M.cfg.d (rep j).size (rep i).size M.cfg.angle b.2 = some f := hf
      rw [this]
      rfl
    have hsz := hG.size ψ ((hin i hi).irr ψ hψi)
    refine singleBlock_isSome (List.mem_map.2 ⟨_, hmem, rfl⟩) ?_ ?_ ?_
    · simp [hM, DiffopArgs.cfg, DiffopCfg.keepOf, hfil, hord]
    · show 0 < b.1.angular.outIrrep.size
      rw [hψ]
      omega
    · have hsq := hsq' _ _ _ _ hdeg hf
      have h2 : ∑ x ∈ range (rep j).size, ∑ y ∈ range (rep i).size, b.2.eval (1, 0) x y ^ 2 = ∑ x ∈ range (rep j).size, ∑ y ∈ range (rep i).size, A x y ^ 2 := by
        refine Finset.sum_congr rfl fun x _ => Finset.sum_congr rfl fun y _ => ?_
        rw [hA]
        simp
      rw [h2] at hsq
      show _ ≤ sqNorm (rep j).size (rep i).size (k * k) (fun r c s => f s r c) / ((b.1.angular.outIrrep.size : ℕ) : ℝ)
      have h4 : (0 : ℝ) < ψ.size ∧ (ψ.size : ℝ) ≤ 2 := by
        rcases hsz with h | h <;> rw [h] <;> norm_num
      rw [hψ, le_div_iff₀ h4.1]
      norm_num
      nlinarith
  refine ⟨M, ?_, rfl, rfl, hdim⟩
  unfold r2diffopInit
  rw [hr]
  dsimp only
  rw [hg]
  dsimp only
  rw [if_pos, if_pos, if_neg]
  · exact hdim
  · exact hsome
  · intro i hi j hj
    obtain ⟨l, h1, -⟩ := hb i hi j hj
    rw [hoff, h1]
    simp

/-- **C99**: between two field types with a common irrep, `R2Diffop` can be built for every kernel size larger than the maximum order, even or odd, every
dilation, padding, stride, group, angle offset and largest power of the Laplacian, with the default offsets and filter; it has at least one weight. -/
theorem c99_diffop {G : DiffopGen El} {P : Irrep El → Prop} (hG : PlaneOps G P) {fd : ℕ → List ℝ → ℕ → ℝ} (hfd : FDSpec fd) (a : DiffopArgs El)
    (rep : F → Repr El) (inT outT inG : List F) (hg : convGroups a.groups inT outT = some inG)
    (hin : ∀ n ∈ inG, (rep n).Plane P) (hout : ∀ n ∈ outT, (rep n).Plane P)
    {k o : ℤ} (hs : diffopSizes a.kernelSize a.maximumOrder a.accuracy = some (k, o)) (h0 : 0 ≤ o) (hk : o < k)
    (hpw : ∀ p, a.maximumPower = some p → 0 ≤ p) (hd : 0 < a.dilation) (hoff : a.maximumOffset = none) (hfil : a.basisFilter = none)
    (hshare : ∃ i ∈ inG, ∃ j ∈ outT, ∃ ψ ∈ (rep i).irreps, ψ ∈ (rep j).irreps) :
    ∃ M : DiffopModule El F, r2diffopInit (fdSample fd) G a rep inT outT = some M ∧ (M.size : ℤ) = k ∧ (M.order : ℤ) = o ∧
      (M.exp (fdSample fd) rep outT).dimension ≠ 0 := by
  obtain ⟨k, rfl⟩ := Int.eq_ofNat_of_zero_le (show 0 ≤ k by omega)
  obtain ⟨o, rfl⟩ := Int.eq_ofNat_of_zero_le h0
  obtain ⟨M, h1, h2, h3, h4⟩ := diffop_builds hG (fdSample fd) a rep inT outT inG hg hin hout hs (by omega) hpw hoff hfil
    (fun so si D hD => fdSample_isSome fd (by omega)) (fun so si D f hD hf => fdSample_sq hfd (by omega) hd hD hf) hshare
  exact ⟨M, h1, by rw [h2], by rw [h3], h4⟩

/-- The filter of an operator of order 0 by Gaussians is the operator times the Gaussian. -/
theorem gaussSample_zero {ga : ℝ → ℕ → ℕ → ℝ × ℝ → ℝ} (hga : GaussSpec ga) {s : ℝ} {k d so si : ℕ} {off : Option ℝ} {D : DArr} (h : D.deg = 0)
    {f : ℕ → Mat} (hf : gaussSample ga s k d so si off D = some f) (q i j : ℕ) : f q i j = D.co i j 0 * gaussRBF (1 / s ^ 2) (gridCoords k d q) := by
  obtain rfl := Option.some.inj hf
  have hd : (D.offset off).deg = 0 := by cases off <;> exact h
  have hc : (D.offset off).co i j 0 = D.co i j 0 := offD_eval_zero h off i j
  show gaussianDerivative ga ((D.offset off).entry i j) s (gridCoords k d q) = _
  rw [gaussianDerivative_eq hga, polyD_apply]
  simp [DArr.entry, hd, hc]

/-- **C99 with derivatives of Gaussians**: for every odd kernel size, every maximum order and every width. -/
theorem c99_gauss {G : DiffopGen El} {P : Irrep El → Prop} (hG : PlaneOps G P) {ga : ℝ → ℕ → ℕ → ℝ × ℝ → ℝ} (hga : GaussSpec ga) (s : ℝ)
    (a : DiffopArgs El) (rep : F → Repr El) (inT outT inG : List F) (hg : convGroups a.groups inT outT = some inG)
    (hin : ∀ n ∈ inG, (rep n).Plane P) (hout : ∀ n ∈ outT, (rep n).Plane P)
    {m o : ℕ} (hs : diffopSizes a.kernelSize a.maximumOrder a.accuracy = some (((2 * m + 1 : ℕ) : ℤ), (o : ℤ)))
    (hpw : ∀ p, a.maximumPower = some p → 0 ≤ p) (hoff : a.maximumOffset = none) (hfil : a.basisFilter = none)
    (hshare : ∃ i ∈ inG, ∃ j ∈ outT, ∃ ψ ∈ (rep i).irreps, ψ ∈ (rep j).irreps) :
    ∃ M : DiffopModule El F, r2diffopInit (gaussSample ga s) G a rep inT outT = some M ∧ M.size = 2 * m + 1 ∧ M.order = o ∧
      (M.exp (gaussSample ga s) rep outT).dimension ≠ 0 := by
  refine diffop_builds hG (gaussSample ga s) a rep inT outT inG hg hin hout hs (by omega) hpw hoff hfil (fun _ _ _ _ => rfl) ?_ hshare
  intro so si D f hD hf
  have hc : m * (2 * m + 1) + m < (2 * m + 1) * (2 * m + 1) := by nlinarith
  have h1 : ∑ i ∈ range so, ∑ j ∈ range si, D.eval (1, 0) i j ^ 2 ≤ sqNorm so si ((2 * m + 1) * (2 * m + 1)) fun i j q => f q i j := by
    refine Finset.sum_le_sum fun x _ => Finset.sum_le_sum fun y _ => ?_
    refine le_trans (le_of_eq ?_) (Finset.single_le_sum (fun q _ => sq_nonneg _) (Finset.mem_range.2 hc))
    dsimp only
    rw [gaussSample_zero hga hD hf, gridCoords_centre, DArr.eval_deg_zero hD]
    simp [gaussRBF]
  have h2 : 0 ≤ ∑ i ∈ range so, ∑ j ∈ range si, D.eval (1, 0) i j ^ 2 := Finset.sum_nonneg fun _ _ => Finset.sum_nonneg fun _ _ => sq_nonneg _
  linarith

theorem grid_even_sq {k d : ℕ} (hk : k % 2 = 0) (hd : 0 < d) (q : ℕ) : 1 / 2 ≤ (gridCoords k d q).1 ^ 2 + (gridCoords k d q).2 ^ 2 := by
  have h : ∀ j : ℕ, 1 / 4 ≤ axisPt k d j ^ 2 := by
    intro j
    rw [axisPt_eq]
    have hz : ((2 * j : ℤ) - (k - 1)) ≠ 0 := by omega
    have h1 : 1 ≤ ((2 * j : ℤ) - (k - 1)) ^ 2 := Int.one_le_abs (pow_ne_zero 2 hz) |>.trans (by rw [abs_of_nonneg (sq_nonneg _)])
    have h2 : (1 : ℝ) ≤ ((2 * j : ℝ) - (k - 1)) ^ 2 := by exact_mod_cast h1
    have h3 : (1 : ℝ) ≤ (d : ℝ) ^ 2 := by
      have : (1 : ℝ) ≤ d := by exact_mod_cast hd
      nlinarith
    have h4 : (1 : ℝ) ≤ (d : ℝ) ^ 2 * ((2 * j : ℝ) - (k - 1)) ^ 2 := one_le_mul_of_one_le_of_one_le h3 h2
    have h5 : ((d : ℝ) * ((2 * j : ℝ) - (k - 1)) / 2) ^ 2 = (d : ℝ) ^ 2 * ((2 * j : ℝ) - (k - 1)) ^ 2 / 4 := by ring
    rw [h5]
    linarith
  rw [gridCoords_axis]
  have h1 := h (q % k)
  have h2 := h (q / k)
  simp only [neg_sq]
  linarith

/-- **C99, the public arguments**: the sizes fit if either a maximum order and an accuracy or its default, or a kernel size and an accuracy not larger than it or
its default, or a kernel size and a smaller maximum order are given. -/
theorem c99_arguments (k o acc : ℤ) :
    (0 ≤ o → ∃ k', diffopSizes none (some o) none = some (k', o) ∧ o < k') ∧
    (0 ≤ o → 1 ≤ acc → ∃ k', diffopSizes none (some o) (some acc) = some (k', o) ∧ o < k') ∧
    (1 ≤ k → ∃ o', diffopSizes (some k) none none = some (k, o') ∧ 0 ≤ o' ∧ o' < k) ∧
    (1 ≤ acc → acc ≤ k → ∃ o', diffopSizes (some k) none (some acc) = some (k, o') ∧ 0 ≤ o' ∧ o' < k) ∧
    diffopSizes (some k) (some o) none = some (k, o) := by
  refine ⟨fun ho => ⟨o + 1, (c65_defaults k o acc).1 ho, by omega⟩, fun ho ha => ?_, fun hk => ⟨k - 1, (c65_defaults k o acc).2.1 hk, by omega, by omega⟩,
    fun ha hk => ?_, rfl⟩
  · obtain ⟨k', h1, h2, -⟩ := c65_kernel_size o acc ho ha
    exact ⟨k', h1, h2⟩
  · obtain ⟨o', h1, h2, h3, -⟩ := c65_maximum_order k acc ha hk
    exact ⟨o', h1, h2, h3⟩

/-- Operators of order 0 only exist between types with a common irrep, for every discretisation. -/
theorem diffop_share {G : DiffopGen El} {P : Irrep El → Prop} (hG : G.Sep P) (smp : Sampler) (a : DiffopArgs El) (rep : F → Repr El)
    (inT outT inG : List F) (hg : convGroups a.groups inT outT = some inG)
    (hin : ∀ n ∈ inG, ∀ i ∈ (rep n).irreps, P i) (hout : ∀ n ∈ outT, ∀ i ∈ (rep n).irreps, P i)
    {M : DiffopModule El F} (hM : r2diffopInit smp G a rep inT outT = some M) (h0 : M.order = 0) :
    ∃ i ∈ inG, ∃ j ∈ outT, ∃ ψ ∈ (rep i).irreps, ψ ∈ (rep j).irreps := by
  classical
  obtain ⟨-, pw, -, hg', hbas, -, -, hdim⟩ := r2diffopInit_spec hM
  rw [hg, Option.some.injEq] at hg'
  subst hg'
  obtain ⟨⟨i, j⟩, hij⟩ := List.exists_mem_of_ne_nil _ (Exp.pairs_ne_nil hdim)
  obtain ⟨hi, hj, hs⟩ := (Exp.mem_pairs _ _).1 hij
  change i ∈ M.inG at hi
  change j ∈ outT at hj
  obtain ⟨bl, hbl⟩ := Option.isSome_iff_exists.1 hs
  obtain ⟨hne, -, hsp⟩ := singleBlock_spec hbl
  obtain ⟨e, he⟩ := List.exists_mem_of_ne_nil _ hne
  obtain ⟨b, hb, c, hkeep, -, -⟩ := hsp e he
  obtain ⟨q, hq, rfl⟩ := List.mem_map.1 hb
  obtain ⟨t, ht, rfl⟩ := List.mem_map.1 hq
  have hord : t.1.order = 0 := by
    have : M.cfg.keepOf M.order (t.1.order, t.1) = true := hkeep
    simp only [DiffopCfg.keepOf, Bool.and_eq_true, decide_eq_true_eq, h0] at this
    omega
  have hl := hbas i hi j hj
  unfold buildDiffopBasis at hl
  split at hl
  · exact absurd hl (by simp)
  rename_i bas hb'
  obtain ⟨S, hS, hl⟩ := Option.map_eq_some_iff.1 hl
  rw [← hl] at ht
  obtain ⟨h, -, -, hz⟩ := tensor_zip S G.cf pw
  rw [hz] at ht
  obtain ⟨p, hp, rfl⟩ := List.mem_map.1 ht
  obtain ⟨h1, -⟩ := mem_tensorPairs (mem_enum hp)
  obtain ⟨idx, hidx⟩ := List.mem_iff_getElem?.1 h1
  obtain ⟨g1, g2, g3, -⟩ := S.iter_get hidx
  obtain ⟨f1, f2, f3⟩ := steerable_fields' hS
  rw [f1] at g1
  rw [f2] at g2
  rw [f3] at g3
  have m1 := List.mem_of_getElem? g1
  have m2 := List.mem_of_getElem? g2
  have hmu : p.2.1.elem.mu = 0 := by
    simp only [TensorAttr.order] at hord
    omega
  cases hbl' : bas p.2.1.inIrrep p.2.1.outIrrep with
  | none => simp [hbl'] at g3
  | some l' =>
    simp only [hbl', Option.getD_some] at g3
    have := hG _ _ bas hb' _ _ (hin i hi _ m1) (hout j hj _ m2) l' hbl' _ (List.mem_of_getElem? g3) hmu
    exact ⟨i, hi, j, hj, _, m1, this ▸ m2⟩

/-- **C99, maximum order 0**: the constructor succeeds exactly if the types have a common irrep, for every kernel size. -/
theorem c99_order_zero {G : DiffopGen El} {P : Irrep El → Prop} (hG : PlaneOps G P) {fd : ℕ → List ℝ → ℕ → ℝ} (hfd : FDSpec fd) (a : DiffopArgs El)
    (rep : F → Repr El) (inT outT inG : List F) (hg : convGroups a.groups inT outT = some inG)
    (hin : ∀ n ∈ inG, (rep n).Plane P) (hout : ∀ n ∈ outT, (rep n).Plane P)
    {k : ℤ} (hs : diffopSizes a.kernelSize a.maximumOrder a.accuracy = some (k, 0)) (hk : 1 ≤ k)
    (hpw : ∀ p, a.maximumPower = some p → 0 ≤ p) (hd : 0 < a.dilation) (hoff : a.maximumOffset = none) (hfil : a.basisFilter = none) :
    (∃ M : DiffopModule El F, r2diffopInit (fdSample fd) G a rep inT outT = some M) ↔
      ∃ i ∈ inG, ∃ j ∈ outT, ∃ ψ ∈ (rep i).irreps, ψ ∈ (rep j).irreps := by
  constructor
  · rintro ⟨M, hM⟩
    refine diffop_share hG.sep _ a rep inT outT inG hg (fun n hn => (hin n hn).irr) (fun n hn => (hout n hn).irr) hM ?_
    obtain ⟨-, pw, hr, -⟩ := r2diffopInit_spec hM
    rw [resolve_of hs le_rfl hk hpw] at hr
    simp only [Option.some.injEq, Prod.mk.injEq] at hr
    exact hr.2.1.symm
  · intro h
    obtain ⟨M, hM, -⟩ := c99_diffop hG hfd a rep inT outT inG hg hin hout hs le_rfl (by omega) hpw hd hoff hfil h
    exact ⟨M, hM⟩

theorem HPoly.eval_one_zero (c : HPoly) : c.eval (1, 0) = c.co 0 := by
  unfold HPoly.eval
  rw [Finset.sum_eq_single 0]
  · simp
  · intro m _ hm
    simp [hm]
  · intro h
    exact absurd (Finset.mem_range.2 (Nat.succ_pos _)) h

/-- **C99, kernels which are too small**: if the smallest even number not below the kernel size is at most the maximum order, the constructor fails for all types
with a common irrep: the power of the Laplacian of this order cannot be discretised. -/
theorem c99_refused {G : DiffopGen El} {P : Irrep El → Prop} (hG : PlaneOps G P) (fd : ℕ → List ℝ → ℕ → ℝ) (a : DiffopArgs El)
    (rep : F → Repr El) (inT outT inG : List F) (hg : convGroups a.groups inT outT = some inG)
    (hin : ∀ n ∈ inG, (rep n).Plane P) (hout : ∀ n ∈ outT, (rep n).Plane P)
    {k o : ℤ} (hs : diffopSizes a.kernelSize a.maximumOrder a.accuracy = some (k, o)) (hk : 1 ≤ k) (hko : 2 * ((k + 1) / 2) ≤ o)
    (hpw : a.maximumPower = none) (hoff : a.maximumOffset = none) (hfil : a.basisFilter = none)
    (hshare : ∃ i ∈ inG, ∃ j ∈ outT, ∃ ψ ∈ (rep i).irreps, ψ ∈ (rep j).irreps) :
    r2diffopInit (fdSample fd) G a rep inT outT = none := by
  classical
  obtain ⟨i, hi, j, hj, ψ, hψi, hψj⟩ := hshare
  by_contra hne
  obtain ⟨M, hM⟩ := Option.ne_none_iff_exists'.1 hne
  obtain ⟨hcfg, pw, hr, hg', hbas, -, hsmp, -⟩ := r2diffopInit_spec hM
  rw [hg, Option.some.injEq] at hg'
  subst hg'
  rw [resolve_of hs (by omega) hk (by simp [hpw]), hpw] at hr
  simp only [Option.some.injEq, Prod.mk.injEq, diffopPower] at hr
  obtain ⟨r1, r2, r3⟩ := hr
  set s : ℕ := (M.size + 1) / 2
  have hsp : s ≤ pw ∧ 2 * s ≤ M.order ∧ M.size ≤ 2 * s := by omega
  obtain ⟨l, hl, -, h3, hel⟩ := diffopBasis_centre hG.full hG.size (hin i hi).irr (hout j hj).irr M.order pw
  have hb' := hbas i hi j hj
  rw [hoff, hl, Option.some.injEq] at hb'
  subst hb'
  obtain ⟨b, hbl, hord, hψ, A, hA, hn⟩ := hel (hin i hi).wf (hin i hi).orth (hout j hj).orth ψ hψi hψj s hsp.1
  have hkeep : M.cfg.keepOf M.order (b.1.order, b.1) = true := by
    rw [hcfg]
    simp only [DiffopCfg.keepOf, DiffopArgs.cfg, hfil, Bool.true_and, decide_eq_true_eq, hord]
    exact hsp.2.1
  obtain ⟨f, hf⟩ := Option.isSome_iff_exists.1 (hsmp i hi j hj b hbl hkeep)
  obtain ⟨hfit, -⟩ := fdSample_spec hf
  obtain ⟨x, hx, y, hy, hxy⟩ : ∃ x < (rep j).size, ∃ y < (rep i).size, A x y ≠ 0 := by
    by_contra hall
    have : ∑ o ∈ range (rep j).size, ∑ p ∈ range (rep i).size, A o p ^ 2 = 0 := by
      refine Finset.sum_eq_zero fun o ho => Finset.sum_eq_zero fun p hp => ?_
      by_contra h
      exact hall ⟨o, Finset.mem_range.1 ho, p, Finset.mem_range.1 hp, fun h' => h (by rw [h']; norm_num)⟩
    rw [this] at hn
    norm_num at hn
  have hco : (offD a.angleOffset b.2).co x y 0 = A x y := by
    have : (offD a.angleOffset b.2).co x y 0 = (offD a.angleOffset b.2).eval (1, 0) x y := (HPoly.eval_one_zero ((offD a.angleOffset b.2).entry x y)).symm
    rw [this]
    cases a.angleOffset with
    | none =>
      show b.2.eval (1, 0) x y = _
      rw [hA]
      simp [radius]
    | some θ =>
      show (b.2.transform _).eval (1, 0) x y = _
      rw [DArr.transform_eval, hA]
      have : radius (psi θ 1 0 0 0 * 1 + psi θ 1 0 1 0 * 0, psi θ 1 0 0 1 * 1 + psi θ 1 0 1 1 * 0) = 1 := by
        simp only [radius, psi, m2]
        norm_num
      rw [this, one_pow, one_mul]
  have := (hfit x hx y hy 0 (Nat.zero_le _) (by show (offD a.angleOffset b.2).co x y 0 ≠ 0; rw [hco]; exact hxy)).1
  change (offD a.angleOffset b.2).deg - 0 < M.size at this
  rw [offD_deg, h3 b hbl, hord] at this
  omega

/-- The elements kept by `SingleBlockBasisExpansion` have a squared norm of at least `1e-15`. -/
theorem singleBlock_large {A : Type} {so si S : ℕ} {keep : A → Bool} {shape0 : A → ℕ} {basis bl : List (Elem A)}
    (h : singleBlock so si S keep shape0 basis = some bl) {e : Elem A} (he : e ∈ bl) (hsz : shape0 e.attr = 1 ∨ shape0 e.attr = 2) :
    ∃ b ∈ basis, keep b.attr = true ∧ e.attr = b.attr ∧ 1e-15 ≤ sqNorm so si S b.ker := by
  classical
  unfold singleBlock at h
  dsimp only at h
  split_ifs at h with h1 h2
  rw [Option.some.injEq] at h
  subst h
  obtain ⟨hm, hn⟩ := List.mem_filter.1 he
  rw [decide_eq_true_eq] at hn
  obtain ⟨b, hb, rfl⟩ := List.mem_map.1 hm
  obtain ⟨hb1, hb2⟩ := List.mem_filter.1 hb
  refine ⟨b, hb1, hb2, rfl, ?_⟩
  by_contra hlt
  push Not at hlt
  dsimp only at hn hsz
  have hq : (∑ s ∈ range S, ∑ o ∈ range so, ∑ p ∈ range si, b.ker o p s * b.ker o p s) = sqNorm so si S b.ker := by
    unfold sqNorm
    rw [Finset.sum_comm]
    refine Finset.sum_congr rfl fun o _ => ?_
    rw [Finset.sum_comm]
    refine Finset.sum_congr rfl fun p _ => Finset.sum_congr rfl fun s _ => ?_
    ring
  have h0 : 0 ≤ sqNorm so si S b.ker := Finset.sum_nonneg fun _ _ => Finset.sum_nonneg fun _ _ => Finset.sum_nonneg fun _ _ => sq_nonneg _
  have hn0 : sqNorm so si S b.ker / ((shape0 b.attr : ℕ) : ℝ) < 1e-15 := by
    refine lt_of_le_of_lt ?_ hlt
    rcases hsz with h | h <;> rw [h] <;> norm_num
    linarith
  have hE : elemNorm so si S (shape0 b.attr) b.ker = 1 := by
    unfold elemNorm
    dsimp only
    rw [hq, if_pos hn0, Real.sqrt_zero, if_pos (by norm_num)]
  have : sqNorm so si S (normalizeElem so si S (shape0 b.attr) b.ker) = sqNorm so si S b.ker := by
    unfold normalizeElem
    rw [hE]
    simp
  rw [this] at hn
  norm_num at hn hlt
  linarith

/-- The output irreps of the elements of a basis belong to the output representation. -/
theorem diffopBasis_out {G : DiffopGen El} {pw : ℕ} {mo mf : Option ℤ} {ri ro : Repr El} {l : List (TensorAttr El × DArr)}
    (hl : buildDiffopBasis G pw mo mf ri ro = some l) : ∀ t ∈ l, t.1.angular.outIrrep ∈ ro.irreps := by
  intro t ht
  unfold buildDiffopBasis at hl
  split at hl
  · exact absurd hl (by simp)
  rename_i bas hb'
  obtain ⟨S, hS, hl⟩ := Option.map_eq_some_iff.1 hl
  rw [← hl] at ht
  obtain ⟨h, -, -, hz⟩ := tensor_zip S G.cf pw
  rw [hz] at ht
  obtain ⟨p, hp, rfl⟩ := List.mem_map.1 ht
  obtain ⟨h1, -⟩ := mem_tensorPairs (mem_enum hp)
  obtain ⟨idx, hidx⟩ := List.mem_iff_getElem?.1 h1
  obtain ⟨-, g2, -⟩ := S.iter_get hidx
  obtain ⟨-, f2, -⟩ := steerable_fields' hS
  rw [f2] at g2
  exact List.mem_of_getElem? g2

theorem list_bound {α : Type} (g : α → ℝ) (l : List α) : ∃ B, 0 ≤ B ∧ ∀ x ∈ l, g x ≤ B := by
  induction l with
  | nil => exact ⟨0, le_rfl, by simp⟩
  | cons y l ih =>
    obtain ⟨B, h0, h⟩ := ih
    refine ⟨max B (g y), le_max_of_le_left h0, fun x hx => ?_⟩
    rcases List.mem_cons.1 hx with rfl | hx
    · exact le_max_right _ _
    · exact le_max_of_le_left (h x hx)

/-- **C99, where derivatives of Gaussians fail**: kernels of even size have no point at the centre; if the Gaussian is narrow, the operators of order 0 are lost
and the constructor fails, for all types, also those with common irreps. -/
theorem c99_gauss_even {G : DiffopGen El} {P : Irrep El → Prop} (hG : PlaneOps G P) {ga : ℝ → ℕ → ℕ → ℝ × ℝ → ℝ} (hga : GaussSpec ga)
    (a : DiffopArgs El) (rep : F → Repr El) (inT outT inG : List F) (hg : convGroups a.groups inT outT = some inG)
    (hin : ∀ n ∈ inG, (rep n).Plane P) (hout : ∀ n ∈ outT, (rep n).Plane P)
    {m : ℕ} (hs : diffopSizes a.kernelSize a.maximumOrder a.accuracy = some (((2 * m : ℕ) : ℤ), 0)) (hm : 1 ≤ m) (hd : 0 < a.dilation)
    (hpw : ∀ p, a.maximumPower = some p → 0 ≤ p) (hoff : a.maximumOffset = none) :
    ∃ s0 > 0, ∀ s, 0 < s → s ≤ s0 → r2diffopInit (gaussSample ga s) G a rep inT outT = none := by
  classical
  have hr := resolve_of hs (by omega) (by omega) hpw
  set pw := (diffopPower 0 a.maximumPower).toNat
  set L := inG.flatMap fun i => outT.flatMap fun j => ((buildDiffopBasis G pw (some 0) none (rep i) (rep j)).getD []).map fun b =>
    ∑ x ∈ range (rep j).size, ∑ y ∈ range (rep i).size, b.2.co x y 0 ^ 2
  obtain ⟨B, hB0, hB⟩ := list_bound (fun x : ℝ => x) L
  set K : ℝ := ((2 * m * (2 * m) : ℕ) : ℝ)
  have hK0 : 0 ≤ K := Nat.cast_nonneg _
  have hBK : 0 ≤ B * K := mul_nonneg hB0 hK0
  refine ⟨1e-15 / (B * K + 1), by positivity, fun s hs0 hs1 => ?_⟩
  by_contra hne
  obtain ⟨M, hM⟩ := Option.ne_none_iff_exists'.1 hne
  obtain ⟨hcfg, pw', hr', hg', hbas, -, -, hdim⟩ := r2diffopInit_spec hM
  rw [hg, Option.some.injEq] at hg'
  subst hg'
  rw [hr] at hr'
  simp only [Option.some.injEq, Prod.mk.injEq, Int.toNat_natCast, Int.toNat_zero] at hr'
  obtain ⟨hsize, horder, rfl⟩ := hr'
  obtain ⟨⟨i, j⟩, hij⟩ := List.exists_mem_of_ne_nil _ (Exp.pairs_ne_nil hdim)
  obtain ⟨hi, hj, hss⟩ := (Exp.mem_pairs _ _).1 hij
  change i ∈ M.inG at hi
  change j ∈ outT at hj
  obtain ⟨bl, hbl⟩ := Option.isSome_iff_exists.1 hss
  obtain ⟨hne', -, hsp⟩ := singleBlock_spec hbl
  obtain ⟨e, he⟩ := List.exists_mem_of_ne_nil _ hne'
  have hb' := hbas i hi j hj
  rw [hoff, ← horder] at hb'
  have hshape : M.cfg.shape0 e.attr = 1 ∨ M.cfg.shape0 e.attr = 2 := by
    obtain ⟨b, hb, c, -, hat, -⟩ := hsp e he
    obtain ⟨q, hq, rfl⟩ := List.mem_map.1 hb
    obtain ⟨t, ht, rfl⟩ := List.mem_map.1 hq
    rw [hat, hcfg]
    exact hG.size _ ((hout j hj).irr _ (diffopBasis_out hb' t ht))
  obtain ⟨b, hb, hkeep, -, hlow⟩ := singleBlock_large hbl he hshape
  obtain ⟨q, hq, rfl⟩ := List.mem_map.1 hb
  obtain ⟨t, ht, rfl⟩ := List.mem_map.1 hq
  have hord : t.1.order = 0 := by
    have : M.cfg.keepOf M.order (t.1.order, t.1) = true := hkeep
    simp only [DiffopCfg.keepOf, Bool.and_eq_true, decide_eq_true_eq, ← horder] at this
    omega
  obtain ⟨l, hl, -, h3, -⟩ := diffopBasis_centre hG.full hG.size (hin i hi).irr (hout j hj).irr 0 pw
  have hlM : l = M.basis i j := Option.some.inj (hl.symm.trans hb')
  have hdeg : t.2.deg = 0 := by rw [h3 t (hlM ▸ ht), hord]
  have htB : ∑ x ∈ range (rep j).size, ∑ y ∈ range (rep i).size, t.2.co x y 0 ^ 2 ≤ B := by
    refine hB _ (List.mem_flatMap.2 ⟨i, hi, List.mem_flatMap.2 ⟨j, hj, List.mem_map.2 ⟨t, ?_, rfl⟩⟩⟩)
    have : buildDiffopBasis G pw (some 0) none (rep i) (rep j) = some (M.basis i j) := hb'
    rw [this]
    exact ht
  have hs2 : s ≤ 1 := by
    refine hs1.trans ((div_le_one (by positivity)).2 ?_)
    norm_num
    linarith
  have hgs : ∀ q, gaussRBF (1 / s ^ 2) (gridCoords M.size M.cfg.d q) ^ 2 ≤ s := by
    intro q
    have hd' : 0 < M.cfg.d := by rw [hcfg]; exact hd
    have hp := grid_even_sq (k := M.size) (d := M.cfg.d) (by omega) hd' q
    unfold gaussRBF
    rw [← Real.exp_nat_mul]
    set r2 := (gridCoords M.size M.cfg.d q).1 ^ 2 + (gridCoords M.size M.cfg.d q).2 ^ 2
    have hle : 1 / s ≤ (1 / s ^ 2) ^ 2 := by
      rw [div_pow, one_pow, one_div_le_one_div hs0 (by positivity)]
      have : s ^ 3 ≤ 1 := pow_le_one₀ hs0.le hs2
      nlinarith
    have h1 : Real.exp (((2 : ℕ) : ℝ) * -((1 / s ^ 2) ^ 2 * r2)) ≤ Real.exp (-(1 / s)) := by
      refine Real.exp_le_exp.2 ?_
      push_cast
      have : 0 ≤ (1 / s ^ 2) ^ 2 := sq_nonneg _
      nlinarith
    refine h1.trans ?_
    rw [Real.exp_neg]
    have h2 : 1 / s ≤ Real.exp (1 / s) := by linarith [Real.add_one_le_exp (1 / s)]
    calc (Real.exp (1 / s))⁻¹ ≤ (1 / s)⁻¹ := inv_anti₀ (by positivity) h2
      _ = s := by simp
  have hup : sqNorm (rep j).size (rep i).size (M.size * M.size) (fun x y q => ((gaussSample ga s M.size M.cfg.d (rep j).size (rep i).size M.cfg.angle t.2).getD fun _ _ _ => 0) q x y)
      ≤ B * K * s := by
    obtain ⟨f, hf⟩ : ∃ f, gaussSample ga s M.size M.cfg.d (rep j).size (rep i).size M.cfg.angle t.2 = some f := ⟨_, rfl⟩
    rw [hf, Option.getD_some]
    have : ∀ x ∈ range (rep j).size, ∀ y ∈ range (rep i).size, ∑ q ∈ range (M.size * M.size), f q x y ^ 2 ≤ t.2.co x y 0 ^ 2 * (K * s) := by
      intro x _ y _
      have h1 : ∀ q ∈ range (M.size * M.size), f q x y ^ 2 ≤ t.2.co x y 0 ^ 2 * s := by
        intro q _
        rw [gaussSample_zero hga hdeg hf, mul_pow]
        exact mul_le_mul_of_nonneg_left (hgs q) (sq_nonneg _)
      refine (Finset.sum_le_sum h1).trans (le_of_eq ?_)
      rw [Finset.sum_const, Finset.card_range, nsmul_eq_mul, ← hsize]
      ring
    refine (Finset.sum_le_sum fun x hx => Finset.sum_le_sum fun y hy => this x hx y hy).trans ?_
    simp only [← Finset.sum_mul]
    have h1 : 0 ≤ K * s := mul_nonneg hK0 hs0.le
    calc _ ≤ B * (K * s) := mul_le_mul_of_nonneg_right htB h1
      _ = B * K * s := by ring
  have hfin : B * K * s < 1e-15 := by
    have h1 : B * K * s ≤ B * K * (1e-15 / (B * K + 1)) := mul_le_mul_of_nonneg_left hs1 hBK
    refine lt_of_le_of_lt h1 ?_
    rw [← mul_div_assoc, div_lt_iff₀ (by positivity)]
    nlinarith
  exact absurd (hlow.trans hup) (not_le.2 hfin)

/-! ### Concrete operators -/

/-- The arguments `R2Diffop(in_type, out_type, kernel_size=k, maximum_order=o)`. -/
def plainDiffArgs (El : Type) (k o : ℤ) : DiffopArgs El := ⟨some k, none, some o, none, none, 0, 1, 1, .zeros, 1, none, none⟩

/-- The hypotheses can be met: a field of an irrep of `SO(2)` (in and out), for all kernel sizes, even or odd, and all smaller maximum orders. -/
example (n : ℕ) (k o : ℤ) (h0 : 0 ≤ o) (hk : o < k) {fd : ℕ → List ℝ → ℕ → ℝ} (hfd : FDSpec fd) :
    ∃ M : DiffopModule ℝ ℕ, r2diffopInit (fdSample fd) so2Diffops (plainDiffArgs ℝ k o) (fun k : ℕ => ⟨[SO2.irrep k], Mat.one, Mat.one⟩) [n] [n] = some M := by
  have hpl : ∀ k, (⟨[SO2.irrep k], Mat.one, Mat.one⟩ : Repr ℝ).Plane fun i => ∃ k, SO2.irrep k = i := fun k =>
    irrep_plane (by rcases SO2.size12 k with h | h <;> omega) ⟨k, rfl⟩
  obtain ⟨M, hM, -⟩ := c99_diffop PlaneOps.so2 hfd (plainDiffArgs ℝ k o) (fun k : ℕ => ⟨[SO2.irrep k], Mat.one, Mat.one⟩) [n] [n] [n] rfl
    (fun k _ => hpl k) (fun k _ => hpl k) (k := k) (o := o) rfl h0 hk (by simp [plainDiffArgs]) one_pos rfl rfl ⟨n, by simp, n, by simp, SO2.irrep n, by simp, by simp⟩
  exact ⟨M, hM⟩

/-- The same field with derivatives of Gaussians, for all odd kernel sizes, maximum orders and widths; the derivatives themselves meet `GaussSpec`. -/
example (n m o : ℕ) (s : ℝ) :
    ∃ M : DiffopModule ℝ ℕ, r2diffopInit (gaussSample (fun eps a b => partialX^[a] (partialY^[b] (gaussRBF eps))) s) so2Diffops
      (plainDiffArgs ℝ ((2 * m + 1 : ℕ) : ℤ) o) (fun k : ℕ => ⟨[SO2.irrep k], Mat.one, Mat.one⟩) [n] [n] = some M := by
  have hpl : ∀ k, (⟨[SO2.irrep k], Mat.one, Mat.one⟩ : Repr ℝ).Plane fun i => ∃ k, SO2.irrep k = i := fun k =>
    irrep_plane (by rcases SO2.size12 k with h | h <;> omega) ⟨k, rfl⟩
  obtain ⟨M, hM, -⟩ := c99_gauss PlaneOps.so2 (fun _ _ _ _ => rfl) s (plainDiffArgs ℝ ((2 * m + 1 : ℕ) : ℤ) o) (fun k : ℕ => ⟨[SO2.irrep k], Mat.one, Mat.one⟩)
    [n] [n] [n] rfl (fun k _ => hpl k) (fun k _ => hpl k) (m := m) (o := o) rfl (by simp [plainDiffArgs]) rfl rfl
    ⟨n, by simp, n, by simp, SO2.irrep n, by simp, by simp⟩
  exact ⟨M, hM⟩

/-- `R2Diffop(in_type, out_type, kernel_size=2, maximum_order=0, smoothing=s)` fails for all small `s` although the types are the same. -/
example (n : ℕ) : ∃ s0 > 0, ∀ s, 0 < s → s ≤ s0 → r2diffopInit (gaussSample (fun eps a b => partialX^[a] (partialY^[b] (gaussRBF eps))) s) so2Diffops
      (plainDiffArgs ℝ 2 0) (fun k : ℕ => ⟨[SO2.irrep k], Mat.one, Mat.one⟩) [n] [n] = (none : Option (DiffopModule ℝ ℕ)) := by
  have hpl : ∀ k, (⟨[SO2.irrep k], Mat.one, Mat.one⟩ : Repr ℝ).Plane fun i => ∃ k, SO2.irrep k = i := fun k =>
    irrep_plane (by rcases SO2.size12 k with h | h <;> omega) ⟨k, rfl⟩
  exact c99_gauss_even PlaneOps.so2 (fun _ _ _ _ => rfl) (plainDiffArgs ℝ 2 0) (fun k : ℕ => ⟨[SO2.irrep k], Mat.one, Mat.one⟩)
    [n] [n] [n] rfl (fun k _ => hpl k) (fun k _ => hpl k) (m := 1) rfl le_rfl one_pos (by simp [plainDiffArgs]) rfl

/-- Between two different frequencies of SO(2) there is no operator of order 0. -/
example (n m : ℕ) (h : n ≠ m) (k : ℤ) (hk : 1 ≤ k) {fd : ℕ → List ℝ → ℕ → ℝ} (hfd : FDSpec fd) :
    r2diffopInit (fdSample fd) so2Diffops (plainDiffArgs ℝ k 0) (fun k : ℕ => ⟨[SO2.irrep k], Mat.one, Mat.one⟩) [n] [m] = none := by
  have hpl : ∀ k, (⟨[SO2.irrep k], Mat.one, Mat.one⟩ : Repr ℝ).Plane fun i => ∃ k, SO2.irrep k = i := fun k =>
    irrep_plane (by rcases SO2.size12 k with h | h <;> omega) ⟨k, rfl⟩
  by_contra h0
  obtain ⟨M, hM⟩ := Option.ne_none_iff_exists'.1 h0
  obtain ⟨i, hi, o, ho, ψ, h1, h2⟩ := (c99_order_zero PlaneOps.so2 hfd (plainDiffArgs ℝ k 0) _ [n] [m] [n] rfl (fun k _ => hpl k) (fun k _ => hpl k)
    (k := k) rfl hk (by simp [plainDiffArgs]) one_pos rfl rfl).1 ⟨M, hM⟩
  obtain rfl := List.mem_singleton.1 hi
  obtain rfl := List.mem_singleton.1 ho
  have e := (List.mem_singleton.1 h1).symm.trans (List.mem_singleton.1 h2)
  have hf : ∀ k, (SO2.irrep k).freq = k := fun k => by by_cases hk : k = 0 <;> simp [SO2.irrep, hk]
  have := congrArg Irrep.freq e
  rw [hf, hf] at this
  exact h this

/-- `R2Diffop(in_type, out_type, kernel_size=3, maximum_order=4)` fails between scalar fields of `O(2)`. -/
example (fd : ℕ → List ℝ → ℕ → ℝ) (axis : ℝ) (i : Irrep (ℤ × ℝ)) (hi : O2.irrep 0 0 = some i) :
    r2diffopInit (fdSample fd) (o2Diffops axis) (plainDiffArgs (ℤ × ℝ) 3 4) (fun _ : ℕ => ⟨[i], Mat.one, Mat.one⟩) [0] [0] = none := by
  have hpl : (⟨[i], Mat.one, Mat.one⟩ : Repr (ℤ × ℝ)).Plane fun i => ∃ j k, O2.irrep j k = some i :=
    irrep_plane (by rcases O2.size12 hi with h | h <;> omega) ⟨0, 0, hi⟩
  exact c99_refused (PlaneOps.o2 axis) fd (plainDiffArgs (ℤ × ℝ) 3 4) (fun _ : ℕ => ⟨[i], Mat.one, Mat.one⟩) [0] [0] [0] rfl (fun _ _ => hpl) (fun _ _ => hpl)
    (k := 3) (o := 4) rfl (by norm_num) (by norm_num) rfl rfl rfl ⟨0, by simp, 0, by simp, i, by simp, by simp⟩

example : ∃ k', diffopSizes none (some 2) none = some (k', 2) ∧ 2 < k' := (c99_arguments 0 2 0).1 (by norm_num)

end E2
