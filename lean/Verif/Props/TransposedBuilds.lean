import Verif.Props.ConvBuilds
import Verif.Props.TransposedInit

/-!
# C85: which transposed convolutions have weights

`R2ConvTransposed` does not check that its basis is not empty.  Between types with a common irrep, with an odd kernel size and the default basis, the layer has weights, for all
numbers of groups, dilations, strides and paddings; for kernels of size 1 this is the only case.
-/

set_option linter.unusedSectionVars false

namespace E2

open Finset Mat Real

variable {El F : Type} [LinearOrder F]

/-- The arguments for one group, with the rings written out. -/
noncomputable def ConvArgs.oneGroup (a : ConvArgs El) : ConvArgs El := { a with rings := some (basisRingsT a.kernelSize a.rings), groups := 1 }

/-- The constructor only depends on the type of one group of the output. -/
theorem r2convTInit_oneGroup (G : KernelGen El) (a : ConvArgs El) (rep : F → Repr El) (inT outT outG : List F) (hg : transGroups a.groups inT outT = some outG) :
    r2convTInit G a rep inT outT = (r2convTInit G a.oneGroup rep inT outG).map fun M => ⟨{ M.cfg with groups := a.groups }, M.basis, M.dim⟩ := by
  classical
  unfold r2convTInit
  have h1 : transGroups a.oneGroup.groups inT outG = some outG := rfl
  rw [hg, h1]
  dsimp only
  have h2 : computeBasisParamsT a.oneGroup.kernelSize a.oneGroup.dilation a.oneGroup.cutoff a.oneGroup.rings a.oneGroup.sigma =
      computeBasisParamsT a.kernelSize a.dilation a.cutoff a.rings a.sigma := rfl
  rw [h2]
  cases computeBasisParamsT a.kernelSize a.dilation a.cutoff a.rings a.sigma with
  | none => rfl
  | some q =>
    obtain ⟨rings, sigma, fco, mf⟩ := q
    dsimp only
    have h3 : a.oneGroup.maximumOffset = a.maximumOffset := rfl
    rw [h3]
    split_ifs
    · rfl
    · rfl

/-- The rings of the transposed convolution lie inside the grid. -/
theorem basisRingsT_bound (k d : ℕ) (hk : 0 < k) (hd : 0 < d) : ∀ r ∈ basisRingsT k none, r ≤ gridMaxRadius k d ∧ 0 ≤ r := by
  intro r hr
  have h1 : basisRingsT k none = basisRings k 1 none := by simp [basisRingsT, basisRings]
  rw [h1, basisRings_default] at hr
  obtain ⟨i, hi, rfl⟩ := List.mem_map.1 hr
  have hi' := List.mem_range.1 hi
  have h2 : (i : ℝ) ≤ (((k - 1) / 2 : ℕ) : ℝ) := by exact_mod_cast (by omega : i ≤ (k - 1) / 2)
  have h3 : (1 : ℝ) ≤ d := by exact_mod_cast hd
  have h4 : (0 : ℝ) ≤ (((k - 1) / 2 : ℕ) : ℝ) := Nat.cast_nonneg _
  have h5 := gridMaxRadius_ge k d hk
  refine ⟨?_, by positivity⟩
  push_cast
  nlinarith

/-- **C85, a common irrep**: between types with a common irrep (of the input and of one group of the output), for all odd kernel sizes, numbers of groups, dilations,
strides and paddings, the constructor succeeds and the layer has a weight. -/
theorem c85_common_irrep {G : KernelGen El} {P : Irrep El → Prop} (hG : PlaneGen G P) (a : ConvArgs El) (m : ℕ) (ha : a.Default m)
    (rep : F → Repr El) (inT outT outG : List F) (hg : transGroups a.groups inT outT = some outG)
    (hin : ∀ n ∈ inT, (rep n).Plane P) (hout : ∀ n ∈ outG, (rep n).Plane P)
    (hshare : ∃ i ∈ inT, ∃ o ∈ outG, ∃ ψ ∈ (rep i).irreps, ψ ∈ (rep o).irreps) :
    ∃ M : ConvModule El F, r2convTInit G a rep inT outT = some M ∧ M.dim ≠ 0 := by
  obtain ⟨i, hi, o, ho, h⟩ := hshare
  have hk : 0 < a.kernelSize := by rw [ha.size]; omega
  set rs := basisRingsT a.kernelSize none with hrs
  have hr : a.oneGroup.rings = some rs := by
    show some (basisRingsT a.kernelSize a.rings) = _
    rw [ha.rings]
  have hlen : rs = (List.range ((a.kernelSize + 1) / 2)).map fun i : ℕ => (i : ℝ) * (1 : ℕ) := by
    rw [← basisRings_default]
    simp [hrs, basisRingsT, basisRings]
  have h0 : (0 : ℝ) ∈ rs := by
    rw [hlen]
    exact List.mem_map.2 ⟨0, List.mem_range.2 (by omega), by simp⟩
  obtain ⟨f, hf⟩ : ∃ F, maximumFrequency (cutoffFun a.kernelSize a.cutoff) rs = some F := by
    unfold maximumFrequency
    cases hc : rs with
    | nil => rw [hc] at h0; simp at h0
    | cons x l => exact ⟨_, rfl⟩
  have hp : computeBasisParams a.oneGroup.kernelSize a.oneGroup.dilation a.oneGroup.cutoff a.oneGroup.rings a.oneGroup.sigma =
      some (rs, basisSigma rs none, cutoffFun a.kernelSize a.cutoff, f) := by
    unfold computeBasisParams
    rw [hr]
    show (if ∀ r ∈ rs, r ≤ gridMaxRadius a.kernelSize a.dilation ∧ 0 ≤ r then
      (maximumFrequency (cutoffFun a.kernelSize a.cutoff) rs).map fun F => (rs, basisSigma rs a.sigma, cutoffFun a.kernelSize a.cutoff, F) else none) = _
    rw [if_pos (basisRingsT_bound _ _ hk ha.dil), hf, ha.sigma]
    rfl
  obtain ⟨M, hM, hd⟩ := conv_builds hG.full hG.size a.oneGroup rep inT outG inT rfl (fun n hn => ⟨(hin n hn).pos, (hin n hn).irr⟩)
    (fun n hn => ⟨(hout n hn).pos, (hout n hn).irr⟩) (m := m) ha.size ha.off ha.filter hp
    (by
      intro s hs
      simp only [basisSigma, List.mem_map] at hs
      obtain ⟨i, -, rfl⟩ := hs
      split_ifs <;> norm_num)
    (by simp [basisSigma]) (basisRingsT_nodup _ _ (by simp)) h0 (maximumFrequency_nonneg hf h0 ha.cut) ha.cut hi ho (hin i hi).wf (hin i hi).orth (hout o ho).orth h
  refine ⟨⟨{ M.cfg with groups := a.groups }, M.basis, M.dim⟩, ?_, hd⟩
  rw [r2convTInit_oneGroup G a rep inT outT outG hg, c85_same_module_partial G a.oneGroup rep inT outG le_rfl (by rw [hr]; simp) M hM]
  rfl

/-- **C85, kernels of size 1**: the layer has a weight exactly if the types have a common irrep. -/
theorem c85_one_by_one {G : KernelGen El} {P : Irrep El → Prop} (hG : PlaneGen G P) (a : ConvArgs El) (ha : a.Default 0)
    (rep : F → Repr El) (inT outT outG : List F) (hg : transGroups a.groups inT outT = some outG)
    (hin : ∀ n ∈ inT, (rep n).Plane P) (hout : ∀ n ∈ outG, (rep n).Plane P) :
    (∃ M : ConvModule El F, r2convTInit G a rep inT outT = some M ∧ M.dim ≠ 0) ↔ ∃ i ∈ inT, ∃ o ∈ outG, ∃ ψ ∈ (rep i).irreps, ψ ∈ (rep o).irreps := by
  classical
  refine ⟨?_, c85_common_irrep hG a 0 ha rep inT outT outG hg hin hout⟩
  rintro ⟨M, hM, hd⟩
  rw [r2convTInit_oneGroup G a rep inT outT outG hg] at hM
  obtain ⟨M', hM', rfl⟩ := Option.map_eq_some_iff.1 hM
  change M'.dim ≠ 0 at hd
  refine conv_share hG.sep a.oneGroup rep inT outG inT rfl (fun n hn => (hin n hn).irr) (fun n hn => (hout n hn).irr) ha.size (M := M') ?_
  have hr : a.oneGroup.rings = some (basisRingsT a.kernelSize none) := by
    show some (basisRingsT a.kernelSize a.rings) = _
    rw [ha.rings]
  unfold r2convTInit at hM'
  unfold r2convInit
  have h1 : transGroups a.oneGroup.groups inT outG = some outG := rfl
  have h2 : convGroups a.oneGroup.groups inT outG = some inT := rfl
  rw [h1] at hM'
  rw [h2]
  dsimp only at hM' ⊢
  cases hp : computeBasisParamsT a.oneGroup.kernelSize a.oneGroup.dilation a.oneGroup.cutoff a.oneGroup.rings a.oneGroup.sigma with
  | none => simp [hp] at hM'
  | some q =>
    obtain ⟨rings, sigma, fco, mf⟩ := q
    have hp' : computeBasisParams a.oneGroup.kernelSize a.oneGroup.dilation a.oneGroup.cutoff a.oneGroup.rings a.oneGroup.sigma = some (rings, sigma, fco, mf) := by
      rw [← hp, hr]
      unfold computeBasisParams computeBasisParamsT
      have hb := basisRingsT_bound a.kernelSize a.dilation (by rw [ha.size]; omega) ha.dil
      have hb' : ∀ r ∈ basisRingsT a.kernelSize none, r ≤ gridMaxRadiusT a.kernelSize a.dilation ∧ 0 ≤ r := fun r hr =>
        ⟨(hb r hr).1.trans (gridMaxRadius_le _ _), (hb r hr).2⟩
      exact (if_pos hb).trans (if_pos hb').symm
    rw [hp] at hM'
    rw [hp']
    dsimp only at hM' ⊢
    split_ifs at hM' with h3
    rw [if_pos h3]
    obtain rfl := Option.some.inj hM'
    exact if_neg hd

/-! ### Concrete layers -/

/-- The hypotheses of `c85_common_irrep` can be met: two groups, a dilation of 3, all odd kernel sizes, a field of an irrep of `SO(2)` twice in and out. -/
example (n m : ℕ) : ∃ M : ConvModule ℝ ℕ, r2convTInit so2Gen ⟨2 * m + 1, 0, 1, 3, .zeros, 2, none, .inl (-1), none, none, none⟩
    (fun k : ℕ => ⟨[SO2.irrep k], Mat.one, Mat.one⟩) [n, n] [n, n] = some M ∧ M.dim ≠ 0 := by
  have hpl : ∀ k, (⟨[SO2.irrep k], Mat.one, Mat.one⟩ : Repr ℝ).Plane fun i => ∃ k, SO2.irrep k = i := fun k =>
    irrep_plane (by rcases SO2.size12 k with h | h <;> omega) ⟨k, rfl⟩
  refine c85_common_irrep PlaneGen.so2 _ m ⟨rfl, by norm_num, rfl, rfl, rfl, rfl, cutoff_ok _ _⟩ _ [n, n] [n, n] [n] ?_ (fun k _ => hpl k) (fun k _ => hpl k)
    ⟨n, by simp, n, by simp, SO2.irrep n, by simp, by simp⟩
  simp [transGroups]
  rintro i hi
  interval_cases i <;> simp

/-- With a kernel of size 1 between two frequencies the layer has no weight. -/
example (n m : ℕ) (h : n ≠ m) (M : ConvModule ℝ ℕ)
    (hM : r2convTInit so2Gen (plainArgs ℝ 1) (fun k : ℕ => ⟨[SO2.irrep k], Mat.one, Mat.one⟩) [n] [m] = some M) : M.dim = 0 := by
  have hpl : ∀ k, (⟨[SO2.irrep k], Mat.one, Mat.one⟩ : Repr ℝ).Plane fun i => ∃ k, SO2.irrep k = i := fun k =>
    irrep_plane (by rcases SO2.size12 k with h | h <;> omega) ⟨k, rfl⟩
  by_contra h0
  obtain ⟨i, hi, o, ho, ψ, h1, h2⟩ := (c85_one_by_one PlaneGen.so2 (plainArgs ℝ 1) (plainArgs_default 0) _ [n] [m] [m] rfl (fun k _ => hpl k) (fun k _ => hpl k)).1 ⟨M, hM, h0⟩
  obtain rfl := List.mem_singleton.1 hi
  obtain rfl := List.mem_singleton.1 ho
  have e := (List.mem_singleton.1 h1).symm.trans (List.mem_singleton.1 h2)
  have hf : ∀ k, (SO2.irrep k).freq = k := fun k => by by_cases hk : k = 0 <;> simp [SO2.irrep, hk]
  have := congrArg Irrep.freq e
  rw [hf, hf] at this
  exact h this

end E2
