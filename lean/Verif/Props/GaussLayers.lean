import Mathlib.Analysis.Complex.ExponentialBounds
import Mathlib.LinearAlgebra.Vandermonde
import Mathlib.LinearAlgebra.FiniteDimensional.Lemmas
import Verif.Props.GaussDiff

/-!
# C84, and concrete layers for C82 and C83

The width and the sign of the filters which are derivatives of Gaussians; the assumptions of C83 hold for Gaussians on all the grids; layers on
`Flip2dOnR2(axis=0)` which commute with the reflection, unlike the one with finite differences (`c68_flip_wrong`).
-/

namespace E2

open Finset Mat Real
open scoped ContDiff

theorem partialX_gauss (e : ℝ) (p : ℝ × ℝ) : partialX (gaussRBF e) p = -(2 * e ^ 2 * p.1) * gaussRBF e p := by
  have h : HasDerivAt (fun t : ℝ => exp (-(e ^ 2 * (t ^ 2 + p.2 ^ 2)))) (exp (-(e ^ 2 * (p.1 ^ 2 + p.2 ^ 2))) * -(e ^ 2 * (2 * p.1))) p.1 := by
    refine HasDerivAt.exp ?_
    refine HasDerivAt.neg (HasDerivAt.const_mul _ ?_)
    simpa using (hasDerivAt_pow 2 p.1).add_const (p.2 ^ 2)
  show deriv (fun t : ℝ => exp (-(e ^ 2 * (t ^ 2 + p.2 ^ 2)))) p.1 = _
  rw [h.deriv, gaussRBF]
  ring

theorem partialY_gauss (e : ℝ) (p : ℝ × ℝ) : partialY (gaussRBF e) p = -(2 * e ^ 2 * p.2) * gaussRBF e p := by
  have h : HasDerivAt (fun t : ℝ => exp (-(e ^ 2 * (p.1 ^ 2 + t ^ 2)))) (exp (-(e ^ 2 * (p.1 ^ 2 + p.2 ^ 2))) * -(e ^ 2 * (2 * p.2))) p.2 := by
    refine HasDerivAt.exp ?_
    refine HasDerivAt.neg (HasDerivAt.const_mul _ ?_)
    simpa using (hasDerivAt_pow 2 p.2).const_add (p.1 ^ 2)
  show deriv (fun t : ℝ => exp (-(e ^ 2 * (p.1 ^ 2 + t ^ 2)))) p.2 = _
  rw [h.deriv, gaussRBF]
  ring

/-! ### C84 -/

/-- A Gaussian function with the standard deviation `σ`, centred at the origin, up to a positive factor. -/
def IsGaussian (σ : ℝ) (f : ℝ × ℝ → ℝ) : Prop := ∃ A > 0, ∀ p, f p = A * exp (-(p.1 ^ 2 + p.2 ^ 2) / (2 * σ ^ 2))

theorem gaussRBF_isGaussian {s : ℝ} (hs : 0 < s) : IsGaussian (s ^ 2 / √2) (gaussRBF (1 / s ^ 2)) := by
  refine ⟨1, one_pos, fun p => ?_⟩
  rw [gaussRBF, one_mul]
  congr 1
  have h2 : (√2 : ℝ) ^ 2 = 2 := Real.sq_sqrt (by norm_num)
  rw [div_pow, div_pow, h2]
  field_simp

theorem IsGaussian.unique {f : ℝ × ℝ → ℝ} {s t : ℝ} (hs : 0 < s) (ht : 0 < t) (h : IsGaussian s f) (h' : IsGaussian t f) : s = t := by
  obtain ⟨A, hA, h⟩ := h
  obtain ⟨B, hB, h'⟩ := h'
  have h0 := (h (0, 0)).symm.trans (h' (0, 0))
  have h1 := (h (1, 0)).symm.trans (h' (1, 0))
  norm_num at h0 h1
  subst h0
  have h2 := exp_injective (mul_left_cancel₀ hA.ne' h1)
  have h3 : s ^ 2 = t ^ 2 := by
    field_simp at h2
    linarith
  exact (pow_left_inj₀ hs.le ht.le two_ne_zero).1 h3

/-- **C84, what the width is**: the filters are the derivatives, by the operators, of one Gaussian with the standard deviation `smoothing² / √2`.  Missing: that
the standard deviation is `smoothing`, which is false (`c84_width_wrong`). -/
theorem c84_width_partial {ga : ℝ → ℕ → ℕ → ℝ × ℝ → ℝ} (hga : GaussSpec ga) {smoothing : ℝ} (hs : 0 < smoothing) :
    ∃ f, IsGaussian (smoothing ^ 2 / √2) f ∧ ∀ (c : HPoly) (p : ℝ × ℝ),
      gaussianDerivative ga c smoothing p = ∑ m ∈ range (c.deg + 1), c.co m * (partialX^[c.deg - m] (partialY^[m] f)) p :=
  ⟨_, gaussRBF_isGaussian hs, fun c p => by rw [gaussianDerivative_eq hga, polyD_apply]⟩

/-- **C84 is false**: the filter of the identity, the operator of order zero with coefficient one, is a Gaussian with the standard deviation `smoothing` for one
value of `smoothing` only, the square root of two. -/
theorem c84_width_wrong {ga : ℝ → ℕ → ℕ → ℝ × ℝ → ℝ} (hga : GaussSpec ga) {smoothing : ℝ} (hs : 0 < smoothing) :
    IsGaussian smoothing (gaussianDerivative ga ⟨0, fun _ => 1⟩ smoothing) ↔ smoothing = √2 := by
  have he : gaussianDerivative ga ⟨0, fun _ => 1⟩ smoothing = gaussRBF (1 / smoothing ^ 2) := by
    funext p
    rw [gaussianDerivative_eq hga, polyD_apply]
    simp
  have h2 : (√2 : ℝ) * √2 = 2 := Real.mul_self_sqrt (by norm_num)
  have h3 : (0 : ℝ) < √2 := Real.sqrt_pos.2 (by norm_num)
  rw [he]
  refine ⟨fun h => ?_, fun h => ?_⟩
  · have := IsGaussian.unique hs (by positivity) h (gaussRBF_isGaussian hs)
    field_simp at this
    linarith
  · have := gaussRBF_isGaussian hs
    have h4 : smoothing ^ 2 / √2 = smoothing := by
      rw [h]
      field_simp
    rwa [h4] at this

/-- The operator `∂x`. -/
def dx : HPoly := ⟨1, fun m => if m = 0 then 1 else 0⟩

theorem sum_blocks (k : ℕ) (f : ℕ → ℝ) : ∑ q ∈ range (k * k), f q = ∑ a ∈ range k, ∑ b ∈ range k, f (a * k + b) := sum_range_blocks k k f

/-- **C84, the sign**: on the image whose pixels are the first coordinates, the filter of `∂x` has a negative value, for all sizes but one, all dilations and
widths; the derivative of that function is `1`. -/
theorem c84_sign_wrong {ga : ℝ → ℕ → ℕ → ℝ × ℝ → ℝ} (hga : GaussSpec ga) {smoothing : ℝ} (hs : smoothing ≠ 0) {k d : ℕ} (hk : 2 ≤ k) (hd : 0 < d) :
    ∑ q ∈ range (k * k), gaussianDerivative ga dx smoothing (gridCoords k d q) * (gridCoords k d q).1 < 0 := by
  have hv : ∀ p, gaussianDerivative ga dx smoothing p = -(2 * (1 / smoothing ^ 2) ^ 2 * p.1) * gaussRBF (1 / smoothing ^ 2) p := by
    intro p
    rw [gaussianDerivative_eq hga, polyD_apply, ← partialX_gauss]
    simp [dx]
  have hle : ∀ q ∈ range (k * k), gaussianDerivative ga dx smoothing (gridCoords k d q) * (gridCoords k d q).1 ≤ 0 := by
    intro q _
    rw [hv]
    have h1 : 0 < gaussRBF (1 / smoothing ^ 2) (gridCoords k d q) := exp_pos _
    have h2 : 0 ≤ (1 / smoothing ^ 2) ^ 2 * (gridCoords k d q).1 ^ 2 * gaussRBF (1 / smoothing ^ 2) (gridCoords k d q) := by positivity
    nlinarith
  have hkk : 0 < k * k := by positivity
  refine lt_of_le_of_ne (Finset.sum_nonpos hle) fun h0 => ?_
  have h1 := (Finset.sum_eq_zero_iff_of_nonpos hle).1 h0 0 (Finset.mem_range.2 hkk)
  rw [hv, gridCoords_axis] at h1
  have h2 : axisPt k d (0 % k) ≠ 0 := by
    rw [Nat.zero_mod]
    unfold axisPt
    have h3 : (0 : ℝ) < d := by exact_mod_cast hd
    have h4 : (2 : ℝ) ≤ k := by exact_mod_cast hk
    push_cast
    have : 0 < (d : ℝ) * (k - 1) := mul_pos h3 (by linarith)
    intro h
    linarith
  have h3 : gaussRBF (1 / smoothing ^ 2) (axisPt k d (0 % k), -axisPt k d (0 / k)) ≠ 0 := (exp_pos _).ne'
  simp only [mul_eq_zero, neg_eq_zero, h2, h3, or_false, pow_eq_zero_iff, ne_eq, OfNat.ofNat_ne_zero, not_false_eq_true, div_eq_zero_iff, one_ne_zero,
    hs, or_self] at h1

/-! ### The assumptions of C83 for Gaussians -/

/-- The translates of a Gaussian in one dimension to equidistant points are independent. -/
theorem gauss_axis_inj {eps : ℝ} (he : eps ≠ 0) {k d : ℕ} (hd : 0 < d) {v : ℕ → ℝ}
    (h : ∀ t < k, ∑ s ∈ range k, v s * exp (-(eps ^ 2 * (axisPt k d s - axisPt k d t) ^ 2)) = 0) : ∀ s < k, v s = 0 := by
  have hd' : (0 : ℝ) < d := by exact_mod_cast hd
  have he' : 0 < eps ^ 2 := by positivity
  set x := axisPt k d with hx
  have hinj : ∀ i < k, ∀ j < k, exp (2 * eps ^ 2 * d * x i) = exp (2 * eps ^ 2 * d * x j) → i = j := by
    intro i _ j _ hij
    have := exp_injective hij
    refine axisPt_inj (k := k) hd i j (mul_left_cancel₀ (a := 2 * eps ^ 2 * d) (by positivity) this)
  have key := vander_zero (k := k) (t := fun s => exp (2 * eps ^ 2 * d * x s)) (v := fun s => v s * exp (-(eps ^ 2 * x s ^ 2) + 2 * eps ^ 2 * x s * x 0)) hinj (by
    intro t ht
    have h1 := h t ht
    have hxt : x t = x 0 + d * t := by
      simp only [hx, axisPt]
      push_cast
      ring
    have h2 : ∑ s ∈ range k, v s * exp (-(eps ^ 2 * (x s - x t) ^ 2))
        = exp (-(eps ^ 2 * x t ^ 2)) * ∑ s ∈ range k, v s * exp (-(eps ^ 2 * x s ^ 2) + 2 * eps ^ 2 * x s * x 0) * exp (2 * eps ^ 2 * d * x s) ^ t := by
      rw [Finset.mul_sum]
      refine Finset.sum_congr rfl fun s _ => ?_
      rw [← exp_nat_mul, _root_.mul_assoc, ← exp_add, mul_left_comm, ← exp_add]
      congr 2
      rw [hxt]
      ring
    rw [h2] at h1
    exact (mul_eq_zero.1 h1).resolve_left (exp_pos _).ne')
  intro s hs
  exact (mul_eq_zero.1 (key s hs)).resolve_right (exp_pos _).ne'

/-- The translates of a Gaussian to the points of a grid are independent. -/
theorem gauss_grid_inj {eps : ℝ} (he : eps ≠ 0) {k d : ℕ} (hd : 0 < d) {v : ℕ → ℝ}
    (h : ∀ i < k * k, ∑ j ∈ range (k * k), v j * gaussRBF eps (gridCoords k d j - gridCoords k d i) = 0) : ∀ j < k * k, v j = 0 := by
  have hval : ∀ a b a' b', b < k → b' < k → gaussRBF eps (gridCoords k d (a * k + b) - gridCoords k d (a' * k + b'))
      = exp (-(eps ^ 2 * (axisPt k d b - axisPt k d b') ^ 2)) * exp (-(eps ^ 2 * (axisPt k d a - axisPt k d a') ^ 2)) := by
    intro a b a' b' hb hb'
    have hk : 0 < k := by omega
    have e1 : ∀ a b, b < k → (a * k + b) / k = a ∧ (a * k + b) % k = b := fun a b hb => by
      rw [Nat.add_comm, Nat.add_mul_div_right _ _ hk, Nat.add_mul_mod_self_right, Nat.div_eq_of_lt hb, Nat.mod_eq_of_lt hb]
      simp
    rw [gridCoords_axis, gridCoords_axis, (e1 a b hb).1, (e1 a b hb).2, (e1 a' b' hb').1, (e1 a' b' hb').2, gaussRBF, ← exp_add]
    congr 1
    simp only [Prod.fst_sub, Prod.snd_sub]
    ring
  intro j hj
  have hk : 0 < k := Nat.pos_of_ne_zero fun h => by simp [h] at hj
  have h1 : ∀ a' < k, ∀ b < k, ∑ a ∈ range k, v (a * k + b) * exp (-(eps ^ 2 * (axisPt k d a - axisPt k d a') ^ 2)) = 0 := by
    intro a' ha'
    refine gauss_axis_inj he hd fun b' hb' => ?_
    have hlt : a' * k + b' < k * k := by
      calc _ < (a' + 1) * k := by rw [Nat.succ_mul]; omega
        _ ≤ k * k := Nat.mul_le_mul_right _ ha'
    have h2 := h _ hlt
    rw [sum_blocks, Finset.sum_comm] at h2
    rw [← h2]
    refine Finset.sum_congr rfl fun b hb => ?_
    rw [Finset.sum_mul]
    exact Finset.sum_congr rfl fun a _ => by rw [hval a b a' b' (Finset.mem_range.1 hb) hb']; ring
  have h2 := gauss_axis_inj he hd (v := fun a => v (a * k + j % k)) (fun a' ha' => h1 a' ha' (j % k) (Nat.mod_lt _ hk)) (j / k) (Nat.div_lt_of_lt_mul hj)
  rwa [Nat.div_add_mod'] at h2

/-- The system of RBF-FD without added polynomials. -/
theorem rbfSystem_none {φ : ℝ × ℝ → ℝ} {N : ℕ} {pt : ℕ → ℝ × ℝ} {c : HPoly} {w : ℕ → ℝ} :
    RBFSystem φ none N pt (fun f => applyDiffs c.diffs c.nonzeroCo f 0) w ↔
      ∀ i < N, ∑ j ∈ range N, w j * φ (pt j - pt i) = applyDiffs c.diffs c.nonzeroCo (fun x => φ (x - pt i)) 0 := by
  constructor
  · rintro ⟨⟨μ, h1, h2⟩, -⟩ i hi
    have h1' : μ = fun _ => 0 := h1
    have := h2 i hi
    rw [h1', add_zero] at this
    exact this
  · intro h
    refine ⟨⟨fun _ => 0, rfl, fun i hi => by rw [add_zero, h i hi]⟩, fun q hq => ?_⟩
    obtain rfl : q = fun _ => 0 := hq
    have h0 : ∀ a b : ℕ, (partialX^[a] (partialY^[b] fun _ => 0)) = fun _ => 0 := by
      have hY : ∀ b : ℕ, partialY^[b] (fun _ => (0 : ℝ)) = fun _ => 0 := by
        intro b
        induction b with
        | zero => rfl
        | succ b ih =>
          rw [Function.iterate_succ_apply', ih]
          funext p
          simp [partialY]
      intro a b
      rw [hY]
      induction a with
      | zero => rfl
      | succ a ih =>
        rw [Function.iterate_succ_apply', ih]
        funext p
        simp [partialX]
    dsimp only
    rw [applyDiffs_eq]
    simp [h0]

/-- **The assumptions of C83 can be met**: for the Gaussian and no added polynomials there is a function which has the specification for all the grids, all
dilations and all orders. -/
theorem RBFSolves.exists : ∃ wm : List (ℝ × ℝ) → List (ℕ × ℕ) → List ℝ → String → ℕ → ℝ, ∀ k d n, 0 < d →
    RBFSolves (gaussRBF 1) none wm "ga" ((List.range (k * k)).map (gridCoords k d)) n := by
  classical
  let S : List (ℝ × ℝ) → List (ℕ × ℕ) → List ℝ → (ℕ → ℝ) → Prop := fun pts diffs coeffs w =>
    RBFSystem (gaussRBF 1) none pts.length (fun j => pts.getD j 0) (fun f => applyDiffs diffs coeffs f 0) w
  refine ⟨fun pts diffs coeffs _ => if h : ∃ w, S pts diffs coeffs w then h.choose else fun _ => 0, fun k d n hd c _ _ => ?_⟩
  have hlen : ((List.range (k * k)).map (gridCoords k d)).length = k * k := by simp
  have hpt : ∀ j < k * k, ((List.range (k * k)).map (gridCoords k d)).getD j 0 = gridCoords k d j := fun j hj => by
    rw [List.getD_eq_getElem _ _ (by rw [hlen]; exact hj)]
    simp
  have hinj : ∀ v : ℕ → ℝ, (∀ i < k * k, ∑ j ∈ range (k * k), v j * gaussRBF 1 (((List.range (k * k)).map (gridCoords k d)).getD j 0 -
      ((List.range (k * k)).map (gridCoords k d)).getD i 0) = 0) → ∀ j < k * k, v j = 0 := by
    intro v hv
    refine gauss_grid_inj one_ne_zero hd fun i hi => ?_
    rw [← hv i hi]
    exact Finset.sum_congr rfl fun j hj => by rw [hpt j (Finset.mem_range.1 hj), hpt i hi]
  have hex : ∃ w, S ((List.range (k * k)).map (gridCoords k d)) c.diffs c.nonzeroCo w := by
    let L : (Fin (k * k) → ℝ) →ₗ[ℝ] (Fin (k * k) → ℝ) :=
      { toFun := fun v i => ∑ j, v j * gaussRBF 1 (gridCoords k d j - gridCoords k d i)
        map_add' := fun v w => by funext i; simp [add_mul, Finset.sum_add_distrib]
        map_smul' := fun a v => by funext i; simp [Finset.mul_sum, _root_.mul_assoc] }
    have hL : Function.Injective L := by
      rw [injective_iff_map_eq_zero]
      intro v hv
      funext j
      have := gauss_grid_inj (eps := 1) one_ne_zero hd (v := fun j => if h : j < k * k then v ⟨j, h⟩ else 0) (fun i hi => by
        have := congrFun hv ⟨i, hi⟩
        rw [Finset.sum_range]
        simpa [L] using this) j j.2
      simpa using this
    obtain ⟨v, hv⟩ := LinearMap.injective_iff_surjective.1 hL fun i => applyDiffs c.diffs c.nonzeroCo (fun x => gaussRBF 1 (x - gridCoords k d i)) 0
    refine ⟨fun j => if h : j < k * k then v ⟨j, h⟩ else 0, ?_⟩
    show RBFSystem _ _ _ _ _ _
    rw [hlen, rbfSystem_none]
    intro i hi
    have := congrFun hv ⟨i, hi⟩
    rw [hpt i hi, ← this, Finset.sum_range]
    show _ = ∑ j : Fin (k * k), v j * gaussRBF 1 (gridCoords k d j - gridCoords k d i)
    exact Finset.sum_congr rfl fun j _ => by rw [dif_pos j.2, hpt j j.2]
  refine ⟨?_, ?_⟩
  · dsimp only
    rw [dif_pos hex]
    exact hex.choose_spec
  · rw [hlen]
    intro w w' hw hw' j hj
    rw [rbfSystem_none] at hw hw'
    have := hinj (fun j => w j - w' j) (fun i hi => by
      simp only [sub_mul, Finset.sum_sub_distrib]
      rw [hw i hi, hw' i hi, sub_self]) j hj
    linarith

/-! ### The choice of the method, and concrete layers -/

/-- **The choice of the method** (part of C82 and C83): `smoothing` alone selects the derivatives of Gaussians, `rbffd` alone RBF-FD, both are refused, neither
selects finite differences. -/
theorem c82_method {El F : Type} [LinearOrder F] (ext : DiscExt) (rbffd : Bool) (phi : String) (smoothing : Option ℝ) (G : DiffopGen El) (a : DiffopArgs El)
    (rep : F → Repr El) (inT outT : List F) (smp : Sampler) (M : DiffopModule El F) :
    r2diffopInitWith ext rbffd phi smoothing G a rep inT outT = some (smp, M) ↔ r2diffopInit smp G a rep inT outT = some M ∧
      (rbffd = false ∧ smoothing = none ∧ smp = fdSample ext.fd ∨ rbffd = true ∧ smoothing = none ∧ smp = rbfSample ext.wm phi ∨
        ∃ s, rbffd = false ∧ smoothing = some s ∧ smp = gaussSample ext.ga s) := by
  unfold r2diffopInitWith
  cases rbffd <;> cases smoothing <;>
    simp [discMethod, DiscMethod.sampler, Option.map_eq_some_iff] <;> constructor <;> (try rintro ⟨h, rfl⟩) <;> (try rintro ⟨M', h, rfl, rfl⟩) <;> simp_all

theorem exFlip_ok : ∀ n ∈ [0] ++ [1], (exFlipRep n).WF ∧ ∀ i ∈ (exFlipRep n).irreps, ∃ k, Cyclic.irrep 2 k = some i :=
  fun n _ => ⟨(exFlipRep_ok n).1, (exFlipRep_ok n).2.2⟩

/-- With a filter of `∂y` which is not small, `R2Diffop(kernel_size=3, maximum_order=1)` on `Flip2dOnR2(axis=0)` is built. -/
theorem exFlip_init (interp : ℝ → Img → Img) (smp : Sampler) (hsome : ∀ D : DArr, D.deg ≤ 1 → (smp 3 1 1 1 none D).isSome)
    (hnorm : ∀ D : DArr, D.deg = 1 → D.co 0 0 0 = 0 → D.co 0 0 1 = 1 → ∀ f, smp 3 1 1 1 none D = some f → 1e-2 ≤ sqNorm 1 1 (3 * 3) fun r c s => f s r c) :
    ∃ M, r2diffopInit smp (flip2dDiffops 0) exArgs exFlipRep [0] [1] = some M ∧ M.size = 3 ∧ M.order = 1 := by
  have hG := diffopGenOk_flip interp [0] [1] 0 exFlipRep exFlip_ok
  obtain ⟨D, hD, hdeg, h0, h1⟩ := exFlipOps_eq
  have hb : (flip2dDiffops 0).bas (some 1) none = some fun i o => dFlips i o (some 1) none := by
    simp [flip2dDiffops, checkBounds]
  obtain ⟨M, hM, hs, ho, -⟩ := exArgs_init_of smp hsome hnorm _ _ hG hb hD D (by simp) hdeg h0 h1
  exact ⟨M, hM, hs, ho⟩

/-- The layer on `Flip2dOnR2(axis=0)` from a trivial field to a field of the sign representation commutes with the reflection. -/
def ExFlipCommutes (interp : ℝ → Img → Img) (smp : Sampler) (M : DiffopModule ℤ ℕ) : Prop :=
  0 < (M.exp smp exFlipRep [1]).dimension ∧ ∀ (w b : List ℝ) (n : ℕ), 3 ≤ n → w.length = (M.exp smp exFlipRep [1]).dimension →
    ∃ layer : Fmap → Fmap, (∀ x, M.forward smp exFlipRep [1] w b n x = some (layer x)) ∧
    ∀ x, FEq 1 (n - 2) (layer (fieldAct 1 (typeMat exFlipRep [0] 1) ((flipSpace interp 0).base n 1) x))
      (fieldAct 1 (typeMat exFlipRep [1] 1) ((flipSpace interp 0).base (n - 2) 1) (layer x))

theorem exFlip_commutes {interp : ℝ → Img → Img} {smp : Sampler} {ok : DiffopArgs ℤ → DiffopModule ℤ ℕ → Prop}
    (h : R2DiffopCommutes smp (flipSpace interp 0) (flip2dDiffops 0) exFlipRep [0] [1] ok fun _ => True) {M : DiffopModule ℤ ℕ}
    (hM : r2diffopInit smp (flip2dDiffops 0) exArgs exFlipRep [0] [1] = some M) (hs : M.size = 3) (hok : ok exArgs M) : ExFlipCommutes interp smp M := by
  have hsz : ∀ n, typeSize (fun m => (exFlipRep m).size) [n] = 1 := fun n => by simp [typeSize, (exFlipRep_ok n).2.1]
  refine ⟨Nat.pos_of_ne_zero (r2diffopInit_spec hM).2.choose_spec.2.2.2.2.2, fun w b n hn hw => ?_⟩
  obtain ⟨layer, h2, h3⟩ := h exArgs M hM hok one_pos one_pos w b n (n - 2) hw trivial
    (by rw [hs]; show convSize n 0 3 1 1 = _; unfold convSize; rw [if_pos (by omega)]; congr 1; omega) (one_dvd _)
  refine ⟨layer, h2, fun x => ?_⟩
  have h4 := h3 1 (by simp [flipSpace, Cyclic.grp, Cyclic.isElement, Cyclic.order_eq]) (Or.inr ⟨0, by simp⟩) trivial x
  rw [hsz, hsz] at h4
  exact h4

theorem exp_neg_one_ge : (1 : ℝ) / 3 ≤ exp (-1) := by
  rw [exp_neg, one_div]
  exact inv_anti₀ (exp_pos _) (by linarith [exp_one_lt_d9])

/-- **C82, a concrete layer**: with derivatives of a Gaussian the layer for which C68 is false (`c68_flip_wrong`) is built and commutes with the reflection. -/
theorem c82_flip_layer (ext : DiscExt) (hga : GaussSpec ext.ga) (interp : ℝ → Img → Img) :
    ∃ smp M, r2diffopInitWith ext false "ga" (some 1) (flip2dDiffops 0) exArgs exFlipRep [0] [1] = some (smp, M) ∧ ExFlipCommutes interp smp M := by
  obtain ⟨M, hM, hs, -⟩ := exFlip_init interp (gaussSample ext.ga 1) (fun _ _ => rfl) (by
    intro D hdeg h0 h1 f hf
    obtain rfl := Option.some.inj hf
    have hv : ∀ q, gaussianDerivative ext.ga ((D.offset none).entry 0 0) 1 (gridCoords 3 1 q) = -(2 * (gridCoords 3 1 q).2) * gaussRBF 1 (gridCoords 3 1 q) := by
      intro q
      have := partialY_gauss 1 (gridCoords 3 1 q)
      rw [one_pow, mul_one] at this
      rw [gaussianDerivative_eq hga, polyD_apply, ← this]
      simp [DArr.offset, DArr.entry, hdeg, Finset.sum_range_succ, h0, h1]
    have h2 : (gaussianDerivative ext.ga ((D.offset none).entry 0 0) 1 (gridCoords 3 1 1)) ^ 2 ≤
        sqNorm 1 1 (3 * 3) fun r c s => gaussianDerivative ext.ga ((D.offset none).entry r c) 1 (gridCoords 3 1 s) := by
      simp only [sqNorm, Finset.sum_range_one]
      exact Finset.single_le_sum (f := fun s => gaussianDerivative ext.ga ((D.offset none).entry 0 0) 1 (gridCoords 3 1 s) ^ 2) (fun _ _ => sq_nonneg _)
        (Finset.mem_range.2 (by norm_num))
    refine le_trans ?_ h2
    have h3 : gridCoords 3 1 1 = (0, 1) := by
      simp only [gridCoords]
      norm_num
    rw [hv, h3]
    have h4 : gaussRBF 1 (0, 1) = exp (-1) := by simp [gaussRBF]
    rw [h4]
    have := exp_neg_one_ge
    nlinarith)
  refine ⟨_, M, (c82_method ..).2 ⟨hM, Or.inr (Or.inr ⟨1, rfl, rfl, rfl⟩)⟩, ?_⟩
  exact exFlip_commutes (c82_flip interp [0] [1] (by simp) hga 1 0 exFlipRep (fun n _ => by rw [(exFlipRep_ok n).2.1]; exact one_pos) exFlip_ok) hM hs rfl

/-- **C83, a concrete layer**: with RBF-FD the layer for which C68 is false (`c68_flip_wrong`) is built and commutes with the reflection. -/
theorem c83_flip_layer (ext : DiscExt) (hwm : ∀ n, RBFSolves (gaussRBF 1) none ext.wm "ga" ((List.range (3 * 3)).map (gridCoords 3 1)) n) (interp : ℝ → Img → Img) :
    ∃ smp M, r2diffopInitWith ext true "ga" none (flip2dDiffops 0) exArgs exFlipRep [0] [1] = some (smp, M) ∧ ExFlipCommutes interp smp M := by
  obtain ⟨M, hM, hs, -⟩ := exFlip_init interp (rbfSample ext.wm "ga") (fun _ _ => rfl) (by
    intro D hdeg h0 h1 f hf
    obtain rfl := Option.some.inj hf
    have hne : (D.entry 0 0).diffs ≠ [] := by
      intro h
      have := diffs_nil h 1 (by show 1 ≤ D.deg; omega)
      simp [DArr.entry, h1] at this
    have hlen : ((List.range (3 * 3)).map (gridCoords 3 1)).length = 9 := by simp
    have hpt : ∀ j < 9, ((List.range (3 * 3)).map (gridCoords 3 1)).getD j 0 = gridCoords 3 1 j := fun j hj => by
      rw [List.getD_eq_getElem _ _ (by rw [hlen]; exact hj)]
      simp
    obtain ⟨hsys, -⟩ := hwm 1 (D.entry 0 0) hdeg hne
    rw [hlen] at hsys
    have h2 := rbfSystem_none.1 (hsys.congr hpt) 1 (by norm_num)
    have h3 : gridCoords 3 1 1 = (0, 1) := by
      simp only [gridCoords]
      norm_num
    -- the value of the operator
    have h4 : applyDiffs (D.entry 0 0).diffs (D.entry 0 0).nonzeroCo (fun x => gaussRBF 1 (x - gridCoords 3 1 1)) 0 = 2 * exp (-1) := by
      have hd : HasDerivAt (fun t : ℝ => gaussRBF 1 ((0, t) - (0, 1) : ℝ × ℝ)) (2 * exp (-1)) 0 := by
        have : HasDerivAt (fun t : ℝ => exp (-(t - 1) ^ 2)) (exp (-((0 : ℝ) - 1) ^ 2) * -(2 * ((0 : ℝ) - 1))) 0 := by
          refine HasDerivAt.exp ?_
          refine HasDerivAt.neg ?_
          have h := ((hasDerivAt_id (0 : ℝ)).sub_const 1).pow 2
          norm_num at h ⊢
          exact h
        convert this using 1
        · funext t
          simp [gaussRBF]
        · norm_num
          ring
      rw [applyDiffs_eq]
      simp only [DArr.entry, hdeg, Finset.sum_range_succ, Finset.sum_range_zero, h0, h1, h3]
      simp only [Function.iterate_one, Function.iterate_zero, id_eq, zero_mul, zero_add, one_mul, Nat.sub_self, partialY, Prod.fst_zero, Prod.snd_zero]
      exact hd.deriv
    rw [h4] at h2
    have hw : ∀ q, rbfDisc ext.wm "ga" 3 1 ((D.offset none).entry 0 0) q
        = ext.wm ((List.range (3 * 3)).map (gridCoords 3 1)) (D.entry 0 0).diffs (D.entry 0 0).nonzeroCo "ga" q := by
      intro q
      unfold rbfDisc
      rw [if_neg (by simpa [DArr.offset] using hne)]
      rfl
    simp only [sqNorm, Finset.sum_range_one, hw]
    have hcs := Finset.sum_mul_sq_le_sq_mul_sq (range 9) (ext.wm ((List.range (3 * 3)).map (gridCoords 3 1)) (D.entry 0 0).diffs (D.entry 0 0).nonzeroCo "ga")
      fun j => gaussRBF 1 (gridCoords 3 1 j - gridCoords 3 1 1)
    rw [h2] at hcs
    have hle : ∑ j ∈ range 9, gaussRBF 1 (gridCoords 3 1 j - gridCoords 3 1 1) ^ 2 ≤ 9 := by
      calc _ ≤ ∑ j ∈ range 9, (1 : ℝ) := by
            refine Finset.sum_le_sum fun j _ => ?_
            have h5 : gaussRBF 1 (gridCoords 3 1 j - gridCoords 3 1 1) ≤ 1 := exp_le_one_iff.2 (by
              simp only [Left.neg_nonpos_iff]
              positivity)
            have h6 : 0 < gaussRBF 1 (gridCoords 3 1 j - gridCoords 3 1 1) := exp_pos _
            nlinarith
        _ = 9 := by simp
    have h7 : 0 ≤ ∑ j ∈ range 9, ext.wm ((List.range (3 * 3)).map (gridCoords 3 1)) (D.entry 0 0).diffs (D.entry 0 0).nonzeroCo "ga" j ^ 2 :=
      Finset.sum_nonneg fun _ _ => sq_nonneg _
    have h8 := exp_neg_one_ge
    show _ ≤ ∑ j ∈ range 9, ext.wm ((List.range (3 * 3)).map (gridCoords 3 1)) (D.entry 0 0).diffs (D.entry 0 0).nonzeroCo "ga" j ^ 2
    nlinarith)
  refine ⟨_, M, (c82_method ..).2 ⟨hM, Or.inr (Or.inl ⟨rfl, rfl, rfl⟩)⟩, ?_⟩
  refine exFlip_commutes (c83_flip interp [0] [1] (by simp) 0 exFlipRep (fun n _ => by rw [(exFlipRep_ok n).2.1]; exact one_pos) exFlip_ok) hM hs ⟨rfl, ?_⟩
  intro n _
  rw [hs]
  exact ⟨_, _, gaussRBF_smooth 1, gaussRBF_radial 1, hwm n⟩

/-- Functions with the specifications of C82 and C83 exist, so the two layers do. -/
example (interp : ℝ → Img → Img) : ∃ ext : DiscExt,
    (∃ smp M, r2diffopInitWith ext false "ga" (some 1) (flip2dDiffops 0) exArgs exFlipRep [0] [1] = some (smp, M) ∧ ExFlipCommutes interp smp M) ∧
    ∃ smp M, r2diffopInitWith ext true "ga" none (flip2dDiffops 0) exArgs exFlipRep [0] [1] = some (smp, M) ∧ ExFlipCommutes interp smp M := by
  obtain ⟨wm, h⟩ := RBFSolves.exists
  let ext : DiscExt := ⟨fun _ _ _ => 0, fun eps a b p => (partialX^[a] (partialY^[b] (gaussRBF eps))) p, wm⟩
  exact ⟨ext, c82_flip_layer ext (fun _ _ _ _ => rfl) interp, c83_flip_layer ext (fun n => h 3 1 n one_pos) interp⟩

/-- The hypothesis of `c83_exact` can be met with added polynomials: one point, the operators of order zero and the constants. -/
example (d : ℕ) : RBFSolves (gaussRBF 1) (some 0) (fun _ _ coeffs _ _ => coeffs.sum) "ga" ((List.range (1 * 1)).map (gridCoords 1 d)) 0 := by
  classical
  intro c hc hne
  have hp : gridCoords 1 d 0 = 0 := by
    simp only [gridCoords]
    refine Prod.ext ?_ ?_ <;> norm_num
  have hco : c.nonzeroCo.sum = c.co 0 := by
    have : c.co 0 ≠ 0 := by
      intro h
      refine hne ?_
      simp [HPoly.diffs, HPoly.nonzero, hc, h]
    simp [HPoly.nonzeroCo, HPoly.nonzero, hc, this]
  have hL : ∀ f, applyDiffs c.diffs c.nonzeroCo f 0 = c.co 0 * f 0 := by
    intro f
    rw [applyDiffs_eq, hc]
    simp
  have h1 : PolyLE (some 0) fun _ => 1 := ⟨fun i => ⟨i, fun _ => 1⟩, fun _ => rfl, by funext p; simp [HPoly.eval]⟩
  have hl : ((List.range (1 * 1)).map (gridCoords 1 d)) = [0] := by simp [hp]
  rw [hl]
  refine ⟨⟨⟨fun _ => 0, PolyLE.zero _, ?_⟩, ?_⟩, ?_⟩
  · intro i hi
    obtain rfl : i = 0 := by simpa using hi
    simp [hL, hco]
  · intro q _
    simp [hL, hco]
  · intro w w' h h' j hj
    obtain rfl : j = 0 := by simpa using hj
    have a1 := h.2 _ h1
    have a2 := h'.2 _ h1
    simp at a1 a2
    rw [a1, a2]

end E2
