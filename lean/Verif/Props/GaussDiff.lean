import Verif.Lemmas.GaussDiff
import Verif.Props.R2DiffopInit

/-!
# C82, C83: `R2Diffop` discretised with derivatives of Gaussians or with RBF-FD
-/

namespace E2

open Finset Mat Real
open scoped ContDiff

variable {El F : Type} [LinearOrder F]

theorem orthMap_rot {f : ℝ × ℝ → ℝ × ℝ} {α : ℝ} (h : ∀ p, f p = rot α p) : OrthMap f := by
  have := sin_sq_add_cos_sq α
  refine ⟨cos α, -sin α, sin α, cos α, ⟨by nlinarith, by nlinarith, by ring⟩, ⟨by nlinarith, by nlinarith, by ring⟩, fun p => ?_⟩
  rw [h, lin2_apply, rot]
  refine Prod.ext ?_ ?_ <;> dsimp only
  ring

theorem orthMap_refl {f : ℝ × ℝ → ℝ × ℝ} {a : ℝ} (h : ∀ p, f p = refl a p) : OrthMap f := by
  have := sin_sq_add_cos_sq (2 * a)
  refine ⟨cos (2 * a), sin (2 * a), sin (2 * a), -cos (2 * a), ⟨by nlinarith, by nlinarith, by ring⟩, ⟨by nlinarith, by nlinarith, by ring⟩, fun p => ?_⟩
  rw [h, lin2_apply, refl]
  refine Prod.ext ?_ ?_ <;> dsimp only
  ring

theorem offset_eq (off : Option ℝ) (D : DArr) : D.offset off = offD off D := by cases off <;> rfl

/-- The polynomial of an entry of the product with two matrices. -/
theorem conj_eval (so si : ℕ) (P Q : Mat) (D : DArr) (i j : ℕ) (p : ℝ × ℝ) :
    (⟨D.deg, fun m => Mat.mul si (Mat.mul so P fun a b => D.co a b m) Q i j⟩ : HPoly).eval p = Mat.mul si (Mat.mul so P (D.eval p)) Q i j :=
  (conj_sum so si (D.deg + 1) P Q (fun m a b => D.co a b m) (fun m => p.1 ^ (D.deg - m) * p.2 ^ m) i j).symm

/-! ### Derivatives of Gaussians -/

theorem gaussRBF_smooth (eps : ℝ) : ContDiff ℝ ∞ (gaussRBF eps) := by
  unfold gaussRBF
  fun_prop

theorem gaussRBF_radial (eps : ℝ) : Radial (gaussRBF eps) := fun p q h => by rw [gaussRBF, gaussRBF, h]

theorem gaussianDerivative_eq {ga : ℝ → ℕ → ℕ → ℝ × ℝ → ℝ} (hga : GaussSpec ga) (c : HPoly) (std : ℝ) (p : ℝ × ℝ) :
    gaussianDerivative ga c std p = (polyD c ⟨gaussRBF (1 / std ^ 2), gaussRBF_smooth _⟩).1 p := by
  rw [gaussianDerivative, nonzero_sum c fun a b => ga (1 / std ^ 2) a b p, polyD_apply]
  exact Finset.sum_congr rfl fun m _ => by rw [hga]

/-- The constraint at one orthogonal map. -/
theorem gauss_at {ga : ℝ → ℕ → ℕ → ℝ × ℝ → ℝ} (hga : GaussSpec ga) (std : ℝ) {so si : ℕ} {D : DArr} {P Q : Mat} {f : ℝ × ℝ → ℝ × ℝ} (hf : OrthMap f)
    (hD : ∀ p, MEq so si (D.eval (f p)) (Mat.mul si (Mat.mul so P (D.eval p)) Q)) (p : ℝ × ℝ) :
    MEq so si (fun i j => gaussianDerivative ga (D.entry i j) std (f p))
      (Mat.mul si (Mat.mul so P fun i j => gaussianDerivative ga (D.entry i j) std p) Q) := by
  obtain ⟨a, b, a', b', ⟨h1, h2, h3⟩, ⟨h4, h5, h6⟩, he⟩ := hf
  intro i hi j hj
  have hinv : ∀ p, gaussRBF (1 / std ^ 2) (lin2 a b a' b' p) = gaussRBF (1 / std ^ 2) p := fun p => gaussRBF_radial _ _ _ (by
    rw [lin2_apply]
    dsimp only
    linear_combination (p.1 ^ 2) * h4 + (p.2 ^ 2) * h5 + (2 * p.1 * p.2) * h6)
  have key := polyD_comp h1 h2 h3 ⟨_, gaussRBF_smooth (1 / std ^ 2)⟩ ⟨_, gaussRBF_smooth (1 / std ^ 2)⟩ hinv (D.entry i j)
    ⟨D.deg, fun m => Mat.mul si (Mat.mul so P fun a b => D.co a b m) Q i j⟩ rfl (fun q => by
      rw [conj_eval, ← he]
      exact hD q i hi j hj) p
  simp only [gaussianDerivative_eq hga]
  rw [he, key, polyD_apply]
  dsimp only
  rw [← conj_sum so si (D.deg + 1) P Q (fun m a b => D.co a b m) (fun m => (partialX^[D.deg - m] (partialY^[m] (gaussRBF (1 / std ^ 2)))) p)]
  refine conj_congr so si P Q (fun a _ b _ => ?_) i j
  rw [polyD_apply]
  rfl

/-- **C82, the filters are steerable kernels**: the derivatives of a Gaussian by an equivariant operator satisfy the kernel constraint at all the elements of
the group and all the points of the plane, not only those of the grid, for all representations, operators and widths. -/
theorem c82_steerable {ga : ℝ → ℕ → ℕ → ℝ × ℝ → ℝ} (hga : GaussSpec ga) (std : ℝ) {G : Grp El} {act : El → ℝ × ℝ → ℝ × ℝ} (hact : ∀ g, G.isEl g → OrthMap (act g))
    {so si : ℕ} {ρo ρi : El → Mat} {D : DArr} (hD : KernelConstraint G act so si ρo ρi D.eval) :
    KernelConstraint G act so si ρo ρi fun p i j => gaussianDerivative ga (D.entry i j) std p :=
  fun g hg p => gauss_at hga std (hact g hg) (hD g hg) p

/-! ### RBF-FD -/

theorem rbfDisc_system {wm : List (ℝ × ℝ) → List (ℕ × ℕ) → List ℝ → String → ℕ → ℝ} {phi : String} {k d : ℕ} {φ : ℝ × ℝ → ℝ} {l : Option ℕ} {c : HPoly}
    (h : c.diffs ≠ [] → RBFSystem φ l (k * k) (gridCoords k d) (fun f => applyDiffs c.diffs c.nonzeroCo f 0)
      (wm ((List.range (k * k)).map (gridCoords k d)) c.diffs c.nonzeroCo phi)) :
    RBFSystem φ l (k * k) (gridCoords k d) (fun f => applyDiffs c.diffs c.nonzeroCo f 0) (rbfDisc wm phi k d c) := by
  unfold rbfDisc
  by_cases hc : c.diffs = []
  · have h0 : (fun f => applyDiffs c.diffs c.nonzeroCo f 0) = fun _ => 0 := by
      funext f
      rw [applyDiffs_eq]
      refine Finset.sum_eq_zero fun m hm => ?_
      rw [diffs_nil hc m (by have := Finset.mem_range.1 hm; omega), zero_mul]
    rw [h0, hc]
    simpa using RBFSystem.zero φ l (k * k) (gridCoords k d)
  · rw [if_neg (by simpa using hc)]
    exact h hc

theorem RBFSystem.congr {φ : ℝ × ℝ → ℝ} {l : Option ℕ} {N : ℕ} {pt pt' : ℕ → ℝ × ℝ} (hp : ∀ j < N, pt j = pt' j) {L : (ℝ × ℝ → ℝ) → ℝ} {w : ℕ → ℝ}
    (h : RBFSystem φ l N pt L w) : RBFSystem φ l N pt' L w := by
  obtain ⟨⟨μ, h1, h2⟩, h3⟩ := h
  refine ⟨⟨μ, h1, fun i hi => ?_⟩, fun q hq => ?_⟩
  · rw [← hp i hi, ← h2 i hi]
    congr 1
    exact Finset.sum_congr rfl fun j hj => by rw [hp j (Finset.mem_range.1 hj)]
  · rw [← h3 q hq]
    exact Finset.sum_congr rfl fun j hj => by rw [hp j (Finset.mem_range.1 hj)]

/-- The assumption on `weight_matrix`, for the points of the grid: the weights, also those of the zero operator, solve the system, and the homogeneous system
has the zero solution only. -/
theorem RBFSpec.grid {wm : List (ℝ × ℝ) → List (ℕ × ℕ) → List ℝ → String → ℕ → ℝ} {phi : String} {k d n : ℕ}
    (h : RBFSpec wm phi ((List.range (k * k)).map (gridCoords k d)) n) : ∃ (φ : ℝ × ℝ → ℝ) (l : Option ℕ), ContDiff ℝ ∞ φ ∧ Radial φ ∧
      (∀ c : HPoly, c.deg = n → RBFSystem φ l (k * k) (gridCoords k d) (fun f => applyDiffs c.diffs c.nonzeroCo f 0) (rbfDisc wm phi k d c)) ∧
      ∀ v, RBFSystem φ l (k * k) (gridCoords k d) (fun _ => 0) v → ∀ j < k * k, v j = 0 := by
  obtain ⟨φ, l, h1, h2, h3⟩ := h
  unfold RBFSolves at h3
  have hlen : ((List.range (k * k)).map (gridCoords k d)).length = k * k := by simp
  have hpt : ∀ j < k * k, ((List.range (k * k)).map (gridCoords k d)).getD j 0 = gridCoords k d j := fun j hj => by
    rw [List.getD_eq_getElem _ _ (by rw [hlen]; exact hj)]
    simp
  rw [hlen] at h3
  refine ⟨φ, l, h1, h2, fun c hc => rbfDisc_system fun hne => (h3 c hc hne).1.congr hpt, fun v hv j hj => ?_⟩
  -- the operator of order `n` in the direction of the first axis
  have hne : (⟨n, fun m => if m = 0 then 1 else 0⟩ : HPoly).diffs ≠ [] := by
    intro h
    have := diffs_nil h 0 (Nat.zero_le _)
    simp at this
  obtain ⟨s1, s2⟩ := h3 ⟨n, fun m => if m = 0 then 1 else 0⟩ rfl hne
  have s3 := (hv.congr fun j hj => (hpt j hj).symm).lin s1 1
  have := s2 _ _ (by simpa using s3) s1 j hj
  linarith

theorem gridCoords_inj {k d : ℕ} (hd : 0 < d) {q q' : ℕ} (h : gridCoords k d q = gridCoords k d q') : q = q' := by
  rw [gridCoords_axis, gridCoords_axis] at h
  have h1 := axisPt_inj hd _ _ (congrArg Prod.fst h)
  have h2 := axisPt_inj hd _ _ (neg_injective (congrArg Prod.snd h))
  rw [← Nat.div_add_mod q k, ← Nat.div_add_mod q' k, h1, h2]

/-- The constraint at one orthogonal map which permutes the points of the grid. -/
theorem rbf_at {wm : List (ℝ × ℝ) → List (ℕ × ℕ) → List ℝ → String → ℕ → ℝ} {phi : String} {k d : ℕ} (hd : 0 < d) {so si : ℕ} {D : DArr} {P Q : Mat}
    (hwm : RBFSpec wm phi ((List.range (k * k)).map (gridCoords k d)) D.deg) {f : ℝ × ℝ → ℝ × ℝ} (hf : OrthMap f)
    (hgrid : ∀ q < k * k, ∃ q' < k * k, gridCoords k d q' = f (gridCoords k d q))
    (hD : ∀ p, MEq so si (D.eval (f p)) (Mat.mul si (Mat.mul so P (D.eval p)) Q)) {q q' : ℕ} (hq : q < k * k) (hqq : gridCoords k d q' = f (gridCoords k d q)) :
    MEq so si (fun i j => rbfDisc wm phi k d (D.entry i j) q') (Mat.mul si (Mat.mul so P fun i j => rbfDisc wm phi k d (D.entry i j) q) Q) := by
  obtain ⟨φ, l, hφ, hr, hsys, huniq⟩ := hwm.grid
  obtain ⟨a, b, a', b', ⟨h1, h2, h3⟩, ⟨h4, h5, h6⟩, he⟩ := hf
  choose! σ hσ1 hσ2 using hgrid
  have hinj : ∀ i < k * k, ∀ j < k * k, σ i = σ j → i = j := by
    intro i hi j hj hij
    have h7 := hσ2 i hi
    rw [hij, hσ2 j hj, he, he] at h7
    refine gridCoords_inj (k := k) hd ?_
    have hback : ∀ p, lin2 a a' b b' (lin2 a b a' b' p) = p := by
      intro p
      rw [lin2_apply, lin2_apply]
      refine Prod.ext ?_ ?_ <;> dsimp only
      · linear_combination p.1 * h4 + p.2 * h6
      · linear_combination p.2 * h5 + p.1 * h6
    rw [← hback (gridCoords k d i), ← hback (gridCoords k d j), h7]
  obtain rfl : q' = σ q := gridCoords_inj hd (hqq.trans (hσ2 q hq).symm)
  intro i hi j hj
  -- the weights of the composed polynomial
  have s1 := (hsys (D.entry i j) rfl).comp h1 h2 h3 h4 h5 h6 hφ hr hσ1 hinj (fun j hj => by rw [hσ2 j hj, he]) (D.entry i j)
    ⟨D.deg, fun m => Mat.mul si (Mat.mul so P fun a b => D.co a b m) Q i j⟩ rfl (fun p => by
      rw [conj_eval, ← he]
      exact hD p i hi j hj)
  -- the combination of the weights
  have s2 := RBFSystem.sum (range si ×ˢ range so) (fun t f => applyDiffs (D.entry t.2 t.1).diffs (D.entry t.2 t.1).nonzeroCo f 0)
    (fun t => rbfDisc wm phi k d (D.entry t.2 t.1)) (fun t => P i t.2 * Q t.1 j) fun t _ => hsys (D.entry t.2 t.1) rfl
  have hL : (fun f => applyDiffs (⟨D.deg, fun m => Mat.mul si (Mat.mul so P fun a b => D.co a b m) Q i j⟩ : HPoly).diffs
      (⟨D.deg, fun m => Mat.mul si (Mat.mul so P fun a b => D.co a b m) Q i j⟩ : HPoly).nonzeroCo f 0)
      = fun f => ∑ t ∈ range si ×ˢ range so, P i t.2 * Q t.1 j * applyDiffs (D.entry t.2 t.1).diffs (D.entry t.2 t.1).nonzeroCo f 0 := by
    funext f
    simp only [applyDiffs_eq]
    rw [← conj_sum so si (D.deg + 1) P Q (fun m a b => D.co a b m) (fun m => (partialX^[D.deg - m] (partialY^[m] f)) 0), Finset.sum_product]
    simp only [Mat.mul, Finset.sum_mul]
    exact Finset.sum_congr rfl fun t _ => Finset.sum_congr rfl fun u _ => by
      show P i u * _ * Q t j = P i u * Q t j * _
      simp only [DArr.entry]
      ring
  rw [hL] at s1
  have s3 := s2.lin s1 (-1)
  have := huniq _ (by simpa using s3) q hq
  dsimp only at this ⊢
  have h8 : rbfDisc wm phi k d (D.entry i j) (σ q) = ∑ t ∈ range si ×ˢ range so, P i t.2 * Q t.1 j * rbfDisc wm phi k d (D.entry t.2 t.1) q := by linarith
  rw [h8, Finset.sum_product]
  simp only [Mat.mul, Finset.sum_mul]
  exact Finset.sum_congr rfl fun t _ => Finset.sum_congr rfl fun u _ => by ring

/-! ### The layers -/

/-- The steerability of the filters of one method of discretisation, for the arguments selected by `ok` and the elements selected by `sel`, is enough for the
layer. -/
theorem commutes_of_sampler (smp : Sampler) (Sp : Space El) (hgrid : Sp.GridAction) (hinv : Sp.G.InvOk) (G : DiffopGen El) (rep : F → Repr El) (inT outT : List F)
    (hG : DiffopGenOk Sp G rep inT outT) (hne : inT ≠ [] ∧ outT ≠ []) (hsz : ∀ n ∈ inT ++ outT, 0 < (rep n).size)
    (hrep : ∀ n ∈ inT, IsRep Sp.G (rep n).size (rep n).mat) (hbias : BiasOk Sp.G rep outT) (ok : DiffopArgs El → DiffopModule El F → Prop) (sel : El → Prop)
    (hs : ∀ a M, ok a M → 0 < a.dilation → ∀ g, Sp.G.isEl g → Sp.grid g → sel g → ∀ (so si : ℕ) (P Q : Mat) (D : DArr), D.deg ≤ M.order →
      (∀ p, MEq so si (D.eval (Sp.act g p)) (Mat.mul si (Mat.mul so P (D.eval p)) Q)) → ∀ f, smp M.size a.dilation so si a.angleOffset D = some f →
      ∀ q < M.size * M.size, ∀ q', gridCoords M.size a.dilation q' = Sp.act g (gridCoords M.size a.dilation q) →
      MEq so si (f q') (Mat.mul si (Mat.mul so P (f q)) Q)) :
    R2DiffopCommutes smp Sp G rep inT outT ok sel := by
  intro a M hM hok hg hd w b n m hw hpad hm hdiv
  obtain ⟨pw, hr, hgr, hdeg, hS, hi, hexp, hdim, hops, hf⟩ := forward_eq hG hne hsz hg hM
  obtain ⟨layer, h1, h2⟩ := diffop_sym Sp hgrid hinv rep inT outT smp M.ops M.attr a.cfg hrep M.size M.order pw M.inG hr hS hi n m w b hg hgr
    (by rw [hexp]; exact hdim) (by rw [hexp]; exact hw) hpad hm hdiv
  refine ⟨layer, fun x => by rw [hf, h1], ?_⟩
  intro g hg1 hg2 hsel x
  have := h2 g hg1 hg2 1 (by
    intro i hii o' ho' l hl idx D hD' hle _ f hf q hq q' hqq
    have hD := List.mem_of_getElem? hD'
    obtain ⟨l', hl', hK⟩ := hops M.order pw i hii o' ho'
    obtain rfl : l' = l := by rw [hl] at hl'; exact (Option.some.inj hl').symm
    simpa only [one_mul] using hs a M hok hd g hg1 hg2 hsel _ _ _ _ D hle (fun p => hK D hD g hg1 p) f hf q hq q' hqq)
    (by simpa only [one_mul] using hbias.1 b g hg1) x
  simpa only [one_mul] using this

/-- The operator with the angle offset at a rotation, or without the angle offset. -/
theorem offset_at {so si : ℕ} {D : DArr} {P Q : Mat} {f : ℝ × ℝ → ℝ × ℝ} {off : Option ℝ} (h : off = none ∨ ∃ α, ∀ p, f p = rot α p)
    (hD : ∀ p, MEq so si (D.eval (f p)) (Mat.mul si (Mat.mul so P (D.eval p)) Q)) :
    ∀ p, MEq so si ((D.offset off).eval (f p)) (Mat.mul si (Mat.mul so P ((D.offset off).eval p)) Q) := by
  rcases h with rfl | ⟨α, hα⟩
  · exact hD
  · rw [offset_eq]
    intro p
    rw [hα]
    exact offD_rot off (fun p => by rw [← hα]; exact hD p) p

/-- The elements which permute the pixels permute the points of the grid of the filters. -/
theorem GridAction.points {Sp : Space El} (hgrid : Sp.GridAction) {g : El} (hg : Sp.G.isEl g) (hq : Sp.grid g) {k d : ℕ} (hd : 0 < d) :
    ∀ q < k * k, ∃ q' < k * k, gridCoords k d q' = Sp.act g (gridCoords k d q) := by
  obtain ⟨τ, -, t2⟩ := hgrid g hg hq
  have hk : ∀ q < k * k, ∃ q' < k * k, gridCoords k d q' = τ.lin (gridCoords k d q) := by
    intro q hq
    have hkp : 0 < k := Nat.pos_of_ne_zero fun h => by simp [h] at hq
    have ha : q / k < k := Nat.div_lt_of_lt_mul hq
    have hb : q % k < k := Nat.mod_lt _ hkp
    obtain ⟨l1, l2⟩ := τ.ap_lt ha hb
    refine ⟨(τ.ap k (q / k, q % k)).1 * k + (τ.ap k (q / k, q % k)).2, ?_, ?_⟩
    · calc _ < ((τ.ap k (q / k, q % k)).1 + 1) * k := by rw [Nat.succ_mul]; omega
        _ ≤ k * k := Nat.mul_le_mul_right _ l1
    · rw [gridCoords_ap τ k d _ _ ha hb, Nat.div_add_mod']
  choose! σ hσ1 hσ2 using hk
  let s : Fin (k * k) → Fin (k * k) := fun q => ⟨σ q, hσ1 q q.2⟩
  have hinj : Function.Injective s := by
    intro q q' h
    have h1 : σ q = σ q' := congrArg Fin.val h
    have h2 := hσ2 q q.2
    rw [h1, hσ2 q' q'.2] at h2
    have h3 := congrArg (Sp.act g) h2
    rw [t2, t2] at h3
    exact Fin.ext (gridCoords_inj hd h3).symm
  intro q hq
  obtain ⟨q', h⟩ := Finite.surjective_of_injective hinj ⟨q, hq⟩
  refine ⟨q', q'.2, ?_⟩
  have h1 : σ q' = q := congrArg Fin.val h
  rw [← h1, hσ2 q' q'.2, t2]

/-- The elements which permute the pixels act on the plane by a rotation or by a reflection, and there is no angle offset with a reflection. -/
def OffsetOk (Sp : Space El) (off : Option ℝ) (g : El) : Prop :=
  (∃ α, ∀ p, Sp.act g p = rot α p) ∨ off = none ∧ ∃ a, ∀ p, Sp.act g p = refl a p

/-- **C82 for a space whose operators satisfy the constraint**: for all widths of the Gaussian, the layer commutes with all the elements which permute the
pixels. -/
theorem c82_space {ga : ℝ → ℕ → ℕ → ℝ × ℝ → ℝ} (hga : GaussSpec ga) (std : ℝ) (Sp : Space El) (hgrid : Sp.GridAction) (hinv : Sp.G.InvOk) (G : DiffopGen El)
    (rep : F → Repr El) (inT outT : List F) (hG : DiffopGenOk Sp G rep inT outT) (hne : inT ≠ [] ∧ outT ≠ []) (hsz : ∀ n ∈ inT ++ outT, 0 < (rep n).size)
    (hrep : ∀ n ∈ inT, IsRep Sp.G (rep n).size (rep n).mat) (hbias : BiasOk Sp.G rep outT) (ok : DiffopArgs El → DiffopModule El F → Prop) (sel : El → Prop)
    (hoff : ∀ a M, ok a M → ∀ g, Sp.G.isEl g → Sp.grid g → sel g → OffsetOk Sp a.angleOffset g) :
    R2DiffopCommutes (gaussSample ga std) Sp G rep inT outT ok sel := by
  refine commutes_of_sampler _ Sp hgrid hinv G rep inT outT hG hne hsz hrep hbias ok sel ?_
  intro a M hok hd g hg1 hg2 hsel so si P Q D hle hD f hf q hq q' hqq
  obtain rfl := Option.some.inj hf
  dsimp only
  rw [hqq]
  rcases hoff a M hok g hg1 hg2 hsel with ⟨α, hα⟩ | ⟨h0, b, hb⟩
  · exact gauss_at hga std (orthMap_rot hα) (offset_at (Or.inr ⟨α, hα⟩) hD) _
  · exact gauss_at hga std (orthMap_refl hb) (offset_at (Or.inl h0) hD) _

/-- **C83 for a space whose operators satisfy the constraint**: for all radial basis functions, the layer commutes with all the elements which permute the
pixels. -/
theorem c83_space {wm : List (ℝ × ℝ) → List (ℕ × ℕ) → List ℝ → String → ℕ → ℝ} {phi : String} (Sp : Space El) (hgrid : Sp.GridAction) (hinv : Sp.G.InvOk)
    (G : DiffopGen El) (rep : F → Repr El) (inT outT : List F) (hG : DiffopGenOk Sp G rep inT outT) (hne : inT ≠ [] ∧ outT ≠ [])
    (hsz : ∀ n ∈ inT ++ outT, 0 < (rep n).size) (hrep : ∀ n ∈ inT, IsRep Sp.G (rep n).size (rep n).mat) (hbias : BiasOk Sp.G rep outT)
    (ok : DiffopArgs El → DiffopModule El F → Prop) (sel : El → Prop)
    (hoff : ∀ a M, ok a M → ∀ g, Sp.G.isEl g → Sp.grid g → sel g → OffsetOk Sp a.angleOffset g) :
    R2DiffopCommutes (rbfSample wm phi) Sp G rep inT outT
      (fun a M => ok a M ∧ ∀ n ≤ M.order, RBFSpec wm phi ((List.range (M.size * M.size)).map (gridCoords M.size a.dilation)) n) sel := by
  refine commutes_of_sampler _ Sp hgrid hinv G rep inT outT hG hne hsz hrep hbias _ sel ?_
  intro a M hok hd g hg1 hg2 hsel so si P Q D hle hD f hf q hq q' hqq
  obtain rfl := Option.some.inj hf
  have hdeg : (D.offset a.angleOffset).deg = D.deg := by cases a.angleOffset <;> rfl
  have hspec := hok.2 D.deg hle
  rw [← hdeg] at hspec
  dsimp only
  rcases hoff a M hok.1 g hg1 hg2 hsel with ⟨α, hα⟩ | ⟨h0, b, hb⟩
  · exact rbf_at hd hspec (orthMap_rot hα) (GridAction.points hgrid hg1 hg2 hd) (offset_at (Or.inr ⟨α, hα⟩) hD) hq hqq
  · exact rbf_at hd hspec (orthMap_refl hb) (GridAction.points hgrid hg1 hg2 hd) (offset_at (Or.inl h0) hD) hq hqq

/-! ### The angle offset -/

/-- The entries of the operator with an angle offset. -/
theorem offset_eval (θ : ℝ) (D : DArr) (i j : ℕ) (p : ℝ × ℝ) : ((D.offset (some θ)).entry i j).eval p = (D.entry i j).eval (rot (-θ) p) := by
  obtain ⟨x, y⟩ := p
  refine ((HPoly.c46_transform (D.entry i j) (psi θ 1 0) x y).2).trans ?_
  congr 1
  simp [psi, m2, rot]

/-- A rotated operator is the operator on the function in the rotated coordinates. -/
theorem offset_polyD (θ : ℝ) (D : DArr) (i j : ℕ) {F F' : Smooth} (hF : ∀ p, F.1 (rot (-θ) p) = F'.1 p) (p : ℝ × ℝ) :
    (polyD ((D.offset (some θ)).entry i j) F').1 p = (polyD (D.entry i j) F).1 (rot (-θ) p) := by
  have hs := sin_sq_add_cos_sq (-θ)
  have hl : ∀ p, lin2 (cos (-θ)) (-sin (-θ)) (sin (-θ)) (cos (-θ)) p = rot (-θ) p := by
    intro p
    rw [lin2_apply, rot]
    refine Prod.ext ?_ ?_ <;> dsimp only
    ring
  rw [← hl, polyD_comp (by nlinarith) (by nlinarith) (by ring) F F' (fun p => by rw [hl, hF]) (D.entry i j) ((D.offset (some θ)).entry i j) rfl
    (fun p => by rw [hl, offset_eval])]

/-- **C82, the angle offset rotates the filters**: the filter with the offset `θ` is the one without, turned by `θ`. -/
theorem c82_angle_offset {ga : ℝ → ℕ → ℕ → ℝ × ℝ → ℝ} (hga : GaussSpec ga) (std θ : ℝ) (k d so si : ℕ) (D : DArr) :
    ∃ f, gaussSample ga std k d so si (some θ) D = some f ∧
      ∀ q i j, f q i j = ∑ m ∈ range (D.deg + 1), D.co i j m * (partialX^[D.deg - m] (partialY^[m] (gaussRBF (1 / std ^ 2)))) (rot (-θ) (gridCoords k d q)) := by
  refine ⟨_, rfl, fun q i j => ?_⟩
  rw [gaussianDerivative_eq hga, offset_polyD θ D i j (F := ⟨_, gaussRBF_smooth (1 / std ^ 2)⟩) (fun p => ?_), polyD_apply]
  · rfl
  · refine gaussRBF_radial _ _ _ ?_
    have := sin_sq_add_cos_sq (-θ)
    simp only [rot]
    linear_combination (p.1 ^ 2 + p.2 ^ 2) * this

/-- **C83, the weights are exact on the added polynomials**, with or without an angle offset: applied to the values of such a polynomial on the grid, the filter
gives the value at the origin of the operator, or of the operator on the polynomial in the rotated coordinates. -/
theorem c83_exact {wm : List (ℝ × ℝ) → List (ℕ × ℕ) → List ℝ → String → ℕ → ℝ} {phi : String} {φ : ℝ × ℝ → ℝ} {l : Option ℕ} {k d so si : ℕ} {D : DArr}
    (h : RBFSolves φ l wm phi ((List.range (k * k)).map (gridCoords k d)) D.deg) (off : Option ℝ) (q : ℝ × ℝ → ℝ) (hq : PolyLE l q) :
    ∃ f, rbfSample wm phi k d so si off D = some f ∧ ∀ i j, ∑ s ∈ range (k * k), f s i j * q (gridCoords k d s)
      = ∑ m ∈ range (D.deg + 1), D.co i j m * (partialX^[D.deg - m] (partialY^[m] fun p => q (rot (off.getD 0) p))) 0 := by
  refine ⟨_, rfl, fun i j => ?_⟩
  have hlen : ((List.range (k * k)).map (gridCoords k d)).length = k * k := by simp
  have hpt : ∀ j < k * k, ((List.range (k * k)).map (gridCoords k d)).getD j 0 = gridCoords k d j := fun j hj => by
    rw [List.getD_eq_getElem _ _ (by rw [hlen]; exact hj)]
    simp
  have hdeg : ((D.offset off).entry i j).deg = D.deg := by cases off <;> rfl
  unfold RBFSolves at h
  rw [hlen] at h
  have hsys := (rbfDisc_system (wm := wm) (phi := phi) (c := (D.offset off).entry i j) fun hne => (h _ hdeg hne).1.congr hpt).2 q hq
  dsimp only at hsys ⊢
  rw [hsys, applyDiffs_smooth _ ⟨q, hq.smooth⟩]
  cases off with
  | none =>
    rw [polyD_apply]
    simp [rot_zero, DArr.offset, DArr.entry]
  | some θ =>
    have hs : ContDiff ℝ ∞ fun p => q (rot θ p) := by
      refine hq.smooth.comp ?_
      unfold rot
      fun_prop
    rw [offset_polyD θ D i j (F := ⟨_, hs⟩) (fun p => ?_), polyD_apply]
    · have h0 : rot (-θ) 0 = 0 := by simp [rot]
      rw [h0]
      rfl
    · show q (rot θ (rot (-θ) p)) = q p
      congr 1
      have := sin_sq_add_cos_sq θ
      simp only [rot, cos_neg, sin_neg]
      refine Prod.ext ?_ ?_ <;> dsimp only
      · linear_combination p.1 * this
      · linear_combination p.2 * this

section spaces

variable (interp : ℝ → Img → Img) (inT outT : List F) (hne : inT ≠ [] ∧ outT ≠ [])

theorem offsetOk_plane {axis : ℝ} {f : ℤ} {θ : ℝ} {off : Option ℝ} {Sp : Space El} {g : El} (hact : ∀ p, Sp.act g p = planeAct axis (f, θ) p)
    (h : off = none ∨ f = 0) : OffsetOk Sp off g := by
  by_cases hf : f = 0
  · subst hf
    exact Or.inl ⟨θ, fun p => by rw [hact, planeAct_turn]⟩
  · exact Or.inr ⟨h.resolve_right hf, _, fun p => by rw [hact, planeAct_reflect axis θ f hf]⟩

include hne

/-- **C82 for `Rot2dOnR2(N)`**: derivatives of Gaussians, all arguments. -/
theorem c82_cyclic {ga : ℝ → ℕ → ℕ → ℝ × ℝ → ℝ} (hga : GaussSpec ga) (std : ℝ) (N : ℕ) (hN : 0 < N) (rep : F → Repr ℤ) (hsz : ∀ n ∈ inT ++ outT, 0 < (rep n).size)
    (hr : ∀ n ∈ inT ++ outT, (rep n).WF ∧ ∀ i ∈ (rep n).irreps, ∃ k, Cyclic.irrep N k = some i) :
    R2DiffopCommutes (gaussSample ga std) (rotSpace interp N) (rot2dDiffops N) rep inT outT (fun _ _ => True) fun _ => True :=
  c82_space hga std _ (rotSpace_grid interp N hN) (Cyclic.invOk hN) _ rep inT outT (diffopGenOk_cyclic interp inT outT N hN rep hr) hne hsz
    (fun n hn => Cyclic.isRep_of hN (hr n (List.mem_append_left _ hn))) (c26_cyclic N hN rep outT fun n hn => hr n (List.mem_append_right _ hn)) (fun _ _ => True) _
    (fun _ _ _ g _ _ _ => Or.inl ⟨_, fun p => rfl⟩)

/-- **C82 for `Rot2dOnR2(-1)`**: derivatives of Gaussians, all arguments. -/
theorem c82_so2 {ga : ℝ → ℕ → ℕ → ℝ × ℝ → ℝ} (hga : GaussSpec ga) (std : ℝ) (rep : F → Repr ℝ) (hsz : ∀ n ∈ inT ++ outT, 0 < (rep n).size)
    (hr : ∀ n ∈ inT ++ outT, (rep n).WF ∧ ∀ i ∈ (rep n).irreps, ∃ k, i = SO2.irrep k) :
    R2DiffopCommutes (gaussSample ga std) (so2Space interp) so2Diffops rep inT outT (fun _ _ => True) fun _ => True :=
  c82_space hga std _ (so2Space_grid interp) SO2.invOk _ rep inT outT (diffopGenOk_so2 interp inT outT rep hr) hne hsz
    (fun n hn => SO2.isRep_of (hr n (List.mem_append_left _ hn))) (c26_so2 rep outT fun n hn => hr n (List.mem_append_right _ hn)) (fun _ _ => True) _
    (fun _ _ _ g _ _ _ => Or.inl ⟨_, fun p => rfl⟩)

/-- **C82 for `TrivialOnR2()`**: derivatives of Gaussians, all arguments. -/
theorem c82_trivial {ga : ℝ → ℕ → ℕ → ℝ × ℝ → ℝ} (hga : GaussSpec ga) (std : ℝ) (rep : F → Repr ℤ) (hsz : ∀ n ∈ inT ++ outT, 0 < (rep n).size)
    (hr : ∀ n ∈ inT ++ outT, (rep n).WF ∧ ∀ i ∈ (rep n).irreps, ∃ k, Cyclic.irrep 1 k = some i) :
    R2DiffopCommutes (gaussSample ga std) trivialSpace trivialDiffops rep inT outT (fun _ _ => True) fun _ => True :=
  c82_space hga std _ trivialSpace_grid (Cyclic.invOk (N := 1) (by norm_num)) _ rep inT outT (diffopGenOk_trivial inT outT rep hr) hne hsz
    (fun n hn => Cyclic.isRep_of (N := 1) (by norm_num) (hr n (List.mem_append_left _ hn))) (c26_cyclic 1 (by norm_num) rep outT fun n hn => hr n (List.mem_append_right _ hn)) (fun _ _ => True) _
    (fun _ _ _ g _ _ _ => Or.inl ⟨0, fun p => by simp [trivialSpace, rot_zero]⟩)

/-- **C82 for `Flip2dOnR2(axis)`**: derivatives of Gaussians, all arguments without an angle offset, all the elements which permute the pixels, reflections included. -/
theorem c82_flip {ga : ℝ → ℕ → ℕ → ℝ × ℝ → ℝ} (hga : GaussSpec ga) (std : ℝ) (axis : ℝ) (rep : F → Repr ℤ) (hsz : ∀ n ∈ inT ++ outT, 0 < (rep n).size)
    (hr : ∀ n ∈ inT ++ outT, (rep n).WF ∧ ∀ i ∈ (rep n).irreps, ∃ k, Cyclic.irrep 2 k = some i) :
    R2DiffopCommutes (gaussSample ga std) (flipSpace interp axis) (flip2dDiffops axis) rep inT outT (fun a _ => a.angleOffset = none) fun _ => True :=
  c82_space hga std _ (flipSpace_grid interp axis) (Cyclic.invOk (N := 2) (by norm_num)) _ rep inT outT (diffopGenOk_flip interp inT outT axis rep hr) hne hsz
    (fun n hn => Cyclic.isRep_of (N := 2) (by norm_num) (hr n (List.mem_append_left _ hn))) (c26_cyclic 2 (by norm_num) rep outT fun n hn => hr n (List.mem_append_right _ hn)) (fun a _ => a.angleOffset = none) _
    (fun a _ h0 g _ _ _ => by
      by_cases hg : g = 0
      · exact Or.inl ⟨0, fun p => by simp [flipSpace, hg, rot_zero]⟩
      · exact Or.inr ⟨h0, axis, fun p => by simp [flipSpace, hg]⟩)

/-- **C82 for `FlipRot2dOnR2(N)`**: derivatives of Gaussians, all arguments without an angle offset, all the elements which permute the pixels, reflections included. -/
theorem c82_dihedral {ga : ℝ → ℕ → ℕ → ℝ × ℝ → ℝ} (hga : GaussSpec ga) (std : ℝ) (N : ℕ) (hN : 0 < N) (axis : ℝ) (rep : F → Repr (ℤ × ℤ)) (hsz : ∀ n ∈ inT ++ outT, 0 < (rep n).size)
    (hr : ∀ n ∈ inT ++ outT, (rep n).WF ∧ ∀ i ∈ (rep n).irreps, ∃ j k, Dihedral.irrep N j k = some i) :
    R2DiffopCommutes (gaussSample ga std) (flipRotSpace interp N axis) (flipRot2dDiffops N axis) rep inT outT (fun a _ => a.angleOffset = none) fun _ => True :=
  c82_space hga std _ (flipRotSpace_grid interp N axis) (Dihedral.invOk hN) _ rep inT outT (diffopGenOk_dihedral interp inT outT N hN axis rep hr) hne hsz
    (fun n hn => Dihedral.isRep_of hN (hr n (List.mem_append_left _ hn))) (c26_dihedral N hN rep outT fun n hn => hr n (List.mem_append_right _ hn)) (fun a _ => a.angleOffset = none) _
    (fun a _ h0 g _ _ _ => offsetOk_plane (fun p => rfl) (Or.inl h0))

/-- **C82 for `FlipRot2dOnR2(-1)`**: derivatives of Gaussians, all arguments without an angle offset, all the elements which permute the pixels, reflections included. -/
theorem c82_o2 {ga : ℝ → ℕ → ℕ → ℝ × ℝ → ℝ} (hga : GaussSpec ga) (std : ℝ) (axis : ℝ) (rep : F → Repr (ℤ × ℝ)) (hsz : ∀ n ∈ inT ++ outT, 0 < (rep n).size)
    (hr : ∀ n ∈ inT ++ outT, (rep n).WF ∧ ∀ i ∈ (rep n).irreps, ∃ j k, O2.irrep j k = some i) :
    R2DiffopCommutes (gaussSample ga std) (o2Space interp axis) (o2Diffops axis) rep inT outT (fun a _ => a.angleOffset = none) fun _ => True :=
  c82_space hga std _ (o2Space_grid interp axis) O2.invOk _ rep inT outT (diffopGenOk_o2 interp inT outT axis rep hr) hne hsz
    (fun n hn => O2.isRep_of (hr n (List.mem_append_left _ hn))) (c26_o2 rep outT fun n hn => hr n (List.mem_append_right _ hn)) (fun a _ => a.angleOffset = none) _
    (fun a _ h0 g _ _ _ => offsetOk_plane (axis := axis) (f := g.1) (θ := g.2) (fun p => rfl) (Or.inl h0))

/-- **C83 for `Rot2dOnR2(N)`**: RBF-FD, all arguments. -/
theorem c83_cyclic {wm : List (ℝ × ℝ) → List (ℕ × ℕ) → List ℝ → String → ℕ → ℝ} {phi : String} (N : ℕ) (hN : 0 < N) (rep : F → Repr ℤ) (hsz : ∀ n ∈ inT ++ outT, 0 < (rep n).size)
    (hr : ∀ n ∈ inT ++ outT, (rep n).WF ∧ ∀ i ∈ (rep n).irreps, ∃ k, Cyclic.irrep N k = some i) :
    R2DiffopCommutes (rbfSample wm phi) (rotSpace interp N) (rot2dDiffops N) rep inT outT (fun a M => True ∧ ∀ n ≤ M.order, RBFSpec wm phi ((List.range (M.size * M.size)).map (gridCoords M.size a.dilation)) n) fun _ => True :=
  c83_space _ (rotSpace_grid interp N hN) (Cyclic.invOk hN) _ rep inT outT (diffopGenOk_cyclic interp inT outT N hN rep hr) hne hsz
    (fun n hn => Cyclic.isRep_of hN (hr n (List.mem_append_left _ hn))) (c26_cyclic N hN rep outT fun n hn => hr n (List.mem_append_right _ hn)) (fun _ _ => True) _
    (fun _ _ _ g _ _ _ => Or.inl ⟨_, fun p => rfl⟩)

/-- **C83 for `Rot2dOnR2(-1)`**: RBF-FD, all arguments. -/
theorem c83_so2 {wm : List (ℝ × ℝ) → List (ℕ × ℕ) → List ℝ → String → ℕ → ℝ} {phi : String} (rep : F → Repr ℝ) (hsz : ∀ n ∈ inT ++ outT, 0 < (rep n).size)
    (hr : ∀ n ∈ inT ++ outT, (rep n).WF ∧ ∀ i ∈ (rep n).irreps, ∃ k, i = SO2.irrep k) :
    R2DiffopCommutes (rbfSample wm phi) (so2Space interp) so2Diffops rep inT outT (fun a M => True ∧ ∀ n ≤ M.order, RBFSpec wm phi ((List.range (M.size * M.size)).map (gridCoords M.size a.dilation)) n) fun _ => True :=
  c83_space _ (so2Space_grid interp) SO2.invOk _ rep inT outT (diffopGenOk_so2 interp inT outT rep hr) hne hsz
    (fun n hn => SO2.isRep_of (hr n (List.mem_append_left _ hn))) (c26_so2 rep outT fun n hn => hr n (List.mem_append_right _ hn)) (fun _ _ => True) _
    (fun _ _ _ g _ _ _ => Or.inl ⟨_, fun p => rfl⟩)

/-- **C83 for `TrivialOnR2()`**: RBF-FD, all arguments. -/
theorem c83_trivial {wm : List (ℝ × ℝ) → List (ℕ × ℕ) → List ℝ → String → ℕ → ℝ} {phi : String} (rep : F → Repr ℤ) (hsz : ∀ n ∈ inT ++ outT, 0 < (rep n).size)
    (hr : ∀ n ∈ inT ++ outT, (rep n).WF ∧ ∀ i ∈ (rep n).irreps, ∃ k, Cyclic.irrep 1 k = some i) :
    R2DiffopCommutes (rbfSample wm phi) trivialSpace trivialDiffops rep inT outT (fun a M => True ∧ ∀ n ≤ M.order, RBFSpec wm phi ((List.range (M.size * M.size)).map (gridCoords M.size a.dilation)) n) fun _ => True :=
  c83_space _ trivialSpace_grid (Cyclic.invOk (N := 1) (by norm_num)) _ rep inT outT (diffopGenOk_trivial inT outT rep hr) hne hsz
    (fun n hn => Cyclic.isRep_of (N := 1) (by norm_num) (hr n (List.mem_append_left _ hn))) (c26_cyclic 1 (by norm_num) rep outT fun n hn => hr n (List.mem_append_right _ hn)) (fun _ _ => True) _
    (fun _ _ _ g _ _ _ => Or.inl ⟨0, fun p => by simp [trivialSpace, rot_zero]⟩)

/-- **C83 for `Flip2dOnR2(axis)`**: RBF-FD, all arguments without an angle offset, all the elements which permute the pixels, reflections included. -/
theorem c83_flip {wm : List (ℝ × ℝ) → List (ℕ × ℕ) → List ℝ → String → ℕ → ℝ} {phi : String} (axis : ℝ) (rep : F → Repr ℤ) (hsz : ∀ n ∈ inT ++ outT, 0 < (rep n).size)
    (hr : ∀ n ∈ inT ++ outT, (rep n).WF ∧ ∀ i ∈ (rep n).irreps, ∃ k, Cyclic.irrep 2 k = some i) :
    R2DiffopCommutes (rbfSample wm phi) (flipSpace interp axis) (flip2dDiffops axis) rep inT outT (fun a M => a.angleOffset = none ∧ ∀ n ≤ M.order, RBFSpec wm phi ((List.range (M.size * M.size)).map (gridCoords M.size a.dilation)) n) fun _ => True :=
  c83_space _ (flipSpace_grid interp axis) (Cyclic.invOk (N := 2) (by norm_num)) _ rep inT outT (diffopGenOk_flip interp inT outT axis rep hr) hne hsz
    (fun n hn => Cyclic.isRep_of (N := 2) (by norm_num) (hr n (List.mem_append_left _ hn))) (c26_cyclic 2 (by norm_num) rep outT fun n hn => hr n (List.mem_append_right _ hn)) (fun a _ => a.angleOffset = none) _
    (fun a _ h0 g _ _ _ => by
      by_cases hg : g = 0
      · exact Or.inl ⟨0, fun p => by simp [flipSpace, hg, rot_zero]⟩
      · exact Or.inr ⟨h0, axis, fun p => by simp [flipSpace, hg]⟩)

/-- **C83 for `FlipRot2dOnR2(N)`**: RBF-FD, all arguments without an angle offset, all the elements which permute the pixels, reflections included. -/
theorem c83_dihedral {wm : List (ℝ × ℝ) → List (ℕ × ℕ) → List ℝ → String → ℕ → ℝ} {phi : String} (N : ℕ) (hN : 0 < N) (axis : ℝ) (rep : F → Repr (ℤ × ℤ)) (hsz : ∀ n ∈ inT ++ outT, 0 < (rep n).size)
    (hr : ∀ n ∈ inT ++ outT, (rep n).WF ∧ ∀ i ∈ (rep n).irreps, ∃ j k, Dihedral.irrep N j k = some i) :
    R2DiffopCommutes (rbfSample wm phi) (flipRotSpace interp N axis) (flipRot2dDiffops N axis) rep inT outT (fun a M => a.angleOffset = none ∧ ∀ n ≤ M.order, RBFSpec wm phi ((List.range (M.size * M.size)).map (gridCoords M.size a.dilation)) n) fun _ => True :=
  c83_space _ (flipRotSpace_grid interp N axis) (Dihedral.invOk hN) _ rep inT outT (diffopGenOk_dihedral interp inT outT N hN axis rep hr) hne hsz
    (fun n hn => Dihedral.isRep_of hN (hr n (List.mem_append_left _ hn))) (c26_dihedral N hN rep outT fun n hn => hr n (List.mem_append_right _ hn)) (fun a _ => a.angleOffset = none) _
    (fun a _ h0 g _ _ _ => offsetOk_plane (fun p => rfl) (Or.inl h0))

/-- **C83 for `FlipRot2dOnR2(-1)`**: RBF-FD, all arguments without an angle offset, all the elements which permute the pixels, reflections included. -/
theorem c83_o2 {wm : List (ℝ × ℝ) → List (ℕ × ℕ) → List ℝ → String → ℕ → ℝ} {phi : String} (axis : ℝ) (rep : F → Repr (ℤ × ℝ)) (hsz : ∀ n ∈ inT ++ outT, 0 < (rep n).size)
    (hr : ∀ n ∈ inT ++ outT, (rep n).WF ∧ ∀ i ∈ (rep n).irreps, ∃ j k, O2.irrep j k = some i) :
    R2DiffopCommutes (rbfSample wm phi) (o2Space interp axis) (o2Diffops axis) rep inT outT (fun a M => a.angleOffset = none ∧ ∀ n ≤ M.order, RBFSpec wm phi ((List.range (M.size * M.size)).map (gridCoords M.size a.dilation)) n) fun _ => True :=
  c83_space _ (o2Space_grid interp axis) O2.invOk _ rep inT outT (diffopGenOk_o2 interp inT outT axis rep hr) hne hsz
    (fun n hn => O2.isRep_of (hr n (List.mem_append_left _ hn))) (c26_o2 rep outT fun n hn => hr n (List.mem_append_right _ hn)) (fun a _ => a.angleOffset = none) _
    (fun a _ h0 g _ _ _ => offsetOk_plane (axis := axis) (f := g.1) (θ := g.2) (fun p => rfl) (Or.inl h0))

/-- **C82 for `FlipRot2dOnR2(N)` with an angle offset**: derivatives of Gaussians, the rotations. -/
theorem c82_dihedral_offset {ga : ℝ → ℕ → ℕ → ℝ × ℝ → ℝ} (hga : GaussSpec ga) (std : ℝ) (N : ℕ) (hN : 0 < N) (axis : ℝ) (rep : F → Repr (ℤ × ℤ)) (hsz : ∀ n ∈ inT ++ outT, 0 < (rep n).size)
    (hr : ∀ n ∈ inT ++ outT, (rep n).WF ∧ ∀ i ∈ (rep n).irreps, ∃ j k, Dihedral.irrep N j k = some i) :
    R2DiffopCommutes (gaussSample ga std) (flipRotSpace interp N axis) (flipRot2dDiffops N axis) rep inT outT (fun _ _ => True) fun g => g.1 = 0 :=
  c82_space hga std _ (flipRotSpace_grid interp N axis) (Dihedral.invOk hN) _ rep inT outT (diffopGenOk_dihedral interp inT outT N hN axis rep hr) hne hsz
    (fun n hn => Dihedral.isRep_of hN (hr n (List.mem_append_left _ hn))) (c26_dihedral N hN rep outT fun n hn => hr n (List.mem_append_right _ hn)) (fun _ _ => True) _
    (fun _ _ _ g _ _ h0 => offsetOk_plane (fun p => rfl) (Or.inr h0))

/-- **C82 for `FlipRot2dOnR2(-1)` with an angle offset**: derivatives of Gaussians, the rotations. -/
theorem c82_o2_offset {ga : ℝ → ℕ → ℕ → ℝ × ℝ → ℝ} (hga : GaussSpec ga) (std : ℝ) (axis : ℝ) (rep : F → Repr (ℤ × ℝ)) (hsz : ∀ n ∈ inT ++ outT, 0 < (rep n).size)
    (hr : ∀ n ∈ inT ++ outT, (rep n).WF ∧ ∀ i ∈ (rep n).irreps, ∃ j k, O2.irrep j k = some i) :
    R2DiffopCommutes (gaussSample ga std) (o2Space interp axis) (o2Diffops axis) rep inT outT (fun _ _ => True) fun g => g.1 = 0 :=
  c82_space hga std _ (o2Space_grid interp axis) O2.invOk _ rep inT outT (diffopGenOk_o2 interp inT outT axis rep hr) hne hsz
    (fun n hn => O2.isRep_of (hr n (List.mem_append_left _ hn))) (c26_o2 rep outT fun n hn => hr n (List.mem_append_right _ hn)) (fun _ _ => True) _
    (fun _ _ _ g _ _ h0 => offsetOk_plane (axis := axis) (f := g.1) (θ := g.2) (fun p => rfl) (Or.inr h0))

/-- **C83 for `FlipRot2dOnR2(N)` with an angle offset**: RBF-FD, the rotations. -/
theorem c83_dihedral_offset {wm : List (ℝ × ℝ) → List (ℕ × ℕ) → List ℝ → String → ℕ → ℝ} {phi : String} (N : ℕ) (hN : 0 < N) (axis : ℝ) (rep : F → Repr (ℤ × ℤ)) (hsz : ∀ n ∈ inT ++ outT, 0 < (rep n).size)
    (hr : ∀ n ∈ inT ++ outT, (rep n).WF ∧ ∀ i ∈ (rep n).irreps, ∃ j k, Dihedral.irrep N j k = some i) :
    R2DiffopCommutes (rbfSample wm phi) (flipRotSpace interp N axis) (flipRot2dDiffops N axis) rep inT outT (fun a M => True ∧ ∀ n ≤ M.order, RBFSpec wm phi ((List.range (M.size * M.size)).map (gridCoords M.size a.dilation)) n) fun g => g.1 = 0 :=
  c83_space _ (flipRotSpace_grid interp N axis) (Dihedral.invOk hN) _ rep inT outT (diffopGenOk_dihedral interp inT outT N hN axis rep hr) hne hsz
    (fun n hn => Dihedral.isRep_of hN (hr n (List.mem_append_left _ hn))) (c26_dihedral N hN rep outT fun n hn => hr n (List.mem_append_right _ hn)) (fun _ _ => True) _
    (fun _ _ _ g _ _ h0 => offsetOk_plane (fun p => rfl) (Or.inr h0))

/-- **C83 for `FlipRot2dOnR2(-1)` with an angle offset**: RBF-FD, the rotations. -/
theorem c83_o2_offset {wm : List (ℝ × ℝ) → List (ℕ × ℕ) → List ℝ → String → ℕ → ℝ} {phi : String} (axis : ℝ) (rep : F → Repr (ℤ × ℝ)) (hsz : ∀ n ∈ inT ++ outT, 0 < (rep n).size)
    (hr : ∀ n ∈ inT ++ outT, (rep n).WF ∧ ∀ i ∈ (rep n).irreps, ∃ j k, O2.irrep j k = some i) :
    R2DiffopCommutes (rbfSample wm phi) (o2Space interp axis) (o2Diffops axis) rep inT outT (fun a M => True ∧ ∀ n ≤ M.order, RBFSpec wm phi ((List.range (M.size * M.size)).map (gridCoords M.size a.dilation)) n) fun g => g.1 = 0 :=
  c83_space _ (o2Space_grid interp axis) O2.invOk _ rep inT outT (diffopGenOk_o2 interp inT outT axis rep hr) hne hsz
    (fun n hn => O2.isRep_of (hr n (List.mem_append_left _ hn))) (c26_o2 rep outT fun n hn => hr n (List.mem_append_right _ hn)) (fun _ _ => True) _
    (fun _ _ _ g _ _ h0 => offsetOk_plane (axis := axis) (f := g.1) (θ := g.2) (fun p => rfl) (Or.inr h0))

end spaces

end E2
