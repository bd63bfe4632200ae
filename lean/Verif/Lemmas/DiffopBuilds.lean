import Verif.Props.R2DiffopInit
import Verif.Props.ConvBuilds
import Verif.Lemmas.DiffopComplete
import Mathlib.Algebra.Polynomial.BigOperators

/-!
# Helper lemmas for C99: the weights of the value at the origin, and the operator of order 0 given by a common irrep
-/

set_option linter.unusedSectionVars false

namespace E2

open Finset Mat Real

variable {El F : Type} [LinearOrder F]

/-! ### The finite difference weights of order 0 -/

/-- Weights exact for the monomials are exact for all polynomials of smaller degree than the number of points. -/
theorem FDWeights.poly {k : ℕ} {t w : ℕ → ℝ} (h : FDWeights k t 0 w) (p : Polynomial ℝ) (hp : p.natDegree < k) :
    ∑ j ∈ range k, w j * p.eval (t j) = p.eval 0 := by
  have h1 : ∀ j, p.eval (t j) = ∑ m ∈ range k, p.coeff m * t j ^ m := fun j => Polynomial.eval_eq_sum_range' hp _
  calc ∑ j ∈ range k, w j * p.eval (t j) = ∑ j ∈ range k, ∑ m ∈ range k, p.coeff m * (w j * t j ^ m) := by
        refine Finset.sum_congr rfl fun j _ => ?_
        rw [h1, Finset.mul_sum]
        exact Finset.sum_congr rfl fun m _ => by ring
    _ = ∑ m ∈ range k, p.coeff m * (if m = 0 then ((0 : ℕ).factorial : ℝ) else 0) := by
        rw [Finset.sum_comm]
        refine Finset.sum_congr rfl fun m hm => ?_
        rw [← Finset.mul_sum, h m (Finset.mem_range.1 hm)]
    _ = p.eval 0 := by
        rw [← Polynomial.coeff_zero_eq_eval_zero]
        have hk : 0 < k := by omega
        rw [Finset.sum_eq_single 0]
        · simp
        · intro m _ hm
          simp [hm]
        · intro h0
          exact absurd (Finset.mem_range.2 hk) h0

theorem axisPt_eq (k d j : ℕ) : axisPt k d j = d * (2 * j - (k - 1)) / 2 := by
  unfold axisPt
  ring

/-- The weights of the value at the origin are not small: half a unit, whatever the number of points. -/
theorem fd_zero_sq {fd : ℕ → List ℝ → ℕ → ℝ} (hfd : FDSpec fd) {k d : ℕ} (hk : 0 < k) (hd : 0 < d) :
    1 / 2 ≤ ∑ j ∈ range k, fd 0 (axisPts k d) j ^ 2 := by
  classical
  have hd' : (0 : ℝ) < d := by exact_mod_cast hd
  have hw := hfd.axis hd hk
  set w := fd 0 (axisPts k d)
  set J := (range k).filter fun j => k < 2 * j with hJ
  set p : Polynomial ℝ := ∏ j ∈ J, (1 - Polynomial.C ((axisPt k d j ^ 2)⁻¹) * Polynomial.X ^ 2) with hp
  have hev : ∀ x, p.eval x = ∏ j ∈ J, (1 - (axisPt k d j ^ 2)⁻¹ * x ^ 2) := by
    intro x
    rw [hp, Polynomial.eval_prod]
    simp
  have hdeg : p.natDegree < k := by
    have h1 : p.natDegree ≤ ∑ j ∈ J, 2 := by
      refine (Polynomial.natDegree_prod_le _ _).trans (Finset.sum_le_sum fun j _ => ?_)
      refine (Polynomial.natDegree_sub_le _ _).trans ?_
      simp only [Polynomial.natDegree_one]
      exact max_le (by omega) (Polynomial.natDegree_C_mul_X_pow_le _ _)
    have h2 : J.card ≤ k - (k / 2 + 1) := by
      rw [← Nat.card_Ico]
      refine Finset.card_le_card fun j hj => ?_
      rw [hJ, Finset.mem_filter, Finset.mem_range] at hj
      rw [Finset.mem_Ico]
      omega
    rw [Finset.sum_const, smul_eq_mul] at h1
    omega
  have h0 : p.eval 0 = 1 := by rw [hev]; simp
  have hpos : ∀ j ∈ J, (d : ℝ) / 2 < axisPt k d j := by
    intro j hj
    rw [hJ, Finset.mem_filter] at hj
    rw [axisPt_eq]
    have : (k : ℝ) + 1 ≤ 2 * j := by exact_mod_cast hj.2
    nlinarith
  have hz : ∀ i < k, i ≠ k / 2 → i ≠ (k - 1) / 2 → p.eval (axisPt k d i) = 0 := by
    intro i hi h1 h2
    rw [hev]
    by_cases h3 : k < 2 * i
    · have hm : i ∈ J := by rw [hJ, Finset.mem_filter, Finset.mem_range]; exact ⟨hi, h3⟩
      refine Finset.prod_eq_zero hm ?_
      have : axisPt k d i ^ 2 ≠ 0 := by
        have : 0 < axisPt k d i := by linarith [hpos i hm]
        positivity
      rw [inv_mul_cancel₀ this, sub_self]
    · have hm : k - 1 - i ∈ J := by rw [hJ, Finset.mem_filter, Finset.mem_range]; omega
      refine Finset.prod_eq_zero hm ?_
      have h4 : axisPt k d (k - 1 - i) ^ 2 ≠ 0 := by
        have : 0 < axisPt k d (k - 1 - i) := by linarith [hpos _ hm]
        positivity
      rw [axisPt_rev hi] at h4 ⊢
      rw [neg_sq] at h4 ⊢
      rw [inv_mul_cancel₀ h4, sub_self]
  have hle : ∀ i, i = k / 2 ∨ i = (k - 1) / 2 → p.eval (axisPt k d i) ^ 2 ≤ 1 := by
    intro i hi
    have hx : axisPt k d i ^ 2 ≤ ((d : ℝ) / 2) ^ 2 := by
      rw [axisPt_eq]
      have h1 : (2 * i : ℝ) - (k - 1) ≤ 1 ∧ -1 ≤ (2 * i : ℝ) - (k - 1) := by
        have a1 : 2 * i ≤ k := by omega
        have a2 : k ≤ 2 * i + 2 := by omega
        have b1 : (2 * i : ℝ) ≤ k := by exact_mod_cast a1
        have b2 : (k : ℝ) ≤ 2 * i + 2 := by exact_mod_cast a2
        constructor <;> linarith
      have h2 : ((2 * i : ℝ) - (k - 1)) ^ 2 ≤ 1 := by nlinarith
      have h3 : (0 : ℝ) ≤ d ^ 2 := sq_nonneg _
      nlinarith
    have hb : ∀ j ∈ J, 0 ≤ 1 - (axisPt k d j ^ 2)⁻¹ * axisPt k d i ^ 2 ∧ 1 - (axisPt k d j ^ 2)⁻¹ * axisPt k d i ^ 2 ≤ 1 := by
      intro j hj
      have h1 := hpos j hj
      have h2 : 0 < axisPt k d j ^ 2 := by
        have : 0 < axisPt k d j := by linarith
        positivity
      have h3 : axisPt k d i ^ 2 ≤ axisPt k d j ^ 2 := hx.trans (by nlinarith)
      have h4 : (axisPt k d j ^ 2)⁻¹ * axisPt k d i ^ 2 ≤ 1 := by
        rw [inv_mul_le_iff₀ h2]
        linarith
      have h5 : 0 ≤ (axisPt k d j ^ 2)⁻¹ * axisPt k d i ^ 2 := by positivity
      constructor <;> linarith
    have h1 : 0 ≤ p.eval (axisPt k d i) := by rw [hev]; exact Finset.prod_nonneg fun j hj => (hb j hj).1
    have h2 : p.eval (axisPt k d i) ≤ 1 := by rw [hev]; exact Finset.prod_le_one (fun j hj => (hb j hj).1) fun j hj => (hb j hj).2
    nlinarith
  have hs : ∑ j ∈ range k, p.eval (axisPt k d j) ^ 2 ≤ 2 := by
    calc ∑ j ∈ range k, p.eval (axisPt k d j) ^ 2 = ∑ j ∈ ({k / 2, (k - 1) / 2} : Finset ℕ), p.eval (axisPt k d j) ^ 2 := by
          symm
          refine Finset.sum_subset (fun j hj => ?_) fun j hj hj' => ?_
          · simp only [Finset.mem_insert, Finset.mem_singleton] at hj
            rw [Finset.mem_range]
            omega
          · simp only [Finset.mem_insert, Finset.mem_singleton, not_or] at hj'
            rw [hz j (Finset.mem_range.1 hj) hj'.1 hj'.2]
            norm_num
      _ ≤ ∑ j ∈ ({k / 2, (k - 1) / 2} : Finset ℕ), (1 : ℝ) := Finset.sum_le_sum fun j hj => hle j (by simpa using hj)
      _ ≤ 2 := by
          rw [Finset.sum_const, nsmul_eq_mul, mul_one]
          exact_mod_cast Finset.card_le_two
  have hcs := Finset.sum_mul_sq_le_sq_mul_sq (range k) w fun j => p.eval (axisPt k d j)
  rw [hw.poly p hdeg, h0] at hcs
  have hn : 0 ≤ ∑ j ∈ range k, w j ^ 2 := Finset.sum_nonneg fun _ _ => sq_nonneg _
  nlinarith

/-- The sum of the squares of the two dimensional weights. -/
theorem grid_sq (k : ℕ) (w : ℕ → ℝ) : ∑ q ∈ range (k * k), (w (q / k) * w (q % k)) ^ 2 = (∑ j ∈ range k, w j ^ 2) ^ 2 := by
  rcases Nat.eq_zero_or_pos k with rfl | hk
  · simp
  rw [sq (∑ j ∈ range k, w j ^ 2), Finset.sum_mul_sum, ← Finset.sum_product']
  refine Finset.sum_nbij' (fun q => (q / k, q % k)) (fun c => c.1 * k + c.2) ?_ ?_ ?_ ?_ ?_
  · intro q hq
    rw [Finset.mem_range] at hq
    simp only [Finset.mem_product, Finset.mem_range]
    exact ⟨Nat.div_lt_of_lt_mul hq, Nat.mod_lt _ hk⟩
  · intro c hc
    simp only [Finset.mem_product, Finset.mem_range] at hc ⊢
    calc c.1 * k + c.2 < (c.1 + 1) * k := by rw [Nat.add_mul, Nat.one_mul]; omega
      _ ≤ _ := Nat.mul_le_mul_right _ hc.1
  · intro q _
    dsimp only
    exact Nat.div_add_mod' q k
  · intro c hc
    simp only [Finset.mem_product, Finset.mem_range] at hc
    refine Prod.ext ?_ ?_
    · show (c.1 * k + c.2) / k = c.1
      rw [Nat.add_comm, Nat.add_mul_div_right _ _ hk, Nat.div_eq_of_lt hc.2, Nat.zero_add]
    · show (c.1 * k + c.2) % k = c.2
      rw [Nat.add_comm, Nat.add_mul_mod_self_right, Nat.mod_eq_of_lt hc.2]
  · intro q _
    ring

/-- An operator of order 0 has the same value everywhere. -/
theorem DArr.eval_deg_zero {D : DArr} (h : D.deg = 0) (p : ℝ × ℝ) (i j : ℕ) : D.eval p i j = D.co i j 0 := by
  simp [DArr.eval, DArr.entry, HPoly.eval, h]

theorem offD_eval_zero {D : DArr} (h : D.deg = 0) (off : Option ℝ) (i j : ℕ) : (offD off D).co i j 0 = D.co i j 0 := by
  cases off with
  | none => rfl
  | some θ =>
    rw [← DArr.eval_deg_zero (D := offD (some θ) D) h (0, 0)]
    show (D.transform _).eval (0, 0) i j = _
    rw [DArr.transform_eval, DArr.eval_deg_zero h]

/-- The filter of an operator of order 0 is at least a quarter of the operator. -/
theorem fdSample_sq {fd : ℕ → List ℝ → ℕ → ℝ} (hfd : FDSpec fd) {k d so si : ℕ} (hk : 0 < k) (hd : 0 < d) {off : Option ℝ} {D : DArr} (h : D.deg = 0)
    {f : ℕ → Mat} (hf : fdSample fd k d so si off D = some f) :
    1 / 4 * ∑ i ∈ range so, ∑ j ∈ range si, D.eval (1, 0) i j ^ 2 ≤ sqNorm so si (k * k) fun i j q => f q i j := by
  obtain ⟨-, h2⟩ := fdSample_spec hf
  rw [sqNorm, Finset.mul_sum]
  refine Finset.sum_le_sum fun i hi => ?_
  rw [Finset.mul_sum]
  refine Finset.sum_le_sum fun j hj => ?_
  have h3 : ∀ q, f q i j = D.eval (1, 0) i j * (fd 0 (axisPts k d) (q / k) * fd 0 (axisPts k d) (q % k)) := by
    intro q
    rw [h2 q i (Finset.mem_range.1 hi) j (Finset.mem_range.1 hj)]
    dsimp only
    rw [offD_deg, h, DArr.eval_deg_zero h]
    simp [offD_eval_zero h]
  rw [Finset.sum_congr rfl fun q _ => by rw [h3 q, mul_pow], ← Finset.mul_sum, grid_sq, mul_comm]
  have := fd_zero_sq hfd hk hd
  refine mul_le_mul_of_nonneg_left ?_ (sq_nonneg _)
  nlinarith

/-! ### The operator of order 0 -/

/-- The space has operators for all pairs of the irreps `P`, of the orders which their attributes tell, and the identity up to the sign is one of order 0. -/
def DiffopGen.Full (G : DiffopGen El) (P : Irrep El → Prop) : Prop :=
  ∀ f : ℕ, ∃ bas, G.bas (some (f : ℤ)) none = some bas ∧ (∀ i o, P i → P o → ∃ l, bas i o = some l ∧ ∀ e ∈ l, (G.cf i o e).deg = e.mu.natAbs) ∧
    ∀ i, P i → ∃ l, bas i i = some l ∧ ∃ e ∈ l, e.mu = 0 ∧ (G.cf i i e).eval (1, 0) 0 0 ^ 2 = 1

/-- Only an irrep and itself have operators of order 0. -/
def DiffopGen.Sep (G : DiffopGen El) (P : Irrep El → Prop) : Prop :=
  ∀ mf mo bas, G.bas mf mo = some bas → ∀ i o, P i → P o → ∀ l, bas i o = some l → ∀ e ∈ l, e.mu = 0 → i = o

/-- The lists of operators are those of the kernels. -/
def DiffopGen.Like (G : DiffopGen El) (K : KernelGen El) : Prop :=
  ∀ mf mo, (G.bas mf mo).map (fun bas i o => (bas i o).map (List.map DElem.ang)) = K.bas mf mo

/-- The coefficients are those of `dSamp`. -/
def DiffopGen.Coefs (G : DiffopGen El) (P : Irrep El → Prop) (axis : ℝ) : Prop :=
  ∀ mf mo bas, G.bas mf mo = some bas → ∀ i o, P i → P o → ∀ l, bas i o = some l → ∀ e ∈ l,
    e.Ok ∧ (G.cf i o e).deg = e.mu.natAbs ∧ ∀ p, (G.cf i o e).eval p = (dSamp axis i o e).eval p

theorem DiffopGen.full_of {G : DiffopGen El} {K : KernelGen El} {P : Irrep El → Prop} (hK : K.Full P) (hsz : ∀ i, P i → i.size = 1 ∨ i.size = 2)
    (hl : G.Like K) {axis : ℝ} (hc : G.Coefs P axis) : G.Full P := by
  intro f
  obtain ⟨bas', hb', h1, h2⟩ := hK f
  have := hl (some (f : ℤ)) none
  rw [hb', Option.map_eq_some_iff] at this
  obtain ⟨bas, hb, rfl⟩ := this
  refine ⟨bas, hb, ?_, ?_⟩
  · intro i o hi ho
    obtain ⟨l', hl'⟩ := h1 i o hi ho
    obtain ⟨l, hl, -⟩ := Option.map_eq_some_iff.1 hl'
    exact ⟨l, hl, fun e he => (hc _ _ _ hb i o hi ho l hl e he).2.1⟩
  · intro i hi
    obtain ⟨l', hl', e', he', hmu, hone⟩ := h2 i hi
    obtain ⟨l, hl, rfl⟩ := Option.map_eq_some_iff.1 hl'
    obtain ⟨e, he, rfl⟩ := List.mem_map.1 he'
    refine ⟨l, hl, e, he, hmu, ?_⟩
    obtain ⟨hok, -, hev⟩ := hc _ _ _ hb i i hi hi l hl e he
    have hp : 0 < i.size := by rcases hsz i hi with h | h <;> omega
    have hr : radius (1, 0) = 1 := by simp [radius]
    have ha : angle (1, 0) = some (Complex.arg ⟨1, 0⟩) := by
      unfold angle
      rw [if_neg]
      rw [hr]; norm_num
    rw [hev, dSamp_unit (hsz i hi) (hsz i hi) axis hok (1, 0) hr 0 hp 0 hp]
    simp only [polar, ha, one_mul, angSample]
    rw [if_neg (by simp), hone _ 0 hp 0 hp]
    simp only [Mat.one, if_true, mul_one, dSign]
    split_ifs
    · rw [← pow_mul, mul_comm, pow_mul]; norm_num
    · norm_num

theorem DiffopGen.sep_of {G : DiffopGen El} {K : KernelGen El} {P : Irrep El → Prop} (hK : K.Sep P) (hl : G.Like K) : G.Sep P := by
  intro mf mo bas hb i o hi ho l hbl e he hmu
  have := hl mf mo
  rw [hb, Option.map_some] at this
  refine hK mf mo _ this.symm i o hi ho (l.map DElem.ang) (by simp only [hbl, Option.map_some]) e.ang (List.mem_map_of_mem he) hmu

theorem steerable_fields' {E : Type} {bas : Irrep El → Irrep El → Option (List E)} {rin rout : Repr El} {S : SBasis El E}
    (hS : steerable bas rin rout = some S) : S.ins = rin.irreps ∧ S.outs = rout.irreps ∧ S.bases = fun i o => (bas i o).getD [] := by
  classical
  unfold steerable at hS
  split at hS
  swap; · exact absurd hS (by simp)
  cases hS
  exact ⟨rfl, rfl, rfl⟩

/-- The element of order 0 of the basis for two representations which share an irrep. -/
theorem diffopBasis_centre {G : DiffopGen El} {P : Irrep El → Prop} (hG : G.Full P) (hP : ∀ i, P i → i.size = 1 ∨ i.size = 2) {rin rout : Repr El}
    (hPi : ∀ i ∈ rin.irreps, P i) (hPo : ∀ i ∈ rout.irreps, P i) (f pw : ℕ) :
    ∃ l, buildDiffopBasis G pw (some (f : ℤ)) none rin rout = some l ∧ (l.map fun b => diffopId b.1).Nodup ∧ (∀ b ∈ l, b.2.deg = b.1.order) ∧
      (rin.WF → rin.OrthCob → rout.OrthCob → ∀ ψ ∈ rin.irreps, ψ ∈ rout.irreps → ∀ j ≤ pw,
        ∃ b ∈ l, b.1.order = 2 * j ∧ b.1.angular.outIrrep = ψ ∧ ∃ M : Mat, (∀ p x y, b.2.eval p x y = radius p ^ (2 * j) * M x y) ∧
          1 ≤ ∑ o ∈ range rout.size, ∑ p ∈ range rin.size, M o p ^ 2) := by
  classical
  obtain ⟨bas, hbas, hall, hid⟩ := hG f
  obtain ⟨S, hS⟩ : ∃ S, steerable bas rin rout = some S := by
    unfold steerable
    rw [if_pos (fun i hi o ho => by obtain ⟨l, hl, -⟩ := hall i o (hPi i hi) (hPo o ho); rw [hl]; simp)]
    exact ⟨_, rfl⟩
  obtain ⟨f1, f2, f3⟩ := steerable_fields' hS
  have hdeg : ∀ a ∈ S.iter, (G.cf a.inIrrep a.outIrrep a.elem).deg = a.elem.mu.natAbs := by
    intro a ha
    obtain ⟨b, hb⟩ := List.mem_iff_getElem?.1 ha
    obtain ⟨g1, g2, g3, -⟩ := SBasis.iter_get S hb
    rw [f1] at g1
    rw [f2] at g2
    obtain ⟨l, hl, h⟩ := hall _ _ (hPi _ (List.mem_of_getElem? g1)) (hPo _ (List.mem_of_getElem? g2))
    rw [f3] at g3
    simp only [hl, Option.getD_some] at g3
    exact h _ (List.mem_of_getElem? g3)
  refine ⟨_, by unfold buildDiffopBasis; rw [hbas]; dsimp only; rw [hS, Option.map_some], diffopBasis_ids S G.cf pw, ?_, ?_⟩
  · intro b hb
    obtain ⟨h, h1, -, hz⟩ := tensor_zip S G.cf pw
    rw [hz] at hb
    obtain ⟨p, hp, rfl⟩ := List.mem_map.1 hb
    rw [h1, TensorAttr.order, hdeg _ (mem_tensorPairs (mem_enum hp)).1]
  intro hwf hio hoo ψ hψi hψo j hj
  obtain ⟨l, hl, e, he, hmu, hone⟩ := hid ψ (hPi ψ hψi)
  obtain ⟨ii, hii⟩ := List.mem_iff_getElem?.1 hψi
  obtain ⟨oo, hoo'⟩ := List.mem_iff_getElem?.1 hψo
  obtain ⟨t, ht⟩ := List.mem_iff_getElem?.1 he
  obtain ⟨b, hb, a, ha, hkey⟩ := SBasis.exists_index S (f1 ▸ hii) (f2 ▸ hoo') (k := t) (e := e) (by rw [f3]; simp only [hl, Option.getD_some]; exact ht)
  obtain ⟨g1, g2, g3, g4⟩ := SBasis.iter_get S ha
  simp only [SBasis.Attr.key, Prod.mk.injEq] at hkey
  obtain ⟨⟨e1, e2⟩, e3⟩ := hkey
  have k1 := g1
  have k2 := g2
  rw [e1, f1, hii] at g1
  rw [e2, f2, hoo'] at g2
  have q1 : a.inIrrep = ψ := (Option.some.inj g1).symm
  have q2 : a.outIrrep = ψ := (Option.some.inj g2).symm
  rw [q1, q2, e3, f3] at g3
  simp only [hl, Option.getD_some, ht] at g3
  have q3 : a.elem = e := (Option.some.inj g3).symm
  have hlen : b < (S.dCoefs G.cf).length := by rw [S.length_dCoefs]; exact hb
  obtain ⟨T, hT, -, hTe⟩ := tensor_get (S.dCoefs G.cf) pw b j hlen (by omega)
  have hDb : (S.dCoefs G.cf)[b]? = some (S.dCoefs G.cf)[b] := List.getElem?_eq_getElem hlen
  have hcd : (G.cf a.inIrrep a.outIrrep a.elem).deg = 0 := by
    rw [hdeg a (List.mem_of_getElem? ha), q3, hmu]
    rfl
  have hD0 : (S.dCoefs G.cf)[b].deg = 0 := by
    obtain ⟨-, -, a', ha', hd⟩ := S.dCoefs_eval G.cf b hDb (1, 0)
    rw [SBasis.getItem_eq, ha] at ha'
    obtain rfl := Option.some.inj ha'
    rw [hd, hcd]
  -- the attributes of the element
  have hattr : (tensorIter S pw)[b * (pw + 1) + j]? = some ⟨a, j, b * (pw + 1) + j, a.idx, j⟩ := by
    have : (tensorPairs S pw)[b * (pw + 1) + j]? = some (a, j) := by
      rw [tensorPairs, flatMap_const_get S.iter (fun a => (List.range (pw + 1)).map fun k => (a, k)) (pw + 1) (by simp) b j (by omega), ha]
      simp [show j < pw + 1 by omega]
    rw [tensorIter, List.getElem?_map]
    show Option.map _ ((SBasis.enum (tensorPairs S pw))[b * (pw + 1) + j]?) = _
    rw [SBasis.enum_getElem?, this]
    rfl
  refine ⟨(⟨a, j, b * (pw + 1) + j, a.idx, j⟩, T), ?_, ?_, q2, fun x y => (S.dCoefs G.cf)[b].co x y 0, ?_, ?_⟩
  · exact List.mem_of_getElem? (List.getElem?_zip_eq_some.2 ⟨hattr, hT⟩)
  · simp [TensorAttr.order, q3, hmu]
  · intro p x y
    show T.eval p x y = _
    rw [hTe, DArr.eval_deg_zero hD0]
  · have hsl := (S.dCoefs_eval G.cf b hDb (1, 0)).1
    have h1 := sample_slice bas (fun i o e p => (G.cf i o e).eval p) rin rout hS (1, 0) b
    have hco : ∀ o p, (S.dCoefs G.cf)[b].co o p 0 = (S.sample (fun i o e p => (G.cf i o e).eval p) (1, 0)).slice b o p := fun o p => by
      rw [← DArr.eval_deg_zero hD0 (1, 0), hsl]
    simp only [hco]
    rw [Finset.sum_congr rfl fun o ho => Finset.sum_congr rfl fun p hp => by rw [h1 o (Finset.mem_range.1 ho) p (Finset.mem_range.1 hp)]]
    have hci : MEq rin.size rin.size rin.cobInv (tr rin.cob) := hwf.unique hio
    rw [orth_mul_sq (B := rout.cob) (A := rin.cobInv) hoo.2 ((hci.mul hci.tr).trans hio.2)]
    rw [SBasis.sampleDirectSum_slice (fun i o e p => (G.cf i o e).eval p) S (1, 0) ha]
    rw [f1] at k1
    rw [f2] at k2
    rw [f1, f2]
    have o1 : offset (rin.irreps.map Irrep.size) a.inIdx + a.inIrrep.size ≤ rin.size := by
      obtain ⟨hlt, hg⟩ := List.getElem?_eq_some_iff.1 k1
      have := offset_add_le (rin.irreps.map Irrep.size) (k := a.inIdx) (by simpa using hlt)
      rw [List.getElem_map, hg] at this
      exact this
    have o2 : offset (rout.irreps.map Irrep.size) a.outIdx + a.outIrrep.size ≤ rout.size := by
      obtain ⟨hlt, hg⟩ := List.getElem?_eq_some_iff.1 k2
      have := offset_add_le (rout.irreps.map Irrep.size) (k := a.outIdx) (by simpa using hlt)
      rw [List.getElem_map, hg] at this
      exact this
    have hs : 0 < ψ.size := by rcases hP ψ (hPi ψ hψi) with h | h <;> omega
    rw [q1] at o1 ⊢
    rw [q2] at o2 ⊢
    set u := offset (rin.irreps.map Irrep.size) a.inIdx
    set v := offset (rout.irreps.map Irrep.size) a.outIdx
    refine le_trans ?_ (Finset.single_le_sum (fun o _ => Finset.sum_nonneg fun p _ => sq_nonneg _) (Finset.mem_range.2 (show v < rout.size by omega)))
    refine le_trans ?_ (Finset.single_le_sum (fun p _ => sq_nonneg _) (Finset.mem_range.2 (show u < rin.size by omega)))
    have h2 : Mat.place v ψ.size u ψ.size ((G.cf ψ ψ a.elem).eval (1, 0)) v u ^ 2 = 1 := by
      unfold Mat.place
      rw [if_pos ⟨⟨le_refl _, by omega⟩, le_refl _, by omega⟩, Nat.sub_self, Nat.sub_self, q3]
      exact hone
    rw [h2]

end E2
