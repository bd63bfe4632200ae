import Verif.Lemmas.DiffopComplete
import Verif.Props.SteerableComplete

/-!
# C72: the bases of differential operators are bases of the spaces of equivariant operators

Specification: `KernelConstraint` (Props/KernelSpec.lean) for the symbols of the operators (see Props/Diffops.lean).
-/

set_option linter.unusedSimpArgs false

namespace E2

open Finset Mat Real

variable {El : Type}

/-- The operators of a list, of shape `(n, m)`, are linearly independent (as functions of the point at which the symbol is evaluated). -/
def DIndependent (n m : ℕ) (l : List DArr) : Prop :=
  LinearIndependent ℝ fun (k : Fin l.length) (p : ℝ × ℝ) (a : Fin n) (b : Fin m) => l[k].eval p a b

/-- The operator `D` is a linear combination of those operators of a list that have the order of `D`. -/
def DSpans (n m : ℕ) (l : List DArr) (D : DArr) : Prop :=
  ∃ w : Fin l.length → ℝ, (∀ k, w k ≠ 0 → l[k].deg = D.deg) ∧ ∀ p, MEq n m (D.eval p) fun a b => ∑ k, w k * l[k].eval p a b

theorem angSample_freq (axis : ℝ) (so si : ℕ) (e : AngElem) (i j : ℕ) : (fun φ : ℝ => angSample axis so si e (some φ) i j) ∈ Freq e.mu.natAbs := by
  have hc : ∀ c : ℝ, (fun φ : ℝ => c * cos (e.mu * (φ - axis) + e.gamma)) ∈ Freq e.mu.natAbs := fun c => by
    have := Submodule.smul_mem _ c (freq_int e.mu (e.gamma - e.mu * axis))
    convert this using 1
    funext φ
    simp only [Pi.smul_apply, smul_eq_mul]
    congr 2; ring
  have hs : ∀ c : ℝ, (fun φ : ℝ => c * sin (e.mu * (φ - axis) + e.gamma)) ∈ Freq e.mu.natAbs := fun c => by
    have := Submodule.smul_mem _ c (freq_int e.mu (e.gamma - e.mu * axis - π / 2))
    convert this using 1
    funext φ
    simp only [Pi.smul_apply, smul_eq_mul]
    rw [← Real.cos_sub_pi_div_two]
    congr 2; ring
  have h0 : (fun _ : ℝ => (0 : ℝ)) ∈ Freq e.mu.natAbs := Submodule.zero_mem _
  simp only [angSample, reduceCtorEq, false_and, if_false, Option.getD_some, angMat]
  split_ifs
  · simp only [psichi]
    rcases i with _ | _ | i <;> rcases j with _ | _ | j <;> simp only [m2]
    · simpa using hc 1
    · by_cases h : e.s ≠ 0
      · simpa [h] using hs 1
      · simpa [h] using hs (-1)
    · exact h0
    · simpa using hs 1
    · exact hc _
    all_goals exact h0
  · dsimp only
    split_ifs
    · simpa using hc 1
    · simpa using hs 1
    · exact h0
  · dsimp only
    split_ifs
    · simpa using hc 1
    · simpa using hs 1
    · exact h0
  · rcases i with _ | i <;> rcases j with _ | j <;> simp only [m1]
    · simpa using hc 1
    all_goals exact h0
  · exact h0

theorem iterLoop_map {E E' : Type} (f : E → E') {bases : Irrep El → Irrep El → List E} {bases' : Irrep El → Irrep El → List E'}
    (h : ∀ i o, bases' i o = (bases i o).map f) (ps : List ((ℕ × Irrep El) × (ℕ × Irrep El))) (c : ℕ) :
    SBasis.iterLoop bases' ps c = (SBasis.iterLoop bases ps c).map fun a => ⟨a.inIrrep, a.outIrrep, a.inIdx, a.outIdx, a.innerIdx, f a.elem, a.idx⟩ := by
  induction ps generalizing c with
  | nil => rfl
  | cons p ps ih =>
    obtain ⟨⟨ii, i⟩, oo, o⟩ := p
    simp only [SBasis.iterLoop, List.map_append, ih, h, List.length_map, List.map_map]
    congr 1
    simp only [SBasis.enum, List.zipIdx_map, List.map_map]
    rfl

/-- The operators of a steerable basis are, on the circle and up to a factor, the kernels of the corresponding basis of kernels. -/
theorem dCoefs_circle {axis : ℝ} {bas : Irrep El → Irrep El → Option (List DElem)} {basK : Irrep El → Irrep El → Option (List AngElem)}
    (hmap : ∀ i o, (bas i o).map (List.map DElem.ang) = basK i o) {cf : Irrep El → Irrep El → DElem → DArr} {rin rout : Repr El}
    {K : SBasis El AngElem} (hK : steerable basK rin rout = some K)
    (hcf : ∀ i ∈ rin.irreps, ∀ o ∈ rout.irreps, ∀ l, bas i o = some l → ∀ e ∈ l, (cf i o e).deg = e.mu.natAbs ∧
      ∃ ε : ℝ, ε ≠ 0 ∧ ∀ φ : ℝ, MEq o.size i.size ((cf i o e).eval (cos φ, sin φ)) fun a b => ε * angSample axis o.size i.size e.ang (some φ) a b) :
    ∃ S, steerable bas rin rout = some S ∧ (S.dCoefs cf).length = K.dim ∧ ∀ k < K.dim,
      (∃ ε : ℝ, ε ≠ 0 ∧ ∀ φ : ℝ, MEq rout.size rin.size ((elt (S.dCoefs cf) k).eval (cos φ, sin φ))
        fun a b => ε * (K.sample (angSamp axis) (some φ)).slice k a b) ∧
      ∀ a < rout.size, ∀ b < rin.size, (fun φ => (elt (S.dCoefs cf) k).eval (cos φ, sin φ) a b) ∈ Freq (elt (S.dCoefs cf) k).deg := by
  classical
  obtain ⟨S, hS⟩ : ∃ S, steerable bas rin rout = some S := by
    unfold steerable at hK ⊢
    split at hK
    swap; · exact absurd hK (by simp)
    rename_i hne
    rw [if_pos]
    · exact ⟨_, rfl⟩
    · intro i hi o ho h
      exact hne i hi o ho (by rw [← hmap, h]; rfl)
  obtain ⟨k1, k2, k3⟩ := steerable_fields hK
  have hSf : S.ins = rin.irreps ∧ S.outs = rout.irreps ∧ S.bases = fun i o => (bas i o).getD [] := by
    unfold steerable at hS
    split at hS
    swap; · exact absurd hS (by simp)
    cases hS
    exact ⟨rfl, rfl, rfl⟩
  obtain ⟨s1, s2, s3⟩ := hSf
  have hb : ∀ i o, K.bases i o = (S.bases i o).map DElem.ang := by
    intro i o
    rw [k3, s3]
    dsimp only
    rw [← hmap]
    cases bas i o <;> rfl
  have hiter : K.iter = S.iter.map fun a => ⟨a.inIrrep, a.outIrrep, a.inIdx, a.outIdx, a.innerIdx, a.elem.ang, a.idx⟩ := by
    unfold SBasis.iter
    rw [show K.pairs = S.pairs by simp [SBasis.pairs, k1, k2, s1, s2]]
    exact iterLoop_map DElem.ang hb _ _
  have hdim : S.dim = K.dim := by rw [← S.length_iter, ← K.length_iter, hiter, List.length_map]
  refine ⟨S, hS, by rw [S.length_dCoefs, hdim], fun k hk => ?_⟩
  obtain ⟨D, hD⟩ : ∃ D, (S.dCoefs cf)[k]? = some D := ⟨_, List.getElem?_eq_getElem (by rw [S.length_dCoefs, hdim]; exact hk)⟩
  rw [elt_eq hD]
  obtain ⟨-, -, a, ha, hdeg⟩ := S.dCoefs_eval cf k hD (0, 0)
  rw [S.getItem_eq] at ha
  obtain ⟨a1, a2, a3, -⟩ := S.iter_get ha
  have hmem1 : a.inIrrep ∈ rin.irreps := by rw [← s1]; exact List.mem_of_getElem? a1
  have hmem2 : a.outIrrep ∈ rout.irreps := by rw [← s2]; exact List.mem_of_getElem? a2
  have hl : bas a.inIrrep a.outIrrep = some (S.bases a.inIrrep a.outIrrep) := by
    rw [s3] at a3 ⊢
    dsimp only at a3 ⊢
    cases hb : bas a.inIrrep a.outIrrep with
    | none => rw [hb] at a3; simp at a3
    | some l => rfl
  obtain ⟨hd, ε, hε, hcirc⟩ := hcf _ hmem1 _ hmem2 _ hl _ (List.mem_of_getElem? a3)
  have haK : K.iter[k]? = some ⟨a.inIrrep, a.outIrrep, a.inIdx, a.outIdx, a.innerIdx, a.elem.ang, a.idx⟩ := by
    rw [hiter, List.getElem?_map, ha]; rfl
  -- both are changes of basis of a block
  have hDe : ∀ φ : ℝ, MEq rout.size rin.size (D.eval (cos φ, sin φ)) (Mat.mul rout.size rout.cob (Mat.mul rin.size
      (fun x y => ε * Mat.place (offset (S.outs.map Irrep.size) a.outIdx) a.outIrrep.size (offset (S.ins.map Irrep.size) a.inIdx) a.inIrrep.size
        (angSample axis a.outIrrep.size a.inIrrep.size a.elem.ang (some φ)) x y) rin.cobInv)) := by
    intro φ
    rw [(S.dCoefs_eval cf k hD (cos φ, sin φ)).1]
    refine (sample_slice bas _ rin rout hS _ k).trans ((MEq.refl _).mul (MEq.mul ?_ (MEq.refl _)))
    rw [SBasis.sampleDirectSum_slice _ _ _ ha]
    intro x _ y _
    simp only [Mat.place]
    split_ifs with h
    · exact hcirc φ _ (by omega) _ (by omega)
    · simp
  have hKe : ∀ φ : ℝ, MEq rout.size rin.size ((K.sample (angSamp axis) (some φ)).slice k) (Mat.mul rout.size rout.cob (Mat.mul rin.size
      (Mat.place (offset (S.outs.map Irrep.size) a.outIdx) a.outIrrep.size (offset (S.ins.map Irrep.size) a.inIdx) a.inIrrep.size
        (angSample axis a.outIrrep.size a.inIrrep.size a.elem.ang (some φ))) rin.cobInv)) := by
    intro φ
    refine (sample_slice basK _ rin rout hK _ k).trans ((MEq.refl _).mul (MEq.mul ?_ (MEq.refl _)))
    rw [SBasis.sampleDirectSum_slice _ _ _ haK, k1, k2, s1, s2]
    exact MEq.refl _
  refine ⟨⟨ε, hε, fun φ x hx y hy => ?_⟩, fun x hx y hy => ?_⟩
  · dsimp only
    rw [hDe φ x hx y hy, hKe φ x hx y hy]
    simp only [Mat.mul, Finset.mul_sum, Finset.sum_mul]
    exact Finset.sum_congr rfl fun _ _ => Finset.sum_congr rfl fun _ _ => by ring
  · rw [hdeg, hd]
    rw [show (fun φ => D.eval (cos φ, sin φ) x y) = ∑ z ∈ range rout.size, ∑ z' ∈ range rin.size,
        (rout.cob x z * ε * rin.cobInv z' y) • fun φ => Mat.place (offset (S.outs.map Irrep.size) a.outIdx) a.outIrrep.size
          (offset (S.ins.map Irrep.size) a.inIdx) a.inIrrep.size (angSample axis a.outIrrep.size a.inIrrep.size a.elem.ang (some φ)) z z' by
      funext φ
      rw [hDe φ x hx y hy]
      simp only [Mat.mul, Finset.mul_sum, Finset.sum_apply, Pi.smul_apply, smul_eq_mul]
      exact Finset.sum_congr rfl fun _ _ => Finset.sum_congr rfl fun _ _ => by ring]
    refine Submodule.sum_mem _ fun z _ => Submodule.sum_mem _ fun z' _ => Submodule.smul_mem _ _ ?_
    simp only [Mat.place]
    split_ifs with h
    · exact angSample_freq axis _ _ a.elem.ang _ _
    · exact Submodule.zero_mem _

/-- **C72, general form.** If the kernels that correspond to the operators are independent, so are the products of the operators with the powers of the Laplacian; and every
homogeneous symbol that is spanned by these kernels is a combination of the products of its order. -/
theorem tensor_complete {axis : ℝ} {bas : Irrep El → Irrep El → Option (List DElem)} {basK : Irrep El → Irrep El → Option (List AngElem)}
    (hmap : ∀ i o, (bas i o).map (List.map DElem.ang) = basK i o) {cf : Irrep El → Irrep El → DElem → DArr} {rin rout : Repr El}
    (hcf : ∀ i ∈ rin.irreps, ∀ o ∈ rout.irreps, ∀ l, bas i o = some l → ∀ e ∈ l, (cf i o e).deg = e.mu.natAbs ∧
      ∃ ε : ℝ, ε ≠ 0 ∧ ∀ φ : ℝ, MEq o.size i.size ((cf i o e).eval (cos φ, sin φ)) fun a b => ε * angSample axis o.size i.size e.ang (some φ) a b)
    {K : SBasis El AngElem} (hK : steerable basK rin rout = some K) (hind : K.Independent axis rout.size rin.size) (maxPower : ℕ) :
    ∃ l, tensorBasis bas cf rin rout maxPower = some l ∧ DIndependent rout.size rin.size l ∧
      ∀ D : DArr, D.deg / 2 ≤ maxPower → K.Spans axis rout.size rin.size D.eval → DSpans rout.size rin.size l D := by
  obtain ⟨S, hS, hlen, hk⟩ := dCoefs_circle hmap hK hcf
  have hk' := fun (k : ℕ) (h : k < K.dim) => (hk k h).1
  choose! ε hε hcirc using hk'
  set as := S.dCoefs cf with has
  have htl : (tensorCoefs as (laplaceProfile maxPower)).length = as.length * (maxPower + 1) := tensor_length as maxPower
  refine ⟨tensorCoefs as (laplaceProfile maxPower), by rw [tensorBasis, hS]; rfl, ?_, fun D hP hD => ?_⟩
  · unfold DIndependent
    rw [Fintype.linearIndependent_iff]
    intro g hg i
    let w : ℕ → ℝ := fun k => if h : k < (tensorCoefs as (laplaceProfile maxPower)).length then g ⟨k, h⟩ else 0
    have key := tensor_independent (n := rout.size) (m := rin.size) as maxPower (by
      intro c hc
      unfold SBasis.Independent at hind
      rw [Fintype.linearIndependent_iff] at hind
      have := hind (fun k => c k * ε k) (by
        funext φ a b
        simp only [Finset.sum_apply, Pi.smul_apply, smul_eq_mul, Pi.zero_apply]
        refine Eq.trans ?_ (hc φ a a.2 b b.2)
        dsimp only
        rw [hlen, Finset.sum_range]
        refine Finset.sum_congr rfl fun k _ => ?_
        rw [hcirc k k.2 φ a a.2 b b.2]
        ring)
      intro k h
      rw [hlen] at h
      have := this ⟨k, h⟩
      exact (mul_eq_zero.1 this).resolve_right (hε k h)) w (by
      intro p a ha b hb
      have := congrFun (congrFun (congrFun hg p) ⟨a, ha⟩) ⟨b, hb⟩
      simp only [Finset.sum_apply, Pi.smul_apply, smul_eq_mul, Pi.zero_apply] at this
      refine Eq.trans ?_ this
      dsimp only
      rw [← htl, Finset.sum_range]
      refine Finset.sum_congr rfl fun k _ => ?_
      rw [elt_lt k.2]
      simp [w]) ((i : ℕ) / (maxPower + 1)) ((i : ℕ) % (maxPower + 1))
      ((Nat.div_lt_iff_lt_mul (Nat.succ_pos _)).2 (by rw [← htl]; exact i.2)) (Nat.mod_lt _ (Nat.succ_pos _))
    rw [show (i : ℕ) / (maxPower + 1) * (maxPower + 1) + (i : ℕ) % (maxPower + 1) = i by rw [Nat.mul_comm]; exact Nat.div_add_mod _ _] at key
    simpa [w] using key
  · obtain ⟨c, hc⟩ := hD
    obtain ⟨w, hw1, hw2⟩ := tensor_spans (n := rout.size) (m := rin.size) as maxPower (fun k h => (hk k (by rw [← hlen]; exact h)).2) D hP
      (fun k => c k 1 / ε k) (by
      intro φ a ha b hb
      have hr : radius (cos φ, sin φ) = 1 := by have := radius_circle (r := 1) zero_le_one φ; simpa using this
      have hang : ∀ k, (elt as k).eval (cos φ, sin φ) = (elt as k).eval (cos (Complex.arg ⟨cos φ, sin φ⟩), sin (Complex.arg ⟨cos φ, sin φ⟩)) := by
        intro k
        obtain ⟨h1, h2⟩ := polar_coords (cos φ, sin φ)
        rw [hr, one_mul] at h1 h2
        dsimp only at h1 h2
        rw [← h1, ← h2]
      have := hc (cos φ, sin φ) (Or.inr (by rw [hr]; norm_num)) a ha b hb
      refine this.trans ?_
      dsimp only
      rw [hlen, hr]
      refine Finset.sum_congr rfl fun k hk => ?_
      have hk' := Finset.mem_range.1 hk
      have ha' : angle (cos φ, sin φ) = some (Complex.arg ⟨cos φ, sin φ⟩) := by
        unfold angle
        rw [if_neg]
        rw [hr]; norm_num
      rw [ha', hang, hcirc k hk' _ a ha b hb]
      field_simp [hε k hk'])
    refine ⟨fun k => w k, fun k h => ?_, fun p a ha b hb => ?_⟩
    · have := hw1 k h
      rwa [elt_lt k.2] at this
    · refine (hw2 p a ha b hb).trans ?_
      dsimp only
      rw [← htl, Finset.sum_range]
      exact Finset.sum_congr rfl fun k _ => by rw [elt_lt k.2]; rfl

theorem dSamp_circle {i o : Irrep El} (hi : i.size = 1 ∨ i.size = 2) (ho : o.size = 1 ∨ o.size = 2) (axis : ℝ) {e : DElem} (he : e.Ok) :
    (dSamp axis i o e).deg = e.mu.natAbs ∧ ∃ ε : ℝ, ε ≠ 0 ∧ ∀ φ : ℝ, MEq o.size i.size ((dSamp axis i o e).eval (cos φ, sin φ))
      fun a b => ε * angSample axis o.size i.size e.ang (some φ) a b := by
  refine ⟨dSamp_deg _ _ _ _, dSign o.size i.size e, ?_, fun φ a ha b hb => ?_⟩
  · unfold dSign
    split_ifs
    · exact pow_ne_zero _ (by norm_num)
    · norm_num
  · have h1 := dAxis_eval axis (dCoef o.size i.size e) 1 φ a b
    rw [one_mul, one_mul] at h1
    refine h1.trans ((dCoef_eval ho hi he 1 (φ - axis) a ha b hb).trans ?_)
    simp [angSample]

/-- The symbols of order at most `F` have angular frequencies at most `F`. -/
theorem DArr.bandLimited (D : DArr) {F : ℕ} (hF : D.deg ≤ F) (n m : ℕ) : BandLimited n m F D.eval := by
  intro r _
  have h := fun i j => Trig.sum (DArr.trig D i j) hF
  choose a b h using h
  refine ⟨fun μ i j => r ^ D.deg * a i j μ, fun μ i j => r ^ D.deg * b i j μ, fun φ i _ j _ => ?_⟩
  dsimp only
  rw [DArr.eval_circle, h i j φ, Finset.mul_sum]
  exact Finset.sum_congr rfl fun μ _ => by ring

/-- **C72, SO(2).** For all representations and every maximum power of the Laplacian the basis is built, its operators are independent, and every homogeneous equivariant operator
whose order is at most twice this power (plus one) is a combination of the operators of its order in the basis. -/
theorem c72_so2 (rin rout : Repr ℝ) (hin : rin.WF) (hout : rout.WF) (hi : ∀ i ∈ rin.irreps, ∃ n, i = SO2.irrep n)
    (ho : ∀ o ∈ rout.irreps, ∃ m, o = SO2.irrep m) (maxPower : ℕ) :
    ∃ l, tensorBasis dCont (fun i o => dCoefCont o.size i.size) rin rout maxPower = some l ∧ DIndependent rout.size rin.size l ∧
      ∀ D : DArr, D.deg / 2 ≤ maxPower → KernelConstraint SO2.grp rot rout.size rin.size rout.mat rin.mat D.eval →
        DSpans rout.size rin.size l D := by
  obtain ⟨K, hK, h1, h2⟩ := c70_so2 rin rout hin hout hi ho
  obtain ⟨l, hl, hl1, hl2⟩ := tensor_complete (axis := 0) (bas := dCont) (cf := fun i o => dCoefCont o.size i.size) (dCont_ang) (fun i h o h' l hl e he => by
    obtain ⟨n, rfl⟩ := hi i h
    obtain ⟨m, rfl⟩ := ho o h'
    obtain ⟨h3, ε, h4, h5⟩ := dSamp_circle (SO2.size12 n) (SO2.size12 m) 0 (dCont_ok hl e he)
    refine ⟨(dCoefCont_eval (SO2.size12 n) (SO2.size12 m) hl he (0, 0)).1, ε, h4, fun φ => ?_⟩
    rw [(dCoefCont_eval (SO2.size12 n) (SO2.size12 m) hl he _).2]
    exact h5 φ) hK h1 maxPower
  exact ⟨l, hl, hl1, fun D hD hc => hl2 D hD (h2 D.eval hc)⟩

/-- **C72, O(2).** -/
theorem c72_o2 (axis : ℝ) (rin rout : Repr (ℤ × ℝ)) (hin : rin.WF) (hout : rout.WF) (hi : ∀ i ∈ rin.irreps, ∃ j n, O2.irrep j n = some i)
    (ho : ∀ o ∈ rout.irreps, ∃ j m, O2.irrep j m = some o) (maxPower : ℕ) :
    ∃ l, tensorBasis dFlipCont (dSamp axis) rin rout maxPower = some l ∧ DIndependent rout.size rin.size l ∧
      ∀ D : DArr, D.deg / 2 ≤ maxPower → KernelConstraint O2.grp (planeAct axis) rout.size rin.size rout.mat rin.mat D.eval →
        DSpans rout.size rin.size l D := by
  obtain ⟨K, hK, h1, h2⟩ := c70_o2 axis rin rout hin hout hi ho
  obtain ⟨l, hl, hl1, hl2⟩ := tensor_complete (axis := axis) (bas := dFlipCont) (cf := dSamp axis) dFlipCont_ang (fun i h o h' l hl e he => by
    obtain ⟨j, n, hn⟩ := hi i h
    obtain ⟨j', m, hm⟩ := ho o h'
    obtain ⟨-, -, -, -, gn, -⟩ := (c05_o2_irreps j n).2 i hn
    obtain ⟨-, -, -, -, gm, -⟩ := (c05_o2_irreps j' m).2 o hm
    have jn := (c05_o2_irreps j n).1.1 (by simp [hn])
    have jm := (c05_o2_irreps j' m).1.1 (by simp [hm])
    exact dSamp_circle (O2.size12 hn) (O2.size12 hm) axis (dFlipCont_ok (by omega) (by omega) hl e he)) hK h1 maxPower
  exact ⟨l, hl, hl1, fun D hD hc => hl2 D hD (h2 D.eval hc)⟩

/-- **C72, C_N** (and the trivial group, `N = 1`). For all representations, every maximum frequency `F` and every maximum power of the Laplacian the basis is built, its operators are
independent, and every homogeneous equivariant operator of order at most `F` (and at most twice the power, plus one) is a combination of the operators of its order in the basis. -/
theorem c72_cyclic (N : ℕ) (hN : 0 < N) (rin rout : Repr ℤ) (hin : rin.WF) (hout : rout.WF)
    (hi : ∀ i ∈ rin.irreps, ∃ n, Cyclic.irrep N n = some i) (ho : ∀ o ∈ rout.irreps, ∃ m, Cyclic.irrep N m = some o) (F maxPower : ℕ) :
    ∃ l, tensorBasis (fun i o => dRot N i o (some F) none) (dSamp 0) rin rout maxPower = some l ∧ DIndependent rout.size rin.size l ∧
      ∀ D : DArr, D.deg ≤ F → D.deg / 2 ≤ maxPower →
        KernelConstraint (Cyclic.grp N) (fun g => rot (g * (2 * π / N))) rout.size rin.size rout.mat rin.mat D.eval →
        DSpans rout.size rin.size l D := by
  obtain ⟨K, hK, h1, h2⟩ := c70_cyclic N hN rin rout hin hout hi ho F
  obtain ⟨l, hl, hl1, hl2⟩ := tensor_complete (axis := 0) (bas := fun i o => dRot N i o (some F) none) (cf := dSamp 0)
    (fun i o => dRot_ang N i o _ _) (fun i h o h' l hl e he => by
    obtain ⟨n, hn⟩ := hi i h
    obtain ⟨m, hm⟩ := ho o h'
    exact dSamp_circle (Cyclic.size12 hn) (Cyclic.size12 hm) 0 (dRot_ok hl e he)) hK h1 maxPower
  exact ⟨l, hl, hl1, fun D hF hD hc => hl2 D hD (h2 D.eval hc (D.bandLimited hF _ _))⟩

/-- **C72, reflections.** -/
theorem c72_flip (axis : ℝ) (rin rout : Repr ℤ) (hin : rin.WF) (hout : rout.WF)
    (hi : ∀ i ∈ rin.irreps, ∃ n, Cyclic.irrep 2 n = some i) (ho : ∀ o ∈ rout.irreps, ∃ m, Cyclic.irrep 2 m = some o) (F maxPower : ℕ) :
    ∃ l, tensorBasis (fun i o => dFlips i o (some F) none) (dSamp axis) rin rout maxPower = some l ∧ DIndependent rout.size rin.size l ∧
      ∀ D : DArr, D.deg ≤ F → D.deg / 2 ≤ maxPower →
        KernelConstraint (Cyclic.grp 2) (fun g p => if g = 0 then p else refl axis p) rout.size rin.size rout.mat rin.mat D.eval →
        DSpans rout.size rin.size l D := by
  obtain ⟨K, hK, h1, h2⟩ := c70_flip axis rin rout hin hout hi ho F
  obtain ⟨l, hl, hl1, hl2⟩ := tensor_complete (axis := axis) (bas := fun i o => dFlips i o (some F) none) (cf := dSamp axis)
    (fun i o => dFlips_ang i o _ _) (fun i h o h' l hl e he => by
    obtain ⟨n, hn⟩ := hi i h
    obtain ⟨m, hm⟩ := ho o h'
    exact dSamp_circle (Cyclic.size12 hn) (Cyclic.size12 hm) axis (dFlips_ok hl e he)) hK h1 maxPower
  exact ⟨l, hl, hl1, fun D hF hD hc => hl2 D hD (h2 D.eval hc (D.bandLimited hF _ _))⟩

/-- **C72, D_N.** -/
theorem c72_dihedral (N : ℕ) (hN : 0 < N) (axis : ℝ) (rin rout : Repr (ℤ × ℤ)) (hin : rin.WF) (hout : rout.WF)
    (hi : ∀ i ∈ rin.irreps, ∃ j n, Dihedral.irrep N j n = some i) (ho : ∀ o ∈ rout.irreps, ∃ j m, Dihedral.irrep N j m = some o)
    (F maxPower : ℕ) :
    ∃ l, tensorBasis (fun i o => dFlipRot N i o (some F) none) (dSamp axis) rin rout maxPower = some l ∧ DIndependent rout.size rin.size l ∧
      ∀ D : DArr, D.deg ≤ F → D.deg / 2 ≤ maxPower →
        KernelConstraint (Dihedral.grp N) (fun g => planeAct axis (g.1, g.2 * (2 * π / N))) rout.size rin.size rout.mat rin.mat D.eval →
        DSpans rout.size rin.size l D := by
  obtain ⟨K, hK, h1, h2⟩ := c70_dihedral N hN axis rin rout hin hout hi ho F
  obtain ⟨l, hl, hl1, hl2⟩ := tensor_complete (axis := axis) (bas := fun i o => dFlipRot N i o (some F) none) (cf := dSamp axis)
    (fun i o => dFlipRot_ang N i o _ _) (fun i h o h' l hl e he => by
    obtain ⟨j, n, hn⟩ := hi i h
    obtain ⟨j', m, hm⟩ := ho o h'
    have jn := (Dihedral.irrep_isSome N j n).1 (by simp [hn])
    have jm := (Dihedral.irrep_isSome N j' m).1 (by simp [hm])
    obtain ⟨-, gn⟩ := Dihedral.irrep_freq hn
    obtain ⟨-, gm⟩ := Dihedral.irrep_freq hm
    exact dSamp_circle (Dihedral.size12 hn) (Dihedral.size12 hm) axis (dFlipRot_ok (by omega) (by omega) hl e he)) hK h1 maxPower
  exact ⟨l, hl, hl1, fun D hF hD hc => hl2 D hD (h2 D.eval hc (D.bandLimited hF _ _))⟩

/-- A combination of the elements of a list that a filter keeps. -/
theorem filter_sum (q : DArr → Bool) (l : List DArr) (w : Fin l.length → ℝ) (hw : ∀ k, w k ≠ 0 → q l[k] = true) (l' : List DArr) (hl' : l.filter q = l') :
    ∃ w' : Fin l'.length → ℝ, (∀ k, w' k ≠ 0 → ∃ k0, w k0 ≠ 0 ∧ l[k0] = l'[k]) ∧ ∀ X : DArr → ℝ, ∑ k, w k * X l[k] = ∑ k, w' k * X l'[k] := by
  induction l generalizing l' with
  | nil => subst hl'; exact ⟨fun _ => 0, fun k => k.elim0, fun X => rfl⟩
  | cons x l ih =>
    obtain ⟨w', h1, h2⟩ := ih (fun k => w k.succ) (fun k h => hw k.succ h) (l.filter q) rfl
    by_cases hx : q x = true
    · rw [List.filter_cons_of_pos hx] at hl'
      subst hl'
      refine ⟨Fin.cons (w 0) w', fun k => ?_, fun X => ?_⟩
      · refine Fin.cases (fun h => ⟨0, h, rfl⟩) (fun k h => ?_) k
        obtain ⟨k0, h3, h4⟩ := h1 k h
        exact ⟨k0.succ, h3, h4⟩
      · refine (Fin.sum_univ_succ _).trans (Eq.trans ?_ (Fin.sum_univ_succ _).symm)
        exact congrArg₂ (· + ·) rfl (h2 X)
    · rw [List.filter_cons_of_neg hx] at hl'
      subst hl'
      refine ⟨w', fun k h => ?_, fun X => ?_⟩
      · obtain ⟨k0, h3, h4⟩ := h1 k h
        exact ⟨k0.succ, h3, h4⟩
      · refine (Fin.sum_univ_succ _).trans ?_
        have h0 : w 0 = 0 := by
          by_contra h
          exact hx (hw 0 h)
        rw [h0, zero_mul, zero_add]
        exact h2 X

/-- The operators of order at most `maxOrder` that the layers keep (`order_filter`, r2diffop.py:754-755) are independent as well, and an operator spanned by the operators of its order
remains so if its order is at most `maxOrder`. -/
theorem c72_filter {n m : ℕ} {l : List DArr} (hl : DIndependent n m l) (maxOrder : ℕ) :
    DIndependent n m (l.filter fun T => decide (T.deg ≤ maxOrder)) ∧
    ∀ D : DArr, D.deg ≤ maxOrder → DSpans n m l D → DSpans n m (l.filter fun T => decide (T.deg ≤ maxOrder)) D := by
  have hsub : (l.filter fun T => decide (T.deg ≤ maxOrder)).Sublist l := List.filter_sublist
  obtain ⟨f, hf⟩ := List.sublist_iff_exists_fin_orderEmbedding_get_eq.1 hsub
  constructor
  · unfold DIndependent at hl ⊢
    have := hl.comp f f.injective
    convert this using 1
    funext k p a b
    simp only [Function.comp_apply]
    have h := hf k
    simp only [List.get_eq_getElem] at h
    rw [Fin.getElem_fin, Fin.getElem_fin, h]
  · rintro D hD ⟨w, h1, h2⟩
    obtain ⟨w', h3, h4⟩ := filter_sum (fun T => decide (T.deg ≤ maxOrder)) l w (fun k h => decide_eq_true (by rw [h1 k h]; exact hD)) _ rfl
    refine ⟨w', fun k h => ?_, fun p a ha b hb => ?_⟩
    · obtain ⟨k0, h5, h6⟩ := h3 k h
      rw [← h6]
      exact h1 k0 h5
    · exact (h2 p a ha b hb).trans (h4 fun T => T.eval p a b)

/-- The hypotheses can be met: between trivial fields on `Rot2dOnR2(-1)` the Laplacian is equivariant, and so it is a combination of the operators with powers up to 1. -/
example : ∃ l, tensorBasis dCont (fun i o => dCoefCont o.size i.size) ⟨[SO2.irrep 0], Mat.one, Mat.one⟩ ⟨[SO2.irrep 0], Mat.one, Mat.one⟩ 1 = some l ∧
    DSpans 1 1 l ⟨2, fun _ _ k => if k = 1 then 0 else 1⟩ := by
  have hsz : (⟨[SO2.irrep 0], Mat.one, Mat.one⟩ : Repr ℝ).size = 1 := by simp [Repr.size, SO2.irrep]
  obtain ⟨l, hl, -, h⟩ := c72_so2 ⟨[SO2.irrep 0], Mat.one, Mat.one⟩ ⟨[SO2.irrep 0], Mat.one, Mat.one⟩ (IsInv.one _) (IsInv.one _)
    (fun i hi => ⟨0, by simpa using hi⟩) (fun i hi => ⟨0, by simpa using hi⟩) 1
  refine ⟨l, hl, ?_⟩
  rw [hsz] at h
  refine h ⟨2, fun _ _ k => if k = 1 then 0 else 1⟩ (by norm_num) fun g _ p a ha b hb => ?_
  obtain rfl : a = 0 := by omega
  obtain rfl : b = 0 := by omega
  have h1 : (SO2.irrep 0).size = 1 := rfl
  have h2 : ∀ g, (SO2.irrep 0).mat g = m1 1 := fun g => by simp [SO2.irrep]
  simp only [Mat.mul, Repr.mat, Repr.blocks, hsz, List.map_cons, List.map_nil, bdiag, h1, h2, m1, Mat.one, DArr.eval, DArr.entry, HPoly.eval, Finset.sum_range_succ,
    Finset.sum_range_zero, rot]
  norm_num
  linear_combination (p.1 ^ 2 + p.2 ^ 2) * Real.sin_sq_add_cos_sq g

end E2
