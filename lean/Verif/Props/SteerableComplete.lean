import Verif.Lemmas.SteerableIdx
import Verif.Props.Steerable
import Verif.Props.Complete

/-!
# C70: the steerable bases for arbitrary representations are bases of the spaces of equivariant kernels

Specification: `KernelConstraint` (Props/KernelSpec.lean), `BandLimited` (Props/BandSpec.lean).
-/

set_option linter.unusedSimpArgs false

namespace E2

open Finset Mat Real

variable {El : Type}

/-- The kernels of a steerable basis are linearly independent functions on the circle. -/
def SBasis.Independent (axis : ℝ) (S : SBasis El AngElem) (n m : ℕ) : Prop :=
  LinearIndependent ℝ fun (k : Fin S.dim) (φ : ℝ) (a : Fin n) (b : Fin m) => (S.sample (angSamp axis) (some φ)).slice k a b

/-- The kernel `κ` is, at the origin and at the points at least `1e-9` away from it, a linear combination of the kernels of a steerable basis, with
coefficients that depend on the radius only. -/
def SBasis.Spans (axis : ℝ) (S : SBasis El AngElem) (n m : ℕ) (κ : ℝ × ℝ → Mat) : Prop :=
  ∃ c : ℕ → ℝ → ℝ, ∀ p, p = (0, 0) ∨ 1e-9 ≤ radius p →
    MEq n m (κ p) fun a b => ∑ k ∈ range S.dim, c k (radius p) * (S.sample (angSamp axis) (angle p)).slice k a b

theorem steerable_fields {bas : Irrep El → Irrep El → Option (List AngElem)} {rin rout : Repr El} {S : SBasis El AngElem}
    (hS : steerable bas rin rout = some S) : S.ins = rin.irreps ∧ S.outs = rout.irreps ∧ S.bases = fun i o => (bas i o).getD [] := by
  classical
  unfold steerable at hS
  split at hS
  swap; · exact absurd hS (by simp)
  cases hS
  exact ⟨rfl, rfl, rfl⟩

/-- The indices of the elements of a pair of irreps. -/
theorem exists_indices (S : SBasis El AngElem) {i o : Irrep El} {ii oo : ℕ} (hi : S.ins[ii]? = some i) (ho : S.outs[oo]? = some o) :
    ∃ index : Fin (S.bases i o).length → ℕ, ∀ k, index k < S.dim ∧ ∃ a, S.iter[index k]? = some a ∧ a.key = ((ii, oo), (k : ℕ)) := by
  have : ∀ k : Fin (S.bases i o).length, ∃ b, b < S.dim ∧ ∃ a, S.iter[b]? = some a ∧ a.key = ((ii, oo), (k : ℕ)) := fun k =>
    S.exists_index hi ho (List.getElem?_eq_getElem k.2)
  choose index h using this
  exact ⟨index, h⟩

theorem mul_range_sum (n : ℕ) (P : Mat) (N : ℕ) (w : ℕ → ℝ) (M : ℕ → Mat) :
    (Mat.mul n P fun a b => ∑ k ∈ range N, w k * M k a b) = fun a b => ∑ k ∈ range N, w k * Mat.mul n P (M k) a b := by
  funext a b
  simp only [Mat.mul, Finset.mul_sum]
  rw [Finset.sum_comm]
  exact Finset.sum_congr rfl fun k _ => Finset.sum_congr rfl fun x _ => by ring

theorem range_sum_mul (n : ℕ) (Q : Mat) (N : ℕ) (w : ℕ → ℝ) (M : ℕ → Mat) :
    Mat.mul n (fun a b => ∑ k ∈ range N, w k * M k a b) Q = fun a b => ∑ k ∈ range N, w k * Mat.mul n (M k) Q a b := by
  funext a b
  simp only [Mat.mul, Finset.mul_sum, Finset.sum_mul]
  rw [Finset.sum_comm]
  exact Finset.sum_congr rfl fun k _ => Finset.sum_congr rfl fun x _ => by ring

/-- A combination of the sampled kernels is the change of basis of the same combination of the kernels of the direct sum. -/
theorem sample_sum {bas : Irrep El → Irrep El → Option (List AngElem)} {rin rout : Repr El} {S : SBasis El AngElem}
    (hS : steerable bas rin rout = some S) (axis : ℝ) (φ : Option ℝ) (w : ℕ → ℝ) :
    MEq rout.size rin.size (fun a b => ∑ k ∈ range S.dim, w k * (S.sample (angSamp axis) φ).slice k a b)
      (Mat.mul rout.size rout.cob (Mat.mul rin.size
        (fun a b => ∑ k ∈ range S.dim, w k * (S.sampleDirectSum (angSamp axis) φ).slice k a b) rin.cobInv)) := by
  rw [range_sum_mul, mul_range_sum]
  intro a ha b hb
  exact Finset.sum_congr rfl fun k _ => by rw [sample_slice bas (angSamp axis) rin rout hS φ k a ha b hb]

/-- **C70, independence.** If the bases for all pairs of irreps are independent then so is the basis for the representations. -/
theorem steerable_independent {axis : ℝ} {bas : Irrep El → Irrep El → Option (List AngElem)} {rin rout : Repr El} (hin : rin.WF) (hout : rout.WF)
    {S : SBasis El AngElem} (hS : steerable bas rin rout = some S)
    (hbas : ∀ i ∈ rin.irreps, ∀ o ∈ rout.irreps, ∀ l, bas i o = some l → Independent axis o.size i.size l) :
    S.Independent axis rout.size rin.size := by
  obtain ⟨h1, h2, h3⟩ := steerable_fields hS
  unfold SBasis.Independent
  rw [Fintype.linearIndependent_iff]
  intro g hg
  let w : ℕ → ℝ := fun k => if h : k < S.dim then g ⟨k, h⟩ else 0
  have hw : ∀ φ : ℝ, MEq rout.size rin.size (fun a b => ∑ k ∈ range S.dim, w k * (S.sample (angSamp axis) (some φ)).slice k a b) fun _ _ => 0 := by
    intro φ a ha b hb
    have := congrFun (congrFun (congrFun hg φ) ⟨a, ha⟩) ⟨b, hb⟩
    simp only [Finset.sum_apply, Pi.smul_apply, smul_eq_mul, Pi.zero_apply] at this
    dsimp only
    rw [Finset.sum_range]
    rw [← this]
    exact Finset.sum_congr rfl fun k _ => by simp [w]
  -- the same combination of the kernels of the direct sum vanishes
  have hD : ∀ φ : ℝ, MEq rout.size rin.size (fun a b => ∑ k ∈ range S.dim, w k * (S.sampleDirectSum (angSamp axis) (some φ)).slice k a b)
      fun _ _ => 0 := by
    intro φ
    set D : Mat := fun a b => ∑ k ∈ range S.dim, w k * (S.sampleDirectSum (angSamp axis) (some φ)).slice k a b with hDdef
    have e := (sample_sum hS axis (some φ) w).symm.trans (hw φ)
    have e' := ((MEq.refl (n := rout.size) (m := rout.size) rout.cobInv).mul e).mul (MEq.refl (n := rin.size) (m := rin.size) rin.cob)
    have lhs : MEq rout.size rin.size
        (Mat.mul rin.size (Mat.mul rout.size rout.cobInv (Mat.mul rout.size rout.cob (Mat.mul rin.size D rin.cobInv))) rin.cob) D := by
      refine ((IsInv.cancel hout _).mul (MEq.refl _)).trans ?_
      rw [Mat.mul_assoc]
      exact ((MEq.refl _).mul hin.2).trans (MEq_mul_one _ _ _)
    refine lhs.symm.trans (e'.trans ?_)
    intro a _ b _
    simp [Mat.mul]
  intro k
  obtain ⟨a, ha⟩ : ∃ a, S.iter[(k : ℕ)]? = some a :=
    ⟨_, List.getElem?_eq_getElem (by rw [SBasis.length_iter]; exact k.2)⟩
  obtain ⟨a1, a2, a3, -⟩ := S.iter_get ha
  obtain ⟨index, hindex⟩ := exists_indices S a1 a2
  obtain ⟨l1, e1⟩ := List.getElem?_eq_some_iff.1 a1
  obtain ⟨l2, e2⟩ := List.getElem?_eq_some_iff.1 a2
  obtain ⟨l3, e3⟩ := List.getElem?_eq_some_iff.1 a3
  have hmem1 : a.inIrrep ∈ rin.irreps := by rw [← h1]; exact List.mem_of_getElem? a1
  have hmem2 : a.outIrrep ∈ rout.irreps := by rw [← h2]; exact List.mem_of_getElem? a2
  have hl : bas a.inIrrep a.outIrrep = some (S.bases a.inIrrep a.outIrrep) := by
    rw [h3] at l3 ⊢
    dsimp only at l3 ⊢
    cases hb : bas a.inIrrep a.outIrrep with
    | none => rw [hb] at l3; simp at l3
    | some l => rfl
  have hind := hbas _ hmem1 _ hmem2 _ hl
  unfold Independent at hind
  rw [Fintype.linearIndependent_iff] at hind
  have hz := hind (fun k => w (index k)) (by
    funext φ x y
    simp only [Finset.sum_apply, Pi.smul_apply, smul_eq_mul, Pi.zero_apply]
    have := SBasis.sum_block (angSamp axis) S (some φ) a1 a2 x.2 y.2 w index hindex
    refine Eq.trans this.symm ?_
    refine hD φ _ ?_ _ ?_
    · have := offset_add_le (S.outs.map Irrep.size) (k := a.outIdx) (by simpa using l2)
      simp only [List.getElem_map, e2] at this
      rw [h2] at this ⊢
      have := x.2
      change _ < (rout.irreps.map Irrep.size).sum
      omega
    · have := offset_add_le (S.ins.map Irrep.size) (k := a.inIdx) (by simpa using l1)
      simp only [List.getElem_map, e1] at this
      rw [h1] at this ⊢
      have := y.2
      change _ < (rin.irreps.map Irrep.size).sum
      omega) ⟨a.innerIdx, l3⟩
  obtain ⟨-, a', ha', hk'⟩ := hindex ⟨a.innerIdx, l3⟩
  have : index ⟨a.innerIdx, l3⟩ = k := S.iter_key_inj ha' ha hk'
  rw [this] at hz
  simpa [w] using hz

/-- **C70, completeness.** If the bases for all pairs of irreps are complete among the admissible kernels, and the blocks of an admissible
kernel in any bases are admissible, then the basis for the representations is complete among the admissible kernels. -/
theorem steerable_complete {axis : ℝ} (G : Grp El) (act : El → ℝ × ℝ → ℝ × ℝ) (Adm : ℕ → ℕ → (ℝ × ℝ → Mat) → Prop)
    {bas : Irrep El → Irrep El → Option (List AngElem)} {rin rout : Repr El} (hin : rin.WF) (hout : rout.WF)
    (hAdm : ∀ κ, Adm rout.size rin.size κ → ∀ (P Q : Mat) (so si : ℕ), Adm so si fun p => Mat.mul rout.size P (Mat.mul rin.size (κ p) Q))
    (hbas : ∀ i ∈ rin.irreps, ∀ o ∈ rout.irreps, ∃ l, bas i o = some l ∧ ∀ κ, KernelConstraint G act o.size i.size o.mat i.mat κ →
      Adm o.size i.size κ → ∃ c : Fin l.length → ℝ → ℝ, ∀ p, p = (0, 0) ∨ 1e-9 ≤ radius p →
        MEq o.size i.size (κ p) fun a b => ∑ k, polar (c k) (angSample axis o.size i.size l[k]) p a b) :
    ∃ S, steerable bas rin rout = some S ∧ ∀ κ, KernelConstraint G act rout.size rin.size rout.mat rin.mat κ → Adm rout.size rin.size κ →
      S.Spans axis rout.size rin.size κ := by
  classical
  obtain ⟨S, hS⟩ : ∃ S, steerable bas rin rout = some S := by
    unfold steerable
    rw [if_pos]
    · exact ⟨_, rfl⟩
    · intro i hi o ho
      obtain ⟨l, hl, -⟩ := hbas i hi o ho
      simp [hl]
  refine ⟨S, hS, fun κ hκ ha => ?_⟩
  obtain ⟨h1, h2, h3⟩ := steerable_fields hS
  -- the kernel between the direct sums
  let K : ℝ × ℝ → Mat := fun p => Mat.mul rout.size rout.cobInv (Mat.mul rin.size (κ p) rin.cob)
  have hK : ∀ g, G.isEl g → ∀ p, MEq rout.size rin.size (K (act g p))
      (Mat.mul rin.size (Mat.mul rout.size (Repr.blocks rout.irreps g) (K p)) (Repr.blocks rin.irreps (G.inv g))) := by
    intro g hg p
    refine ((MEq.refl _).mul ((hκ g hg p).mul (MEq.refl _))).trans ?_
    unfold Repr.mat
    simp only [K, Mat.mul_assoc]
    refine (IsInv.cancel hout _).trans ?_
    refine (MEq.refl _).mul ((MEq.refl _).mul ((MEq.refl _).mul ((MEq.refl _).mul ?_)))
    exact ((MEq.refl _).mul hin.2).trans (MEq_mul_one _ _ _)
  -- its blocks
  have hblock : ∀ (ii oo : ℕ) (i o : Irrep El), S.ins[ii]? = some i → S.outs[oo]? = some o →
      ∃ c : Fin (S.bases i o).length → ℝ → ℝ, ∀ p, p = (0, 0) ∨ 1e-9 ≤ radius p → ∀ x < o.size, ∀ y < i.size,
        K p (offset (rout.irreps.map Irrep.size) oo + x) (offset (rin.irreps.map Irrep.size) ii + y)
          = ∑ k, c k (radius p) * angSamp axis i o (S.bases i o)[k] (angle p) x y := by
    intro ii oo i o hii hoo
    rw [h1] at hii
    rw [h2] at hoo
    obtain ⟨li, ei⟩ := List.getElem?_eq_some_iff.1 hii
    obtain ⟨lo, eo⟩ := List.getElem?_eq_some_iff.1 hoo
    obtain ⟨l, hl, hc⟩ := hbas i (List.mem_of_getElem? hii) o (List.mem_of_getElem? hoo)
    have hbl : S.bases i o = l := by rw [h3]; simp [hl]
    subst hbl
    set B : ℝ × ℝ → Mat := fun p x y => K p (offset (rout.irreps.map Irrep.size) oo + x) (offset (rin.irreps.map Irrep.size) ii + y) with hB
    obtain ⟨c, hc⟩ := hc B (by
      intro g hg p x hx y hy
      have hr : offset (rout.irreps.map Irrep.size) oo + x < rout.size := by
        have := offset_add_le (rout.irreps.map Irrep.size) (k := oo) (by simpa using lo)
        simp only [List.getElem_map, eo] at this
        change _ < (rout.irreps.map Irrep.size).sum
        omega
      have hcl : offset (rin.irreps.map Irrep.size) ii + y < rin.size := by
        have := offset_add_le (rin.irreps.map Irrep.size) (k := ii) (by simpa using li)
        simp only [List.getElem_map, ei] at this
        change _ < (rin.irreps.map Irrep.size).sum
        omega
      refine (hK g hg p _ hr _ hcl).trans ?_
      have r1 := mul_bdiag_col (rin.irreps.map fun i => (i.size, i.mat (G.inv g))) (k := ii) (by simpa using li)
        (Mat.mul rout.size (Repr.blocks rout.irreps g) (K p)) (a := y) (by simpa [ei] using hy) (offset (rout.irreps.map Irrep.size) oo + x)
      simp only [List.map_map, List.getElem_map, ei, total] at r1
      refine Eq.trans r1 ?_
      refine Finset.sum_congr rfl fun y' _ => ?_
      congr 1
      have r2 := bdiag_mul_row (rout.irreps.map fun i => (i.size, i.mat g)) (k := oo) (by simpa using lo) (K p) (a := x)
        (by simpa [eo] using hx) (offset (rin.irreps.map Irrep.size) ii + y')
      simp only [List.map_map, List.getElem_map, eo, total] at r2
      exact r2) (by
      have := hAdm κ ha (fun x z => rout.cobInv (offset (rout.irreps.map Irrep.size) oo + x) z)
        (fun z y => rin.cob z (offset (rin.irreps.map Irrep.size) ii + y)) o.size i.size
      exact this)
    refine ⟨c, fun p hp x hx y hy => ?_⟩
    exact hc p hp x hx y hy
  choose! c hc using hblock
  -- the coefficient of an index
  let w : ℕ → ℝ → ℝ := fun k r => match S.iter[k]? with
    | some a => if h : a.innerIdx < (S.bases a.inIrrep a.outIrrep).length then c a.inIdx a.outIdx a.inIrrep a.outIrrep ⟨a.innerIdx, h⟩ r else 0
    | none => 0
  refine ⟨w, fun p hp => ?_⟩
  refine MEq.trans ?_ (sample_sum hS axis (angle p) fun k => w k (radius p)).symm
  have hD : MEq rout.size rin.size (K p) fun a b => ∑ k ∈ range S.dim, w k (radius p) * (S.sampleDirectSum (angSamp axis) (angle p)).slice k a b := by
    intro a ha b hb
    obtain ⟨oo, lo, x, hx, rfl⟩ := exists_offset (rout.irreps.map Irrep.size) ha
    obtain ⟨ii, li, y, hy, rfl⟩ := exists_offset (rin.irreps.map Irrep.size) hb
    rw [List.length_map] at lo li
    rw [List.getElem_map] at hx hy
    have hi : S.ins[ii]? = some rin.irreps[ii] := by rw [h1]; exact List.getElem?_eq_getElem li
    have ho : S.outs[oo]? = some rout.irreps[oo] := by rw [h2]; exact List.getElem?_eq_getElem lo
    obtain ⟨index, hindex⟩ := exists_indices S hi ho
    have hs := SBasis.sum_block (angSamp axis) S (angle p) hi ho hx hy (fun k => w k (radius p)) index hindex
    rw [h1, h2] at hs
    dsimp only at hs ⊢
    rw [hs, hc ii oo _ _ hi ho p hp x hx y hy]
    refine Finset.sum_congr rfl fun k _ => ?_
    congr 1
    obtain ⟨-, a, ha, hk⟩ := hindex k
    obtain ⟨a1, a2, -, -⟩ := S.iter_get ha
    obtain ⟨ii', oo'⟩ : a.inIdx = ii ∧ a.outIdx = oo := by
      simp only [SBasis.Attr.key, Prod.mk.injEq] at hk
      exact hk.1
    have hin' : a.innerIdx = k := congrArg Prod.snd hk
    rw [ii', hi] at a1
    rw [oo', ho] at a2
    obtain ⟨i', o', i1, o1, k1, e1, n1⟩ := a
    dsimp only at ii' oo' hin' a1 a2
    cases Option.some.inj a1
    cases Option.some.inj a2
    subst ii' oo' hin'
    simp only [w, ha]
    rw [dif_pos k.2]
  refine MEq.trans ?_ ((MEq.refl _).mul (hD.mul (MEq.refl _)))
  -- κ = B (B⁻¹ κ A) A⁻¹
  have e1 : MEq rout.size rin.size (Mat.mul rout.size rout.cob (Mat.mul rin.size (K p) rin.cobInv)) (κ p) := by
    simp only [K, Mat.mul_assoc]
    rw [← Mat.mul_assoc]
    refine (hout.1.mul (MEq.refl _)).trans ((MEq_one_mul _ _ _).trans ?_)
    exact ((MEq.refl _).mul hin.1).trans (MEq_mul_one _ _ _)
  exact e1.symm

/-- The blocks of a kernel of bounded frequency have bounded frequency. -/
theorem BandLimited.block {n m F : ℕ} {κ : ℝ × ℝ → Mat} (hκ : BandLimited n m F κ) (P Q : Mat) (so si : ℕ) :
    BandLimited so si F fun p => Mat.mul n P (Mat.mul m (κ p) Q) := by
  intro r hr
  obtain ⟨a, b, h⟩ := hκ r hr
  refine ⟨fun μ => Mat.mul n P (Mat.mul m (a μ) Q), fun μ => Mat.mul n P (Mat.mul m (b μ) Q), fun φ i _ j _ => ?_⟩
  have e1 : ∀ x ∈ range n, P i x * ∑ y ∈ range m, κ (r * cos φ, r * sin φ) x y * Q y j
      = ∑ μ ∈ range (F + 1), (P i x * (∑ y ∈ range m, a μ x y * Q y j) * cos (μ * φ) + P i x * (∑ y ∈ range m, b μ x y * Q y j) * sin (μ * φ)) := by
    intro x hx
    have e2 : ∀ y ∈ range m, κ (r * cos φ, r * sin φ) x y * Q y j
        = ∑ μ ∈ range (F + 1), (a μ x y * cos (μ * φ) + b μ x y * sin (μ * φ)) * Q y j := by
      intro y hy
      rw [← Finset.sum_mul]
      exact congrArg (· * Q y j) (h φ x (Finset.mem_range.1 hx) y (Finset.mem_range.1 hy))
    rw [Finset.sum_congr rfl e2, Finset.sum_comm, Finset.mul_sum]
    refine Finset.sum_congr rfl fun μ _ => ?_
    simp only [Finset.mul_sum, Finset.sum_mul]
    rw [← Finset.sum_add_distrib]
    exact Finset.sum_congr rfl fun y _ => by ring
  simp only [Mat.mul]
  rw [Finset.sum_congr rfl e1, Finset.sum_comm]
  refine Finset.sum_congr rfl fun μ _ => ?_
  rw [Finset.sum_mul, Finset.sum_mul, ← Finset.sum_add_distrib]

/-- **C70, SO(2).** For all representations of SO(2) the basis is built, it is independent, and every kernel that satisfies the constraint is a
combination of its elements. -/
theorem c70_so2 (rin rout : Repr ℝ) (hin : rin.WF) (hout : rout.WF) (hi : ∀ i ∈ rin.irreps, ∃ n, i = SO2.irrep n)
    (ho : ∀ o ∈ rout.irreps, ∃ m, o = SO2.irrep m) :
    ∃ S, steerable contBasis rin rout = some S ∧ S.Independent 0 rout.size rin.size ∧
      ∀ κ, KernelConstraint SO2.grp rot rout.size rin.size rout.mat rin.mat κ → S.Spans 0 rout.size rin.size κ := by
  obtain ⟨S, hS, h⟩ := steerable_complete (axis := 0) SO2.grp rot (fun _ _ _ => True) (bas := contBasis) hin hout (fun _ _ _ _ _ _ => trivial)
    (fun i h o h' => by
      obtain ⟨n, rfl⟩ := hi i h
      obtain ⟨m, rfl⟩ := ho o h'
      obtain ⟨l, hl, hc⟩ := c20_so2_complete n m
      exact ⟨l, hl, fun κ hκ _ => hc κ hκ⟩)
  refine ⟨S, hS, steerable_independent hin hout hS fun i h o h' l hl => ?_, fun κ hκ => h κ hκ trivial⟩
  obtain ⟨n, rfl⟩ := hi i h
  obtain ⟨m, rfl⟩ := ho o h'
  exact c19_so2_independent n m l hl

/-- **C70, O(2).** -/
theorem c70_o2 (axis : ℝ) (rin rout : Repr (ℤ × ℝ)) (hin : rin.WF) (hout : rout.WF) (hi : ∀ i ∈ rin.irreps, ∃ j n, O2.irrep j n = some i)
    (ho : ∀ o ∈ rout.irreps, ∃ j m, O2.irrep j m = some o) :
    ∃ S, steerable flipContBasis rin rout = some S ∧ S.Independent axis rout.size rin.size ∧
      ∀ κ, KernelConstraint O2.grp (planeAct axis) rout.size rin.size rout.mat rin.mat κ → S.Spans axis rout.size rin.size κ := by
  obtain ⟨S, hS, h⟩ := steerable_complete (axis := axis) O2.grp (planeAct axis) (fun _ _ _ => True) (bas := flipContBasis) hin hout
    (fun _ _ _ _ _ _ => trivial)
    (fun i h o h' => by
      obtain ⟨j, n, hn⟩ := hi i h
      obtain ⟨j', m, hm⟩ := ho o h'
      obtain ⟨l, hl, hc⟩ := c20_o2_complete axis j n j' m i o hn hm
      exact ⟨l, hl, fun κ hκ _ => hc κ hκ⟩)
  refine ⟨S, hS, steerable_independent hin hout hS fun i h o h' l hl => ?_, fun κ hκ => h κ hκ trivial⟩
  obtain ⟨j, n, hn⟩ := hi i h
  obtain ⟨j', m, hm⟩ := ho o h'
  exact c19_o2_independent axis j n j' m i o hn hm l hl

/-- **C70, C_N** (and the trivial group, `N = 1`). For all representations and every maximum frequency `F` the basis is built, it is independent, and every
kernel of angular frequencies at most `F` that satisfies the constraint is a combination of its elements. -/
theorem c70_cyclic (N : ℕ) (hN : 0 < N) (rin rout : Repr ℤ) (hin : rin.WF) (hout : rout.WF)
    (hi : ∀ i ∈ rin.irreps, ∃ n, Cyclic.irrep N n = some i) (ho : ∀ o ∈ rout.irreps, ∃ m, Cyclic.irrep N m = some o) (F : ℕ) :
    ∃ S, steerable (fun i o => rotBasis N i o (some F) none) rin rout = some S ∧ S.Independent 0 rout.size rin.size ∧
      ∀ κ, KernelConstraint (Cyclic.grp N) (fun g => rot (g * (2 * π / N))) rout.size rin.size rout.mat rin.mat κ →
        BandLimited rout.size rin.size F κ → S.Spans 0 rout.size rin.size κ := by
  obtain ⟨S, hS, h⟩ := steerable_complete (axis := 0) (Cyclic.grp N) (fun g => rot (g * (2 * π / N))) (fun so si κ => BandLimited so si F κ)
    (bas := fun i o => rotBasis N i o (some F) none) hin hout (fun κ h P Q so si => h.block P Q so si)
    (fun i h o h' => by
      obtain ⟨n, hn⟩ := hi i h
      obtain ⟨m, hm⟩ := ho o h'
      exact c69_cyclic_complete N hN n m i o hn hm F)
  exact ⟨S, hS, steerable_independent hin hout hS fun i h o h' l hl =>
    c19_cyclic_independent_partial N hN i o _ _ (Or.inl (by simp)) l hl, h⟩

/-- **C70, reflections.** -/
theorem c70_flip (axis : ℝ) (rin rout : Repr ℤ) (hin : rin.WF) (hout : rout.WF)
    (hi : ∀ i ∈ rin.irreps, ∃ n, Cyclic.irrep 2 n = some i) (ho : ∀ o ∈ rout.irreps, ∃ m, Cyclic.irrep 2 m = some o) (F : ℕ) :
    ∃ S, steerable (fun i o => flipsBasis i o (some F) none) rin rout = some S ∧ S.Independent axis rout.size rin.size ∧
      ∀ κ, KernelConstraint (Cyclic.grp 2) (fun g p => if g = 0 then p else refl axis p) rout.size rin.size rout.mat rin.mat κ →
        BandLimited rout.size rin.size F κ → S.Spans axis rout.size rin.size κ := by
  obtain ⟨S, hS, h⟩ := steerable_complete (axis := axis) (Cyclic.grp 2) (fun g p => if g = 0 then p else refl axis p)
    (fun so si κ => BandLimited so si F κ) (bas := fun i o => flipsBasis i o (some F) none) hin hout (fun κ h P Q so si => h.block P Q so si)
    (fun i h o h' => by
      obtain ⟨n, hn⟩ := hi i h
      obtain ⟨m, hm⟩ := ho o h'
      exact c69_flip_complete axis n m i o hn hm F)
  refine ⟨S, hS, steerable_independent hin hout hS fun i h o h' l hl => ?_, h⟩
  obtain ⟨n, hn⟩ := hi i h
  obtain ⟨m, hm⟩ := ho o h'
  exact c19_flip_independent_partial axis n m i o hn hm F none l hl

/-- **C70, D_N.** -/
theorem c70_dihedral (N : ℕ) (hN : 0 < N) (axis : ℝ) (rin rout : Repr (ℤ × ℤ)) (hin : rin.WF) (hout : rout.WF)
    (hi : ∀ i ∈ rin.irreps, ∃ j n, Dihedral.irrep N j n = some i) (ho : ∀ o ∈ rout.irreps, ∃ j m, Dihedral.irrep N j m = some o) (F : ℕ) :
    ∃ S, steerable (fun i o => flipRotBasis N i o (some F) none) rin rout = some S ∧ S.Independent axis rout.size rin.size ∧
      ∀ κ, KernelConstraint (Dihedral.grp N) (fun g => planeAct axis (g.1, g.2 * (2 * π / N))) rout.size rin.size rout.mat rin.mat κ →
        BandLimited rout.size rin.size F κ → S.Spans axis rout.size rin.size κ := by
  obtain ⟨S, hS, h⟩ := steerable_complete (axis := axis) (Dihedral.grp N) (fun g => planeAct axis (g.1, g.2 * (2 * π / N)))
    (fun so si κ => BandLimited so si F κ) (bas := fun i o => flipRotBasis N i o (some F) none) hin hout (fun κ h P Q so si => h.block P Q so si)
    (fun i h o h' => by
      obtain ⟨j, n, hn⟩ := hi i h
      obtain ⟨j', m, hm⟩ := ho o h'
      exact c69_dihedral_complete N hN axis j n j' m i o hn hm F)
  refine ⟨S, hS, steerable_independent hin hout hS fun i h o h' l hl => ?_, h⟩
  obtain ⟨j, n, hn⟩ := hi i h
  obtain ⟨j', m, hm⟩ := ho o h'
  exact c19_dihedral_independent_partial N hN axis j n j' m i o hn hm _ _ (Or.inl (by simp)) l hl

/-- A basis with a non-trivial change of basis and two output irreps: eight independent kernels that span all the equivariant kernels. -/
example : ∃ rin rout : Repr ℝ, rin.WF ∧ rout.WF ∧ rin.cob = m2 1 0 0 (-1) ∧ rout.irreps = [SO2.irrep 2, SO2.irrep 3] ∧
    ∃ S, steerable contBasis rin rout = some S ∧ S.dim = 8 ∧ S.Independent 0 rout.size rin.size ∧
      ∀ κ, KernelConstraint SO2.grp rot rout.size rin.size rout.mat rin.mat κ → S.Spans 0 rout.size rin.size κ := by
  refine ⟨⟨[SO2.irrep 1], m2 1 0 0 (-1), m2 1 0 0 (-1)⟩, ⟨[SO2.irrep 2, SO2.irrep 3], Mat.one, Mat.one⟩, chi_inv, IsInv.one _, rfl, rfl, ?_⟩
  obtain ⟨S, hS, h1, h2⟩ := c70_so2 ⟨[SO2.irrep 1], m2 1 0 0 (-1), m2 1 0 0 (-1)⟩ ⟨[SO2.irrep 2, SO2.irrep 3], Mat.one, Mat.one⟩ chi_inv (IsInv.one _)
    (by intro i hi; exact ⟨1, by simpa using hi⟩)
    (by
      intro o ho
      rcases List.mem_cons.1 ho with h | h
      · exact ⟨2, h⟩
      · exact ⟨3, by simpa using h⟩)
  refine ⟨S, hS, ?_, h1, h2⟩
  obtain ⟨f1, f2, f3⟩ := steerable_fields hS
  simp [SBasis.dim, f1, f2, f3, contBasis, SO2.irrep]

end E2
