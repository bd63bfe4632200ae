import Verif.Lemmas.Steerable
import Verif.Props.KernelConstraint

/-!
# C21, C22: steerable bases for arbitrary representations
-/

namespace E2

open Finset Mat Real

variable {El E X Y : Type}

theorem IsInv.cancel {n m : ℕ} {A B : Mat} (h : IsInv n A B) (Z : Mat) : MEq n m (Mat.mul n B (Mat.mul n A Z)) Z := by
  rw [← Mat.mul_assoc]
  exact (h.2.mul (MEq.refl _)).trans (MEq_one_mul _ _ _)

/-- The change of basis of `sample`: with or without the shortcuts for the identity, the result is `B P A⁻¹`. -/
theorem sample_slice (bas : Irrep El → Irrep El → Option (List E)) (samp : Irrep El → Irrep El → E → X → Mat) (rin rout : Repr El)
    {S : SBasis El E} (hS : steerable bas rin rout = some S) (x : X) (b : ℕ) :
    MEq rout.size rin.size ((S.sample samp x).slice b)
      (Mat.mul rout.size rout.cob (Mat.mul rin.size ((S.sampleDirectSum samp x).slice b) rin.cobInv)) := by
  classical
  unfold steerable at hS
  split_ifs at hS with _ hA hB hB
  · cases hS
    exact ((hB.mul ((MEq.refl _).mul hA)).trans ((MEq_one_mul _ _ _).trans (MEq_mul_one _ _ _))).symm
  · cases hS
    exact MEq.symm ((MEq.refl _).mul (((MEq.refl _).mul hA).trans (MEq_mul_one _ _ _)))
  · cases hS
    exact MEq.symm ((hB.mul (MEq.refl _)).trans (MEq_one_mul _ _ _))
  · cases hS
    refine MEq.of_eq ?_
    funext n j
    simp only [SBasis.sample, Arr3.slice, Mat.mul, Finset.mul_sum, _root_.mul_assoc]
    rfl

theorem steerable_spec (G : Grp El) (act : El → Y → Y) (f : Y → X) (bas : Irrep El → Irrep El → Option (List E))
    (samp : Irrep El → Irrep El → E → X → Mat) (rin rout : Repr El) (hin : rin.WF) (hout : rout.WF)
    (hbas : ∀ i ∈ rin.irreps, ∀ o ∈ rout.irreps, ∃ l, bas i o = some l ∧
      ∀ e ∈ l, KernelConstraint G act o.size i.size o.mat i.mat fun y => samp i o e (f y)) :
    ∃ S, steerable bas rin rout = some S ∧ S.outSize = rout.size ∧ S.inSize = rin.size ∧
      S.dim = (rin.irreps.map fun i => (rout.irreps.map fun o => ((bas i o).getD []).length).sum).sum ∧
      ∀ b < S.dim, KernelConstraint G act rout.size rin.size rout.mat rin.mat fun y => (S.sample samp (f y)).slice b := by
  classical
  have hne : ∀ i ∈ rin.irreps, ∀ o ∈ rout.irreps, bas i o ≠ none := by
    intro i hi o ho
    obtain ⟨l, hl, -⟩ := hbas i hi o ho
    simp [hl]
  obtain ⟨S, hS, h1, h2, h3⟩ : ∃ S, steerable bas rin rout = some S ∧ S.ins = rin.irreps ∧ S.outs = rout.irreps ∧
      S.bases = fun i o => (bas i o).getD [] := by
    unfold steerable
    rw [if_pos hne]
    exact ⟨_, rfl, rfl, rfl, rfl⟩
  refine ⟨S, hS, by rw [SBasis.outSize, h2]; rfl, by rw [SBasis.inSize, h1]; rfl, by rw [SBasis.dim, h1, h2, h3], ?_⟩
  intro b hb
  obtain ⟨a, ha⟩ : ∃ a, S.iter[b]? = some a :=
    ⟨_, List.getElem?_eq_getElem (by rw [SBasis.length_iter]; exact hb)⟩
  obtain ⟨a1, a2, a3, -⟩ := S.iter_get ha
  rw [h1] at a1
  rw [h2] at a2
  obtain ⟨k1, e1⟩ := List.getElem?_eq_some_iff.1 a1
  obtain ⟨k2, e2⟩ := List.getElem?_eq_some_iff.1 a2
  obtain ⟨l, hl, hc⟩ := hbas a.inIrrep (List.mem_of_getElem? a1) a.outIrrep (List.mem_of_getElem? a2)
  rw [h3] at a3
  simp only [hl, Option.getD_some] at a3
  have hc := hc a.elem (List.mem_of_getElem? a3)
  intro g hg y
  have slice : ∀ y, (S.sampleDirectSum samp (f y)).slice b = Mat.place (offset (rout.irreps.map Irrep.size) a.outIdx) a.outIrrep.size
      (offset (rin.irreps.map Irrep.size) a.inIdx) a.inIrrep.size (samp a.inIrrep a.outIrrep a.elem (f y)) := by
    intro y
    rw [S.sampleDirectSum_slice samp (f y) ha, h1, h2]
  refine (sample_slice bas samp rin rout hS (f (act g y)) b).trans ?_
  refine MEq.trans ?_ (((MEq.refl _).mul (sample_slice bas samp rin rout hS (f y) b)).mul (MEq.refl _)).symm
  rw [slice, slice]
  -- the block diagonal factors act on the block
  have hD : Mat.mul rout.size (Repr.blocks rout.irreps g) (Mat.place (offset (rout.irreps.map Irrep.size) a.outIdx) a.outIrrep.size
      (offset (rin.irreps.map Irrep.size) a.inIdx) a.inIrrep.size (samp a.inIrrep a.outIrrep a.elem (f y)))
      = Mat.place (offset (rout.irreps.map Irrep.size) a.outIdx) a.outIrrep.size
        (offset (rin.irreps.map Irrep.size) a.inIdx) a.inIrrep.size
        (Mat.mul a.outIrrep.size (a.outIrrep.mat g) (samp a.inIrrep a.outIrrep a.elem (f y))) := by
    have := bdiag_mul_place (rout.irreps.map fun i => (i.size, i.mat g)) (k := a.outIdx) (by simpa using k2)
      (offset (rin.irreps.map Irrep.size) a.inIdx) a.inIrrep.size (samp a.inIrrep a.outIrrep a.elem (f y))
    simp only [List.map_map, List.getElem_map, e2] at this
    exact this
  have hD' : ∀ M, Mat.mul rin.size (Mat.place (offset (rout.irreps.map Irrep.size) a.outIdx) a.outIrrep.size
      (offset (rin.irreps.map Irrep.size) a.inIdx) a.inIrrep.size M) (Repr.blocks rin.irreps (G.inv g))
      = Mat.place (offset (rout.irreps.map Irrep.size) a.outIdx) a.outIrrep.size
        (offset (rin.irreps.map Irrep.size) a.inIdx) a.inIrrep.size
        (Mat.mul a.inIrrep.size M (a.inIrrep.mat (G.inv g))) := by
    intro M
    have := place_mul_bdiag (rin.irreps.map fun i => (i.size, i.mat (G.inv g))) (k := a.inIdx) (by simpa using k1)
      (offset (rout.irreps.map Irrep.size) a.outIdx) a.outIrrep.size M
    simp only [List.map_map, List.getElem_map, e1] at this
    exact this
  set P := Mat.place (offset (rout.irreps.map Irrep.size) a.outIdx) a.outIrrep.size
      (offset (rin.irreps.map Irrep.size) a.inIdx) a.inIrrep.size (samp a.inIrrep a.outIrrep a.elem (f y)) with hP
  unfold Repr.mat
  -- B P' A⁻¹ = (B D B⁻¹) (B P A⁻¹) (A D' A⁻¹)
  rw [Mat.mul_assoc, Mat.mul_assoc, Mat.mul_assoc, Mat.mul_assoc, Mat.mul_assoc, Mat.mul_assoc]
  refine (MEq.refl _).mul ?_
  refine MEq.symm (((MEq.refl _).mul (IsInv.cancel hout _)).trans ?_)
  refine ((MEq.refl _).mul ((MEq.refl _).mul (IsInv.cancel hin _))).trans ?_
  rw [← Mat.mul_assoc, ← Mat.mul_assoc, hD, hD']
  refine MEq.mul ?_ (MEq.refl _)
  exact MEq_place (hc g hg y).symm

/-- **C21.** If the bases for all the pairs of irreps can be built and satisfy the kernel constraint, then the basis for the representations
`rin` and `rout` (any lists of irreps, any change of basis) can be built, has as many elements as all the pairs of irreps together, and each element
satisfies the kernel constraint for `rin` and `rout`. -/
theorem c21_steerable_constraint (G : Grp El) (act : El → X → X) (bas : Irrep El → Irrep El → Option (List E))
    (samp : Irrep El → Irrep El → E → X → Mat) (rin rout : Repr El) (hin : rin.WF) (hout : rout.WF)
    (hbas : ∀ i ∈ rin.irreps, ∀ o ∈ rout.irreps, ∃ l, bas i o = some l ∧
      ∀ e ∈ l, KernelConstraint G act o.size i.size o.mat i.mat (samp i o e)) :
    ∃ S, steerable bas rin rout = some S ∧ S.outSize = rout.size ∧ S.inSize = rin.size ∧
      S.dim = (rin.irreps.map fun i => (rout.irreps.map fun o => ((bas i o).getD []).length).sum).sum ∧
      ∀ b < S.dim, KernelConstraint G act rout.size rin.size rout.mat rin.mat fun x => (S.sample samp x).slice b :=
  steerable_spec G act id bas samp rin rout hin hout hbas

theorem plane_spec (G : Grp El) (act : El → ℝ × ℝ → ℝ × ℝ) (hact : ∀ g p, radius (act g p) = radius p) (axis : ℝ)
    (bas : Irrep El → Irrep El → Option (List AngElem)) (rin rout : Repr El) (hin : rin.WF) (hout : rout.WF)
    (hbas : ∀ i ∈ rin.irreps, ∀ o ∈ rout.irreps, ∃ l, bas i o = some l ∧
      ∀ e ∈ l, ∀ radial, KernelConstraint G act o.size i.size o.mat i.mat (polar radial (angSample axis o.size i.size e)))
    (radials : List (ℝ → ℝ)) :
    ∃ S, steerable bas rin rout = some S ∧ S.outSize = rout.size ∧ S.inSize = rin.size ∧
      ∀ k < radials.length * S.dim, KernelConstraint G act rout.size rin.size rout.mat rin.mat (planeKernel axis radials S k) := by
  obtain ⟨S, h1, h2, h3, -, h4⟩ := steerable_spec G act angle bas (angSamp axis) rin rout hin hout (by
    intro i hi o ho
    obtain ⟨l, hl, hc⟩ := hbas i hi o ho
    refine ⟨l, hl, fun e he => ?_⟩
    have := hc e he fun _ => 1
    have e1 : polar (fun _ => 1) (angSample axis o.size i.size e) = fun y => angSamp axis i o e (angle y) := by
      funext p a b
      simp [polar, angSamp]
    rwa [e1] at this)
  refine ⟨S, h1, h2, h3, fun k hk => ?_⟩
  have hd : 0 < S.dim := Nat.pos_of_ne_zero fun h => by simp [h] at hk
  have := h4 (k % S.dim) (Nat.mod_lt _ hd)
  have := constraint_polar hact (κ := fun φ => (S.sample (angSamp axis) φ).slice (k % S.dim)) this
    (fun r => match radials[k / S.dim]? with | some f => f r | none => 0)
  have e1 : planeKernel axis radials S k = polar (fun r => match radials[k / S.dim]? with | some f => f r | none => 0)
      (fun φ => (S.sample (angSamp axis) φ).slice (k % S.dim)) := by
    funext p a b
    rfl
  rw [e1]
  exact this

/-- **C21, `kernels_SO2_act_R2`.** For all representations of SO(2) and all radial profiles. -/
theorem c21_so2_kernels (rin rout : Repr ℝ) (hin : rin.WF) (hout : rout.WF) (hi : ∀ i ∈ rin.irreps, ∃ n, i = SO2.irrep n)
    (ho : ∀ o ∈ rout.irreps, ∃ m, o = SO2.irrep m) (radials : List (ℝ → ℝ)) :
    ∃ S, steerable contBasis rin rout = some S ∧ S.outSize = rout.size ∧ S.inSize = rin.size ∧
      ∀ k < radials.length * S.dim,
        KernelConstraint SO2.grp rot rout.size rin.size rout.mat rin.mat (planeKernel 0 radials S k) := by
  refine plane_spec SO2.grp rot radius_rot 0 contBasis rin rout hin hout (fun i h o h' => ?_) radials
  obtain ⟨n, rfl⟩ := hi i h
  obtain ⟨m, rfl⟩ := ho o h'
  exact c15_so2_kernel_constraint n m

/-- **C21, `kernels_CN_act_R2` and `kernels_Trivial_act_R2` (`N = 1`).** -/
theorem c21_cyclic_kernels (N : ℕ) (hN : 0 < N) (rin rout : Repr ℤ) (hin : rin.WF) (hout : rout.WF)
    (hi : ∀ i ∈ rin.irreps, ∃ n, Cyclic.irrep N n = some i) (ho : ∀ o ∈ rout.irreps, ∃ m, Cyclic.irrep N m = some o)
    (maxFreq maxOff : Option ℕ) (hb : ¬ (maxFreq = none ∧ maxOff = none)) (radials : List (ℝ → ℝ)) :
    ∃ S, steerable (fun i o => rotBasis N i o maxFreq maxOff) rin rout = some S ∧ S.outSize = rout.size ∧ S.inSize = rin.size ∧
      ∀ k < radials.length * S.dim, KernelConstraint (Cyclic.grp N) (fun g => rot (g * (2 * π / N))) rout.size rin.size rout.mat rin.mat
        (planeKernel 0 radials S k) := by
  refine plane_spec (Cyclic.grp N) (fun g => rot (g * (2 * π / N))) (fun g p => radius_rot _ p) 0 _ rin rout hin hout
    (fun i h o h' => ?_) radials
  obtain ⟨n, hn⟩ := hi i h
  obtain ⟨m, hm⟩ := ho o h'
  exact c16_cyclic_kernel_constraint N hN n m i o hn hm maxFreq maxOff hb

/-- **C21, `kernels_Flip_act_R2`.** -/
theorem c21_flip_kernels (axis : ℝ) (rin rout : Repr ℤ) (hin : rin.WF) (hout : rout.WF)
    (hi : ∀ i ∈ rin.irreps, ∃ n, Cyclic.irrep 2 n = some i) (ho : ∀ o ∈ rout.irreps, ∃ m, Cyclic.irrep 2 m = some o)
    (maxFreq maxOff : Option ℕ) (hb : ¬ (maxFreq = none ∧ maxOff = none)) (radials : List (ℝ → ℝ)) :
    ∃ S, steerable (fun i o => flipsBasis i o maxFreq maxOff) rin rout = some S ∧ S.outSize = rout.size ∧ S.inSize = rin.size ∧
      ∀ k < radials.length * S.dim, KernelConstraint (Cyclic.grp 2) (fun g p => if g = 0 then p else refl axis p)
        rout.size rin.size rout.mat rin.mat (planeKernel axis radials S k) := by
  refine plane_spec (Cyclic.grp 2) (fun g p => if g = 0 then p else refl axis p) (fun g p => ?_) axis _ rin rout hin hout
    (fun i h o h' => ?_) radials
  · split_ifs
    · rfl
    · exact radius_refl axis p
  · obtain ⟨n, hn⟩ := hi i h
    obtain ⟨m, hm⟩ := ho o h'
    exact c17_flip_kernel_constraint axis n m i o hn hm maxFreq maxOff hb

/-- **C21, `kernels_DN_act_R2`.** -/
theorem c21_dihedral_kernels (N : ℕ) (hN : 0 < N) (axis : ℝ) (rin rout : Repr (ℤ × ℤ)) (hin : rin.WF) (hout : rout.WF)
    (hi : ∀ i ∈ rin.irreps, ∃ j n, Dihedral.irrep N j n = some i) (ho : ∀ o ∈ rout.irreps, ∃ j m, Dihedral.irrep N j m = some o)
    (maxFreq maxOff : Option ℕ) (hb : ¬ (maxFreq = none ∧ maxOff = none)) (radials : List (ℝ → ℝ)) :
    ∃ S, steerable (fun i o => flipRotBasis N i o maxFreq maxOff) rin rout = some S ∧ S.outSize = rout.size ∧ S.inSize = rin.size ∧
      ∀ k < radials.length * S.dim, KernelConstraint (Dihedral.grp N) (fun g => planeAct axis (g.1, g.2 * (2 * π / N)))
        rout.size rin.size rout.mat rin.mat (planeKernel axis radials S k) := by
  refine plane_spec (Dihedral.grp N) (fun g => planeAct axis (g.1, g.2 * (2 * π / N))) (fun g p => radius_planeAct _ _ p) axis _
    rin rout hin hout (fun i h o h' => ?_) radials
  obtain ⟨j, n, hn⟩ := hi i h
  obtain ⟨j', m, hm⟩ := ho o h'
  exact c18_dihedral_kernel_constraint N hN axis j n j' m i o hn hm maxFreq maxOff hb

/-- **C21, `kernels_O2_act_R2`.** -/
theorem c21_o2_kernels (axis : ℝ) (rin rout : Repr (ℤ × ℝ)) (hin : rin.WF) (hout : rout.WF)
    (hi : ∀ i ∈ rin.irreps, ∃ j n, O2.irrep j n = some i) (ho : ∀ o ∈ rout.irreps, ∃ j m, O2.irrep j m = some o)
    (radials : List (ℝ → ℝ)) :
    ∃ S, steerable flipContBasis rin rout = some S ∧ S.outSize = rout.size ∧ S.inSize = rin.size ∧
      ∀ k < radials.length * S.dim, KernelConstraint O2.grp (planeAct axis)
        rout.size rin.size rout.mat rin.mat (planeKernel axis radials S k) := by
  refine plane_spec O2.grp (planeAct axis) (fun g p => radius_planeAct _ _ p) axis _
    rin rout hin hout (fun i h o h' => ?_) radials
  obtain ⟨j, n, hn⟩ := hi i h
  obtain ⟨j', m, hm⟩ := ho o h'
  exact c18_o2_kernel_constraint axis j n j' m i o hn hm

/-- Two representations of SO(2) with three irreps in total and a change of basis, and a basis with `4 + 4` elements. -/
example : ∃ rin rout : Repr ℝ, rin.WF ∧ rout.WF ∧ rin.cob = m2 1 0 0 (-1) ∧
    ∃ S, steerable contBasis rin rout = some S ∧ S.dim = 4 + 4 := by
  have h2 : (SO2.irrep 1).size = 2 := rfl
  have h3 : (SO2.irrep 2).size = 2 := rfl
  have h4 : (SO2.irrep 3).size = 2 := rfl
  refine ⟨⟨[SO2.irrep 1], m2 1 0 0 (-1), m2 1 0 0 (-1)⟩, ⟨[SO2.irrep 2, SO2.irrep 3], Mat.one, Mat.one⟩, ?_, IsInv.one _, rfl, ?_⟩
  · exact chi_inv
  · obtain ⟨S, h, -, -, hd, -⟩ := c21_steerable_constraint SO2.grp rot contBasis (fun i o e p => polar (fun _ => 1) (angSample 0 o.size i.size e) p)
      ⟨[SO2.irrep 1], m2 1 0 0 (-1), m2 1 0 0 (-1)⟩ ⟨[SO2.irrep 2, SO2.irrep 3], Mat.one, Mat.one⟩ chi_inv (IsInv.one _) (by
        intro i hi o ho
        have e1 : i = SO2.irrep 1 := by simpa using hi
        have e2 : ∃ m, o = SO2.irrep m := by
          rcases List.mem_cons.1 ho with h | h
          · exact ⟨2, h⟩
          · exact ⟨3, by simpa using h⟩
        obtain ⟨m, rfl⟩ := e2
        subst e1
        obtain ⟨l, hl, hc⟩ := c15_so2_kernel_constraint 1 m
        exact ⟨l, hl, fun e he => hc e he _⟩)
    refine ⟨S, h, ?_⟩
    rw [hd]
    simp [contBasis, h2, h3, h4]

/-! ### Indexing -/

/-- **C22, steerable bases.** Iteration yields `dim` entries and agrees with indexing; the entry at `idx` has index `idx`, it names the
irreps at the positions it reports and the element of the basis of this pair at the inner index; and, at every point, the kernel stored at `idx` by
the sampling of the direct sum is the named element in the block of these two irreps and zero elsewhere. -/
theorem c22_steerable_indexing (samp : Irrep El → Irrep El → E → X → Mat) (S : SBasis El E) :
    S.iter.length = S.dim ∧ (∀ idx, S.getItem idx = S.iter[idx]?) ∧
    ∀ idx < S.dim, ∃ a, S.getItem idx = some a ∧ a.idx = idx ∧
      S.ins[a.inIdx]? = some a.inIrrep ∧ S.outs[a.outIdx]? = some a.outIrrep ∧
      (S.bases a.inIrrep a.outIrrep)[a.innerIdx]? = some a.elem ∧
      ∀ x, (S.sampleDirectSum samp x).slice idx =
        Mat.place ((S.outs.take a.outIdx).map Irrep.size).sum a.outIrrep.size ((S.ins.take a.inIdx).map Irrep.size).sum a.inIrrep.size
          (samp a.inIrrep a.outIrrep a.elem x) := by
  refine ⟨S.length_iter, S.getItem_eq, fun idx h => ?_⟩
  obtain ⟨a, ha⟩ : ∃ a, S.iter[idx]? = some a :=
    ⟨_, List.getElem?_eq_getElem (by rw [SBasis.length_iter]; exact h)⟩
  obtain ⟨a1, a2, a3, a4⟩ := S.iter_get ha
  refine ⟨a, by rw [S.getItem_eq, ha], a4, a1, a2, a3, fun x => ?_⟩
  rw [S.sampleDirectSum_slice samp x ha]
  simp [offset, List.map_take]

theorem flatMap_pair_get {R A : Type} (rs : List R) (as : List A) (k : ℕ) :
    (rs.flatMap fun r => as.map fun a => (r, a))[k]? =
      match rs[k / as.length]?, as[k % as.length]? with
      | some r, some a => some (r, a)
      | _, _ => none := by
  induction rs generalizing k with
  | nil => simp
  | cons r rs ih =>
    rw [List.flatMap_cons, List.getElem?_append]
    simp only [List.length_map]
    split_ifs with hk
    · rw [Nat.div_eq_of_lt hk, Nat.mod_eq_of_lt hk]
      simp [List.getElem?_eq_getElem hk]
    · rw [ih]
      rcases Nat.eq_zero_or_pos as.length with h0 | h0
      · have : as = [] := List.length_eq_zero_iff.1 h0
        subst this
        simp
      · have e1 : k / as.length = (k - as.length) / as.length + 1 := by
          rw [← Nat.add_div_right _ h0]; congr 1; omega
        have e2 : k % as.length = (k - as.length) % as.length := by
          rw [← Nat.add_mod_right (k - as.length)]; congr 1; omega
        rw [e1, e2]
        simp

/-- **C22, polar bases.** If indexing and iteration agree for the two factors then they agree for the polar basis, which has as many entries as
the product; the entry at `k` reports the indices of its factors, and the kernel stored at `k` by `sample` is the product of these two factors. -/
theorem c22_polar_indexing {R A : Type} (ridx : R → ℕ) (aidx : A → ℕ) (riter : List R) (aiter : List A) (rget : ℕ → Option R) (aget : ℕ → Option A)
    (hr : ∀ k, rget k = riter[k]?) (ha : ∀ k, aget k = aiter[k]?) (hri : ∀ k r, riter[k]? = some r → ridx r = k)
    (hai : ∀ k a, aiter[k]? = some a → aidx a = k) (radials : List (ℝ → ℝ)) (hrad : radials.length = riter.length) (ang : Option ℝ → Arr3) :
    (polarIter ridx aidx riter aiter).length = riter.length * aiter.length ∧
    (∀ k, polarGet riter.length aiter.length rget aget k = (polarIter ridx aidx riter aiter)[k]?) ∧
    ∀ k < riter.length * aiter.length, ∃ a f, polarGet riter.length aiter.length rget aget k = some a ∧ a.idx = k ∧
      riter[a.idx1]? = some a.radial ∧ aiter[a.idx2]? = some a.angular ∧ radials[a.idx1]? = some f ∧
      ∀ p, (polarSample radials aiter.length ang p).slice k = fun i j => f (radius p) * (ang (angle p)).slice a.idx2 i j := by
  have hit : ∀ k, (polarIter ridx aidx riter aiter)[k]? = match riter[k / aiter.length]?, aiter[k % aiter.length]? with
      | some r, some a => some ⟨r, a, k, k / aiter.length, k % aiter.length⟩
      | _, _ => none := by
    intro k
    rw [polarIter, List.getElem?_map, SBasis.enum_getElem?, flatMap_pair_get]
    rcases h1 : riter[k / aiter.length]? with _ | r
    · simp
    · rcases h2 : aiter[k % aiter.length]? with _ | a
      · simp
      · simp [hri _ _ h1, hai _ _ h2]
  have hlt : ∀ k, k < riter.length * aiter.length → k / aiter.length < riter.length ∧ k % aiter.length < aiter.length := by
    intro k hk
    have hpos : 0 < aiter.length := Nat.pos_of_ne_zero fun h => by simp [h] at hk
    exact ⟨(Nat.div_lt_iff_lt_mul hpos).2 hk, Nat.mod_lt _ hpos⟩
  refine ⟨?_, ?_, ?_⟩
  · rw [polarIter, List.length_map, SBasis.length_enum, List.length_flatMap]
    simp
  · intro k
    rw [hit, polarGet, hr, ha]
    split_ifs with hk
    · rfl
    · rcases Nat.eq_zero_or_pos aiter.length with h0 | h0
      · have : aiter = [] := List.length_eq_zero_iff.1 h0
        subst this
        simp
      · have : riter[k / aiter.length]? = none := by
          rw [List.getElem?_eq_none]
          rw [not_lt] at hk
          exact (Nat.le_div_iff_mul_le h0).2 hk
        rw [this]
  · intro k hk
    obtain ⟨h1, h2⟩ := hlt k hk
    refine ⟨⟨riter[k / aiter.length], aiter[k % aiter.length], k, k / aiter.length, k % aiter.length⟩,
      radials[k / aiter.length]'(by omega), ?_, rfl, ?_, ?_, ?_, ?_⟩
    · rw [polarGet, if_pos hk, hr, ha, List.getElem?_eq_getElem h1, List.getElem?_eq_getElem h2]
    · exact List.getElem?_eq_getElem h1
    · exact List.getElem?_eq_getElem h2
    · exact List.getElem?_eq_getElem (show k / aiter.length < radials.length by omega)
    · intro p
      funext i j
      simp only [polarSample, Arr3.slice]
      rw [List.getElem?_eq_getElem (show k / aiter.length < radials.length by omega)]

/-- **C22, the bases of the library.** For `PolarBasis(GaussianRadialProfile, SteerableKernelBasis)`: iteration agrees with indexing; the
entry at `k` names a ring and an angular element, and the kernel sampled at `k` is the Gaussian of this ring times the angular kernel at
the reported position. -/
theorem c22_plane_basis_indexing (rings : List (ℝ × ℝ)) (S : SBasis El AngElem) (axis : ℝ) :
    (∀ k, polarGet rings.length S.dim (gaussianGet rings) S.getItem k
      = (polarIter Prod.snd SBasis.Attr.idx (gaussianIter rings) S.iter)[k]?) ∧
    ∀ k < rings.length * S.dim, ∃ a, polarGet rings.length S.dim (gaussianGet rings) S.getItem k = some a ∧ a.idx = k ∧
      rings[a.idx1]? = some a.radial.1 ∧ S.getItem a.idx2 = some a.angular ∧
      ∀ p, planeKernel axis (rings.map fun q => gaussian q.1 q.2) S k p =
        fun i j => gaussian a.radial.1.1 a.radial.1.2 (radius p) * (S.sample (angSamp axis) (angle p)).slice a.idx2 i j := by
  have hg : ∀ k, gaussianGet rings k = (gaussianIter rings)[k]? := by
    intro k; simp [gaussianGet, gaussianIter, List.getElem?_zipIdx]
  have hl : (gaussianIter rings).length = rings.length := by simp [gaussianIter]
  obtain ⟨-, h2, h3⟩ := c22_polar_indexing (Prod.snd : (ℝ × ℝ) × ℕ → ℕ) SBasis.Attr.idx (gaussianIter rings) S.iter (gaussianGet rings) S.getItem
    hg S.getItem_eq (by
      intro k r h
      rw [gaussianIter, List.getElem?_zipIdx, Option.map_eq_some_iff] at h
      obtain ⟨q, -, rfl⟩ := h
      simp) (fun k a h => (S.iter_get h).2.2.2) (rings.map fun q => gaussian q.1 q.2) (by simp [hl]) (fun φ => S.sample (angSamp axis) φ)
  rw [hl, S.length_iter] at h2 h3
  refine ⟨h2, fun k hk => ?_⟩
  obtain ⟨a, f, b1, b2, b3, b4, b5, b6⟩ := h3 k hk
  have b3' : rings[a.idx1]? = some a.radial.1 := by
    rw [gaussianIter, List.getElem?_zipIdx, Option.map_eq_some_iff] at b3
    obtain ⟨q, hq, he⟩ := b3
    rw [← he]; exact hq
  refine ⟨a, b1, b2, b3', by rw [S.getItem_eq]; exact b4, fun p => ?_⟩
  have := b6 p
  rw [planeKernel, this]
  rw [List.getElem?_map, b3', Option.map_some, Option.some.injEq] at b5
  rw [← b5]

/-- A polar basis with two rings and four angular elements: the entry 5 is the second ring with the angular element 1. -/
example : ∃ S : SBasis ℝ AngElem, S.dim = 4 ∧ ∃ a, polarGet 2 S.dim (gaussianGet [(0, 1), (1, 1)]) S.getItem 5 = some a ∧
    a.idx1 = 1 ∧ a.idx2 = 1 := by
  refine ⟨⟨[SO2.irrep 1], [SO2.irrep 2], none, none, fun i o => (contBasis i o).getD []⟩, ?_, ?_⟩
  · simp [SBasis.dim, contBasis, SO2.irrep]
  · have hd : (⟨[SO2.irrep 1], [SO2.irrep 2], none, none, fun i o => (contBasis i o).getD []⟩ : SBasis ℝ AngElem).dim = 4 := by
      simp [SBasis.dim, contBasis, SO2.irrep]
    obtain ⟨a, h1, h2, h3, h4⟩ := (c22_plane_basis_indexing [(0, 1), (1, 1)]
      (⟨[SO2.irrep 1], [SO2.irrep 2], none, none, fun i o => (contBasis i o).getD []⟩ : SBasis ℝ AngElem) 0).2 5 (by rw [hd]; simp)
    refine ⟨a, h1, ?_, ?_⟩ <;>
    · rw [polarGet] at h1
      split_ifs at h1
      split at h1
      · cases h1; simp [hd]
      · simp at h1

end E2
