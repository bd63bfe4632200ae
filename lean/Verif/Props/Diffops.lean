import Verif.Lemmas.Diffops
import Verif.Props.Steerable

/-!
# C47: the bases of differential operators satisfy the equivariance constraint

An operator is represented by its polynomial (the symbol), whose value at a point of the plane is a matrix; the constraint is the kernel constraint
`P(g x) = ρ_out(g) P(x) ρ_in(g)⁻¹`.
-/

set_option linter.unusedSimpArgs false

namespace E2

open Finset Mat Real

variable {El : Type}

/-! ### One pair of irreps -/

/-- The sign by which the operators for two irreps of size 1 differ from the kernels. -/
def dSign (so si : ℕ) (e : DElem) : ℝ := if so = 1 ∧ si = 1 then (-1) ^ e.invert else 1

theorem dCoef_eval {so si : ℕ} (hso : so = 1 ∨ so = 2) (hsi : si = 1 ∨ si = 2) {e : DElem} (he : e.Ok) (r φ : ℝ) :
    MEq so si ((dCoef so si e).eval (r * cos φ, r * sin φ)) fun i j => dSign so si e * r ^ e.mu.natAbs * angMat so si e.ang φ i j := by
  obtain ⟨hv, hs⟩ := he
  have ht := chebyt_eval (mu := e.mu) hv r φ
  have hu := chebyu_eval (mu := e.mu) hv r φ
  have hc := hchebyc_eval (mu := e.mu) hv r φ
  have hsn := hchebys_eval (mu := e.mu) hv r φ
  rcases hso with rfl | rfl <;> rcases hsi with rfl | rfl
  · refine fun i hi j hj => ?_
    obtain rfl : i = 0 := by omega
    obtain rfl : j = 0 := by omega
    simp only [dCoef, angMat, dSign]
    norm_num
    rw [DArr.fill_eval (hcheby_deg _ _), m1_00]
    rw [HPoly.smul_eval] at hc
    simp only [DElem.ang]
    rw [_root_.mul_assoc, ← hc, ← _root_.mul_assoc, ← mul_pow]
    simp
  · refine MEq12 ?_ ?_
    · simp only [dCoef, angMat, dSign]
      norm_num
      rw [DArr.fill_eval (by simp [HPoly.smul, hcheby_deg])]
      simpa [DElem.ang] using hc
    · simp only [dCoef, angMat, dSign]
      norm_num
      rw [DArr.fill_eval (by simp [hcheby_deg])]
      simpa [DElem.ang] using hsn
  · refine MEq21 ?_ ?_
    · simp only [dCoef, angMat, dSign]
      norm_num
      rw [DArr.fill_eval (by simp [HPoly.smul, hcheby_deg])]
      simpa [DElem.ang] using hc
    · simp only [dCoef, angMat, dSign]
      norm_num
      rw [DArr.fill_eval (by simp [hcheby_deg])]
      simpa [DElem.ang] using hsn
  · intro i hi j hj
    simp only [dCoef, angMat, dSign, and_self, if_true]
    have hi' : i = 0 ∨ i = 1 := by omega
    have hj' : j = 0 ∨ j = 1 := by omega
    rcases hi' with rfl | rfl <;> rcases hj' with rfl | rfl
    · rw [DArr.fill_eval (by simp [chebyt_deg])]
      simpa [DElem.ang, psichi, m2] using ht
    · rw [DArr.fill_eval (by simp [HPoly.smul, chebyu_deg])]
      simp only [zero_ne_one, one_ne_zero, and_false, and_true, if_true, if_false, HPoly.smul_eval, hu, sgn_eq hs]
      rcases hs with h | h <;> simp [DElem.ang, psichi, m2, h]
    · rw [DArr.fill_eval (by simp [chebyu_deg])]
      simpa [DElem.ang, psichi, m2] using hu
    · rw [DArr.fill_eval (by simp [HPoly.smul, chebyt_deg])]
      simp only [zero_ne_one, one_ne_zero, and_false, and_true, if_true, if_false, HPoly.smul_eval, ht, sgn_eq hs]
      rcases hs with h | h <;> simp [DElem.ang, psichi, m2, h]

/-- Multiplication of the coordinates of a point. -/
def scale (c : ℝ) (p : ℝ × ℝ) : ℝ × ℝ := (c * p.1, c * p.2)

theorem exists_unit (p : ℝ × ℝ) : ∃ q, radius q = 1 ∧ p = scale (radius p) q := by
  obtain ⟨h1, h2⟩ := polar_coords p
  refine ⟨(cos (Complex.arg ⟨p.1, p.2⟩), sin (Complex.arg ⟨p.1, p.2⟩)), ?_, Prod.ext h1 h2⟩
  simp [radius]

theorem rot_scale (α c : ℝ) (p : ℝ × ℝ) : rot α (scale c p) = scale c (rot α p) := by
  simp only [rot, scale, Prod.mk.injEq]; constructor <;> ring

theorem refl_scale (a c : ℝ) (p : ℝ × ℝ) : refl a (scale c p) = scale c (refl a p) := by
  simp only [refl, scale, Prod.mk.injEq]; constructor <;> ring

theorem planeAct_scale (a : ℝ) (g : ℤ × ℝ) (c : ℝ) (p : ℝ × ℝ) : planeAct a g (scale c p) = scale c (planeAct a g p) := by
  unfold planeAct
  split_ifs
  · exact rot_scale _ _ _
  · rw [refl_scale, rot_scale]

/-- A homogeneous polynomial which agrees at the points of radius 1 with a kernel satisfying the constraint, up to a factor, satisfies it everywhere. -/
theorem constraint_of_unit {G : Grp El} {act : El → ℝ × ℝ → ℝ × ℝ} (hrad : ∀ g p, radius (act g p) = radius p)
    (hlin : ∀ g c p, act g (scale c p) = scale c (act g p)) {so si : ℕ} {ρo ρi : El → Mat} {κ : ℝ × ℝ → Mat} (hκ : KernelConstraint G act so si ρo ρi κ)
    (D : DArr) (k : ℝ) (h : ∀ q, radius q = 1 → MEq so si (D.eval q) fun i j => k * κ q i j) :
    KernelConstraint G act so si ρo ρi D.eval := by
  intro g hg p
  obtain ⟨q, hq, hp⟩ := exists_unit p
  have h1 : ∀ q, D.eval (scale (radius p) q) = fun i j => radius p ^ D.deg * D.eval q i j := fun q => by
    funext i j; exact D.eval_scale _ _ _ _
  rw [hp, hlin, h1 q, h1]
  intro i hi j hj
  dsimp only
  rw [h _ (by rw [hrad, hq]) i hi j hj]
  dsimp only
  rw [hκ g hg q i hi j hj]
  simp only [Mat.mul, Finset.mul_sum, Finset.sum_mul]
  refine Finset.sum_congr rfl fun b hb => Finset.sum_congr rfl fun a ha => ?_
  rw [h q hq a (Finset.mem_range.1 ha) b (Finset.mem_range.1 hb)]
  ring

theorem dAxis_eval (axis : ℝ) (D : DArr) (r φ : ℝ) (i j : ℕ) :
    (dAxis axis D).eval (r * cos φ, r * sin φ) i j = D.eval (r * cos (φ - axis), r * sin (φ - axis)) i j := by
  unfold dAxis
  split_ifs with h
  · rw [DArr.transform_eval]
    have e : (SO2.irrep 1).mat axis = psi axis 1 0 := by simp [SO2.irrep]
    rw [e]
    congr 1
    simp only [psi, m2, Prod.mk.injEq]
    norm_num
    rw [Real.cos_sub, Real.sin_sub]
    constructor <;> ring
  · rw [not_not] at h
    simp [h]

/-- At the points of radius 1 the operator takes the values of the kernel with the same frequency, up to a sign. -/
theorem dSamp_unit {i o : Irrep El} (hi : i.size = 1 ∨ i.size = 2) (ho : o.size = 1 ∨ o.size = 2) (axis : ℝ) {e : DElem} (he : e.Ok) (q : ℝ × ℝ)
    (hq : radius q = 1) :
    MEq o.size i.size ((dSamp axis i o e).eval q) fun a b => dSign o.size i.size e * polar (fun _ => 1) (angSample axis o.size i.size e.ang) q a b := by
  intro a ha b hb
  obtain ⟨h1, h2⟩ := polar_coords q
  have hang : angle q = some (Complex.arg ⟨q.1, q.2⟩) := by
    unfold angle
    rw [if_neg]
    rw [hq]; norm_num
  rw [hq] at h1 h2
  have hq' : q = (1 * cos (Complex.arg ⟨q.1, q.2⟩), 1 * sin (Complex.arg ⟨q.1, q.2⟩)) := Prod.ext h1 h2
  simp only [polar, hang, one_mul]
  conv_lhs => rw [hq']
  simp only [dSamp]
  rw [dAxis_eval, dCoef_eval ho hi he _ _ a ha b hb]
  simp [angSample]

theorem dSamp_deg (axis : ℝ) (i o : Irrep El) (e : DElem) : (dSamp axis i o e).deg = e.mu.natAbs := by
  unfold dSamp dAxis
  split_ifs
  · exact dCoef_deg _ _ _
  · exact dCoef_deg _ _ _

theorem irreps_spec {G : Grp El} {act : El → ℝ × ℝ → ℝ × ℝ} (hrad : ∀ g p, radius (act g p) = radius p)
    (hlin : ∀ g c p, act g (scale c p) = scale c (act g p)) (axis : ℝ) {i o : Irrep El} (hi : i.size = 1 ∨ i.size = 2) (ho : o.size = 1 ∨ o.size = 2)
    {dl : Option (List DElem)} {al : Option (List AngElem)} (hda : dl.map (List.map DElem.ang) = al) (hok : ∀ l, dl = some l → ∀ e ∈ l, e.Ok)
    (h : ∃ l, al = some l ∧ ∀ e ∈ l, ∀ radial : ℝ → ℝ,
      KernelConstraint G act o.size i.size o.mat i.mat (polar radial (angSample axis o.size i.size e))) :
    ∃ l, dl = some l ∧ (∃ l', al = some l' ∧ l'.length = l.length) ∧ ∀ e ∈ l, (dSamp axis i o e).deg = e.mu.natAbs ∧
      KernelConstraint G act o.size i.size o.mat i.mat (dSamp axis i o e).eval := by
  obtain ⟨l', h1, h2⟩ := h
  rw [h1] at hda
  cases dl with
  | none => cases hda
  | some l =>
    rw [Option.map_some, Option.some.injEq] at hda
    refine ⟨l, rfl, ⟨l', h1, by rw [← hda, List.length_map]⟩, fun e he => ⟨dSamp_deg _ _ _ _, ?_⟩⟩
    refine constraint_of_unit hrad hlin (h2 e.ang (by rw [← hda]; exact List.mem_map_of_mem he) fun _ => 1) _ (dSign o.size i.size e) fun q hq => ?_
    exact dSamp_unit hi ho axis (hok l rfl e he) q hq

theorem Cyclic.size12 {N k : ℕ} {r : Irrep ℤ} (h : Cyclic.irrep N k = some r) : r.size = 1 ∨ r.size = 2 := by
  rw [Cyclic.irrep_size h]; split_ifs <;> simp

theorem Dihedral.size12 {N j k : ℕ} {r : Irrep (ℤ × ℤ)} (h : Dihedral.irrep N j k = some r) : r.size = 1 ∨ r.size = 2 := by
  rw [Dihedral.irrep_size h]; split_ifs <;> simp

theorem O2.size12 {j k : ℕ} {r : Irrep (ℤ × ℝ)} (h : O2.irrep j k = some r) : r.size = 1 ∨ r.size = 2 := by
  rcases O2.irrepAt h (0, 0) with h | h
  · exact Or.inr h.1
  · exact Or.inl h.1

theorem SO2.size12 (k : ℕ) : (SO2.irrep k).size = 1 ∨ (SO2.irrep k).size = 2 := by
  rcases SO2.irrepAt k 0 with h | h
  · exact Or.inr h.1
  · exact Or.inl h.1

/-- **C47, cyclic groups.** For every `N ≥ 1`, every pair of irreps and every bound on frequencies or offsets, the basis is built with as many elements as the basis of
kernels, and the polynomial of each element has degree `|mu|` and satisfies the constraint for the rotations by `2πg/N`. -/
theorem c47_cyclic_irreps (N : ℕ) (hN : 0 < N) (n m : ℕ) (ri ro : Irrep ℤ) (hi : Cyclic.irrep N n = some ri)
    (ho : Cyclic.irrep N m = some ro) (maxFreq maxOff : Option ℕ) (hb : ¬ (maxFreq = none ∧ maxOff = none)) :
    ∃ l, dRot N ri ro maxFreq maxOff = some l ∧ (∃ l', rotBasis N ri ro maxFreq maxOff = some l' ∧ l'.length = l.length) ∧
      ∀ e ∈ l, (dSamp 0 ri ro e).deg = e.mu.natAbs ∧
        KernelConstraint (Cyclic.grp N) (fun g => rot (g * (2 * π / N))) ro.size ri.size ro.mat ri.mat (dSamp 0 ri ro e).eval :=
  irreps_spec (G := Cyclic.grp N) (act := fun g => rot (g * (2 * π / N))) (fun _ p => radius_rot _ p) (fun _ c p => rot_scale _ c p) 0
    (Cyclic.size12 hi) (Cyclic.size12 ho) (dRot_ang N ri ro maxFreq maxOff)
    (fun _ h => dRot_ok h) (c16_cyclic_kernel_constraint N hN n m ri ro hi ho maxFreq maxOff hb)

/-- **C47, reflections.** -/
theorem c47_flip_irreps (axis : ℝ) (n m : ℕ) (ri ro : Irrep ℤ) (hi : Cyclic.irrep 2 n = some ri)
    (ho : Cyclic.irrep 2 m = some ro) (maxFreq maxOff : Option ℕ) (hb : ¬ (maxFreq = none ∧ maxOff = none)) :
    ∃ l, dFlips ri ro maxFreq maxOff = some l ∧ (∃ l', flipsBasis ri ro maxFreq maxOff = some l' ∧ l'.length = l.length) ∧
      ∀ e ∈ l, (dSamp axis ri ro e).deg = e.mu.natAbs ∧
        KernelConstraint (Cyclic.grp 2) (fun g p => if g = 0 then p else refl axis p) ro.size ri.size ro.mat ri.mat (dSamp axis ri ro e).eval :=
  irreps_spec (fun g p => by split_ifs; exacts [rfl, radius_refl _ _]) (fun g c p => by split_ifs; exacts [rfl, refl_scale _ _ _]) axis
    (Cyclic.size12 hi) (Cyclic.size12 ho) (dFlips_ang _ _ _ _) (fun _ h => dFlips_ok h) (c17_flip_kernel_constraint axis n m ri ro hi ho maxFreq maxOff hb)

/-- **C47, dihedral groups.** -/
theorem c47_dihedral_irreps (N : ℕ) (hN : 0 < N) (axis : ℝ) (j n j' m : ℕ) (ri ro : Irrep (ℤ × ℤ))
    (hi : Dihedral.irrep N j n = some ri) (ho : Dihedral.irrep N j' m = some ro) (maxFreq maxOff : Option ℕ)
    (hb : ¬ (maxFreq = none ∧ maxOff = none)) :
    ∃ l, dFlipRot N ri ro maxFreq maxOff = some l ∧ (∃ l', flipRotBasis N ri ro maxFreq maxOff = some l' ∧ l'.length = l.length) ∧
      ∀ e ∈ l, (dSamp axis ri ro e).deg = e.mu.natAbs ∧
        KernelConstraint (Dihedral.grp N) (fun g => planeAct axis (g.1, g.2 * (2 * π / N))) ro.size ri.size ro.mat ri.mat (dSamp axis ri ro e).eval := by
  have jn := (Dihedral.irrep_isSome N j n).1 (by simp [hi])
  have jm := (Dihedral.irrep_isSome N j' m).1 (by simp [ho])
  obtain ⟨-, gn⟩ := Dihedral.irrep_freq hi
  obtain ⟨-, gm⟩ := Dihedral.irrep_freq ho
  have h1 : ri.flip ≤ 1 := by omega
  have h2 : ro.flip ≤ 1 := by omega
  exact irreps_spec (G := Dihedral.grp N) (act := fun g => planeAct axis (g.1, g.2 * (2 * π / N))) (fun g p => radius_planeAct axis _ p)
    (fun g c p => planeAct_scale axis _ c p) axis (Dihedral.size12 hi) (Dihedral.size12 ho)
    (dFlipRot_ang N ri ro maxFreq maxOff) (fun _ h => dFlipRot_ok h1 h2 h)
    (c18_dihedral_kernel_constraint N hN axis j n j' m ri ro hi ho maxFreq maxOff hb)

/-- **C47, O(2).** -/
theorem c47_o2_irreps (axis : ℝ) (j n j' m : ℕ) (ri ro : Irrep (ℤ × ℝ)) (hi : O2.irrep j n = some ri) (ho : O2.irrep j' m = some ro) :
    ∃ l, dFlipCont ri ro = some l ∧ (∃ l', flipContBasis ri ro = some l' ∧ l'.length = l.length) ∧
      ∀ e ∈ l, (dSamp axis ri ro e).deg = e.mu.natAbs ∧
        KernelConstraint O2.grp (planeAct axis) ro.size ri.size ro.mat ri.mat (dSamp axis ri ro e).eval := by
  obtain ⟨-, -, -, -, gn, -⟩ := (c05_o2_irreps j n).2 ri hi
  obtain ⟨-, -, -, -, gm, -⟩ := (c05_o2_irreps j' m).2 ro ho
  have jn := (c05_o2_irreps j n).1.1 (by simp [hi])
  have jm := (c05_o2_irreps j' m).1.1 (by simp [ho])
  have h1 : ri.flip ≤ 1 := by omega
  have h2 : ro.flip ≤ 1 := by omega
  exact irreps_spec (G := O2.grp) (act := planeAct axis) (fun g p => radius_planeAct axis g p) (fun g c p => planeAct_scale axis g c p) axis
    (O2.size12 hi) (O2.size12 ho) (dFlipCont_ang ri ro) (fun _ h => dFlipCont_ok h1 h2 h) (c18_o2_kernel_constraint axis j n j' m ri ro hi ho)

/-- The arrays of `R2ContinuousRotationsSolution` are those of the other classes. -/
theorem dCoefCont_eval {ρi ρo : Irrep ℝ} (hi : ρi.size = 1 ∨ ρi.size = 2) (ho : ρo.size = 1 ∨ ρo.size = 2) {l : List DElem} (h : dCont ρi ρo = some l)
    {e : DElem} (he : e ∈ l) (p : ℝ × ℝ) :
    (dCoefCont ρo.size ρi.size e).deg = e.mu.natAbs ∧
    (dCoefCont ρo.size ρi.size e).eval p = (dSamp 0 ρi ρo e).eval p := by
  have hv := (dCont_ok h e he).1
  have hd : dSamp 0 ρi ρo e = dCoef ρo.size ρi.size e := by simp [dSamp, dAxis]
  rw [hd]
  have ec : chebyt e.mu e.invert = HPoly.smul ((-1) ^ e.invert) (hcheby (e.invert ≠ 0) e.mu) := by
    rcases Nat.le_one_iff_eq_zero_or_eq_one.1 hv with h | h <;> simp [chebyt, hcheby, h]
  have es : chebyu e.mu e.invert = hcheby (e.invert = 0) e.mu := by
    rcases Nat.le_one_iff_eq_zero_or_eq_one.1 hv with h | h <;> simp [chebyu, hcheby, h, HPoly.smul]
  rcases hi with hi | hi <;> rcases ho with ho | ho
  · unfold dCont at h
    simp only [hi, ho] at h
    norm_num at h
    obtain ⟨-, rfl⟩ := h
    have : e = ⟨0, 0, 0, 0⟩ := by simpa using he
    subst this
    refine ⟨by simp [dCoefCont, hi, ho], ?_⟩
    funext i j
    simp [dCoefCont, dCoef, hi, ho, DArr.eval, DArr.entry, HPoly.eval, DArr.fill, hcheby, HPoly.chebyT]
  · simp [hi, ho, dCoefCont, dCoef, ec, es, DArr.fill]
  · simp [hi, ho, dCoefCont, dCoef, ec, es, DArr.fill]
  · simp [hi, ho, dCoefCont, dCoef, DArr.fill]

/-- **C47, SO(2).** -/
theorem c47_so2_irreps (n m : ℕ) :
    ∃ l, dCont (SO2.irrep n) (SO2.irrep m) = some l ∧ (∃ l', contBasis (SO2.irrep n) (SO2.irrep m) = some l' ∧ l'.length = l.length) ∧
      ∀ e ∈ l, (dCoefCont (SO2.irrep m).size (SO2.irrep n).size e).deg = e.mu.natAbs ∧
        KernelConstraint SO2.grp rot (SO2.irrep m).size (SO2.irrep n).size (SO2.irrep m).mat (SO2.irrep n).mat
          (dCoefCont (SO2.irrep m).size (SO2.irrep n).size e).eval := by
  obtain ⟨l, h1, h2, h3⟩ := irreps_spec (fun α p => radius_rot α p) (fun α c p => rot_scale α c p) 0 (SO2.size12 n) (SO2.size12 m) (dCont_ang _ _)
    (fun _ h => dCont_ok h) (c15_so2_kernel_constraint n m)
  refine ⟨l, h1, h2, fun e he => ⟨(dCoefCont_eval (SO2.size12 n) (SO2.size12 m) h1 he (0, 0)).1, ?_⟩⟩
  rw [show (dCoefCont (SO2.irrep m).size (SO2.irrep n).size e).eval = (dSamp 0 (SO2.irrep n) (SO2.irrep m) e).eval from
    funext fun p => (dCoefCont_eval (SO2.size12 n) (SO2.size12 m) h1 he p).2]
  exact (h3 e he).2

/-! ### Arbitrary representations -/

theorem DArr.place_eval (r0 rs c0 cs : ℕ) (D : DArr) (p : ℝ × ℝ) : (D.place r0 rs c0 cs).eval p = Mat.place r0 rs c0 cs (D.eval p) := by
  funext i j
  simp only [DArr.eval, DArr.entry, DArr.place, Mat.place, HPoly.eval]
  split_ifs
  · rfl
  · simp

namespace SBasis

theorem dLoopOut_iter (cf : Irrep El → Irrep El → DElem → DArr) (bases : Irrep El → Irrep El → List DElem) (i : Irrep El) (ii inPos : ℕ)
    (os pre : List (Irrep El)) (c : ℕ) :
    dLoopOut cf bases i inPos os (pre.map Irrep.size).sum = (iterLoop bases (rowPairs (ii, i) pre.length os) c).map fun a =>
      (cf i a.outIrrep a.elem).place (offset ((pre ++ os).map Irrep.size) a.outIdx) a.outIrrep.size inPos i.size := by
  induction os generalizing pre c with
  | nil => simp [dLoopOut, rowPairs, iterLoop]
  | cons o os ih =>
    have erow : rowPairs (ii, i) pre.length (o :: os) = ((ii, i), (pre.length, o)) :: rowPairs (ii, i) (pre ++ [o]).length os := by
      simp [rowPairs]
    have h := ih (pre ++ [o]) (c + (bases i o).length)
    simp only [List.map_append, List.map_cons, List.map_nil, List.sum_append, List.sum_cons, List.sum_nil, Nat.add_zero, List.append_assoc,
      List.cons_append, List.nil_append] at h
    rw [erow]
    simp only [dLoopOut, iterLoop, List.map_append]
    rw [h]
    congr 1
    · rw [List.map_map]
      have e3 : offset ((pre ++ o :: os).map Irrep.size) pre.length = (pre.map Irrep.size).sum := by simp [offset]
      simp only [List.map_append, List.map_cons] at e3
      simp only [Function.comp_def, List.map_cons, e3]
      simp only [enum, List.map_map, Function.comp_def]
      rw [show (fun x : DElem × ℕ => (cf i o x.1).place (pre.map Irrep.size).sum o.size inPos i.size) =
        (fun e => (cf i o e).place (pre.map Irrep.size).sum o.size inPos i.size) ∘ Prod.fst from rfl, ← List.map_map, List.zipIdx_map_fst]

theorem dLoopIn_iter (cf : Irrep El → Irrep El → DElem → DArr) (bases : Irrep El → Irrep El → List DElem) (outs is pre : List (Irrep El)) (c : ℕ) :
    dLoopIn cf bases outs is (pre.map Irrep.size).sum = (iterLoop bases (allPairs outs pre.length is) c).map fun a =>
      (cf a.inIrrep a.outIrrep a.elem).place (offset (outs.map Irrep.size) a.outIdx) a.outIrrep.size
        (offset ((pre ++ is).map Irrep.size) a.inIdx) a.inIrrep.size := by
  induction is generalizing pre c with
  | nil => simp [dLoopIn, allPairs, iterLoop]
  | cons i is ih =>
    have eall : allPairs outs pre.length (i :: is) = rowPairs (pre.length, i) 0 outs ++ allPairs outs (pre ++ [i]).length is := by
      simp [allPairs]
    have h := ih (pre ++ [i]) (c + ((rowPairs (pre.length, i) 0 outs).map fun p => (bases p.1.2 p.2.2).length).sum)
    have e1 : ((pre ++ [i]).map Irrep.size).sum = (pre.map Irrep.size).sum + i.size := by simp
    rw [e1, List.append_assoc, List.singleton_append] at h
    rw [eall, iterLoop_append, List.map_append, dLoopIn, h]
    congr 1
    have h2 := dLoopOut_iter cf bases i pre.length (pre.map Irrep.size).sum outs [] c
    simp only [List.map_nil, List.sum_nil, List.length_nil, List.nil_append] at h2
    rw [h2]
    refine List.map_congr_left fun a ha => ?_
    obtain ⟨k, hk⟩ := List.getElem?_of_mem ha
    obtain ⟨h3, -, -⟩ := iterLoop_get _ _ _ _ hk
    have h4 : a.inIdx = pre.length ∧ a.inIrrep = i := by
      simp only [rowPairs, List.mem_map] at h3
      obtain ⟨q, -, hq⟩ := h3
      simp only [Prod.mk.injEq] at hq
      exact ⟨hq.1.1.symm, hq.1.2.symm⟩
    have e3 : offset ((pre ++ i :: is).map Irrep.size) pre.length = (pre.map Irrep.size).sum := by simp [offset]
    rw [h4.1, h4.2, e3]

/-- The list of the coefficients of the direct sum follows the attributes yielded by the iteration. -/
theorem dLoopIn_eq (cf : Irrep El → Irrep El → DElem → DArr) (S : SBasis El DElem) :
    dLoopIn cf S.bases S.outs S.ins 0 = S.iter.map fun a =>
      (cf a.inIrrep a.outIrrep a.elem).place (offset (S.outs.map Irrep.size) a.outIdx) a.outIrrep.size
        (offset (S.ins.map Irrep.size) a.inIdx) a.inIrrep.size := by
  rw [iter, pairs_eq]
  exact dLoopIn_iter cf S.bases S.outs S.ins [] 0

theorem dChange_deg (S : SBasis El DElem) (D : DArr) : (S.dChange D).deg = D.deg := by
  unfold dChange
  rcases S.Ainv with _ | A <;> rcases S.B with _ | B <;> rfl

/-- The changes of basis of the coefficients and of the samples agree. -/
theorem dChange_eval (S : SBasis El DElem) (D : DArr) (p : ℝ × ℝ) (s : Arr3) (b : ℕ) (h : s.slice b = D.eval p) :
    (S.dChange D).eval p = Arr3.slice (match S.Ainv, S.B with
      | none, none => s
      | some A, none => fun n j b => ∑ i ∈ range S.inSize, s n i b * A i j
      | none, some B => fun n i b => ∑ o ∈ range S.outSize, B n o * s o i b
      | some A, some B => fun n j b => ∑ o ∈ range S.outSize, ∑ i ∈ range S.inSize, B n o * s o i b * A i j) b := by
  have h' : ∀ i j, s i j b = ∑ k ∈ range (D.deg + 1), D.co i j k * (p.1 ^ (D.deg - k) * p.2 ^ k) := fun i j => congrFun (congrFun h i) j
  unfold dChange
  rcases S.Ainv with _ | A <;> rcases S.B with _ | B
  · exact h.symm
  · funext i j
    simp only [DArr.eval, DArr.entry, HPoly.eval, Arr3.slice, h', Finset.mul_sum, Finset.sum_mul]
    rw [Finset.sum_comm]
    exact Finset.sum_congr rfl fun o _ => Finset.sum_congr rfl fun k _ => by ring
  · funext i j
    simp only [DArr.eval, DArr.entry, HPoly.eval, Arr3.slice, h', Finset.mul_sum, Finset.sum_mul]
    rw [Finset.sum_comm]
    exact Finset.sum_congr rfl fun o _ => Finset.sum_congr rfl fun k _ => by ring
  · funext i j
    simp only [DArr.eval, DArr.entry, HPoly.eval, Arr3.slice, h', Finset.mul_sum, Finset.sum_mul]
    rw [Finset.sum_comm]
    refine Finset.sum_congr rfl fun o _ => ?_
    rw [Finset.sum_comm]
    exact Finset.sum_congr rfl fun o _ => Finset.sum_congr rfl fun k _ => by ring

/-- The coefficients and the sampling agree. -/
theorem dCoefs_eval (cf : Irrep El → Irrep El → DElem → DArr) (S : SBasis El DElem) (b : ℕ) {D : DArr} (hD : (S.dCoefs cf)[b]? = some D) (p : ℝ × ℝ) :
    D.eval p = (S.sample (fun i o e p => (cf i o e).eval p) p).slice b ∧ b < S.dim ∧
    ∃ a, S.getItem b = some a ∧ D.deg = (cf a.inIrrep a.outIrrep a.elem).deg := by
  rw [dCoefs, dLoopIn_eq, List.map_map, List.getElem?_map, Option.map_eq_some_iff] at hD
  obtain ⟨a, ha, rfl⟩ := hD
  refine ⟨?_, ?_, a, by rw [getItem_eq, ha], by simp [dChange_deg, DArr.place]⟩
  · rw [Function.comp_apply, SBasis.sample]
    refine dChange_eval S _ p _ b ?_
    rw [sampleDirectSum_slice _ _ _ ha, DArr.place_eval]
  · rw [← length_iter]
    exact (List.getElem?_eq_some_iff.1 ha).1

theorem length_dCoefs (cf : Irrep El → Irrep El → DElem → DArr) (S : SBasis El DElem) : (S.dCoefs cf).length = S.dim := by
  rw [dCoefs, dLoopIn_eq, List.length_map, List.length_map, length_iter]

end SBasis

/-- **C47, `SteerableDiffopBasis`.** If the bases for all the pairs of irreps can be built and satisfy the constraint, then the basis for the representations
`rin` and `rout` (any lists of irreps, any change of basis) can be built, and each of its `dim` elements satisfies the constraint for `rin` and `rout`. -/
theorem c47_steerable (G : Grp El) (act : El → ℝ × ℝ → ℝ × ℝ) (bas : Irrep El → Irrep El → Option (List DElem))
    (cf : Irrep El → Irrep El → DElem → DArr) (rin rout : Repr El) (hin : rin.WF) (hout : rout.WF)
    (hbas : ∀ i ∈ rin.irreps, ∀ o ∈ rout.irreps, ∃ l, bas i o = some l ∧
      ∀ e ∈ l, KernelConstraint G act o.size i.size o.mat i.mat (cf i o e).eval) :
    ∃ S, steerable bas rin rout = some S ∧ S.outSize = rout.size ∧ S.inSize = rin.size ∧
      (S.dCoefs cf).length = (rin.irreps.map fun i => (rout.irreps.map fun o => ((bas i o).getD []).length).sum).sum ∧
      ∀ D ∈ S.dCoefs cf, KernelConstraint G act rout.size rin.size rout.mat rin.mat D.eval := by
  obtain ⟨S, h1, h2, h3, h4, h5⟩ := c21_steerable_constraint G act bas (fun i o e p => (cf i o e).eval p) rin rout hin hout hbas
  refine ⟨S, h1, h2, h3, by rw [S.length_dCoefs, h4], fun D hD => ?_⟩
  obtain ⟨b, hb⟩ := List.getElem?_of_mem hD
  rw [show D.eval = fun p => (S.sample (fun i o e p => (cf i o e).eval p) p).slice b from funext fun p => (S.dCoefs_eval cf b hb p).1]
  exact h5 b (S.dCoefs_eval cf b hb (0, 0)).2.1

theorem tensor_eval (a : DArr) (k : ℕ) (p : ℝ × ℝ) (i j : ℕ) :
    (DArr.fill (a.deg + 1 + ((HPoly.laplacian k).deg + 1) - 2) fun i k' => (a.entry i k').mul (HPoly.laplacian k)).eval p i j =
      radius p ^ (2 * k) * a.eval p i j := by
  rw [DArr.fill_eval (by rw [(HPoly.c46_multiply _ _ (0, 0)).1]; simp only [DArr.entry]; omega)]
  rw [(HPoly.c46_multiply _ _ p).2, (HPoly.c46_laplacian k p).2, pow_mul, radius, Real.sq_sqrt (by positivity)]
  simp only [DArr.eval]
  ring

/-- **C47, products with the powers of the Laplacian.** They keep the constraint, for any action which preserves the distance to the origin. -/
theorem c47_tensor {G : Grp El} {act : El → ℝ × ℝ → ℝ × ℝ} (hrad : ∀ g p, radius (act g p) = radius p) {so si : ℕ} {ρo ρi : El → Mat} (as : List DArr)
    (has : ∀ a ∈ as, KernelConstraint G act so si ρo ρi a.eval) (maxPower : ℕ) :
    (tensorCoefs as (laplaceProfile maxPower)).length = as.length * (maxPower + 1) ∧
    ∀ D ∈ tensorCoefs as (laplaceProfile maxPower), KernelConstraint G act so si ρo ρi D.eval := by
  refine ⟨by simp [tensorCoefs, laplaceProfile, List.length_flatMap], fun D hD => ?_⟩
  rw [tensorCoefs, List.mem_flatMap] at hD
  obtain ⟨a, ha, hD⟩ := hD
  rw [laplaceProfile, List.map_map, List.mem_map] at hD
  obtain ⟨k, -, rfl⟩ := hD
  intro g hg p i hi j hj
  simp only [Function.comp_apply]
  rw [tensor_eval, has a ha g hg p i hi j hj, hrad]
  simp only [Mat.mul, Finset.mul_sum, Finset.sum_mul, tensor_eval]
  exact Finset.sum_congr rfl fun _ _ => Finset.sum_congr rfl fun _ _ => by ring

/-- **C47, orders.** The attribute `order` of the element at an index is the order of its operator. -/
theorem c47_order (S : SBasis El DElem) (cf : Irrep El → Irrep El → DElem → DArr) (hcf : ∀ i o, ∀ e ∈ S.bases i o, (cf i o e).deg = e.mu.natAbs)
    (maxPower idx : ℕ) :
    tensorOrder S maxPower idx = (tensorCoefs (S.dCoefs cf) (laplaceProfile maxPower))[idx]?.map DArr.deg := by
  have hget : ∀ (as : List DArr) (bs : List HPoly) (k : ℕ), (tensorCoefs as bs)[k]? =
      match as[k / bs.length]?, bs[k % bs.length]? with
      | some a, some b => some (DArr.fill (a.deg + 1 + (b.deg + 1) - 2) fun i k => (a.entry i k).mul b)
      | _, _ => none := by
    intro as bs k
    have := flatMap_pair_get as bs k
    have e : tensorCoefs as bs = (as.flatMap fun a => bs.map fun b => (a, b)).map fun q =>
        DArr.fill (q.1.deg + 1 + (q.2.deg + 1) - 2) fun i k => (q.1.entry i k).mul q.2 := by
      simp [tensorCoefs, List.map_flatMap, Function.comp_def]
    rw [e, List.getElem?_map, this]
    cases as[k / bs.length]? <;> cases bs[k % bs.length]? <;> rfl
  have hl : (laplaceProfile maxPower).length = maxPower + 1 := by simp [laplaceProfile]
  have hb : (laplaceProfile maxPower)[idx % (maxPower + 1)]? = some (HPoly.laplacian (idx % (maxPower + 1))) := by
    rw [laplaceProfile, List.getElem?_map, List.getElem?_range (Nat.mod_lt _ (Nat.succ_pos _))]
    rfl
  rw [hget, hl, hb, tensorOrder]
  by_cases h : idx < S.dim * (maxPower + 1)
  · rw [if_pos h]
    have hlt : idx / (maxPower + 1) < S.dim := (Nat.div_lt_iff_lt_mul (Nat.succ_pos _)).2 h
    obtain ⟨D, hD⟩ : ∃ D, (S.dCoefs cf)[idx / (maxPower + 1)]? = some D := ⟨_, List.getElem?_eq_getElem (by rw [S.length_dCoefs]; exact hlt)⟩
    obtain ⟨-, -, a, ha, hdeg⟩ := S.dCoefs_eval cf _ hD (0, 0)
    rw [hD, ha]
    rw [S.getItem_eq] at ha
    obtain ⟨-, -, a3, -⟩ := S.iter_get ha
    rw [hcf _ _ _ (List.mem_of_getElem? a3)] at hdeg
    simp only [Option.map_some, DArr.fill, hdeg, HPoly.laplacian, Option.some.injEq]
    omega
  · rw [if_neg h]
    have : (S.dCoefs cf)[idx / (maxPower + 1)]? = none := by
      rw [List.getElem?_eq_none]
      rw [S.length_dCoefs]
      rw [not_lt] at h
      exact (Nat.le_div_iff_mul_le (Nat.succ_pos _)).2 h
    rw [this]
    rfl

theorem tensor_spec {G : Grp El} {act : El → ℝ × ℝ → ℝ × ℝ} (hrad : ∀ g p, radius (act g p) = radius p)
    {bas : Irrep El → Irrep El → Option (List DElem)} {cf : Irrep El → Irrep El → DElem → DArr} {rin rout : Repr El} (hin : rin.WF) (hout : rout.WF)
    (hbas : ∀ i ∈ rin.irreps, ∀ o ∈ rout.irreps, ∃ l, bas i o = some l ∧
      ∀ e ∈ l, KernelConstraint G act o.size i.size o.mat i.mat (cf i o e).eval) (maxPower : ℕ) :
    ∃ l, tensorBasis bas cf rin rout maxPower = some l ∧
      l.length = (rin.irreps.map fun i => (rout.irreps.map fun o => ((bas i o).getD []).length).sum).sum * (maxPower + 1) ∧
      ∀ D ∈ l, KernelConstraint G act rout.size rin.size rout.mat rin.mat D.eval := by
  obtain ⟨S, h1, h2, h3, h4, h5⟩ := c47_steerable G act bas cf rin rout hin hout hbas
  obtain ⟨h6, h7⟩ := c47_tensor hrad (S.dCoefs cf) h5 maxPower
  exact ⟨_, by rw [tensorBasis, h1]; rfl, by rw [h6, h4], h7⟩

/-- **C47, `diffops_SO2_act_R2`.** For all representations and all powers of the Laplacian. -/
theorem c47_so2_diffops (rin rout : Repr ℝ) (hin : rin.WF) (hout : rout.WF) (hi : ∀ i ∈ rin.irreps, ∃ n, i = SO2.irrep n)
    (ho : ∀ o ∈ rout.irreps, ∃ m, o = SO2.irrep m) (maxPower : ℕ) :
    ∃ l, tensorBasis dCont (fun i o => dCoefCont o.size i.size) rin rout maxPower = some l ∧
      l.length = (rin.irreps.map fun i => (rout.irreps.map fun o => ((dCont i o).getD []).length).sum).sum * (maxPower + 1) ∧
      ∀ D ∈ l, KernelConstraint SO2.grp rot rout.size rin.size rout.mat rin.mat D.eval := by
  refine tensor_spec (G := SO2.grp) (act := rot) (fun α p => radius_rot α p) hin hout (fun i h o h' => ?_) maxPower
  obtain ⟨n, rfl⟩ := hi i h
  obtain ⟨m, rfl⟩ := ho o h'
  obtain ⟨l, h1, -, h2⟩ := c47_so2_irreps n m
  exact ⟨l, h1, fun e he => (h2 e he).2⟩

/-- **C47, `diffops_CN_act_R2` and `diffops_Trivial_act_R2` (`N = 1`).** -/
theorem c47_cyclic_diffops (N : ℕ) (hN : 0 < N) (rin rout : Repr ℤ) (hin : rin.WF) (hout : rout.WF)
    (hi : ∀ i ∈ rin.irreps, ∃ n, Cyclic.irrep N n = some i) (ho : ∀ o ∈ rout.irreps, ∃ m, Cyclic.irrep N m = some o)
    (maxFreq maxOff : Option ℕ) (hb : ¬ (maxFreq = none ∧ maxOff = none)) (maxPower : ℕ) :
    ∃ l, tensorBasis (fun i o => dRot N i o maxFreq maxOff) (dSamp 0) rin rout maxPower = some l ∧
      l.length = (rin.irreps.map fun i => (rout.irreps.map fun o => ((dRot N i o maxFreq maxOff).getD []).length).sum).sum * (maxPower + 1) ∧
      ∀ D ∈ l, KernelConstraint (Cyclic.grp N) (fun g => rot (g * (2 * π / N))) rout.size rin.size rout.mat rin.mat D.eval := by
  refine tensor_spec (G := Cyclic.grp N) (act := fun g => rot (g * (2 * π / N))) (fun g p => radius_rot _ p) hin hout (fun i h o h' => ?_) maxPower
  obtain ⟨n, hn⟩ := hi i h
  obtain ⟨m, hm⟩ := ho o h'
  obtain ⟨l, h1, -, h2⟩ := c47_cyclic_irreps N hN n m i o hn hm maxFreq maxOff hb
  exact ⟨l, h1, fun e he => (h2 e he).2⟩

/-- **C47, `diffops_Flip_act_R2`.** -/
theorem c47_flip_diffops (axis : ℝ) (rin rout : Repr ℤ) (hin : rin.WF) (hout : rout.WF)
    (hi : ∀ i ∈ rin.irreps, ∃ n, Cyclic.irrep 2 n = some i) (ho : ∀ o ∈ rout.irreps, ∃ m, Cyclic.irrep 2 m = some o)
    (maxFreq maxOff : Option ℕ) (hb : ¬ (maxFreq = none ∧ maxOff = none)) (maxPower : ℕ) :
    ∃ l, tensorBasis (fun i o => dFlips i o maxFreq maxOff) (dSamp axis) rin rout maxPower = some l ∧
      l.length = (rin.irreps.map fun i => (rout.irreps.map fun o => ((dFlips i o maxFreq maxOff).getD []).length).sum).sum * (maxPower + 1) ∧
      ∀ D ∈ l, KernelConstraint (Cyclic.grp 2) (fun g p => if g = 0 then p else refl axis p) rout.size rin.size rout.mat rin.mat D.eval := by
  refine tensor_spec (G := Cyclic.grp 2) (act := fun g p => if g = 0 then p else refl axis p)
    (fun g p => by split_ifs; exacts [rfl, radius_refl _ _]) hin hout (fun i h o h' => ?_) maxPower
  obtain ⟨n, hn⟩ := hi i h
  obtain ⟨m, hm⟩ := ho o h'
  obtain ⟨l, h1, -, h2⟩ := c47_flip_irreps axis n m i o hn hm maxFreq maxOff hb
  exact ⟨l, h1, fun e he => (h2 e he).2⟩

/-- **C47, `diffops_DN_act_R2`.** -/
theorem c47_dihedral_diffops (N : ℕ) (hN : 0 < N) (axis : ℝ) (rin rout : Repr (ℤ × ℤ)) (hin : rin.WF) (hout : rout.WF)
    (hi : ∀ i ∈ rin.irreps, ∃ j n, Dihedral.irrep N j n = some i) (ho : ∀ o ∈ rout.irreps, ∃ j m, Dihedral.irrep N j m = some o)
    (maxFreq maxOff : Option ℕ) (hb : ¬ (maxFreq = none ∧ maxOff = none)) (maxPower : ℕ) :
    ∃ l, tensorBasis (fun i o => dFlipRot N i o maxFreq maxOff) (dSamp axis) rin rout maxPower = some l ∧
      l.length = (rin.irreps.map fun i => (rout.irreps.map fun o => ((dFlipRot N i o maxFreq maxOff).getD []).length).sum).sum * (maxPower + 1) ∧
      ∀ D ∈ l, KernelConstraint (Dihedral.grp N) (fun g => planeAct axis (g.1, g.2 * (2 * π / N))) rout.size rin.size rout.mat rin.mat D.eval := by
  refine tensor_spec (G := Dihedral.grp N) (act := fun g => planeAct axis (g.1, g.2 * (2 * π / N)))
    (fun g p => radius_planeAct axis _ p) hin hout (fun i h o h' => ?_) maxPower
  obtain ⟨j, n, hn⟩ := hi i h
  obtain ⟨j', m, hm⟩ := ho o h'
  obtain ⟨l, h1, -, h2⟩ := c47_dihedral_irreps N hN axis j n j' m i o hn hm maxFreq maxOff hb
  exact ⟨l, h1, fun e he => (h2 e he).2⟩

/-- **C47, `diffops_O2_act_R2`.** -/
theorem c47_o2_diffops (axis : ℝ) (rin rout : Repr (ℤ × ℝ)) (hin : rin.WF) (hout : rout.WF)
    (hi : ∀ i ∈ rin.irreps, ∃ j n, O2.irrep j n = some i) (ho : ∀ o ∈ rout.irreps, ∃ j m, O2.irrep j m = some o) (maxPower : ℕ) :
    ∃ l, tensorBasis dFlipCont (dSamp axis) rin rout maxPower = some l ∧
      l.length = (rin.irreps.map fun i => (rout.irreps.map fun o => ((dFlipCont i o).getD []).length).sum).sum * (maxPower + 1) ∧
      ∀ D ∈ l, KernelConstraint O2.grp (planeAct axis) rout.size rin.size rout.mat rin.mat D.eval := by
  refine tensor_spec (G := O2.grp) (act := planeAct axis) (fun g p => radius_planeAct axis g p) hin hout (fun i h o h' => ?_) maxPower
  obtain ⟨j, n, hn⟩ := hi i h
  obtain ⟨j', m, hm⟩ := ho o h'
  obtain ⟨l, h1, -, h2⟩ := c47_o2_irreps axis j n j' m i o hn hm
  exact ⟨l, h1, fun e he => (h2 e he).2⟩

/-- The operators from scalars to vectors for SO(2) include the gradient `(∂x, ∂y)`. -/
example : ∃ l, dCont (SO2.irrep 0) (SO2.irrep 1) = some l ∧ ∃ e ∈ l, ∀ x y : ℝ,
    (dCoefCont 2 1 e).eval (x, y) 0 0 = x ∧ (dCoefCont 2 1 e).eval (x, y) 1 0 = y := by
  refine ⟨[⟨1, 0, 0, 0⟩, ⟨1, 1, 0, 0⟩], by simp [dCont, SO2.irrep], ⟨1, 0, 0, 0⟩, by simp, fun x y => ?_⟩
  constructor <;> simp [dCoefCont, DArr.eval, DArr.entry, DArr.fill, HPoly.eval, Finset.sum_range_succ, chebyt, chebyu, HPoly.smul, HPoly.chebyT, HPoly.chebyU]

end E2
