import Verif.Model.StoredFilters
import Verif.Props.Expansion
import Verif.Lemmas.Restrict

/-!
# C59: the dictionary of sampled bases

Unless `recompute` is set, a layer takes its sampled basis from a dictionary shared by all the layers in the process.  It should get what it would have
computed itself.  The keys do not contain the reflection axis of `FlipRot2dOnR2`: this holds for all sequences of calls with one axis per group, and fails
for two spaces with different axes, whose second gets filters which are not equivariant.
-/

namespace E2

open Mat Real Finset

variable {El Tag Nm : Type}

theorem PolarB.Same.elems_eq {cmpAxis : Tag → Bool} {a b : PolarB El Tag Nm} (h : a.Same cmpAxis b) (hax : cmpAxis a.tag = true ∨ a.axis = b.axis) :
    a.attrs = b.attrs ∧ ∀ points, a.elems points = b.elems points := by
  obtain ⟨h1, -, ⟨-, h2⟩, ⟨-, h3⟩, h4, h5⟩ := h
  have hx : a.axis = b.axis := hax.elim h5 id
  have hd : a.dict = b.dict := by
    funext i o
    unfold PolarB.dict
    rw [← h2, ← h3]
    split_ifs with hm
    · exact h4 i hm.1 o hm.2
    · rfl
  have hs : a.sbasis = b.sbasis := by rw [PolarB.sbasis, PolarB.sbasis, hd, h2, h3]
  have ha : a.attrs = b.attrs := by rw [PolarB.attrs, PolarB.attrs, h1, hs]
  refine ⟨ha, fun points => ?_⟩
  rw [PolarB.elems, PolarB.elems, ha, PolarB.radials, PolarB.radials, h1, hs, hx]

theorem filter_mask {α β : Type} (f : α → β) (k k' : β → Bool) (l : List α) (h : (l.map f).map k = (l.map f).map k') :
    (l.filter fun x => k (f x)) = l.filter fun x => k' (f x) := by
  induction l with
  | nil => rfl
  | cons x l ih =>
    simp only [List.map_cons, List.cons.injEq] at h
    rw [List.filter_cons, List.filter_cons, h.1, ih h.2]

theorem FReq.SameKey.build_eq {cmpAxis : Tag → Bool} {a b : FReq El Tag Nm} (h : a.SameKey cmpAxis b)
    (hax : cmpAxis a.basis.tag = true ∨ a.basis.axis = b.basis.axis) : a.build = b.build := by
  obtain ⟨h1, h2, h3⟩ := h
  obtain ⟨h4, h5⟩ := h1.elems_eq hax
  have hin : a.basis.rin = b.basis.rin := h1.2.2.1.2
  have hout : a.basis.rout = b.basis.rout := h1.2.2.2.1.2
  have hat : (b.basis.elems b.points).map Elem.attr = b.basis.attrs := by
    rw [PolarB.elems, List.map_map]
    exact List.zipIdx_map_fst 0 _
  have hm := filter_mask Elem.attr a.keep b.keep (b.basis.elems b.points) (by
    rw [hat]
    have := h2
    unfold FReq.mask at this
    rwa [h4] at this)
  unfold FReq.build singleBlock
  rw [h5, h3, hin, hout, hm]

open Classical in
/-- **C59.** For every sequence of calls in which all the bases of one group (and class) have the same axis, or the class compares it, the results with the dictionary
are those of building everything anew, whatever was asked before. -/
theorem c59_stored_partial (cmpAxis : Tag → Bool) (rs : List (FReq El Tag Nm))
    (hax : ∀ a ∈ rs, ∀ b ∈ rs, a.basis.tag = b.basis.tag → cmpAxis a.basis.tag = true ∨ a.basis.axis = b.basis.axis) :
    blockBases cmpAxis [] rs = rs.map FReq.build := by
  suffices H : ∀ (st : Stored El Tag Nm) (l : List (FReq El Tag Nm)), (∀ r ∈ l, r ∈ rs) → (∀ e ∈ st, e.1 ∈ rs ∧ e.1.build = some e.2) →
      blockBases cmpAxis st l = l.map FReq.build from H [] rs (fun _ h => h) (by simp)
  intro st l
  induction l generalizing st with
  | nil => intros; rfl
  | cons r l ih =>
    intro hl hst
    have hr := hl r (by simp)
    have hl' : ∀ x ∈ l, x ∈ rs := fun x hx => hl x (by simp [hx])
    rw [blockBases, List.map_cons]
    have key : (blockBasis cmpAxis st r).1 = r.build ∧ ∀ e ∈ (blockBasis cmpAxis st r).2, e.1 ∈ rs ∧ e.1.build = some e.2 := by
      unfold blockBasis
      split_ifs with hre
      · exact ⟨rfl, hst⟩
      · cases hf : st.find? fun e => decide (FReq.SameKey cmpAxis e.1 r) with
        | some e =>
          have hm := List.mem_of_find?_eq_some hf
          have hk : FReq.SameKey cmpAxis e.1 r := by simpa using List.find?_some hf
          obtain ⟨h1, h2⟩ := hst e hm
          have := hk.build_eq (hax _ h1 _ hr hk.1.2.1)
          exact ⟨by rw [← this, h2], hst⟩
        | none =>
          cases hb : r.build with
          | none => exact ⟨rfl, hst⟩
          | some bl =>
            refine ⟨rfl, fun e he => ?_⟩
            rcases List.mem_cons.1 he with rfl | he
            · exact ⟨hr, hb⟩
            · exact hst e he
    rw [key.1, ih _ hl' key.2]

/-- A kept element has exactly the squared norm given by its size. -/
theorem sqNorm_normalize {so si S size : ℕ} (b : Arr3) (hs : 0 < size) (hb : (size : ℝ) * 1e-12 ≤ sqNorm so si S b) :
    sqNorm so si S (normalizeElem so si S size b) = size ∧ 0 < elemNorm so si S size b := by
  have hsz : (0 : ℝ) < size := by exact_mod_cast hs
  have hn : (∑ s ∈ range S, ∑ o ∈ range so, ∑ p ∈ range si, b o p s * b o p s) = sqNorm so si S b := by
    rw [sqNorm, Finset.sum_comm]
    refine Finset.sum_congr rfl fun o _ => ?_
    rw [Finset.sum_comm]
    exact Finset.sum_congr rfl fun p _ => Finset.sum_congr rfl fun s _ => (sq _).symm
  have h0 : (1e-12 : ℝ) ≤ sqNorm so si S b / size := by
    rw [le_div_iff₀ hsz]; linarith
  have h1 : ¬ (sqNorm so si S b / size < (1e-15 : ℝ)) := by norm_num at h0 ⊢; linarith
  have h2 : (1e-6 : ℝ) ≤ √(sqNorm so si S b / size) := by
    apply Real.le_sqrt_of_sq_le
    norm_num at h0 ⊢; linarith
  have he : elemNorm so si S size b = √(sqNorm so si S b / size) := by
    unfold elemNorm
    dsimp only
    rw [hn, if_neg h1, if_neg (not_lt.2 h2)]
  have hpos : (0 : ℝ) < √(sqNorm so si S b / size) := lt_of_lt_of_le (by norm_num) h2
  refine ⟨?_, he ▸ hpos⟩
  have hsq : √(sqNorm so si S b / size) ^ 2 = sqNorm so si S b / size := Real.sq_sqrt (by linarith [h0, (by norm_num : (0:ℝ) ≤ 1e-12)])
  have e1 : sqNorm so si S (normalizeElem so si S size b) = sqNorm so si S b / (elemNorm so si S size b) ^ 2 := by
    simp only [sqNorm, normalizeElem, div_pow, Finset.sum_div]
  have hq : sqNorm so si S b ≠ 0 := by
    intro h; rw [h, zero_div] at h0; norm_num at h0
  rw [e1, he, hsq]
  field_simp

/-! ### Two axes -/

/-- The basis of the maps from the trivial irrep to the irrep of frequency 1 of O(2), with one ring, for the space whose reflection is along `axis`
(`kernels_O2_act_R2`, kernels/r2.py:55-93). -/
noncomputable def o2Basis (i o : Irrep (ℤ × ℝ)) (axis : ℝ) : PolarB (ℤ × ℝ) Unit ℕ :=
  ⟨(), axis, [(1, 0.6)], 0, 1, ⟨[i], Mat.one, Mat.one⟩, ⟨[o], Mat.one, Mat.one⟩, flipContBasis⟩

open Classical in
theorem o2Basis_steerable (axis : ℝ) (i o : Irrep (ℤ × ℝ)) (hi : O2.irrep 0 0 = some i) (ho : O2.irrep 1 1 = some o) :
    (o2Basis i o axis).sbasis = ⟨[i], [o], none, none, fun a b => if a = i ∧ b = o then [⟨1, 0, 0, 0⟩] else []⟩ := by
  have hb : flipContBasis i o = some [⟨1, 0, 0, 0⟩] := by
    simp only [O2.irrep] at hi ho
    norm_num at hi ho
    subst hi; subst ho
    simp [flipContBasis]
  have hd : (o2Basis i o axis).dict = fun a b => if a = i ∧ b = o then some [⟨1, 0, 0, 0⟩] else some [] := by
    funext a b
    simp only [PolarB.dict, o2Basis, List.mem_singleton]
    split_ifs with h
    · rw [h.1, h.2, hb]
    · rfl
  unfold PolarB.sbasis steerable
  rw [hd]
  have h1 : ∀ n, MEq n n Mat.one Mat.one := fun n => MEq.refl _
  simp only [o2Basis, List.mem_singleton, forall_eq, h1, if_true, and_self, ne_eq, reduceCtorEq, not_false_eq_true, Option.getD_some]
  congr 1
  funext a b
  split_ifs <;> rfl

theorem o2Basis_kernel (axis : ℝ) (i o : Irrep (ℤ × ℝ)) (hi : O2.irrep 0 0 = some i) (ho : O2.irrep 1 1 = some o) (p : ℝ × ℝ) (hp : radius p = 1) :
    MEq 2 1 (planeKernel axis (o2Basis i o axis).radials (o2Basis i o axis).sbasis 0 p)
      fun r _ => if r = 0 then cos (Complex.arg ⟨p.1, p.2⟩ - axis) else sin (Complex.arg ⟨p.1, p.2⟩ - axis) := by
  have hsi : i.size = 1 := by
    simp only [O2.irrep] at hi; norm_num at hi; subst hi; rfl
  have hso : o.size = 2 := by
    simp only [O2.irrep] at ho; norm_num at ho; subst ho; rfl
  have hg : gaussian 1 0.6 1 = 1 := by norm_num [gaussian]
  have hang : angle p = some (Complex.arg ⟨p.1, p.2⟩) := by
    rw [angle, if_neg]; rw [hp]; norm_num
  rw [o2Basis_steerable axis i o hi ho]
  intro r hr c hc
  obtain rfl : c = 0 := by omega
  simp only [planeKernel, Arr3.slice, polarSample, hp, hang, SBasis.sample, SBasis.sampleDirectSum, SBasis.loopIn, SBasis.loopOut, SBasis.dim,
    PolarB.radials, o2Basis, SBasis.writeBlock, SBasis.irrepSample, angSamp, angSample, angMat, hso, hsi]
  interval_cases r <;> simp [hg, SBasis.writeBlock, SBasis.irrepSample, angSamp, angSample, angMat, hso, hsi]

/-- The call of a layer for this basis, without a filter. -/
noncomputable def o2Req (i o : Irrep (ℤ × ℝ)) (points : List (ℝ × ℝ)) (axis : ℝ) : FReq (ℤ × ℝ) Unit ℕ := ⟨o2Basis i o axis, points, fun _ => true, false⟩

theorem o2Req_build (i o : Irrep (ℤ × ℝ)) (hi : O2.irrep 0 0 = some i) (ho : O2.irrep 1 1 = some o) (points : List (ℝ × ℝ))
    (hp : ((1 : ℝ), (0 : ℝ)) ∈ points) (axis : ℝ) : ∃ e : Elem (PAttr (ℤ × ℝ)), (o2Req i o points axis).build = some [e] ∧ ∃ c : ℝ, 0 < c ∧
      ∀ r a s, e.ker r a s = planeKernel axis (o2Basis i o axis).radials (o2Basis i o axis).sbasis 0 (points.getD s (0, 0)) r a / c := by
  have hsi : i.size = 1 := by
    simp only [O2.irrep] at hi; norm_num at hi; subst hi; rfl
  have hso : o.size = 2 := by
    simp only [O2.irrep] at ho; norm_num at ho; subst ho; rfl
  obtain ⟨s0, hs0, hps⟩ := List.getElem_of_mem hp
  have hat : (o2Basis i o axis).attrs = [⟨((1, 0.6), 0), ⟨i, o, 0, 0, 0, ⟨1, 0, 0, 0⟩, 0⟩, 0, 0, 0⟩] := by
    rw [PolarB.attrs, o2Basis_steerable axis i o hi ho]
    simp [polarIter, gaussianIter, SBasis.iter, SBasis.iterLoop, SBasis.pairs, SBasis.enum, o2Basis]
  have hr1 : radius ((1 : ℝ), (0 : ℝ)) = 1 := by simp [radius]
  set K := planeKernel axis (o2Basis i o axis).radials (o2Basis i o axis).sbasis 0 with hK
  have hk := o2Basis_kernel axis i o hi ho (1, 0) hr1
  rw [← hK] at hk
  set b : Arr3 := fun r c s => K (points.getD s (0, 0)) r c with hb
  have hsq : (1 : ℝ) ≤ sqNorm 2 1 points.length b := by
    have h0 : b 0 0 s0 ^ 2 + b 1 0 s0 ^ 2 = 1 := by
      have e0 := hk 0 (by norm_num) 0 (by norm_num)
      have e1 := hk 1 (by norm_num) 0 (by norm_num)
      simp only [hb, List.getD_eq_getElem _ _ hs0, hps, e0, e1]
      simp
    have hnn : ∀ r, 0 ≤ ∑ s ∈ range points.length, b r 0 s ^ 2 := fun r => Finset.sum_nonneg fun s _ => sq_nonneg _
    have hle : ∀ r, b r 0 s0 ^ 2 ≤ ∑ s ∈ range points.length, b r 0 s ^ 2 := fun r =>
      Finset.single_le_sum (f := fun s => b r 0 s ^ 2) (fun s _ => sq_nonneg _) (Finset.mem_range.2 hs0)
    rw [sqNorm, Finset.sum_range_succ, Finset.sum_range_one, Finset.sum_range_one, Finset.sum_range_one]
    linarith [hle 0, hle 1]
  obtain ⟨n1, n2⟩ := sqNorm_normalize (so := 2) (si := 1) (S := points.length) (size := 2) b (by norm_num) (by norm_num; linarith)
  refine ⟨⟨⟨((1, 0.6), 0), ⟨i, o, 0, 0, 0, ⟨1, 0, 0, 0⟩, 0⟩, 0, 0, 0⟩, normalizeElem 2 1 points.length 2 b⟩, ?_, _, n2, fun r a s => rfl⟩
  have hel : (o2Basis i o axis).elems points = [⟨⟨((1, 0.6), 0), ⟨i, o, 0, 0, 0, ⟨1, 0, 0, 0⟩, 0⟩, 0, 0, 0⟩, b⟩] := by
    rw [PolarB.elems, hat]; rfl
  have hro : (o2Basis i o axis).rout.size = 2 := by simp [o2Basis, Repr.size, hso]
  have hri : (o2Basis i o axis).rin.size = 1 := by simp [o2Basis, Repr.size, hsi]
  have hgt : (1e-2 : ℝ) < sqNorm 2 1 points.length (normalizeElem 2 1 points.length 2 b) := by rw [n1]; norm_num
  unfold FReq.build singleBlock
  simp only [o2Req, hel, hro, hri, List.filter_cons, List.filter_nil, if_true, List.map_cons, List.map_nil, hso, hgt, gt_iff_lt, decide_true,
    reduceCtorEq, if_false]

/-- Two layers of the space of O(2) with the vertical axis, on grids with the point `(1, 0)`: the hypothesis of `c59_stored_partial` holds, and both get a basis. -/
example (points : List (ℝ × ℝ)) (hp : ((1 : ℝ), (0 : ℝ)) ∈ points) : ∃ i o : Irrep (ℤ × ℝ), ∃ e,
    blockBases (fun _ => false) [] [o2Req i o points (π / 2), o2Req i o points (π / 2)] = [some [e], some [e]] := by
  obtain ⟨i, hi⟩ : ∃ i, O2.irrep 0 0 = some i := ⟨_, rfl⟩
  obtain ⟨o, ho⟩ : ∃ o, O2.irrep 1 1 = some o := ⟨_, rfl⟩
  obtain ⟨e, he, -⟩ := o2Req_build i o hi ho points hp (π / 2)
  refine ⟨i, o, e, ?_⟩
  rw [c59_stored_partial _ _ (fun a ha b hb _ => Or.inr ?_), List.map_cons, List.map_cons, he, List.map_nil]
  have h1 : a = o2Req i o points (π / 2) := by simpa using ha
  have h2 : b = o2Req i o points (π / 2) := by simpa using hb
  rw [h1, h2]

/-- The constraint of the space with reflections along `axis`, for an element sampled at the points. -/
def O2Equivariant (i o : Irrep (ℤ × ℝ)) (points : List (ℝ × ℝ)) (axis : ℝ) (e : Elem (PAttr (ℤ × ℝ))) : Prop :=
  ∀ g, O2.grp.isEl g → ∀ s < points.length, ∀ s' < points.length, points.getD s' (0, 0) = planeAct axis g (points.getD s (0, 0)) →
    MEq 2 1 (e.ker.at s') (Mat.mul 1 (Mat.mul 2 (o.mat g) (e.ker.at s)) (i.mat (O2.grp.inv g)))

/-- The negation for two axes: a process which uses the spaces of O(2) with the vertical axis and then with the horizontal axis.  The second layer gets the elements of the first,
which do not satisfy its constraint, although the element it would have built does.  This holds for every grid with the point `(1, 0)`. -/
theorem c59_axis_wrong (cmpAxis : Unit → Bool) (hc : cmpAxis () = false) (points : List (ℝ × ℝ)) (hp : ((1 : ℝ), (0 : ℝ)) ∈ points) :
    ∃ i o, O2.irrep 0 0 = some i ∧ O2.irrep 1 1 = some o ∧ ∃ e e',
      blockBases cmpAxis [] [o2Req i o points (π / 2), o2Req i o points 0] = [some [e], some [e]] ∧
      (o2Req i o points 0).build = some [e'] ∧ O2Equivariant i o points (π / 2) e ∧ O2Equivariant i o points 0 e' ∧ ¬ O2Equivariant i o points 0 e := by
  obtain ⟨i, hi⟩ : ∃ i, O2.irrep 0 0 = some i := ⟨_, rfl⟩
  obtain ⟨o, ho⟩ : ∃ o, O2.irrep 1 1 = some o := ⟨_, rfl⟩
  have hsi : i.size = 1 := by
    simp only [O2.irrep] at hi; norm_num at hi; subst hi; rfl
  have hso : o.size = 2 := by
    simp only [O2.irrep] at ho; norm_num at ho; subst ho; rfl
  obtain ⟨e, he, c, hc0, hek⟩ := o2Req_build i o hi ho points hp (π / 2)
  obtain ⟨e', he', c', hc0', hek'⟩ := o2Req_build i o hi ho points hp 0
  have good : ∀ axis (x : Elem (PAttr (ℤ × ℝ))) (c : ℝ),
      (∀ r a s, x.ker r a s = planeKernel axis (o2Basis i o axis).radials (o2Basis i o axis).sbasis 0 (points.getD s (0, 0)) r a / c) →
      O2Equivariant i o points axis x := by
    intro axis x c hx g hg s _ s' _ hss
    obtain ⟨S, h1, -, -, h2⟩ := plane_spec O2.grp (planeAct axis) (fun g p => radius_planeAct _ _ p) axis (o2Basis i o axis).dict
      (o2Basis i o axis).rin (o2Basis i o axis).rout (IsInv.one _) (IsInv.one _) (by
        intro a ha b hb
        have ha' : a = i := by simpa [o2Basis] using ha
        have hb' : b = o := by simpa [o2Basis] using hb
        subst ha'; subst hb'
        have := c18_o2_kernel_constraint axis 0 0 1 1 a b hi ho
        rw [PolarB.dict, if_pos ⟨ha, hb⟩]
        exact this) (o2Basis i o axis).radials
    have hS : (o2Basis i o axis).sbasis = S := by rw [PolarB.sbasis, h1]; rfl
    have hdim : 0 < (o2Basis i o axis).radials.length * S.dim := by
      rw [← hS, o2Basis_steerable axis i o hi ho]
      simp [PolarB.radials, o2Basis, SBasis.dim]
    have hro : (o2Basis i o axis).rout.size = 2 := by simp [o2Basis, Repr.size, hso]
    have hri : (o2Basis i o axis).rin.size = 1 := by simp [o2Basis, Repr.size, hsi]
    have := h2 0 hdim g hg (points.getD s (0, 0))
    rw [hro, hri, ← hss, ← hS] at this
    have m1 : MEq 2 2 ((o2Basis i o axis).rout.mat g) (o.mat g) := by
      rw [Repr.mat, hro]
      exact (((MEq_one_mul _ _ _).mul (MEq.refl _)).trans (MEq_mul_one _ _ _)).trans (Repr.blocks_single2 o hso g)
    have m2 : MEq 1 1 ((o2Basis i o axis).rin.mat (O2.grp.inv g)) (i.mat (O2.grp.inv g)) := by
      rw [Repr.mat, hri]
      exact (((MEq_one_mul _ _ _).mul (MEq.refl _)).trans (MEq_mul_one _ _ _)).trans (Repr.blocks_single1 i hsi _)
    have this := this.trans (((m1.mul (MEq.refl _))).mul m2)
    intro r hr a ha
    have := this r hr a ha
    simp only [Arr3.at, Mat.mul, hx] at this ⊢
    rw [this, Finset.sum_div]
    refine Finset.sum_congr rfl fun l _ => ?_
    rw [Finset.sum_mul, Finset.sum_mul, Finset.sum_div]
    exact Finset.sum_congr rfl fun l' _ => by ring
  refine ⟨i, o, hi, ho, e, e', ?_, he', good _ e c hek, good _ e' c' hek', ?_⟩
  · have hk : FReq.SameKey cmpAxis (o2Req i o points (π / 2)) (o2Req i o points 0) := by
      refine ⟨⟨rfl, rfl, ⟨rfl, rfl⟩, ⟨rfl, rfl⟩, fun _ _ _ _ => rfl, fun h => ?_⟩, ?_, rfl⟩
      · simp [hc] at h
      · have : (o2Basis i o (π / 2)).attrs = (o2Basis i o 0).attrs := by
          rw [PolarB.attrs, PolarB.attrs, o2Basis_steerable _ i o hi ho, o2Basis_steerable _ i o hi ho]; rfl
        simp only [FReq.mask, o2Req, this]
    have h1 : blockBasis cmpAxis [] (o2Req i o points (π / 2)) = (some [e], [(o2Req i o points (π / 2), [e])]) := by
      unfold blockBasis
      rw [he]
      simp [o2Req]
    have h2 : (blockBasis cmpAxis [(o2Req i o points (π / 2), [e])] (o2Req i o points 0)).1 = some [e] := by
      unfold blockBasis
      rw [if_neg (by simp [o2Req]), List.find?_cons_of_pos (by simpa using hk)]
    rw [blockBases, h1, blockBases, h2, blockBases]
  · intro h
    obtain ⟨s, hs, hps⟩ := List.getElem_of_mem hp
    have hr1 : radius ((1 : ℝ), (0 : ℝ)) = 1 := by simp [radius]
    have hpt : points.getD s (0, 0) = (1, 0) := by rw [List.getD_eq_getElem _ _ hs, hps]
    have := h (1, 0) (Or.inr rfl) s hs s hs (by rw [hpt]; simp [planeAct, refl, rot]) 1 (by norm_num) 0 (by norm_num)
    have hk := o2Basis_kernel (π / 2) i o hi ho (1, 0) hr1
    have e0 := hk 0 (by norm_num) 0 (by norm_num)
    have e1 := hk 1 (by norm_num) 0 (by norm_num)
    have hsc : ∀ r, e.ker r 0 s = planeKernel (π / 2) (o2Basis i o (π / 2)).radials (o2Basis i o (π / 2)).sbasis 0 (1, 0) r 0 / c := fun r => by
      rw [hek, hpt]
    have z : (⟨(1, 0).1, (1, 0).2⟩ : ℂ) = 1 := rfl
    rw [z] at e0 e1
    simp only [Complex.arg_one] at e0 e1
    norm_num [Real.sin_neg, Real.cos_neg] at e0 e1
    have k0 : e.ker 0 0 s = 0 := by rw [hsc, e0, zero_div]
    have k1 : e.ker 1 0 s = -1 / c := by rw [hsc, e1]
    have hom : o.mat (1, 0) = psichi 0 1 1 0 := by
      simp only [O2.irrep] at ho
      norm_num at ho
      rw [← ho]
    have him : ∀ g, i.mat g = m1 1 := by
      simp only [O2.irrep] at hi
      norm_num at hi
      rw [← hi]
      exact fun _ => rfl
    rw [hom, him] at this
    simp only [Arr3.at, Mat.mul, Finset.sum_range_succ, Finset.sum_range_zero, k0, k1] at this
    norm_num [psichi, psi, chi, m1, m2] at this
    have h1 : 0 < 1 / c := by positivity
    have h2 : -1 / c = -(1 / c) := by ring
    rw [h2] at this
    linarith

end E2
