import Verif.Model.StoredDiffops
import Verif.Props.StoredFilters
import Verif.Props.R2DiffopInit

/-!
# C79: the dictionary of sampled differential operators

Unless `recompute` is set, `R2Diffop` takes its sampled operators from a dictionary shared by all the layers in the process.  It should get the operators with the
discretisation it was asked for.  The keys contain neither the discretisation nor (for O(2)) the axis: this holds for all sequences of calls with one
discretisation and one axis per group, and fails for two layers which differ in the discretisation only, whose second gets the stencils of the first.
-/

namespace E2

open Mat Real Finset

variable {El Tag Nm Disc : Type}

theorem TensorB.Same.ops_eq {L : DiffopLib El Tag Disc} {a b : TensorB El Tag Nm Disc} (h : a.Same L b) (hax : a.axis = b.axis) : a.ops L = b.ops L := by
  obtain ⟨h1, ⟨-, h2⟩, ⟨-, h3⟩, h4, h5, -⟩ := h
  have hd : a.dict = b.dict := by
    funext i o
    unfold TensorB.dict
    rw [← h2, ← h3]
    split_ifs with hm
    · exact h5 i hm.1 o hm.2
    · rfl
  unfold TensorB.ops
  rw [hd, h1, h2, h3, h4, hax]

theorem DReq.SameKey.build_eq {L : DiffopLib El Tag Disc} {a b : DReq El Tag Nm Disc} (h : a.SameKey L b) (hax : a.basis.axis = b.basis.axis)
    (hd : a.basis.disc = b.basis.disc) : a.build L = b.build L := by
  classical
  obtain ⟨h1, h2, h3⟩ := h
  have h4 := h1.ops_eq hax
  have hin : a.basis.rin = b.basis.rin := h1.2.1.2
  have hout : a.basis.rout = b.basis.rout := h1.2.2.1.2
  have hm : ∀ x ∈ b.basis.ops L, a.keep x.1 = b.keep x.1 := by
    have := h2
    unfold DReq.mask at this
    rw [h4] at this
    exact List.map_inj_left.1 this
  unfold DReq.build singleBlock
  rw [h4, hd, h3, hin, hout]
  have hf := filter_mask (fun e : Elem (TensorAttr El) => e.attr) a.keep b.keep ((b.basis.ops L).map fun x => (⟨x.1, fun p q s =>
    ((L.samp b.basis.disc b.points b.basis.rout.size b.basis.rin.size x.2).getD fun _ _ _ => 0) s p q⟩ : Elem (TensorAttr El))) (by
      simp only [List.map_map]
      exact List.map_congr_left fun x hx => hm x hx)
  rw [hf]
  refine if_congr ⟨fun h x hx hk => h x hx (by rw [hm x hx]; exact hk), fun h x hx hk => h x hx (by rw [← hm x hx]; exact hk)⟩ rfl rfl

/-- **C79.** For every sequence of calls such that two bases of one group and class are discretised alike and have the same axis (unless the class compares it, or is never
equal), the results with the dictionary are those of building everything anew, whatever was asked before.  Missing: different discretisations, for which the claim is false
(`c79_discretisation_wrong`). -/
theorem c79_stored_partial (L : DiffopLib El Tag Disc) (rs : List (DReq El Tag Nm Disc))
    (hrs : ∀ a ∈ rs, ∀ b ∈ rs, a.basis.tag = b.basis.tag → L.kind a.basis.tag = .never ∨
      (a.basis.disc = b.basis.disc ∧ (L.kind a.basis.tag = .axis ∨ a.basis.axis = b.basis.axis))) :
    blockDiffops L [] rs = rs.map fun r => r.build L := by
  classical
  suffices H : ∀ (st : List (DReq El Tag Nm Disc × List (Elem (TensorAttr El)))) (l : List (DReq El Tag Nm Disc)), (∀ r ∈ l, r ∈ rs) →
      (∀ e ∈ st, e.1 ∈ rs ∧ e.1.build L = some e.2) → blockDiffops L st l = l.map fun r => r.build L from H [] rs (fun _ h => h) (by simp)
  intro st l
  induction l generalizing st with
  | nil => intros; rfl
  | cons r l ih =>
    intro hl hst
    have hr := hl r (by simp)
    have hl' : ∀ x ∈ l, x ∈ rs := fun x hx => hl x (by simp [hx])
    rw [blockDiffops, List.map_cons]
    have key : (blockDiffop L st r).1 = r.build L ∧ ∀ e ∈ (blockDiffop L st r).2, e.1 ∈ rs ∧ e.1.build L = some e.2 := by
      unfold blockDiffop
      split_ifs with hre
      · exact ⟨rfl, hst⟩
      · cases hf : st.find? fun e => decide (DReq.SameKey L e.1 r) with
        | some e =>
          have hm := List.mem_of_find?_eq_some hf
          have hk : DReq.SameKey L e.1 r := by simpa using List.find?_some hf
          obtain ⟨h1, h2⟩ := hst e hm
          have hlast := hk.1.2.2.2.2.2
          rcases hrs _ h1 _ hr hk.1.1 with hn | ⟨hd, ha⟩
          · rw [hn] at hlast
            exact hlast.elim
          · have hax : e.1.basis.axis = r.basis.axis := by
              rcases ha with ha | ha
              · rw [ha] at hlast
                exact hlast
              · exact ha
            exact ⟨by rw [← hk.build_eq hax hd, h2], hst⟩
        | none =>
          cases hb : r.build L with
          | none => exact ⟨rfl, hst⟩
          | some bl =>
            refine ⟨rfl, fun e he => ?_⟩
            rcases List.mem_cons.1 he with rfl | he
            · exact ⟨hr, hb⟩
            · exact hst e he
    rw [key.1, ih _ hl' key.2]

/-- **C79, D_N.** The operators of `FlipRot2dOnR2(N)` are never taken from the dictionary: whatever the axes and the discretisations, the results are those of building
everything anew. -/
theorem c79_dihedral (L : DiffopLib El Tag Disc) (rs : List (DReq El Tag Nm Disc)) (hrs : ∀ r ∈ rs, L.kind r.basis.tag = .never) :
    blockDiffops L [] rs = rs.map fun r => r.build L :=
  c79_stored_partial L rs fun a ha _ _ _ => Or.inl (hrs a ha)

/-! ### Two discretisations -/

/-- The basis of `Flip2dOnR2(axis=0)` from the trivial to the sign representation for the maximum order 1 (`diffops_Flip_act_R2`, diffops/r2.py:20-70); the discretisation is
given by the angle offset. -/
noncomputable def flipTensor (off : Option ℝ) : TensorB ℤ Unit ℕ (Option ℝ) :=
  ⟨(), 0, off, 0, 0, 1, exFlipRep 0, exFlipRep 1, fun i o => dFlips i o (some 1) none⟩

/-- The library for `R2FlipsSolution` and finite differences on a grid of 3 × 3 points. -/
noncomputable def flipLib (fd : ℕ → List ℝ → ℕ → ℝ) : DiffopLib ℤ Unit (Option ℝ) :=
  ⟨fun _ axis => dSamp axis, fun off _ so si D => fdSample fd 3 1 so si off D, fun _ => .axis⟩

/-- The call of `R2Diffop(kernel_size=3, maximum_order=1, angle_offset=off)`. -/
noncomputable def flipReq (off : Option ℝ) : DReq ℤ Unit ℕ (Option ℝ) :=
  ⟨flipTensor off, (List.range 9).map (gridCoords 3 1), fun a => decide (a.order ≤ 1), false⟩

theorem flipTensor_ops (fd : ℕ → List ℝ → ℕ → ℝ) : ∃ (t : TensorAttr ℤ) (D : DArr), (∀ off, (flipTensor off).ops (flipLib fd) = [(t, D)]) ∧ t.order = 1 ∧
    t.angular.outIrrep.size = 1 ∧ D.deg = 1 ∧ D.co 0 0 0 = 0 ∧ D.co 0 0 1 = 1 := by
  classical
  set i : Irrep ℤ := { size := 1, socs := 1, mat := fun _ => m1 1, freq := 0, flip := 0 } with hi
  set o : Irrep ℤ := { size := 1, socs := 1, freq := 1, flip := 0, mat := fun e => m1 (cos (e * π)) } with ho
  have h0 : (exFlipRep 0).irreps = [i] := by simp [exFlipRep, Cyclic.irrep, hi]
  have h1 : (exFlipRep 1).irreps = [o] := by simp [exFlipRep, Cyclic.irrep, Cyclic.order_eq, ho]
  have hl : dFlips i o (some 1) none = some [⟨1, 1, 0, 1⟩] := by
    have hoff : offsets 0 1 none (some 1) true = some [0, 1] := by
      simp [offsets]
      rfl
    unfold dFlips dLoop
    simp [hoff, freqOk, hi, ho]
  have hd : ∀ off, (flipTensor off).dict = fun a b => if a = i ∧ b = o then some [⟨1, 1, 0, 1⟩] else some [] := by
    intro off
    funext a b
    simp only [TensorB.dict, flipTensor, h0, h1, List.mem_singleton]
    split_ifs with h
    · rw [h.1, h.2, hl]
    · rfl
  set S : SBasis ℤ DElem := ⟨[i], [o], none, none, fun a b => if a = i ∧ b = o then [⟨1, 1, 0, 1⟩] else []⟩ with hS
  have hst : ∀ off, steerable (flipTensor off).dict (exFlipRep 0) (exFlipRep 1) = some S := by
    intro off
    unfold steerable
    rw [hd, h0, h1]
    have hc0 : MEq (exFlipRep 0).size (exFlipRep 0).size (exFlipRep 0).cobInv Mat.one := MEq.refl _
    have hc1 : MEq (exFlipRep 1).size (exFlipRep 1).size (exFlipRep 1).cob Mat.one := MEq.refl _
    rw [if_pos hc0, if_pos hc1, if_pos (by simp)]
    congr 2
    funext a b
    dsimp only
    split_ifs <;> rfl
  set D : DArr := DArr.fill (((dSamp 0 i o ⟨1, 1, 0, 1⟩).place 0 1 0 1).deg + 1 + ((HPoly.laplacian 0).deg + 1) - 2)
    fun x y => (((dSamp 0 i o ⟨1, 1, 0, 1⟩).place 0 1 0 1).entry x y).mul (HPoly.laplacian 0) with hD
  refine ⟨⟨⟨i, o, 0, 0, 0, ⟨1, 1, 0, 1⟩, 0⟩, 0, 0, 0, 0⟩, D, fun off => ?_, ?_⟩
  · unfold TensorB.ops
    have e1 : (flipTensor off).rin = exFlipRep 0 := rfl
    have e2 : (flipTensor off).rout = exFlipRep 1 := rfl
    have e3 : (flipTensor off).maxPower = 0 := rfl
    have e4 : (flipLib fd).cf (flipTensor off).tag (flipTensor off).axis = dSamp 0 := rfl
    rw [e1, e2, hst, e3, e4]
    simp [tensorIter, SBasis.iter, SBasis.iterLoop, SBasis.pairs, SBasis.enum, SBasis.dCoefs, SBasis.dLoopIn, SBasis.dLoopOut, tensorCoefs, laplaceProfile, hS, SBasis.dChange, hD]
    rfl
  · refine ⟨rfl, rfl, ?_, ?_, ?_⟩
    · simp [hD, hi, ho, DArr.fill, DArr.place, dSamp, dAxis, dCoef, HPoly.laplacian]
    · simp [hD, hi, ho, DArr.fill, DArr.place, dSamp, dAxis, dCoef, HPoly.laplacian, HPoly.mul, DArr.entry, hcheby, HPoly.chebyU, Finset.sum_range_succ]
    · simp [hD, hi, ho, DArr.fill, DArr.place, dSamp, dAxis, dCoef, HPoly.laplacian, HPoly.mul, DArr.entry, hcheby, HPoly.chebyU, Finset.sum_range_succ]

theorem flipReq_build {fd : ℕ → List ℝ → ℕ → ℝ} (hfd : FDSpec fd) : ∃ t : TensorAttr ℤ, ∃ f g : Arr3,
    (flipReq none).build (flipLib fd) = some [⟨t, f⟩] ∧ (flipReq (some π)).build (flipLib fd) = some [⟨t, g⟩] ∧
    (∀ s, g 0 0 s = - f 0 0 s) ∧ ∃ s < 9, f 0 0 s ≠ 0 := by
  classical
  obtain ⟨t, D, hops, hord, hsz, hdeg, h0, h1⟩ := flipTensor_ops fd
  obtain ⟨p0, p1, p2, q0, q1, q2⟩ := fd_three hfd
  have z1 : (exFlipRep 1).size = 1 := (exFlipRep_ok 1).2.1
  have z0 : (exFlipRep 0).size = 1 := (exFlipRep_ok 0).2.1
  have main : ∀ (off : Option ℝ) (σ : ℝ), σ ^ 2 = 1 → (offD off D).deg = 1 → (offD off D).co 0 0 0 = 0 → (offD off D).co 0 0 1 = σ →
      ∃ f : Arr3, (flipReq off).build (flipLib fd) = some [⟨t, f⟩] ∧ ∀ s, f 0 0 s = σ * (fd 0 (axisPts 3 1) (s / 3) * fd 1 (axisPts 3 1) (s % 3)) / √(1 / 2) := by
    intro off σ hσ hd' hc0 hc1
    obtain ⟨f, hf⟩ := Option.isSome_iff_exists.1 (fdSample_isSome fd (k := 3) (d := 1) (so := 1) (si := 1) (off := off) (D := D) (by omega))
    have hv := (fdSample_spec hf).2
    have hval : ∀ q, f q 0 0 = σ * (fd 0 (axisPts 3 1) (q / 3) * fd 1 (axisPts 3 1) (q % 3)) := by
      intro q
      have := hv q 0 one_pos 0 one_pos
      simpa [hd', Finset.sum_range_succ, hc0, hc1] using this
    set b : Arr3 := fun r c s => f s r c with hb
    have hsq : sqNorm 1 1 9 b = 1 / 2 := by
      simp [sqNorm, Finset.sum_range_succ, hb, hval, p0, p1, p2, q0, q1, q2, mul_pow, hσ]
      norm_num
    obtain ⟨n1, n2⟩ := sqNorm_normalize (so := 1) (si := 1) (S := 9) (size := 1) b one_pos (by rw [hsq]; norm_num)
    have hn : elemNorm 1 1 9 1 b = √(1 / 2) := by
      have hsum : (∑ s ∈ range 9, ∑ x ∈ range 1, ∑ y ∈ range 1, b x y s * b x y s) = 1 / 2 := by
        rw [← hsq, sqNorm]
        simp only [Finset.sum_range_one]
        exact Finset.sum_congr rfl fun s _ => (sq _).symm
      have h3 : (1e-6 : ℝ) ≤ √(1 / 2) := Real.le_sqrt_of_sq_le (by norm_num)
      unfold elemNorm
      dsimp only
      have h4 : ¬ ((1 : ℝ) / 2 < 1e-15) := by norm_num
      rw [hsum, Nat.cast_one, div_one, if_neg h4, if_neg (not_lt.2 h3)]
    refine ⟨normalizeElem 1 1 9 1 b, ?_, fun s => ?_⟩
    swap
    · rw [normalizeElem, hn]
      show f s 0 0 / _ = _
      rw [hval]
    have hs : (flipLib fd).samp off ((List.range 9).map (gridCoords 3 1)) (exFlipRep 1).size (exFlipRep 0).size D = some f := by rw [z1, z0]; exact hf
    have hgt : (1e-2 : ℝ) < sqNorm 1 1 9 (normalizeElem 1 1 9 1 b) := by rw [n1]; norm_num
    unfold DReq.build singleBlock
    simp only [flipReq, hops]
    rw [if_pos]
    · simp only [flipTensor, z1, z0, List.map_cons, List.map_nil, List.filter_cons, List.filter_nil, hord, le_refl, decide_true, if_true, hsz, List.length_map,
        List.length_range, reduceCtorEq, if_false]
      have hs' : (flipLib fd).samp off ((List.range 9).map (gridCoords 3 1)) 1 1 D = some f := hf
      simp only [hs', Option.getD_some, ← hb, gt_iff_lt, hgt, decide_true, if_true, reduceCtorEq, if_false]
    · intro x hx _
      rw [List.mem_singleton.1 hx]
      show ((flipLib fd).samp off ((List.range 9).map (gridCoords 3 1)) (exFlipRep 1).size (exFlipRep 0).size D).isSome
      rw [hs]
      rfl
  obtain ⟨f, f1, f2⟩ := main none 1 (by norm_num) hdeg h0 h1
  obtain ⟨g, g1, g2⟩ := main (some π) (-1) (by norm_num) (by simpa [offD, DArr.transform, DArr.fill] using hdeg)
    (by simp [offD, DArr.transform, DArr.fill, HPoly.transform, DArr.entry, hdeg, Finset.sum_range_succ, h0, h1, HPoly.mul, HPoly.binomial, psi, m2])
    (by simp [offD, DArr.transform, DArr.fill, HPoly.transform, DArr.entry, hdeg, Finset.sum_range_succ, h0, h1, HPoly.mul, HPoly.binomial, psi, m2])
  refine ⟨t, f, g, f1, g1, fun s => by rw [f2, g2]; ring, 5, by norm_num, ?_⟩
  rw [f2]
  norm_num [p1, q2]

/-- The negation for two discretisations: `R2Diffop(kernel_size=3, maximum_order=1)` and then the same layer with `angle_offset=π`, on `Flip2dOnR2(axis=0)` from a trivial field to
a field of the sign representation.  The second layer gets the derivative along the second axis, as the first, although it asked for its opposite. -/
theorem c79_discretisation_wrong {fd : ℕ → List ℝ → ℕ → ℝ} (hfd : FDSpec fd) : ∃ t : TensorAttr ℤ, ∃ f g : Arr3,
    blockDiffops (flipLib fd) [] [flipReq none, flipReq (some π)] = [some [⟨t, f⟩], some [⟨t, f⟩]] ∧
    (flipReq (some π)).build (flipLib fd) = some [⟨t, g⟩] ∧ (∀ s, g 0 0 s = - f 0 0 s) ∧ ∃ s < 9, f 0 0 s ≠ 0 := by
  classical
  obtain ⟨t, f, g, h1, h2, h3, h4⟩ := flipReq_build hfd
  refine ⟨t, f, g, ?_, h2, h3, h4⟩
  have hk : DReq.SameKey (flipLib fd) (flipReq none) (flipReq (some π)) :=
    ⟨⟨rfl, ⟨rfl, rfl⟩, ⟨rfl, rfl⟩, rfl, fun _ _ _ _ => rfl, rfl⟩, rfl, rfl⟩
  have e1 : blockDiffop (flipLib fd) [] (flipReq none) = (some [⟨t, f⟩], [(flipReq none, [⟨t, f⟩])]) := by
    unfold blockDiffop
    rw [h1]
    simp [flipReq]
  have e2 : (blockDiffop (flipLib fd) [(flipReq none, [⟨t, f⟩])] (flipReq (some π))).1 = some [⟨t, f⟩] := by
    unfold blockDiffop
    rw [if_neg (by simp [flipReq]), List.find?_cons_of_pos (by simpa using hk)]
  rw [blockDiffops, e1, blockDiffops, e2, blockDiffops]

/-- The hypotheses of `c79_stored_partial` can be met: the same layer twice. -/
example {fd : ℕ → List ℝ → ℕ → ℝ} (hfd : FDSpec fd) : ∃ e, blockDiffops (flipLib fd) [] [flipReq none, flipReq none] = [some [e], some [e]] := by
  obtain ⟨t, f, g, h1, -⟩ := flipReq_build hfd
  refine ⟨⟨t, f⟩, ?_⟩
  rw [c79_stored_partial _ _ (fun a ha b hb _ => Or.inr ⟨?_, Or.inl rfl⟩), List.map_cons, List.map_cons, h1, List.map_nil]
  have e1 : a = flipReq none := by simpa using ha
  have e2 : b = flipReq none := by simpa using hb
  rw [e1, e2]

end E2
