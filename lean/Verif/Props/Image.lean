import Verif.Lemmas.Image
import Verif.Props.Irreps

/-!
# C45: the action on images
-/

namespace E2

open Real Mat

variable {El : Type}

/-- The space acts on the plane: a group action by injective maps; and the elements which permute the pixels form a subgroup. -/
structure Space.PlaneAction (Sp : Space El) : Prop where
  one : ∀ p, Sp.act Sp.G.one p = p
  op : ∀ g h, Sp.G.isEl g → Sp.G.isEl h → ∀ p, Sp.act (Sp.G.op g h) p = Sp.act g (Sp.act h p)
  inj : ∀ g, Sp.G.isEl g → ∀ p q, Sp.act g p = Sp.act g q → p = q
  memOne : Sp.G.isEl Sp.G.one
  memOp : ∀ g h, Sp.G.isEl g → Sp.G.isEl h → Sp.G.isEl (Sp.G.op g h)
  gridOne : Sp.grid Sp.G.one
  gridOp : ∀ g h, Sp.G.isEl g → Sp.G.isEl h → Sp.grid g → Sp.grid h → Sp.grid (Sp.G.op g h)

/-- **C45, the formula of the action**: the transformed image at the pixel `q` is the matrix of `g` applied to the image at the pixel `g⁻¹ q`. -/
theorem c45_formula (Sp : Space El) (hg : Sp.GridAction) (size : ℕ) (ρ : Mat) (g : El) (h1 : Sp.G.isEl g) (h2 : Sp.grid g)
    (n i j : ℕ) (hi : i < n) (hj : j < n) : ∃ i' < n, ∃ j' < n, pix n (i, j) = Sp.act g (pix n (i', j')) ∧
      ∀ (x : Fmap) o, fieldAct size ρ (Sp.base n g) x o i j = ∑ c ∈ Finset.range size, ρ o c * x c i' j' := by
  obtain ⟨τ, t1, t2⟩ := hg g h1 h2
  obtain ⟨l1, l2⟩ := τ.ap_lt hi hj
  refine ⟨_, l1, _, l2, ?_, fun x o => ?_⟩
  · change pix n (i, j) = Sp.act g (pix n (τ.ap n (i, j)))
    rw [τ.pix_ap hi hj, t2]
  · unfold fieldAct
    rw [t1 n _ i j hi hj]

/-- **C45, the law of composition**: transforming by `h` and then by `g` is transforming by `g h`; and the identity changes nothing. -/
theorem c45_action (Sp : Space El) (hg : Sp.GridAction) (hp : Sp.PlaneAction) (size : ℕ) (ρ : El → Mat) (hρ : IsRep Sp.G size ρ) (n : ℕ) (x : Fmap) :
    FEq size n (fieldAct size (ρ Sp.G.one) (Sp.base n Sp.G.one) x) x ∧
    ∀ g h, Sp.G.isEl g → Sp.G.isEl h → Sp.grid g → Sp.grid h →
      FEq size n (fieldAct size (ρ g) (Sp.base n g) (fieldAct size (ρ h) (Sp.base n h) x))
        (fieldAct size (ρ (Sp.G.op g h)) (Sp.base n (Sp.G.op g h)) x) := by
  constructor
  · intro o ho i hi j hj
    obtain ⟨i', hi', j', hj', e, f⟩ := c45_formula Sp hg size (ρ Sp.G.one) Sp.G.one hp.memOne hp.gridOne n i j hi hj
    rw [hp.one] at e
    have := pix_inj e
    cases this
    rw [f]
    have hs : ∀ c ∈ Finset.range size, ρ Sp.G.one o c * x c i j = Mat.one o c * x c i j := by
      intro c hc
      rw [hρ.one o ho c (Finset.mem_range.1 hc)]
    rw [Finset.sum_congr rfl hs]
    simp [Mat.one, ho]
  · intro g h h1 h2 h3 h4 o ho i hi j hj
    obtain ⟨i1, hi1, j1, hj1, e1, f1⟩ := c45_formula Sp hg size (ρ g) g h1 h3 n i j hi hj
    obtain ⟨i2, hi2, j2, hj2, e2, f2⟩ := c45_formula Sp hg size (ρ h) h h2 h4 n i1 j1 hi1 hj1
    obtain ⟨i3, hi3, j3, hj3, e3, f3⟩ := c45_formula Sp hg size (ρ (Sp.G.op g h)) _ (hp.memOp g h h1 h2) (hp.gridOp g h h1 h2 h3 h4) n i j hi hj
    have hq : (i2, j2) = (i3, j3) := by
      apply pix_inj (n := n)
      apply hp.inj h h2
      apply hp.inj g h1
      rw [← e2, ← e1, e3, hp.op g h h1 h2]
    cases hq
    rw [f1, f3]
    have hs : ∀ c ∈ Finset.range size, ρ g o c * fieldAct size (ρ h) (Sp.base n h) x c i1 j1 =
        ∑ d ∈ Finset.range size, ρ g o c * ρ h c d * x d i2 j2 := by
      intro c _
      rw [f2, Finset.mul_sum]
      exact Finset.sum_congr rfl fun d _ => by ring
    rw [Finset.sum_congr rfl hs, Finset.sum_comm]
    apply Finset.sum_congr rfl
    intro d hd
    rw [hρ.mul g h h1 h2 o ho d (Finset.mem_range.1 hd), Mat.mul, Finset.sum_mul]

/-! ## The spaces -/

theorem rot_inj (α : ℝ) (p q : ℝ × ℝ) (h : rot α p = rot α q) : p = q := by
  have := congrArg (rot (-α)) h
  rwa [rot_rot, rot_rot, neg_add_cancel, rot_zero, rot_zero] at this

theorem refl_refl (a : ℝ) (p : ℝ × ℝ) : refl a (refl a p) = p := by
  have h := sin_sq_add_cos_sq (2 * a)
  unfold refl
  refine Prod.ext ?_ ?_ <;> simp only
  · linear_combination p.1 * h
  · linear_combination p.2 * h

theorem refl_rot (a α : ℝ) (p : ℝ × ℝ) : refl a (rot α p) = rot (-α) (refl a p) := by
  unfold refl rot
  rw [cos_neg, sin_neg]
  refine Prod.ext ?_ ?_ <;> simp only <;> ring

theorem rot_int (α : ℝ) (k : ℤ) (p : ℝ × ℝ) : rot (α + k * (2 * π)) p = rot α p := by
  unfold rot
  rw [cos_add_int_mul_two_pi, sin_add_int_mul_two_pi]

theorem Quarter.add {α β : ℝ} (h : Quarter α) (h' : Quarter β) : Quarter (α + β) := by
  obtain ⟨k, rfl⟩ := h
  obtain ⟨l, rfl⟩ := h'
  exact ⟨k + l, by push_cast; ring⟩

theorem Quarter.neg {α : ℝ} (h : Quarter α) : Quarter (-α) := by
  obtain ⟨k, rfl⟩ := h
  exact ⟨-k, by push_cast; ring⟩

theorem Quarter.int {α : ℝ} (h : Quarter α) (k : ℤ) : Quarter (α + k * (2 * π)) := by
  obtain ⟨l, rfl⟩ := h
  exact ⟨l + 4 * k, by push_cast; ring⟩

theorem emod_rot_angle (a : ℤ) {N : ℕ} (hN : 0 < N) : ((a % N : ℤ) : ℝ) * (2 * π / N) = a * (2 * π / N) + ((-(a / N) : ℤ) : ℝ) * (2 * π) := by
  have h : (a : ℝ) = ((a % N : ℤ) : ℝ) + N * ((a / N : ℤ) : ℝ) := by exact_mod_cast (Int.emod_add_mul_ediv a N).symm
  have hN' : (N : ℝ) ≠ 0 := by positivity
  rw [Int.cast_neg]
  have e : (a : ℝ) * (2 * π / N) = ((a % N : ℤ) : ℝ) * (2 * π / N) + ((a / N : ℤ) : ℝ) * (2 * π) := by
    conv_lhs => rw [h]
    field_simp
  rw [e]; ring

theorem planeAct_op (axis : ℝ) {f f' : ℤ} (hf : f = 0 ∨ f = 1) (hf' : f' = 0 ∨ f' = 1) (r r' : ℝ) (p : ℝ × ℝ) :
    planeAct axis ((f + f') % 2, r + (if f ≠ 0 then -1 else 1) * r') p = planeAct axis (f, r) (planeAct axis (f', r') p) := by
  rcases hf with rfl | rfl <;> rcases hf' with rfl | rfl <;> simp [planeAct, rot_rot, refl_rot, refl_refl]

theorem planeAct_inj (axis : ℝ) (g : ℤ × ℝ) (p q : ℝ × ℝ) (h : planeAct axis g p = planeAct axis g q) : p = q := by
  unfold planeAct at h
  have h := rot_inj _ _ _ h
  split_ifs at h
  · exact h
  · have := congrArg (refl axis) h
    rwa [refl_refl, refl_refl] at this

theorem quarter_op (axis : ℝ) {f f' : ℤ} (hf : f = 0 ∨ f = 1) (hf' : f' = 0 ∨ f' = 1) (r r' : ℝ)
    (h : Quarter (r + if f = 0 then 0 else 2 * axis)) (h' : Quarter (r' + if f' = 0 then 0 else 2 * axis)) :
    Quarter (r + (if f ≠ 0 then -1 else 1) * r' + if (f + f') % 2 = 0 then 0 else 2 * axis) := by
  rcases hf with rfl | rfl <;> rcases hf' with rfl | rfl
  · have := h.add h'
    simpa using this
  · have := h.add h'
    simp only [if_true, one_ne_zero, if_false, add_zero] at this
    have e : r + (if (0 : ℤ) ≠ 0 then (-1 : ℝ) else 1) * r' + (if ((0 : ℤ) + 1) % 2 = 0 then 0 else 2 * axis) = r + (r' + 2 * axis) := by
      norm_num [add_assoc]
    rw [e]; exact this
  · have := h.add h'.neg
    have e : r + (if (1 : ℤ) ≠ 0 then (-1 : ℝ) else 1) * r' + (if ((1 : ℤ) + 0) % 2 = 0 then 0 else 2 * axis) = r + 2 * axis + -r' := by
      norm_num; ring
    rw [e]
    simpa using this
  · have := h.add h'.neg
    have e : r + (if (1 : ℤ) ≠ 0 then (-1 : ℝ) else 1) * r' + (if ((1 : ℤ) + 1) % 2 = 0 then 0 else 2 * axis) = r + 2 * axis + -(r' + 2 * axis) := by
      norm_num
    rw [e]
    simpa using this

theorem trivialSpace_action : trivialSpace.PlaneAction where
  one _ := rfl
  op _ _ _ _ _ := rfl
  inj _ _ _ _ h := h
  memOne := rfl
  memOp g h hg hh := (Cyclic.lawful (by norm_num)).op_mem g h hg hh
  gridOne := trivial
  gridOp _ _ _ _ _ _ := trivial

theorem rotSpace_action (interp : ℝ → Img → Img) (N : ℕ) (hN : 0 < N) : (rotSpace interp N).PlaneAction where
  one p := by simp [rotSpace, Cyclic.grp, Cyclic.identity, rot_zero]
  op g h _ _ p := by
    simp only [rotSpace, Cyclic.grp, Cyclic.combine, Cyclic.order_eq]
    rw [emod_rot_angle _ hN, rot_int, rot_rot]
    congr 1; push_cast; ring
  inj g _ p q h := rot_inj _ p q h
  memOne := (Cyclic.lawful hN).one_mem
  memOp g h hg hh := (Cyclic.lawful hN).op_mem g h hg hh
  gridOne := ⟨0, by simp [rotSpace, Cyclic.grp, Cyclic.identity]⟩
  gridOp g h _ _ q q' := by
    simp only [rotSpace, Cyclic.grp, Cyclic.combine, Cyclic.order_eq] at q q' ⊢
    rw [emod_rot_angle _ hN]
    apply Quarter.int
    have := q.add q'
    rwa [← add_mul, ← Int.cast_add] at this

theorem so2Space_action (interp : ℝ → Img → Img) : (so2Space interp).PlaneAction where
  one p := rot_zero p
  op g h _ _ p := by
    simp only [so2Space, SO2.grp, SO2.combine]
    obtain ⟨k, hk⟩ := fmod_eq_add (g + h) (2 * π)
    rw [hk, rot_int, rot_rot]
  inj g _ p q h := rot_inj _ p q h
  memOne := trivial
  memOp _ _ _ _ := trivial
  gridOne := quarter_zero
  gridOp g h _ _ q q' := by
    simp only [so2Space, SO2.grp, SO2.combine]
    obtain ⟨k, hk⟩ := fmod_eq_add (g + h) (2 * π)
    rw [hk]
    exact (q.add q').int k

theorem flipSpace_action (interp : ℝ → Img → Img) (axis : ℝ) : (flipSpace interp axis).PlaneAction where
  one p := rfl
  op g h hg hh p := by
    have h1 := (Cyclic.isElement_iff 2 g).1 hg
    have h2 := (Cyclic.isElement_iff 2 h).1 hh
    have e1 : g = 0 ∨ g = 1 := by omega
    have e2 : h = 0 ∨ h = 1 := by omega
    simp only [flipSpace, Cyclic.grp, Cyclic.combine, Cyclic.order_eq]
    rcases e1 with rfl | rfl <;> rcases e2 with rfl | rfl <;> simp [refl_refl]
  inj g _ p q h := by
    simp only [flipSpace] at h
    split_ifs at h
    · exact h
    · have := congrArg (refl axis) h
      rwa [refl_refl, refl_refl] at this
  memOne := (Cyclic.lawful (by norm_num)).one_mem
  memOp g h hg hh := (Cyclic.lawful (by norm_num)).op_mem g h hg hh
  gridOne := Or.inl rfl
  gridOp g h _ _ q q' := by
    rcases q with q | q
    · rcases q' with q' | q'
      · subst q; subst q'
        exact Or.inl rfl
      · exact Or.inr q'
    · exact Or.inr q

theorem flipRotSpace_action (interp : ℝ → Img → Img) (N : ℕ) (hN : 0 < N) (axis : ℝ) : (flipRotSpace interp N axis).PlaneAction where
  one p := by simp [flipRotSpace, Dihedral.grp, Dihedral.identity, planeAct, rot_zero]
  op g h hg hh p := by
    have h1 := Dihedral.isEl_flip hg
    have h2 := Dihedral.isEl_flip hh
    simp only [flipRotSpace, Dihedral.grp, Dihedral.combine]
    rw [← planeAct_op axis h1 h2]
    simp only [planeAct]
    rw [emod_rot_angle _ hN, rot_int]
    congr 1
    split_ifs <;> push_cast <;> ring
  inj g _ p q h := planeAct_inj _ _ p q h
  memOne := (Dihedral.lawful hN).one_mem
  memOp g h hg hh := (Dihedral.lawful hN).op_mem g h hg hh
  gridOne := ⟨0, by simp [flipRotSpace, Dihedral.grp, Dihedral.identity]⟩
  gridOp g h hg hh q q' := by
    have h1 := Dihedral.isEl_flip hg
    have h2 := Dihedral.isEl_flip hh
    simp only [flipRotSpace, Dihedral.grp, Dihedral.combine] at q q' ⊢
    have := (quarter_op axis h1 h2 _ _ q q').int (-((g.2 + (if g.1 ≠ 0 then -1 else 1) * h.2) / N))
    rw [emod_rot_angle _ hN]
    have e : ((g.2 + (if g.1 ≠ 0 then -1 else 1) * h.2 : ℤ) : ℝ) * (2 * π / N) = g.2 * (2 * π / N) + (if g.1 ≠ 0 then -1 else 1) * (h.2 * (2 * π / N)) := by
      split_ifs <;> push_cast <;> ring
    rw [e, add_right_comm]
    exact this

theorem o2Space_action (interp : ℝ → Img → Img) (axis : ℝ) : (o2Space interp axis).PlaneAction where
  one p := by simp [o2Space, O2.grp, planeAct, rot_zero]
  op g h hg hh p := planeAct_op axis hg hh _ _ p
  inj g _ p q h := planeAct_inj _ _ p q h
  memOne := Or.inl rfl
  memOp g h hg hh := by
    simp only [o2Space, O2.grp, O2.isElement, O2.combine] at hg hh ⊢
    omega
  gridOne := ⟨0, by simp [o2Space, O2.grp]⟩
  gridOp g h hg hh q q' := quarter_op axis hg hh _ _ q q'

/-- **C45**: for all spaces of the library, all axes, and all functions for the rotations which are not multiples of a right angle. -/
theorem c45_spaces (interp : ℝ → Img → Img) (N : ℕ) (hN : 0 < N) (axis : ℝ) :
    (trivialSpace.GridAction ∧ trivialSpace.PlaneAction) ∧
    ((rotSpace interp N).GridAction ∧ (rotSpace interp N).PlaneAction) ∧
    ((so2Space interp).GridAction ∧ (so2Space interp).PlaneAction) ∧
    ((flipSpace interp axis).GridAction ∧ (flipSpace interp axis).PlaneAction) ∧
    ((flipRotSpace interp N axis).GridAction ∧ (flipRotSpace interp N axis).PlaneAction) ∧
    ((o2Space interp axis).GridAction ∧ (o2Space interp axis).PlaneAction) :=
  ⟨⟨trivialSpace_grid, trivialSpace_action⟩, ⟨rotSpace_grid interp N hN, rotSpace_action interp N hN⟩,
    ⟨so2Space_grid interp, so2Space_action interp⟩, ⟨flipSpace_grid interp axis, flipSpace_action interp axis⟩,
    ⟨flipRotSpace_grid interp N axis, flipRotSpace_action interp N hN axis⟩, ⟨o2Space_grid interp axis, o2Space_action interp axis⟩⟩

/-- **C45 for the dihedral groups**, as an instance: all pairs of elements of `D_4` with the vertical axis. -/
theorem c45_d4 (interp : ℝ → Img → Img) (size : ℕ) (ρ : ℤ × ℤ → Mat) (hρ : IsRep (Dihedral.grp 4) size ρ) (n : ℕ) (x : Fmap) (g h : ℤ × ℤ)
    (hg : (Dihedral.grp 4).isEl g) (hh : (Dihedral.grp 4).isEl h) :
    FEq size n
      (fieldAct size (ρ g) (flipRotBase interp 4 (π / 2) n g) (fieldAct size (ρ h) (flipRotBase interp 4 (π / 2) n h) x))
      (fieldAct size (ρ (Dihedral.combine 4 g h)) (flipRotBase interp 4 (π / 2) n (Dihedral.combine 4 g h)) x) := by
  have hq : ∀ g : ℤ × ℤ, (flipRotSpace interp 4 (π / 2)).grid g := by
    intro g
    by_cases h : g.1 = 0
    · exact ⟨g.2, by rw [if_pos h]; push_cast; ring⟩
    · exact ⟨g.2 + 2, by rw [if_neg h]; push_cast; ring⟩
  exact (c45_action (flipRotSpace interp 4 (π / 2)) (flipRotSpace_grid interp 4 _) (flipRotSpace_action interp 4 (by norm_num) _) size ρ hρ n x).2
    g h hg hh (hq g) (hq h)

/-- The rotation by a right angle moves the upper left pixel to the lower left corner. -/
example (interp : ℝ → Img → Img) (x : Img) : rotBase interp 4 3 1 x 2 0 = x 0 0 := by
  rw [rotBase, rotateArray_quarter interp 3 x (k := 1) (by norm_num; ring)]
  rfl

end E2
