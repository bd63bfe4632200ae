import Verif.Model.SpaceRestrict
import Verif.Props.Image
import Verif.Props.Subgroups
import Mathlib.Analysis.SpecialFunctions.Trigonometric.Angle

/-!
Restricting a space keeps the action on the plane and on images (C44); equality of spaces (C51).
-/

namespace E2

open Real

variable {El : Type}

/-- The specification: the smaller space acts on the plane and on images as its image in the larger one. -/
structure SameAction (Sp : Space El) (r : Restriction El) : Prop where
  plane : ∀ h, r.sub.G.isEl h → ∀ p, r.sub.act h p = Sp.act (r.parent h) p
  image : ∀ h, r.sub.G.isEl h → ∀ n x, r.sub.base n h x = Sp.base n (r.parent h) x

/-- The interpolation depends on the angle modulo a full turn (`scipy.ndimage.rotate` uses its sine and cosine). -/
def Periodic (interp : ℝ → Img → Img) : Prop := ∀ θ (k : ℤ), interp (θ + k * (2 * π)) = interp θ

theorem rot90_add (n : ℕ) (k m : ℤ) (x : Img) : rot90 n (k + m * 4) x = rot90 n k x := by
  unfold rot90
  rw [Int.add_mul_emod_self_right]

theorem rotateArray_periodic {interp : ℝ → Img → Img} (hp : Periodic interp) (n : ℕ) (x : Img) (θ : ℝ) (k : ℤ) :
    rotateArray interp n x (θ + k * (2 * π)) = rotateArray interp n x θ := by
  have hpi := pi_ne_zero
  have e : 2 * (θ + k * (2 * π)) / π = 2 * θ / π + ((k * 4 : ℤ) : ℝ) := by
    push_cast
    field_simp
    ring
  unfold rotateArray
  have hiff : (∃ z : ℤ, 2 * (θ + k * (2 * π)) / π = z) ↔ ∃ z : ℤ, 2 * θ / π = z := by
    rw [e]
    constructor
    · rintro ⟨z, hz⟩
      exact ⟨z - k * 4, by push_cast at hz ⊢; linarith⟩
    · rintro ⟨z, hz⟩
      exact ⟨z + k * 4, by push_cast; linarith⟩
  by_cases hc : ∃ z : ℤ, 2 * θ / π = z
  · rw [if_pos hc, if_pos (hiff.2 hc), e, Int.floor_add_intCast, rot90_add]
  · rw [if_neg hc, if_neg fun h => hc (hiff.1 h), hp]

/-- A space acting by a flip followed by a rotation. -/
structure Std (interp : ℝ → Img → Img) (Sp : Space El) (P : El → Prop) (f : El → ℤ) (θ : El → ℝ) : Prop where
  base : ∀ g, P g → ∀ n x, Sp.base n g x = rotateArray interp n (if f g ≠ 0 then x.flip0 n else x) (θ g)
  act : ∀ g, P g → ∀ p, Sp.act g p = rot (θ g) (if f g ≠ 0 then refl 0 p else p)

theorem std_trivial (interp : ℝ → Img → Img) : Std interp trivialSpace (fun _ => True) (fun _ => 0) (fun _ => 0) :=
  ⟨fun g _ n x => by simp only [ne_eq, not_true, if_false]; exact (rotateArray_zero interp n x).symm, fun g _ p => by simp [trivialSpace, rot_zero]⟩

theorem std_rot (interp : ℝ → Img → Img) {N : ℕ} (hN : 0 < N) : Std interp (rotSpace interp N) (Cyclic.grp N).isEl (fun _ => 0) (fun g => g * (2 * π / N)) := by
  refine ⟨fun g _ n x => ?_, fun g _ p => by simp [rotSpace]⟩
  change rotBase interp N n g x = _
  simp only [rotBase, ne_eq, not_true, if_false]
  split_ifs with h
  · rw [mul_assoc, mul_div_assoc]
  · have : N = 1 := by omega
    subst this
    rename_i hg
    have : g = 0 := by
      have h1 : 0 ≤ g ∧ g < ((1 : ℕ) : ℤ) := by
        simpa [rotSpace, Cyclic.grp, Cyclic.isElement_iff, Cyclic.order_eq] using hg
      omega
    subst this
    simp

theorem std_so2 (interp : ℝ → Img → Img) : Std interp (so2Space interp) (fun _ => True) (fun _ => 0) (fun g => g) :=
  ⟨fun g _ n x => by simp only [ne_eq, not_true, if_false]; rfl, fun g _ p => by simp [so2Space]⟩

theorem std_flip (interp : ℝ → Img → Img) (axis : ℝ) : Std interp (flipSpace interp axis) (fun _ => True) (fun g => g) (fun g => if g = 0 then 0 else 2 * axis) := by
  refine ⟨fun g _ n x => ?_, fun g _ p => ?_⟩
  · change flipBase interp axis n g x = _
    unfold flipBase
    by_cases hg : g = 0
    · simp [hg, rotateArray_zero]
    · simp only [ne_eq, hg, not_false_iff, if_true, if_false]
      split_ifs with ha
      · rw [ha, mul_zero, rotateArray_zero]
      · rfl
  · change (if g = 0 then p else refl axis p) = _
    by_cases hg : g = 0
    · simp [hg, rot_zero]
    · simp only [hg, if_false, ne_eq, not_false_iff, if_true]
      exact refl_eq axis p

theorem flipRotBase'_eq (interp : ℝ → Img → Img) (axis : ℝ) (n : ℕ) (f : ℤ) (r : ℝ) (x : Img) :
    flipRotBase' interp axis n f r x = rotateArray interp n (if f ≠ 0 then x.flip0 n else x) (r + if f = 0 then 0 else 2 * axis) := by
  unfold flipRotBase'
  have e : (if f ≠ 0 then r + 2 * axis else r) = r + if f = 0 then 0 else 2 * axis := by
    by_cases hf : f = 0 <;> simp [hf]
  dsimp only
  rw [e]
  split_ifs with h1 h2 h3 <;> first | rfl | (rw [not_not] at h1; rw [h1, rotateArray_zero]) | skip
  all_goals simp_all [rotateArray_zero]

theorem planeAct_eq (axis : ℝ) (f : ℤ) (r : ℝ) (p : ℝ × ℝ) :
    planeAct axis (f, r) p = rot (r + if f = 0 then 0 else 2 * axis) (if f ≠ 0 then refl 0 p else p) := by
  unfold planeAct
  by_cases hf : f = 0
  · simp [hf]
  · simp only [hf, if_false, ne_eq, not_false_iff, if_true]
    exact rot_refl r axis p

theorem std_flipRot (interp : ℝ → Img → Img) (N : ℕ) (axis : ℝ) :
    Std interp (flipRotSpace interp N axis) (fun _ => True) (fun g => g.1) (fun g => g.2 * (2 * π / N) + if g.1 = 0 then 0 else 2 * axis) := by
  refine ⟨fun g _ n x => ?_, fun g _ p => planeAct_eq axis g.1 _ p⟩
  change flipRotBase' interp axis n g.1 (g.2 * 2 * π / N) x = _
  rw [flipRotBase'_eq, mul_assoc, mul_div_assoc]

theorem std_o2 (interp : ℝ → Img → Img) (axis : ℝ) :
    Std interp (o2Space interp axis) (fun _ => True) (fun g => g.1) (fun g => g.2 + if g.1 = 0 then 0 else 2 * axis) :=
  ⟨fun g _ n x => flipRotBase'_eq interp axis n g.1 g.2 x, fun g _ p => planeAct_eq axis g.1 _ p⟩

/-- Equal flips and angles equal modulo a turn: the same action. -/
theorem sameAction_of_std {interp : ℝ → Img → Img} (hp : Periodic interp) {Sp : Space El} {r : Restriction El} {f : El → ℤ} {θ : El → ℝ} {f' : r.El' → ℤ}
    {θ' : r.El' → ℝ} {P : El → Prop} {P' : r.El' → Prop} (hs : Std interp Sp P f θ) (hr : Std interp r.sub P' f' θ')
    (hel : ∀ h, r.sub.G.isEl h → P (r.parent h)) (hel' : ∀ h, r.sub.G.isEl h → P' h)
    (hf : ∀ h, r.sub.G.isEl h → f' h = f (r.parent h)) (hθ : ∀ h, r.sub.G.isEl h → ∃ k : ℤ, θ' h = θ (r.parent h) + k * (2 * π)) : SameAction Sp r := by
  refine ⟨fun h hh p => ?_, fun h hh n x => ?_⟩
  · obtain ⟨k, hk⟩ := hθ h hh
    rw [hr.act h (hel' h hh), hs.act _ (hel h hh), hf h hh, hk, rot_int]
  · obtain ⟨k, hk⟩ := hθ h hh
    rw [hr.base h (hel' h hh), hs.base _ (hel h hh), hf h hh, hk, rotateArray_periodic hp]

theorem newAxis_eq (axis rotation : ℝ) : ∃ k : ℤ, 2 * newAxis axis rotation = 2 * axis + rotation + k * (2 * π) := by
  refine ⟨-2 * ⌊(axis + 0.5 * rotation) / (2 * π)⌋, ?_⟩
  unfold newAxis fmod
  push_cast
  ring

theorem cyclic_one {e : ℤ} (h : (Cyclic.grp 1).isEl e) : e = 0 := by
  have h1 : 0 ≤ e ∧ e < ((1 : ℕ) : ℤ) := by simpa [Cyclic.grp, Cyclic.isElement_iff, Cyclic.order_eq] using h
  omega

theorem cyclic_two {e : ℤ} (h : (Cyclic.grp 2).isEl e) : e = 0 ∨ e = 1 := by
  have h1 : 0 ≤ e ∧ e < ((2 : ℕ) : ℤ) := by simpa [Cyclic.grp, Cyclic.isElement_iff, Cyclic.order_eq] using h
  omega

/-- The angle of the image of an element of the subgroup of index `N / M`. -/
theorem index_angle {N M : ℕ} (hM : M ≠ 0) (hN : 0 < N) (hd : N % M = 0) (e : ℤ) : ((e * ((N / M : ℕ) : ℤ) : ℤ) : ℝ) * (2 * π / N) = e * (2 * π / M) := by
  obtain ⟨r, rfl⟩ := Nat.dvd_of_mod_eq_zero hd
  rw [Nat.mul_div_cancel_left _ (Nat.pos_of_ne_zero hM)]
  have h1 : (M : ℝ) ≠ 0 := by exact_mod_cast hM
  have h2 : (r : ℝ) ≠ 0 := by
    have : r ≠ 0 := fun h => by simp [h] at hN
    exact_mod_cast this
  push_cast
  field_simp

/-! ### C44 -/

/-- **C44 for `TrivialOnR2`**. -/
theorem c44_trivial (M : ℕ) (r : Restriction ℤ) (h : trivialRestrict M = some r) : SameAction trivialSpace r := by
  rw [trivialRestrict, Option.map_eq_some_iff] at h
  obtain ⟨s, -, rfl⟩ := h
  exact ⟨fun _ _ _ => rfl, fun _ _ _ _ => rfl⟩

/-- **C44 for `Rot2dOnR2` with C_N**: all orders and all ids, all angles. -/
theorem c44_rot (interp : ℝ → Img → Img) (hp : Periodic interp) (N M : ℕ) (hN : 0 < N) (r : Restriction ℤ) (h : rotRestrict interp N M = some r) :
    SameAction (rotSpace interp N) r := by
  rw [rotRestrict, Option.bind_eq_some_iff] at h
  obtain ⟨s, hs, h⟩ := h
  obtain ⟨h1, h2, -⟩ := (c06_cyclic_subgroup N hN M).2 s hs
  rw [Cyclic.subgroup, Cyclic.order_eq] at hs
  split_ifs at hs with hM
  obtain rfl := Option.some.inj hs
  push Not at hM
  split_ifs at h with h3 h4
  · obtain rfl := Option.some.inj h
    refine sameAction_of_std hp (std_rot interp hN) (std_rot interp (Nat.pos_of_ne_zero hM.1)) (fun e he => h2.mem e he) (fun _ he => he) (fun _ _ => rfl)
      fun e _ => ⟨0, ?_⟩
    dsimp only
    rw [index_angle hM.1 hN hM.2]
    simp
  · obtain rfl := Option.some.inj h
    subst h4
    refine sameAction_of_std hp (std_rot interp hN) (std_trivial interp) (fun e he => h2.mem e he) (fun _ _ => trivial) (fun _ _ => rfl)
      fun e he => ⟨0, ?_⟩
    have : e = 0 := cyclic_one he
    simp [this]

/-- **C44 for `Rot2dOnR2` with SO(2)**. -/
theorem c44_so2 (interp : ℝ → Img → Img) (hp : Periodic interp) (M : ℕ) (r : Restriction ℝ) (h : so2Restrict interp M = some r) : SameAction (so2Space interp) r := by
  rw [so2Restrict, Option.bind_eq_some_iff] at h
  obtain ⟨s, hs, h⟩ := h
  rw [SO2.subgroup] at hs
  split_ifs at hs with hM
  obtain rfl := Option.some.inj hs
  split_ifs at h with h3 h4
  · obtain rfl := Option.some.inj h
    refine sameAction_of_std hp (std_so2 interp) (std_rot interp (Nat.pos_of_ne_zero hM)) (fun _ _ => trivial) (fun _ he => he) (fun _ _ => rfl)
      fun e _ => ⟨0, ?_⟩
    simp [mul_assoc, mul_div_assoc]
  · obtain rfl := Option.some.inj h
    subst h4
    refine sameAction_of_std hp (std_so2 interp) (std_trivial interp) (fun _ _ => trivial) (fun _ _ => trivial) (fun _ _ => rfl) fun e he => ⟨0, ?_⟩
    have : e = 0 := cyclic_one he
    simp [this]

/-- **C44 for `Flip2dOnR2`**: all axes. -/
theorem c44_flip (interp : ℝ → Img → Img) (hp : Periodic interp) (axis : ℝ) (M : ℕ) (r : Restriction ℤ) (h : flipRestrict interp axis M = some r) :
    SameAction (flipSpace interp axis) r := by
  rw [flipRestrict, Option.map_eq_some_iff] at h
  obtain ⟨s, hs, h⟩ := h
  rw [Cyclic.subgroup, Cyclic.order_eq] at hs
  split_ifs at hs with hM
  obtain rfl := Option.some.inj hs
  push Not at hM
  have hM2 : M = 1 ∨ M = 2 := by
    have := Nat.le_of_dvd (by norm_num) (Nat.dvd_of_mod_eq_zero hM.2)
    omega
  rcases hM2 with rfl | rfl
  · rw [if_pos rfl] at h
    subst h
    refine sameAction_of_std hp (std_flip interp axis) (std_trivial interp) (fun _ _ => trivial) (fun _ _ => trivial) (fun e he => ?_) fun e he => ⟨0, ?_⟩
    · have : e = 0 := cyclic_one he
      simp [this]
    · have : e = 0 := cyclic_one he
      simp [this]
  · rw [if_neg (by norm_num)] at h
    subst h
    refine sameAction_of_std hp (std_flip interp axis) (std_flip interp axis) (fun _ _ => trivial) (fun _ _ => trivial) (fun e he => ?_) fun e he => ⟨0, ?_⟩
    · simp
    · simp

/-- **C44 for `FlipRot2dOnR2` with D_N**: all orders, axes and ids; the axis of the smaller space is the right one. -/
theorem c44_flipRot (interp : ℝ → Img → Img) (hp : Periodic interp) (N : ℕ) (hN : 0 < N) (axis : ℝ) (id0 : Option ℕ) (M : ℕ) (r : Restriction (ℤ × ℤ))
    (h : flipRotRestrict interp N axis id0 M = some r) : SameAction (flipRotSpace interp N axis) r := by
  rw [flipRotRestrict, Option.bind_eq_some_iff] at h
  obtain ⟨s, hs, h⟩ := h
  rw [Dihedral.subgroup] at hs
  by_cases h1 : 1 ≤ M
  swap
  · rw [if_pos h1] at hs
    cases hs
  rw [if_neg (not_not.2 h1)] at hs
  by_cases h2 : N % M = 0
  swap
  · rw [if_pos h2] at hs
    cases hs
  rw [if_neg (not_not.2 h2)] at hs
  cases id0 with
  | none =>
    obtain rfl := Option.some.inj hs
    dsimp only at h
    split_ifs at h with h3 h4
    · obtain rfl := Option.some.inj h
      subst h3
      refine sameAction_of_std hp (std_flipRot interp N axis) (std_trivial interp) (fun _ _ => trivial) (fun _ _ => trivial) (fun _ _ => rfl) fun e he => ⟨0, ?_⟩
      have : e = 0 := cyclic_one he
      simp [this]
    · obtain rfl := Option.some.inj h
      refine sameAction_of_std hp (std_flipRot interp N axis) (std_rot interp (by omega)) (fun _ _ => trivial) (fun _ he => he) (fun _ _ => rfl)
        fun e he => ⟨0, ?_⟩
      dsimp only
      rw [index_angle (by omega) hN h2]
      simp
  | some a =>
    dsimp only at hs
    split_ifs at hs with h3 h4
    · obtain rfl := Option.some.inj hs
      dsimp only at h
      rw [if_pos h4] at h
      obtain rfl := Option.some.inj h
      refine sameAction_of_std hp (std_flipRot interp N axis) (std_flip interp _) (fun _ _ => trivial) (fun _ _ => trivial) (fun _ _ => rfl) fun e he => ?_
      obtain ⟨k, hk⟩ := newAxis_eq axis (a * 2 * π / N)
      rcases cyclic_two he with rfl | rfl
      · exact ⟨0, by simp⟩
      · refine ⟨k, ?_⟩
        dsimp only
        rw [if_neg one_ne_zero, if_neg one_ne_zero, hk]
        push_cast
        ring
    · obtain rfl := Option.some.inj hs
      dsimp only at h
      obtain rfl := Option.some.inj h
      refine sameAction_of_std hp (std_flipRot interp N axis) (std_flipRot interp M _) (fun _ _ => trivial) (fun _ _ => trivial) (fun _ _ => rfl) fun e he => ?_
      obtain ⟨k, hk⟩ := newAxis_eq axis (a * 2 * π / N)
      have hi := index_angle (M := M) (by omega) hN h2 e.2
      rcases ((Dihedral.isEl_iff M e).1 he).1 with h0 | h0
      · refine ⟨0, ?_⟩
        dsimp only
        rw [h0, if_pos rfl, if_pos rfl]
        push_cast at hi ⊢
        linarith
      · refine ⟨k, ?_⟩
        dsimp only
        rw [h0, if_neg one_ne_zero, if_neg one_ne_zero, hk]
        push_cast at hi ⊢
        linear_combination -hi

/-- **C44 for `FlipRot2dOnR2` with O(2)**: all axes and all ids. -/
theorem c44_o2 (interp : ℝ → Img → Img) (hp : Periodic interp) (axis : ℝ) (id0 : Option ℝ) (M : ℤ) (r : Restriction (ℤ × ℝ))
    (h : o2Restrict interp axis id0 M = some r) : SameAction (o2Space interp axis) r := by
  rw [o2Restrict, Option.bind_eq_some_iff] at h
  obtain ⟨s, hs, h⟩ := h
  cases id0 with
  | none =>
    rw [O2.subgroup] at hs
    split_ifs at hs with h1 h2
    · obtain rfl := Option.some.inj hs
      dsimp only at h
      rw [if_pos (Or.inr h1)] at h
      obtain rfl := Option.some.inj h
      exact sameAction_of_std hp (std_o2 interp axis) (std_so2 interp) (fun _ _ => trivial) (fun _ _ => trivial) (fun _ _ => rfl) fun e he => ⟨0, by simp⟩
    · obtain rfl := Option.some.inj hs
      obtain ⟨m, rfl⟩ := Int.eq_ofNat_of_zero_le (by omega : 0 ≤ M)
      dsimp only at h
      split_ifs at h with h3 h4
      · obtain rfl := Option.some.inj h
        refine sameAction_of_std hp (std_o2 interp axis) (std_trivial interp) (fun _ _ => trivial) (fun _ _ => trivial) (fun _ _ => rfl) fun e he => ⟨0, ?_⟩
        have : e = 0 := cyclic_one he
        simp [this]
      · obtain rfl := Option.some.inj h
        refine sameAction_of_std hp (std_o2 interp axis) (std_rot interp (by simp only [Int.toNat_natCast, Nat.cast_pos, not_le] at h2 ⊢; omega)) (fun _ _ => trivial) (fun _ he => he) (fun _ _ => rfl)
          fun e he => ⟨0, ?_⟩
        simp [mul_assoc, mul_div_assoc]
  | some a =>
    rw [O2.subgroup] at hs
    obtain ⟨k, hk⟩ := newAxis_eq axis a
    split_ifs at hs with h1 h2 h3 h4
    · obtain rfl := Option.some.inj hs
      obtain rfl := Option.some.inj h
      refine sameAction_of_std hp (std_o2 interp axis) (std_o2 interp _) (fun _ _ => trivial) (fun _ _ => trivial) (fun _ _ => rfl) fun e he => ?_
      have he' : e.1 = 0 ∨ e.1 = 1 := he
      rcases he' with h0 | h0
      · exact ⟨0, by simp [h0]⟩
      · refine ⟨k, ?_⟩
        dsimp only
        rw [h0, if_neg one_ne_zero, if_neg one_ne_zero, hk]
        push_cast
        ring
    · obtain rfl := Option.some.inj hs
      dsimp only at h
      rw [if_pos h3] at h
      obtain rfl := Option.some.inj h
      refine sameAction_of_std hp (std_o2 interp axis) (std_flip interp _) (fun _ _ => trivial) (fun _ _ => trivial) (fun _ _ => rfl) fun e he => ?_
      rcases cyclic_two he with rfl | rfl
      · exact ⟨0, by simp⟩
      · refine ⟨k, ?_⟩
        dsimp only
        rw [if_neg one_ne_zero, if_neg one_ne_zero, hk]
        push_cast
        ring
    · obtain rfl := Option.some.inj hs
      obtain ⟨m, rfl⟩ := Int.eq_ofNat_of_zero_le (by omega : 0 ≤ M)
      obtain rfl := Option.some.inj h
      refine sameAction_of_std hp (std_o2 interp axis) (std_flipRot interp m _) (fun _ _ => trivial) (fun _ _ => trivial) (fun _ _ => rfl) fun e he => ?_
      rcases ((Dihedral.isEl_iff m e).1 he).1 with h0 | h0
      · refine ⟨0, ?_⟩
        dsimp only
        rw [h0, if_pos rfl, if_pos rfl]
        push_cast
        ring
      · refine ⟨k, ?_⟩
        dsimp only
        rw [h0, if_neg one_ne_zero, if_neg one_ne_zero, hk]
        push_cast
        ring

/-- Hence a feature field of the smaller space, with a restricted representation, transforms as the field of the larger space. -/
theorem c44_field {Sp : Space El} {r : Restriction El} (h : SameAction Sp r) (size : ℕ) (ρ : El → Mat) (ρ' : r.El' → Mat)
    (e : r.El') (he : r.sub.G.isEl e) (hρ : Mat.MEq size size (ρ' e) (ρ (r.parent e))) (n : ℕ) (x : Fmap) (o : ℕ) (ho : o < size) :
    fieldAct size (ρ' e) (r.sub.base n e) x o = fieldAct size (ρ (r.parent e)) (Sp.base n (r.parent e)) x o := by
  unfold fieldAct
  rw [h.image e he]
  congr 1
  funext i j
  exact Finset.sum_congr rfl fun c hc => by rw [hρ o ho c (Finset.mem_range.1 hc)]

/-! ### C51 -/

/-- Two objects describe the same action. -/
def SpaceD.SameSpace (s t : SpaceD) : Prop := s.group = t.group ∧ ∀ g : ℤ × ℝ, (g.1 = 0 ∨ g.1 = 1) → ∀ p, s.act g p = t.act g p

/-- The axis of a space, if it has one. -/
def SpaceD.axis : SpaceD → Option ℝ
  | .flip a => some a
  | .flipRot _ a => some a
  | .o2 _ a => some a
  | _ => none

/-- **What holds of C51**: equal spaces without reflections, and equal spaces with the same axis, describe the same action. -/
theorem c51_equal_partial (s t : SpaceD) (h : s.eq t = true) (ha : s.axis = t.axis) : s.SameSpace t := by
  rw [SpaceD.eq, decide_eq_true_iff] at h
  refine ⟨h.2, fun g _ p => ?_⟩
  obtain ⟨h1, h2⟩ := h
  cases s <;> cases t <;> simp_all [SpaceD.cls, SpaceD.group, SpaceD.axis, SpaceD.act]

/-- Different groups or classes are told apart: trivial, rotations, flips, and both, with any orders. -/
theorem c51_distinct (s t : SpaceD) (h : s.eq t = true) : s.cls = t.cls ∧ s.group = t.group := by
  rw [SpaceD.eq, decide_eq_true_iff] at h
  exact h

theorem refl_eq_iff (a b : ℝ) : (∀ p, refl a p = refl b p) ↔ ∃ k : ℤ, a = b + k * π := by
  constructor
  · intro h
    have h1 := h (1, 0)
    simp only [refl, Prod.mk.injEq, mul_one, mul_zero, add_zero, sub_zero] at h1
    have h3 : ((2 * a : ℝ) : Real.Angle) = ((2 * b : ℝ) : Real.Angle) := Real.Angle.cos_sin_inj h1.1 h1.2
    obtain ⟨k, hk⟩ := Real.Angle.angle_eq_iff_two_pi_dvd_sub.1 h3
    exact ⟨k, by linarith⟩
  · rintro ⟨k, rfl⟩ p
    have e : 2 * (b + k * π) = 2 * b + k * (2 * π) := by ring
    unfold refl
    rw [e, cos_add_int_mul_two_pi, sin_add_int_mul_two_pi]

/-- **Spaces with reflections**: equal spaces describe the same action exactly when their axes are equal up to a multiple of a half turn. -/
theorem c51_flip_iff (a b : ℝ) : (SpaceD.flip a).eq (.flip b) = true ∧ ((SpaceD.flip a).SameSpace (.flip b) ↔ ∃ k : ℤ, a = b + k * π) := by
  refine ⟨by simp [SpaceD.eq, SpaceD.cls, SpaceD.group], ?_⟩
  rw [← refl_eq_iff]
  constructor
  · rintro ⟨-, h⟩ p
    have := h (1, 0) (Or.inr rfl) p
    simpa [SpaceD.act, flipSpace] using this
  · intro h
    refine ⟨rfl, fun g hg p => ?_⟩
    rcases hg with h0 | h0
    · simp [SpaceD.act, flipSpace, h0]
    · simp [SpaceD.act, flipSpace, h0, h p]

theorem planeAct_refl_iff (a b : ℝ) (r : ℝ) : (∀ p, planeAct a (1, r) p = planeAct b (1, r) p) ↔ ∀ p, refl a p = refl b p := by
  have e : ∀ a p, planeAct a (1, r) p = rot r (refl a p) := fun a p => by simp [planeAct]
  simp only [e]
  exact ⟨fun h p => rot_inj r _ _ (h p), fun h p => by rw [h p]⟩

theorem c51_flipRot_iff (N : ℕ) (a b : ℝ) :
    (SpaceD.flipRot N a).eq (.flipRot N b) = true ∧ ((SpaceD.flipRot N a).SameSpace (.flipRot N b) ↔ ∃ k : ℤ, a = b + k * π) := by
  refine ⟨by simp [SpaceD.eq, SpaceD.cls, SpaceD.group], ?_⟩
  rw [← refl_eq_iff]
  constructor
  · rintro ⟨-, h⟩
    rw [← planeAct_refl_iff a b 0]
    intro p
    have := h (1, 0) (Or.inr rfl) p
    simpa [SpaceD.act, flipRotSpace] using this
  · intro h
    refine ⟨rfl, fun g hg p => ?_⟩
    rcases hg with h0 | h0
    · simp [SpaceD.act, flipRotSpace, h0, planeAct]
    · simp only [SpaceD.act, flipRotSpace, h0]
      exact (planeAct_refl_iff a b _).2 h p

theorem c51_o2_iff (F : ℕ) (a b : ℝ) : (SpaceD.o2 F a).eq (.o2 F b) = true ∧ ((SpaceD.o2 F a).SameSpace (.o2 F b) ↔ ∃ k : ℤ, a = b + k * π) := by
  refine ⟨by simp [SpaceD.eq, SpaceD.cls, SpaceD.group], ?_⟩
  rw [← refl_eq_iff]
  constructor
  · rintro ⟨-, h⟩
    rw [← planeAct_refl_iff a b 0]
    intro p
    have := h (1, 0) (Or.inr rfl) p
    simpa [SpaceD.act, o2Space] using this
  · intro h
    refine ⟨rfl, fun g hg p => ?_⟩
    obtain ⟨f, r⟩ := g
    rcases hg with h0 | h0
    · simp only at h0
      simp [SpaceD.act, o2Space, h0, planeAct]
    · simp only at h0
      subst h0
      exact (planeAct_refl_iff a b r).2 h p

/-- **The claim is false**: flips about the horizontal and about the vertical axis compare equal, and so do field types over them. -/
theorem c51_wrong : (SpaceD.flip 0).eq (.flip (π / 2)) = true ∧ fieldTypeEq (SpaceD.flip 0, [()]) (.flip (π / 2), [()]) = true ∧
    ¬ (SpaceD.flip 0).SameSpace (.flip (π / 2)) := by
  refine ⟨(c51_flip_iff _ _).1, by simp [fieldTypeEq, (c51_flip_iff _ _).1], fun h => ?_⟩
  obtain ⟨k, hk⟩ := (c51_flip_iff _ _).2.1 h
  have hpi := pi_pos
  have h2 : ((1 + 2 * k : ℤ) : ℝ) = 0 := by
    push_cast
    have : π * (1 + 2 * (k : ℝ)) = 0 := by linarith
    rcases mul_eq_zero.1 this with h | h
    · exact absurd h pi_ne_zero
    · exact h
  have h3 : (1 + 2 * k : ℤ) = 0 := by exact_mod_cast h2
  omega

/-! ### The hypotheses are met -/

/-- The identity is periodic (and so is any interpolation which uses sine and cosine). -/
example : Periodic fun _ x => x := fun _ _ => rfl

/-- D_12 restricted to D_3 with the reflection `r² f`. -/
example : ∃ r, flipRotRestrict (fun _ x => x) 12 (π / 2) (some 2) 3 = some r := ⟨_, rfl⟩

example : ∃ r, o2Restrict (fun _ x => x) (π / 2) (some 1) (-1) = some r := by
  refine ⟨⟨ℤ × ℝ, o2Space (fun _ x => x) (newAxis (π / 2) 1), fun e => (e.1, e.2 + e.1 * 1)⟩, ?_⟩
  simp [o2Restrict, O2.subgroup]

end E2
