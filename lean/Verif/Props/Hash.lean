import Verif.Model.Hash
import Verif.Props.SpaceRestrict

/-!
# C97: objects which compare equal have equal hashes
-/

namespace E2

open Real

/-- **C97 for representations**: equal representations have the same hash, whatever the hash of a text is. -/
theorem c97_representation {El F : Type} (hash : F × ℕ × ℕ × ℝ → ℤ) (r r' : NRep El F) (h : r.eqv r') : hash (reprHash r) = hash (reprHash r') := by
  obtain ⟨h1, h2, h3⟩ := h
  have hs : r'.rep.size = r.rep.size := by rw [Repr.size, Repr.size, h3]
  congr 1
  unfold reprHash
  rw [h1, hs, h3]
  refine congrArg (fun z : ℝ => (r'.name, r.rep.size, r'.rep.irreps.length, z)) ?_
  exact Finset.sum_congr rfl fun i hi => Finset.sum_congr rfl fun j hj => h2 i (Finset.mem_range.1 hi) j (Finset.mem_range.1 hj)

/-- The class whose axis is part of the name. -/
def SpaceD.axisInName : SpaceD → Prop
  | .flipRot _ _ => True
  | .o2 _ _ => True
  | _ => False

/-- **C97 for spaces**: equal spaces have the same hash, unless they have rotations and reflections about axes which are written differently with 5 digits.  The full claim is false:
`c97_space_iff`, `c97_wrong`. -/
theorem c97_space_partial (hash : SpaceName → ℤ) (s t : SpaceD) (h : s.eq t = true) (ha : s.axisInName → s.axis.map fmt5 = t.axis.map fmt5) : hash s.name = hash t.name := by
  rw [SpaceD.eq, decide_eq_true_iff] at h
  obtain ⟨h1, h2⟩ := h
  congr 1
  cases s <;> cases t <;> simp_all [SpaceD.cls, SpaceD.group, SpaceD.axis, SpaceD.name, SpaceD.axisInName]

/-- **C97, exactly when**: two equal spaces with rotations and reflections have the same hash for every hash of texts iff their axes are written alike. -/
theorem c97_space_iff (s t : SpaceD) (h : s.eq t = true) (hs : s.axisInName) : (∀ hash : SpaceName → ℤ, hash s.name = hash t.name) ↔ s.axis.map fmt5 = t.axis.map fmt5 := by
  refine ⟨fun H => ?_, fun ha hash => c97_space_partial hash s t h fun _ => ha⟩
  have hn : s.name = t.name := by
    by_contra hne
    have := H fun n => if n = s.name then 0 else 1
    rw [if_pos rfl, if_neg (Ne.symm hne)] at this
    norm_num at this
  rw [SpaceD.eq, decide_eq_true_iff] at h
  obtain ⟨h1, h2⟩ := h
  cases s <;> cases t <;> simp_all [SpaceD.cls, SpaceD.group, SpaceD.axis, SpaceD.name, SpaceD.axisInName]

/-- **C97 for field types**: equal field types have the same hash, with the same exception. -/
theorem c97_type_partial {R F : Type} [DecidableEq R] (name : R → F) (hash : SpaceName × List F → ℤ) (t t' : SpaceD × List R) (h : fieldTypeEq t t' = true)
    (ha : t.1.axisInName → t.1.axis.map fmt5 = t'.1.axis.map fmt5) : hash (fieldTypeHash name t) = hash (fieldTypeHash name t') := by
  simp only [fieldTypeEq, decide_eq_true_iff] at h
  congr 1
  unfold fieldTypeHash
  rw [h.2]
  refine congrArg (fun z : SpaceName => (z, t'.2.map name)) ?_
  by_contra hne
  have := c97_space_partial (fun n => if n = t.1.name then 0 else 1) _ _ h.1 ha
  simp only [if_true, if_neg (Ne.symm hne)] at this
  norm_num at this

theorem fmt5_ne : fmt5 0 ≠ fmt5 (π / 2) := by
  have h : fmt5 0 = 0 := by simp [fmt5]
  rw [h]
  intro he
  have h1 := abs_sub_round (π / 2 * 10 ^ 5)
  rw [show round (π / 2 * 10 ^ 5) = 0 from he.symm, Int.cast_zero, sub_zero] at h1
  have h2 : 2 ≤ π := two_le_pi
  have h3 := le_abs_self (π / 2 * 10 ^ 5)
  linarith

/-- **C97, false**: the spaces of `D_4` with horizontal and vertical axis compare equal, and so do the types with the same fields, but the texts which are hashed differ, so that
every hash which separates them breaks the contract of `==` and `hash`. -/
theorem c97_wrong : (SpaceD.flipRot 4 0).eq (.flipRot 4 (π / 2)) = true ∧ (SpaceD.flipRot 4 0).name ≠ (SpaceD.flipRot 4 (π / 2)).name ∧
    fieldTypeEq (SpaceD.flipRot 4 0, [()]) (.flipRot 4 (π / 2), [()]) = true ∧
    fieldTypeHash (fun _ : Unit => "irrep_0,0") (SpaceD.flipRot 4 0, [()]) ≠ fieldTypeHash (fun _ : Unit => "irrep_0,0") (.flipRot 4 (π / 2), [()]) := by
  refine ⟨by simp [SpaceD.eq, SpaceD.cls, SpaceD.group], ?_, by simp [fieldTypeEq, SpaceD.eq, SpaceD.cls, SpaceD.group], ?_⟩
  · simp only [SpaceD.name, ne_eq, SpaceName.flipRot.injEq, true_and]
    exact fmt5_ne
  · simp only [fieldTypeHash, SpaceD.name, ne_eq, Prod.mk.injEq, SpaceName.flipRot.injEq, true_and, and_true, List.map_cons, List.map_nil]
    exact fmt5_ne

/-- Equal spaces which are different objects: SO(2) with the same maximum frequency, the flips about two axes (whose name does not mention the axis), and `D_4` about axes which
differ by less than the written digits. -/
example : (SpaceD.so2 3).eq (.so2 3) = true ∧ (SpaceD.flip 0).eq (.flip 1) = true ∧ ¬ (SpaceD.flip 0).axisInName ∧ (SpaceD.flipRot 4 0).eq (.flipRot 4 (1 / 10 ^ 6)) = true ∧
    fmt5 0 = fmt5 (1 / 10 ^ 6) := by
  refine ⟨by simp [SpaceD.eq, SpaceD.cls, SpaceD.group], by simp [SpaceD.eq, SpaceD.cls, SpaceD.group], id, by simp [SpaceD.eq, SpaceD.cls, SpaceD.group], ?_⟩
  have h : round ((1 : ℝ) / 10 ^ 6 * 10 ^ 5) = 0 := by
    rw [round_eq, Int.floor_eq_iff]
    norm_num
  simp [fmt5, round_eq]
  norm_num

/-- Two representations which are equal although the changes of basis differ outside the matrix. -/
example : (⟨"a", ⟨[], Mat.one, Mat.one⟩⟩ : NRep ℤ String).eqv ⟨"a", ⟨[], fun _ _ => 1, Mat.one⟩⟩ :=
  ⟨rfl, fun _ h => absurd h (Nat.not_lt_zero _), rfl⟩

end E2
