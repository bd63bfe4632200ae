import Verif.Examples.Common
import Verif.Props.Factory
import Verif.Props.SpaceRestrict
import Verif.Props.Shapes
import Verif.Props.Sequential
import Verif.Props.FiniteDiff
import Verif.Props.TrainEval
import Verif.Props.Hash
import Verif.Props.Image
import Verif.Props.Rect
import Verif.Props.RectPool
import Verif.Props.Checkpoint
import Verif.Props.Independence
import Verif.Props.Caches
import Verif.Props.TutorialNet
import Verif.Props.WideResNet
import Verif.Props.WideResNetBuilds
import Verif.Props.VectorField
import Verif.Props.QuotientDihedral
import Verif.Props.InducedO2
import Verif.Props.RepNames
import Verif.Props.StoredFilters
import Verif.Props.Init
import Verif.Props.R2Diffop

/-!
# Concrete cases for groups, spaces, shapes, checkpoints and networks

Each theorem is applied to a case which meets its hypotheses.  `c45_formula`, `c45_action` and `c94_formula` are applied to the spaces of `c45_spaces` and `c94_spaces`.
-/

namespace E2

open Mat Real

/-! ### The factory of groups (C43) -/

section
open Factory

example (h' : List Op) := c43_cyclic_same [.so2Group 1, .construct .cyclic 4] h' 4 2 (by decide)
example (h' : List Op) := c43_cyclic_object [.so2Group 1, .construct .cyclic 4] h' 4
example := c43_cyclic_distinct [.so2Group 1] [.dihedralGroup 4] 4 4 1 (by decide) (by decide)
example (h' : List Op) := c43_dihedral_same [.so2Group 1] h' 4 1 (by decide)
example (h' : List Op) := c43_dihedral_object [.so2Group 1] h' 4
example (h' : List Op) := c43_so2_same [.cyclicGroup 3] h' 2 5 1 (by decide)
example (h' : List Op) := c43_so2_object [.cyclicGroup 3] h' 2 1 (by decide)
example := c43_so2_succeeds [.so2Group 2] (-1)
example (h' : List Op) := c43_monotone [.so2Group 1] h' 0 _ rfl
example (h' : List Op) := c43_o2_same [.cyclicGroup 3] h' 2 5 1 (by decide)
example (h' : List Op) := c43_o2_object [.cyclicGroup 3] h' 2 1 (by decide)
example := c43_o2_succeeds [.o2Group 2] (-1)

end

/-! ### Restriction of spaces (C44, C51) -/

section
variable (interp : ℝ → Img → Img) (hp : Periodic interp)

example := c44_trivial 1 _ rfl
include hp in
example := c44_so2 interp hp 4 _ rfl
include hp in
example := c44_flip interp hp (π / 2) 1 _ rfl
include hp in
example := c44_flipRot interp hp 12 (by norm_num) (π / 2) (some 2) 3 _ rfl
include hp in
example := c44_o2 interp hp (π / 2) (some 1) (-1) ⟨ℤ × ℝ, o2Space interp (newAxis (π / 2) 1), fun e => (e.1, e.2 + e.1 * 1)⟩ (by simp [o2Restrict, O2.subgroup])
include hp in
/-- `c44_field`: the restriction of SO(2) to C_4 and the representation of frequency 1. -/
example (n : ℕ) (x : Fmap) (r) (hr : so2Restrict interp 4 = some r) (o : ℕ) (ho : o < 2) (e : r.El') (he : r.sub.G.isEl e) :=
  c44_field (c44_so2 interp hp 4 r hr) 2 (SO2.irrep 1).mat (fun e => (SO2.irrep 1).mat (r.parent e)) e he (fun _ _ _ _ => rfl) n x o ho

example := c51_equal_partial (.flipRot 4 0) (.flipRot 4 0) (by simp [SpaceD.eq, SpaceD.cls, SpaceD.group]) rfl
example := c51_distinct (.flipRot 4 0) (.flipRot 4 1) (by simp [SpaceD.eq, SpaceD.cls, SpaceD.group])

end

/-! ### The action on images (C45, C94) -/

section
variable (interp : ℝ → Img → Img)

example := c45_spaces interp 8 (by norm_num) (π / 2)
example := c45_formula (rotSpace interp 8) (c45_spaces interp 8 (by norm_num) 0).2.1.1 2 (psi (π / 2) 1 0) 2
  ((Cyclic.isElement_iff 8 2).2 (by norm_num)) (show Quarter (((2 : ℤ) : ℝ) * (2 * π / (8 : ℕ))) from ⟨1, by push_cast; ring⟩) 5 1 3 (by norm_num) (by norm_num)
example (x : Fmap) := c45_action (so2Space interp) (c45_spaces interp 8 (by norm_num) 0).2.2.1.1 (c45_spaces interp 8 (by norm_num) 0).2.2.1.2 (SO2.irrep 3).size (SO2.irrep 3).mat
  (c05_so2_irreps 3).1.toIsRep 7 x

end

/-! ### Shapes (C40, C94) -/

example := c40_conv_count 3 8 2 5 2 2 (by norm_num) (by norm_num) ⟨4, 3, 17, 30⟩ ⟨4, 8, 7, 13⟩ (by decide)
example := c40_transposed_partial 1 1 1 0 3 1 (by norm_num) ⟨1, 1, 6, 6⟩ ⟨1, 1, 6, 6⟩ (by decide) (by decide)
example := c40_maxpool_floor 8 1 3 2 1 0 2 2 1 (by norm_num) (by norm_num) ⟨4, 8, 17, 30⟩ ⟨4, 8, 9, 15⟩ (by decide)
example := c40_maxpool_ceil_partial 1 1 3 2 1 0 2 2 1 (by norm_num) (by norm_num) (by norm_num) (by norm_num) ⟨1, 1, 8, 7⟩ ⟨1, 1, 5, 4⟩ (by decide)
example := c40_normpool_floor 8 1 3 2 1 0 2 2 1 (by norm_num) (by norm_num) ⟨4, 8, 17, 30⟩ ⟨4, 8, 9, 15⟩ (by decide)
example := c40_avgpool_antialiased 8 5 2 2 2 2 (by norm_num) ⟨4, 8, 17, 30⟩ ⟨4, 8, 9, 15⟩ (by decide)
example := c40_maxpool_antialiased_partial 1 5 3 2 3 2 (by norm_num) (by norm_num) (by norm_num) ⟨1, 1, 9, 8⟩ ⟨1, 1, 4, 3⟩ (by decide)
example := c40_adaptive_wrong 3 2 4 ⟨4, 3, 17, 30⟩ ⟨4, 3, 2, 4⟩ (by decide)
example := c40_merge ⟨4, 3, 17, 30⟩ [⟨4, 5, 17, 30⟩, ⟨4, 1, 17, 30⟩] (by simp)
example := c94_tuple_wrong 9 7 2 1 3 1 11 7 9 9 (by decide) (by decide) (by decide) (by decide)
example (x : Img) := c94_maxpool_window 3 2 2 1 1 0 1 1 9 7 x 0 0 ⟨1, by norm_num, 0, by norm_num, 0, by norm_num, 0, by norm_num, by norm_num, by norm_num⟩

/-! ### Finite differences (C48, C49, C65) -/

/-- `c48_reflection_wrong`, `c65_flip_wrong`: the coefficients of finite differences exist. -/
example : ∃ fd, FDSpec fd := FDSpec.exists
example := c49_required_points 3 2 (by norm_num)
example := c49_largest_order_partial 7 2 (by norm_num) (by norm_num)
example := c49_largest_order_wrong 4 (by norm_num) (by norm_num)
example := c65_kernel_size 3 2 (by norm_num) (by norm_num)
example := c65_maximum_order 7 2 (by norm_num) (by norm_num)

/-! ### Networks (C41, C74, C87) -/

section
variable {T X S : Type} [DecidableEq T]

example (m m' : EMod T X S) (_ : m.outTy = m'.inTy) := c41_built [(0, m), (1, m')] (by simp)
example (m m' : EMod T X S) := c41_built_args (K := ℕ) id Function.injective_id [m, m']

end

example (comp : Comps) (hc : CompsOk comp) := c74_builds hc ⟨16, 8, 0.3, 8, 3, true, true, 2⟩

/-- `c74_group`, `c74_named`: one of the networks of the article. -/
example : ∃ comp a v net, CompsOk comp ∧ wideResNet comp a v = some net ∧ net.S3.s = standardSpace a.f a.left := by
  obtain ⟨comp, hc⟩ := exists_comps
  obtain ⟨v, net, h⟩ := (c74_named hc true).1
  exact ⟨comp, _, v, net, hc, h, c74_group h⟩

/-- `c74_invariant_partial`, `c74_pictures_partial`: a network for images of 33 pixels. -/
example {B : Type} [Fintype B] (interp : ℝ → Img → Img) (hp : Periodic interp) (x : List (Pix B 33 → ℝ)) (hx : x.length = 3) :
    ∃ comp a v net, wideResNet comp a v = some net ∧ ∃ y, ∀ junk : ℕ → ℕ → ℕ → Junk B, (∀ i j k, JunkOk (junk i j k)) → net.forward junk x = some y := by
  obtain ⟨comp, hc⟩ := exists_comps
  obtain ⟨v, net, h⟩ := wide_example comp 8 (by norm_num) (by norm_num) true
  obtain ⟨y, hy, -⟩ := c74_invariant_partial interp hp hc h (by norm_num) (by norm_num) (q := 8) (by norm_num) x hx
  have := c74_pictures_partial hc h (by norm_num) (by norm_num) (q := 8) (by norm_num) x hx
  exact ⟨comp, _, v, net, h, y, hy⟩

/-- `c87_invariant`, `c87_right_angles`, `c87_refused`: the network of the tutorial. -/
example {B : Type} [Fintype B] (interp : ℝ → Img → Img) (x : Pix B 29 → ℝ) (x' : Pix B 28 → ℝ) (junk : ℕ → ℕ → Junk B) :
    ∃ v net, tutorialNet 8 false v = some net ∧ net.S.s = .rot 8 ∧
      (∃ y, ∀ junk : ℕ → ℕ → Junk B, (∀ i j, JunkOk (junk i j)) → net.forward junk [x] = some y ∧ net.forward junk [fun q => x (q.1, q.2.2, q.2.1.rev)] = some y) ∧
      net.forward junk [x'] = none := by
  obtain ⟨d, -, h⟩ := c87_builds (N := 8) (by norm_num)
  let b : ℕ → BlockVals := fun n => ⟨List.replicate n 1, ⟨none, 1, fun _ => 1, fun _ => 0, ⟨0, fun _ => (0, 1)⟩⟩⟩
  obtain ⟨net, hnet⟩ := Option.isSome_iff_exists.1 ((h false ⟨b (d 0), b (d 1), b (d 2), b (d 3), b (d 4), b (d 5),
    ⟨fun _ _ => 1, fun _ => 0, 1, fun _ => 1, fun _ => 0, fun _ => 0, fun _ => 1, fun _ _ => 1, fun _ => 0⟩⟩).2 (by simp [b]))
  obtain ⟨h1, -⟩ := c87_invariant interp (by norm_num) hnet x
  obtain ⟨y, hy⟩ := c87_right_angles hnet x
  exact ⟨_, net, hnet, h1, ⟨y, fun junk hj => ⟨(hy junk hj).1, (hy junk hj).2.1⟩⟩, c87_refused (by norm_num) hnet [x'] (by simp) junk⟩

/-! ### Training, checkpoints and caches (C27, C53, C89, C90) -/

example := c27_training (fun w : ℕ => 10 * w) (fun e x => e + x) 1 0 [.step 3, .eval, .train, .step 4] (by decide) 2
example := c27_evaluation (fun w : ℕ => 10 * w) (fun e x => e + x) 1 0 [.step 3] [.step 5, .forward 2, .eval] .eval (by decide) (by decide) (by decide)
example := c53_same_process (fun k : ℕ => k + 7) (fun _ => false) DCache.start 3 rfl rfl [.disc 4, .store, .load] (by simp)

section
open Ckpt
example := c89_training exWorld_fresh exWorld_fresh [(0, .assign fun _ => [(0, 7)]), (0, .eval)] [(1, .eval)] 0 1 (exWorld_same 0 1)
example := c90_calls_partial exWorld (i := 0) (j := 1) (by norm_num) [.eval, .train]
end

example := c90_shared (Q := ℕ) [(5, 0)] 1 7 [3, 4] [8] [4, 3] 3 (i := 0) (j := 1) rfl rfl

/-! ### Names and hashes (C91, C97) -/

example (hash : String × ℕ × ℕ × ℝ → ℤ) := c97_representation hash (⟨"a", ⟨[], Mat.one, Mat.one⟩⟩ : NRep ℤ String) ⟨"a", ⟨[], fun _ _ => 1, Mat.one⟩⟩
  ⟨rfl, fun _ h => absurd h (Nat.not_lt_zero _), rfl⟩
example (hash : SpaceName → ℤ) := c97_space_partial hash (.flip 0) (.flip 1) (by simp [SpaceD.eq, SpaceD.cls, SpaceD.group]) fun h => h.elim
example := c97_space_iff (.flipRot 4 0) (.flipRot 4 1) (by simp [SpaceD.eq, SpaceD.cls, SpaceD.group]) trivial
example (hash : SpaceName × List ℕ → ℤ) := c97_type_partial (R := ℕ) id hash (.flip 0, [1, 2]) (.flip 1, [1, 2]) (by simp [fieldTypeEq, SpaceD.eq, SpaceD.cls, SpaceD.group])
  fun h => h.elim
example := c91_names_wrong 4 (by norm_num) 1 2 (by norm_num) (by norm_num) (by norm_num)
example := c91_axis_wrong 4 (by norm_num) 0

/-! ### Induced representations (C13, C67), vector fields (C35), stored filters (C59) -/

/-- `c13_cyclic_induced`: C_4 induces to C_8. -/
example (ρ : Irrep ℤ) (r : Repr ℤ) (hρ : Cyclic.irrep 4 1 = some ρ) (hr : Cyclic.inducedRepr 8 4 1 = some r) (S : SubData ℤ ℤ) (hS : Cyclic.subData 8 4 = some S) :=
  c13_cyclic_induced 8 (by norm_num) 4 1 S ρ r hS hρ hr

example := c59_axis_wrong (fun _ => false) rfl [(1, 0), (0, 1)] (by simp)

/-- The position of the first greatest value. -/
theorem exArgmax : ∃ argmax : List ℝ → ℕ, IsArgmax argmax := by
  classical
  refine ⟨fun v => if h : ∃ i, ∃ hi : i < v.length, ∀ j (hj : j < v.length), v[j] ≤ v[i] then h.choose else 0, fun v hv => ?_⟩
  have h : ∃ i, ∃ hi : i < v.length, ∀ j (hj : j < v.length), v[j] ≤ v[i] := by
    obtain ⟨i, -, hi⟩ := Finset.exists_max_image (Finset.univ : Finset (Fin v.length)) (fun i => v[i]) ⟨⟨0, List.length_pos_iff.2 hv⟩, Finset.mem_univ _⟩
    exact ⟨i, i.2, fun j hj => hi ⟨j, hj⟩ (Finset.mem_univ _)⟩
  simp only [dif_pos h]
  exact ⟨h.choose_spec.choose, h.choose_spec.choose_spec⟩

/-- `c35_vectorfield_partial`: a field of the regular representation of C_4 whose first channel is the greatest. -/
example {P : Type} (mv : P → P) (x : P → ℝ) (hx : ∀ p, 0 < x p) :
    ∃ (argmax : List ℝ → ℕ) (ρ₁ : Irrep ℤ), IsArgmax argmax ∧ Cyclic.irrep 4 1 = some ρ₁ ∧ ∃ y, y.length = 2 ∧
      vectorField 4 ρ₁.size argmax 1 [x, fun _ => 0, fun _ => 0, fun _ => 0] = some y := by
  obtain ⟨argmax, ha⟩ := exArgmax
  obtain ⟨ρ₁, hρ, -⟩ := (c04_cyclic_irreps 4 (by norm_num) 1).1 (by norm_num)
  obtain ⟨r, -, hr, -⟩ := c12_cyclic_regular 4 (by norm_num)
  obtain ⟨y, h1, h2, h3, -⟩ := c35_vectorfield_partial 4 (by norm_num) hr hρ ha 1 ((Cyclic.isElement_iff 4 1).2 (by norm_num)) mv 1 (by norm_num)
    [x, fun _ => 0, fun _ => 0, fun _ => 0] rfl (by
      intro fld hf p
      simp only [List.replicate, chunks, List.mem_cons, List.not_mem_nil, or_false] at hf
      subst hf
      left
      refine ⟨0, by simp [fieldAt], fun j hj hj0 => ?_⟩
      simp only [fieldAt, List.take, List.map, List.length_cons, List.length_nil] at hj ⊢
      interval_cases j <;> simp_all)
  exact ⟨argmax, ρ₁, ha, hρ, y, by rw [h2, h1], h3⟩

example (argmax : List ℝ → ℕ) (ha : IsArgmax argmax) := c35_ties_false 4 (by norm_num) ha
example {P : Type} (ρ₁ : Irrep ℤ) (hρ : Cyclic.irrep 2 1 = some ρ₁) (argmax : List ℝ → ℕ) (a b : P → ℝ) := c35_c2_error hρ argmax 2 (by norm_num) [a, b, b, a] rfl

end E2
