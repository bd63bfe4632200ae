import Verif.Model.DefaultTest
import Verif.Props.SelfTest
import Verif.Props.NetTree

/-!
The self test which modules inherit (C108): for the finite groups it decides whether a module commutes with the action on images, whatever the interpolation
does, and networks pass it on the spaces whose action on the images is exact.
-/

namespace E2

open Mat

variable {El F A I K : Type}

/-- The specification: the module returns on `x` and on the transformed `x`, and the output is transformed in the same way. -/
def CommutesAt (Sp : Space El) (rep : F → Repr El) (run : El → Bool → ETensor F (Fin 3) → Option (ETensor F (Fin 3))) (g : El) (x : ETensor F (Fin 3)) : Prop :=
  ∃ y z, run g false x = some y ∧ run g true (x.act Sp rep g) = some z ∧ (y.act Sp rep g).plain = z.plain

theorem meanError_self (a : PTensor (Fin 3)) : a.meanError a = 0 := by simp [PTensor.meanError]

/-- One step of the test. -/
theorem defaultCheck_iff (Sp : Space El) (rep : F → Repr El) (els : List El) (run : El → Bool → ETensor F (Fin 3) → Option (ETensor F (Fin 3)))
    (x : ETensor F (Fin 3)) :
    (defaultCheck Sp rep els run x ≠ none ↔ ∀ g ∈ els, CommutesAt Sp rep run g x) ∧
      ∀ l, defaultCheck Sp rep els run x = some l → l = els.map fun g => (g, 0) := by
  induction els with
  | nil => simp [defaultCheck]
  | cons g els ih =>
    have hg : ∀ r, ((run g false x).bind fun y => (run g true (x.act Sp rep g)).bind fun z =>
        open Classical in if (y.act Sp rep g).plain = z.plain then some (g, (y.act Sp rep g).plain.meanError z.plain) else none) = some r ↔
        CommutesAt Sp rep run g x ∧ r = (g, 0) := by
      intro r
      simp only [Option.bind_eq_some_iff]
      constructor
      · rintro ⟨y, hy, z, hz, h⟩
        by_cases e : (y.act Sp rep g).plain = z.plain
        · rw [if_pos e, e, meanError_self] at h
          exact ⟨⟨y, z, hy, hz, e⟩, (Option.some.inj h).symm⟩
        · rw [if_neg e] at h
          exact absurd h (by simp)
      · rintro ⟨⟨y, z, hy, hz, e⟩, rfl⟩
        exact ⟨y, hy, z, hz, by rw [if_pos e, e, meanError_self]⟩
    have hstep : ∀ l, defaultCheck Sp rep (g :: els) run x = some l ↔
        CommutesAt Sp rep run g x ∧ ∃ l', defaultCheck Sp rep els run x = some l' ∧ l = (g, 0) :: l' := by
      intro l
      unfold defaultCheck
      rw [List.mapM_cons]
      simp only [Option.bind_eq_bind, Option.pure_def, Option.bind_eq_some_iff]
      constructor
      · rintro ⟨r, hr, l', hl', h⟩
        obtain ⟨h1, rfl⟩ := (hg r).1 (by simpa only [Option.bind_eq_some_iff] using hr)
        exact ⟨h1, l', hl', (Option.some.inj h).symm⟩
      · rintro ⟨h1, l', hl', rfl⟩
        exact ⟨(g, 0), by simpa only [Option.bind_eq_some_iff] using (hg (g, 0)).2 ⟨h1, rfl⟩, l', hl', rfl⟩
    constructor
    · rw [← Option.isSome_iff_ne_none, Option.isSome_iff_exists]
      simp only [hstep, List.forall_mem_cons]
      constructor
      · rintro ⟨l, h1, l', hl', -⟩
        exact ⟨h1, ih.1.1 (by rw [hl']; simp)⟩
      · rintro ⟨h1, h2⟩
        obtain ⟨l', hl'⟩ := Option.isSome_iff_exists.1 (Option.isSome_iff_ne_none.2 (ih.1.2 h2))
        exact ⟨_, h1, l', hl', rfl⟩
    · intro l hl
      obtain ⟨-, l', hl', rfl⟩ := (hstep l).1 hl
      rw [ih.2 l' hl', List.map_cons]

/-- **C108 for `C_N`**: a module passes the test on all minibatches exactly if it commutes with the whole group on all of them, and then all errors are 0. -/
theorem c108_cyclic (interp : ℝ → Img → Img) (N : ℕ) (rep : F → Repr ℤ) (run : ℤ → Bool → ETensor F (Fin 3) → Option (ETensor F (Fin 3)))
    (P : ETensor F (Fin 3) → Prop) :
    ((∀ x, P x → defaultCheck (rotSpace interp N) rep (Cyclic.testingElements N) run x ≠ none) ↔
      ∀ g, (Cyclic.grp N).isEl g → ∀ x, P x → CommutesAt (rotSpace interp N) rep run g x) ∧
    ∀ x l, defaultCheck (rotSpace interp N) rep (Cyclic.testingElements N) run x = some l → l = (Cyclic.testingElements N).map fun g => (g, 0) := by
  refine ⟨⟨fun h g hg x hx => ?_, fun h x hx => ?_⟩, fun x l hl => (defaultCheck_iff _ _ _ _ _).2 l hl⟩
  · exact (defaultCheck_iff _ _ _ _ _).1.1 (h x hx) g ((Cyclic.mem_testing g).2 hg)
  · exact (defaultCheck_iff _ _ _ _ _).1.2 fun g hg => h g ((Cyclic.mem_testing g).1 hg) x hx

/-- **C108 for `D_N`**. -/
theorem c108_dihedral (interp : ℝ → Img → Img) (N : ℕ) (axis : ℝ) (rep : F → Repr (ℤ × ℤ))
    (run : ℤ × ℤ → Bool → ETensor F (Fin 3) → Option (ETensor F (Fin 3))) (P : ETensor F (Fin 3) → Prop) :
    ((∀ x, P x → defaultCheck (flipRotSpace interp N axis) rep (Dihedral.testingElements N) run x ≠ none) ↔
      ∀ g, (Dihedral.grp N).isEl g → ∀ x, P x → CommutesAt (flipRotSpace interp N axis) rep run g x) ∧
    ∀ x l, defaultCheck (flipRotSpace interp N axis) rep (Dihedral.testingElements N) run x = some l →
      l = (Dihedral.testingElements N).map fun g => (g, 0) := by
  refine ⟨⟨fun h g hg x hx => ?_, fun h x hx => ?_⟩, fun x l hl => (defaultCheck_iff _ _ _ _ _).2 l hl⟩
  · exact (defaultCheck_iff _ _ _ _ _).1.1 (h x hx) g ((Dihedral.mem_testing g).2 hg)
  · exact (defaultCheck_iff _ _ _ _ _).1.2 fun g hg => h g ((Dihedral.mem_testing g).1 hg) x hx

/-- **C108, networks**: a network nested from the modules of the library passes the test on every minibatch, with all errors 0, if the tested elements act on the
images without interpolation. -/
theorem c108_network [LinearOrder F] [DecidableEq I] [LinearOrder K] {Sp : Space El} {rep : F → Repr El}
    {built : (F → F → List (A × (ℝ × ℝ → Mat))) → (A → I) → Prop} (hS : NetSpace Sp rep built)
    (net : NetMod F A I K) {m : ℕ} (hok : net.Ok Sp rep built 10 m) (junk₀ : List ℕ → (c n : ℕ) → List (Pix (Fin 3) n → ℝ)) (hj₀ : ∀ p, JunkOk (junk₀ p))
    (M : EMod (List F) (ETensor F (Fin 3)) (List Dim)) (hM : net.build rep junk₀ = some M) (els : List El) (hels : ∀ g ∈ els, Sp.G.isEl g ∧ Sp.grid g)
    (junk : El → Bool → List ℕ → (c n : ℕ) → List (Pix (Fin 3) n → ℝ)) (hj : ∀ g b p, JunkOk (junk g b p))
    (x : ETensor F (Fin 3)) (hn : x.n = 10) (hx : x.x.WF fun r => (rep r).size) (hxt : x.x.ty = M.inTy) :
    defaultCheck Sp rep els (fun g b => net.forward rep (junk g b)) x = some (els.map fun g => (g, 0)) := by
  obtain ⟨y, -, -, -, h4, h5⟩ := c102_network hS net hok junk₀ hj₀ M hM x hn hx hxt
  have hc := (defaultCheck_iff Sp rep els (fun g b => net.forward rep (junk g b)) x).1.2 fun g hg =>
    ⟨y, y.act Sp rep g, h4 _ (hj g false), h5 g (hels g hg).1 (hels g hg).2 _ (hj g true), rfl⟩
  obtain ⟨l, hl⟩ := Option.isSome_iff_exists.1 (Option.isSome_iff_ne_none.2 hc)
  rw [hl, (defaultCheck_iff _ _ _ _ _).2 l hl]

theorem quarter_of_dvd {N : ℕ} (hN : N ∣ 4) (g : ℤ) : Quarter (g * (2 * Real.pi / N)) := by
  obtain ⟨k, hk⟩ := hN
  have hN0 : (N : ℝ) ≠ 0 := by
    rintro h0
    rw [Nat.cast_eq_zero.1 h0, zero_mul] at hk
    omega
  have hk' : (4 : ℝ) = N * k := by exact_mod_cast hk
  refine ⟨g * k, ?_⟩
  push_cast
  have : (2 : ℝ) * Real.pi / N = k * (Real.pi / 2) := by
    rw [div_eq_iff hN0]
    linear_combination (Real.pi / 2) * hk'
  rw [this]
  ring

/-- **C108**: on the spaces with 1, 2 or 4 rotations all elements act on the images without interpolation. -/
theorem c108_right_angles (interp : ℝ → Img → Img) (N : ℕ) (hN : N ∣ 4) (g : ℤ) (hg : g ∈ Cyclic.testingElements N) :
    (rotSpace interp N).G.isEl g ∧ (rotSpace interp N).grid g :=
  ⟨(Cyclic.mem_testing g).1 hg, quarter_of_dvd hN g⟩

/-- **C108**: with reflections too, if twice the angle of the axis is a multiple of a right angle. -/
theorem c108_reflections (interp : ℝ → Img → Img) (N : ℕ) (hN : N ∣ 4) (axis : ℝ) (ha : Quarter (2 * axis)) (g : ℤ × ℤ) (hg : g ∈ Dihedral.testingElements N) :
    (flipRotSpace interp N axis).G.isEl g ∧ (flipRotSpace interp N axis).grid g := by
  refine ⟨(Dihedral.mem_testing g).1 hg, ?_⟩
  show Quarter (g.2 * (2 * Real.pi / N) + if g.1 = 0 then 0 else 2 * axis)
  obtain ⟨k, hk⟩ := quarter_of_dvd hN g.2
  obtain ⟨a, ha⟩ := ha
  split_ifs
  · exact ⟨k, by rw [hk, add_zero]⟩
  · exact ⟨k + a, by rw [hk, ha]; push_cast; ring⟩

/-- The space with four rotations and the horizontal axis. -/
example (interp : ℝ → Img → Img) : ∀ g ∈ Dihedral.testingElements 4, (flipRotSpace interp 4 0).G.isEl g ∧ (flipRotSpace interp 4 0).grid g :=
  c108_reflections interp 4 ⟨1, rfl⟩ 0 ⟨0, by simp⟩

end E2
