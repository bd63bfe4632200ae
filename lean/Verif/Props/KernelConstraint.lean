import Verif.Lemmas.Kernels
import Verif.Lemmas.Restrict
import Verif.Props.Irreps
import Verif.Props.GroupLaws

/-!
# C15, C16, C17, C18: the basis kernels satisfy the kernel constraint
-/

set_option linter.unusedSimpArgs false

namespace E2

open Finset Mat Real

/-! ### The irreps as functions of (flip, angle) -/

theorem Cyclic.invOk {N : ℕ} (hN : 0 < N) : (Cyclic.grp N).InvOk := fun g hg =>
  ⟨(Cyclic.lawful hN).inv_mem g hg, (Cyclic.lawful hN).op_inv g hg⟩

theorem Dihedral.invOk {N : ℕ} (hN : 0 < N) : (Dihedral.grp N).InvOk := fun g hg =>
  ⟨(Dihedral.lawful hN).inv_mem g hg, (Dihedral.lawful hN).op_inv g hg⟩

theorem SO2.invOk : SO2.grp.InvOk := fun g _ => by
  refine ⟨trivial, ?_⟩
  simp only [SO2.grp, SO2.combine, SO2.inverse]
  obtain ⟨n, hn⟩ := fmod_eq_add (-g) (2 * π)
  rw [hn]
  have : g + (-g + n * (2 * π)) = n * (2 * π) := by ring
  rw [this]
  simp [fmod, Real.pi_ne_zero]
  ring

theorem O2.invOk : O2.grp.InvOk := fun g hg => by
  refine ⟨hg, ?_⟩
  rcases hg with h | h <;> simp [O2.grp, O2.combine, O2.inverse, h]

theorem Cyclic.irrep_freq {N k : ℕ} {r : Irrep ℤ} (h : Cyclic.irrep N k = some r) : r.freq = k := by
  unfold Cyclic.irrep at h
  split_ifs at h <;> cases h <;> rfl

/-- The pair (flip, angle) of an element of `C_N`. -/
noncomputable def Cyclic.pair (N : ℕ) (g : ℤ) : ℤ × ℝ := (0, g * (2 * π / N))

theorem Cyclic.irrepAt {N k : ℕ} (hN : 0 < N) {r : Irrep ℤ} (h : Cyclic.irrep N k = some r) (g : ℤ) :
    IrrepAt r.size (r.mat g) k 0 (Cyclic.pair N g).1 (Cyclic.pair N g).2 := by
  have hs := Cyclic.irrep_size h
  by_cases h0 : k = 0 ∨ 2 * k = N
  · rw [if_pos h0] at hs
    refine Or.inr ⟨hs, ?_, ?_⟩
    · rw [Cyclic.irrep_mat1 h h0]
      simp [m1, Cyclic.pair, _root_.mul_assoc]
    · exact Cyclic.sin_half hN h0 g
  · rw [if_neg h0] at hs
    refine Or.inl ⟨hs, ?_⟩
    rw [Cyclic.irrep_mat2 h h0]
    simp only [Cyclic.pair, psichi_zero]
    exact MEq.refl _

/-- The pair (flip, angle) of an element of `D_N`. -/
noncomputable def Dihedral.pair (N : ℕ) (g : ℤ × ℤ) : ℤ × ℝ := (g.1, g.2 * (2 * π / N))

theorem Dihedral.irrepAt {N j k : ℕ} (hN : 0 < N) {r : Irrep (ℤ × ℤ)} (h : Dihedral.irrep N j k = some r) (g : ℤ × ℤ) :
    IrrepAt r.size (r.mat g) k j (Dihedral.pair N g).1 (Dihedral.pair N g).2 := by
  have hs := Dihedral.irrep_size h
  have hj := (Dihedral.irrep_isSome N j k).1 (by simp [h])
  by_cases h0 : k = 0 ∨ 2 * k = N
  · rw [if_pos h0] at hs
    refine Or.inr ⟨hs, ?_, ?_⟩
    · rw [Dihedral.irrep_mat1 h h0]
      have e : (j = 1 ∧ g.1 ≠ 0) ↔ (g.1 ≠ 0 ∧ j ≠ 0) := by
        rcases hj.2 with h | h <;> simp [h]
      simp only [m1_00, Dihedral.pair, _root_.mul_assoc]
      rw [_root_.mul_comm]
      congr 1
      exact if_congr e rfl rfl
    · exact Cyclic.sin_half hN h0 g.2
  · rw [if_neg h0] at hs
    refine Or.inl ⟨hs, ?_⟩
    rw [(Dihedral.irrep_mat2 h h0).2]
    exact MEq.refl _

theorem SO2.irrepAt (k : ℕ) (g : ℝ) : IrrepAt (SO2.irrep k).size ((SO2.irrep k).mat g) k 0 0 g := by
  unfold SO2.irrep
  split_ifs with h
  · exact Or.inr ⟨rfl, by simp [h, m1], by simp [h]⟩
  · refine Or.inl ⟨rfl, ?_⟩
    simp only [psichi_zero]
    exact MEq.refl _

theorem O2.irrepAt {j k : ℕ} {r : Irrep (ℤ × ℝ)} (h : O2.irrep j k = some r) (g : ℤ × ℝ) :
    IrrepAt r.size (r.mat g) k j g.1 g.2 := by
  unfold O2.irrep at h
  split_ifs at h with h1 h2 h3 h4
  · cases h
    exact Or.inr ⟨rfl, by simp [h2, h3, m1], by simp [h3]⟩
  · cases h
    have : j = 1 := by omega
    exact Or.inr ⟨rfl, by simp [h4, this, m1], by simp [h4]⟩
  · cases h
    exact Or.inl ⟨rfl, MEq.refl _⟩

/-- The irreps of `C_2` as irreps of the reflection group. -/
theorem Cyclic.irrepAt_flip {k : ℕ} {r : Irrep ℤ} (h : Cyclic.irrep 2 k = some r) {g : ℤ} (hg : g = 0 ∨ g = 1) :
    r.size = 1 ∧ (k = 0 ∨ k = 1) ∧ IrrepAt r.size (r.mat g) 0 k g 0 := by
  have hk : k = 0 ∨ k = 1 := by
    unfold Cyclic.irrep at h
    rw [Cyclic.order_eq] at h
    split_ifs at h <;> omega
  have h0 : k = 0 ∨ 2 * k = 2 := by omega
  have hs := Cyclic.irrep_size h
  rw [if_pos h0] at hs
  refine ⟨hs, hk, Or.inr ⟨hs, ?_, by simp⟩⟩
  rw [Cyclic.irrep_mat1 h h0]
  rcases hk with rfl | rfl <;> rcases hg with rfl | rfl <;> simp [m1]

/-! ### SO(2) -/

/-- **C15.** For every pair of irreps of SO(2), the basis is built and each of its elements, with any radial profile, satisfies
the kernel constraint for all rotations, at all points of the plane. -/
theorem c15_so2_kernel_constraint (n m : ℕ) :
    ∃ l, contBasis (SO2.irrep n) (SO2.irrep m) = some l ∧ ∀ e ∈ l, ∀ radial : ℝ → ℝ,
      KernelConstraint SO2.grp rot (SO2.irrep m).size (SO2.irrep n).size (SO2.irrep m).mat (SO2.irrep n).mat
        (polar radial (angSample 0 (SO2.irrep m).size (SO2.irrep n).size e)) := by
  have hn := c05_so2_irreps n
  have hm := c05_so2_irreps m
  have hbuild : ∃ l, contBasis (SO2.irrep n) (SO2.irrep m) = some l ∧ ∀ e ∈ l, ∀ α,
      ElemOk (SO2.irrep m).size (SO2.irrep n).size m n 0 0 e 0 α := by
    have fn := hn.2.2.2.1
    have fm := hm.2.2.2.1
    have sn := hn.2.2.1
    have sm := hm.2.2.1
    unfold contBasis
    simp only [fn, fm]
    by_cases h0 : n = 0 <;> by_cases h1 : m = 0
    · rw [if_pos h0] at sn
      rw [if_pos h1] at sm
      simp only [sn, sm, h0, h1]
      refine ⟨_, rfl, ?_⟩
      intro e he α
      simp only [List.mem_map, List.mem_filter] at he
      obtain ⟨γ, -, rfl⟩ := he
      exact Or.inr (Or.inr (Or.inr ⟨rfl, rfl, ⟨0, by simp⟩, Or.inl rfl⟩))
    · rw [if_pos h0] at sn
      rw [if_neg h1] at sm
      simp only [sn, sm, h0]
      refine ⟨_, rfl, ?_⟩
      intro e he α
      simp only [List.mem_map] at he
      obtain ⟨γ, -, rfl⟩ := he
      exact Or.inr (Or.inr (Or.inl ⟨rfl, rfl, ⟨0, by push_cast; ring⟩, Or.inl rfl⟩))
    · rw [if_neg h0] at sn
      rw [if_pos h1] at sm
      simp only [sn, sm, h1]
      refine ⟨_, rfl, ?_⟩
      intro e he α
      simp only [List.mem_map] at he
      obtain ⟨γ, -, rfl⟩ := he
      exact Or.inr (Or.inl ⟨rfl, rfl, ⟨0, by push_cast; ring⟩, Or.inl rfl⟩)
    · rw [if_neg h0] at sn
      rw [if_neg h1] at sm
      simp only [sn, sm]
      refine ⟨_, rfl, ?_⟩
      intro e he α
      simp only [List.mem_flatMap, List.mem_map, List.mem_cons, List.not_mem_nil, or_false] at he
      obtain ⟨γ, -, s, hs, rfl⟩ := he
      refine Or.inl ⟨rfl, rfl, hs, ⟨0, ?_⟩, Or.inl rfl⟩
      rcases hs with rfl | rfl <;> simp [sg]
  obtain ⟨l, h1, h2⟩ := hbuild
  refine ⟨l, h1, fun e he radial => ?_⟩
  have := polar_constraint SO2.invOk (fun g => ((0 : ℤ), g)) (m := m) (n := n) (fo := 0) (fi := 0) hn.1.toIsRep
    (fun g _ => Or.inl rfl) (fun g _ => SO2.irrepAt n g) (ρo := (SO2.irrep m).mat) (fun g _ => SO2.irrepAt m g)
    (fun g _ => h2 e he g) 0 radial
  intro g hg p
  have := this g hg p
  simp only [planeAct_rot] at this
  exact this

/-- Between two irreps of frequencies 1 and 2 there are four kernels, two of frequency 1 and two of frequency 3. -/
example : ∃ l, contBasis (SO2.irrep 1) (SO2.irrep 2) = some l ∧ l.map AngElem.mu = [1, 3, 1, 3] := by
  refine ⟨_, by simp [contBasis, SO2.irrep]; rfl, ?_⟩
  simp

/-! ### C_N -/

/-- Frequencies congruent modulo `N` agree on the rotations of `C_N`. -/
theorem freq_angle {N : ℕ} (hN : 0 < N) (k t g : ℤ) :
    ((k + t * N : ℤ) : ℝ) * (g * (2 * π / N)) = k * (g * (2 * π / N)) + ((t * g : ℤ) : ℝ) * (2 * π) := by
  have : (N : ℝ) ≠ 0 := by positivity
  push_cast
  field_simp

/-- **C16.** For every `N ≥ 1`, every pair of irreps of `C_N` and every bound on frequencies or offsets, the basis is built
and each of its elements, with any radial profile, satisfies the kernel constraint for the rotations by `2πg/N`. -/
theorem c16_cyclic_kernel_constraint (N : ℕ) (hN : 0 < N) (n m : ℕ) (ri ro : Irrep ℤ) (hi : Cyclic.irrep N n = some ri)
    (ho : Cyclic.irrep N m = some ro) (maxFreq maxOff : Option ℕ) (hb : ¬ (maxFreq = none ∧ maxOff = none)) :
    ∃ l, rotBasis N ri ro maxFreq maxOff = some l ∧ ∀ e ∈ l, ∀ radial : ℝ → ℝ,
      KernelConstraint (Cyclic.grp N) (fun g => rot (g * (2 * π / N))) ro.size ri.size ro.mat ri.mat
        (polar radial (angSample 0 ro.size ri.size e)) := by
  have fn := Cyclic.irrep_freq hi
  have fm := Cyclic.irrep_freq ho
  have sn := Cyclic.irrep_size hi
  have sm := Cyclic.irrep_size ho
  have hN' : (0 : ℤ) < N := by exact_mod_cast hN
  have hbuild : ∃ l, rotBasis N ri ro maxFreq maxOff = some l ∧ ∀ e ∈ l, ∀ g : ℤ,
      ElemOk ro.size ri.size m n 0 0 e 0 (g * (2 * π / N)) := by
    have half : ∀ k : ℕ, (k = 0 ∨ 2 * k = N) → ((k : ℤ) = 0 ∨ ((k : ℤ) = (N / 2 : ℕ) ∧ N % 2 = 0)) := by
      intro k hk; omega
    unfold rotBasis
    simp only [fn, fm]
    rw [if_neg hb]
    by_cases h0 : n = 0 ∨ 2 * n = N <;> by_cases h1 : m = 0 ∨ 2 * m = N
    · rw [if_pos h0] at sn
      rw [if_pos h1] at sm
      rw [if_neg (by omega), if_neg (by omega), if_neg (by omega), if_pos ⟨sn, sm⟩,
        if_neg (by rintro (h | h); exacts [h (half n h0), h (half m h1)])]
      obtain ⟨l, hl⟩ := concatOpt_some (ls := ([(0 : ℝ), π / 2].map fun gamma =>
        offsetLoop ((m : ℤ) - n) N maxOff maxFreq true (fun mu => 0 < mu ∨ gamma = 0) gamma 0)) (by
          intro x hx
          obtain ⟨γ, -, rfl⟩ := List.mem_map.1 hx
          exact offsetLoop_some _ _ hN' hb _ _ _ _)
      refine ⟨l, hl, fun e he g => ?_⟩
      obtain ⟨l', h2, h3⟩ := concatOpt_mem hl he
      obtain ⟨γ, -, h4⟩ := List.mem_map.1 h2
      obtain ⟨-, -, h5, -⟩ := offsetLoop_mem h4 h3
      refine Or.inr (Or.inr (Or.inr ⟨sm, sn, ⟨e.t * g, ?_⟩, Or.inl rfl⟩))
      rw [h5, freq_angle hN]; push_cast; ring
    · rw [if_pos h0] at sn
      rw [if_neg h1] at sm
      rw [if_neg (by omega), if_neg (by omega), if_pos ⟨sn, sm⟩, if_neg (not_not.2 (half n h0))]
      obtain ⟨l, hl⟩ := concatOpt_some (ls := ([(0 : ℝ), π / 2].map fun gamma =>
        offsetLoop ((n : ℤ) + m) N maxOff maxFreq false (fun _ => True) gamma 0)) (by
          intro x hx
          obtain ⟨γ, -, rfl⟩ := List.mem_map.1 hx
          exact offsetLoop_some _ _ hN' hb _ _ _ _)
      refine ⟨l, hl, fun e he g => ?_⟩
      obtain ⟨l', h2, h3⟩ := concatOpt_mem hl he
      obtain ⟨γ, -, h4⟩ := List.mem_map.1 h2
      obtain ⟨-, -, h5, -⟩ := offsetLoop_mem h4 h3
      refine Or.inr (Or.inr (Or.inl ⟨sm, sn, ⟨e.t * g, ?_⟩, Or.inl rfl⟩))
      rw [h5, freq_angle hN]; push_cast; ring
    · rw [if_neg h0] at sn
      rw [if_pos h1] at sm
      rw [if_neg (by omega), if_pos ⟨sn, sm⟩, if_neg (not_not.2 (half m h1))]
      obtain ⟨l, hl⟩ := concatOpt_some (ls := ([(0 : ℝ), π / 2].map fun gamma =>
        offsetLoop ((n : ℤ) + m) N maxOff maxFreq false (fun _ => True) gamma 0)) (by
          intro x hx
          obtain ⟨γ, -, rfl⟩ := List.mem_map.1 hx
          exact offsetLoop_some _ _ hN' hb _ _ _ _)
      refine ⟨l, hl, fun e he g => ?_⟩
      obtain ⟨l', h2, h3⟩ := concatOpt_mem hl he
      obtain ⟨γ, -, h4⟩ := List.mem_map.1 h2
      obtain ⟨-, -, h5, -⟩ := offsetLoop_mem h4 h3
      refine Or.inr (Or.inl ⟨sm, sn, ⟨e.t * g, ?_⟩, Or.inl rfl⟩)
      rw [h5, freq_angle hN]; push_cast; ring
    · rw [if_neg h0] at sn
      rw [if_neg h1] at sm
      rw [if_pos ⟨sn, sm⟩]
      obtain ⟨l, hl⟩ := concatOpt_some (ls := ([(0 : ℝ), π / 2].flatMap fun gamma => [(0 : ℤ), 1].map fun s =>
        offsetLoop ((m : ℤ) - n * (if s = 0 then 1 else -1)) N maxOff maxFreq false (fun _ => True) gamma s)) (by
          intro x hx
          obtain ⟨γ, -, h⟩ := List.mem_flatMap.1 hx
          obtain ⟨s, -, rfl⟩ := List.mem_map.1 h
          exact offsetLoop_some _ _ hN' hb _ _ _ _)
      refine ⟨l, hl, fun e he g => ?_⟩
      obtain ⟨l', h2, h3⟩ := concatOpt_mem hl he
      obtain ⟨γ, -, h⟩ := List.mem_flatMap.1 h2
      obtain ⟨s, hs, h4⟩ := List.mem_map.1 h
      obtain ⟨-, h6, h5, -⟩ := offsetLoop_mem h4 h3
      have hs' : s = 0 ∨ s = 1 := by simpa using hs
      refine Or.inl ⟨sm, sn, by rw [h6]; exact hs', ⟨e.t * g, ?_⟩, Or.inl rfl⟩
      rw [h5, freq_angle hN, h6]
      rcases hs' with rfl | rfl <;> simp [sg]
  obtain ⟨l, h1, h2⟩ := hbuild
  refine ⟨l, h1, fun e he radial => ?_⟩
  have := polar_constraint (Cyclic.invOk hN) (Cyclic.pair N) (m := m) (n := n) (fo := 0) (fi := 0)
    (Cyclic.irrep_isOrthRep hN hi).toIsRep
    (fun g _ => Or.inl rfl) (fun g _ => Cyclic.irrepAt hN hi g) (ρo := ro.mat) (fun g _ => Cyclic.irrepAt hN ho g)
    (fun g _ => h2 e he g) 0 radial
  intro g hg p
  have := this g hg p
  simp only [Cyclic.pair, planeAct_rot] at this
  exact this

/-- For `C_4`, from the trivial representation to the irrep 1 with frequencies up to 3, there are kernels of frequencies 1 and -3. -/
example : ∃ ri ro l, Cyclic.irrep 4 0 = some ri ∧ Cyclic.irrep 4 1 = some ro ∧ rotBasis 4 ri ro (some 3) none = some l ∧
    l.map AngElem.mu = [-3, 1, -3, 1] := by
  obtain ⟨ri, hi⟩ := Cyclic.irrep_some (M := 4) (f := 0) (by norm_num)
  obtain ⟨ro, ho⟩ := Cyclic.irrep_some (M := 4) (f := 1) (by norm_num)
  have a := Cyclic.irrep_freq hi
  have b := Cyclic.irrep_freq ho
  have c := Cyclic.irrep_size hi
  have d := Cyclic.irrep_size ho
  norm_num at c d
  have hoff : offsets 1 4 none (some 3) false = some [-1, 0] := by
    simp only [offsets]
    norm_num
    decide
  refine ⟨ri, ro, [⟨-3, 0, 0, -1⟩, ⟨1, 0, 0, 0⟩, ⟨-3, π / 2, 0, -1⟩, ⟨1, π / 2, 0, 0⟩], hi, ho, ?_, rfl⟩
  simp only [rotBasis, a, b, c, d, offsetLoop]
  norm_num [hoff, freqOk, concatOpt]
  intro h; cases h

/-! ### Reflections -/

/-- **C17.** For every axis, every pair of irreps of the group `C_2` of a reflection and every bound on frequencies or offsets,
the basis is built and each of its elements satisfies the kernel constraint for the reflection with respect to the axis. -/
theorem c17_flip_kernel_constraint (axis : ℝ) (n m : ℕ) (ri ro : Irrep ℤ) (hi : Cyclic.irrep 2 n = some ri)
    (ho : Cyclic.irrep 2 m = some ro) (maxFreq maxOff : Option ℕ) (hb : ¬ (maxFreq = none ∧ maxOff = none)) :
    ∃ l, flipsBasis ri ro maxFreq maxOff = some l ∧ ∀ e ∈ l, ∀ radial : ℝ → ℝ,
      KernelConstraint (Cyclic.grp 2) (fun g p => if g = 0 then p else refl axis p) ro.size ri.size ro.mat ri.mat
        (polar radial (angSample axis ro.size ri.size e)) := by
  have fn := Cyclic.irrep_freq hi
  have fm := Cyclic.irrep_freq ho
  obtain ⟨sn, kn, -⟩ := Cyclic.irrepAt_flip hi (g := 0) (Or.inl rfl)
  obtain ⟨sm, km, -⟩ := Cyclic.irrepAt_flip ho (g := 0) (Or.inl rfl)
  have hbuild : ∃ l, flipsBasis ri ro maxFreq maxOff = some l ∧ ∀ e ∈ l, ∀ g : ℤ,
      ElemOk ro.size ri.size 0 0 m n e g 0 := by
    unfold flipsBasis
    simp only [fn, fm]
    rw [if_neg hb]
    obtain ⟨l, hl⟩ := offsetLoop_some 0 1 (by norm_num) hb true (fun mu => 0 < mu ∨ (((n + m) % 2 : ℕ) : ℝ) * π / 2 = 0)
      ((((n + m) % 2 : ℕ) : ℝ) * π / 2) 0
    refine ⟨l, hl, fun e he g => ?_⟩
    obtain ⟨h4, -, h5, -⟩ := offsetLoop_mem hl he
    refine Or.inr (Or.inr (Or.inr ⟨sm, sn, ⟨0, by simp⟩, Or.inr ⟨kn, km, ?_⟩⟩))
    rw [h4]
    rcases kn with rfl | rfl <;> rcases km with rfl | rfl <;> simp
  obtain ⟨l, h1, h2⟩ := hbuild
  have hel : ∀ g, (Cyclic.grp 2).isEl g → g = 0 ∨ g = 1 := by
    intro g hg
    have := (Cyclic.isElement_iff 2 g).1 hg
    omega
  refine ⟨l, h1, fun e he radial => ?_⟩
  have := polar_constraint (Cyclic.invOk (N := 2) (by norm_num)) (fun g => (g, (0 : ℝ))) (m := 0) (n := 0) (fo := m) (fi := n)
    (Cyclic.irrep_isOrthRep (by norm_num) hi).toIsRep
    hel (fun g hg => (Cyclic.irrepAt_flip hi (hel g hg)).2.2) (ρo := ro.mat) (fun g hg => (Cyclic.irrepAt_flip ho (hel g hg)).2.2)
    (fun g _ => h2 e he g) axis radial
  intro g hg p
  have := this g hg p
  simp only [planeAct, rot_zero] at this
  exact this

/-- From the trivial representation to the sign representation with frequencies up to 1 there is one kernel, of frequency 1 and phase `π/2`. -/
example : ∃ ri ro l, Cyclic.irrep 2 0 = some ri ∧ Cyclic.irrep 2 1 = some ro ∧ flipsBasis ri ro (some 1) none = some l ∧
    l = [⟨1, π / 2, 0, 1⟩] := by
  obtain ⟨ri, hi⟩ := Cyclic.irrep_some (M := 2) (f := 0) (by norm_num)
  obtain ⟨ro, ho⟩ := Cyclic.irrep_some (M := 2) (f := 1) (by norm_num)
  have a := Cyclic.irrep_freq hi
  have b := Cyclic.irrep_freq ho
  have hoff : offsets 0 1 none (some 1) true = some [0, 1] := by
    simp only [offsets]
    norm_num
    decide
  refine ⟨ri, ro, _, hi, ho, ?_, rfl⟩
  simp only [flipsBasis, a, b, offsetLoop]
  norm_num [hoff, freqOk, Real.pi_ne_zero]
  intro h; cases h

/-! ### D_N and O(2) -/

/-- **C18, D_N.** For every `N ≥ 1`, every axis, every pair of irreps of `D_N` and every bound on frequencies or offsets, the basis is
built and each of its elements satisfies the kernel constraint for the action of `(f, r)` by the reflection with respect to the
axis (if `f = 1`) followed by the rotation by `2πr/N`. -/
theorem c18_dihedral_kernel_constraint (N : ℕ) (hN : 0 < N) (axis : ℝ) (j n j' m : ℕ) (ri ro : Irrep (ℤ × ℤ))
    (hi : Dihedral.irrep N j n = some ri) (ho : Dihedral.irrep N j' m = some ro) (maxFreq maxOff : Option ℕ)
    (hb : ¬ (maxFreq = none ∧ maxOff = none)) :
    ∃ l, flipRotBasis N ri ro maxFreq maxOff = some l ∧ ∀ e ∈ l, ∀ radial : ℝ → ℝ,
      KernelConstraint (Dihedral.grp N) (fun g => planeAct axis (g.1, g.2 * (2 * π / N))) ro.size ri.size ro.mat ri.mat
        (polar radial (angSample axis ro.size ri.size e)) := by
  obtain ⟨fn, gn⟩ := Dihedral.irrep_freq hi
  obtain ⟨fm, gm⟩ := Dihedral.irrep_freq ho
  have sn := Dihedral.irrep_size hi
  have sm := Dihedral.irrep_size ho
  have jn := (Dihedral.irrep_isSome N j n).1 (by simp [hi])
  have jm := (Dihedral.irrep_isSome N j' m).1 (by simp [ho])
  have hN' : (0 : ℤ) < N := by exact_mod_cast hN
  have hbuild : ∃ l, flipRotBasis N ri ro maxFreq maxOff = some l ∧ ∀ e ∈ l, ∀ g : ℤ × ℤ,
      ElemOk ro.size ri.size m n j' j e g.1 (g.2 * (2 * π / N)) := by
    have half : ∀ k : ℕ, (k = 0 ∨ 2 * k = N) → ((k : ℤ) = 0 ∨ ((k : ℤ) = (N / 2 : ℕ) ∧ N % 2 = 0)) := by
      intro k hk; omega
    unfold flipRotBasis
    simp only [fn, fm, gn, gm]
    rw [if_neg hb]
    by_cases h0 : n = 0 ∨ 2 * n = N <;> by_cases h1 : m = 0 ∨ 2 * m = N
    · rw [if_pos h0] at sn
      rw [if_pos h1] at sm
      rw [if_neg (by omega), if_neg (by omega), if_neg (by omega), if_pos ⟨sn, sm⟩,
        if_neg (by rintro (h | h); exacts [h (half n h0), h (half m h1)])]
      obtain ⟨l, hl⟩ := offsetLoop_some ((m : ℤ) - n) N hN' hb true (fun mu => 0 < mu ∨ (((j + j') % 2 : ℕ) : ℝ) * π / 2 = 0)
        ((((j + j') % 2 : ℕ) : ℝ) * π / 2) 0
      refine ⟨l, hl, fun e he g => ?_⟩
      obtain ⟨h4, -, h5, -⟩ := offsetLoop_mem hl he
      refine Or.inr (Or.inr (Or.inr ⟨sm, sn, ⟨e.t * g.2, ?_⟩, Or.inr ⟨by omega, by omega, ?_⟩⟩))
      · rw [h5, freq_angle hN]; push_cast; ring
      · rw [h4]
        have a1 : j = 0 ∨ j = 1 := by omega
        have a2 : j' = 0 ∨ j' = 1 := by omega
        rcases a1 with rfl | rfl <;> rcases a2 with rfl | rfl <;> simp
    · rw [if_pos h0] at sn
      rw [if_neg h1] at sm
      rw [if_neg (by omega), if_neg (by omega), if_pos ⟨sn, sm⟩, if_neg (not_not.2 ⟨half n h0, by omega⟩)]
      obtain ⟨l, hl⟩ := offsetLoop_some ((n : ℤ) + m) N hN' hb false (fun _ => True) (j * π / 2) 0
      refine ⟨l, hl, fun e he g => ?_⟩
      obtain ⟨h4, -, h5, -⟩ := offsetLoop_mem hl he
      refine Or.inr (Or.inr (Or.inl ⟨sm, sn, ⟨e.t * g.2, ?_⟩, Or.inr ?_⟩))
      · rw [h5, freq_angle hN]; push_cast; ring
      · rw [h4]
        have a1 : j = 0 ∨ j = 1 := by omega
        rcases a1 with rfl | rfl <;> simp
    · rw [if_neg h0] at sn
      rw [if_pos h1] at sm
      rw [if_neg (by omega), if_pos ⟨sn, sm⟩, if_neg (not_not.2 ⟨half m h1, by omega⟩)]
      obtain ⟨l, hl⟩ := offsetLoop_some ((n : ℤ) + m) N hN' hb false (fun _ => True) (j' * π / 2) 0
      refine ⟨l, hl, fun e he g => ?_⟩
      obtain ⟨h4, -, h5, -⟩ := offsetLoop_mem hl he
      refine Or.inr (Or.inl ⟨sm, sn, ⟨e.t * g.2, ?_⟩, Or.inr ?_⟩)
      · rw [h5, freq_angle hN]; push_cast; ring
      · rw [h4]
        have a1 : j' = 0 ∨ j' = 1 := by omega
        rcases a1 with rfl | rfl <;> simp
    · rw [if_neg h0] at sn
      rw [if_neg h1] at sm
      rw [if_pos ⟨sn, sm⟩, if_neg (by omega)]
      obtain ⟨l, hl⟩ := concatOpt_some (ls := ([(0 : ℤ), 1].map fun s =>
        offsetLoop ((m : ℤ) - n * (if s = 0 then 1 else -1)) N maxOff maxFreq false (fun _ => True) 0 s)) (by
          intro x hx
          obtain ⟨s, -, rfl⟩ := List.mem_map.1 hx
          exact offsetLoop_some _ _ hN' hb _ _ _ _)
      refine ⟨l, hl, fun e he g => ?_⟩
      obtain ⟨l', h2, h3⟩ := concatOpt_mem hl he
      obtain ⟨s, hs, h4⟩ := List.mem_map.1 h2
      obtain ⟨h7, h6, h5, -⟩ := offsetLoop_mem h4 h3
      have hs' : s = 0 ∨ s = 1 := by simpa using hs
      refine Or.inl ⟨sm, sn, by rw [h6]; exact hs', ⟨e.t * g.2, ?_⟩, Or.inr h7⟩
      rw [h5, freq_angle hN, h6]
      rcases hs' with rfl | rfl <;> simp [sg]
  obtain ⟨l, h1, h2⟩ := hbuild
  refine ⟨l, h1, fun e he radial => ?_⟩
  exact polar_constraint (Dihedral.invOk hN) (Dihedral.pair N) (m := m) (n := n) (fo := j') (fi := j)
    (Dihedral.irrep_isOrthRep hN hi).toIsRep
    (fun g hg => Dihedral.isEl_flip hg) (fun g _ => Dihedral.irrepAt hN hi g) (ρo := ro.mat) (fun g _ => Dihedral.irrepAt hN ho g)
    (fun g _ => h2 e he g) axis radial

/-- **C18, O(2).** As for `D_N`, for all reflections and rotations. -/
theorem c18_o2_kernel_constraint (axis : ℝ) (j n j' m : ℕ) (ri ro : Irrep (ℤ × ℝ))
    (hi : O2.irrep j n = some ri) (ho : O2.irrep j' m = some ro) :
    ∃ l, flipContBasis ri ro = some l ∧ ∀ e ∈ l, ∀ radial : ℝ → ℝ,
      KernelConstraint O2.grp (planeAct axis) ro.size ri.size ro.mat ri.mat
        (polar radial (angSample axis ro.size ri.size e)) := by
  obtain ⟨hrep, -, sn, fn, gn, -⟩ := (c05_o2_irreps j n).2 ri hi
  obtain ⟨-, -, sm, fm, gm, -⟩ := (c05_o2_irreps j' m).2 ro ho
  have jn := (c05_o2_irreps j n).1.1 (by simp [hi])
  have jm := (c05_o2_irreps j' m).1.1 (by simp [ho])
  have hbuild : ∃ l, flipContBasis ri ro = some l ∧ ∀ e ∈ l, ∀ (ε : ℤ) (α : ℝ), ElemOk ro.size ri.size m n j' j e ε α := by
    unfold flipContBasis
    simp only [fn, fm, gn, gm]
    by_cases h0 : n = 0 <;> by_cases h1 : m = 0
    · rw [if_pos h0] at sn
      rw [if_pos h1] at sm
      rw [if_neg (by omega), if_neg (by omega), if_neg (by omega), if_pos ⟨sn, sm⟩, if_neg (by simp [h0, h1])]
      refine ⟨_, rfl, fun e he ε α => ?_⟩
      have he' : e = ⟨(m : ℤ) - n, (((j + j') % 2 : ℕ) : ℝ) * π / 2, 0, 0⟩ := by
        split_ifs at he
        · simpa using he
        · simp at he
      subst he'
      refine Or.inr (Or.inr (Or.inr ⟨sm, sn, ⟨0, by simp⟩, Or.inr ⟨by omega, by omega, ?_⟩⟩))
      have a1 : j = 0 ∨ j = 1 := by omega
      have a2 : j' = 0 ∨ j' = 1 := by omega
      rcases a1 with rfl | rfl <;> rcases a2 with rfl | rfl <;> simp
    · rw [if_pos h0] at sn
      rw [if_neg h1] at sm
      rw [if_neg (by omega), if_neg (by omega), if_pos ⟨sn, sm⟩, if_neg (by omega)]
      refine ⟨_, rfl, fun e he ε α => ?_⟩
      rw [List.mem_singleton] at he
      subst he
      refine Or.inr (Or.inr (Or.inl ⟨sm, sn, ⟨0, by simp⟩, Or.inr ?_⟩))
      have a1 : j = 0 ∨ j = 1 := by omega
      rcases a1 with rfl | rfl <;> simp
    · rw [if_neg h0] at sn
      rw [if_pos h1] at sm
      rw [if_neg (by omega), if_pos ⟨sn, sm⟩, if_neg (by omega)]
      refine ⟨_, rfl, fun e he ε α => ?_⟩
      rw [List.mem_singleton] at he
      subst he
      refine Or.inr (Or.inl ⟨sm, sn, ⟨0, by simp⟩, Or.inr ?_⟩)
      have a1 : j' = 0 ∨ j' = 1 := by omega
      rcases a1 with rfl | rfl <;> simp
    · rw [if_neg h0] at sn
      rw [if_neg h1] at sm
      rw [if_pos ⟨sn, sm⟩, if_neg (by omega)]
      refine ⟨_, rfl, fun e he ε α => ?_⟩
      obtain ⟨s, hs, rfl⟩ := List.mem_map.1 he
      have hs' : s = 0 ∨ s = 1 := by simpa using hs
      refine Or.inl ⟨sm, sn, hs', ⟨0, ?_⟩, Or.inr rfl⟩
      rcases hs' with rfl | rfl <;> simp [sg]
  obtain ⟨l, h1, h2⟩ := hbuild
  refine ⟨l, h1, fun e he radial => ?_⟩
  exact polar_constraint O2.invOk id (m := m) (n := n) (fo := j') (fi := j) hrep.toIsRep
    (fun g hg => hg) (fun g _ => O2.irrepAt hi g) (ρo := ro.mat) (fun g _ => O2.irrepAt ho g)
    (fun g _ => h2 e he g.1 g.2) axis radial

/-- Between the irreps of frequencies 1 and 2 of O(2) there are two kernels, of frequencies 1 and 3. -/
example : ∃ ri ro l, O2.irrep 1 1 = some ri ∧ O2.irrep 1 2 = some ro ∧ flipContBasis ri ro = some l ∧
    l.map AngElem.mu = [1, 3] := by
  refine ⟨_, _, [⟨1, 0, 0, 0⟩, ⟨3, 0, 1, 0⟩], rfl, rfl, ?_, rfl⟩
  simp only [flipContBasis]
  norm_num

end E2
