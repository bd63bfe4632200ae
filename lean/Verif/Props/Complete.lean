import Verif.Lemmas.Complete
import Verif.Props.KernelBasis

/-!
# C69: the kernel bases of the finite groups contain every kernel up to the maximum frequency

Specification: `KernelConstraint` (Props/KernelSpec.lean), `BandLimited` (Props/BandSpec.lean).
-/

set_option linter.unusedSimpArgs false

namespace E2

open Finset Mat Real

theorem offsetLoop_complete {k N : ℤ} (hN : 0 < N) {F : ℕ} {nonneg : Bool} {keep : ℤ → Prop} [DecidablePred keep]
    {gamma : ℝ} {s : ℤ} {l : List AngElem} (h : offsetLoop k N none (some F) nonneg keep gamma s = some l) {mu : ℤ} (h1 : N ∣ k - mu)
    (h2 : |mu| ≤ F) (h3 : nonneg = true → 0 ≤ mu) (h4 : keep mu) : ∃ t, (⟨mu, gamma, s, t⟩ : AngElem) ∈ l := by
  obtain ⟨ts, e1, -, e2⟩ := c14_offsets k N hN none F nonneg
  unfold offsetLoop at h
  rw [e1] at h
  simp only at h
  split_ifs at h
  cases h
  obtain ⟨t, ht, htm⟩ := List.mem_map.1 ((e2 mu).2 ⟨Int.modEq_iff_dvd.2 h1, h2, h3, by simp⟩)
  refine ⟨t, List.mem_map.2 ⟨t, List.mem_filter.2 ⟨ht, ?_⟩, ?_⟩⟩
  · rw [htm]; simpa using h4
  · rw [htm]

/-- On a circle, an element of the list with the same parameters has the same values. -/
theorem angMat_of_mem {so si : ℕ} {e : AngElem} {l : List AngElem} (h : ∃ t, (⟨e.mu, e.gamma, e.s, t⟩ : AngElem) ∈ l) :
    ∃ e' ∈ l, ∀ φ, angMat so si e' φ = angMat so si e φ := by
  obtain ⟨t, ht⟩ := h
  exact ⟨_, ht, fun φ => angMat_phase so si rfl rfl⟩

/-- The basis of `C_N` contains all elements of the right frequencies. -/
theorem rotBasis_complete {N : ℕ} (hN : 0 < N) {n m : ℕ} {ri ro : Irrep ℤ} (hi : Cyclic.irrep N n = some ri) (ho : Cyclic.irrep N m = some ro)
    {F : ℕ} {l : List AngElem} (hl : rotBasis N ri ro (some F) none = some l) {e : AngElem} (he : Atom ro.size ri.size F e)
    (hd : (N : ℤ) ∣ baseFreq ro.size ri.size m n e - e.mu) : ∃ t, (⟨e.mu, e.gamma, e.s, t⟩ : AngElem) ∈ l := by
  have fn := Cyclic.irrep_freq hi
  have fm := Cyclic.irrep_freq ho
  have hN' : (0 : ℤ) < N := by exact_mod_cast hN
  obtain ⟨⟨hγ, hs, h0, hpos⟩, hF⟩ := he
  unfold rotBasis at hl
  simp only [fn, fm] at hl
  rw [if_neg (by simp)] at hl
  split_ifs at hl with c1 c2 c3 c4 c5 c6 c7
  · -- shape (2, 2)
    simp only [List.flatMap_cons, List.flatMap_nil, List.map_cons, List.map_nil, List.append_nil, List.cons_append, List.nil_append] at hl
    obtain ⟨l1, l2, l3, l4, e1, e2, e3, e4, rfl⟩ := concatOpt_four hl
    rw [baseFreq, if_pos ⟨c1.2, c1.1⟩] at hd
    rcases hγ with hγ | hγ <;> rcases hs with hs | hs <;> rw [hγ, hs] <;> rw [hs] at hd
    · obtain ⟨t, ht⟩ := offsetLoop_complete hN' e1 (by simpa using hd) hF (by simp) trivial
      exact ⟨t, by simp [ht]⟩
    · obtain ⟨t, ht⟩ := offsetLoop_complete hN' e2 (by simpa using hd) hF (by simp) trivial
      exact ⟨t, by simp [ht]⟩
    · obtain ⟨t, ht⟩ := offsetLoop_complete hN' e3 (by simpa using hd) hF (by simp) trivial
      exact ⟨t, by simp [ht]⟩
    · obtain ⟨t, ht⟩ := offsetLoop_complete hN' e4 (by simpa using hd) hF (by simp) trivial
      exact ⟨t, by simp [ht]⟩
  · -- shape (1, 2)
    simp only [List.map_cons, List.map_nil] at hl
    obtain ⟨l1, l2, e1, e2, rfl⟩ := concatOpt_two hl
    rw [baseFreq, if_neg (by omega), if_neg (by omega)] at hd
    rw [h0 (by omega)]
    rcases hγ with hγ | hγ <;> rw [hγ]
    · obtain ⟨t, ht⟩ := offsetLoop_complete hN' e1 hd hF (by simp) trivial
      exact ⟨t, by simp [ht]⟩
    · obtain ⟨t, ht⟩ := offsetLoop_complete hN' e2 hd hF (by simp) trivial
      exact ⟨t, by simp [ht]⟩
  · -- shape (2, 1)
    simp only [List.map_cons, List.map_nil] at hl
    obtain ⟨l1, l2, e1, e2, rfl⟩ := concatOpt_two hl
    rw [baseFreq, if_neg (by omega), if_neg (by omega)] at hd
    rw [h0 (by omega)]
    rcases hγ with hγ | hγ <;> rw [hγ]
    · obtain ⟨t, ht⟩ := offsetLoop_complete hN' e1 hd hF (by simp) trivial
      exact ⟨t, by simp [ht]⟩
    · obtain ⟨t, ht⟩ := offsetLoop_complete hN' e2 hd hF (by simp) trivial
      exact ⟨t, by simp [ht]⟩
  · -- shape (1, 1)
    simp only [List.map_cons, List.map_nil] at hl
    obtain ⟨l1, l2, e1, e2, rfl⟩ := concatOpt_two hl
    rw [baseFreq, if_neg (by omega), if_pos ⟨by omega, by omega⟩] at hd
    rw [h0 (by omega)]
    obtain ⟨p1, p2⟩ := hpos (by omega) (by omega)
    rcases hγ with hγ | hγ <;> rw [hγ]
    · obtain ⟨t, ht⟩ := offsetLoop_complete hN' e1 hd hF (fun _ => p1) (Or.inr trivial)
      exact ⟨t, by simp [ht]⟩
    · have : e.mu ≠ 0 := fun h => by
        have := p2 h
        rw [hγ] at this
        have := Real.pi_pos
        linarith
      obtain ⟨t, ht⟩ := offsetLoop_complete hN' e2 hd hF (fun _ => p1) (Or.inl (by omega))
      exact ⟨t, by simp [ht]⟩

theorem pi_half_mul {k : ℕ} (hk : k = 0 ∨ k = 1) : (k : ℝ) * π / 2 = if k = 0 then 0 else π / 2 := by
  rcases hk with rfl | rfl <;> simp

/-- The basis of `D_N` contains all elements of the right frequencies and phase. -/
theorem flipRotBasis_complete {N : ℕ} (hN : 0 < N) {j n j' m : ℕ} {ri ro : Irrep (ℤ × ℤ)} (hi : Dihedral.irrep N j n = some ri)
    (ho : Dihedral.irrep N j' m = some ro) {F : ℕ} {l : List AngElem} (hl : flipRotBasis N ri ro (some F) none = some l) {e : AngElem}
    (he : Atom ro.size ri.size F e) (hd : (N : ℤ) ∣ baseFreq ro.size ri.size m n e - e.mu) (hg : e.gamma = flipGamma ro.size ri.size j' j) :
    ∃ t, (⟨e.mu, e.gamma, e.s, t⟩ : AngElem) ∈ l := by
  obtain ⟨fn, gn⟩ := Dihedral.irrep_freq hi
  obtain ⟨fm, gm⟩ := Dihedral.irrep_freq ho
  have jn := ((Dihedral.irrep_isSome N j n).1 (by simp [hi])).2
  have jm := ((Dihedral.irrep_isSome N j' m).1 (by simp [ho])).2
  have hN' : (0 : ℤ) < N := by exact_mod_cast hN
  have hpi : π / 2 ≠ 0 := by positivity
  obtain ⟨⟨hγ, hs, h0, hpos⟩, hF⟩ := he
  unfold flipRotBasis at hl
  simp only [fn, fm, gn, gm] at hl
  rw [if_neg (by simp)] at hl
  split_ifs at hl with c1 c2 c3 c4 c5 c6 c7
  · -- shape (2, 2)
    simp only [List.map_cons, List.map_nil] at hl
    obtain ⟨l1, l2, e1, e2, rfl⟩ := concatOpt_two hl
    rw [baseFreq, if_pos ⟨c1.2, c1.1⟩] at hd
    rw [flipGamma, if_pos ⟨c1.2, c1.1⟩] at hg
    rcases hs with hs | hs <;> rw [hg, hs] <;> rw [hs] at hd
    · obtain ⟨t, ht⟩ := offsetLoop_complete hN' e1 (by simpa using hd) hF (by simp) trivial
      exact ⟨t, by simp [ht]⟩
    · obtain ⟨t, ht⟩ := offsetLoop_complete hN' e2 (by simpa using hd) hF (by simp) trivial
      exact ⟨t, by simp [ht]⟩
  · -- shape (1, 2)
    rw [baseFreq, if_neg (by omega), if_neg (by omega)] at hd
    rw [flipGamma, if_neg (by omega), if_neg (by omega), if_pos (by omega)] at hg
    rw [h0 (by omega), hg, ← pi_half_mul (by omega)]
    exact offsetLoop_complete hN' hl hd hF (by simp) trivial
  · -- shape (2, 1)
    rw [baseFreq, if_neg (by omega), if_neg (by omega)] at hd
    rw [flipGamma, if_neg (by omega), if_neg (by omega), if_neg (by omega)] at hg
    rw [h0 (by omega), hg, ← pi_half_mul (by omega)]
    exact offsetLoop_complete hN' hl hd hF (by simp) trivial
  · -- shape (1, 1)
    rw [baseFreq, if_neg (by omega), if_pos ⟨by omega, by omega⟩] at hd
    rw [flipGamma, if_neg (by omega), if_pos ⟨by omega, by omega⟩] at hg
    obtain ⟨p1, p2⟩ := hpos (by omega) (by omega)
    have eg : e.gamma = (((j + j') % 2 : ℕ) : ℝ) * π / 2 := by
      rw [hg, pi_half_mul (by omega)]
      exact if_congr (by omega) rfl rfl
    rw [h0 (by omega), eg]
    refine offsetLoop_complete hN' hl hd hF (fun _ => p1) ?_
    rw [← eg]
    by_cases h : e.mu = 0
    · exact Or.inr (p2 h)
    · exact Or.inl (by omega)

/-- The basis of the reflection contains all elements of the right phase. -/
theorem flipsBasis_complete {n m : ℕ} {ri ro : Irrep ℤ} (hi : Cyclic.irrep 2 n = some ri) (ho : Cyclic.irrep 2 m = some ro)
    {F : ℕ} {l : List AngElem} (hl : flipsBasis ri ro (some F) none = some l) {e : AngElem} (he : Atom ro.size ri.size F e)
    (hg : e.gamma = flipGamma ro.size ri.size m n) : ∃ t, (⟨e.mu, e.gamma, e.s, t⟩ : AngElem) ∈ l := by
  have fn := Cyclic.irrep_freq hi
  have fm := Cyclic.irrep_freq ho
  obtain ⟨sn, kn, -⟩ := Cyclic.irrepAt_flip hi (g := 0) (Or.inl rfl)
  obtain ⟨sm, km, -⟩ := Cyclic.irrepAt_flip ho (g := 0) (Or.inl rfl)
  obtain ⟨⟨hγ, hs, h0, hpos⟩, hF⟩ := he
  unfold flipsBasis at hl
  simp only [fn, fm] at hl
  rw [if_neg (by simp)] at hl
  rw [flipGamma, if_neg (by omega), if_pos ⟨by omega, by omega⟩] at hg
  obtain ⟨p1, p2⟩ := hpos (by omega) (by omega)
  have eg : e.gamma = (((n + m) % 2 : ℕ) : ℝ) * π / 2 := by
    rw [hg, pi_half_mul (by omega)]
    exact if_congr (by omega) rfl rfl
  rw [h0 (by omega), eg]
  refine offsetLoop_complete (by norm_num) hl (by simp) hF (fun _ => p1) ?_
  rw [← eg]
  by_cases h : e.mu = 0
  · exact Or.inr (p2 h)
  · exact Or.inl (by omega)

theorem BandLimited.const (so si F : ℕ) (M : Mat) : BandLimited so si F fun _ => M := by
  intro r _
  refine ⟨fun μ => if μ = 0 then M else fun _ _ => 0, fun _ _ _ => 0, fun φ i _ j _ => ?_⟩
  dsimp only
  rw [Finset.sum_eq_single 0]
  · simp
  · intro μ _ h; simp [h]
  · simp

/-- From the circles to the plane. -/
theorem complete_of_circles {El : Type} {G : Grp El} {act : El → ℝ × ℝ → ℝ × ℝ} {so si F : ℕ} (hso : so = 1 ∨ so = 2) (hsi : si = 1 ∨ si = 2)
    {ρo ρi : El → Mat} {axis : ℝ} {l : List AngElem} (h0 : ∀ g, G.isEl g → act g (0, 0) = (0, 0))
    (H : ∀ κ, KernelConstraint G act so si ρo ρi κ → ∀ r, 0 < r → LinComb so si (Atom so si F) (fun φ => κ (r * cos (φ + axis), r * sin (φ + axis))) →
      ∃ c : Fin l.length → ℝ, ∀ φ, MEq so si (κ (r * cos (φ + axis), r * sin (φ + axis))) fun i j => ∑ k, c k * angMat so si l[k] φ i j)
    (κ : ℝ × ℝ → Mat) (hκ : KernelConstraint G act so si ρo ρi κ) (hb : BandLimited so si F κ) :
    ∃ c : Fin l.length → ℝ → ℝ, ∀ p, p = (0, 0) ∨ 1e-9 ≤ radius p →
      MEq so si (κ p) fun i j => ∑ k, polar (c k) (angSample axis so si l[k]) p i j := by
  have off : ∀ κ, KernelConstraint G act so si ρo ρi κ → BandLimited so si F κ → ∃ c : Fin l.length → ℝ → ℝ, ∀ r θ, 1e-9 ≤ r →
      MEq so si (κ (r * cos θ, r * sin θ)) fun i j => ∑ k, c k r * angMat so si l[k] (θ - axis) i j := by
    intro κ hκ hb
    have : ∀ r : ℝ, ∃ c : Fin l.length → ℝ, 0 < r → ∀ φ, MEq so si (κ (r * cos (φ + axis), r * sin (φ + axis))) fun i j =>
        ∑ k, c k * angMat so si l[k] φ i j := by
      intro r
      by_cases hr : 0 < r
      · obtain ⟨c, hc⟩ := H κ hκ r hr (((hb r hr).shift axis).linComb hso hsi)
        exact ⟨c, fun _ => hc⟩
      · exact ⟨fun _ => 0, fun h => absurd h hr⟩
    choose c hc using this
    refine ⟨fun k r => c r k, fun r θ hr => ?_⟩
    have hr0 : (0 : ℝ) < r := by
      have : (0 : ℝ) < 1e-9 := by norm_num
      linarith
    have := hc r hr0 (θ - axis)
    rwa [sub_add_cancel] at this
  obtain ⟨c, hc⟩ := off κ hκ hb
  obtain ⟨c0, hc0⟩ := off (fun _ => κ (0, 0)) (by
    intro g hg p
    have := hκ g hg (0, 0)
    rwa [h0 g hg] at this) (BandLimited.const _ _ _ _)
  exact complete_of_off hso hsi hc hc0

theorem rot_circle (α r θ : ℝ) : rot α (r * cos θ, r * sin θ) = (r * cos (α + θ), r * sin (α + θ)) := by
  simp only [rot, Real.cos_add, Real.sin_add]
  ext <;> ring

theorem refl_circle (axis r φ : ℝ) : refl axis (r * cos (φ + axis), r * sin (φ + axis)) = (r * cos (-φ + axis), r * sin (-φ + axis)) := by
  have h1 : cos (2 * axis) * cos (φ + axis) + sin (2 * axis) * sin (φ + axis) = cos (-φ + axis) := by
    rw [← Real.cos_sub]; congr 1; ring
  have h2 : sin (2 * axis) * cos (φ + axis) - cos (2 * axis) * sin (φ + axis) = sin (-φ + axis) := by
    rw [← Real.sin_sub]; congr 1; ring
  simp only [refl]
  ext
  · simp only; linear_combination r * h1
  · simp only; linear_combination r * h2

theorem IrrepAt.size12 {s : ℕ} {A : Mat} {k f : ℕ} {ε : ℤ} {α : ℝ} (h : IrrepAt s A k f ε α) : s = 1 ∨ s = 2 := by
  rcases h with h | h
  · exact Or.inr h.1
  · exact Or.inl h.1

/-- **C69, C_N.** For every `N ≥ 1`, every pair of irreps of `C_N` and every maximum frequency `F`: every kernel on the plane that satisfies
the constraint and whose angular frequencies are at most `F` is, at the origin and at the points at least `1e-9` away from it, a linear combination of
the elements of the basis, with coefficients that depend on the radius only. -/
theorem c69_cyclic_complete (N : ℕ) (hN : 0 < N) (n m : ℕ) (ri ro : Irrep ℤ) (hi : Cyclic.irrep N n = some ri)
    (ho : Cyclic.irrep N m = some ro) (F : ℕ) :
    ∃ l, rotBasis N ri ro (some F) none = some l ∧ ∀ κ : ℝ × ℝ → Mat,
      KernelConstraint (Cyclic.grp N) (fun g => rot (g * (2 * π / N))) ro.size ri.size ro.mat ri.mat κ →
      BandLimited ro.size ri.size F κ →
      ∃ c : Fin l.length → ℝ → ℝ, ∀ p, p = (0, 0) ∨ 1e-9 ≤ radius p →
        MEq ro.size ri.size (κ p) fun i j => ∑ k, polar (c k) (angSample 0 ro.size ri.size l[k]) p i j := by
  obtain ⟨l, hl, -⟩ := c16_cyclic_kernel_constraint N hN n m ri ro hi ho (some F) none (by simp)
  refine ⟨l, hl, fun κ hκ hb => ?_⟩
  have so := (Cyclic.irrepAt hN ho 0).size12
  have si := (Cyclic.irrepAt hN hi 0).size12
  have hrep := (Cyclic.irrep_isOrthRep hN hi).toIsRep
  have hel : ∀ g : ℕ, g < N → (Cyclic.grp N).isEl (g : ℤ) := fun g hg => (Cyclic.isElement_iff N g).2 ⟨by omega, by omega⟩
  refine complete_of_circles so si (fun g _ => by simp [rot]) (fun κ hκ r hr hL => ?_) κ hκ hb
  have := LinComb.rotate hN so si (fun e he => he.1.s) hL ri.mat (fun g => ri.mat ((Cyclic.grp N).inv g)) ro.mat
    (fun g => Cyclic.irrepAt hN hi g) (fun g => Cyclic.irrepAt hN ho g)
    (fun g hg => by
      obtain ⟨h1, h2⟩ := Cyclic.invOk hN g (hel g hg)
      exact (hrep.mul g _ (hel g hg) h1).symm.trans (by rw [h2]; exact hrep.one))
    (fun g hg φ => by
      have := hκ g (hel g hg) (r * cos (φ + 0), r * sin (φ + 0))
      dsimp only at this ⊢
      rw [rot_circle, ← _root_.add_assoc] at this
      exact this)
  exact this.toFin fun e he => angMat_of_mem (rotBasis_complete hN hi ho hl he.1 he.2)

/-- **C69, reflections.** As above, for the irreps of the group `C_2` of the reflection with respect to any axis. -/
theorem c69_flip_complete (axis : ℝ) (n m : ℕ) (ri ro : Irrep ℤ) (hi : Cyclic.irrep 2 n = some ri) (ho : Cyclic.irrep 2 m = some ro) (F : ℕ) :
    ∃ l, flipsBasis ri ro (some F) none = some l ∧ ∀ κ : ℝ × ℝ → Mat,
      KernelConstraint (Cyclic.grp 2) (fun g p => if g = 0 then p else refl axis p) ro.size ri.size ro.mat ri.mat κ →
      BandLimited ro.size ri.size F κ →
      ∃ c : Fin l.length → ℝ → ℝ, ∀ p, p = (0, 0) ∨ 1e-9 ≤ radius p →
        MEq ro.size ri.size (κ p) fun i j => ∑ k, polar (c k) (angSample axis ro.size ri.size l[k]) p i j := by
  obtain ⟨l, hl, -⟩ := c17_flip_kernel_constraint axis n m ri ro hi ho (some F) none (by simp)
  refine ⟨l, hl, fun κ hκ hb => ?_⟩
  obtain ⟨-, kn, ai⟩ := Cyclic.irrepAt_flip hi (g := 1) (Or.inr rfl)
  obtain ⟨-, km, ao⟩ := Cyclic.irrepAt_flip ho (g := 1) (Or.inr rfl)
  have hrep := (Cyclic.irrep_isOrthRep (N := 2) (by norm_num) hi).toIsRep
  have hel : (Cyclic.grp 2).isEl (1 : ℤ) := (Cyclic.isElement_iff 2 1).2 ⟨by omega, by omega⟩
  refine complete_of_circles ao.size12 ai.size12 (fun g _ => by simp [refl]) (fun κ hκ r hr hL => ?_) κ hκ hb
  have := LinComb.reflect ao.size12 ai.size12 km kn (fun e he => ⟨he.1.s, he.1.gamma⟩) hL ai ao (A' := ri.mat ((Cyclic.grp 2).inv 1))
    (by
      obtain ⟨h1, h2⟩ := Cyclic.invOk (N := 2) (by norm_num) 1 hel
      exact (hrep.mul 1 _ hel h1).symm.trans (by rw [h2]; exact hrep.one))
    (fun φ => by
      have := hκ 1 hel (r * cos (φ + axis), r * sin (φ + axis))
      dsimp only at this ⊢
      rw [if_neg (by norm_num), refl_circle] at this
      exact this)
  exact this.toFin fun e he => angMat_of_mem (flipsBasis_complete hi ho hl he.1 he.2)

/-- **C69, D_N.** As above, for the irreps of `D_N` and any axis. -/
theorem c69_dihedral_complete (N : ℕ) (hN : 0 < N) (axis : ℝ) (j n j' m : ℕ) (ri ro : Irrep (ℤ × ℤ))
    (hi : Dihedral.irrep N j n = some ri) (ho : Dihedral.irrep N j' m = some ro) (F : ℕ) :
    ∃ l, flipRotBasis N ri ro (some F) none = some l ∧ ∀ κ : ℝ × ℝ → Mat,
      KernelConstraint (Dihedral.grp N) (fun g => planeAct axis (g.1, g.2 * (2 * π / N))) ro.size ri.size ro.mat ri.mat κ →
      BandLimited ro.size ri.size F κ →
      ∃ c : Fin l.length → ℝ → ℝ, ∀ p, p = (0, 0) ∨ 1e-9 ≤ radius p →
        MEq ro.size ri.size (κ p) fun i j => ∑ k, polar (c k) (angSample axis ro.size ri.size l[k]) p i j := by
  obtain ⟨l, hl, -⟩ := c18_dihedral_kernel_constraint N hN axis j n j' m ri ro hi ho (some F) none (by simp)
  refine ⟨l, hl, fun κ hκ hb => ?_⟩
  have so := (Dihedral.irrepAt hN ho (0, 0)).size12
  have si := (Dihedral.irrepAt hN hi (0, 0)).size12
  have jn := ((Dihedral.irrep_isSome N j n).1 (by simp [hi])).2
  have jm := ((Dihedral.irrep_isSome N j' m).1 (by simp [ho])).2
  have hrep := (Dihedral.irrep_isOrthRep hN hi).toIsRep
  have hel : ∀ f : ℤ, f = 0 ∨ f = 1 → ∀ g : ℕ, g < N → (Dihedral.grp N).isEl (f, (g : ℤ)) := fun f hf g hg =>
    (Dihedral.isElement_iff N (f, (g : ℤ))).2 ⟨hf, by simp, by simpa using hg⟩
  have hinv : ∀ f : ℤ, f = 0 ∨ f = 1 → ∀ g : ℕ, g < N →
      MEq ri.size ri.size (Mat.mul ri.size (ri.mat (f, (g : ℤ))) (ri.mat ((Dihedral.grp N).inv (f, (g : ℤ))))) Mat.one := by
    intro f hf g hg
    obtain ⟨h1, h2⟩ := Dihedral.invOk hN _ (hel f hf g hg)
    exact (hrep.mul _ _ (hel f hf g hg) h1).symm.trans (by rw [h2]; exact hrep.one)
  refine complete_of_circles so si (fun g _ => by simp [planeAct, rot, refl]) (fun κ hκ r hr hL => ?_) κ hκ hb
  have h1 := LinComb.rotate hN so si (fun e he => he.1.s) hL (fun g => ri.mat (0, g)) (fun g => ri.mat ((Dihedral.grp N).inv (0, g)))
    (fun g => ro.mat (0, g)) (fun g => Dihedral.irrepAt hN hi (0, g)) (fun g => Dihedral.irrepAt hN ho (0, g))
    (fun g hg => hinv 0 (Or.inl rfl) g hg)
    (fun g hg φ => by
      have := hκ (0, (g : ℤ)) (hel 0 (Or.inl rfl) g hg) (r * cos (φ + axis), r * sin (φ + axis))
      dsimp only at this ⊢
      rw [planeAct_rot, rot_circle, ← _root_.add_assoc] at this
      exact this)
  have ai := Dihedral.irrepAt hN hi (1, 0)
  have ao := Dihedral.irrepAt hN ho (1, 0)
  simp only [Dihedral.pair, Int.cast_zero, zero_mul] at ai ao
  have h2 := LinComb.reflect so si (by omega) (by omega) (fun e he => ⟨he.1.1.s, he.1.1.gamma⟩) h1 ai ao
    (hinv 1 (Or.inr rfl) 0 hN)
    (fun φ => by
      have := hκ (1, 0) (hel 1 (Or.inr rfl) 0 hN) (r * cos (φ + axis), r * sin (φ + axis))
      simp only [planeAct, Int.cast_zero, zero_mul, rot_zero, one_ne_zero, if_false] at this
      rw [refl_circle] at this
      exact this)
  exact h2.toFin fun e he => angMat_of_mem (flipRotBasis_complete hN hi ho hl he.1.1 he.1.2 he.2)

/-! ### The elements have frequencies up to the maximum -/

theorem offsetLoop_freq {k N : ℤ} {maxOff : Option ℕ} {F : ℕ} {nonneg : Bool} {keep : ℤ → Prop} [DecidablePred keep]
    {gamma : ℝ} {s : ℤ} {l : List AngElem} (h : offsetLoop k N maxOff (some F) nonneg keep gamma s = some l) {e : AngElem} (he : e ∈ l) :
    |e.mu| ≤ F := by
  unfold offsetLoop at h
  split at h
  · exact absurd h (by simp)
  · split_ifs at h with ha
    cases h
    obtain ⟨t, ht, rfl⟩ := List.mem_map.1 he
    have := List.all_eq_true.1 ha t (List.mem_filter.1 ht).1
    simp only [freqOk, Bool.and_eq_true, decide_eq_true_eq] at this
    exact this.2

theorem concat_freq {ls : List (Option (List AngElem))} {F : ℕ} (h : ∀ x ∈ ls, ∀ l, x = some l → ∀ e ∈ l, |e.mu| ≤ (F : ℤ)) {l : List AngElem}
    (hl : concatOpt ls = some l) : ∀ e ∈ l, |e.mu| ≤ (F : ℤ) := by
  intro e he
  obtain ⟨l', h1, h2⟩ := concatOpt_mem hl he
  exact h _ h1 l' rfl e h2

theorem rotBasis_freq {N : ℕ} {ri ro : Irrep ℤ} {F : ℕ} {maxOff : Option ℕ} {l : List AngElem} (hl : rotBasis N ri ro (some F) maxOff = some l) :
    ∀ e ∈ l, |e.mu| ≤ (F : ℤ) := by
  unfold rotBasis at hl
  dsimp only at hl
  rw [if_neg (by simp)] at hl
  split_ifs at hl
  · refine concat_freq (fun x hx l' hx' e he => ?_) hl
    obtain ⟨γ, -, h⟩ := List.mem_flatMap.1 hx
    obtain ⟨s, -, rfl⟩ := List.mem_map.1 h
    exact offsetLoop_freq hx' he
  all_goals
    refine concat_freq (fun x hx l' hx' e he => ?_) hl
    obtain ⟨γ, -, rfl⟩ := List.mem_map.1 hx
    exact offsetLoop_freq hx' he

theorem flipRotBasis_freq {N : ℕ} {ri ro : Irrep (ℤ × ℤ)} {F : ℕ} {maxOff : Option ℕ} {l : List AngElem}
    (hl : flipRotBasis N ri ro (some F) maxOff = some l) : ∀ e ∈ l, |e.mu| ≤ (F : ℤ) := by
  unfold flipRotBasis at hl
  dsimp only at hl
  rw [if_neg (by simp)] at hl
  split_ifs at hl
  · refine concat_freq (fun x hx l' hx' e he => ?_) hl
    obtain ⟨γ, -, rfl⟩ := List.mem_map.1 hx
    exact offsetLoop_freq hx' he
  all_goals exact fun e he => offsetLoop_freq hl he

theorem flipsBasis_freq {ri ro : Irrep ℤ} {F : ℕ} {maxOff : Option ℕ} {l : List AngElem}
    (hl : flipsBasis ri ro (some F) maxOff = some l) : ∀ e ∈ l, |e.mu| ≤ (F : ℤ) := by
  unfold flipsBasis at hl
  dsimp only at hl
  rw [if_neg (by simp)] at hl
  exact fun e he => offsetLoop_freq hl he

theorem trigPoly_angMat {so si F : ℕ} (hso : so = 1 ∨ so = 2) (hsi : si = 1 ∨ si = 2) {e : AngElem} (he : |e.mu| ≤ (F : ℤ)) :
    TrigPoly so si F fun φ => angMat so si e φ := by
  obtain ⟨k, hk⟩ := Int.eq_nat_or_neg e.mu
  have hkF : k ≤ F := by
    rcases hk with h | h <;> rw [h] at he <;> simp at he <;> exact_mod_cast he
  obtain ⟨σ, hσ⟩ : ∃ σ : ℝ, ∀ x : ℝ, cos (e.mu * x) = cos (k * x) ∧ sin (e.mu * x) = σ * sin (k * x) := by
    rcases hk with h | h
    · exact ⟨1, fun x => by rw [h]; simp⟩
    · exact ⟨-1, fun x => by rw [h]; simp⟩
  refine ⟨fun μ i j => if μ = k then angMat so si e 0 i j else 0,
    fun μ i j => if μ = k then σ * angMat so si (e.shift (π / 2)) 0 i j else 0, fun φ i hi j hj => ?_⟩
  dsimp only
  rw [Finset.sum_eq_single k]
  · have e1 : angMat so si e φ = angMat so si (e.shift (e.mu * φ)) 0 := angMat_phase so si rfl (by simp only [AngElem.shift]; ring)
    rw [e1, angMat_shift, (hσ φ).1, (hσ φ).2]
    simp only [if_true]
    ring
  · intro μ _ h; simp [h]
  · intro h; exact absurd (Finset.mem_range.2 (by omega)) h

/-- An element of frequency at most `F`, with any radial profile, has angular frequencies at most `F`. -/
theorem c69_band_limited {so si F : ℕ} (hso : so = 1 ∨ so = 2) (hsi : si = 1 ∨ si = 2) {e : AngElem} (he : |e.mu| ≤ (F : ℤ)) (axis : ℝ)
    (radial : ℝ → ℝ) : BandLimited so si F (polar radial (angSample axis so si e)) := by
  intro r hr
  have smul : ∀ {f : ℝ → Mat}, TrigPoly so si F f → ∀ c : ℝ, TrigPoly so si F fun φ i j => c * f φ i j := by
    rintro f ⟨a, b, h⟩ c
    refine ⟨fun μ i j => c * a μ i j, fun μ i j => c * b μ i j, fun φ i hi j hj => ?_⟩
    dsimp only
    rw [h φ i hi j hj, Finset.mul_sum]
    exact Finset.sum_congr rfl fun μ _ => by ring
  have hrad : ∀ θ, radius (r * cos θ, r * sin θ) = r := fun θ => radius_basePt θ hr.le
  by_cases h9 : 1e-9 ≤ r
  · obtain ⟨a, b, h⟩ := smul ((trigPoly_angMat hso hsi he).shift (-axis)) (radial r)
    refine ⟨a, b, fun φ i hi j hj => ?_⟩
    rw [← h φ i hi j hj]
    simp only [polar, hrad]
    rw [angSample_at axis e h9]
    rfl
  · have : (fun θ => polar radial (angSample axis so si e) (r * cos θ, r * sin θ)) = fun _ i j => radial r * angSample axis so si e none i j := by
      funext θ i j
      simp only [polar, hrad]
      rw [angle, if_pos (by rw [hrad]; exact not_le.1 h9)]
    rw [this]
    exact BandLimited.const so si F (fun i j => radial r * angSample axis so si e none i j) 1 one_pos

/-- The elements of the bases satisfy the hypotheses: for `C_4`, two irreps of size 2 and `F = 3`, the kernels of the basis are among the kernels that
are covered. -/
example : ∃ r l, Cyclic.irrep 4 1 = some r ∧ rotBasis 4 r r (some 3) none = some l ∧ l ≠ [] ∧ ∀ e ∈ l, ∀ radial : ℝ → ℝ,
    KernelConstraint (Cyclic.grp 4) (fun g => rot (g * (2 * π / (4 : ℕ)))) r.size r.size r.mat r.mat (polar radial (angSample 0 r.size r.size e)) ∧
      BandLimited r.size r.size 3 (polar radial (angSample 0 r.size r.size e)) := by
  obtain ⟨r, hr⟩ := Cyclic.irrep_some (M := 4) (f := 1) (by norm_num)
  obtain ⟨l, hl, hc⟩ := c16_cyclic_kernel_constraint 4 (by norm_num) 1 1 r r hr hr (some 3) none (by simp)
  have hs := (Cyclic.irrepAt (by norm_num) hr 0).size12
  have hs2 := Cyclic.irrep_size hr
  norm_num at hs2
  refine ⟨r, l, hr, hl, ?_, fun e he radial => ⟨hc e he radial, c69_band_limited hs hs (rotBasis_freq hl e he) 0 radial⟩⟩
  obtain ⟨t, ht⟩ := rotBasis_complete (by norm_num) hr hr hl (e := ⟨0, 0, 0, 0⟩)
    ⟨⟨Or.inl rfl, Or.inl rfl, fun _ => rfl, fun h => by omega⟩, by simp⟩ (by simp [baseFreq, hs2])
  exact List.ne_nil_of_mem ht

end E2
