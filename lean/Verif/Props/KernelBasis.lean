import Verif.Lemmas.KernelBasis
import Verif.Props.KernelConstraint

/-!
# C19, C20: independence and completeness of the angular bases
-/

set_option linter.unusedSimpArgs false

namespace E2

open Finset Mat Real

/-! ### C19: independence -/

/-- The elements of a list of angular kernels of shape `(so, si)` are linearly independent functions on the circle. -/
def Independent (axis : ℝ) (so si : ℕ) (l : List AngElem) : Prop :=
  LinearIndependent ℝ fun (k : Fin l.length) (φ : ℝ) (i : Fin so) (j : Fin si) => angSample axis so si l[k] (some φ) i j

theorem half_pi_ne : (0 : ℝ) ≠ π / 2 := by
  have := Real.pi_pos
  intro h; linarith

/-- **C19, SO(2).** -/
theorem c19_so2_independent (n m : ℕ) (l : List AngElem) (h : contBasis (SO2.irrep n) (SO2.irrep m) = some l) :
    Independent 0 (SO2.irrep m).size (SO2.irrep n).size l := by
  have hz := half_pi_ne
  unfold contBasis at h
  simp only at h
  split_ifs at h with h1 h2 h3 h4 h5 h6 h7
  · cases h
    rw [h1.1, h1.2]
    refine indep_of_shape (Or.inr rfl) (Or.inr rfl) 0 ?_ ?_
    · intro e he
      simp only [List.mem_flatMap, List.mem_map, List.mem_cons, List.not_mem_nil, or_false] at he
      obtain ⟨γ, hγ, s, hs, rfl⟩ := he
      exact ⟨hγ, hs, fun h => absurd ⟨rfl, rfl⟩ h, by omega⟩
    · simp [KeyNe, hz, hz.symm]
  · cases h
    rw [h2.1, h2.2]
    refine indep_of_shape (Or.inl rfl) (Or.inr rfl) 0 ?_ ?_
    · intro e he
      simp only [List.mem_map, List.mem_cons, List.not_mem_nil, or_false] at he
      obtain ⟨γ, hγ, rfl⟩ := he
      exact ⟨hγ, Or.inl rfl, fun _ => rfl, by omega⟩
    · simp [KeyNe, hz, hz.symm]
  · cases h
    rw [h4.1, h4.2]
    refine indep_of_shape (Or.inr rfl) (Or.inl rfl) 0 ?_ ?_
    · intro e he
      simp only [List.mem_map, List.mem_cons, List.not_mem_nil, or_false] at he
      obtain ⟨γ, hγ, rfl⟩ := he
      exact ⟨hγ, Or.inl rfl, fun _ => rfl, by omega⟩
    · simp [KeyNe, hz, hz.symm]
  · cases h
    rw [h6.1, h6.2]
    refine indep_of_shape (Or.inl rfl) (Or.inl rfl) 0 ?_ ?_
    · intro e he
      simp only [List.mem_map, List.mem_filter, List.mem_cons, List.not_mem_nil, or_false, decide_eq_true_eq] at he
      obtain ⟨γ, ⟨hγ, hk⟩, rfl⟩ := he
      refine ⟨hγ, Or.inl rfl, fun _ => rfl, fun _ _ => ?_⟩
      simp only at hk ⊢
      exact ⟨by omega, fun h0 => by rcases hk with hk | hk <;> [omega; exact hk]⟩
    · rw [List.pairwise_map]
      refine List.Pairwise.filter _ ?_
      simp [KeyNe, hz, hz.symm]

/-- **C19, O(2).** -/
theorem c19_o2_independent (axis : ℝ) (j n j' m : ℕ) (ri ro : Irrep (ℤ × ℝ)) (hi : O2.irrep j n = some ri) (ho : O2.irrep j' m = some ro)
    (l : List AngElem) (h : flipContBasis ri ro = some l) : Independent axis ro.size ri.size l := by
  have hz := half_pi_ne
  have flip01 : ∀ {j k : ℕ} {r : Irrep (ℤ × ℝ)}, O2.irrep j k = some r → r.flip = 0 ∨ r.flip = 1 := by
    intro j k r h
    unfold O2.irrep at h
    split_ifs at h <;> cases h <;> simp only <;> omega
  have g1 : ∀ x : ℕ, x = 0 ∨ x = 1 → ((x : ℝ) * π / 2 = 0 ∨ (x : ℝ) * π / 2 = π / 2) := by
    rintro x (rfl | rfl) <;> simp
  unfold flipContBasis at h
  simp only at h
  split_ifs at h with h1 h2 h3 h4 h5 h6 h7 h8
  · cases h
    rw [h1.1, h1.2]
    refine indep_of_shape (Or.inr rfl) (Or.inr rfl) axis ?_ ?_
    · intro e he
      simp only [List.mem_map, List.mem_cons, List.not_mem_nil, or_false] at he
      obtain ⟨s, hs, rfl⟩ := he
      exact ⟨Or.inl rfl, hs, fun h => absurd ⟨rfl, rfl⟩ h, by omega⟩
    · simp [KeyNe]
  · cases h
    rw [h3.1, h3.2]
    refine indep_of_shape (Or.inl rfl) (Or.inr rfl) axis ?_ (List.pairwise_singleton _ _)
    intro e he
    rw [List.mem_singleton.1 he]
    exact ⟨g1 _ (flip01 ho), Or.inl rfl, fun _ => rfl, by omega⟩
  · cases h
    rw [h5.1, h5.2]
    refine indep_of_shape (Or.inr rfl) (Or.inl rfl) axis ?_ (List.pairwise_singleton _ _)
    intro e he
    rw [List.mem_singleton.1 he]
    exact ⟨g1 _ (flip01 hi), Or.inl rfl, fun _ => rfl, by omega⟩
  · cases h
    rename_i hk
    rw [h7.1, h7.2]
    refine indep_of_shape (Or.inl rfl) (Or.inl rfl) axis ?_ (List.pairwise_singleton _ _)
    intro e he
    rw [List.mem_singleton.1 he]
    refine ⟨g1 _ (by omega), Or.inl rfl, fun _ => rfl, fun _ _ => ?_⟩
    exact ⟨by simp only; omega, fun h0 => by rcases hk with hk | hk <;> [(simp only at h0; omega); exact hk]⟩
  · cases h
    rw [h7.1, h7.2]
    exact indep_of_shape (Or.inl rfl) (Or.inl rfl) axis (by simp) List.Pairwise.nil

theorem pairwise_append {l l' : List AngElem} (h : l.Pairwise KeyNe) (h' : l'.Pairwise KeyNe)
    (hne : ∀ e ∈ l, ∀ e' ∈ l', e.gamma ≠ e'.gamma ∨ e.s ≠ e'.s) : (l ++ l').Pairwise KeyNe := by
  rw [List.pairwise_append]
  exact ⟨h, h', fun e he e' he' _ hg hs => (hne e he e' he').elim (fun a => a hg) fun a => a hs⟩

/-- **C19, C_N.** The full statement has no condition `hb`: it is false without it, see `c19_offsets_dependent`. -/
theorem c19_cyclic_independent_partial (N : ℕ) (hN : 0 < N) (ri ro : Irrep ℤ) (maxFreq maxOff : Option ℕ)
    (hb : maxFreq ≠ none ∨ ¬ (ri.size = 1 ∧ ro.size = 1)) (l : List AngElem) (h : rotBasis N ri ro maxFreq maxOff = some l) :
    Independent 0 ro.size ri.size l := by
  have hz := half_pi_ne
  have hN' : (0 : ℤ) < N := by exact_mod_cast hN
  unfold rotBasis at h
  simp only [List.map_cons, List.map_nil, List.flatMap_cons, List.flatMap_nil, List.cons_append, List.nil_append, if_true, one_ne_zero, if_false] at h
  split_ifs at h with h0 h1 h2 h3 h4 h5 h6 h7
  · rw [h1.1, h1.2]
    obtain ⟨x, y, z, w, ex, ey, ez, ew, rfl⟩ := concatOpt_four h
    have mx := fun e he => offsetLoop_mem ex (e := e) he
    have my := fun e he => offsetLoop_mem ey (e := e) he
    have mz := fun e he => offsetLoop_mem ez (e := e) he
    have mw := fun e he => offsetLoop_mem ew (e := e) he
    refine indep_of_shape (Or.inr rfl) (Or.inr rfl) 0 ?_ ?_
    · intro e he
      simp only [List.mem_append] at he
      have : (e.gamma = 0 ∨ e.gamma = π / 2) ∧ (e.s = 0 ∨ e.s = 1) := by
        rcases he with he | he | he | he
        · exact ⟨Or.inl (mx e he).1, Or.inl (mx e he).2.1⟩
        · exact ⟨Or.inl (my e he).1, Or.inr (my e he).2.1⟩
        · exact ⟨Or.inr (mz e he).1, Or.inl (mz e he).2.1⟩
        · exact ⟨Or.inr (mw e he).1, Or.inr (mw e he).2.1⟩
      exact ⟨this.1, this.2, fun h => absurd ⟨rfl, rfl⟩ h, by omega⟩
    · refine pairwise_append (offsetLoop_nodup hN' ex) (pairwise_append (offsetLoop_nodup hN' ey) (pairwise_append (offsetLoop_nodup hN' ez)
        (offsetLoop_nodup hN' ew) ?_) ?_) ?_
      · intro e he e' he'
        right; rw [(mz e he).2.1, (mw e' he').2.1]; norm_num
      · intro e he e' he'
        left
        rcases List.mem_append.1 he' with he' | he'
        · rw [(my e he).1, (mz e' he').1]; exact hz
        · rw [(my e he).1, (mw e' he').1]; exact hz
      · intro e he e' he'
        rcases List.mem_append.1 he' with he' | he'
        · right; rw [(mx e he).2.1, (my e' he').2.1]; norm_num
        · left
          rcases List.mem_append.1 he' with he' | he'
          · rw [(mx e he).1, (mz e' he').1]; exact hz
          · rw [(mx e he).1, (mw e' he').1]; exact hz
  all_goals
    obtain ⟨x, y, ex, ey, rfl⟩ := concatOpt_two h
    have mx := fun e he => offsetLoop_mem ex (e := e) he
    have my := fun e he => offsetLoop_mem ey (e := e) he
    have hp : (x ++ y).Pairwise KeyNe := by
      refine pairwise_append (offsetLoop_nodup hN' ex) (offsetLoop_nodup hN' ey) ?_
      intro e he e' he'
      left; rw [(mx e he).1, (my e' he').1]; exact hz
    have hs : ∀ e ∈ x ++ y, (e.gamma = 0 ∨ e.gamma = π / 2) ∧ e.s = 0 ∧ (0 < e.mu ∨ e.gamma = 0 ∨ True) := by
      intro e he
      rcases List.mem_append.1 he with he | he
      · exact ⟨Or.inl (mx e he).1, (mx e he).2.1, Or.inr (Or.inr trivial)⟩
      · exact ⟨Or.inr (my e he).1, (my e he).2.1, Or.inr (Or.inr trivial)⟩
  · rw [h2.1, h2.2]
    exact indep_of_shape (Or.inl rfl) (Or.inr rfl) 0
      (fun e he => ⟨(hs e he).1, Or.inl (hs e he).2.1, fun _ => (hs e he).2.1, by omega⟩) hp
  · rw [h4.1, h4.2]
    exact indep_of_shape (Or.inr rfl) (Or.inl rfl) 0
      (fun e he => ⟨(hs e he).1, Or.inl (hs e he).2.1, fun _ => (hs e he).2.1, by omega⟩) hp
  · rcases hb with hb | hb
    swap; · exact absurd h6 hb
    obtain ⟨F, rfl⟩ := Option.ne_none_iff_exists'.1 hb
    rw [h6.1, h6.2]
    refine indep_of_shape (Or.inl rfl) (Or.inl rfl) 0
      (fun e he => ⟨(hs e he).1, Or.inl (hs e he).2.1, fun _ => (hs e he).2.1, fun _ _ => ?_⟩) hp
    rcases List.mem_append.1 he with he | he
    · exact ⟨offsetLoop_nonneg hN' ex he, fun _ => (mx e he).1⟩
    · refine ⟨offsetLoop_nonneg hN' ey he, fun h0 => ?_⟩
      rcases (my e he).2.2.2 with hk | hk
      · omega
      · exact absurd hk.symm hz

/-- **C19, reflections.** The full statement allows `maxFreq = none`; it is false then (both signs of a frequency are returned). -/
theorem c19_flip_independent_partial (axis : ℝ) (n m : ℕ) (ri ro : Irrep ℤ) (hi : Cyclic.irrep 2 n = some ri) (ho : Cyclic.irrep 2 m = some ro)
    (F : ℕ) (maxOff : Option ℕ) (l : List AngElem) (h : flipsBasis ri ro (some F) maxOff = some l) : Independent axis ro.size ri.size l := by
  obtain ⟨sn, -, -⟩ := Cyclic.irrepAt_flip hi (g := 0) (Or.inl rfl)
  obtain ⟨sm, -, -⟩ := Cyclic.irrepAt_flip ho (g := 0) (Or.inl rfl)
  unfold flipsBasis at h
  simp only [reduceCtorEq, false_and, if_false] at h
  rw [sn, sm]
  refine indep_of_shape (Or.inl rfl) (Or.inl rfl) axis (fun e he => ?_) (offsetLoop_nodup (by norm_num) h)
  obtain ⟨h1, h2, -, h3⟩ := offsetLoop_mem h he
  have hg : e.gamma = 0 ∨ e.gamma = π / 2 := by
    rw [h1]
    rcases Nat.mod_two_eq_zero_or_one (ri.freq + ro.freq) with h | h <;> simp [h]
  refine ⟨hg, Or.inl h2, fun _ => h2, fun _ _ => ⟨offsetLoop_nonneg (by norm_num) h he, fun h0 => ?_⟩⟩
  rcases h3 with h3 | h3
  · omega
  · rw [h1]; exact h3

/-- **C19, D_N.** See `c19_cyclic_independent_partial` for the condition. -/
theorem c19_dihedral_independent_partial (N : ℕ) (hN : 0 < N) (axis : ℝ) (j n j' m : ℕ) (ri ro : Irrep (ℤ × ℤ))
    (hi : Dihedral.irrep N j n = some ri) (ho : Dihedral.irrep N j' m = some ro) (maxFreq maxOff : Option ℕ)
    (hb : maxFreq ≠ none ∨ ¬ (ri.size = 1 ∧ ro.size = 1)) (l : List AngElem) (h : flipRotBasis N ri ro maxFreq maxOff = some l) :
    Independent axis ro.size ri.size l := by
  have hN' : (0 : ℤ) < N := by exact_mod_cast hN
  obtain ⟨fn, gn⟩ := Dihedral.irrep_freq hi
  obtain ⟨fm, gm⟩ := Dihedral.irrep_freq ho
  have jn := ((Dihedral.irrep_isSome N j n).1 (by simp [hi])).2
  have jm := ((Dihedral.irrep_isSome N j' m).1 (by simp [ho])).2
  have g1 : ∀ x : ℕ, x ≤ 1 → ((x : ℝ) * π / 2 = 0 ∨ (x : ℝ) * π / 2 = π / 2) := by
    intro x hx
    obtain rfl | rfl : x = 0 ∨ x = 1 := by omega
    · simp
    · simp
  have fi : ri.flip ≤ 1 := by omega
  have fo : ro.flip ≤ 1 := by omega
  unfold flipRotBasis at h
  simp only [List.map_cons, List.map_nil, if_true, one_ne_zero, if_false] at h
  split_ifs at h with h0 h1 h2 h3 h4 h5 h6 h7 h8
  · rw [h1.1, h1.2]
    obtain ⟨x, y, ex, ey, rfl⟩ := concatOpt_two h
    have mx := fun e he => offsetLoop_mem ex (e := e) he
    have my := fun e he => offsetLoop_mem ey (e := e) he
    refine indep_of_shape (Or.inr rfl) (Or.inr rfl) axis ?_ ?_
    · intro e he
      rcases List.mem_append.1 he with he | he
      · exact ⟨Or.inl (mx e he).1, Or.inl (mx e he).2.1, fun h => absurd ⟨rfl, rfl⟩ h, by omega⟩
      · exact ⟨Or.inl (my e he).1, Or.inr (my e he).2.1, fun h => absurd ⟨rfl, rfl⟩ h, by omega⟩
    · refine pairwise_append (offsetLoop_nodup hN' ex) (offsetLoop_nodup hN' ey) ?_
      intro e he e' he'
      right; rw [(mx e he).2.1, (my e' he').2.1]; norm_num
  · rw [h3.1, h3.2]
    have mx := fun e he => offsetLoop_mem h (e := e) he
    exact indep_of_shape (Or.inl rfl) (Or.inr rfl) axis
      (fun e he => ⟨by rw [(mx e he).1]; exact g1 _ fo, Or.inl (mx e he).2.1, fun _ => (mx e he).2.1, by omega⟩) (offsetLoop_nodup hN' h)
  · rw [h5.1, h5.2]
    have mx := fun e he => offsetLoop_mem h (e := e) he
    exact indep_of_shape (Or.inr rfl) (Or.inl rfl) axis
      (fun e he => ⟨by rw [(mx e he).1]; exact g1 _ fi, Or.inl (mx e he).2.1, fun _ => (mx e he).2.1, by omega⟩) (offsetLoop_nodup hN' h)
  · rcases hb with hb | hb
    swap; · exact absurd h7 hb
    obtain ⟨F, rfl⟩ := Option.ne_none_iff_exists'.1 hb
    rw [h7.1, h7.2]
    have mx := fun e he => offsetLoop_mem h (e := e) he
    refine indep_of_shape (Or.inl rfl) (Or.inl rfl) axis
      (fun e he => ⟨by rw [(mx e he).1]; exact g1 _ (by omega), Or.inl (mx e he).2.1, fun _ => (mx e he).2.1, fun _ _ => ?_⟩)
      (offsetLoop_nodup hN' h)
    refine ⟨offsetLoop_nonneg hN' h he, fun h0 => ?_⟩
    rcases (mx e he).2.2.2 with hk | hk
    · omega
    · rw [(mx e he).1]; exact hk

/-- **C19, negation.** With a maximum offset and no maximum frequency the basis for one-dimensional irreps is redundant: it contains
`cos(Nφ)` and `cos(-Nφ)`. -/
theorem c19_offsets_dependent (N : ℕ) (hN : 0 < N) (r : Irrep ℤ) (hr : Cyclic.irrep N 0 = some r) (O : ℕ) (hO : 1 ≤ O) :
    ∃ l, rotBasis N r r none (some O) = some l ∧ ¬ Independent 0 r.size r.size l := by
  have hN' : (0 : ℤ) < N := by exact_mod_cast hN
  have sz : r.size = 1 := by rw [Cyclic.irrep_size hr]; simp
  have fr := Cyclic.irrep_freq hr
  obtain ⟨l, hl, -⟩ := c16_cyclic_kernel_constraint N hN 0 0 r r hr hr none (some O) (by simp)
  refine ⟨l, hl, fun hind => ?_⟩
  unfold rotBasis at hl
  simp only [sz, fr, List.map_cons, List.map_nil] at hl
  norm_num at hl
  obtain ⟨x, y, ex, ey, rfl⟩ := concatOpt_two hl.2
  have hmem : ∀ t : ℤ, |t| ≤ 1 → (⟨t * N, 0, 0, t⟩ : AngElem) ∈ x := by
    intro t ht
    obtain ⟨ts, h1, -, h2⟩ := c14_offsets_without_frequency 0 N (by omega) O true
    unfold offsetLoop at ex
    rw [h1] at ex
    simp only at ex
    split_ifs at ex
    cases ex
    refine List.mem_map.2 ⟨t, List.mem_filter.2 ⟨(h2 t).2 ⟨by omega, by omega⟩, by simp⟩, by simp⟩
  obtain ⟨k, hk, e1⟩ := List.getElem_of_mem (List.mem_append_left y (hmem 1 (by simp)))
  obtain ⟨k', hk', e2⟩ := List.getElem_of_mem (List.mem_append_left y (hmem (-1) (by simp)))
  have hne : (⟨k, hk⟩ : Fin (x ++ y).length) ≠ ⟨k', hk'⟩ := by
    intro h
    rw [Fin.mk.injEq] at h
    subst h
    rw [e1] at e2
    have := congrArg AngElem.t e2
    norm_num at this
  refine hne (hind.injective ?_)
  funext φ i j
  simp only [Fin.getElem_fin, e1, e2, sz]
  simp [angSample, angMat, m1]

/-- The theorems apply: for `C_4` and two irreps of frequency 1 the basis with frequencies up to 3 exists and is independent. -/
example : ∃ r l, Cyclic.irrep 4 1 = some r ∧ rotBasis 4 r r (some 3) none = some l ∧ Independent 0 r.size r.size l := by
  obtain ⟨r, hr⟩ := Cyclic.irrep_some (M := 4) (f := 1) (by norm_num)
  obtain ⟨l, hl, -⟩ := c16_cyclic_kernel_constraint 4 (by norm_num) 1 1 r r hr hr (some 3) none (by simp)
  exact ⟨r, l, hr, hl, c19_cyclic_independent_partial 4 (by norm_num) r r _ _ (Or.inl (by simp)) l hl⟩

/-! ### C20: completeness -/

theorem span4 {so si : ℕ} {M : Mat} {l : List AngElem} (a b c d : AngElem) (hl : l = [a, b, c, d]) (x y z w : ℝ)
    (h : MEq so si M fun i j => x * angMat so si a 0 i j + y * angMat so si b 0 i j + z * angMat so si c 0 i j + w * angMat so si d 0 i j) :
    ∃ c : Fin l.length → ℝ, MEq so si M fun i j => ∑ k, c k * angMat so si l[k] 0 i j := by
  subst hl
  refine ⟨![x, y, z, w], h.trans (MEq.of_eq ?_)⟩
  funext i j
  exact (Fin.sum_univ_four fun k : Fin 4 => ![x, y, z, w] k * angMat so si [a, b, c, d][k] 0 i j).symm

theorem span2 {so si : ℕ} {M : Mat} {l : List AngElem} (a b : AngElem) (hl : l = [a, b]) (x y : ℝ)
    (h : MEq so si M fun i j => x * angMat so si a 0 i j + y * angMat so si b 0 i j) :
    ∃ c : Fin l.length → ℝ, MEq so si M fun i j => ∑ k, c k * angMat so si l[k] 0 i j := by
  subst hl
  refine ⟨![x, y], h.trans (MEq.of_eq ?_)⟩
  funext i j
  exact (Fin.sum_univ_two fun k : Fin 2 => ![x, y] k * angMat so si [a, b][k] 0 i j).symm

theorem span1 {so si : ℕ} {M : Mat} {l : List AngElem} (a : AngElem) (hl : l = [a]) (x : ℝ)
    (h : MEq so si M fun i j => x * angMat so si a 0 i j) :
    ∃ c : Fin l.length → ℝ, MEq so si M fun i j => ∑ k, c k * angMat so si l[k] 0 i j := by
  subst hl
  refine ⟨![x], h.trans (MEq.of_eq ?_)⟩
  funext i j
  exact (Fin.sum_univ_one fun k : Fin 1 => ![x] k * angMat so si [a][k] 0 i j).symm

/-- **C20, SO(2).** Every kernel on the plane that satisfies the constraint for two irreps of SO(2) is, at the origin and at the
distance at least `1e-9` from it (closer points are treated as the origin by the code), a combination of the basis kernels with
coefficients that only depend on the radius. On one circle the coefficients are constants. -/
theorem c20_so2_complete (n m : ℕ) :
    ∃ l, contBasis (SO2.irrep n) (SO2.irrep m) = some l ∧ ∀ κ : ℝ × ℝ → Mat,
      KernelConstraint SO2.grp rot (SO2.irrep m).size (SO2.irrep n).size (SO2.irrep m).mat (SO2.irrep n).mat κ →
      ∃ c : Fin l.length → ℝ → ℝ, ∀ p, p = (0, 0) ∨ 1e-9 ≤ radius p →
        MEq (SO2.irrep m).size (SO2.irrep n).size (κ p) fun i j =>
          ∑ k, polar (c k) (angSample 0 (SO2.irrep m).size (SO2.irrep n).size l[k]) p i j := by
  obtain ⟨l, hl, hc⟩ := c15_so2_kernel_constraint n m
  refine ⟨l, hl, fun κ hκ => ?_⟩
  have size12 : ∀ k, (SO2.irrep k).size = 1 ∨ (SO2.irrep k).size = 2 := by
    intro k; unfold SO2.irrep; split_ifs <;> simp
  refine complete_of_span (size12 m) (size12 n) id (fun _ => trivial) (fun _ _ => rfl) (fun g _ => by simp [rot])
    (fun e he => hc e he _) (fun κ _ r => ?_) κ hκ
  generalize κ (basePt 0 r) = M
  unfold contBasis at hl
  simp only at hl
  split_ifs at hl with h1 h2 h3 h4 h5 h6 h7
  · cases hl
    rw [h1.1, h1.2]
    refine span4 _ _ _ _ rfl ((M 0 0 + M 1 1) / 2) ((M 0 0 - M 1 1) / 2) ((M 1 0 - M 0 1) / 2) ((M 1 0 + M 0 1) / 2) ?_
    intro i hi j hj
    obtain rfl | rfl : i = 0 ∨ i = 1 := by omega
    · obtain rfl | rfl : j = 0 ∨ j = 1 := by omega
      · simp [Fin.sum_univ_succ, angMat, psichi, m2]; ring
      · simp [Fin.sum_univ_succ, angMat, psichi, m2]; ring
    · obtain rfl | rfl : j = 0 ∨ j = 1 := by omega
      · simp [Fin.sum_univ_succ, angMat, psichi, m2]; ring
      · simp [Fin.sum_univ_succ, angMat, psichi, m2]; ring
  · cases hl
    rw [h2.1, h2.2]
    refine span2 _ _ rfl (M 0 0) (M 0 1) ?_
    apply MEq12 <;> simp [Fin.sum_univ_succ, angMat]
  · cases hl
    rw [h4.1, h4.2]
    refine span2 _ _ rfl (M 0 0) (M 1 0) ?_
    apply MEq21 <;> simp [Fin.sum_univ_succ, angMat]
  · rw [h6.1, h6.2]
    have : ([(0 : ℝ), π / 2].filter fun gamma => decide (0 < (((SO2.irrep m).freq : ℤ) - ((SO2.irrep n).freq : ℤ)) ∨ gamma = 0)) = [0] := by
      have hz := half_pi_ne
      have : ¬ (0 : ℤ) < ((SO2.irrep m).freq : ℤ) - ((SO2.irrep n).freq : ℤ) := by omega
      simp [hz.symm]
      omega
    rw [this] at hl
    cases hl
    refine span1 _ rfl (M 0 0) ?_
    intro i hi j hj
    obtain rfl : i = 0 := by omega
    obtain rfl : j = 0 := by omega
    simp [angMat, m1]

/-- **C20, O(2).** As above, for the irreps of O(2) and any axis. -/
theorem c20_o2_complete (axis : ℝ) (j n j' m : ℕ) (ri ro : Irrep (ℤ × ℝ)) (hi : O2.irrep j n = some ri) (ho : O2.irrep j' m = some ro) :
    ∃ l, flipContBasis ri ro = some l ∧ ∀ κ : ℝ × ℝ → Mat,
      KernelConstraint O2.grp (planeAct axis) ro.size ri.size ro.mat ri.mat κ →
      ∃ c : Fin l.length → ℝ → ℝ, ∀ p, p = (0, 0) ∨ 1e-9 ≤ radius p →
        MEq ro.size ri.size (κ p) fun i j => ∑ k, polar (c k) (angSample axis ro.size ri.size l[k]) p i j := by
  obtain ⟨l, hl, hc⟩ := c18_o2_kernel_constraint axis j n j' m ri ro hi ho
  refine ⟨l, hl, fun κ hκ => ?_⟩
  have ai := O2.irrepAt hi (1, 0)
  have ai' := O2.irrepAt hi (O2.grp.inv (1, 0))
  have ao := O2.irrepAt ho (1, 0)
  have hinv : O2.grp.inv (1, 0) = (1, 0) := by simp [O2.grp, O2.inverse, fmod]
  rw [hinv] at ai'
  have size12 : ∀ {s : ℕ} {A : Mat} {k f : ℕ} {ε : ℤ} {α : ℝ}, IrrepAt s A k f ε α → s = 1 ∨ s = 2 := by
    rintro s A k f ε α (h | h)
    · exact Or.inr h.1
    · exact Or.inl h.1
  refine complete_of_span (size12 ao) (size12 ai) (fun α => (0, α)) (fun _ => Or.inl rfl) (fun α p => planeAct_rot axis α p)
    (fun g _ => by simp [planeAct, rot, refl]) (fun e he => hc e he _) (fun κ hκ r => ?_) κ hκ
  have hf := hκ (1, 0) (Or.inr rfl) (basePt axis r)
  have e0 : planeAct axis (1, 0) (basePt axis r) = basePt axis r := by simp [planeAct, rot_zero, refl_basePt]
  rw [e0, hinv] at hf
  generalize κ (basePt axis r) = M at hf
  have fn : ri.freq = n ∧ ri.flip = j := by
    unfold O2.irrep at hi
    split_ifs at hi <;> cases hi <;> exact ⟨by simp_all, by simp_all⟩
  have fm : ro.freq = m ∧ ro.flip = j' := by
    unfold O2.irrep at ho
    split_ifs at ho <;> cases ho <;> exact ⟨by simp_all, by simp_all⟩
  have jj : (j = 0 ∨ j = 1) ∧ (j' = 0 ∨ j' = 1) := by
    constructor
    · by_contra h; simp [O2.irrep, h] at hi
    · by_contra h; simp [O2.irrep, h] at ho
  unfold flipContBasis at hl
  simp only [fn.1, fn.2, fm.1, fm.2] at hl
  have p00 : ∀ k : ℕ, psichi 0 1 k 0 0 0 = 1 := by intro k; simp [psichi, m2]
  have p01 : ∀ k : ℕ, psichi 0 1 k 0 0 1 = 0 := by intro k; simp [psichi, m2]
  have p10 : ∀ k : ℕ, psichi 0 1 k 0 1 0 = 0 := by intro k; simp [psichi, m2]
  have p11 : ∀ k : ℕ, psichi 0 1 k 0 1 1 = -1 := by intro k; simp [psichi, m2]
  rcases ai with ⟨si, ai⟩ | ⟨si, ai, -⟩ <;> rcases ao with ⟨so, ao⟩ | ⟨so, ao, -⟩ <;> rw [si, so] at hf ⊢
  · have i00 := (ai 0 (by omega) 0 (by omega)).trans (p00 n)
    have i01 := (ai 0 (by omega) 1 (by omega)).trans (p01 n)
    have i10 := (ai 1 (by omega) 0 (by omega)).trans (p10 n)
    have i11 := (ai 1 (by omega) 1 (by omega)).trans (p11 n)
    have o00 := (ao 0 (by omega) 0 (by omega)).trans (p00 m)
    have o01 := (ao 0 (by omega) 1 (by omega)).trans (p01 m)
    have o10 := (ao 1 (by omega) 0 (by omega)).trans (p10 m)
    have o11 := (ao 1 (by omega) 1 (by omega)).trans (p11 m)
    have f01 := hf 0 (by omega) 1 (by omega)
    have f10 := hf 1 (by omega) 0 (by omega)
    simp only [Mat.mul, Finset.sum_range_succ, Finset.sum_range_zero, i00, i01, i10, i11, o00, o01, o10, o11] at f01 f10
    have m01 : M 0 1 = 0 := by linarith
    have m10 : M 1 0 = 0 := by linarith
    rw [if_pos ⟨si, so⟩] at hl
    split_ifs at hl
    cases hl
    refine span2 _ _ rfl ((M 0 0 + M 1 1) / 2) ((M 0 0 - M 1 1) / 2) ?_
    intro i hi j hj
    obtain rfl | rfl : i = 0 ∨ i = 1 := by omega
    · obtain rfl | rfl : j = 0 ∨ j = 1 := by omega
      · simp [Fin.sum_univ_succ, angMat, psichi, m2]; ring
      · simp [Fin.sum_univ_succ, angMat, psichi, m2, m01]
    · obtain rfl | rfl : j = 0 ∨ j = 1 := by omega
      · simp [Fin.sum_univ_succ, angMat, psichi, m2, m10]
      · simp [Fin.sum_univ_succ, angMat, psichi, m2]; ring
  · have i00 := (ai 0 (by omega) 0 (by omega)).trans (p00 n)
    have i01 := (ai 0 (by omega) 1 (by omega)).trans (p01 n)
    have i10 := (ai 1 (by omega) 0 (by omega)).trans (p10 n)
    have i11 := (ai 1 (by omega) 1 (by omega)).trans (p11 n)
    have f00 := hf 0 (by omega) 0 (by omega)
    have f01 := hf 0 (by omega) 1 (by omega)
    simp only [Mat.mul, Finset.sum_range_succ, Finset.sum_range_zero, i00, i01, i10, i11, ao] at f00 f01
    rw [if_neg (by omega), if_pos ⟨si, so⟩] at hl
    split_ifs at hl
    cases hl
    rcases jj.2 with rfl | rfl
    · norm_num at f01
      refine span1 _ rfl (M 0 0) ?_
      apply MEq12 <;> simp [angMat]
      linarith
    · norm_num at f00
      refine span1 _ rfl (M 0 1) ?_
      apply MEq12 <;> simp [angMat]
      linarith
  · have o00 := (ao 0 (by omega) 0 (by omega)).trans (p00 m)
    have o01 := (ao 0 (by omega) 1 (by omega)).trans (p01 m)
    have o10 := (ao 1 (by omega) 0 (by omega)).trans (p10 m)
    have o11 := (ao 1 (by omega) 1 (by omega)).trans (p11 m)
    have f00 := hf 0 (by omega) 0 (by omega)
    have f10 := hf 1 (by omega) 0 (by omega)
    simp only [Mat.mul, Finset.sum_range_succ, Finset.sum_range_zero, o00, o01, o10, o11, ai] at f00 f10
    rw [if_neg (by omega), if_neg (by omega), if_pos ⟨si, so⟩] at hl
    split_ifs at hl
    cases hl
    rcases jj.1 with rfl | rfl
    · norm_num at f10
      refine span1 _ rfl (M 0 0) ?_
      apply MEq21 <;> simp [angMat]
      linarith
    · norm_num at f00
      refine span1 _ rfl (M 1 0) ?_
      apply MEq21 <;> simp [angMat]
      linarith
  · have f00 := hf 0 (by omega) 0 (by omega)
    simp only [Mat.mul, Finset.sum_range_succ, Finset.sum_range_zero, ai, ao] at f00
    rw [if_neg (by omega), if_neg (by omega), if_neg (by omega), if_pos ⟨si, so⟩] at hl
    split_ifs at hl with h1 h2
    · cases hl
      have hg : (((j + j') % 2 : ℕ) : ℝ) * π / 2 = 0 := by
        rcases h2 with h2 | h2
        · omega
        · exact h2
      refine span1 _ rfl (M 0 0) ?_
      intro a ha b hb
      obtain rfl : a = 0 := by omega
      obtain rfl : b = 0 := by omega
      simp [angMat, m1, hg]
    · cases hl
      refine ⟨![], ?_⟩
      intro a ha b hb
      obtain rfl : a = 0 := by omega
      obtain rfl : b = 0 := by omega
      rcases jj.1 with rfl | rfl <;> rcases jj.2 with rfl | rfl <;>
        first | (exfalso; norm_num at h2; done) | (norm_num at f00 ⊢; linarith)

/-- The theorem applies to kernels that are not basis elements: a kernel from the trivial representation to itself that is constant on circles. -/
example : ∃ κ : ℝ × ℝ → Mat, KernelConstraint O2.grp (planeAct 0) 1 1 (fun _ => m1 1) (fun _ => m1 1) κ ∧
    κ (0, 0) 0 0 = 1 ∧ κ (2, 0) 0 0 = 5 := by
  refine ⟨fun p => m1 (1 + radius p ^ 2), fun g _ p => ?_, by simp [m1, radius], ?_⟩
  · simp only [radius_planeAct]
    intro i hi j hj
    obtain rfl : i = 0 := by omega
    obtain rfl : j = 0 := by omega
    simp [Mat.mul, m1]
  · simp only [m1_00, radius]
    norm_num

end E2
