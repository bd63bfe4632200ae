import Verif.Lemmas.Bias
import Verif.Model.R2Conv
import Verif.Props.SubgroupsCont

/-!
# C26: the bias is invariant under the output representation

`biasCols` is the matrix `bias_expansion`, `expandBias` its product with the parameters.  The bias which is added to the output is fixed by
the representation of the output type, for all parameters; and all vectors fixed by the representation are obtained for one choice of the
parameters.
-/

namespace E2

open Mat Real

variable {El F : Type}

/-- The claim: invariance for all parameters, and all invariant vectors are obtained. -/
def BiasOk (G : Grp El) (rep : F → Repr El) (outT : List F) : Prop :=
  (∀ b : List ℝ, ∀ g, G.isEl g → ∀ i < typeSize (fun n => (rep n).size) outT,
    mulVec (typeSize (fun n => (rep n).size) outT) (typeMat rep outT g) (outBias rep outT b) i = outBias rep outT b i) ∧
  ∀ v : ℕ → ℝ, (∀ g, G.isEl g → ∀ i < typeSize (fun n => (rep n).size) outT,
      mulVec (typeSize (fun n => (rep n).size) outT) (typeMat rep outT g) v i = v i) →
    ∃ b : List ℝ, b.length = (biasCols 0 (outT.map rep)).length ∧ ∀ i < typeSize (fun n => (rep n).size) outT, v i = outBias rep outT b i

theorem repMat_map (rep : F → Repr El) (t : List F) (g : El) : repMat (t.map rep) g = typeMat rep t g := by
  rw [repMat, typeMat, List.map_map]; rfl

/-- **C26**, for all groups whose irreps other than the trivial one fix no vector. -/
theorem c26_bias (G : Grp El) (rep : F → Repr El) (outT : List F) (h : ∀ n ∈ outT, (rep n).WF ∧ ∀ i ∈ (rep n).irreps, TrivOk G i) :
    BiasOk G rep outT := by
  have hr : ∀ r ∈ outT.map rep, r.WF ∧ ∀ i ∈ r.irreps, TrivOk G i := by
    intro r hr
    obtain ⟨n, hn, rfl⟩ := List.mem_map.1 hr
    exact h n hn
  have hs : ((outT.map rep).map Repr.size).sum = typeSize (fun n => (rep n).size) outT := by
    rw [List.map_map]; rfl
  constructor
  · intro b g hg i hi
    have := expandBias_linear (biasCols 0 (outT.map rep)) b (typeSize (fun n => (rep n).size) outT) (typeMat rep outT g) 0 i ?_
    · simp only [Nat.zero_add] at this; exact this
    · intro v hv
      have := biasCols_fixed (outT.map rep) hr 0 v hv g hg i (by rw [hs]; exact hi)
      rwa [hs, repMat_map] at this
  · intro v hv
    obtain ⟨b, hb, e⟩ := biasCols_complete (outT.map rep) hr 0 v (by
      intro g hg i hi
      rw [hs] at hi ⊢
      rw [repMat_map]
      exact hv g hg i hi)
    rw [hs] at e
    exact ⟨b, hb, fun i hi => by rw [e i hi, Nat.zero_add]; rfl⟩

/-! ### The groups of the library -/

theorem rot_fixed_zero {α : ℝ} (hα : cos α ≠ 1) {x y : ℝ} (h1 : cos α * x - sin α * y = x) (h2 : sin α * x + cos α * y = y) : x = 0 ∧ y = 0 := by
  have hs := sin_sq_add_cos_sq α
  have hc : 1 - cos α ≠ 0 := fun h => hα (by linarith)
  have e1 : 2 * (1 - cos α) * x = 0 := by linear_combination (-(1 - cos α)) * h1 + (sin α) * h2 - x * hs
  have e2 : 2 * (1 - cos α) * y = 0 := by linear_combination (-sin α) * h1 + (-(1 - cos α)) * h2 - y * hs
  constructor
  · rcases mul_eq_zero.1 e1 with h | h
    · exact absurd h (mul_ne_zero two_ne_zero hc)
    · exact h
  · rcases mul_eq_zero.1 e2 with h | h
    · exact absurd h (mul_ne_zero two_ne_zero hc)
    · exact h

theorem m1_fixed_zero {c : ℝ} (hc : c ≠ 1) {v : ℕ → ℝ} (h : mulVec 1 (m1 c) v 0 = v 0) : v 0 = 0 := by
  have h' : c * v 0 = v 0 := by simpa [mulVec, m1] using h
  have : (c - 1) * v 0 = 0 := by linarith
  rcases mul_eq_zero.1 this with h | h
  · exact absurd (by linarith) hc
  · exact h

theorem psi_fixed_zero {θ k : ℝ} (hc : cos (k * θ) ≠ 1) {v : ℕ → ℝ} (h : ∀ i < 2, mulVec 2 (psi θ k 0) v i = v i) : ∀ a < 2, v a = 0 := by
  have h0 := h 0 (by omega)
  have h1 := h 1 (by omega)
  simp only [mulVec, psi, Finset.sum_range_succ, Finset.sum_range_zero, m2, add_zero, zero_add] at h0 h1
  obtain ⟨e0, e1⟩ := rot_fixed_zero hc (x := v 0) (y := v 1) (by linarith) (by linarith)
  intro a ha
  interval_cases a
  · exact e0
  · exact e1

theorem cos_freq_ne_one {N k : ℕ} (h0 : k ≠ 0) (hk : 2 * k ≤ N) : cos (k * (2 * π / N)) ≠ 1 := by
  have hN : (0 : ℝ) < N := by exact_mod_cast (by omega : 0 < N)
  have hk' : 2 * (k : ℝ) ≤ N := by exact_mod_cast hk
  have hk0 : (0 : ℝ) < k := by exact_mod_cast Nat.pos_of_ne_zero h0
  have hp := pi_pos
  have hle : k * (2 * π / N) ≤ π := by
    rw [← mul_div_assoc, div_le_iff₀ hN]; nlinarith
  have hpos : 0 < k * (2 * π / N) := by positivity
  have := Real.cos_lt_cos_of_nonneg_of_le_pi (le_refl 0) hle hpos
  rw [cos_zero] at this
  exact ne_of_lt this

theorem trivOk_of_triv {G : Grp El} {i : Irrep El} (hf : i.freq = 0) (hl : i.flip = 0) (hs : i.size = 1) (hm : ∀ g, G.isEl g → i.mat g 0 0 = 1) : TrivOk G i :=
  ⟨fun _ => ⟨hs, hm⟩, fun h => by simp [isTrivial, hf, hl] at h⟩

theorem trivOk_of_non {G : Grp El} {i : Irrep El} (hf : ¬ (i.freq = 0 ∧ i.flip = 0)) (h : ∀ v, Fixed G i.size i.mat v → ∀ a < i.size, v a = 0) : TrivOk G i :=
  ⟨fun h => absurd (by simpa [isTrivial] using h) hf, fun _ => h⟩

theorem Cyclic.trivOk {N : ℕ} (hN : 0 < N) {k : ℕ} {i : Irrep ℤ} (h : Cyclic.irrep N k = some i) : TrivOk (Cyclic.grp N) i := by
  have ho : Cyclic.order N = N := Cyclic.order_eq N
  unfold Cyclic.irrep at h
  rw [ho] at h
  split_ifs at h with h1 h2 h3 <;> simp only [Option.some.injEq] at h <;> subst h
  · exact trivOk_of_triv h2 rfl rfl fun _ _ => by simp [m1]
  · refine trivOk_of_non (by simp [h2]) fun v hv a ha => ?_
    have h1 : (Cyclic.grp N).isEl 1 := (Cyclic.isElement_iff N 1).2 ⟨by omega, by omega⟩
    have := hv 1 h1 0 (by simp)
    simp only at ha
    obtain rfl : a = 0 := by omega
    refine m1_fixed_zero ?_ this
    have := cos_freq_ne_one (N := N) h2 (by omega)
    simpa using this
  · refine trivOk_of_non (by simp [h2]) fun v hv a ha => ?_
    have h1 : (Cyclic.grp N).isEl 1 := (Cyclic.isElement_iff N 1).2 ⟨by omega, by omega⟩
    refine psi_fixed_zero (θ := ((1 : ℤ) : ℝ) * (2 * π / N)) (k := k) ?_ (fun i hi => hv 1 h1 i hi) a ha
    have := cos_freq_ne_one (N := N) h2 (by omega)
    simpa using this

theorem SO2.trivOk (k : ℕ) : TrivOk SO2.grp (SO2.irrep k) := by
  unfold SO2.irrep
  split_ifs with h
  · exact trivOk_of_triv rfl rfl rfl fun _ _ => by simp [m1]
  · refine trivOk_of_non (by simp [h]) fun v hv a ha => ?_
    refine psi_fixed_zero (θ := π / k) (k := k) ?_ (fun i hi => hv (π / k) trivial i hi) a ha
    have : (k : ℝ) ≠ 0 := by exact_mod_cast h
    rw [mul_div_cancel₀ _ this, cos_pi]; norm_num

theorem O2.trivOk {j k : ℕ} {i : Irrep (ℤ × ℝ)} (h : O2.irrep j k = some i) : TrivOk O2.grp i := by
  unfold O2.irrep at h
  split_ifs at h with h1 h2 h3 h4 <;> simp only [Option.some.injEq] at h <;> subst h
  · exact trivOk_of_triv h3 h2 rfl fun _ _ => by simp [m1]
  · refine trivOk_of_non (by simp [h2]) fun v hv a ha => ?_
    have := hv (1, 0) (Or.inr rfl) 0 (by simp)
    simp only at ha
    obtain rfl : a = 0 := by omega
    exact m1_fixed_zero (by norm_num) this
  · refine trivOk_of_non (by simp [h2]) fun v hv a ha => ?_
    have hv' := hv (0, π / k) (Or.inl rfl)
    simp only [psichi_zero] at hv'
    refine psi_fixed_zero (θ := π / k) (k := k) ?_ hv' a ha
    have : (k : ℝ) ≠ 0 := by exact_mod_cast h4
    rw [mul_div_cancel₀ _ this, cos_pi]; norm_num

theorem Dihedral.trivOk {N : ℕ} (hN : 0 < N) {j k : ℕ} {i : Irrep (ℤ × ℤ)} (h : Dihedral.irrep N j k = some i) : TrivOk (Dihedral.grp N) i := by
  have he : k ≠ 0 → k ≤ N / 2 → (Dihedral.grp N).isEl (0, 1) := by
    intro h1 h2
    have : (1 : ℤ) < N := by omega
    simp [Dihedral.grp, Dihedral.isElement, this]
  unfold Dihedral.irrep at h
  split_ifs at h with h1 h2 h3 h4 h5 h6 h7 <;> simp only [Option.some.injEq] at h <;> subst h
  · exact trivOk_of_triv h4 h3 rfl fun _ _ => by simp [m1]
  · refine trivOk_of_non (by simp [h4]) fun v hv a ha => ?_
    have := hv (0, 1) (he h4 (by omega)) 0 (by simp)
    simp only at ha
    obtain rfl : a = 0 := by omega
    refine m1_fixed_zero ?_ this
    have := cos_freq_ne_one (N := N) h4 (by omega)
    simpa using this
  · refine trivOk_of_non (by simp [h3]) fun v hv a ha => ?_
    have := hv (1, 0) (by simp [Dihedral.grp, Dihedral.isElement, hN]) 0 (by simp)
    simp only at ha
    obtain rfl : a = 0 := by omega
    exact m1_fixed_zero (by norm_num) this
  · refine trivOk_of_non (by simp [h3]) fun v hv a ha => ?_
    have := hv (0, 1) (he h6 (by omega)) 0 (by simp)
    simp only at ha
    obtain rfl : a = 0 := by omega
    refine m1_fixed_zero ?_ this
    have := cos_freq_ne_one (N := N) h6 (by omega)
    simpa using this
  · refine trivOk_of_non (by simp [h3]) fun v hv a ha => ?_
    have hv' := hv (0, 1) (he h6 (by omega))
    simp only [psichi_zero] at hv'
    refine psi_fixed_zero (k := k) ?_ hv' a ha
    have := cos_freq_ne_one (N := N) h6 (by omega)
    simpa using this

/-- **C26 for the cyclic groups** (`N = 1`: the trivial group; `N = 2`: also the group of flips). -/
theorem c26_cyclic (N : ℕ) (hN : 0 < N) (rep : F → Repr ℤ) (outT : List F)
    (hr : ∀ n ∈ outT, (rep n).WF ∧ ∀ i ∈ (rep n).irreps, ∃ k, Cyclic.irrep N k = some i) : BiasOk (Cyclic.grp N) rep outT :=
  c26_bias _ rep outT fun n hn => ⟨(hr n hn).1, fun i hi => by obtain ⟨k, hk⟩ := (hr n hn).2 i hi; exact Cyclic.trivOk hN hk⟩

/-- **C26 for the dihedral groups**. -/
theorem c26_dihedral (N : ℕ) (hN : 0 < N) (rep : F → Repr (ℤ × ℤ)) (outT : List F)
    (hr : ∀ n ∈ outT, (rep n).WF ∧ ∀ i ∈ (rep n).irreps, ∃ j k, Dihedral.irrep N j k = some i) : BiasOk (Dihedral.grp N) rep outT :=
  c26_bias _ rep outT fun n hn => ⟨(hr n hn).1, fun i hi => by obtain ⟨j, k, hk⟩ := (hr n hn).2 i hi; exact Dihedral.trivOk hN hk⟩

/-- **C26 for SO(2)**. -/
theorem c26_so2 (rep : F → Repr ℝ) (outT : List F)
    (hr : ∀ n ∈ outT, (rep n).WF ∧ ∀ i ∈ (rep n).irreps, ∃ k, i = SO2.irrep k) : BiasOk SO2.grp rep outT :=
  c26_bias _ rep outT fun n hn => ⟨(hr n hn).1, fun i hi => by obtain ⟨k, rfl⟩ := (hr n hn).2 i hi; exact SO2.trivOk k⟩

/-- **C26 for O(2)**. -/
theorem c26_o2 (rep : F → Repr (ℤ × ℝ)) (outT : List F)
    (hr : ∀ n ∈ outT, (rep n).WF ∧ ∀ i ∈ (rep n).irreps, ∃ j k, O2.irrep j k = some i) : BiasOk O2.grp rep outT :=
  c26_bias _ rep outT fun n hn => ⟨(hr n hn).1, fun i hi => by obtain ⟨j, k, hk⟩ := (hr n hn).2 i hi; exact O2.trivOk hk⟩

/-- A type with the irreps of frequency 0 and 1 of SO(2) in one representation and the trivial one in another: two parameters, and the bias
is zero on the channels of frequency 1. -/
example : let rep : ℕ → Repr ℝ := fun n => if n = 0 then ⟨[SO2.irrep 1, SO2.irrep 0], Mat.one, Mat.one⟩ else ⟨[SO2.irrep 0], Mat.one, Mat.one⟩
    BiasOk SO2.grp rep [0, 1] ∧ (List.range 4).map (outBias rep [0, 1] [5, 7]) = [0, 0, 5, 7] := by
  intro rep
  refine ⟨c26_so2 rep [0, 1] fun n hn => ?_, ?_⟩
  · by_cases h : n = 0
    · subst h
      exact ⟨⟨MEq_one_mul _ _ _, MEq_one_mul _ _ _⟩, by simp [rep]⟩
    · simp only [rep, if_neg h]
      exact ⟨⟨MEq_one_mul _ _ _, MEq_one_mul _ _ _⟩, by simp⟩
  · have e0 : (SO2.irrep 0).size = 1 := rfl
    have e1 : (SO2.irrep 1).size = 2 := rfl
    have t0 : isTrivial (SO2.irrep 0) = true := rfl
    have t1 : isTrivial (SO2.irrep 1) = false := by simp [isTrivial, SO2.irrep]
    simp [rep, outBias, biasCols, trivPos, t0, t1, e0, e1, expandBias, Repr.size, Mat.one, List.range_succ]

end E2
