import Verif.Lemmas.KernelBasis
import Verif.Props.BandSpec

/-!
# Linear combinations of angular elements, and their averages over the rotations and the reflection of a finite group
-/

set_option linter.unusedSimpArgs false

namespace E2

open Finset Mat Real

/-- `f` is a linear combination of angular elements satisfying `P`. -/
def LinComb (so si : ℕ) (P : AngElem → Prop) (f : ℝ → Mat) : Prop :=
  ∃ L : List (ℝ × AngElem), (∀ x ∈ L, P x.2) ∧
    ∀ φ, MEq so si (f φ) fun i j => (L.map fun x => x.1 * angMat so si x.2 φ i j).sum

theorem LinComb.zero (so si : ℕ) (P : AngElem → Prop) : LinComb so si P fun _ _ _ => 0 :=
  ⟨[], by simp, fun φ i _ j _ => by simp⟩

theorem LinComb.add {so si : ℕ} {P : AngElem → Prop} {f g : ℝ → Mat} (hf : LinComb so si P f) (hg : LinComb so si P g) :
    LinComb so si P fun φ i j => f φ i j + g φ i j := by
  obtain ⟨L, h1, h2⟩ := hf
  obtain ⟨M, h3, h4⟩ := hg
  refine ⟨L ++ M, fun x hx => (List.mem_append.1 hx).elim (h1 x) (h3 x), fun φ i hi j hj => ?_⟩
  simp only [List.map_append, List.sum_append]
  rw [h2 φ i hi j hj, h4 φ i hi j hj]

theorem LinComb.smul {so si : ℕ} {P : AngElem → Prop} {f : ℝ → Mat} (c : ℝ) (hf : LinComb so si P f) :
    LinComb so si P fun φ i j => c * f φ i j := by
  obtain ⟨L, h1, h2⟩ := hf
  refine ⟨L.map fun x => (c * x.1, x.2), fun x hx => ?_, fun φ i hi j hj => ?_⟩
  · obtain ⟨y, hy, rfl⟩ := List.mem_map.1 hx
    exact h1 y hy
  · simp only [List.map_map, Function.comp_def]
    rw [h2 φ i hi j hj, ← List.sum_map_mul_left]
    simp only [_root_.mul_assoc]

theorem LinComb.congr {so si : ℕ} {P : AngElem → Prop} {f g : ℝ → Mat} (hf : LinComb so si P f) (h : ∀ φ, MEq so si (g φ) (f φ)) :
    LinComb so si P g := by
  obtain ⟨L, h1, h2⟩ := hf
  exact ⟨L, h1, fun φ => (h φ).trans (h2 φ)⟩

theorem LinComb.sum {so si : ℕ} {P : AngElem → Prop} {ι : Type} (s : Finset ι) {f : ι → ℝ → Mat} (hf : ∀ k ∈ s, LinComb so si P (f k)) :
    LinComb so si P fun φ i j => ∑ k ∈ s, f k φ i j := by
  classical
  induction s using Finset.induction_on with
  | empty => exact (LinComb.zero so si P).congr fun φ i _ j _ => by simp
  | insert a s ha ih =>
    refine ((hf a (by simp)).add (ih fun k hk => hf k (by simp [hk]))).congr fun φ i _ j _ => ?_
    rw [Finset.sum_insert ha]

theorem LinComb.mono {so si : ℕ} {P Q : AngElem → Prop} {f : ℝ → Mat} (hf : LinComb so si P f) (h : ∀ e, P e → Q e) :
    LinComb so si Q f := by
  obtain ⟨L, h1, h2⟩ := hf
  exact ⟨L, fun x hx => h _ (h1 x hx), h2⟩

/-- A linear combination of elements that occur in a list is a linear combination of the list. -/
theorem LinComb.toFin {so si : ℕ} {P : AngElem → Prop} {f : ℝ → Mat} (hf : LinComb so si P f) {l : List AngElem}
    (hl : ∀ e, P e → ∃ e' ∈ l, ∀ φ, angMat so si e' φ = angMat so si e φ) :
    ∃ c : Fin l.length → ℝ, ∀ φ, MEq so si (f φ) fun i j => ∑ k, c k * angMat so si l[k] φ i j := by
  obtain ⟨L, h1, h2⟩ := hf
  suffices H : ∃ c : Fin l.length → ℝ, ∀ φ i j,
      (L.map fun x => x.1 * angMat so si x.2 φ i j).sum = ∑ k, c k * angMat so si l[k] φ i j by
    obtain ⟨c, hc⟩ := H
    exact ⟨c, fun φ i hi j hj => (h2 φ i hi j hj).trans (hc φ i j)⟩
  clear h2
  induction L with
  | nil => exact ⟨fun _ => 0, fun φ i j => by simp⟩
  | cons x L ih =>
    obtain ⟨c, hc⟩ := ih fun y hy => h1 y (List.mem_cons_of_mem _ hy)
    obtain ⟨e', he', heq⟩ := hl _ (h1 x (by simp))
    obtain ⟨k0, hk0, rfl⟩ := List.mem_iff_getElem.1 he'
    refine ⟨fun k => c k + if k = ⟨k0, hk0⟩ then x.1 else 0, fun φ i j => ?_⟩
    simp only [List.map_cons, List.sum_cons, hc, add_mul, Finset.sum_add_distrib, ite_mul, zero_mul]
    rw [Finset.sum_ite_eq' Finset.univ (⟨k0, hk0⟩ : Fin l.length)]
    simp only [Finset.mem_univ, if_true]
    rw [_root_.add_comm]
    congr 1
    rw [← heq φ]
    rfl

/-! ### Trigonometric polynomials -/

theorem TrigPoly.shift {so si F : ℕ} {f : ℝ → Mat} (hf : TrigPoly so si F f) (δ : ℝ) : TrigPoly so si F fun φ => f (φ + δ) := by
  obtain ⟨a, b, h⟩ := hf
  refine ⟨fun μ i j => a μ i j * cos (μ * δ) + b μ i j * sin (μ * δ), fun μ i j => b μ i j * cos (μ * δ) - a μ i j * sin (μ * δ),
    fun φ i hi j hj => ?_⟩
  refine (h _ i hi j hj).trans (Finset.sum_congr rfl fun μ _ => ?_)
  rw [mul_add, Real.cos_add, Real.sin_add]
  ring

/-- The elements of the shape used by the bases, of frequency at most `F`. -/
def Atom (so si F : ℕ) (e : AngElem) : Prop := ElemShape so si e ∧ |e.mu| ≤ F

theorem atom_mk {so si F : ℕ} {mu : ℤ} {γ : ℝ} {s : ℤ} (hm : |mu| ≤ F) (hγ : γ = 0 ∨ γ = π / 2) (hs : s = 0 ∨ s = 1)
    (h0 : ¬ (so = 2 ∧ si = 2) → s = 0) (h1 : so = 1 → si = 1 → 0 ≤ mu ∧ (mu = 0 → γ = 0)) : Atom so si F ⟨mu, γ, s, 0⟩ :=
  ⟨⟨hγ, hs, h0, h1⟩, hm⟩

/-- A matrix function with one non-zero entry. -/
noncomputable def entryFun (i0 j0 : ℕ) (u : ℝ → ℝ) : ℝ → Mat := fun φ i j => if i = i0 ∧ j = j0 then u φ else 0

theorem entry_trig {so si F : ℕ} (hso : so = 1 ∨ so = 2) (hsi : si = 1 ∨ si = 2) {i0 j0 : ℕ} (hi : i0 < so) (hj : j0 < si) {μ : ℕ}
    (hμ : μ ≤ F) :
    LinComb so si (Atom so si F) (entryFun i0 j0 fun φ => cos (μ * φ)) ∧ LinComb so si (Atom so si F) (entryFun i0 j0 fun φ => sin (μ * φ)) := by
  have b1 : |(μ : ℤ)| ≤ F := by rw [Nat.abs_cast]; exact_mod_cast hμ
  have b2 : |(-μ : ℤ)| ≤ F := by rw [abs_neg]; exact b1
  have hp : ∀ x : ℝ, cos (x + π / 2) = -sin x := Real.cos_add_pi_div_two
  have hq : ∀ x : ℝ, sin (x + π / 2) = cos x := Real.sin_add_pi_div_two
  rcases hso with rfl | rfl <;> rcases hsi with rfl | rfl
  · obtain rfl : i0 = 0 := by omega
    obtain rfl : j0 = 0 := by omega
    constructor
    · refine ⟨[(1, ⟨μ, 0, 0, 0⟩)], ?_, fun φ i hi j hj => ?_⟩
      · simp only [List.mem_singleton, forall_eq]
        exact atom_mk b1 (Or.inl rfl) (Or.inl rfl) (fun _ => rfl) fun _ _ => ⟨by positivity, fun _ => rfl⟩
      · obtain rfl : i = 0 := by omega
        obtain rfl : j = 0 := by omega
        simp [entryFun, angMat, m1]
    · by_cases h0 : μ = 0
      · subst h0
        exact (LinComb.zero 1 1 _).congr fun φ i _ j _ => by simp [entryFun]
      · refine ⟨[(-1, ⟨μ, π / 2, 0, 0⟩)], ?_, fun φ i hi j hj => ?_⟩
        · simp only [List.mem_singleton, forall_eq]
          exact atom_mk b1 (Or.inr rfl) (Or.inl rfl) (fun _ => rfl) fun _ _ => ⟨by positivity, fun h => absurd (by exact_mod_cast h) h0⟩
        · obtain rfl : i = 0 := by omega
          obtain rfl : j = 0 := by omega
          simp [entryFun, angMat, m1, hp]
  · obtain rfl : i0 = 0 := by omega
    have A : ∀ (mu : ℤ) (γ : ℝ), |mu| ≤ F → γ = 0 ∨ γ = π / 2 → Atom 1 2 F ⟨mu, γ, 0, 0⟩ := fun mu γ h h' =>
      atom_mk h h' (Or.inl rfl) (fun _ => rfl) (by simp)
    obtain rfl | rfl : j0 = 0 ∨ j0 = 1 := by omega
    · constructor
      · refine ⟨[(1/2, ⟨μ, 0, 0, 0⟩), (1/2, ⟨-μ, 0, 0, 0⟩)], ?_, fun φ => MEq12 ?_ ?_⟩
        · simp [A _ _ b1, A _ _ b2]
        · simp [entryFun, angMat]; ring
        · simp [entryFun, angMat]
      · refine ⟨[(-1/2, ⟨μ, π / 2, 0, 0⟩), (1/2, ⟨-μ, π / 2, 0, 0⟩)], ?_, fun φ => MEq12 ?_ ?_⟩
        · simp [A _ _ b1, A _ _ b2]
        · simp [entryFun, angMat, hp, hq]; ring
        · simp [entryFun, angMat, hp, hq]; ring
    · constructor
      · refine ⟨[(1/2, ⟨μ, π / 2, 0, 0⟩), (1/2, ⟨-μ, π / 2, 0, 0⟩)], ?_, fun φ => MEq12 ?_ ?_⟩
        · simp [A _ _ b1, A _ _ b2]
        · simp [entryFun, angMat, hp, hq]
        · simp [entryFun, angMat, hp, hq]; ring
      · refine ⟨[(1/2, ⟨μ, 0, 0, 0⟩), (-1/2, ⟨-μ, 0, 0, 0⟩)], ?_, fun φ => MEq12 ?_ ?_⟩
        · simp [A _ _ b1, A _ _ b2]
        · simp [entryFun, angMat]; ring
        · simp [entryFun, angMat]; ring
  · obtain rfl : j0 = 0 := by omega
    have A : ∀ (mu : ℤ) (γ : ℝ), |mu| ≤ F → γ = 0 ∨ γ = π / 2 → Atom 2 1 F ⟨mu, γ, 0, 0⟩ := fun mu γ h h' =>
      atom_mk h h' (Or.inl rfl) (fun _ => rfl) (by simp)
    obtain rfl | rfl : i0 = 0 ∨ i0 = 1 := by omega
    · constructor
      · refine ⟨[(1/2, ⟨μ, 0, 0, 0⟩), (1/2, ⟨-μ, 0, 0, 0⟩)], ?_, fun φ => MEq21 ?_ ?_⟩
        · simp [A _ _ b1, A _ _ b2]
        · simp [entryFun, angMat]; ring
        · simp [entryFun, angMat]
      · refine ⟨[(-1/2, ⟨μ, π / 2, 0, 0⟩), (1/2, ⟨-μ, π / 2, 0, 0⟩)], ?_, fun φ => MEq21 ?_ ?_⟩
        · simp [A _ _ b1, A _ _ b2]
        · simp [entryFun, angMat, hp, hq]; ring
        · simp [entryFun, angMat, hp, hq]; ring
    · constructor
      · refine ⟨[(1/2, ⟨μ, π / 2, 0, 0⟩), (1/2, ⟨-μ, π / 2, 0, 0⟩)], ?_, fun φ => MEq21 ?_ ?_⟩
        · simp [A _ _ b1, A _ _ b2]
        · simp [entryFun, angMat, hp, hq]
        · simp [entryFun, angMat, hp, hq]; ring
      · refine ⟨[(1/2, ⟨μ, 0, 0, 0⟩), (-1/2, ⟨-μ, 0, 0, 0⟩)], ?_, fun φ => MEq21 ?_ ?_⟩
        · simp [A _ _ b1, A _ _ b2]
        · simp [entryFun, angMat]; ring
        · simp [entryFun, angMat]; ring
  · have A : ∀ (mu : ℤ) (γ : ℝ) (s : ℤ), |mu| ≤ F → γ = 0 ∨ γ = π / 2 → s = 0 ∨ s = 1 → Atom 2 2 F ⟨mu, γ, s, 0⟩ := fun mu γ s h h' h'' =>
      atom_mk h h' h'' (fun h => absurd ⟨rfl, rfl⟩ h) (by simp)
    have E22 : ∀ {A B : Mat}, A 0 0 = B 0 0 → A 0 1 = B 0 1 → A 1 0 = B 1 0 → A 1 1 = B 1 1 → MEq 2 2 A B := by
      intro A B h0 h1 h2 h3 i hi j hj
      match i, hi, j, hj with
      | 0, _, 0, _ => exact h0
      | 0, _, 1, _ => exact h1
      | 1, _, 0, _ => exact h2
      | 1, _, 1, _ => exact h3
    -- the first column holds `(x, y) ↦ ¼ …`, by the choice of the coefficients
    have key : ∀ (w : ℝ → Mat) (γ : ℝ), γ = 0 ∨ γ = π / 2 → ∀ x y z t : ℝ,
        (∀ φ, MEq 2 2 (w φ) fun i j => x * psichi φ 0 μ γ i j + y * psichi φ 0 (-μ) γ i j + z * psichi φ 1 μ γ i j + t * psichi φ 1 (-μ) γ i j) →
        LinComb 2 2 (Atom 2 2 F) w := by
      intro w γ hγ x y z t h
      refine ⟨[(x, ⟨μ, γ, 0, 0⟩), (y, ⟨-μ, γ, 0, 0⟩), (z, ⟨μ, γ, 1, 0⟩), (t, ⟨-μ, γ, 1, 0⟩)], ?_, fun φ => (h φ).trans ?_⟩
      · simp [A _ _ _ b1 hγ, A _ _ _ b2 hγ]
      · refine MEq.of_eq ?_
        funext i j
        simp [angMat]; ring
    obtain rfl | rfl : i0 = 0 ∨ i0 = 1 := by omega
    · obtain rfl | rfl : j0 = 0 ∨ j0 = 1 := by omega
      · exact ⟨key _ 0 (Or.inl rfl) (1/4) (1/4) (1/4) (1/4) fun φ => by
            apply E22 <;> simp [entryFun, psichi, m2] <;> ring,
          key _ (π / 2) (Or.inr rfl) (-1/4) (1/4) (-1/4) (1/4) fun φ => by
            apply E22 <;> simp [entryFun, psichi, m2, hp, hq] <;> ring⟩
      · exact ⟨key _ (π / 2) (Or.inr rfl) (-1/4) (-1/4) (1/4) (1/4) fun φ => by
            apply E22 <;> simp [entryFun, psichi, m2, hp, hq] <;> ring,
          key _ 0 (Or.inl rfl) (-1/4) (1/4) (1/4) (-1/4) fun φ => by
            apply E22 <;> simp [entryFun, psichi, m2] <;> ring⟩
    · obtain rfl | rfl : j0 = 0 ∨ j0 = 1 := by omega
      · exact ⟨key _ (π / 2) (Or.inr rfl) (1/4) (1/4) (1/4) (1/4) fun φ => by
            apply E22 <;> simp [entryFun, psichi, m2, hp, hq] <;> ring,
          key _ 0 (Or.inl rfl) (1/4) (-1/4) (1/4) (-1/4) fun φ => by
            apply E22 <;> simp [entryFun, psichi, m2] <;> ring⟩
      · exact ⟨key _ 0 (Or.inl rfl) (1/4) (1/4) (-1/4) (-1/4) fun φ => by
            apply E22 <;> simp [entryFun, psichi, m2] <;> ring,
          key _ (π / 2) (Or.inr rfl) (-1/4) (1/4) (1/4) (-1/4) fun φ => by
            apply E22 <;> simp [entryFun, psichi, m2, hp, hq] <;> ring⟩

/-- Every trigonometric polynomial of degree at most `F` is a linear combination of elements of frequency at most `F`. -/
theorem TrigPoly.linComb {so si F : ℕ} (hso : so = 1 ∨ so = 2) (hsi : si = 1 ∨ si = 2) {f : ℝ → Mat} (hf : TrigPoly so si F f) :
    LinComb so si (Atom so si F) f := by
  obtain ⟨a, b, h⟩ := hf
  have H : LinComb so si (Atom so si F) fun φ i j => ∑ i0 ∈ range so, ∑ j0 ∈ range si, ∑ μ ∈ range (F + 1),
      (a μ i0 j0 * entryFun i0 j0 (fun φ => cos (μ * φ)) φ i j + b μ i0 j0 * entryFun i0 j0 (fun φ => sin (μ * φ)) φ i j) := by
    refine LinComb.sum _ fun i0 hi0 => LinComb.sum _ fun j0 hj0 => LinComb.sum _ fun μ hμ => ?_
    obtain ⟨h1, h2⟩ := entry_trig hso hsi (Finset.mem_range.1 hi0) (Finset.mem_range.1 hj0) (Nat.lt_succ_iff.1 (Finset.mem_range.1 hμ))
    exact (h1.smul _).add (h2.smul _)
  refine H.congr fun φ i hi j hj => ?_
  rw [h φ i hi j hj]
  dsimp only
  symm
  rw [Finset.sum_eq_single i, Finset.sum_eq_single j]
  · exact Finset.sum_congr rfl fun μ _ => by simp [entryFun]
  · intro j0 _ hne
    exact Finset.sum_eq_zero fun μ _ => by simp [entryFun, hne.symm]
  · intro h; exact absurd (Finset.mem_range.2 hj) h
  · intro i0 _ hne
    exact Finset.sum_eq_zero fun j0 _ => Finset.sum_eq_zero fun μ _ => by simp [entryFun, hne.symm]
  · intro h; exact absurd (Finset.mem_range.2 hi) h

/-! ### Rotations -/

/-- The frequency of the elements kept by the rotations. -/
noncomputable def baseFreq (so si m n : ℕ) (e : AngElem) : ℤ :=
  if so = 2 ∧ si = 2 then m - (if e.s ≠ 0 then -1 else 1) * n else if so = 1 ∧ si = 1 then m - n else n + m

/-- The element with its phase shifted. -/
noncomputable def AngElem.shift (e : AngElem) (δ : ℝ) : AngElem := { e with gamma := e.gamma + δ }

theorem angMat_phase (so si : ℕ) {e e' : AngElem} {φ φ' : ℝ} (hs : e.s = e'.s) (h : e.mu * φ + e.gamma = e'.mu * φ' + e'.gamma) :
    angMat so si e φ = angMat so si e' φ' := by
  unfold angMat
  rw [h, psichi_std φ, psichi_std φ', h, hs]

theorem angMat_rotate {so si m n fo fi : ℕ} (hso : so = 1 ∨ so = 2) (hsi : si = 1 ∨ si = 2) {e : AngElem} (hs : e.s = 0 ∨ e.s = 1) {α : ℝ}
    {A B : Mat} (hA : IrrepAt si A n fi 0 α) (hB : IrrepAt so B m fo 0 α) (φ : ℝ) :
    MEq so si (Mat.mul so B (angMat so si e φ))
      (Mat.mul si (angMat so si (e.shift ((baseFreq so si m n e - e.mu) * α)) (α + φ)) A) := by
  let e' : AngElem := ⟨baseFreq so si m n e, e.mu * φ + e.gamma - baseFreq so si m n e * φ, e.s, 0⟩
  have e1 : angMat so si e φ = angMat so si e' φ := angMat_phase so si rfl (by simp only [e']; ring)
  have e2 : angMat so si (e.shift ((baseFreq so si m n e - e.mu) * α)) (α + φ) = angMat so si e' (α + φ) :=
    angMat_phase so si rfl (by simp only [e', AngElem.shift]; ring)
  rw [e1, e2]
  have h := angMat_intertwine (e := e') (Or.inl rfl) hA hB ?_ φ
  · simpa [sg] using h
  · rcases hso with rfl | rfl <;> rcases hsi with rfl | rfl
    · exact Or.inr (Or.inr (Or.inr ⟨rfl, rfl, ⟨0, by simp [e', baseFreq]⟩, Or.inl rfl⟩))
    · exact Or.inr (Or.inl ⟨rfl, rfl, ⟨0, by simp [e', baseFreq]⟩, Or.inl rfl⟩)
    · exact Or.inr (Or.inr (Or.inl ⟨rfl, rfl, ⟨0, by simp [e', baseFreq]⟩, Or.inl rfl⟩))
    · exact Or.inl ⟨rfl, rfl, hs, ⟨0, by simp [e', baseFreq, sg]⟩, Or.inl rfl⟩

theorem angMat_shift (so si : ℕ) (e : AngElem) (δ φ : ℝ) (i j : ℕ) :
    angMat so si (e.shift δ) φ i j = cos δ * angMat so si e φ i j + sin δ * angMat so si (e.shift (π / 2)) φ i j := by
  have h1 : cos (e.mu * φ + (e.gamma + δ)) = cos δ * cos (e.mu * φ + e.gamma) + sin δ * cos (e.mu * φ + (e.gamma + π / 2)) := by
    rw [← _root_.add_assoc, ← _root_.add_assoc, Real.cos_add_pi_div_two, Real.cos_add]; ring
  have h2 : sin (e.mu * φ + (e.gamma + δ)) = cos δ * sin (e.mu * φ + e.gamma) + sin δ * sin (e.mu * φ + (e.gamma + π / 2)) := by
    rw [← _root_.add_assoc, ← _root_.add_assoc, Real.sin_add_pi_div_two, Real.sin_add]; ring
  simp only [angMat, AngElem.shift]
  split_ifs
  · match i, j with
    | 0, 0 => simp only [psichi, m2]; exact h1
    | 0, 1 => simp only [psichi, m2]; rw [h2]; ring
    | 1, 0 => simp only [psichi, m2]; exact h2
    | 1, 1 => simp only [psichi, m2]; rw [h1]; ring
    | 0, j + 2 => simp [psichi, m2]
    | 1, j + 2 => simp [psichi, m2]
    | i + 2, j => simp [psichi, m2]
  · dsimp only
    split_ifs
    · exact h1
    · exact h2
    · simp
  · dsimp only
    split_ifs
    · exact h1
    · exact h2
    · simp
  · simp only [m1]
    split_ifs
    · exact h1
    · simp
  · simp

/-- The average over the rotations of order `N` of an element is itself or 0. -/
theorem angMat_avg {N : ℕ} (hN : 0 < N) (so si m n : ℕ) (e : AngElem) (φ : ℝ) (i j : ℕ) :
    ∑ g ∈ range N, angMat so si (e.shift ((baseFreq so si m n e - e.mu) * (((g : ℤ) : ℝ) * (2 * π / N)))) φ i j
      = if (N : ℤ) ∣ baseFreq so si m n e - e.mu then N * angMat so si e φ i j else 0 := by
  rw [Finset.sum_congr rfl fun g _ => angMat_shift so si e _ φ i j, Finset.sum_add_distrib, ← Finset.sum_mul, ← Finset.sum_mul]
  have h1 := sum_cos_int N hN (baseFreq so si m n e - e.mu)
  have h2 := sum_sin_int N hN (baseFreq so si m n e - e.mu)
  have c : ∀ g : ℕ, ((baseFreq so si m n e : ℝ) - e.mu) * (((g : ℤ) : ℝ) * (2 * π / N))
      = g * ((baseFreq so si m n e - e.mu : ℤ) : ℝ) * (2 * π / N) := by
    intro g; push_cast; ring
  simp only [c]
  rw [h1, h2]
  split_ifs <;> simp

theorem mul_list {so si : ℕ} (L : List (ℝ × AngElem)) (B C : Mat) (φ : ℝ) (i j : ℕ) :
    Mat.mul si (Mat.mul so B fun i j => (L.map fun x => x.1 * angMat so si x.2 φ i j).sum) C i j
      = (L.map fun x => x.1 * Mat.mul si (Mat.mul so B (angMat so si x.2 φ)) C i j).sum := by
  induction L with
  | nil => simp [Mat.mul]
  | cons x L ih =>
    simp only [List.map_cons, List.sum_cons]
    rw [← ih]
    simp only [Mat.mul, mul_add, add_mul, Finset.sum_add_distrib, Finset.mul_sum, Finset.sum_mul]
    congr 1
    refine Finset.sum_congr rfl fun a _ => Finset.sum_congr rfl fun b _ => by ring

/-- A linear combination of elements that is fixed by the rotations of order `N` is a linear combination of those of its elements whose
frequency is congruent to the base frequency. -/
theorem LinComb.rotate {N : ℕ} (hN : 0 < N) {so si m n fo fi : ℕ} (hso : so = 1 ∨ so = 2) (hsi : si = 1 ∨ si = 2) {P : AngElem → Prop}
    (hP : ∀ e, P e → e.s = 0 ∨ e.s = 1) {f : ℝ → Mat} (hf : LinComb so si P f) (A A' B : ℤ → Mat)
    (hA : ∀ g : ℤ, IrrepAt si (A g) n fi 0 (g * (2 * π / N))) (hB : ∀ g : ℤ, IrrepAt so (B g) m fo 0 (g * (2 * π / N)))
    (hinv : ∀ g : ℕ, g < N → MEq si si (Mat.mul si (A g) (A' g)) Mat.one)
    (hfix : ∀ g : ℕ, g < N → ∀ φ, MEq so si (f (((g : ℤ) : ℝ) * (2 * π / N) + φ)) (Mat.mul si (Mat.mul so (B g) (f φ)) (A' g))) :
    LinComb so si (fun e => P e ∧ (N : ℤ) ∣ baseFreq so si m n e - e.mu) f := by
  classical
  obtain ⟨L, h1, h2⟩ := hf
  refine ⟨L.filter fun x => decide ((N : ℤ) ∣ baseFreq so si m n x.2 - x.2.mu), fun x hx => ?_, fun φ i hi j hj => ?_⟩
  · rw [List.mem_filter, decide_eq_true_eq] at hx
    exact ⟨h1 x hx.1, hx.2⟩
  have hN0 : (N : ℝ) ≠ 0 := by positivity
  have one : ∀ g : ℕ, g < N → f φ i j
      = (L.map fun x => x.1 * angMat so si (x.2.shift ((baseFreq so si m n x.2 - x.2.mu) * (((g : ℤ) : ℝ) * (2 * π / N)))) φ i j).sum := by
    intro g hg
    have := hfix g hg (φ - ((g : ℤ) : ℝ) * (2 * π / N)) i hi j hj
    rw [add_sub_cancel] at this
    rw [this, (((MEq.refl _).mul (h2 _)).mul (MEq.refl _)) i hi j hj, mul_list]
    refine congrArg List.sum (List.map_congr_left fun x hx => ?_)
    congr 1
    have hr := (angMat_rotate hso hsi (hP _ (h1 x hx)) (hA g) (hB g) (φ - ((g : ℤ) : ℝ) * (2 * π / N))).mul (MEq.refl (n := si) (m := si) (A' g))
    rw [add_sub_cancel] at hr
    have hr2 := hr.trans ((MEq.of_eq (Mat.mul_assoc _ _ _ _ _)).trans (((MEq.refl _).mul (hinv g hg)).trans (MEq_mul_one _ _ _)))
    exact hr2 i hi j hj
  have tot : (N : ℝ) * f φ i j
      = (L.map fun x => x.1 * if (N : ℤ) ∣ baseFreq so si m n x.2 - x.2.mu then N * angMat so si x.2 φ i j else 0).sum := by
    have : (N : ℝ) * f φ i j = ∑ g ∈ range N, f φ i j := by simp
    rw [this, Finset.sum_congr rfl fun g hg => one g (Finset.mem_range.1 hg)]
    clear this one h2 h1
    induction L with
    | nil => simp
    | cons x L ih =>
      simp only [List.map_cons, List.sum_cons, Finset.sum_add_distrib]
      rw [ih, ← Finset.mul_sum, angMat_avg hN]
  apply mul_left_cancel₀ hN0
  rw [tot]
  clear tot one h2 h1
  dsimp only
  induction L with
  | nil => simp
  | cons x L ih =>
    rw [List.map_cons, List.sum_cons, ih, List.filter_cons]
    by_cases h : (N : ℤ) ∣ baseFreq so si m n x.2 - x.2.mu
    · rw [if_pos h, if_pos (by simpa using h), List.map_cons, List.sum_cons]
      ring
    · rw [if_neg h, if_neg (by simpa using h)]
      ring

/-! ### The reflection -/

/-- The phase of the elements kept by the reflection. -/
noncomputable def flipGamma (so si fo fi : ℕ) : ℝ :=
  if so = 2 ∧ si = 2 then 0 else if so = 1 ∧ si = 1 then (if fi = fo then 0 else π / 2)
  else if so = 1 then (if fo = 0 then 0 else π / 2) else (if fi = 0 then 0 else π / 2)

theorem angMat_reflect {so si m n fo fi : ℕ} (hso : so = 1 ∨ so = 2) (hsi : si = 1 ∨ si = 2) (hfo : fo = 0 ∨ fo = 1) (hfi : fi = 0 ∨ fi = 1)
    {e : AngElem} (hs : e.s = 0 ∨ e.s = 1) (hγ : e.gamma = 0 ∨ e.gamma = π / 2)
    {A B : Mat} (hA : IrrepAt si A n fi 1 0) (hB : IrrepAt so B m fo 1 0) (φ : ℝ) :
    MEq so si (Mat.mul so B (angMat so si e φ))
      (Mat.mul si (fun i j => (if e.gamma = flipGamma so si fo fi then 1 else -1) * angMat so si e (-φ) i j) A) := by
  have hpi : π / 2 ≠ 0 := by positivity
  have hp : ∀ x : ℝ, cos (x + π / 2) = -sin x := Real.cos_add_pi_div_two
  have hq : ∀ x : ℝ, sin (x + π / 2) = cos x := Real.sin_add_pi_div_two
  have E22 : ∀ {A B : Mat}, A 0 0 = B 0 0 → A 0 1 = B 0 1 → A 1 0 = B 1 0 → A 1 1 = B 1 1 → MEq 2 2 A B := by
    intro A B h0 h1 h2 h3 i hi j hj
    match i, hi, j, hj with
    | 0, _, 0, _ => exact h0
    | 0, _, 1, _ => exact h1
    | 1, _, 0, _ => exact h2
    | 1, _, 1, _ => exact h3
  have two : ∀ {M : Mat} {k fl : ℕ}, IrrepAt 2 M k fl 1 0 → M 0 0 = 1 ∧ M 0 1 = 0 ∧ M 1 0 = 0 ∧ M 1 1 = -1 := by
    intro M k fl h
    rcases h with ⟨-, h⟩ | ⟨h, -⟩
    · refine ⟨?_, ?_, ?_, ?_⟩ <;> rw [h _ (by norm_num) _ (by norm_num)] <;> simp [psichi, m2]
    · omega
  have one : ∀ {M : Mat} {k fl : ℕ}, IrrepAt 1 M k fl 1 0 → M 0 0 = if fl ≠ 0 then -1 else 1 := by
    intro M k fl h
    rcases h with ⟨h, -⟩ | ⟨-, h, -⟩
    · omega
    · rw [h]; simp
  rcases hso with rfl | rfl <;> rcases hsi with rfl | rfl
  · have a := one hA
    have b := one hB
    intro i hi j hj
    obtain rfl : i = 0 := by omega
    obtain rfl : j = 0 := by omega
    rcases hγ with hγ | hγ <;> rcases hfo with rfl | rfl <;> rcases hfi with rfl | rfl <;>
      simp [Mat.mul, Finset.sum_range_succ, flipGamma, angMat, m1, hγ, a, b, hp, hq, hpi, hpi.symm]
  · obtain ⟨a0, a1, a2, a3⟩ := two hA
    have b := one hB
    apply MEq12 <;>
    rcases hγ with hγ | hγ <;> rcases hfo with rfl | rfl <;>
      simp [Mat.mul, Finset.sum_range_succ, flipGamma, angMat, m1, hγ, a0, a1, a2, a3, b, hp, hq, hpi, hpi.symm]
  · obtain ⟨b0, b1, b2, b3⟩ := two hB
    have a := one hA
    apply MEq21 <;>
    rcases hγ with hγ | hγ <;> rcases hfi with rfl | rfl <;>
      simp [Mat.mul, Finset.sum_range_succ, flipGamma, angMat, m1, hγ, b0, b1, b2, b3, a, hp, hq, hpi, hpi.symm]
  · obtain ⟨b0, b1, b2, b3⟩ := two hB
    obtain ⟨a0, a1, a2, a3⟩ := two hA
    apply E22 <;>
    rcases hγ with hγ | hγ <;> rcases hs with hs | hs <;>
      simp [Mat.mul, Finset.sum_range_succ, flipGamma, angMat, psichi, m2, hγ, hs, b0, b1, b2, b3, a0, a1, a2, a3, hp, hq, hpi, hpi.symm]

/-- A linear combination of elements that is fixed by the reflection is a linear combination of those of its elements that have the right
phase. -/
theorem LinComb.reflect {so si m n fo fi : ℕ} (hso : so = 1 ∨ so = 2) (hsi : si = 1 ∨ si = 2) (hfo : fo = 0 ∨ fo = 1) (hfi : fi = 0 ∨ fi = 1)
    {P : AngElem → Prop} (hP : ∀ e, P e → (e.s = 0 ∨ e.s = 1) ∧ (e.gamma = 0 ∨ e.gamma = π / 2)) {f : ℝ → Mat} (hf : LinComb so si P f)
    {A A' B : Mat} (hA : IrrepAt si A n fi 1 0) (hB : IrrepAt so B m fo 1 0) (hinv : MEq si si (Mat.mul si A A') Mat.one)
    (hfix : ∀ φ, MEq so si (f (-φ)) (Mat.mul si (Mat.mul so B (f φ)) A')) :
    LinComb so si (fun e => P e ∧ e.gamma = flipGamma so si fo fi) f := by
  classical
  obtain ⟨L, h1, h2⟩ := hf
  refine ⟨L.filter fun x => decide (x.2.gamma = flipGamma so si fo fi), fun x hx => ?_, fun φ i hi j hj => ?_⟩
  · rw [List.mem_filter, decide_eq_true_eq] at hx
    exact ⟨h1 x hx.1, hx.2⟩
  have e1 : f φ i j = (L.map fun x => x.1 * ((if x.2.gamma = flipGamma so si fo fi then 1 else -1) * angMat so si x.2 φ i j)).sum := by
    have := hfix (-φ) i hi j hj
    rw [neg_neg] at this
    rw [this, (((MEq.refl _).mul (h2 _)).mul (MEq.refl _)) i hi j hj, mul_list]
    refine congrArg List.sum (List.map_congr_left fun x hx => ?_)
    congr 1
    have hr := (angMat_reflect hso hsi hfo hfi (hP _ (h1 x hx)).1 (hP _ (h1 x hx)).2 hA hB (-φ)).mul (MEq.refl (n := si) (m := si) A')
    rw [neg_neg] at hr
    have hr2 := hr.trans ((MEq.of_eq (Mat.mul_assoc _ _ _ _ _)).trans (((MEq.refl _).mul hinv).trans (MEq_mul_one _ _ _)))
    exact hr2 i hi j hj
  have e2 := h2 φ i hi j hj
  have : f φ i j = 1 / 2 * (f φ i j + f φ i j) := by ring
  rw [this]
  nth_rewrite 1 [e1]
  rw [e2]
  clear this e1 e2 h2 h1
  dsimp only
  induction L with
  | nil => simp
  | cons x L ih =>
    rw [List.filter_cons]
    simp only [List.map_cons, List.sum_cons]
    by_cases h : x.2.gamma = flipGamma so si fo fi
    · rw [if_pos h, if_pos (by simpa using h), List.map_cons, List.sum_cons, ← ih]
      ring
    · rw [if_neg h, if_neg (by simpa using h), ← ih]
      ring

end E2
