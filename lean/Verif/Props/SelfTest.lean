import Verif.Lemmas.SelfTest
import Verif.Props.RestrictionCont
import Mathlib.MeasureTheory.Measure.Lebesgue.EqHaar

/-!
# C81: the self tests `check_equivariance` decide whether a layer is equivariant
-/

set_option linter.unusedSectionVars false

namespace E2

open Finset Mat Real MeasureTheory

variable {El F : Type}

/-! ## Any layer -/

theorem transformFibers_congr {c n d : ℕ} (ρ : Mat) {x y : Fmap} (h : FEq c n x y) : FEq d n (transformFibers c ρ x) (transformFibers c ρ y) :=
  fun o _ i hi j hj => Finset.sum_congr rfl fun k hk => by rw [h k (mem_range.1 hk) i hi j hj]

theorem errsMean_zero {c : ℕ} {x y : Minibatch} (h : BEq c x y) : errsMean c x y = 0 := by
  unfold errsMean
  rw [Finset.sum_eq_zero, zero_div]
  intro b hb
  refine Finset.sum_eq_zero fun o ho => Finset.sum_eq_zero fun i hi => Finset.sum_eq_zero fun j hj => ?_
  rw [h b (mem_range.1 hb) o (mem_range.1 ho) i (mem_range.1 hi) j (mem_range.1 hj), sub_self, abs_zero]

theorem mapM_some {α β : Type} (f : α → Option β) (g : α → β) (l : List α) (h : ∀ x ∈ l, f x = some (g x)) : l.mapM f = some (l.map g) := by
  induction l with
  | nil => rfl
  | cons a l ih =>
    rw [List.mapM_cons, h a (List.mem_cons_self ..), ih fun x hx => h x (List.mem_cons_of_mem _ hx)]
    rfl

theorem mapM_ne_none {α β : Type} (f : α → Option β) (l : List α) (h : l.mapM f ≠ none) : ∀ x ∈ l, f x ≠ none := by
  induction l with
  | nil => simp
  | cons a l ih =>
    rw [List.mapM_cons] at h
    cases ha : f a with
    | none => rw [ha] at h; exact absurd rfl h
    | some b =>
      rw [ha] at h
      intro x hx
      rcases List.mem_cons.1 hx with rfl | hx
      · rw [ha]; simp
      · refine ih (fun hn => h ?_) x hx
        show (l.mapM f >>= fun bs => pure (b :: bs)) = none
        rw [hn]
        rfl

/-- The test passes exactly when the layer commutes with the testing elements on this minibatch, and then all the errors which it returns are 0. -/
theorem check_iff (els : List El) (ci co : ℕ) (ρi ρo : El → Mat) (layer : Minibatch → Minibatch) (x : Minibatch) :
    (checkEquivariance els ci co ρi ρo layer x ≠ none ↔
      ∀ g ∈ els, BEq co (fun b => transformFibers co (ρo g) (layer x b)) (layer fun b => transformFibers ci (ρi g) (x b))) ∧
    (checkEquivariance els ci co ρi ρo layer x ≠ none → checkEquivariance els ci co ρi ρo layer x = some (els.map fun g => (g, 0))) := by
  have h1 : (∀ g ∈ els, BEq co (fun b => transformFibers co (ρo g) (layer x b)) (layer fun b => transformFibers ci (ρi g) (x b))) →
      checkEquivariance els ci co ρi ρo layer x = some (els.map fun g => (g, 0)) := by
    intro h
    refine mapM_some _ (fun g => (g, 0)) _ fun g hg => ?_
    dsimp only
    rw [if_pos (h g hg), errsMean_zero (h g hg)]
  have h2 : checkEquivariance els ci co ρi ρo layer x ≠ none →
      ∀ g ∈ els, BEq co (fun b => transformFibers co (ρo g) (layer x b)) (layer fun b => transformFibers ci (ρi g) (x b)) := by
    intro h g hg
    have := mapM_ne_none _ _ h g hg
    dsimp only at this
    by_contra hn
    rw [if_neg hn] at this
    exact this rfl
  exact ⟨⟨h2, fun h => by rw [h1 h]; simp⟩, fun h => h1 (h2 h)⟩

theorem Cyclic.mem_testing {N : ℕ} (g : ℤ) : g ∈ Cyclic.testingElements N ↔ (Cyclic.grp N).isEl g :=
  (Cyclic.mem_elements N g).trans (Cyclic.isElement_iff N g).symm

theorem Dihedral.mem_testing {N : ℕ} (g : ℤ × ℤ) : g ∈ Dihedral.testingElements N ↔ (Dihedral.grp N).isEl g :=
  (Dihedral.mem_elements N g).trans (Dihedral.isElement_iff N g).symm

/-- **C81 for `C_N`**, any layer, linear or not: the test passes on every minibatch exactly when the layer is equivariant for the whole group. -/
theorem c81_cyclic_partial (N ci co : ℕ) (ρi ρo : ℤ → Mat) (layer : Minibatch → Minibatch) :
    (∀ x, checkEquivariance (Cyclic.testingElements N) ci co ρi ρo layer x ≠ none) ↔
      ∀ g, (Cyclic.grp N).isEl g → ∀ x, BEq co (fun b => transformFibers co (ρo g) (layer x b)) (layer fun b => transformFibers ci (ρi g) (x b)) := by
  constructor
  · intro h g hg x
    exact (check_iff _ ci co ρi ρo layer x).1.1 (h x) g ((Cyclic.mem_testing g).2 hg)
  · intro h x
    exact (check_iff _ ci co ρi ρo layer x).1.2 fun g hg => h g ((Cyclic.mem_testing g).1 hg) x

/-- **C81 for `D_N`**, any layer. -/
theorem c81_dihedral_partial (N ci co : ℕ) (ρi ρo : ℤ × ℤ → Mat) (layer : Minibatch → Minibatch) :
    (∀ x, checkEquivariance (Dihedral.testingElements N) ci co ρi ρo layer x ≠ none) ↔
      ∀ g, (Dihedral.grp N).isEl g → ∀ x, BEq co (fun b => transformFibers co (ρo g) (layer x b)) (layer fun b => transformFibers ci (ρi g) (x b)) := by
  constructor
  · intro h g hg x
    exact (check_iff _ ci co ρi ρo layer x).1.1 (h x) g ((Dihedral.mem_testing g).2 hg)
  · intro h x
    exact (check_iff _ ci co ρi ρo layer x).1.2 fun g hg => h g ((Dihedral.mem_testing g).1 hg) x

/-! ## Linear layers and random minibatches -/

/-- The minibatch with the entries `ω` of `torch.randn(3, c, 10, 10)`. -/
def ofArray {c : ℕ} (ω : Fin 3 × Fin c × Fin 10 × Fin 10 → ℝ) : Minibatch := fun b k i j =>
  if h : b < 3 ∧ k < c ∧ i < 10 ∧ j < 10 then ω (⟨b, h.1⟩, ⟨k, h.2.1⟩, ⟨i, h.2.2.1⟩, ⟨j, h.2.2.2⟩) else 0

/-- The self test decides whether linear layers on the fibres are equivariant: it passes with all errors equal to 0 for those which are, whatever the minibatch,
and for those which are not it fails with probability 1, for entries with any joint density. -/
def SelfTestDecides (G : Grp El) (els : List El) (ci co : ℕ) (ρi ρo : El → Mat) : Prop :=
  ∀ M : Mat, (Intertwines G co ci ρo ρi M → ∀ x, checkEquivariance els ci co ρi ρo (fibreLayer ci M) x = some (els.map fun g => (g, 0))) ∧
    (¬ Intertwines G co ci ρo ρi M → ∀ ν : Measure (Fin 3 × Fin ci × Fin 10 × Fin 10 → ℝ), ν ≪ volume →
      ν {ω | checkEquivariance els ci co ρi ρo (fibreLayer ci M) (ofArray ω) ≠ none} = 0)

theorem fibre_left (c d : ℕ) (A M : Mat) (x : Fmap) (o i j : ℕ) :
    transformFibers d A (transformFibers c M x) o i j = ∑ k ∈ range c, Mat.mul d A M o k * x k i j := by
  simp only [transformFibers, Mat.mul, Finset.mul_sum, Finset.sum_mul]
  rw [Finset.sum_comm]
  exact Finset.sum_congr rfl fun k _ => Finset.sum_congr rfl fun l _ => by ring

/-- Where the test passes for a linear layer. -/
theorem fibre_ok (ci co : ℕ) (A B M : Mat) (x : Minibatch) :
    BEq co (fun b => transformFibers co A (fibreLayer ci M x b)) (fibreLayer ci M fun b => transformFibers ci B (x b)) ↔
      ∀ b < 3, ∀ o < co, ∀ i < 10, ∀ j < 10, ∑ k ∈ range ci, (Mat.mul co A M o k - Mat.mul ci M B o k) * x b k i j = 0 := by
  unfold BEq FEq fibreLayer
  refine forall₂_congr fun b _ => forall₂_congr fun o _ => forall₂_congr fun i _ => forall₂_congr fun j _ => ?_
  show transformFibers co A (transformFibers ci M (x b)) o i j = transformFibers ci M (transformFibers ci B (x b)) o i j ↔ _
  rw [fibre_left, fibre_left, ← sub_eq_zero, ← Finset.sum_sub_distrib]
  simp only [sub_mul]

theorem decides_of (G : Grp El) (els : List El) (ci co : ℕ) (ρi ρo : El → Mat) (hsub : ∀ g ∈ els, G.isEl g)
    (hall : ∀ M, (∀ g ∈ els, Comm co ci (ρo g) (ρi g) M) → Intertwines G co ci ρo ρi M) : SelfTestDecides G els ci co ρi ρo := by
  intro M
  constructor
  · intro hM x
    refine (check_iff els ci co ρi ρo (fibreLayer ci M) x).2 ((check_iff els ci co ρi ρo (fibreLayer ci M) x).1.2 fun g hg => ?_)
    rw [fibre_ok]
    intro b _ o ho i _ j _
    refine Finset.sum_eq_zero fun k hk => ?_
    rw [hM g (hsub g hg) o ho k (mem_range.1 hk), sub_self, zero_mul]
  · intro hM ν hν
    obtain ⟨g, hg, hc⟩ : ∃ g ∈ els, ¬ Comm co ci (ρo g) (ρi g) M := by
      by_contra hcon
      push Not at hcon
      exact hM (hall M hcon)
    unfold Comm MEq at hc
    push Not at hc
    obtain ⟨o, ho, k, hk, hne⟩ := hc
    refine hν ?_
    let f : (Fin 3 × Fin ci × Fin 10 × Fin 10 → ℝ) →ₗ[ℝ] ℝ :=
      { toFun := fun ω => ∑ l : Fin ci, (Mat.mul co (ρo g) M o l - Mat.mul ci M (ρi g) o l) * ω (0, l, 0, 0)
        map_add' := fun ω ω' => by simp [mul_add, Finset.sum_add_distrib]
        map_smul' := fun a ω => by
          simp only [Pi.smul_apply, smul_eq_mul, RingHom.id_apply, Finset.mul_sum]
          exact Finset.sum_congr rfl fun l _ => by ring }
    have hf : LinearMap.ker f ≠ ⊤ := by
      intro htop
      have : f (fun p => if p.2.1 = ⟨k, hk⟩ then 1 else 0) = 0 := LinearMap.mem_ker.1 (htop ▸ Submodule.mem_top)
      have e : f (fun p => if p.2.1 = ⟨k, hk⟩ then 1 else 0) = Mat.mul co (ρo g) M o k - Mat.mul ci M (ρi g) o k := by
        show ∑ l : Fin ci, _ = _
        simp
      rw [e] at this
      exact hne (sub_eq_zero.1 this)
    refine measure_mono_null (fun ω hω => ?_) (Measure.addHaar_submodule volume (LinearMap.ker f) hf)
    have h1 := (check_iff els ci co ρi ρo (fibreLayer ci M) (ofArray ω)).1.1 hω g hg
    rw [fibre_ok] at h1
    have h2 := h1 0 (by norm_num) o ho 0 (by norm_num) 0 (by norm_num)
    refine LinearMap.mem_ker.2 (Eq.trans ?_ h2)
    show ∑ l : Fin ci, _ = _
    rw [← Fin.sum_univ_eq_sum_range (fun k => (Mat.mul co (ρo g) M o k - Mat.mul ci M (ρi g) o k) * ofArray ω 0 k 0 0) ci]
    refine Finset.sum_congr rfl fun l _ => ?_
    unfold ofArray
    rw [dif_pos ⟨by norm_num, l.2, by norm_num, by norm_num⟩]
    rfl

/-- **C81 for linear layers on `C_N` and `D_N`**. -/
theorem c81_finite_partial (N : ℕ) :
    (∀ ci co (ρi ρo : ℤ → Mat), SelfTestDecides (Cyclic.grp N) (Cyclic.testingElements N) ci co ρi ρo) ∧
    ∀ ci co (ρi ρo : ℤ × ℤ → Mat), SelfTestDecides (Dihedral.grp N) (Dihedral.testingElements N) ci co ρi ρo :=
  ⟨fun _ _ _ _ => decides_of _ _ _ _ _ _ (fun g hg => (Cyclic.mem_testing g).1 hg) fun _ h g hg => h g ((Cyclic.mem_testing g).2 hg),
    fun _ _ _ _ => decides_of _ _ _ _ _ _ (fun g hg => (Dihedral.mem_testing g).1 hg) fun _ h g hg => h g ((Dihedral.mem_testing g).2 hg)⟩

/-! ## The continuous groups -/

theorem SO2.mem_testing (i : ℕ) (hi : i < 52) : (i : ℝ) * (2 * π / 52) ∈ SO2.testingElements := by
  refine List.mem_map.2 ⟨i, List.mem_range.2 hi, ?_⟩
  push_cast
  ring

theorem O2.mem_testing (e : ℤ) (he : e = 0 ∨ e = 1) (i : ℕ) (hi : i < 52) : (e, (i : ℝ) * (2 * π / 52)) ∈ O2.testingElements := by
  have h : (i : ℝ) * 2 * π / ((4 * 13 : ℕ) : ℝ) = (i : ℝ) * (2 * π / 52) := by
    push_cast
    ring
  rcases he with rfl | rfl
  · exact List.mem_append_left _ (List.mem_map.2 ⟨i, List.mem_range.2 hi, by rw [h]⟩)
  · exact List.mem_append_right _ (List.mem_map.2 ⟨i, List.mem_range.2 hi, by rw [h]⟩)

theorem freq_ok {a b : ℕ} (h : a + b < 52) : (a = b ∨ ¬ ((52 : ℕ) : ℤ) ∣ a - b) ∧ (a + b = 0 ∨ ¬ ((52 : ℕ) : ℤ) ∣ a + b) := by
  push_cast
  constructor <;> omega

/-- **C81 for SO(2)** (`_partial`): true if the frequency of each irrep of the input and the one of each irrep of the output add up to less than 52. -/
theorem c81_so2_partial (rep : F → Repr ℝ) (inT outT : List F) (hr : ∀ n ∈ inT ++ outT, (rep n).WF ∧ ∀ i ∈ (rep n).irreps, ∃ k, i = SO2.irrep k)
    (hfreq : ∀ n ∈ inT, ∀ m ∈ outT, ∀ i ∈ (rep n).irreps, ∀ j ∈ (rep m).irreps, i.freq + j.freq < 52) :
    SelfTestDecides SO2.grp SO2.testingElements (typeSize (fun n => (rep n).size) inT) (typeSize (fun n => (rep n).size) outT) (typeMat rep inT) (typeMat rep outT) := by
  have hk : ∀ k, (SO2.irrep k).freq = k := fun k => by
    unfold SO2.irrep
    split_ifs with h
    · exact h.symm
    · rfl
  refine decides_of _ _ _ _ _ _ (fun _ _ => trivial) fun M hM g _ => ?_
  refine comm_lift (fun n hn => (hr n hn).1) (S := fun s => s = 2 * π / (52 : ℕ)) (fun n hn m hm j hj i hi X hX => ?_) M fun s hs => hM s ?_
  · obtain ⟨b, rfl⟩ := (hr n (List.mem_append_right _ hn)).2 j hj
    obtain ⟨a, rfl⟩ := (hr m (List.mem_append_left _ hm)).2 i hi
    have := hfreq m hm n hn _ hi _ hj
    rw [hk, hk] at this
    obtain ⟨h1, h2⟩ := freq_ok this
    exact so2_pair (by norm_num) a b h1 h2 X (hX _ rfl) g
  · have := SO2.mem_testing 1 (by norm_num)
    rw [hs]
    simpa using this

theorem Comm.comp {n m : ℕ} {A A' B B' M : Mat} (h : Comm n m A B M) (h' : Comm n m A' B' M) : Comm n m (Mat.mul n A A') (Mat.mul m B B') M := by
  unfold Comm at h h' ⊢
  rw [Mat.mul_assoc]
  refine ((MEq.refl _).mul h').trans ?_
  rw [← Mat.mul_assoc, ← Mat.mul_assoc]
  exact h.mul (MEq.refl _)

/-- The irreps of O(2) at the rotations. -/
theorem O2.irrep_rot {j k : ℕ} {i : Irrep (ℤ × ℝ)} (h : O2.irrep j k = some i) :
    i.freq = k ∧ i.size = (SO2.irrep k).size ∧ ∀ θ, i.mat (0, θ) = (SO2.irrep k).mat θ := by
  unfold O2.irrep at h
  unfold SO2.irrep
  split_ifs at h with h1 h2 h3 h4
  · subst h3
    obtain rfl := Option.some.inj h
    simp
  · subst h4
    obtain rfl := Option.some.inj h
    simp
  · obtain rfl := Option.some.inj h
    rw [if_neg h4]
    refine ⟨rfl, rfl, fun θ => ?_⟩
    simp [psichi, psi]

/-- **C81 for O(2)** (`_partial`), under the same condition. -/
theorem c81_o2_partial (rep : F → Repr (ℤ × ℝ)) (inT outT : List F) (hr : ∀ n ∈ inT ++ outT, (rep n).WF ∧ ∀ i ∈ (rep n).irreps, ∃ j k, O2.irrep j k = some i)
    (hfreq : ∀ n ∈ inT, ∀ m ∈ outT, ∀ i ∈ (rep n).irreps, ∀ j ∈ (rep m).irreps, i.freq + j.freq < 52) :
    SelfTestDecides O2.grp O2.testingElements (typeSize (fun n => (rep n).size) inT) (typeSize (fun n => (rep n).size) outT) (typeMat rep inT) (typeMat rep outT) := by
  refine decides_of _ _ _ _ _ _ (fun g hg => ?_) fun M hM g hg => ?_
  · rcases List.mem_append.1 hg with hg | hg
    · obtain ⟨i, -, rfl⟩ := List.mem_map.1 hg
      exact Or.inl rfl
    · obtain ⟨i, -, rfl⟩ := List.mem_map.1 hg
      exact Or.inr rfl
  have hrot : (0, 2 * π / ((52 : ℕ) : ℝ)) ∈ O2.testingElements := by simpa using O2.mem_testing 0 (Or.inl rfl) 1 (by norm_num)
  have href : (1, 0) ∈ O2.testingElements := by simpa using O2.mem_testing 1 (Or.inr rfl) 0 (by norm_num)
  refine comm_lift (fun n hn => (hr n hn).1) (S := fun s => s = (0, 2 * π / (52 : ℕ)) ∨ s = (1, 0)) (fun n hn m hm j hj i hi X hX => ?_) M fun s hs => hM s ?_
  · obtain ⟨jb, b, hb⟩ := (hr n (List.mem_append_right _ hn)).2 j hj
    obtain ⟨ja, a, ha⟩ := (hr m (List.mem_append_left _ hm)).2 i hi
    have hf := hfreq m hm n hn _ hi _ hj
    obtain ⟨fb, sb, mb⟩ := O2.irrep_rot hb
    obtain ⟨fa, sa, ma⟩ := O2.irrep_rot ha
    rw [fa, fb] at hf
    obtain ⟨h1, h2⟩ := freq_ok hf
    have hrots : ∀ θ, Comm j.size i.size (j.mat (0, θ)) (i.mat (0, θ)) X := by
      intro θ
      have h0 := hX _ (Or.inl rfl)
      rw [sa, sb, ma, mb] at h0 ⊢
      exact so2_pair (by norm_num) a b h1 h2 X h0 θ
    obtain ⟨e, θ⟩ := g
    rcases hg with he | he
    · obtain rfl : e = 0 := he
      exact hrots θ
    · obtain rfl : e = 1 := he
      have hop : O2.grp.op (0, θ) (1, 0) = (1, θ) := by simp [O2.grp, O2.combine]
      have r1 := (O2.IsIrrep.isRep i ⟨_, _, ha⟩).mul (0, θ) (1, 0) (Or.inl rfl) (Or.inr rfl)
      have r2 := (O2.IsIrrep.isRep j ⟨_, _, hb⟩).mul (0, θ) (1, 0) (Or.inl rfl) (Or.inr rfl)
      rw [hop] at r1 r2
      exact (comm_congr r2 r1).2 ((hrots θ).comp (hX _ (Or.inr rfl)))
  · rcases hs with rfl | rfl
    · exact hrot
    · exact href

/-- The frequencies `a`, `b` are different but cannot be told apart at the angle `2π/T`. -/
theorem test_eq {T : ℕ} (hT : 0 < T) {a b : ℕ} (h : (T : ℤ) ∣ a - b) (i : ℕ) :
    cos (b * (i * (2 * π / T))) = cos (a * (i * (2 * π / T))) ∧ sin (b * (i * (2 * π / T))) = sin (a * (i * (2 * π / T))) := by
  obtain ⟨n, hn⟩ := h
  have hT' : (T : ℝ) ≠ 0 := by positivity
  have hn' : (a : ℝ) = b + T * n := by
    have : (a : ℤ) = b + T * n := by omega
    exact_mod_cast this
  have e : (a : ℝ) * (i * (2 * π / T)) = b * (i * (2 * π / T)) + ((i * n : ℤ) : ℝ) * (2 * π) := by
    rw [hn']
    push_cast
    field_simp
  rw [e, cos_add_int_mul_two_pi, sin_add_int_mul_two_pi]
  exact ⟨rfl, rfl⟩

theorem test_opp {T : ℕ} (hT : 0 < T) {a b : ℕ} (h : (T : ℤ) ∣ a + b) (i : ℕ) :
    cos (b * (i * (2 * π / T))) = cos (a * (i * (2 * π / T))) ∧ sin (b * (i * (2 * π / T))) = - sin (a * (i * (2 * π / T))) := by
  obtain ⟨n, hn⟩ := h
  have hT' : (T : ℝ) ≠ 0 := by positivity
  have hn' : (a : ℝ) = - b + T * n := by
    have : (a : ℤ) = - b + T * n := by omega
    exact_mod_cast this
  have e : (a : ℝ) * (i * (2 * π / T)) = - (b * (i * (2 * π / T))) + ((i * n : ℤ) : ℝ) * (2 * π) := by
    rw [hn']
    push_cast
    field_simp
  rw [e, cos_add_int_mul_two_pi, sin_add_int_mul_two_pi, cos_neg, sin_neg, neg_neg]
  exact ⟨rfl, rfl⟩

/-- Two different irreps of SO(2) are told apart by some angle. -/
theorem exists_halfTurn {k : ℕ} (hk : k ≠ 0) : ∃ θ : ℝ, cos (k * θ) = -1 := by
  refine ⟨π / k, ?_⟩
  have : (k : ℝ) ≠ 0 := by exact_mod_cast hk
  rw [mul_div_cancel₀ _ this, cos_pi]

theorem so2_one {a b : ℕ} {θ : ℝ} (hc : cos (b * θ) = cos (a * θ)) (hs : sin (b * θ) = sin (a * θ)) :
    Comm (SO2.irrep b).size (SO2.irrep a).size ((SO2.irrep b).mat θ) ((SO2.irrep a).mat θ) Mat.one := by
  unfold SO2.irrep
  by_cases ha : a = 0 <;> by_cases hb : b = 0
  · subst ha hb
    rw [if_pos rfl]
    exact (MEq_mul_one _ _ _).trans (MEq_one_mul _ _ _).symm
  · subst ha
    rw [if_neg hb, if_pos rfl]
    dsimp only
    rw [psi_zero]
    simp only [CharP.cast_eq_zero, zero_mul, cos_zero, sin_zero] at hc hs
    intro i hi j hj
    interval_cases i <;> interval_cases j <;> simp [Mat.mul, Finset.sum_range_succ, m1, m2, Mat.one, hc, hs]
  · subst hb
    rw [if_neg ha, if_pos rfl]
    dsimp only
    rw [psi_zero]
    simp only [CharP.cast_eq_zero, zero_mul, cos_zero, sin_zero] at hc hs
    intro i hi j hj
    interval_cases i; interval_cases j <;> simp [Mat.mul, Finset.sum_range_succ, m1, m2, Mat.one, ← hc, ← hs]
  · rw [if_neg ha, if_neg hb]
    dsimp only
    rw [psi_zero, psi_zero, hc, hs]
    exact (MEq_mul_one _ _ _).trans (MEq_one_mul _ _ _).symm

theorem so2_one_iff {a b : ℕ} (hab : a ≠ b) :
    ¬ ∀ θ, Comm (SO2.irrep b).size (SO2.irrep a).size ((SO2.irrep b).mat θ) ((SO2.irrep a).mat θ) Mat.one := by
  intro h
  have key : ∀ θ : ℝ, cos (b * θ) = cos (a * θ) ∧ sin (b * θ) = sin (a * θ) := by
    intro θ
    have h := h θ
    unfold SO2.irrep at h
    by_cases ha : a = 0 <;> by_cases hb : b = 0
    · omega
    · subst ha
      rw [if_neg hb, if_pos rfl] at h
      dsimp only at h
      rw [psi_zero] at h
      have e0 := h 0 two_pos 0 one_pos
      have e1 := h 1 one_lt_two 0 one_pos
      simp [Mat.mul, Finset.sum_range_succ, m1, m2, Mat.one] at e0 e1
      simp [e0, e1]
    · subst hb
      rw [if_neg ha, if_pos rfl] at h
      dsimp only at h
      rw [psi_zero] at h
      have e0 := h 0 one_pos 0 two_pos
      have e1 := h 0 one_pos 1 one_lt_two
      simp [Mat.mul, Finset.sum_range_succ, m1, m2, Mat.one] at e0 e1
      simp [← e0, e1]
    · rw [if_neg ha, if_neg hb] at h
      dsimp only at h
      rw [psi_zero, psi_zero] at h
      have e0 := h 0 two_pos 0 two_pos
      have e1 := h 1 one_lt_two 0 two_pos
      simp [Mat.mul, Finset.sum_range_succ, m2, Mat.one] at e0 e1
      exact ⟨e0, e1⟩
  have hd : ∀ θ : ℝ, cos (((max a b - min a b : ℕ) : ℝ) * θ) = 1 := by
    intro θ
    obtain ⟨h1, h2⟩ := key θ
    rw [Nat.cast_sub (min_le_max)]
    rcases le_total a b with hl | hl
    · rw [max_eq_right hl, min_eq_left hl, sub_mul, cos_sub, h1, h2]
      nlinarith [sin_sq_add_cos_sq ((a : ℝ) * θ)]
    · rw [max_eq_left hl, min_eq_right hl, sub_mul, cos_sub, h1, h2]
      nlinarith [sin_sq_add_cos_sq ((a : ℝ) * θ)]
  obtain ⟨θ, hθ⟩ := exists_halfTurn (k := max a b - min a b) (by omega)
  rw [hd θ] at hθ
  norm_num at hθ

theorem so2_refl {a b : ℕ} (ha : a ≠ 0) (hb : b ≠ 0) (θ : ℝ) :
    Comm (SO2.irrep b).size (SO2.irrep a).size ((SO2.irrep b).mat θ) ((SO2.irrep a).mat θ) (m2 1 0 0 (-1)) ↔
      cos (b * θ) = cos (a * θ) ∧ sin (b * θ) = - sin (a * θ) := by
  unfold SO2.irrep
  rw [if_neg ha, if_neg hb]
  dsimp only
  rw [psi_zero, psi_zero, comm22]
  simp only [m2]
  norm_num
  constructor
  · rintro ⟨h1, h2⟩
    exact ⟨by linarith, by linarith⟩
  · rintro ⟨h1, h2⟩
    exact ⟨by linarith, by linarith⟩

theorem SO2.mem_testing' {g : ℝ} (hg : g ∈ SO2.testingElements) : ∃ i : ℕ, g = i * (2 * π / (52 : ℕ)) := by
  obtain ⟨i, -, rfl⟩ := List.mem_map.1 hg
  refine ⟨i, ?_⟩
  push_cast
  ring

/-- The exact condition for two irreps of SO(2): every layer which passes the test is equivariant, unless the frequencies `a`, `b` are different and equal modulo 52,
or opposite modulo 52. -/
theorem c81_so2_irreps (a b : ℕ) :
    (∀ M, (∀ g ∈ SO2.testingElements, MEq (SO2.irrep b).size (SO2.irrep a).size (Mat.mul (SO2.irrep b).size ((SO2.irrep b).mat g) M)
        (Mat.mul (SO2.irrep a).size M ((SO2.irrep a).mat g))) → Intertwines SO2.grp (SO2.irrep b).size (SO2.irrep a).size (SO2.irrep b).mat (SO2.irrep a).mat M) ↔
      (a = b ∨ ¬ (52 : ℤ) ∣ a - b) ∧ (a + b = 0 ∨ ¬ (52 : ℤ) ∣ a + b) := by
  have hT : (((52 : ℕ) : ℤ)) = 52 := by norm_num
  constructor
  · intro h
    constructor
    · by_contra hcon
      push Not at hcon
      refine so2_one_iff hcon.1 fun θ => h Mat.one (fun g hg => ?_) θ trivial
      obtain ⟨i, rfl⟩ := SO2.mem_testing' hg
      obtain ⟨h1, h2⟩ := test_eq (T := 52) (by norm_num) (a := a) (b := b) (by rw [hT]; exact hcon.2) i
      exact so2_one h1 h2
    · by_contra hcon
      push Not at hcon
      by_cases hab : a = 0 ∨ b = 0
      · have hne : a ≠ b := by omega
        refine so2_one_iff hne fun θ => h Mat.one (fun g hg => ?_) θ trivial
        obtain ⟨i, rfl⟩ := SO2.mem_testing' hg
        obtain ⟨h1, h2⟩ := test_eq (T := 52) (by norm_num) (a := a) (b := b) (by rw [hT]; omega) i
        exact so2_one h1 h2
      · push Not at hab
        have hall := fun θ => (so2_refl hab.1 hab.2 θ).1 (h (m2 1 0 0 (-1)) (fun g hg => by
          obtain ⟨i, rfl⟩ := SO2.mem_testing' hg
          exact (so2_refl hab.1 hab.2 _).2 (test_opp (T := 52) (by norm_num) (by rw [hT]; exact hcon.2) i)) θ trivial)
        obtain ⟨θ, hθ⟩ := exists_halfTurn hcon.1
        obtain ⟨h1, h2⟩ := hall θ
        rw [Nat.cast_add, add_mul, cos_add, h1, h2] at hθ
        nlinarith [sin_sq_add_cos_sq ((a : ℝ) * θ)]
  · rintro ⟨h1, h2⟩ M hM g _
    have := SO2.mem_testing 1 (by norm_num)
    refine so2_pair (T := 52) (by norm_num) a b (by rwa [hT]) (by rwa [hT]) M (hM _ ?_) g
    simpa using this

/-- **C81, the negation**: the layer `(x, y) ↦ (x, -y)` on a field of frequency 26 is not equivariant for SO(2), and its test passes on every minibatch with
all errors equal to 0. -/
theorem c81_so2_wrong :
    ¬ Intertwines SO2.grp 2 2 (SO2.irrep 26).mat (SO2.irrep 26).mat (m2 1 0 0 (-1)) ∧
    ∀ x, checkEquivariance SO2.testingElements 2 2 (SO2.irrep 26).mat (SO2.irrep 26).mat (fibreLayer 2 (m2 1 0 0 (-1))) x =
      some (SO2.testingElements.map fun g => (g, 0)) := by
  constructor
  · intro h
    obtain ⟨θ, hθ⟩ := exists_halfTurn (k := 52) (by norm_num)
    have := (so2_refl (a := 26) (b := 26) (by norm_num) (by norm_num) θ).1 (h θ trivial)
    have e : ((52 : ℕ) : ℝ) * θ = (26 : ℕ) * θ + (26 : ℕ) * θ := by push_cast; ring
    rw [e, cos_add] at hθ
    nlinarith [sin_sq_add_cos_sq (((26 : ℕ) : ℝ) * θ), this.2]
  · intro x
    refine (check_iff _ _ _ _ _ _ x).2 ((check_iff _ _ _ _ _ _ x).1.2 fun g hg => ?_)
    obtain ⟨i, rfl⟩ := SO2.mem_testing' hg
    have h := (so2_refl (a := 26) (b := 26) (by norm_num) (by norm_num) _).2 (test_opp (T := 52) (by norm_num) (a := 26) (b := 26) (by norm_num) i)
    rw [fibre_ok]
    intro b _ o ho k _ j _
    refine Finset.sum_eq_zero fun l hl => ?_
    have h1 := h o ho l (mem_range.1 hl)
    have e : (SO2.irrep 26).size = 2 := by simp [SO2.irrep]
    rw [e] at h1
    rw [h1, sub_self, zero_mul]

/-- The irreps of SO(2) as representations. -/
noncomputable def so2Field (k : ℕ) : Repr ℝ := ⟨[SO2.irrep k], Mat.one, Mat.one⟩

/-- The hypotheses of `c81_so2_partial`, with several fields. -/
example : SelfTestDecides SO2.grp SO2.testingElements (typeSize (fun n => (so2Field n).size) [0, 1, 2]) (typeSize (fun n => (so2Field n).size) [1, 0])
    (typeMat so2Field [0, 1, 2]) (typeMat so2Field [1, 0]) := by
  refine c81_so2_partial so2Field _ _ (fun n _ => ⟨IsInv.one _, fun i hi => ⟨n, by simpa [so2Field] using hi⟩⟩) fun n hn m hm i hi j hj => ?_
  obtain rfl : i = SO2.irrep n := by simpa [so2Field] using hi
  obtain rfl : j = SO2.irrep m := by simpa [so2Field] using hj
  simp only [List.mem_cons, List.not_mem_nil, or_false] at hn hm
  rcases hn with rfl | rfl | rfl <;> rcases hm with rfl | rfl <;> simp [SO2.irrep]

/-- The hypotheses of `c81_o2_partial`: from a field of frequency 1 to the sign of the reflections and a field of frequency 50. -/
example (i0 i1 i50 : Irrep (ℤ × ℝ)) (h0 : O2.irrep 1 0 = some i0) (h1 : O2.irrep 1 1 = some i1) (h50 : O2.irrep 1 50 = some i50) :
    SelfTestDecides O2.grp O2.testingElements (typeSize (fun n : Repr (ℤ × ℝ) => n.size) [⟨[i1], Mat.one, Mat.one⟩])
      (typeSize (fun n : Repr (ℤ × ℝ) => n.size) [⟨[i0, i50], Mat.one, Mat.one⟩])
      (typeMat id [⟨[i1], Mat.one, Mat.one⟩]) (typeMat id [⟨[i0, i50], Mat.one, Mat.one⟩]) := by
  refine c81_o2_partial id _ _ (fun n hn => ?_) fun n hn m hm i hi j hj => ?_
  · simp only [List.cons_append, List.nil_append, List.mem_cons, List.not_mem_nil, or_false] at hn
    rcases hn with rfl | rfl
    · exact ⟨IsInv.one _, fun i hi => ⟨1, 1, by rw [List.mem_singleton.1 hi]; exact h1⟩⟩
    · refine ⟨IsInv.one _, fun i hi => ?_⟩
      simp only [id, List.mem_cons, List.not_mem_nil, or_false] at hi
      rcases hi with rfl | rfl
      · exact ⟨1, 0, h0⟩
      · exact ⟨1, 50, h50⟩
  · obtain rfl := List.mem_singleton.1 hn
    obtain rfl := List.mem_singleton.1 hm
    obtain rfl : i = i1 := List.mem_singleton.1 hi
    have f1 := (O2.irrep_rot h1).1
    simp only [id, List.mem_cons, List.not_mem_nil, or_false] at hj
    rcases hj with rfl | rfl
    · rw [f1, (O2.irrep_rot h0).1]; norm_num
    · rw [f1, (O2.irrep_rot h50).1]; norm_num

/-- The condition of `c81_so2_irreps` holds for the frequencies 3 and 50, fails for 26 and 26 and for 1 and 53. -/
example : ((3 : ℕ) = 50 ∨ ¬ (52 : ℤ) ∣ (3 : ℕ) - (50 : ℕ)) ∧ ((3 : ℕ) + 50 = 0 ∨ ¬ (52 : ℤ) ∣ (3 : ℕ) + (50 : ℕ)) ∧
    ¬ ((26 : ℕ) + 26 = 0 ∨ ¬ (52 : ℤ) ∣ (26 : ℕ) + (26 : ℕ)) ∧ ¬ ((1 : ℕ) = 53 ∨ ¬ (52 : ℤ) ∣ (1 : ℕ) - (53 : ℕ)) := by norm_num

end E2
