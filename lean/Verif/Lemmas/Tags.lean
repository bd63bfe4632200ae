import Verif.Props.TagSpec
import Verif.Props.DirectSum
import Verif.Props.PointwiseGroups

/-!
# Permutations, signed permutations, orthogonal arrays and arrays moving blocks in block diagonal arrays
-/

namespace E2

open Mat

/-! ### Arrays which move blocks -/

/-- An array of size `q * k` which moves the block `σ i` of size `k` to the place `i`, acting on it by an array with the property `Q`. -/
def BlockMono (q k : ℕ) (Q : Mat → Prop) (M : Mat) : Prop :=
  ∃ (σ : Equiv.Perm (Fin q)) (O : Fin q → Mat), (∀ i, Q (O i)) ∧
    ∀ (i j : Fin q) (a b : Fin k), M (i * k + a) (j * k + b) = if j = σ i then O i a b else 0

/-- Two blocks on the diagonal. -/
def sum2 (n : ℕ) (A B : Mat) : Mat := fun i j =>
  if i < n then (if j < n then A i j else 0) else if j < n then 0 else B (i - n) (j - n)

theorem bdiag_cons (n : ℕ) (A : Mat) (l : List (ℕ × Mat)) : bdiag ((n, A) :: l) = sum2 n A (bdiag l) := rfl

theorem mul_add_lt {q k i a : ℕ} (hi : i < q) (ha : a < k) : i * k + a < q * k := by
  have : (i + 1) * k ≤ q * k := Nat.mul_le_mul_right _ hi
  rw [add_mul, one_mul] at this
  omega

theorem BlockMono.sum2 {q q' k : ℕ} {Q : Mat → Prop} {A B : Mat} (hA : BlockMono q k Q A) (hB : BlockMono q' k Q B) :
    BlockMono (q + q') k Q (sum2 (q * k) A B) := by
  obtain ⟨σ, O, hO, hM⟩ := hA
  obtain ⟨σ', O', hO', hM'⟩ := hB
  refine ⟨finSumFinEquiv.permCongr (Equiv.sumCongr σ σ'), Fin.addCases O O', ?_, ?_⟩
  · intro i
    refine Fin.addCases (fun i => ?_) (fun i => ?_) i
    · dsimp only; rw [Fin.addCases_left]; exact hO i
    · dsimp only; rw [Fin.addCases_right]; exact hO' i
  · intro i j a b
    have hs : ∀ (i : Fin q') (a : Fin k), ¬ ((q + i) * k + a < q * k) := fun i a => by rw [add_mul]; omega
    have hsub : ∀ (i : Fin q') (a : Fin k), (q + i) * k + a - q * k = i * k + a := fun i a => by rw [add_mul]; omega
    refine Fin.addCases (fun i => ?_) (fun i => ?_) i <;> refine Fin.addCases (fun j => ?_) (fun j => ?_) j
    · rw [E2.sum2, Fin.val_castAdd, Fin.val_castAdd, if_pos (mul_add_lt i.2 a.2), if_pos (mul_add_lt j.2 b.2), hM]
      dsimp only
      rw [Fin.addCases_left]
      simp [Equiv.permCongr_apply]
    · rw [E2.sum2, Fin.val_castAdd, Fin.val_natAdd, if_pos (mul_add_lt i.2 a.2), if_neg (hs j b), if_neg]
      simp [Equiv.permCongr_apply, Fin.ext_iff]; omega
    · rw [E2.sum2, Fin.val_castAdd, Fin.val_natAdd, if_neg (hs i a), if_pos (mul_add_lt j.2 b.2), if_neg]
      simp [Equiv.permCongr_apply, Fin.ext_iff]; omega
    · rw [E2.sum2, Fin.val_natAdd, Fin.val_natAdd, if_neg (hs i a), if_neg (hs j b), hsub, hsub, hM']
      dsimp only
      rw [Fin.addCases_right]
      simp [Equiv.permCongr_apply, Fin.ext_iff]

theorem BlockMono.nil (k : ℕ) (Q : Mat → Prop) (M : Mat) : BlockMono 0 k Q M :=
  ⟨1, fun _ => Mat.one, fun i => i.elim0, fun i => i.elim0⟩

theorem BlockMono.congr {q k : ℕ} {Q : Mat → Prop} {A B : Mat} (h : BlockMono q k Q A) (he : MEq (q * k) (q * k) A B) : BlockMono q k Q B := by
  obtain ⟨σ, O, hO, hM⟩ := h
  exact ⟨σ, O, hO, fun i j a b => by rw [← he _ (mul_add_lt i.2 a.2) _ (mul_add_lt j.2 b.2)]; exact hM i j a b⟩

theorem BlockMono.mono {q k : ℕ} {Q Q' : Mat → Prop} {A : Mat} (h : BlockMono q k Q A) (hQ : ∀ O, Q O → Q' O) : BlockMono q k Q' A := by
  obtain ⟨σ, O, hO, hM⟩ := h
  exact ⟨σ, O, fun i => hQ _ (hO i), hM⟩

theorem isBlockPerm_iff {q k : ℕ} {M : Mat} : IsBlockPerm q k M ↔ BlockMono q k (Orth k) M := Iff.rfl

theorem movesBlocks_iff {q k : ℕ} {M : Mat} : (∃ σ, MovesBlocks q k σ M) ↔ BlockMono q k (fun _ => True) M :=
  ⟨fun ⟨σ, O, h⟩ => ⟨σ, O, fun _ => trivial, h⟩, fun ⟨σ, O, _, h⟩ => ⟨σ, O, h⟩⟩

theorem blockMono_bdiag {k : ℕ} {Q : Mat → Prop} (l : List (ℕ × Mat)) (hd : ∀ p ∈ l, k ∣ p.1) (hk : 0 < k)
    (h : ∀ p ∈ l, BlockMono (p.1 / k) k Q p.2) : k ∣ total l ∧ BlockMono (total l / k) k Q (bdiag l) := by
  induction l with
  | nil => exact ⟨dvd_zero _, by rw [show total [] / k = 0 by simp [total]]; exact BlockMono.nil _ _ _⟩
  | cons p l ih =>
    obtain ⟨h1, h2⟩ := ih (fun p hp => hd p (List.mem_cons_of_mem _ hp)) fun p hp => h p (List.mem_cons_of_mem _ hp)
    obtain ⟨n, A⟩ := p
    have hdn : k ∣ n := hd _ List.mem_cons_self
    have ht : total ((n, A) :: l) = n + total l := by simp [total]
    refine ⟨by rw [ht]; exact dvd_add hdn h1, ?_⟩
    rw [ht, Nat.add_div_of_dvd_right hdn, bdiag_cons]
    have := (h _ List.mem_cons_self).sum2 h2
    rwa [Nat.div_mul_cancel hdn] at this

/-! ### Permutations with entries in a set -/

/-- An array with one entry in each row and column, which belongs to `S`. -/
def SPerm (n : ℕ) (S : Set ℝ) (M : Mat) : Prop :=
  ∃ (σ : Equiv.Perm (Fin n)) (ε : Fin n → ℝ), (∀ i, ε i ∈ S) ∧ ∀ i j : Fin n, M i j = if j = σ i then ε i else 0

theorem isPerm_iff_sPerm {n : ℕ} {M : Mat} : IsPerm n M ↔ SPerm n {1} M := by
  constructor
  · rintro ⟨σ, h⟩
    exact ⟨σ, fun _ => 1, fun _ => rfl, h⟩
  · rintro ⟨σ, ε, hε, h⟩
    refine ⟨σ, fun i j => ?_⟩
    rw [h, show ε i = 1 from hε i]

theorem isSignedPerm_iff_sPerm {n : ℕ} {M : Mat} : IsSignedPerm n M ↔ SPerm n {1, -1} M := Iff.rfl

theorem SPerm.congr {n : ℕ} {S : Set ℝ} {A B : Mat} (h : SPerm n S A) (he : MEq n n A B) : SPerm n S B := by
  obtain ⟨σ, ε, hε, h⟩ := h
  exact ⟨σ, ε, hε, fun i j => by rw [← he i i.2 j j.2]; exact h i j⟩

theorem sPerm_iff_blockMono {n : ℕ} {S : Set ℝ} {M : Mat} : SPerm n S M ↔ BlockMono n 1 (fun O => O 0 0 ∈ S) M := by
  constructor
  · rintro ⟨σ, ε, hε, h⟩
    refine ⟨σ, fun i _ _ => ε i, hε, fun i j a b => ?_⟩
    have ha : (a : ℕ) = 0 := by omega
    have hb : (b : ℕ) = 0 := by omega
    rw [ha, hb, mul_one, mul_one, add_zero, add_zero]
    exact h i j
  · rintro ⟨σ, O, hO, h⟩
    refine ⟨σ, fun i => O i 0 0, hO, fun i j => ?_⟩
    have := h i j 0 0
    simpa using this

/-- A block of a block diagonal permutation is a permutation. -/
theorem SPerm.split {n m : ℕ} {S : Set ℝ} (hS : (0 : ℝ) ∉ S) {A B : Mat} (h : SPerm (n + m) S (sum2 n A B)) : SPerm n S A ∧ SPerm m S B := by
  obtain ⟨σ, ε, hε, h⟩ := h
  have hne : ∀ i, ε i ≠ 0 := fun i hi => hS (hi ▸ hε i)
  have hself : ∀ i : Fin (n + m), sum2 n A B i (σ i) ≠ 0 := fun i => by rw [h, if_pos rfl]; exact hne i
  have hl : ∀ i : Fin n, (σ (Fin.castAdd m i) : ℕ) < n := by
    intro i
    by_contra hc
    refine hself (Fin.castAdd m i) ?_
    rw [sum2, Fin.val_castAdd, if_pos i.2, if_neg hc]
  have hr : ∀ i : Fin m, n ≤ (σ (Fin.natAdd n i) : ℕ) := by
    intro i
    by_contra hc
    refine hself (Fin.natAdd n i) ?_
    rw [sum2, Fin.val_natAdd, if_neg (by omega), if_pos (by omega)]
  constructor
  · let τ : Fin n → Fin n := fun i => ⟨σ (Fin.castAdd m i), hl i⟩
    have hτ : Function.Injective τ := by
      intro i j hij
      have h1 : (σ (Fin.castAdd m i) : ℕ) = σ (Fin.castAdd m j) := Fin.mk.inj hij
      exact Fin.castAdd_injective _ _ (σ.injective (Fin.ext h1))
    refine ⟨Equiv.ofBijective τ (Finite.injective_iff_bijective.1 hτ), fun i => ε (Fin.castAdd m i), fun i => hε _, fun i j => ?_⟩
    have := h (Fin.castAdd m i) (Fin.castAdd m j)
    rw [sum2, Fin.val_castAdd, Fin.val_castAdd, if_pos i.2, if_pos j.2] at this
    rw [this]
    congr 1
    simp only [Equiv.ofBijective_apply, τ, Fin.ext_iff, Fin.val_castAdd]
  · let τ : Fin m → Fin m := fun i => ⟨σ (Fin.natAdd n i) - n, by have := (σ (Fin.natAdd n i)).2; have := hr i; omega⟩
    have hτ : Function.Injective τ := by
      intro i j hij
      have h1 : (σ (Fin.natAdd n i) : ℕ) - n = σ (Fin.natAdd n j) - n := congrArg Fin.val hij
      have h2 : (σ (Fin.natAdd n i) : ℕ) = σ (Fin.natAdd n j) := by have := hr i; have := hr j; omega
      have h3 := congrArg Fin.val (σ.injective (Fin.ext h2))
      rw [Fin.val_natAdd, Fin.val_natAdd] at h3
      exact Fin.ext (by omega)
    refine ⟨Equiv.ofBijective τ (Finite.injective_iff_bijective.1 hτ), fun i => ε (Fin.natAdd n i), fun i => hε _, fun i j => ?_⟩
    have := h (Fin.natAdd n i) (Fin.natAdd n j)
    rw [sum2, Fin.val_natAdd, Fin.val_natAdd, if_neg (by omega), if_neg (by omega), Nat.add_sub_cancel_left, Nat.add_sub_cancel_left] at this
    rw [this]
    congr 1
    have := hr i
    simp only [Equiv.ofBijective_apply, τ, Fin.ext_iff, Fin.val_natAdd, eq_iff_iff]
    omega

theorem SPerm.bdiag {S : Set ℝ} {l : List (ℕ × Mat)} (h : ∀ p ∈ l, SPerm p.1 S p.2) : SPerm (total l) S (bdiag l) := by
  have := (blockMono_bdiag (k := 1) (Q := fun O => O 0 0 ∈ S) l (fun _ _ => one_dvd _) one_pos fun p hp => by
    rw [Nat.div_one]; exact sPerm_iff_blockMono.1 (h p hp)).2
  rw [Nat.div_one] at this
  exact sPerm_iff_blockMono.2 this

theorem SPerm.of_bdiag {S : Set ℝ} (hS : (0 : ℝ) ∉ S) {l : List (ℕ × Mat)} (h : SPerm (total l) S (Mat.bdiag l)) : ∀ p ∈ l, SPerm p.1 S p.2 := by
  induction l with
  | nil => intro p hp; cases hp
  | cons p l ih =>
    obtain ⟨n, A⟩ := p
    have ht : total ((n, A) :: l) = n + total l := by simp [total]
    rw [ht, bdiag_cons] at h
    obtain ⟨h1, h2⟩ := SPerm.split hS h
    intro p hp
    rcases List.mem_cons.1 hp with rfl | hp
    · exact h1
    · exact ih h2 p hp

theorem SPerm.mono {n : ℕ} {S T : Set ℝ} (hST : S ⊆ T) {M : Mat} (h : SPerm n S M) : SPerm n T M := by
  obtain ⟨σ, ε, hε, h⟩ := h
  exact ⟨σ, ε, fun i => hST (hε i), h⟩

theorem IsPerm.signed {n : ℕ} {M : Mat} (h : IsPerm n M) : IsSignedPerm n M :=
  isSignedPerm_iff_sPerm.2 ((isPerm_iff_sPerm.1 h).mono (by simp))

theorem IsSignedPerm.orth {n : ℕ} {M : Mat} (h : IsSignedPerm n M) : Orth n M := by
  obtain ⟨σ, ε, hε, h⟩ := h
  intro i hi j hj
  rw [Mat.mul, Finset.sum_range]
  have hrow : ∀ (c : Fin n) (i : ℕ) (hi : i < n), M c i = if (⟨i, hi⟩ : Fin n) = σ c then ε c else 0 := fun c i hi => h c ⟨i, hi⟩
  rw [Finset.sum_eq_single (σ.symm ⟨i, hi⟩)]
  · rw [tr, hrow _ i hi, hrow _ j hj, Equiv.apply_symm_apply, if_pos rfl, Mat.one]
    by_cases hij : i = j
    · subst hij
      rw [if_pos rfl, if_pos rfl]
      rcases hε (σ.symm ⟨i, hi⟩) with h1 | h1 <;> rw [h1] <;> norm_num
    · rw [if_neg hij, if_neg (fun e => hij (congrArg Fin.val e).symm), mul_zero]
  · intro c _ hc
    rw [tr, hrow c i hi, if_neg, zero_mul]
    intro he
    exact hc (by rw [he, Equiv.symm_apply_apply])
  · intro h; exact absurd (Finset.mem_univ _) h

/-! ### Orthogonal arrays and the identity -/

theorem mul_sum2 {n m : ℕ} (A B C D : Mat) {i j : ℕ} :
    Mat.mul (n + m) (sum2 n A B) (sum2 n C D) i j = sum2 n (Mat.mul n A C) (Mat.mul m B D) i j := by
  rw [Mat.mul, Finset.sum_range_add]
  have h1 : ∀ x ∈ Finset.range n, sum2 n A B i x * sum2 n C D x j = if i < n ∧ j < n then A i x * C x j else 0 := by
    intro x hx
    rw [Finset.mem_range] at hx
    simp only [sum2, hx, if_true]
    split_ifs <;> simp_all
  have h2 : ∀ x ∈ Finset.range m, sum2 n A B i (n + x) * sum2 n C D (n + x) j
      = if ¬ i < n ∧ ¬ j < n then B (i - n) x * D x (j - n) else 0 := by
    intro x _
    simp only [sum2, show ¬ n + x < n by omega, if_false, Nat.add_sub_cancel_left]
    split_ifs <;> simp_all
  rw [Finset.sum_congr rfl h1, Finset.sum_congr rfl h2, sum2]
  split_ifs <;> simp_all [Mat.mul]

theorem tr_sum2 (n : ℕ) (A B : Mat) : tr (sum2 n A B) = sum2 n (tr A) (tr B) := by
  funext i j
  simp only [tr, sum2]
  split_ifs <;> rfl

theorem sum2_one {n m : ℕ} {A B : Mat} : MEq (n + m) (n + m) (sum2 n A B) Mat.one ↔ MEq n n A Mat.one ∧ MEq m m B Mat.one := by
  constructor
  · intro h
    constructor
    · intro i hi j hj
      have := h i (by omega) j (by omega)
      rwa [sum2, if_pos hi, if_pos hj] at this
    · intro i hi j hj
      have := h (n + i) (by omega) (n + j) (by omega)
      rw [sum2, if_neg (by omega), if_neg (by omega), Nat.add_sub_cancel_left, Nat.add_sub_cancel_left] at this
      rw [this]
      simp [Mat.one]
  · rintro ⟨h1, h2⟩ i hi j hj
    rw [sum2]
    split_ifs with a b b
    · exact h1 i a j b
    · rw [Mat.one, if_neg (by omega)]
    · rw [Mat.one, if_neg (by omega)]
    · rw [h2 _ (by omega) _ (by omega), Mat.one, Mat.one]
      simp only [show (i - n = j - n) = (i = j) from propext (by omega)]

theorem orth_sum2 {n m : ℕ} {A B : Mat} : Orth (n + m) (sum2 n A B) ↔ Orth n A ∧ Orth m B := by
  rw [Orth, tr_sum2, show Mat.mul (n + m) (sum2 n (tr A) (tr B)) (sum2 n A B) = sum2 n (Mat.mul n (tr A) A) (Mat.mul m (tr B) B) from by
    funext i j; exact mul_sum2 _ _ _ _, sum2_one]
  rfl

theorem orth_bdiag {l : List (ℕ × Mat)} : Orth (total l) (bdiag l) ↔ ∀ p ∈ l, Orth p.1 p.2 := by
  induction l with
  | nil => simp [Orth, total, MEq]
  | cons p l ih =>
    obtain ⟨n, A⟩ := p
    rw [show total ((n, A) :: l) = n + total l by simp [total], bdiag_cons, orth_sum2, ih, List.forall_mem_cons]

theorem one_bdiag {l : List (ℕ × Mat)} : MEq (total l) (total l) (bdiag l) Mat.one ↔ ∀ p ∈ l, MEq p.1 p.1 p.2 Mat.one := by
  induction l with
  | nil => simp [total, MEq]
  | cons p l ih =>
    obtain ⟨n, A⟩ := p
    rw [show total ((n, A) :: l) = n + total l by simp [total], bdiag_cons, sum2_one, ih, List.forall_mem_cons]

theorem Orth.congr {n : ℕ} {A B : Mat} (h : Orth n A) (he : MEq n n A B) : Orth n B :=
  (MEq.mul (fun i hi j hj => (he j hj i hi).symm) he.symm).trans h

end E2
