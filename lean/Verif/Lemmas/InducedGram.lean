import Verif.Lemmas.InducedExists

/-!
# Existence of the induced representations: orthogonality of the change of basis
-/

namespace E2

set_option linter.unusedSectionVars false

open Finset Mat

section
variable {El El' : Type} [DecidableEq El] {G : Grp El} {els : List El} {H : Grp El'} {S : SubData El El'}

theorem orthCols_of_trace {i : Irrep El} (hG : G.Lawful) (hi : IsIrreducible G i) (hio : IsOrthRep G i.size i.mat) {n : ℕ} {σ : El → Mat}
    (hσ : IsOrthRep G n σ) {T : Mat} (hT : Inter G n σ i.size i.mat T)
    (htr : ∑ t ∈ range i.size, mul n (tr T) T t t = i.size) : OrthCols n i.size T := by
  obtain ⟨c, hc⟩ := symm_scalar (G := G) hi (S := toM i.size (mul n (tr T) T))
    (by ext a b; simp only [toM, Matrix.transpose_apply, mul, tr]; exact Finset.sum_congr rfl fun _ _ => _root_.mul_comm _ _)
    (fun g hg => by
      have := gram_comm hG hσ hio hT hT hg
      rw [MEq_iff_toM, toM_mul, toM_mul] at this
      exact this)
  have hent : ∀ a (ha : a < i.size) b (hb : b < i.size), mul n (tr T) T a b = if a = b then c else 0 := by
    intro a ha b hb
    have := congrFun (congrFun hc ⟨a, ha⟩) ⟨b, hb⟩
    simp only [toM, Matrix.smul_apply, Matrix.one_apply, Fin.mk.injEq, smul_eq_mul, mul_ite, mul_one, mul_zero] at this
    exact this
  have hc1 : c = 1 := by
    rw [Finset.sum_congr rfl (g := fun _ => c) (fun t ht => by rw [hent t (mem_range.1 ht) t (mem_range.1 ht), if_pos rfl]), Finset.sum_const,
      card_range, nsmul_eq_mul] at htr
    have : (i.size : ℝ) ≠ 0 := by have := hi.1; positivity
    exact mul_left_cancel₀ this (by rw [htr, mul_one])
  intro a ha b hb
  rw [hent a ha b hb, hc1]
  rfl

theorem gram_zero_of_trace {i : Irrep El} (hG : G.Lawful) (hd : Module.finrank ℝ (intertwiners G i i) = 1) (hpos : 0 < i.size)
    (hio : IsOrthRep G i.size i.mat) {n : ℕ} {σ : El → Mat}
    (hσ : IsOrthRep G n σ) {T T' : Mat} (hT : Inter G n σ i.size i.mat T) (hT' : Inter G n σ i.size i.mat T')
    (htr : ∑ t ∈ range i.size, mul n (tr T) T' t t = 0) : MEq i.size i.size (mul n (tr T) T') fun _ _ => 0 := by
  have hmem : toM i.size (mul n (tr T) T') ∈ intertwiners G i i := by
    intro g hg
    have := gram_comm hG hσ hio hT hT' hg
    rw [MEq_iff_toM, toM_mul, toM_mul] at this
    exact this.symm
  have hone : (1 : Matrix (Fin i.size) (Fin i.size) ℝ) ∈ intertwiners G i i := fun g _ => by rw [Matrix.mul_one, Matrix.one_mul]
  have hne : (⟨1, hone⟩ : intertwiners G i i) ≠ 0 := by
    intro h
    have h2 := congrFun (congrFun (congrArg Subtype.val h) ⟨0, hpos⟩) ⟨0, hpos⟩
    simp at h2
  obtain ⟨c, hc⟩ := (finrank_eq_one_iff_of_nonzero' (⟨1, hone⟩ : intertwiners G i i) hne).1 hd ⟨_, hmem⟩
  have hc := congrArg Subtype.val hc
  have hent : ∀ a (ha : a < i.size) b (hb : b < i.size), mul n (tr T) T' a b = if a = b then c else 0 := by
    intro a ha b hb
    have := (congrFun (congrFun hc ⟨a, ha⟩) ⟨b, hb⟩).symm
    simp only [toM, Submodule.coe_smul, Matrix.smul_apply, Matrix.one_apply, Fin.mk.injEq, smul_eq_mul, mul_ite, mul_one, mul_zero] at this
    exact this
  have hc1 : c = 0 := by
    rw [Finset.sum_congr rfl (g := fun _ => c) (fun t ht => by rw [hent t (mem_range.1 ht) t (mem_range.1 ht), if_pos rfl]), Finset.sum_const,
      card_range, nsmul_eq_mul] at htr
    have : (i.size : ℝ) ≠ 0 := by positivity
    exact (mul_eq_zero.1 htr).resolve_left this
  intro a ha b hb
  rw [hent a ha b hb, hc1]
  split_ifs <;> rfl

theorem gram_zero_of_inequivalent {i i' : Irrep El} (hG : G.Lawful) (hd : Inequivalent G i i')
    (hio : IsOrthRep G i.size i.mat) {n : ℕ} {σ : El → Mat}
    (hσ : IsOrthRep G n σ) {T T' : Mat} (hT : Inter G n σ i.size i.mat T) (hT' : Inter G n σ i'.size i'.mat T') :
    MEq i.size i'.size (mul n (tr T) T') fun _ _ => 0 := by
  have hmem : toR i.size i'.size (mul n (tr T) T') ∈ intertwiners G i' i := by
    intro g hg
    ext a b
    have := gram_comm hG hσ hio hT hT' hg a a.2 b b.2
    rw [Matrix.mul_apply, Matrix.mul_apply]
    rw [mul, mul, Finset.sum_range, Finset.sum_range] at this
    exact this.symm
  rw [hd.2, Submodule.mem_bot] at hmem
  intro a ha b hb
  exact congrFun (congrFun hmem ⟨a, ha⟩) ⟨b, hb⟩

/-! ## All columns -/

/-- The blocks of columns side by side. -/
noncomputable def hcols (G : Grp El) (reps : List El) (s : ℕ) (c : ℝ) : List (Irrep El × Mat) → Mat
  | [] => fun _ _ => 0
  | p :: l => hcat p.1.size (colBlock G reps s c p.1 p.2) (hcols G reps s c l)

theorem hcols_inter {n : ℕ} {σ : El → Mat} (reps : List El) (s : ℕ) (c : ℝ) (l : List (Irrep El × Mat))
    (h : ∀ p ∈ l, Inter G n σ p.1.size p.1.mat (colBlock G reps s c p.1 p.2)) :
    Inter G n σ (lsize (l.map Prod.fst)) (Repr.blocks (l.map Prod.fst)) (hcols G reps s c l) := by
  induction l with
  | nil => intro g _ x _ j hj; simp [lsize] at hj
  | cons p l ih => exact Inter.cons (h p List.mem_cons_self) (ih fun q hq => h q (List.mem_cons_of_mem _ hq))

theorem hcols_orth (n : ℕ) (reps : List El) (s : ℕ) (c : ℝ) (l : List (Irrep El × Mat))
    (h : ∀ p ∈ l, OrthCols n p.1.size (colBlock G reps s c p.1 p.2))
    (hp : l.Pairwise fun p p' => MEq p'.1.size p.1.size (mul n (tr (colBlock G reps s c p'.1 p'.2)) (colBlock G reps s c p.1 p.2)) fun _ _ => 0) :
    OrthCols n (lsize (l.map Prod.fst)) (hcols G reps s c l) := by
  induction l with
  | nil => intro x hx; simp [lsize] at hx
  | cons p l ih =>
    rw [List.pairwise_cons] at hp
    rw [List.map_cons, lsize_cons]
    refine OrthCols.extend (h p List.mem_cons_self) (ih (fun q hq => h q (List.mem_cons_of_mem _ hq)) hp.2) ?_
    have hz := hp.1
    clear hp h ih
    generalize colBlock G reps s c p.1 p.2 = T at hz
    induction l with
    | nil => intro x hx; simp [lsize] at hx
    | cons p' l ih =>
      intro x hx y hy
      rw [List.map_cons, lsize_cons] at hx
      simp only [hcols, mul, tr, hcat]
      by_cases hx' : x < p'.1.size
      · simp only [if_pos hx']
        exact hz p' List.mem_cons_self x hx' y hy
      · simp only [if_neg hx']
        exact ih (fun q hq => hz q (List.mem_cons_of_mem _ hq)) (x - p'.1.size) (by omega) y hy

/-- The columns of the coset of a representative, from the blocks. -/
theorem blocks_vstack (reps : List El) (s : ℕ) (N : ℝ) (l : List (Irrep El × Mat)) (x : ℕ) {j : ℕ} (hj : j < lsize (l.map Prod.fst)) :
    mul (lsize (l.map Prod.fst)) (Repr.blocks (l.map Prod.fst) (reps.getD (x / s) G.one))
        (fun i j => vstack (l.map fun p => (p.1.size, p.2)) i j / N) j (x % s)
      = hcols G reps s N⁻¹ l x j := by
  induction l generalizing j with
  | nil => simp [lsize] at hj
  | cons p l ih =>
    rw [List.map_cons, lsize_cons] at hj ⊢
    simp only [mul, Repr.blocks, List.map_cons, bdiag, hcols, hcat, vstack]
    rw [Finset.sum_range_add]
    by_cases hj' : j < p.1.size
    · simp only [if_pos hj']
      rw [Finset.sum_eq_zero (s := range (lsize (l.map Prod.fst))) (fun k _ => by rw [if_neg (by omega), zero_mul]), add_zero, colBlock, mul, Finset.mul_sum]
      refine Finset.sum_congr rfl fun k hk => ?_
      rw [if_pos (mem_range.1 hk), if_pos (mem_range.1 hk)]
      ring
    · simp only [if_neg hj']
      rw [Finset.sum_eq_zero (s := range p.1.size) (fun k hk => by rw [if_pos (mem_range.1 hk), zero_mul]), zero_add, ← ih (by omega)]
      refine Finset.sum_congr rfl fun k _ => ?_
      rw [if_neg (by omega), if_neg (by omega), Nat.add_sub_cancel_left]
      rfl

end
end E2
