import Mathlib.Algebra.BigOperators.Ring.Finset
import Mathlib.Algebra.BigOperators.Intervals
import Mathlib.Data.Real.Basic
import Mathlib.Tactic.Ring
import Mathlib.Tactic.Linarith
import Mathlib.Algebra.Order.BigOperators.Group.Finset

/-!
# Matrices

Numpy arrays of shape `(n, m)` are modelled as functions `ℕ → ℕ → ℝ`; the shape is carried
separately and equality of arrays is `MEq n m`.  This is the model of the numpy primitives used by
the library (`@`, `np.eye`, `.T`, `scipy.linalg.block_diag`), which are part of the trusted base.
-/

namespace E2

open Finset

/-- A numpy array with two axes; entries outside the shape are never read. -/
abbrev Mat := ℕ → ℕ → ℝ

namespace Mat

/-- `A @ B`, where `n` is the common dimension. -/
def mul (n : ℕ) (A B : Mat) : Mat := fun i j => ∑ k ∈ range n, A i k * B k j

/-- `np.eye`. -/
def one : Mat := fun i j => if i = j then 1 else 0

/-- `A.T`. -/
def tr (A : Mat) : Mat := fun i j => A j i

/-- `A @ v` for a vector `v` of length `n`. -/
def mulVec (n : ℕ) (A : Mat) (v : ℕ → ℝ) : ℕ → ℝ := fun i => ∑ k ∈ range n, A i k * v k

/-- Equality of two arrays of shape `(n, m)`. -/
def MEq (n m : ℕ) (A B : Mat) : Prop := ∀ i < n, ∀ j < m, A i j = B i j

/-- `scipy.linalg.block_diag` of a list of square blocks with their sizes. -/
def bdiag : List (ℕ × Mat) → Mat
  | [] => fun _ _ => 0
  | (s, A) :: l => fun i j =>
      if i < s then (if j < s then A i j else 0)
      else if j < s then 0 else bdiag l (i - s) (j - s)

/-- Total size of a list of blocks. -/
def total (l : List (ℕ × Mat)) : ℕ := (l.map Prod.fst).sum

theorem MEq.refl {n m : ℕ} (A : Mat) : MEq n m A A := fun _ _ _ _ => rfl

theorem MEq.symm {n m : ℕ} {A B : Mat} (h : MEq n m A B) : MEq n m B A :=
  fun i hi j hj => (h i hi j hj).symm

theorem MEq.trans {n m : ℕ} {A B C : Mat} (h : MEq n m A B) (h' : MEq n m B C) : MEq n m A C :=
  fun i hi j hj => (h i hi j hj).trans (h' i hi j hj)

theorem MEq.of_eq {n m : ℕ} {A B : Mat} (h : A = B) : MEq n m A B := h ▸ MEq.refl A

theorem MEq.mul {n m k : ℕ} {A A' B B' : Mat} (h : MEq n k A A') (h' : MEq k m B B') :
    MEq n m (mul k A B) (mul k A' B') := by
  intro i hi j hj
  refine Finset.sum_congr rfl fun l hl => ?_
  rw [h i hi l (mem_range.1 hl), h' l (mem_range.1 hl) j hj]

theorem MEq.tr {n m : ℕ} {A B : Mat} (h : MEq n m A B) : MEq m n (tr A) (tr B) :=
  fun i hi j hj => h j hj i hi

theorem mul_assoc (n m : ℕ) (A B C : Mat) : mul n (mul m A B) C = mul m A (mul n B C) := by
  funext i j
  simp only [mul, Finset.sum_mul, Finset.mul_sum]
  rw [Finset.sum_comm]
  refine Finset.sum_congr rfl fun k _ => Finset.sum_congr rfl fun l _ => ?_
  ring

theorem tr_mul (n : ℕ) (A B : Mat) : tr (mul n A B) = mul n (tr B) (tr A) := by
  funext i j
  simp only [tr, mul]
  exact Finset.sum_congr rfl fun k _ => mul_comm _ _

theorem tr_tr (A : Mat) : tr (tr A) = A := rfl

theorem tr_one : tr one = one := by
  funext i j; simp [tr, one, eq_comm]

theorem one_mul_entry {n : ℕ} (A : Mat) {i : ℕ} (hi : i < n) (j : ℕ) : mul n one A i j = A i j := by
  simp [mul, one, hi]

theorem mul_one_entry {n : ℕ} (A : Mat) (i : ℕ) {j : ℕ} (hj : j < n) : mul n A one i j = A i j := by
  simp [mul, one, hj]

theorem MEq_one_mul (n m : ℕ) (A : Mat) : MEq n m (mul n one A) A :=
  fun _ hi j _ => one_mul_entry A hi j

theorem MEq_mul_one (n m : ℕ) (A : Mat) : MEq n m (mul m A one) A :=
  fun i _ _ hj => mul_one_entry A i hj

theorem mulVec_mul (n m : ℕ) (A B : Mat) (v : ℕ → ℝ) :
    mulVec n (mul m A B) v = mulVec m A (mulVec n B v) := by
  funext i
  simp only [mulVec, mul, Finset.sum_mul, Finset.mul_sum]
  rw [Finset.sum_comm]
  refine Finset.sum_congr rfl fun k _ => Finset.sum_congr rfl fun l _ => ?_
  ring

theorem total_cons (s : ℕ) (A : Mat) (l : List (ℕ × Mat)) : total ((s, A) :: l) = s + total l := by
  simp [total]

/-- The product of two block diagonal matrices with the same block sizes. -/
theorem bdiag_mul {α : Type*} (sz : α → ℕ) (A B : α → Mat) (l : List α) :
    mul (l.map sz).sum (bdiag (l.map fun x => (sz x, A x))) (bdiag (l.map fun x => (sz x, B x)))
      = bdiag (l.map fun x => (sz x, mul (sz x) (A x) (B x))) := by
  induction l with
  | nil => funext i j; simp [mul, bdiag]
  | cons x l ih =>
    funext i j
    have ih' := congrFun (congrFun ih (i - sz x)) (j - sz x)
    simp only [List.map_cons, List.sum_cons, mul, bdiag, Finset.sum_range_add] at ih' ⊢
    by_cases hi : i < sz x <;> by_cases hj : j < sz x
    · simp only [hi, hj, if_true]
      rw [Finset.sum_eq_zero (s := range (l.map sz).sum), add_zero]
      · exact Finset.sum_congr rfl fun k hk => by simp [mem_range.1 hk]
      · intro k _; simp
    · simp only [hi, hj, if_true, if_false]
      rw [Finset.sum_eq_zero, Finset.sum_eq_zero, add_zero]
      · intro k _; simp
      · intro k hk; simp [mem_range.1 hk]
    · simp only [hi, hj, if_true, if_false]
      rw [Finset.sum_eq_zero, Finset.sum_eq_zero, add_zero]
      · intro k _; simp
      · intro k hk; simp [mem_range.1 hk]
    · simp only [hi, hj, if_false]
      rw [Finset.sum_eq_zero, zero_add]
      · rw [← ih']
        exact Finset.sum_congr rfl fun k _ => by simp
      · intro k hk; simp [mem_range.1 hk]

theorem bdiag_tr {α : Type*} (sz : α → ℕ) (A : α → Mat) (l : List α) :
    tr (bdiag (l.map fun x => (sz x, A x))) = bdiag (l.map fun x => (sz x, tr (A x))) := by
  induction l with
  | nil => rfl
  | cons x l ih =>
    funext i j
    have ih' := congrFun (congrFun ih (i - sz x)) (j - sz x)
    simp only [List.map_cons, tr, bdiag] at ih' ⊢
    split_ifs <;> first | rfl | exact ih'

theorem bdiag_congr {α : Type*} (sz : α → ℕ) (A B : α → Mat) (l : List α)
    (h : ∀ x ∈ l, MEq (sz x) (sz x) (A x) (B x)) :
    bdiag (l.map fun x => (sz x, A x)) = bdiag (l.map fun x => (sz x, B x)) := by
  induction l with
  | nil => rfl
  | cons x l ih =>
    have hx := h x (by simp)
    have ih := ih fun y hy => h y (by simp [hy])
    funext i j
    simp only [List.map_cons, bdiag, ih]
    split_ifs with h1 h2
    · exact hx i h1 j h2
    all_goals rfl

theorem bdiag_one {α : Type*} (sz : α → ℕ) (l : List α) :
    MEq (l.map sz).sum (l.map sz).sum (bdiag (l.map fun x => (sz x, one))) one := by
  induction l with
  | nil => intro i hi; simp at hi
  | cons x l ih =>
    intro i hi j hj
    simp only [List.map_cons, List.sum_cons] at hi hj
    simp only [List.map_cons, bdiag]
    split_ifs with h1 h2 h2
    · rfl
    · simp [one]; omega
    · simp [one]; omega
    · rw [ih (i - sz x) (by omega) (j - sz x) (by omega)]
      simp only [one]
      by_cases h : i = j
      · simp [h]
      · rw [if_neg h, if_neg (by omega)]

theorem bdiag_out (l : List (ℕ × Mat)) {i j : ℕ} (h : total l ≤ i ∨ total l ≤ j) :
    bdiag l i j = 0 := by
  induction l generalizing i j with
  | nil => rfl
  | cons x l ih =>
    obtain ⟨s, A⟩ := x
    rw [total_cons] at h
    simp only [bdiag]
    split_ifs with h1 h2 h2
    · omega
    · rfl
    · rfl
    · exact ih (by omega)

theorem total_append (l l' : List (ℕ × Mat)) : total (l ++ l') = total l + total l' := by
  simp [total]

theorem bdiag_append_entry (l l' : List (ℕ × Mat)) (i j : ℕ) :
    bdiag (l ++ l') i j =
      if i < total l then (if j < total l then bdiag l i j else 0)
      else if j < total l then 0 else bdiag l' (i - total l) (j - total l) := by
  induction l generalizing i j with
  | nil => simp [total]
  | cons x l ih =>
    obtain ⟨s, A⟩ := x
    simp only [List.cons_append, bdiag, total_cons, ih]
    by_cases hi : i < s <;> by_cases hj : j < s
    · have h1 : i < s + total l := by omega
      have h2 : j < s + total l := by omega
      simp only [hi, hj, h1, h2, if_true]
    · have h1 : i < s + total l := by omega
      simp only [hi, hj, h1, if_true, if_false, ite_self]
    · have h2 : j < s + total l := by omega
      simp only [hi, hj, h2, if_true, if_false, ite_self]
    · have h1 : (i < s + total l) ↔ (i - s < total l) := by omega
      have h2 : (j < s + total l) ↔ (j - s < total l) := by omega
      simp only [hi, hj, if_false, h1, h2, Nat.sub_sub]

/-- Block diagonal of block diagonals. -/
theorem bdiag_flatten (L : List (List (ℕ × Mat))) :
    bdiag (L.map fun l => (total l, bdiag l)) = bdiag L.flatten := by
  induction L with
  | nil => rfl
  | cons l L ih =>
    funext i j
    rw [List.flatten_cons, bdiag_append_entry, List.map_cons, ← ih]
    rfl

end Mat
end E2
