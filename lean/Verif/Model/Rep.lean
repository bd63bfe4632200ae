import Verif.Model.Mat
import Mathlib.LinearAlgebra.Matrix.NonsingularInverse

/-!
# Representations

Model of `e2cnn/group/irrep.py` and `e2cnn/group/representation.py`.
-/

namespace E2

open Finset Mat

namespace Mat

/-- `A` and `B` (of shape `(n, n)`) are inverse to each other; these are the two assertions of the
`Representation` constructor (representation.py:151-152), without the tolerance. -/
def IsInv (n : ℕ) (A B : Mat) : Prop := MEq n n (mul n A B) one ∧ MEq n n (mul n B A) one

/-- View an array of shape `(n, n)` as a Mathlib matrix. -/
def toM (n : ℕ) (A : Mat) : Matrix (Fin n) (Fin n) ℝ := fun i j => A i j

/-- `scipy.linalg.inv`: the exact inverse (junk for singular arrays, as for `Matrix.inv`;
the library call raises for singular arrays). -/
noncomputable def inv (n : ℕ) (A : Mat) : Mat := fun i j =>
  if h : i < n ∧ j < n then (toM n A)⁻¹ ⟨i, h.1⟩ ⟨j, h.2⟩ else 0

theorem toM_mul (n : ℕ) (A B : Mat) : toM n (mul n A B) = toM n A * toM n B := by
  ext i j
  simp only [toM, mul, Matrix.mul_apply]
  rw [Finset.sum_range]

theorem toM_one (n : ℕ) : toM n one = 1 := by
  ext i j
  simp [toM, one, Matrix.one_apply, Fin.ext_iff]

theorem MEq_iff_toM (n : ℕ) (A B : Mat) : MEq n n A B ↔ toM n A = toM n B := by
  constructor
  · intro h; ext i j; exact h i i.2 j j.2
  · intro h i hi j hj; exact congrFun (congrFun h ⟨i, hi⟩) ⟨j, hj⟩

theorem toM_inv (n : ℕ) (A : Mat) : toM n (inv n A) = (toM n A)⁻¹ := by
  ext i j; simp [toM, inv]

theorem isInv_of_left {n : ℕ} {A B : Mat} (h : MEq n n (mul n A B) one) : IsInv n A B := by
  refine ⟨h, ?_⟩
  rw [MEq_iff_toM, toM_mul, toM_one] at h ⊢
  exact mul_eq_one_comm.1 h

theorem isInv_of_right {n : ℕ} {A B : Mat} (h : MEq n n (mul n B A) one) : IsInv n A B := by
  refine ⟨?_, h⟩
  rw [MEq_iff_toM, toM_mul, toM_one] at h ⊢
  exact mul_eq_one_comm.1 h

theorem IsInv.symm {n : ℕ} {A B : Mat} (h : IsInv n A B) : IsInv n B A := ⟨h.2, h.1⟩

/-- If the array is invertible, `inv` returns the inverse. -/
theorem isInv_inv {n : ℕ} {A B : Mat} (h : IsInv n A B) : IsInv n A (inv n A) := by
  have h1 : toM n A * toM n B = 1 := by
    rw [← toM_mul, ← toM_one]; exact (MEq_iff_toM _ _ _).1 h.1
  have hu : IsUnit (toM n A).det := by
    rw [← Matrix.isUnit_iff_isUnit_det]
    exact IsUnit.of_mul_eq_one _ h1
  refine isInv_of_left ?_
  rw [MEq_iff_toM, toM_mul, toM_inv, toM_one]
  exact Matrix.mul_nonsing_inv _ hu

theorem IsInv.unique {n : ℕ} {A B C : Mat} (h : IsInv n A B) (h' : IsInv n A C) :
    MEq n n B C := by
  rw [MEq_iff_toM]
  have h1 := (MEq_iff_toM _ _ _).1 h.2
  have h2 := (MEq_iff_toM _ _ _).1 h'.1
  rw [toM_mul, toM_one] at h1 h2
  calc toM n B = toM n B * (toM n A * toM n C) := by rw [h2, mul_one]
    _ = toM n C := by rw [← _root_.mul_assoc, h1, one_mul]

theorem IsInv.mul {n : ℕ} {A B C D : Mat} (h : IsInv n A B) (h' : IsInv n C D) :
    IsInv n (mul n A C) (mul n D B) := by
  refine isInv_of_left ?_
  have h1 := (MEq_iff_toM _ _ _).1 h.1
  have h2 := (MEq_iff_toM _ _ _).1 h'.1
  rw [MEq_iff_toM]
  rw [toM_mul, toM_one] at h1 h2 ⊢
  rw [toM_mul, toM_mul, _root_.mul_assoc, ← _root_.mul_assoc (toM n C), h2, one_mul, h1]

theorem IsInv.one (n : ℕ) : IsInv n one one := isInv_of_left (MEq_one_mul n n _)

end Mat

/-- An irreducible representation (irrep.py:13-66): size, `sum_of_squares_constituents`, matrix,
the attributes `frequency` and `flip_frequency`, and the optional explicit `character`.  Names are not modelled: a model irrep is the
object a name refers to. -/
structure Irrep (El : Type) where
  size : ℕ
  socs : ℕ
  mat : El → Mat
  freq : ℕ
  flip : ℕ
  char : Option (El → ℝ) := none

/-- `character(e)` of an irrep (representation.py:214-245): the given function if there is one, else
the trace of the matrix. -/
noncomputable def Irrep.character {El : Type} (r : Irrep El) (g : El) : ℝ :=
  match r.char with
  | none => ∑ i ∈ range r.size, r.mat g i i
  | some c => c g

/-- A representation (representation.py:30-212): its irreps and the change of basis. -/
structure Repr (El : Type) where
  irreps : List (Irrep El)
  cob : Mat
  cobInv : Mat

namespace Repr

variable {El : Type}

/-- `size` (representation.py:162; the shape of the change of basis is the sum of the irreps' sizes). -/
def size (r : Repr El) : ℕ := (r.irreps.map Irrep.size).sum

/-- The block diagonal matrix of the irreps (representation.py:1055-1064). -/
def blocks (l : List (Irrep El)) (g : El) : Mat := bdiag (l.map fun i => (i.size, i.mat g))

/-- `repr(g)` (representation.py:290-309 and `direct_sum_factory` 1014-1068). -/
def mat (r : Repr El) (g : El) : Mat :=
  Mat.mul r.size (Mat.mul r.size r.cob (blocks r.irreps g)) r.cobInv

/-- The assertions of the constructor (representation.py:151-152). -/
def WF (r : Repr El) : Prop := IsInv r.size r.cob r.cobInv

/-- Constructor without `change_of_basis_inv` (representation.py:145-146). -/
noncomputable def mk' (irreps : List (Irrep El)) (cob : Mat) : Repr El :=
  ⟨irreps, cob, Mat.inv ((irreps.map Irrep.size).sum) cob⟩

/-- `directsum(reprs)` without a change of basis (representation.py:400-468). -/
def directsum (rs : List (Repr El)) : Repr El where
  irreps := rs.flatMap Repr.irreps
  cob := bdiag (rs.map fun r => (r.size, r.cob))
  cobInv := bdiag (rs.map fun r => (r.size, r.cobInv))

/-- `directsum(reprs, change_of_basis)` (representation.py:459-461). -/
noncomputable def directsumCob (rs : List (Repr El)) (Q : Mat) : Repr El :=
  mk' (rs.flatMap Repr.irreps)
    (Mat.mul ((rs.map Repr.size).sum) Q (bdiag (rs.map fun r => (r.size, r.cob))))

/-- `change_basis(repr, Q, name)` (representation.py:608-646). -/
noncomputable def changeBasis (r : Repr El) (Q : Mat) : Repr El :=
  ⟨r.irreps, Mat.mul r.size Q r.cob, Mat.mul r.size r.cobInv (Mat.inv r.size Q)⟩

/-- The loop of `restrict_representation` over the irreps (group.py:393-402): for each irrep its size,
change of basis and list of irreps of the subgroup. -/
def restrictAll {El' : Type} (restr : Irrep El → Option (Mat × List (Irrep El'))) :
    List (Irrep El) → Option (List (ℕ × Mat × List (Irrep El')))
  | [] => some []
  | i :: l =>
    match restr i, restrictAll restr l with
    | some p, some q => some ((i.size, p.1, p.2) :: q)
    | _, _ => none

/-- `restrict_representation(id, repr)` (group.py:361-420), given the method `_restrict_irrep` with the subgroup
id fixed.  The supported nonlinearities are in Model/Tags; the name of the result is not modelled. -/
noncomputable def restrict {El' : Type} (restr : Irrep El → Option (Mat × List (Irrep El')))
    (r : Repr El) : Option (Repr El') :=
  match restrictAll restr r.irreps with
  | none => none
  | some l => some (mk' (l.flatMap fun x => x.2.2)
      (Mat.mul r.size r.cob (bdiag (l.map fun x => (x.1, x.2.1)))))

end Repr

end E2
