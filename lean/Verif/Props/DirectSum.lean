import Verif.Lemmas.Bdiag
import Verif.Props.Spec

/-!
# C10: direct sums and changes of basis
-/

namespace E2

open Finset Mat

/-- `B` is block diagonal with the blocks `A k` of sizes `s[k]`, in order: the entry at position `x` of block `k`
and position `y` of block `m` is `A k x y` if `k = m` and zero otherwise. -/
def IsBlockDiagonal (s : List ℕ) (A : ℕ → Mat) (B : Mat) : Prop :=
  ∀ (k m x y : ℕ) (hk : k < s.length) (hm : m < s.length), x < s[k] → y < s[m] →
    B ((s.take k).sum + x) ((s.take m).sum + y) = if k = m then A k x y else 0

/-- Conjugation of `A` by `Q`, where `Q'` is the inverse of `Q`. -/
noncomputable def conj (n : ℕ) (Q A Q' : Mat) : Mat := Mat.mul n (Mat.mul n Q A) Q'

namespace Repr

variable {El : Type}

theorem directsum_size (rs : List (Repr El)) : (directsum rs).size = (rs.map Repr.size).sum := by
  rw [size, directsum, sum_size_flatMap]; rfl

theorem bdiag_isInv (rs : List (Repr El)) (h : ∀ r ∈ rs, r.WF) :
    IsInv (rs.map Repr.size).sum (bdiag (rs.map fun r => (r.size, r.cob)))
      (bdiag (rs.map fun r => (r.size, r.cobInv))) := by
  refine isInv_of_left ?_
  rw [bdiag_mul Repr.size Repr.cob Repr.cobInv,
    bdiag_congr Repr.size _ (fun _ => Mat.one) rs fun r hr => (h r hr).1]
  exact bdiag_one _ _

theorem blocks_directsum (rs : List (Repr El)) (g : El) :
    blocks (rs.flatMap Repr.irreps) g = bdiag (rs.map fun r => (r.size, blocks r.irreps g)) :=
  blocks_flatMap _ _ _

theorem directsum_mat (rs : List (Repr El)) (g : El) :
    (directsum rs).mat g = bdiag (rs.map fun r => (r.size, r.mat g)) := by
  rw [mat, directsum_size]
  simp only [directsum]
  rw [blocks_directsum, bdiag_mul Repr.size Repr.cob (fun r => blocks r.irreps g),
    bdiag_mul Repr.size (fun r => Mat.mul r.size r.cob (blocks r.irreps g)) Repr.cobInv]
  rfl

theorem isBlockDiagonal_bdiag {α : Type} (l : List α) (sz : α → ℕ) (A : α → Mat) (d : α) :
    IsBlockDiagonal (l.map sz) (fun k => A (l.getD k d)) (bdiag (l.map fun a => (sz a, A a))) := by
  intro k m x y hk hm hx hy
  rw [List.length_map] at hk hm
  rw [List.getElem_map] at hx hy
  have := bdiag_entry (l.map fun a => (sz a, A a)) (k := k) (m := m) (x := x) (y := y) (by simpa using hk)
    (by simpa using hm) (by simpa using hx) (by simpa using hy)
  rw [List.map_map] at this
  simp only [offset, Function.comp_def, List.getElem_map] at this
  rw [this]
  simp [hk]

end Repr

/-- **C10.** For every list of representations of one group (`d` only fills positions outside the list): the
direct sum is well formed, has the concatenated irreps, the summed size, and at every `g` the block diagonal
matrix of the summands in order; it is a representation if the irreps are. -/
theorem c10_directsum {El : Type} (rs : List (Repr El)) (d : Repr El) (h : ∀ r ∈ rs, r.WF) :
    (Repr.directsum rs).WF ∧
    (Repr.directsum rs).size = (rs.map Repr.size).sum ∧
    (Repr.directsum rs).irreps = (rs.map Repr.irreps).flatten ∧
    (∀ g, IsBlockDiagonal (rs.map Repr.size) (fun k => (rs.getD k d).mat g) ((Repr.directsum rs).mat g)) ∧
    (∀ G : Grp El, (∀ r ∈ rs, ∀ i ∈ r.irreps, IsRep G i.size i.mat) →
      IsRep G (Repr.directsum rs).size (Repr.directsum rs).mat) := by
  have hwf : (Repr.directsum rs).WF := by
    rw [Repr.WF, Repr.directsum_size]
    exact Repr.bdiag_isInv rs h
  refine ⟨hwf, Repr.directsum_size rs, ?_, ?_, ?_⟩
  · simp [Repr.directsum, List.flatMap_def]
  · intro g
    rw [Repr.directsum_mat]
    exact Repr.isBlockDiagonal_bdiag rs Repr.size (fun r => r.mat g) d
  · intro G hG
    refine Repr.mat_isRep G _ hwf ?_
    intro i hi
    rw [Repr.directsum, List.mem_flatMap] at hi
    obtain ⟨r, hr, hi⟩ := hi
    exact hG r hr i hi

/-- **C10, with a change of basis `Q`.** The matrix is the conjugate by `Q` of the block diagonal matrix. -/
theorem c10_directsum_change_of_basis {El : Type} (rs : List (Repr El)) (h : ∀ r ∈ rs, r.WF) (Q Q' : Mat)
    (hQ : IsInv (rs.map Repr.size).sum Q Q') :
    (Repr.directsumCob rs Q).WF ∧
    (Repr.directsumCob rs Q).size = (rs.map Repr.size).sum ∧
    (Repr.directsumCob rs Q).irreps = (rs.map Repr.irreps).flatten ∧
    ∀ g, MEq (rs.map Repr.size).sum (rs.map Repr.size).sum ((Repr.directsumCob rs Q).mat g)
      (conj (rs.map Repr.size).sum Q ((Repr.directsum rs).mat g) Q') := by
  have hs : (Repr.directsumCob rs Q).size = (rs.map Repr.size).sum := Repr.directsum_size rs
  have hB := Repr.bdiag_isInv rs h
  have hC : IsInv (rs.map Repr.size).sum (Repr.directsumCob rs Q).cob
      (Mat.mul (rs.map Repr.size).sum (bdiag (rs.map fun r => (r.size, r.cobInv))) Q') := hQ.mul hB
  have hwf : (Repr.directsumCob rs Q).WF := by
    refine Repr.wf_mk' (D := Mat.mul (rs.map Repr.size).sum (bdiag (rs.map fun r => (r.size, r.cobInv))) Q') ?_
    have : ((rs.flatMap Repr.irreps).map Irrep.size).sum = (rs.map Repr.size).sum := Repr.directsum_size rs
    rw [this]
    exact hC
  refine ⟨hwf, hs, by simp [Repr.directsumCob, Repr.mk', List.flatMap_def], ?_⟩
  intro g
  have hu : MEq (rs.map Repr.size).sum (rs.map Repr.size).sum (Repr.directsumCob rs Q).cobInv _ :=
    IsInv.unique (by rw [Repr.WF, hs] at hwf; exact hwf) hC
  rw [conj, Repr.mat, Repr.mat, hs, Repr.directsum_size]
  refine (MEq.mul (MEq.refl _) hu).trans (MEq.of_eq ?_)
  simp only [Repr.directsumCob, Repr.mk', Repr.directsum, Mat.mul_assoc]

/-- **C10, `change_basis`.** The matrix is the conjugate by `Q`. -/
theorem c10_change_basis {El : Type} (r : Repr El) (h : r.WF) (Q Q' : Mat) (hQ : IsInv r.size Q Q') :
    (r.changeBasis Q).WF ∧ (r.changeBasis Q).irreps = r.irreps ∧
    ∀ g, MEq r.size r.size ((r.changeBasis Q).mat g) (conj r.size Q (r.mat g) Q') := by
  have hQ' := isInv_inv hQ
  refine ⟨hQ'.mul h, rfl, ?_⟩
  intro g
  rw [conj, Repr.mat, Repr.mat]
  refine MEq.trans (MEq.mul (MEq.refl _) (MEq.mul (MEq.refl _) (hQ'.unique hQ))) (MEq.of_eq ?_)
  simp only [Repr.changeBasis, Mat.mul_assoc]
  rfl

/-- The hypotheses hold for a list of two representations with non-trivial changes of basis. -/
example : ∃ (rs : List (Repr ℤ)) (Q Q' : Mat), rs.length = 2 ∧ (∀ r ∈ rs, r.WF) ∧
    IsInv (rs.map Repr.size).sum Q Q' ∧ Q 0 1 = 1 := by
  let i : Irrep ℤ := { size := 1, socs := 1, mat := fun e => m1 e, freq := 0, flip := 0 }
  refine ⟨[⟨[i], fun _ _ => 2, fun _ _ => 1 / 2⟩, ⟨[i], fun _ _ => 3, fun _ _ => 1 / 3⟩], m2 0 1 1 0, m2 0 1 1 0,
    rfl, ?_, ?_, rfl⟩
  · intro r hr
    simp only [List.mem_cons, List.not_mem_nil, or_false] at hr
    rcases hr with rfl | rfl
    · exact isInv_of_left (MEq_m1 (by simp [Mat.mul, Mat.one, Repr.size, i]))
    · exact isInv_of_left (MEq_m1 (by simp [Mat.mul, Mat.one, Repr.size, i]))
  · refine isInv_of_left ?_
    simp only [List.map_cons, List.map_nil, Repr.size, i, List.sum_cons, List.sum_nil]
    show MEq 2 2 (Mat.mul 2 _ _) _
    rw [m2_mul]
    norm_num
    exact m2_one

end E2
