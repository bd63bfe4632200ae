import Verif.Props.Gated
import Verif.Props.Conv

/-!
# C34: the groups meet the hypotheses
-/

namespace E2

open Mat

variable {P R El : Type}

/-- The matrices of orthogonal representations are orthogonal. -/
theorem IsOrthRep.orth {G : Grp El} {n : ℕ} {ρ : El → Mat} (h : IsOrthRep G n ρ) (hG : G.InvOk) (g : El) (hg : G.isEl g) : Orth n (ρ g) :=
  (MEq.mul (h.inv g hg).symm (MEq.refl _)).trans (h.toIsRep.inv_mul hG g hg)

/-- **C34, norm**, for a group: the module commutes with every element of the group in all orthogonal representations. -/
theorem c34_norm_group [DecidableEq R] {G : Grp El} (hG : G.InvOk) (sz : R → ℕ) (rep : R → El → Mat) (t : List R) (hpos : ∀ r ∈ t, 0 < sz r)
    (hrep : ∀ r ∈ t, IsOrthRep G (sz r) (rep r)) (f : ℝ → ℝ) (eps : ℝ) (bias : List ℝ) (g : El) (hg : G.isEl g) (π : P → P)
    (junk junk' : List (P → ℝ)) (hj : junk.length = typeSize sz t) (hj' : junk'.length = typeSize sz t)
    (x : GTensor R (P → ℝ)) (hx : x.WF sz) (hxt : x.ty = t) :
    ∃ y, normNonlin sz t f eps bias junk x = some y ∧
      normNonlin sz t f eps bias junk' (x.transform sz (fun r => rep r g) π) = some (y.transform sz (fun r => rep r g) π) :=
  c34_norm_equivariant sz t hpos f eps bias (fun r => rep r g) (fun r hr => (hrep r hr).orth hG g hg) π junk junk' hj hj' x hx hxt

/-- The size of the irreducible representations of SO(2). -/
noncomputable def so2Size (k : ℕ) : ℕ := (SO2.irrep k).size

theorem so2Size_eq (k : ℕ) : so2Size k = if k = 0 then 1 else 2 := (c05_so2_irreps k).2.2.1

/-- The hypotheses are met by a type whose fields of the same size are not contiguous, every angle, and a tensor with two positions. -/
example (θ : ℝ) (f : ℝ → ℝ) (bias : List ℝ) (d : List (Bool → ℝ)) (hd : d.length = 6) :
    ∃ y, normNonlin so2Size [1, 0, 2, 0] f (1 / 10 ^ 10) bias d ⟨[1, 0, 2, 0], d⟩ = some y ∧
      normNonlin so2Size [1, 0, 2, 0] f (1 / 10 ^ 10) bias d
        (GTensor.transform so2Size (fun k => (SO2.irrep k).mat θ) (fun b => !b) ⟨[1, 0, 2, 0], d⟩) =
        some (y.transform so2Size (fun k => (SO2.irrep k).mat θ) fun b => !b) := by
  have hs : typeSize so2Size [1, 0, 2, 0] = 6 := by simp [typeSize, so2Size_eq]
  exact c34_norm_group SO2.invOk so2Size (fun k => (SO2.irrep k).mat) [1, 0, 2, 0] (fun r _ => by rw [so2Size_eq]; split <;> omega)
    (fun r _ => (c05_so2_irreps r).1) f _ bias θ trivial _ d d (by rw [hs, hd]) (by rw [hs, hd]) _ ⟨by simp, by rw [hs, hd]⟩ rfl

/-- The trivial representation of SO(2) meets the hypothesis on the gates. -/
theorem so2_gate (θ : ℝ) (r : ℕ) (h : decide (r = 0) = true) : so2Size r = 1 ∧ (SO2.irrep r).mat θ 0 0 = 1 := by
  have : r = 0 := by simpa using h
  subst this
  refine ⟨by rw [so2Size_eq]; rfl, ?_⟩
  have := (c05_so2_irreps 0).1.orth SO2.invOk θ trivial 0 (by rw [(c05_so2_irreps 0).2.2.1]; simp) 0 (by rw [(c05_so2_irreps 0).2.2.1]; simp)
  simp [SO2.irrep, m1]

/-- First gated nonlinearity: gates between the gated fields. -/
example (θ : ℝ) (σ : ℝ → ℝ) (b0 b1 : ℝ) (d : List (Bool → ℝ)) (hd : d.length = 6) (junk : List (Bool → ℝ)) (hj : junk.length = 4) :
    ∃ y, gated1 so2Size (fun r => decide (r = 0)) (fun _ => true) [1, 0, 0, 2] [false, true, true, false] true σ [b0, b1] junk
        ⟨[1, 0, 0, 2], d⟩ = some y ∧
      gated1 so2Size (fun r => decide (r = 0)) (fun _ => true) [1, 0, 0, 2] [false, true, true, false] true σ [b0, b1] junk
        (GTensor.transform so2Size (fun k => (SO2.irrep k).mat θ) (fun b => !b) ⟨[1, 0, 0, 2], d⟩) =
        some (y.transform so2Size (fun k => (SO2.irrep k).mat θ) fun b => !b) := by
  have hs : typeSize so2Size [1, 0, 0, 2] = 6 := by simp [typeSize, so2Size_eq]
  have ho : typeSize so2Size (gated1Out [1, 0, 0, 2] [false, true, true, false] true) = 4 := by
    simp [typeSize, so2Size_eq, gated1Out]
  exact c34_gated1_equivariant so2Size _ _ [1, 0, 0, 2] (fun r _ => by rw [so2Size_eq]; split <;> omega) [false, true, true, false] true rfl σ
    [b0, b1] rfl _ _ (so2_gate θ) junk junk (by rw [ho, hj]) (by rw [ho, hj]) _ ⟨by simp, by rw [hs, hd]⟩ rfl

/-- Second gated nonlinearity. -/
example (θ : ℝ) (σ : ℝ → ℝ) (b0 b1 : ℝ) (g d : List (Bool → ℝ)) (hg : g.length = 2) (hd : d.length = 4) :
    ∃ y, gated2 so2Size (fun r => decide (r = 0)) (fun _ => true) [0, 0] [1, 2] σ [b0, b1] d ⟨[0, 0], g⟩ ⟨[1, 2], d⟩ = some y ∧
      gated2 so2Size (fun r => decide (r = 0)) (fun _ => true) [0, 0] [1, 2] σ [b0, b1] d
        (GTensor.transform so2Size (fun k => (SO2.irrep k).mat θ) (fun b => !b) ⟨[0, 0], g⟩)
        (GTensor.transform so2Size (fun k => (SO2.irrep k).mat θ) (fun b => !b) ⟨[1, 2], d⟩) =
        some (y.transform so2Size (fun k => (SO2.irrep k).mat θ) fun b => !b) := by
  have hs : typeSize so2Size [1, 2] = 4 := by simp [typeSize, so2Size_eq]
  have hs' : typeSize so2Size [0, 0] = 2 := by simp [typeSize, so2Size_eq]
  exact c34_gated2_equivariant so2Size _ _ [0, 0] [1, 2] (fun r _ => by rw [so2Size_eq]; split <;> omega) rfl σ [b0, b1] rfl _ _ (so2_gate θ)
    d d (by rw [hs, hd]) (by rw [hs, hd]) _ _ ⟨by simp, by rw [hs', hg]⟩ rfl ⟨by simp, by rw [hs, hd]⟩ rfl

end E2
