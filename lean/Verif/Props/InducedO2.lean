import Verif.Model.InducedO2
import Verif.Lemmas.Quotient
import Verif.Props.Irreps

/-!
# C67: induction from SO(2) to O(2)
-/

set_option linter.unusedSimpArgs false

namespace E2

open Finset Mat Real

namespace O2

/-- `subgroup((None, -1))` with its restriction; the list of elements is not used. -/
noncomputable def subDataSO2 : SubData (ℤ × ℝ) ℝ :=
  ⟨[], fun e => (0, e), fun e => if e.1 ≠ 0 then none else some e.2, restrictSO2⟩

theorem commuting_one (t : ℕ) : commuting 1 t 0 0 = 1 := by
  have hp : (2 * π) ≠ 0 := by positivity
  simp [commuting, commX, commM, commE, Mat.one, hp]

theorem commX_even : (commX 2 0 0 = 1 ∧ commX 2 0 1 = 1 ∧ commX 2 0 2 = -1 ∧ commX 2 0 3 = 1) := by
  have hp : π ≠ 0 := pi_ne_zero
  refine ⟨?_, ?_, ?_, ?_⟩ <;>
  · simp [commX, Finset.sum_range_succ, commM, commE, Mat.one, m2, tr]
    field_simp
    try ring

theorem commX_odd : (commX 2 1 0 = 1 ∧ commX 2 1 1 = -1 ∧ commX 2 1 2 = 1 ∧ commX 2 1 3 = 1) := by
  have hp : π ≠ 0 := pi_ne_zero
  refine ⟨?_, ?_, ?_, ?_⟩ <;>
  · simp [commX, Finset.sum_range_succ, commM, commE, Mat.one, m2, tr]
    field_simp
    try ring

theorem commuting_even : commuting 2 0 0 0 = 1 / √2 ∧ commuting 2 0 0 1 = 1 / √2 ∧ commuting 2 0 1 0 = -1 / √2 ∧ commuting 2 0 1 1 = 1 / √2 := by
  obtain ⟨h0, h1, h2, h3⟩ := commX_even
  have hn : (∑ a ∈ range (2 * 2), ∑ b ∈ range (2 * 2), commX 2 0 a * commX 2 0 b) / ((2 : ℕ) : ℝ) = 2 := by
    norm_num [Finset.sum_range_succ, h0, h1, h2, h3]
  refine ⟨?_, ?_, ?_, ?_⟩ <;> (unfold commuting; rw [hn]; norm_num [h0, h1, h2, h3])

theorem commuting_odd : commuting 2 1 0 0 = 1 / √2 ∧ commuting 2 1 0 1 = -1 / √2 ∧ commuting 2 1 1 0 = 1 / √2 ∧ commuting 2 1 1 1 = 1 / √2 := by
  obtain ⟨h0, h1, h2, h3⟩ := commX_odd
  have hn : (∑ a ∈ range (2 * 2), ∑ b ∈ range (2 * 2), commX 2 1 a * commX 2 1 b) / ((2 : ℕ) : ℝ) = 2 := by
    norm_num [Finset.sum_range_succ, h0, h1, h2, h3]
  refine ⟨?_, ?_, ?_, ?_⟩ <;> (unfold commuting; rw [hn]; norm_num [h0, h1, h2, h3])

/-- The representatives of the two cosets. -/
noncomputable def cosetReps : List (ℤ × ℝ) := [grp.one, reflection]

theorem transversal : IsTransversal grp SO2.grp subDataSO2 cosetReps where
  nodup := by simp [cosetReps, grp, reflection]
  mem r hr := by
    simp only [cosetReps, List.mem_cons, List.not_mem_nil, or_false] at hr
    rcases hr with rfl | rfl
    · exact Or.inl rfl
    · exact Or.inr rfl
  exists_unique := by
    rintro ⟨j, θ⟩ (hj | hj)
    · obtain rfl : j = 0 := hj
      refine ⟨grp.one, ⟨by simp [cosetReps], θ, trivial, by simp [grp, combine, subDataSO2]⟩, ?_⟩
      rintro r ⟨hr, h, -, hx⟩
      simp only [cosetReps, List.mem_cons, List.not_mem_nil, or_false] at hr
      rcases hr with rfl | rfl
      · rfl
      · simp [grp, combine, subDataSO2, reflection] at hx
    · obtain rfl : j = 1 := hj
      refine ⟨reflection, ⟨by simp [cosetReps], -θ, trivial, by simp [grp, combine, subDataSO2, reflection]⟩, ?_⟩
      rintro r ⟨hr, h, -, hx⟩
      simp only [cosetReps, List.mem_cons, List.not_mem_nil, or_false] at hr
      rcases hr with rfl | rfl
      · simp [grp, combine, subDataSO2] at hx
      · rfl

/-- The result for the trivial representation. -/
theorem inducedSO2_zero : ∃ a b cob, irrep 0 0 = some a ∧ irrep 1 0 = some b ∧ inducedSO2 (SO2.irrep 0) = some ⟨[a, b], cob, tr cob⟩ ∧
    MEq 2 2 cob (m2 (1 / √2) (1 / √2) (1 / √2) (-1 / √2)) := by
  have hs : (SO2.irrep 0).size = 1 := by simp [SO2.irrep]
  have hf : (SO2.irrep 0).freq = 0 := by simp [SO2.irrep]
  obtain ⟨a, ha, ha1, ha2, ha3⟩ : ∃ a, irrep 0 0 = some a ∧ a.size = 1 ∧ a.freq = 0 ∧ ∀ g, a.mat g 0 0 = 1 := ⟨_, rfl, rfl, rfl, fun _ => rfl⟩
  obtain ⟨b, hb, hb1, hb2, hb3⟩ : ∃ b, irrep 1 0 = some b ∧ b.size = 1 ∧ b.freq = 0 ∧ ∀ g, b.mat g 0 0 = if g.1 ≠ 0 then -1 else 1 := by
    refine ⟨_, rfl, rfl, rfl, fun _ => rfl⟩
  have hm : inducedMults 0 = some [(a, 1), (b, 1)] := by simp [inducedMults, ha, hb]
  have hsame : sameIrrep (SO2.irrep 0) (SO2.irrep 0) = true := by simp [sameIrrep]
  refine ⟨a, b, ?cob, ha, hb, ?h1, ?h2⟩
  case h1 =>
    unfold inducedSO2
    rw [hf, hm]
    simp only [vBlocks, ha1, hb1, restrictSO2, ha2, hb2, List.filter_cons_of_pos hsame, List.filter_nil, List.length_cons, List.length_nil, hs]
    rfl
  case h2 =>
    intro i hi j hj
    have hl : List.flatMap (fun p : Irrep (ℤ × ℝ) × ℕ => List.replicate p.2 p.1) [(a, 1), (b, 1)] = [a, b] := rfl
    interval_cases i <;> interval_cases j <;>
      simp [hs, hl, ha1, hb1, Mat.mul, Finset.sum_range_succ, Repr.blocks, bdiag, ha3, hb3, hstack, m2, setCols, hsame, tr, Mat.one, commuting_one, grp,
        reflection, one_add_one_eq_two] <;>
      (try rw [show range 2 = {0, 1} from rfl]) <;> (try simp [hb3, commuting_one]) <;> (try ring)

/-- The result for a representation of positive frequency. -/
theorem inducedSO2_pos (f : ℕ) (hf0 : 0 < f) : ∃ a cob, irrep 1 f = some a ∧ inducedSO2 (SO2.irrep f) = some ⟨[a, a], cob, tr cob⟩ ∧
    MEq 4 4 cob fun i j => (match i, j with
      | 0, 3 => -1
      | 1, 0 => -1
      | 2, 1 => -1
      | 3, 0 => -1
      | 3, 1 => -1
      | 3, 3 => -1
      | _, _ => 1) / 2 := by
  have hs : (SO2.irrep f).size = 2 := by simp [SO2.irrep, hf0.ne']
  have hf : (SO2.irrep f).freq = f := by simp [SO2.irrep, hf0.ne']
  obtain ⟨a, ha, ha1, ha2, ha3⟩ : ∃ a, irrep 1 f = some a ∧ a.size = 2 ∧ a.freq = f ∧ ∀ g, a.mat g = psichi g.2 g.1 f 0 := by
    refine ⟨_, by simp only [irrep, hf0.ne', if_false, one_ne_zero, or_true, not_true]; rfl, rfl, rfl, fun _ => rfl⟩
  have hm : inducedMults f = some [(a, 2)] := by simp [inducedMults, ha, hf0]
  have hsame : sameIrrep (SO2.irrep f) (SO2.irrep f) = true := by simp [sameIrrep]
  obtain ⟨e0, e1, e2, e3⟩ := commuting_even
  obtain ⟨o0, o1, o2, o3⟩ := commuting_odd
  refine ⟨a, ?cob, ha, ?h1, ?h2⟩
  case h1 =>
    have hfil : (List.filter (fun r => sameIrrep r (SO2.irrep f)) [SO2.irrep f]).length = 1 := by simp [hsame]
    unfold inducedSO2
    rw [hf, hm]
    simp only [vBlocks, ha1, restrictSO2, ha2, hfil, List.filter_nil, List.length_cons, List.length_nil, hs, le_refl,
      not_true, if_false, Nat.zero_add, mul_one, OfNat.ofNat_ne_zero, Option.map_some]
    rfl
  case h2 =>
    intro i hi j hj
    have hl : List.flatMap (fun p : Irrep (ℤ × ℝ) × ℕ => List.replicate p.2 p.1) [(a, 2)] = [a, a] := rfl
    have h2 : √(2 : ℝ) * √2 = 2 := Real.mul_self_sqrt (by norm_num)
    have h4 : √(4 : ℝ) = 2 := by rw [show (4 : ℝ) = 2 ^ 2 by norm_num]; exact Real.sqrt_sq (by norm_num)
    have h5 : √(2 : ℝ) ≠ 0 := by positivity
    interval_cases i <;> interval_cases j <;>
      simp [hs, hl, ha1, Mat.mul, Finset.sum_range_succ, Repr.blocks, bdiag, ha3, hstack, m2, psichi, setCols, hsame, tr, Mat.one, e0, e1, e2, e3, o0, o1, o2, o3, grp,
        reflection, h4, h5, List.range_succ] <;>
      (try norm_num [h4, mul_assoc, neg_div]) <;> (try (field_simp; nlinarith [h2]))

theorem induced_zero : ∃ r, inducedSO2 (SO2.irrep 0) = some r ∧ (∀ i ∈ r.irreps, ∃ j k, irrep j k = some i) ∧
    IsInducedRep grp SO2.grp subDataSO2 (SO2.irrep 0) cosetReps r := by
  obtain ⟨a, b, cob, ha, hb, hr, hc⟩ := inducedSO2_zero
  obtain ⟨ha1, ha3⟩ : a.size = 1 ∧ ∀ g, a.mat g 0 0 = 1 := by
    cases ha
    exact ⟨rfl, fun _ => rfl⟩
  obtain ⟨hb1, hb3⟩ : b.size = 1 ∧ ∀ g, b.mat g 0 0 = if g.1 ≠ 0 then -1 else 1 := by
    cases hb
    exact ⟨rfl, fun _ => rfl⟩
  have hs : (SO2.irrep 0).size = 1 := by simp [SO2.irrep]
  have hm : ∀ e, (SO2.irrep 0).mat e 0 0 = 1 := fun e => by simp [SO2.irrep, m1]
  have c00 := hc 0 (by norm_num) 0 (by norm_num)
  have c01 := hc 0 (by norm_num) 1 (by norm_num)
  have c10 := hc 1 (by norm_num) 0 (by norm_num)
  have c11 := hc 1 (by norm_num) 1 (by norm_num)
  simp only [m2] at c00 c01 c10 c11
  have h2 : √(2 : ℝ) * √2 = 2 := Real.mul_self_sqrt (by norm_num)
  have h5 : √(2 : ℝ) ≠ 0 := by positivity
  have hsz : (⟨[a, b], cob, tr cob⟩ : Repr (ℤ × ℝ)).size = 2 := by simp [Repr.size, ha1, hb1]
  refine ⟨_, hr, ?_, transversal, ⟨?_, ?_⟩, fun _ _ _ _ => rfl, by simp [hsz, hs, cosetReps], ?_⟩
  · intro i hi
    simp only [List.mem_cons, List.not_mem_nil, or_false] at hi
    rcases hi with rfl | rfl
    exacts [⟨_, _, ha⟩, ⟨_, _, hb⟩]
  · rw [hsz]
    intro i hi j hj
    interval_cases i <;> interval_cases j <;>
      simp [Mat.mul, Finset.sum_range_succ, tr, Mat.one, c00, c01, c10, c11] <;> (try (field_simp; nlinarith [h2]))
  · rw [hsz]
    intro i hi j hj
    interval_cases i <;> interval_cases j <;>
      simp [Mat.mul, Finset.sum_range_succ, tr, Mat.one, c00, c01, c10, c11] <;> (try (field_simp; nlinarith [h2]))
  · rintro ⟨e, θ⟩ hg i hi j hj x y hx hy
    rw [hs] at hx hy
    simp only [cosetReps, List.length_cons, List.length_nil] at hi hj
    obtain rfl : x = 0 := by omega
    obtain rfl : y = 0 := by omega
    rcases (show e = 0 ∨ e = 1 from hg) with rfl | rfl <;> interval_cases i <;> interval_cases j <;>
      simp [Repr.mat, hsz, Mat.mul, Finset.sum_range_succ, tr, Repr.blocks, bdiag, ha1, hb1, ha3, hb3, hs, hm, c00, c01, c10, c11, cosetReps, subDataSO2, grp,
        combine, inverse, reflection] <;> (try (field_simp; nlinarith [h2]))

set_option maxHeartbeats 2000000 in
theorem induced_pos (f : ℕ) (hf0 : 0 < f) :
    ∃ r, inducedSO2 (SO2.irrep f) = some r ∧ (∀ i ∈ r.irreps, ∃ j k, irrep j k = some i) ∧
      IsInducedRep grp SO2.grp subDataSO2 (SO2.irrep f) cosetReps r := by
  obtain ⟨a, cob, ha, hr, hc⟩ := inducedSO2_pos f hf0
  obtain ⟨ha1, ha3⟩ : a.size = 2 ∧ ∀ g, a.mat g = psichi g.2 g.1 f 0 := by
    simp only [irrep, hf0.ne', if_false, one_ne_zero, or_true, not_true, Option.some.injEq] at ha
    subst ha
    exact ⟨rfl, fun _ => rfl⟩
  have hs : (SO2.irrep f).size = 2 := by simp [SO2.irrep, hf0.ne']
  have hm : ∀ e, (SO2.irrep f).mat e = psi e f 0 := fun e => by simp [SO2.irrep, hf0.ne']
  have c00 := hc 0 (by norm_num) 0 (by norm_num)
  have c01 := hc 0 (by norm_num) 1 (by norm_num)
  have c02 := hc 0 (by norm_num) 2 (by norm_num)
  have c03 := hc 0 (by norm_num) 3 (by norm_num)
  have c10 := hc 1 (by norm_num) 0 (by norm_num)
  have c11 := hc 1 (by norm_num) 1 (by norm_num)
  have c12 := hc 1 (by norm_num) 2 (by norm_num)
  have c13 := hc 1 (by norm_num) 3 (by norm_num)
  have c20 := hc 2 (by norm_num) 0 (by norm_num)
  have c21 := hc 2 (by norm_num) 1 (by norm_num)
  have c22 := hc 2 (by norm_num) 2 (by norm_num)
  have c23 := hc 2 (by norm_num) 3 (by norm_num)
  have c30 := hc 3 (by norm_num) 0 (by norm_num)
  have c31 := hc 3 (by norm_num) 1 (by norm_num)
  have c32 := hc 3 (by norm_num) 2 (by norm_num)
  have c33 := hc 3 (by norm_num) 3 (by norm_num)
  simp only at c00 c01 c02 c03 c10 c11 c12 c13 c20 c21 c22 c23 c30 c31 c32 c33
  have hsz : (⟨[a, a], cob, tr cob⟩ : Repr (ℤ × ℝ)).size = 4 := by simp [Repr.size, ha1]
  refine ⟨_, hr, ?_, transversal, ⟨?_, ?_⟩, fun _ _ _ _ => rfl, by simp [hsz, hs, cosetReps], ?_⟩
  · intro i hi
    simp only [List.mem_cons, List.not_mem_nil, or_false] at hi
    rcases hi with rfl | rfl <;> exact ⟨_, _, ha⟩
  · rw [hsz]
    intro i hi j hj
    interval_cases i <;> interval_cases j <;>
      norm_num [Mat.mul, Finset.sum_range_succ, tr, Mat.one, c00, c01, c02, c03, c10, c11, c12, c13, c20, c21, c22, c23, c30, c31, c32, c33]
  · rw [hsz]
    intro i hi j hj
    interval_cases i <;> interval_cases j <;>
      norm_num [Mat.mul, Finset.sum_range_succ, tr, Mat.one, c00, c01, c02, c03, c10, c11, c12, c13, c20, c21, c22, c23, c30, c31, c32, c33]
  · rintro ⟨e, θ⟩ hg i hi j hj x y hx hy
    rw [hs] at hx hy
    simp only [cosetReps, List.length_cons, List.length_nil] at hi hj
    rcases (show e = 0 ∨ e = 1 from hg) with rfl | rfl <;> interval_cases i <;> interval_cases j <;> interval_cases x <;> interval_cases y <;>
      simp [Repr.mat, hsz, Mat.mul, Finset.sum_range_succ, tr, Repr.blocks, bdiag, ha1, ha3, hs, hm, c00, c01, c02, c03, c10, c11, c12, c13, c20, c21, c22, c23, c30, c31, c32, c33, cosetReps, subDataSO2, grp,
        combine, inverse, reflection, psichi, psi, m2] <;> (try ring)

end O2

/-- A representation with orthogonal irreps and an orthogonal change of basis is orthogonal. -/
theorem Repr.isOrthRep {El : Type} {G : Grp El} {r : Repr El} (hw : r.WF) (ho : MEq r.size r.size r.cobInv (tr r.cob))
    (hi : ∀ i ∈ r.irreps, IsOrthRep G i.size i.mat) : IsOrthRep G r.size r.mat where
  toIsRep := Repr.mat_isRep G r hw fun i h => (hi i h).toIsRep
  inv a ha := by
    intro i hi' j hj
    simp only [Repr.mat, Mat.mul, tr, sum_mul, mul_sum]
    rw [sum_comm]
    refine sum_congr rfl fun x hx => sum_congr rfl fun y hy => ?_
    rw [mem_range] at hx hy
    rw [ho y hy j hj, ho x hx i hi', blocks_inv hi ha]
    simp only [tr]
    ring

/-- **C67.** For every irreducible representation of SO(2), induction to O(2) returns, and the result is the induced representation with
the two blocks of axes labelled by the cosets of the identity and of the reflection.  It is an orthogonal representation of O(2). -/
theorem c67_induced (f : ℕ) :
    ∃ r, O2.inducedFromIrrep none (-1) (SO2.irrep f) = some r ∧
      IsInducedRep O2.grp SO2.grp O2.subDataSO2 (SO2.irrep f) O2.cosetReps r ∧ IsOrthRep O2.grp r.size r.mat := by
  obtain ⟨r, hr, hi, h⟩ : ∃ r, O2.inducedSO2 (SO2.irrep f) = some r ∧ (∀ i ∈ r.irreps, ∃ j k, O2.irrep j k = some i) ∧
      IsInducedRep O2.grp SO2.grp O2.subDataSO2 (SO2.irrep f) O2.cosetReps r := by
    rcases Nat.eq_zero_or_pos f with rfl | hf
    exacts [O2.induced_zero, O2.induced_pos f hf]
  refine ⟨r, by simp [O2.inducedFromIrrep, hr], h, Repr.isOrthRep h.wf h.orth fun i hm => ?_⟩
  obtain ⟨j, k, hjk⟩ := hi i hm
  exact ((c05_o2_irreps j k).2 i hjk).1

/-- **C67, in blocks.** A rotation by `θ` acts by the two blocks `ρ(θ)` and `ρ(-θ)` on the diagonal; a reflection `(1, θ)` exchanges the two
blocks of axes. -/
theorem c67_blocks (f : ℕ) (r : Repr (ℤ × ℝ)) (hr : O2.inducedFromIrrep none (-1) (SO2.irrep f) = some r) (θ : ℝ) (a b : ℕ)
    (ha : a < (SO2.irrep f).size) (hb : b < (SO2.irrep f).size) :
    r.size = 2 * (SO2.irrep f).size ∧
    (r.mat (0, θ) a b = (SO2.irrep f).mat θ a b ∧ r.mat (0, θ) a ((SO2.irrep f).size + b) = 0 ∧
      r.mat (0, θ) ((SO2.irrep f).size + a) b = 0 ∧
      r.mat (0, θ) ((SO2.irrep f).size + a) ((SO2.irrep f).size + b) = (SO2.irrep f).mat (-θ) a b) ∧
    (r.mat (1, θ) a b = 0 ∧ r.mat (1, θ) a ((SO2.irrep f).size + b) = (SO2.irrep f).mat θ a b ∧
      r.mat (1, θ) ((SO2.irrep f).size + a) b = (SO2.irrep f).mat (-θ) a b ∧
      r.mat (1, θ) ((SO2.irrep f).size + a) ((SO2.irrep f).size + b) = 0) := by
  obtain ⟨r', hr', h, -⟩ := c67_induced f
  obtain rfl : r' = r := by rw [hr'] at hr; exact Option.some.inj hr
  refine ⟨h.size, ?_, ?_⟩
  · have H := fun i hi j hj => h.mat (0, θ) (Or.inl rfl) i hi j hj a b ha hb
    have h00 := H 0 (by simp [O2.cosetReps]) 0 (by simp [O2.cosetReps])
    have h10 := H 1 (by simp [O2.cosetReps]) 0 (by simp [O2.cosetReps])
    have h01 := H 0 (by simp [O2.cosetReps]) 1 (by simp [O2.cosetReps])
    have h11 := H 1 (by simp [O2.cosetReps]) 1 (by simp [O2.cosetReps])
    simp [O2.cosetReps, O2.grp, O2.combine, O2.inverse, O2.reflection, O2.subDataSO2] at h00 h10 h01 h11
    exact ⟨h00, h10, h01, h11⟩
  · have H := fun i hi j hj => h.mat (1, θ) (Or.inr rfl) i hi j hj a b ha hb
    have h00 := H 0 (by simp [O2.cosetReps]) 0 (by simp [O2.cosetReps])
    have h10 := H 1 (by simp [O2.cosetReps]) 0 (by simp [O2.cosetReps])
    have h01 := H 0 (by simp [O2.cosetReps]) 1 (by simp [O2.cosetReps])
    have h11 := H 1 (by simp [O2.cosetReps]) 1 (by simp [O2.cosetReps])
    simp [O2.cosetReps, O2.grp, O2.combine, O2.inverse, O2.reflection, O2.subDataSO2] at h00 h10 h01 h11
    exact ⟨h00, h10, h01, h11⟩

/-- **C67, the quotient representation.** For the trivial representation the result permutes the two cosets: rotations fix both axes and
reflections exchange them. -/
theorem c67_quotient (r : Repr (ℤ × ℝ)) (hr : O2.inducedFromIrrep none (-1) (SO2.irrep 0) = some r) (θ : ℝ) :
    r.size = 2 ∧ MEq 2 2 (r.mat (0, θ)) Mat.one ∧ MEq 2 2 (r.mat (1, θ)) (m2 0 1 1 0) := by
  have hs : (SO2.irrep 0).size = 1 := by simp [SO2.irrep]
  have hm : ∀ e, (SO2.irrep 0).mat e 0 0 = 1 := fun e => by simp [SO2.irrep, m1]
  obtain ⟨h1, ⟨h2, h3, h4, h5⟩, h6, h7, h8, h9⟩ := c67_blocks 0 r hr θ 0 0 (by omega) (by omega)
  simp only [hs, hm, add_zero] at h1 h2 h3 h4 h5 h6 h7 h8 h9
  refine ⟨h1, fun i hi j hj => ?_, fun i hi j hj => ?_⟩ <;> interval_cases i <;> interval_cases j <;>
    simp [Mat.one, m2, h2, h3, h4, h5, h6, h7, h8, h9]

/-- **C67, other subgroups.** Every other subgroup identifier is refused (`NotImplementedError`), whatever the representation. -/
theorem c67_refused (axis : Option ℝ) (order : ℤ) (h : ¬ (axis = none ∧ order = -1)) (ρ : Irrep ℝ) :
    O2.inducedFromIrrep axis order ρ = none := by
  cases axis with
  | none => simp only [O2.inducedFromIrrep, if_neg fun e => h ⟨rfl, e⟩]
  | some a => rfl

/-- The representation of frequency 3 induces a representation of size 4. -/
example : ∃ r, O2.inducedFromIrrep none (-1) (SO2.irrep 3) = some r ∧ r.size = 4 ∧ r.mat (1, 0) 0 2 = 1 := by
  obtain ⟨r, hr, -⟩ := c67_induced 3
  obtain ⟨h1, -, -, h2, -⟩ := c67_blocks 3 r hr 0 0 0 (by simp [SO2.irrep]) (by simp [SO2.irrep])
  have hs : (SO2.irrep 3).size = 2 := by simp [SO2.irrep]
  refine ⟨r, hr, by rw [h1, hs], ?_⟩
  rw [hs] at h2
  rw [h2]
  simp [SO2.irrep, psi, m2]

end E2
