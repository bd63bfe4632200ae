import Verif.Lemmas.Regular
import Verif.Lemmas.TrigSum
import Verif.Props.Irreps

/-!
# C12: the regular representation is the permutation representation on the group
-/

namespace E2

open Finset Mat Real

theorem sum_map_filterMap {α β : Type} (f : α → Option β) (F : β → ℝ) (l : List α) :
    ((l.filterMap f).map F).sum = (l.map fun a => (f a).elim 0 F).sum := by
  induction l with
  | nil => rfl
  | cons a l ih =>
    rw [List.map_cons, List.sum_cons, ← ih]
    cases h : f a with
    | none => simp [h]
    | some b => simp [h]

theorem sum_map_range (n : ℕ) (F : ℕ → ℝ) : ((List.range n).map F).sum = ∑ k ∈ range n, F k := by
  induction n with
  | zero => simp
  | succ n ih => rw [List.range_succ, List.map_append, List.sum_append, ih, Finset.sum_range_succ]; simp

/-- The number of copies of an irrep in the regular representation. -/
def regularMult {El : Type} (i : Irrep El) : ℕ := i.size / i.socs

namespace Cyclic

theorem elements_nodup (N : ℕ) : (elements N).Nodup := by
  rw [elements]
  exact List.Nodup.map (fun a b h => by exact_mod_cast h) List.nodup_range

theorem irrep_mult {N k : ℕ} {r : Irrep ℤ} (h : irrep N k = some r) :
    regularMult r * r.socs = r.size ∧ 0 < r.socs := by
  unfold irrep at h
  split_ifs at h <;> cases h <;> simp [regularMult]

theorem irrep_diag {N k : ℕ} (hk : k ≤ N / 2) (x : ℤ) :
    ((irrep N k).elim 0 fun i => i.size * ∑ j ∈ range (regularMult i), i.mat x j j)
      = freqWeight N k * cos (k * x * (2 * π / N)) := by
  unfold irrep freqWeight
  rw [order_eq, if_neg (not_not.2 hk)]
  by_cases h0 : k = 0
  · simp [h0, regularMult, m1]
  · rw [if_neg h0]
    by_cases h1 : N % 2 = 0 ∧ k = N / 2
    · rw [if_pos h1, if_pos (Or.inr h1)]
      simp [regularMult, m1]
    · rw [if_neg h1, if_neg (by tauto)]
      simp [regularMult, psi, m2]
      ring_nf

end Cyclic

/-- **C12, C_N.** For every `N ≥ 1` the construction succeeds, and in the resulting representation the element `h` maps
the axis of `g` to the axis of `h g`; the change of basis is orthogonal and every irrep occurs as often as its size divided by
its type. -/
theorem c12_cyclic_regular (N : ℕ) (hN : 0 < N) :
    ∃ r, Cyclic.regular N = some r ∧ IsRegularRep (Cyclic.grp N) (Cyclic.elements N) r ∧
      r.irreps = Cyclic.irreps N := by
  obtain ⟨r, h1, h2, h3⟩ := buildRegular_spec (Cyclic.lawful hN) (Cyclic.elements_nodup N)
    (fun e => (Cyclic.mem_elements N e).trans (Cyclic.isElement_iff N e).symm)
    (irreps := Cyclic.irreps N)
    (fun i hi => by
      obtain ⟨k, -, hk⟩ := List.mem_filterMap.1 hi
      exact Cyclic.irrep_isOrthRep hN hk)
    (fun i hi g => by
      obtain ⟨k, -, hk⟩ := List.mem_filterMap.1 hi
      exact Cyclic.irrep_char hk g)
    regularMult
    (fun i hi => by
      obtain ⟨k, -, hk⟩ := List.mem_filterMap.1 hi
      exact Cyclic.irrep_mult hk)
    (fun x hx => by
      have hx := (Cyclic.isElement_iff N x).1 hx
      rw [Cyclic.irreps, sum_map_filterMap, sum_map_range, Cyclic.order_eq,
        show (Cyclic.elements N).length = N from Cyclic.order_eq N,
        Finset.sum_congr rfl fun k hk => Cyclic.irrep_diag (by have := mem_range.1 hk; omega) x,
        sum_weight_cos N hN]
      have : (N : ℤ) ∣ x ↔ x = (Cyclic.grp N).one := by
        constructor
        · intro h; exact Int.eq_zero_of_dvd_of_nonneg_of_lt hx.1 hx.2 h
        · intro h; rw [h]; exact dvd_zero _
      simp only [this])
  refine ⟨r, h1, h2, h3.trans ?_⟩
  have : ∀ i ∈ Cyclic.irreps N, List.replicate (regularMult i) i = [i] := by
    intro i hi
    obtain ⟨k, -, hk⟩ := List.mem_filterMap.1 hi
    unfold Cyclic.irrep at hk
    split_ifs at hk <;> cases hk <;> simp [regularMult]
  rw [List.flatMap_congr this]
  simp

namespace Dihedral

theorem elements_nodup (N : ℕ) : (elements N).Nodup := by
  rw [elements, List.nodup_append]
  refine ⟨List.Nodup.map (fun a b h => by simpa using h) List.nodup_range,
    List.Nodup.map (fun a b h => by simpa using h) List.nodup_range, ?_⟩
  intro a ha b hb
  rw [List.mem_map] at ha hb
  obtain ⟨i, -, rfl⟩ := ha
  obtain ⟨j, -, rfl⟩ := hb
  simp

theorem elements_length (N : ℕ) : (elements N).length = 2 * N := by simp [elements]; ring

theorem irrep_mult {N j k : ℕ} {r : Irrep (ℤ × ℤ)} (h : irrep N j k = some r) :
    regularMult r * r.socs = r.size ∧ 0 < r.socs := by
  unfold irrep at h
  split_ifs at h <;> cases h <;> simp [regularMult]

/-- The contributions of all the irreps of a frequency. -/
theorem irrep_diag {N k : ℕ} (hk : k ≤ N / 2) (x : ℤ × ℤ) :
    ((irrep N 1 k).elim 0 fun i => i.size * ∑ j ∈ range (regularMult i), i.mat x j j)
      = if x.1 = 0 then (if k = 0 ∨ (N % 2 = 0 ∧ k = N / 2) then 1 else 4) * cos (k * x.2 * (2 * π / N))
        else (if k = 0 ∨ (N % 2 = 0 ∧ k = N / 2) then -cos (k * x.2 * (2 * π / N)) else 0) := by
  unfold irrep
  rw [if_neg (by omega), if_neg (not_not.2 hk), if_neg (by omega)]
  by_cases h0 : k = 0
  · by_cases hx : x.1 = 0 <;> simp [h0, hx, regularMult, m1]
  · rw [if_neg h0]
    by_cases h1 : N % 2 = 0 ∧ k = N / 2
    · rw [if_pos h1, if_pos (Or.inr h1)]
      by_cases hx : x.1 = 0 <;> simp [hx, h1, regularMult, m1]
    · rw [if_neg h1]
      have hn : ¬ (k = 0 ∨ (N % 2 = 0 ∧ k = N / 2)) := by tauto
      rw [if_neg hn, if_neg hn]
      by_cases hx : x.1 = 0
      · simp [hx, regularMult, psichi_eq, psi, chi, m2_mul, Finset.sum_range_succ]
        simp [m2]
        ring_nf
      · simp [hx, regularMult, psichi_eq, psi, chi, m2_mul, Finset.sum_range_succ]
        simp [m2]

theorem irrep_zero_diag (N : ℕ) (x : ℤ × ℤ) :
    ((irrep N 0 0).elim 0 fun i => i.size * ∑ j ∈ range (regularMult i), i.mat x j j) = 1 := by
  simp [irrep, regularMult, m1]

theorem irrep_half_diag {N : ℕ} (hN : 0 < N) (h2 : N % 2 = 0) (x : ℤ × ℤ) :
    ((irrep N 0 (N / 2)).elim 0 fun i => i.size * ∑ j ∈ range (regularMult i), i.mat x j j)
      = cos ((N / 2 : ℕ) * x.2 * (2 * π / N)) := by
  unfold irrep
  rw [if_neg (by omega), if_neg (by omega), if_pos rfl, if_neg (by omega), if_pos ⟨h2, rfl⟩]
  simp [regularMult, m1]

end Dihedral

/-- **C12, D_N.** The same for the dihedral groups, for every `N ≥ 1`. -/
theorem c12_dihedral_regular (N : ℕ) (hN : 0 < N) :
    ∃ r, Dihedral.regular N = some r ∧ IsRegularRep (Dihedral.grp N) (Dihedral.elements N) r ∧
      r.irreps = (Dihedral.irreps N).flatMap fun i => List.replicate i.size i := by
  obtain ⟨r, h1, h2, h3⟩ := buildRegular_spec (Dihedral.lawful hN) (Dihedral.elements_nodup N)
    (fun e => (Dihedral.mem_elements N e).trans (Dihedral.isElement_iff N e).symm)
    (irreps := Dihedral.irreps N)
    (fun i hi => by
      obtain ⟨k, -, hk⟩ := List.mem_filterMap.1 hi
      exact Dihedral.irrep_isOrthRep hN hk)
    (fun i hi g => by
      obtain ⟨k, -, hk⟩ := List.mem_filterMap.1 hi
      exact Dihedral.irrep_char hk g)
    regularMult
    (fun i hi => by
      obtain ⟨k, -, hk⟩ := List.mem_filterMap.1 hi
      exact Dihedral.irrep_mult hk)
    (fun x hx => by
      have hx := (Dihedral.isElement_iff N x).1 hx
      rw [Dihedral.irreps, sum_map_filterMap, List.map_append, List.map_append, List.sum_append, List.sum_append,
        List.map_map, sum_map_range, Dihedral.elements_length]
      simp only [Function.comp_apply]
      rw [Finset.sum_congr rfl fun k hk => Dihedral.irrep_diag (by have := mem_range.1 hk; omega) x]
      simp only [List.map_cons, List.map_nil, List.sum_cons, List.sum_nil, add_zero, Dihedral.irrep_zero_diag]
      have h0 : ((0 : ℕ) : ℝ) * x.2 * (2 * π / N) = 0 := by simp
      have hlast : ((if N % 2 = 0 then [((0 : ℕ), N / 2)] else []).map fun p : ℕ × ℕ =>
          ((Dihedral.irrep N p.1 p.2).elim 0 fun i => (i.size : ℝ) * ∑ j ∈ range (regularMult i), i.mat x j j)).sum
          = if N % 2 = 0 then cos ((N / 2 : ℕ) * x.2 * (2 * π / N)) else 0 := by
        by_cases h : N % 2 = 0
        · rw [if_pos h, if_pos h, List.map_cons, List.map_nil, List.sum_cons, List.sum_nil, add_zero]
          exact Dihedral.irrep_half_diag hN h x
        · rw [if_neg h, if_neg h]; rfl
      rw [hlast]
      have hsplit : ∀ F : ℕ → ℝ, (∑ k ∈ range (N / 2 + 1), if k = 0 ∨ (N % 2 = 0 ∧ k = N / 2) then F k else 0)
          = F 0 + if N % 2 = 0 then F (N / 2) else 0 := by
        intro F
        rw [Finset.sum_range_succ']
        rw [if_pos (Or.inl rfl), add_comm]
        congr 1
        by_cases h : N % 2 = 0
        · obtain ⟨q, hq⟩ : ∃ q, N / 2 = q + 1 := ⟨N / 2 - 1, by omega⟩
          rw [if_pos h, hq, Finset.sum_range_succ, if_pos (Or.inr ⟨h, rfl⟩), Finset.sum_eq_zero, zero_add]
          intro k hk
          rw [if_neg]
          have := mem_range.1 hk
          omega
        · rw [if_neg h, Finset.sum_eq_zero]
          intro k hk
          rw [if_neg]
          omega
      by_cases hf : x.1 = 0
      · simp only [hf, if_true]
        have e1 : ∑ k ∈ range (N / 2 + 1), (if k = 0 ∨ (N % 2 = 0 ∧ k = N / 2) then (1 : ℝ) else 4) *
              cos (k * x.2 * (2 * π / N))
            = 2 * (∑ k ∈ range (N / 2 + 1), freqWeight N k * cos (k * x.2 * (2 * π / N)))
              - ∑ k ∈ range (N / 2 + 1), if k = 0 ∨ (N % 2 = 0 ∧ k = N / 2) then cos (k * x.2 * (2 * π / N)) else 0 := by
          rw [Finset.mul_sum, ← Finset.sum_sub_distrib]
          refine Finset.sum_congr rfl fun k _ => ?_
          rw [freqWeight]
          split_ifs <;> ring
        rw [e1, sum_weight_cos N hN, hsplit, h0, cos_zero]
        have : (N : ℤ) ∣ x.2 ↔ x = (Dihedral.grp N).one := by
          constructor
          · intro h
            exact Prod.ext hf (Int.eq_zero_of_dvd_of_nonneg_of_lt hx.2.1 hx.2.2 h)
          · intro h; rw [h]; exact dvd_zero _
        simp only [this]
        push_cast
        split_ifs <;> ring
      · simp only [hf, if_false]
        have hne : ¬ x = (Dihedral.grp N).one := by intro h; rw [h] at hf; exact hf rfl
        rw [hsplit, h0, cos_zero, if_neg hne]
        split_ifs <;> ring)
  refine ⟨r, h1, h2, h3.trans ?_⟩
  refine List.flatMap_congr fun i hi => ?_
  obtain ⟨k, -, hk⟩ := List.mem_filterMap.1 hi
  unfold Dihedral.irrep at hk
  split_ifs at hk <;> cases hk <;> simp [regularMult]

/-- The regular representation of `D_3`: 6-dimensional, a reflection moves the axis of the identity. -/
example : ∃ r, Dihedral.regular 3 = some r ∧ r.size = 6 ∧ r.mat (1, 0) 3 0 = 1 ∧ r.mat (1, 0) 0 0 = 0 := by
  obtain ⟨r, h1, h2, -⟩ := c12_dihedral_regular 3 (by norm_num)
  refine ⟨r, h1, by rw [h2.size]; rfl, ?_, ?_⟩
  · rw [h2.mat (1, 0) rfl 3 (by decide) 0 (by decide)]; rw [if_pos (by decide)]
  · rw [h2.mat (1, 0) rfl 0 (by decide) 0 (by decide)]; rw [if_neg (by decide)]

end E2
