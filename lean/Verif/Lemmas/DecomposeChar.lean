import Verif.Model.Decompose
import Verif.Lemmas.Decompose
import Verif.Props.Irreducible
import Verif.Props.Regular

/-!
# Characters: orthogonality, and the multiplicities they compute
-/

namespace E2

open Finset Mat Real

/-- What the decomposition needs of a finite group with its irreps. -/
structure IrrepTable {El : Type} [DecidableEq El] (G : Grp El) (els : List El) (irreps : List (Irrep El)) : Prop where
  lawful : G.Lawful
  nodup : els.Nodup
  mem : ∀ e, e ∈ els ↔ G.isEl e
  irr_nodup : irreps.Nodup
  orth : ∀ i ∈ irreps, IsOrthRep G i.size i.mat
  irred : ∀ i ∈ irreps, IsIrreducible G i
  char : ∀ i ∈ irreps, ∀ g, i.character g = Mat.trace i.size (i.mat g)
  socs : ∀ i ∈ irreps, 0 < i.socs
  rel : ∀ i ∈ irreps, (els.map fun e => i.character e * i.character e).sum = els.length * i.socs
  rel' : ∀ i ∈ irreps, ∀ j ∈ irreps, i ≠ j → (els.map fun e => i.character e * j.character e).sum = 0
  reg : ∃ r, IsRegularRep G els r ∧ ∀ i ∈ r.irreps, i ∈ irreps

/-! ## Trigonometric sums -/

theorem sum_cos_cos {N k l : ℕ} (hN : 0 < N) (hk : 2 * k ≤ N) (hl : 2 * l ≤ N) :
    ∑ x ∈ range N, cos (k * x * (2 * π / N)) * cos (l * x * (2 * π / N))
      = if k = l then (if k = 0 ∨ 2 * k = N then (N : ℝ) else N / 2) else 0 := by
  have h1 : ∀ x ∈ range N, cos (k * x * (2 * π / N)) * cos (l * x * (2 * π / N))
      = 1 / 2 * cos (x * ((k - l : ℤ) : ℤ) * (2 * π / N)) + 1 / 2 * cos (x * ((k + l : ℤ) : ℤ) * (2 * π / N)) := by
    intro x _
    have e1 : ((x : ℝ) * ((k - l : ℤ) : ℤ) * (2 * π / N)) = k * x * (2 * π / N) - l * x * (2 * π / N) := by push_cast; ring
    have e2 : ((x : ℝ) * ((k + l : ℤ) : ℤ) * (2 * π / N)) = k * x * (2 * π / N) + l * x * (2 * π / N) := by push_cast; ring
    rw [e1, e2, cos_sub, cos_add]
    ring
  rw [Finset.sum_congr rfl h1, Finset.sum_add_distrib, ← Finset.mul_sum, ← Finset.mul_sum, sum_cos_int N hN, sum_cos_int N hN]
  have d1 : (N : ℤ) ∣ (k - l : ℤ) ↔ k = l := by
    constructor
    · intro h
      have := Int.eq_zero_of_abs_lt_dvd h (by rw [abs_lt]; omega)
      omega
    · rintro rfl; simp
  have d2 : (N : ℤ) ∣ (k + l : ℤ) ↔ k = l ∧ (k = 0 ∨ 2 * k = N) := by
    constructor
    · rintro ⟨c, hc⟩
      have hc0 : 0 ≤ c := by
        by_contra h
        have : (N : ℤ) * c < 0 := mul_neg_of_pos_of_neg (by omega) (by omega)
        omega
      have hc2 : c ≤ 1 := by
        by_contra h
        have : (N : ℤ) * 2 ≤ N * c := mul_le_mul_of_nonneg_left (by omega) (by omega)
        omega
      interval_cases c <;> omega
    · rintro ⟨rfl, h | h⟩
      · subst h; simp
      · exact ⟨1, by omega⟩
  simp only [d1, d2]
  by_cases hkl : k = l
  · by_cases h0 : k = 0 ∨ 2 * k = N
    · rw [if_pos hkl, if_pos ⟨hkl, h0⟩, if_pos hkl, if_pos h0]; ring
    · rw [if_pos hkl, if_neg (fun h => h0 h.2), if_pos hkl, if_neg h0]; ring
  · rw [if_neg hkl, if_neg (fun h => hkl h.1), if_neg hkl]; ring

theorem sum_scaled {N k l : ℕ} (hN : 0 < N) (hk : 2 * k ≤ N) (hl : 2 * l ≤ N) (a b : ℝ) :
    ∑ x ∈ range N, a * cos (k * ((x : ℤ) : ℝ) * (2 * π / N)) * (b * cos (l * ((x : ℤ) : ℝ) * (2 * π / N)))
      = a * b * if k = l then (if k = 0 ∨ 2 * k = N then (N : ℝ) else N / 2) else 0 := by
  rw [← sum_cos_cos hN hk hl, Finset.mul_sum]
  exact Finset.sum_congr rfl fun x _ => by push_cast; ring

namespace Cyclic

theorem character_eq {N k : ℕ} {r : Irrep ℤ} (h : irrep N k = some r) (x : ℤ) :
    r.character x = r.size * cos (k * x * (2 * π / N)) := by
  rw [irrep_char h]
  unfold irrep at h
  rw [order_eq] at h
  split_ifs at h with h1 h2 h3
  · cases h; simp [Mat.trace, m1, h2]
  · cases h; simp [Mat.trace, m1]
  · cases h
    simp only [Mat.trace, Finset.sum_range_succ, Finset.sum_range_zero, psi, m2]
    push_cast
    rw [zero_add, add_zero, ← _root_.mul_assoc]
    ring

theorem irrep_freq' {N k : ℕ} {r : Irrep ℤ} (h : irrep N k = some r) : r.freq = k ∧ 2 * k ≤ N := by
  unfold irrep at h
  rw [order_eq] at h
  split_ifs at h with h1 h2 h3 <;> cases h <;> exact ⟨rfl, by omega⟩

theorem exists_of_mem_irreps {N : ℕ} {i : Irrep ℤ} (h : i ∈ irreps N) : ∃ k, irrep N k = some i := by
  obtain ⟨k, -, hk⟩ := List.mem_filterMap.1 h
  exact ⟨k, hk⟩

theorem sum_elements (N : ℕ) (F : ℤ → ℝ) : ((elements N).map F).sum = ∑ x ∈ range N, F x := by
  rw [elements, List.map_map, sum_map_range]
  rfl

theorem complete {N : ℕ} (hN : 0 < N) : IrrepTable (grp N) (elements N) (irreps N) where
  lawful := lawful hN
  nodup := elements_nodup N
  mem := fun e => (mem_elements N e).trans (isElement_iff N e).symm
  irr_nodup := by
    refine List.Nodup.filterMap ?_ List.nodup_range
    intro a b i ha hb
    rw [← (irrep_freq' ha).1, ← (irrep_freq' hb).1]
  orth := fun i hi => by
    obtain ⟨k, hk⟩ := exists_of_mem_irreps hi
    exact irrep_isOrthRep hN hk
  irred := fun i hi => by
    obtain ⟨k, hk⟩ := exists_of_mem_irreps hi
    exact (c57_cyclic N hN k i hk).1
  char := fun i hi g => by
    obtain ⟨k, hk⟩ := exists_of_mem_irreps hi
    exact irrep_char hk g
  socs := fun i hi => by
    obtain ⟨k, hk⟩ := exists_of_mem_irreps hi
    exact (irrep_mult hk).2
  rel := fun i hi => by
    obtain ⟨k, hk⟩ := exists_of_mem_irreps hi
    obtain ⟨-, hb⟩ := irrep_freq' hk
    rw [sum_elements, show (elements N).length = N from order_eq N]
    simp only [character_eq hk]
    rw [sum_scaled hN hb hb, if_pos rfl]
    have hs := irrep_size hk
    unfold irrep at hk
    rw [order_eq] at hk
    split_ifs at hk with h1 h2 h3
    · cases hk; simp [h2]
    · cases hk; rw [if_pos (by omega)]; simp
    · cases hk; rw [if_neg (by omega)]; push_cast; ring
  rel' := fun i hi j hj hij => by
    obtain ⟨k, hk⟩ := exists_of_mem_irreps hi
    obtain ⟨l, hl⟩ := exists_of_mem_irreps hj
    obtain ⟨-, hb⟩ := irrep_freq' hk
    obtain ⟨-, hb'⟩ := irrep_freq' hl
    have hkl : k ≠ l := by
      rintro rfl
      rw [hk] at hl
      exact hij (Option.some.inj hl)
    rw [sum_elements]
    simp only [character_eq hk, character_eq hl]
    rw [sum_scaled hN hb hb', if_neg hkl, mul_zero]
  reg := by
    obtain ⟨r, -, h2, h3⟩ := c12_cyclic_regular N hN
    exact ⟨r, h2, fun i hi => h3 ▸ hi⟩

end Cyclic

namespace Dihedral

theorem character_eq {N j k : ℕ} {r : Irrep (ℤ × ℤ)} (h : irrep N j k = some r) (x : ℤ) :
    r.character (0, x) = r.size * cos (k * x * (2 * π / N)) ∧
    r.character (1, x) = (if k = 0 ∨ 2 * k = N then (if j = 0 then 1 else -1) else 0) * cos (k * x * (2 * π / N)) := by
  rw [irrep_char h, irrep_char h]
  unfold irrep at h
  split_ifs at h with h1 h2 h3 h4 h5 h6 h7
  · cases h; simp [Mat.trace, m1, h4, h3]
  · cases h
    rw [if_pos (by omega), if_pos h3]
    simp [Mat.trace, m1]
  · cases h; simp [Mat.trace, m1, h6, h3]
  · cases h
    rw [if_pos (by omega), if_neg h3]
    simp [Mat.trace, m1]
  · cases h
    rw [if_neg (by omega)]
    refine ⟨?_, ?_⟩
    · simp only [Mat.trace, Finset.sum_range_succ, Finset.sum_range_zero, psichi_zero, psi, m2]
      push_cast
      rw [zero_add, add_zero, ← _root_.mul_assoc]
      ring
    · simp [Mat.trace, Finset.sum_range_succ, psichi_one, m2]

theorem irrep_freq' {N j k : ℕ} {r : Irrep (ℤ × ℤ)} (h : irrep N j k = some r) : r.flip = j ∧ r.freq = k ∧ 2 * k ≤ N ∧ j ≤ 1 := by
  unfold irrep at h
  split_ifs at h with h1 h2 h3 h4 h5 h6 h7 <;> cases h <;> exact ⟨rfl, rfl, by omega, by omega⟩

theorem exists_of_mem_irreps {N : ℕ} {i : Irrep (ℤ × ℤ)} (h : i ∈ irreps N) : ∃ j k, irrep N j k = some i := by
  obtain ⟨p, -, hk⟩ := List.mem_filterMap.1 h
  exact ⟨p.1, p.2, hk⟩

theorem sum_elements (N : ℕ) (F : ℤ × ℤ → ℝ) :
    ((elements N).map F).sum = ∑ x ∈ range N, F (0, x) + ∑ x ∈ range N, F (1, x) := by
  rw [elements, List.map_append, List.sum_append, List.map_map, List.map_map, sum_map_range, sum_map_range]
  rfl

theorem complete {N : ℕ} (hN : 0 < N) : IrrepTable (grp N) (elements N) (irreps N) where
  lawful := lawful hN
  nodup := elements_nodup N
  mem := fun e => (mem_elements N e).trans (isElement_iff N e).symm
  irr_nodup := by
    refine List.Nodup.filterMap ?_ ?_
    · rintro ⟨a, a'⟩ ⟨b, b'⟩ i ha hb
      have h1 := irrep_freq' ha
      have h2 := irrep_freq' hb
      exact Prod.ext (h1.1.symm.trans h2.1) (h1.2.1.symm.trans h2.2.1)
    · rw [List.nodup_append, List.nodup_append]
      refine ⟨⟨by simp, List.Nodup.map (fun a b h => by simpa using h) List.nodup_range, ?_⟩, by split_ifs <;> simp, ?_⟩
      · intro a ha b hb
        simp only [List.mem_singleton] at ha
        obtain ⟨k, -, rfl⟩ := List.mem_map.1 hb
        subst ha
        simp
      · intro a ha b hb
        split_ifs at hb with h2
        · simp only [List.mem_singleton] at hb
          subst hb
          rcases List.mem_append.1 ha with ha | ha
          · simp only [List.mem_singleton] at ha
            subst ha
            intro e
            rw [Prod.mk.injEq] at e
            omega
          · obtain ⟨k, -, rfl⟩ := List.mem_map.1 ha
            simp
        · simp at hb
  orth := fun i hi => by
    obtain ⟨j, k, hk⟩ := exists_of_mem_irreps hi
    exact irrep_isOrthRep hN hk
  irred := fun i hi => by
    obtain ⟨j, k, hk⟩ := exists_of_mem_irreps hi
    exact (c57_dihedral N hN j k i hk).1
  char := fun i hi g => by
    obtain ⟨j, k, hk⟩ := exists_of_mem_irreps hi
    exact irrep_char hk g
  socs := fun i hi => by
    obtain ⟨j, k, hk⟩ := exists_of_mem_irreps hi
    exact (irrep_mult hk).2
  rel := fun i hi => by
    obtain ⟨j, k, hk⟩ := exists_of_mem_irreps hi
    obtain ⟨-, -, hb, -⟩ := irrep_freq' hk
    rw [sum_elements, elements_length]
    simp only [(character_eq hk _).1, (character_eq hk _).2]
    set w : ℝ := (if k = 0 ∨ 2 * k = N then (if j = 0 then 1 else -1) else 0) with hw
    rw [sum_scaled hN hb hb, sum_scaled hN hb hb, if_pos rfl]
    have hs := irrep_size hk
    have hsocs : i.socs = 1 := by
      unfold irrep at hk
      split_ifs at hk <;> cases hk <;> rfl
    rw [hsocs, hs, hw]
    by_cases h1 : k = 0 ∨ 2 * k = N
    · simp only [if_pos h1]
      split_ifs <;> (push_cast; ring)
    · simp only [if_neg h1]
      push_cast; ring
  rel' := fun i hi i' hi' hij => by
    obtain ⟨j, k, hk⟩ := exists_of_mem_irreps hi
    obtain ⟨m, l, hl⟩ := exists_of_mem_irreps hi'
    obtain ⟨-, -, hb, hj1⟩ := irrep_freq' hk
    obtain ⟨-, -, hb', hm1⟩ := irrep_freq' hl
    rw [sum_elements]
    simp only [(character_eq hk _).1, (character_eq hk _).2, (character_eq hl _).1, (character_eq hl _).2]
    set w : ℝ := (if k = 0 ∨ 2 * k = N then (if j = 0 then 1 else -1) else 0) with hw
    set w' : ℝ := (if l = 0 ∨ 2 * l = N then (if m = 0 then 1 else -1) else 0) with hw'
    rw [sum_scaled hN hb hb', sum_scaled hN hb hb']
    by_cases hkl : k = l
    · subst hkl
      have hjm : j ≠ m := by
        rintro rfl
        rw [hk] at hl
        exact hij (Option.some.inj hl)
      have h1 : k = 0 ∨ 2 * k = N := by
        have a := (irrep_isSome N j k).1 (by rw [hk]; rfl)
        have b := (irrep_isSome N m k).1 (by rw [hl]; rfl)
        omega
      rw [if_pos rfl, if_pos h1, irrep_size hk, irrep_size hl, hw, hw']
      simp only [if_pos h1]
      split_ifs
      · omega
      · push_cast; ring
      · push_cast; ring
      · omega
    · rw [if_neg hkl]; ring
  reg := by
    obtain ⟨r, -, h2, h3⟩ := c12_dihedral_regular N hN
    refine ⟨r, h2, fun i hi => ?_⟩
    rw [h3] at hi
    obtain ⟨i', hi', h⟩ := List.mem_flatMap.1 hi
    rw [List.eq_of_mem_replicate h]
    exact hi'

end Dihedral

/-! ## The multiplicities of a direct sum -/

section
variable {El : Type} [DecidableEq El] {G : Grp El}

theorem trace_eq_toM (n : ℕ) (A : Mat) : Mat.trace n A = (toM n A).trace := by
  rw [Mat.trace, Finset.sum_range]
  rfl

theorem trace_blocks (ks : List (Irrep El)) (g : El) :
    Mat.trace (lsize ks) (Repr.blocks ks g) = (ks.map fun i => Mat.trace i.size (i.mat g)).sum := by
  induction ks with
  | nil => simp [Mat.trace, lsize]
  | cons i l ih =>
    rw [List.map_cons, List.sum_cons, ← ih, lsize_cons]
    simp only [Mat.trace, Finset.sum_range_add]
    have hb : ∀ k, Repr.blocks (i :: l) g k k = if k < i.size then i.mat g k k else Repr.blocks l g (k - i.size) (k - i.size) := by
      intro k
      simp only [Repr.blocks, List.map_cons, bdiag]
      split_ifs <;> rfl
    congr 1
    · exact Finset.sum_congr rfl fun k hk => by rw [hb, if_pos (mem_range.1 hk)]
    · exact Finset.sum_congr rfl fun k hk => by rw [hb, if_neg (by omega), Nat.add_sub_cancel_left]

theorem trace_conj {n : ℕ} {D E A B : Mat} (hD : IsInv n D E) (h : MEq n n A (mul n (mul n D B) E)) : Mat.trace n A = Mat.trace n B := by
  have h1 := (MEq_iff_toM _ _ _).1 h
  have h2 := (MEq_iff_toM _ _ _).1 hD.2
  rw [toM_mul, toM_one] at h2
  rw [trace_eq_toM, trace_eq_toM, h1, toM_mul, toM_mul, Matrix.trace_mul_comm, ← _root_.mul_assoc, h2, one_mul]

theorem sum_map_list_sum {α β : Type*} (l : List α) (m : List β) (F : α → β → ℝ) :
    (l.map fun a => (m.map fun b => F a b).sum).sum = (m.map fun b => (l.map fun a => F a b).sum).sum := by
  induction l with
  | nil => simp
  | cons a l ih =>
    simp only [List.map_cons, List.sum_cons]
    rw [ih, ← List.sum_map_add]

theorem char_inv {irreps : List (Irrep El)} {els : List El} (hc : IrrepTable G els irreps) {i : Irrep El} (hi : i ∈ irreps) {e : El}
    (he : G.isEl e) : i.character (G.inv e) = i.character e := by
  rw [hc.char i hi, hc.char i hi, Mat.trace, Mat.trace]
  exact Finset.sum_congr rfl fun k hk => (hc.orth i hi).inv e he k (mem_range.1 hk) k (mem_range.1 hk)

open Classical in
/-- The formula of `decompose_representation` counts the copies of an irrep. -/
theorem multiplicity_count {irreps : List (Irrep El)} {els : List El} (hc : IrrepTable G els irreps) {n : ℕ} {ρ : El → Mat}
    {ks : List (Irrep El)} (hks : ∀ i ∈ ks, i ∈ irreps) (hchar : ∀ g, G.isEl g → repCharacter n ρ g = (ks.map fun k => k.character g).sum)
    {i : Irrep El} (hi : i ∈ irreps) : multiplicity G els (repCharacter n ρ) i = ks.count i := by
  have hlen : (els.length : ℝ) ≠ 0 := by
    have := List.length_pos_of_mem ((hc.mem _).2 hc.lawful.one_mem)
    positivity
  have hs : (i.socs : ℝ) ≠ 0 := by have := hc.socs i hi; positivity
  rw [multiplicity, div_eq_iff (mul_ne_zero hlen hs)]
  have e1 : (els.map fun e => repCharacter n ρ e * i.character (G.inv e)) = els.map fun e => (ks.map fun k => k.character e * i.character e).sum := by
    refine List.map_congr_left fun e he => ?_
    have he' := (hc.mem e).1 he
    rw [char_inv hc hi he', hchar e he', ← List.sum_map_mul_right]
  rw [e1, sum_map_list_sum]
  clear e1 hchar
  induction ks with
  | nil => simp
  | cons k l ih =>
    rw [List.map_cons, List.sum_cons, ih fun j hj => hks j (List.mem_cons_of_mem _ hj), List.count_cons]
    by_cases hki : k = i
    · subst hki
      rw [hc.rel k hi]
      simp
      ring
    · rw [hc.rel' k (hks k List.mem_cons_self) i hi hki]
      simp [hki]

end

end E2
