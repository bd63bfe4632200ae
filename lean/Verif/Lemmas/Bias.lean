import Verif.Model.Bias
import Verif.Lemmas.Rep
import Verif.Lemmas.Regular

/-!
# The bias of the convolutions
-/

namespace E2

open Finset Mat

variable {El : Type}

theorem mulVec_bdiag_cons_lt (s : ℕ) (A : Mat) (l : List (ℕ × Mat)) (v : ℕ → ℝ) {i : ℕ} (hi : i < s) :
    mulVec (s + total l) (bdiag ((s, A) :: l)) v i = mulVec s A v i := by
  rw [mulVec, Finset.sum_range_add, Finset.sum_eq_zero (s := range (total l)), add_zero]
  · exact Finset.sum_congr rfl fun j hj => by simp [bdiag, hi, mem_range.1 hj]
  · intro j _; simp [bdiag, hi]

theorem mulVec_bdiag_cons_ge (s : ℕ) (A : Mat) (l : List (ℕ × Mat)) (v : ℕ → ℝ) (i : ℕ) :
    mulVec (s + total l) (bdiag ((s, A) :: l)) v (s + i) = mulVec (total l) (bdiag l) (fun j => v (s + j)) i := by
  rw [mulVec, Finset.sum_range_add, Finset.sum_eq_zero (s := range s), zero_add]
  · exact Finset.sum_congr rfl fun j hj => by simp [bdiag]
  · intro j hj; simp [bdiag, mem_range.1 hj]

theorem mulVec_congr {n : ℕ} (A : Mat) {v w : ℕ → ℝ} (h : ∀ i < n, v i = w i) (i : ℕ) : mulVec n A v i = mulVec n A w i :=
  Finset.sum_congr rfl fun j hj => by rw [h j (mem_range.1 hj)]

theorem mulVec_mul (n : ℕ) (A B : Mat) (v : ℕ → ℝ) (i : ℕ) : mulVec n (Mat.mul n A B) v i = mulVec n A (mulVec n B v) i := by
  simp only [mulVec, Mat.mul, sum_mul, mul_sum]
  rw [sum_comm]
  exact sum_congr rfl fun _ _ => sum_congr rfl fun _ _ => by ring

theorem mulVec_MEq {n : ℕ} {A B : Mat} (h : MEq n n A B) (v : ℕ → ℝ) {i : ℕ} (hi : i < n) : mulVec n A v i = mulVec n B v i :=
  Finset.sum_congr rfl fun j hj => by rw [h i hi j (mem_range.1 hj)]

theorem mulVec_one {n : ℕ} (v : ℕ → ℝ) {i : ℕ} (hi : i < n) : mulVec n Mat.one v i = v i := by
  simp [mulVec, Mat.one, hi]

/-- The vector `v` is fixed by all matrices. -/
def Fixed (G : Grp El) (n : ℕ) (ρ : El → Mat) (v : ℕ → ℝ) : Prop := ∀ g, G.isEl g → ∀ i < n, mulVec n (ρ g) v i = v i

/-- What is needed of the irreps: the trivial ones are trivial, the others fix no vector but zero. -/
structure TrivOk (G : Grp El) (i : Irrep El) : Prop where
  triv : isTrivial i = true → i.size = 1 ∧ ∀ g, G.isEl g → i.mat g 0 0 = 1
  non : isTrivial i = false → ∀ v, Fixed G i.size i.mat v → ∀ a < i.size, v a = 0

theorem blocks_cons (i : Irrep El) (l : List (Irrep El)) (g : El) : Repr.blocks (i :: l) g = bdiag ((i.size, i.mat g) :: l.map fun i => (i.size, i.mat g)) := rfl

theorem total_irreps (l : List (Irrep El)) (g : El) : total (l.map fun i => (i.size, i.mat g)) = (l.map Irrep.size).sum := by
  simp [total, Function.comp_def]

theorem trivPos_lt {i0 : ℕ} {l : List (Irrep El)} {G : Grp El} (h : ∀ i ∈ l, TrivOk G i) {q : ℕ} (hq : q ∈ trivPos i0 l) : i0 ≤ q ∧ q < i0 + (l.map Irrep.size).sum := by
  induction l generalizing i0 with
  | nil => simp [trivPos] at hq
  | cons i l ih =>
    rw [trivPos] at hq
    rw [List.map_cons, List.sum_cons]
    have ih' := fun hq => ih (i0 := i0 + i.size) (fun j hj => h j (List.mem_cons_of_mem _ hj)) hq
    split_ifs at hq with ht
    · have := ((h i List.mem_cons_self).triv ht).1
      rcases List.mem_cons.1 hq with hq | hq
      · omega
      · have := ih' hq; omega
    · have := ih' hq; omega

/-- The basis vectors at the positions of the trivial irreps are fixed. -/
theorem blocks_triv {G : Grp El} {l : List (Irrep El)} (h : ∀ i ∈ l, TrivOk G i) {i0 q : ℕ} (hq : q ∈ trivPos i0 l) (g : El) (hg : G.isEl g) {a : ℕ}
    (ha : a < (l.map Irrep.size).sum) : Repr.blocks l g a (q - i0) = if a = q - i0 then 1 else 0 := by
  induction l generalizing i0 a q with
  | nil => simp [trivPos] at hq
  | cons i l ih =>
    have hrest : ∀ {q a}, q ∈ trivPos (i0 + i.size) l → a < ((i :: l).map Irrep.size).sum →
        Repr.blocks (i :: l) g a (q - i0) = if a = q - i0 then 1 else 0 := by
      intro q a hq ha
      obtain ⟨l1, l2⟩ := trivPos_lt (fun j hj => h j (List.mem_cons_of_mem _ hj)) hq
      have e1 : q - i0 = i.size + (q - (i0 + i.size)) := by omega
      rw [blocks_cons, e1]
      rw [List.map_cons, List.sum_cons] at ha
      by_cases hlt : a < i.size
      · have : ¬ a = i.size + (q - (i0 + i.size)) := by omega
        simp [bdiag, hlt, this]
      · have hx := ih (fun j hj => h j (List.mem_cons_of_mem _ hj)) hq (a := a - i.size) (by omega)
        have e2 : a = i.size + (a - i.size) := by omega
        rw [e2]
        simp only [bdiag]
        rw [if_neg (by omega), if_neg (by omega), Nat.add_sub_cancel_left, Nat.add_sub_cancel_left]
        rw [Repr.blocks] at hx
        rw [hx]
        simp
    rw [trivPos] at hq
    split_ifs at hq with ht
    · rcases List.mem_cons.1 hq with hq' | hq'
      · obtain ⟨t1, t2⟩ := (h i List.mem_cons_self).triv ht
        subst hq'
        rw [Nat.sub_self, blocks_cons]
        by_cases hlt : a < i.size
        · have : a = 0 := by omega
          subst this
          simp [bdiag, t1, t2 g hg]
        · have : ¬ a = 0 := by omega
          simp [bdiag, t1, this]
      · exact hrest hq' ha
    · exact hrest hq ha

/-- A fixed vector is supported on the trivial irreps. -/
theorem fixed_support {G : Grp El} {l : List (Irrep El)} (h : ∀ i ∈ l, TrivOk G i) (u : ℕ → ℝ)
    (hu : Fixed G (l.map Irrep.size).sum (Repr.blocks l) u) (i0 : ℕ) (F : ℕ → ℝ) :
    ∑ q ∈ range (l.map Irrep.size).sum, F (i0 + q) * u q = ((trivPos i0 l).map fun q => F q * u (q - i0)).sum := by
  induction l generalizing i0 u with
  | nil => simp [trivPos]
  | cons i l ih =>
    have h1 : Fixed G i.size i.mat u := by
      intro g hg a ha
      have := hu g hg a (by rw [List.map_cons, List.sum_cons]; omega)
      rwa [List.map_cons, List.sum_cons, blocks_cons, ← total_irreps l g, mulVec_bdiag_cons_lt _ _ _ _ ha] at this
    have h2 : Fixed G (l.map Irrep.size).sum (Repr.blocks l) (fun q => u (i.size + q)) := by
      intro g hg a ha
      have := hu g hg (i.size + a) (by rw [List.map_cons, List.sum_cons]; omega)
      rwa [List.map_cons, List.sum_cons, blocks_cons, ← total_irreps l g, mulVec_bdiag_cons_ge, total_irreps] at this
    have ih' := ih (fun j hj => h j (List.mem_cons_of_mem _ hj)) _ h2 (i0 + i.size)
    rw [List.map_cons, List.sum_cons, sum_range_add, trivPos]
    have e1 : ∑ x ∈ range (l.map Irrep.size).sum, F (i0 + (i.size + x)) * u (i.size + x) = ((trivPos (i0 + i.size) l).map fun q => F q * u (q - i0)).sum := by
      rw [show (fun q => F q * u (q - i0)) = fun q => F q * u (q - i0) from rfl]
      have : (trivPos (i0 + i.size) l).map (fun q => F q * u (q - i0)) = (trivPos (i0 + i.size) l).map fun q => F q * u (i.size + (q - (i0 + i.size))) := by
        apply List.map_congr_left
        intro q hq
        have := (trivPos_lt (fun j hj => h j (List.mem_cons_of_mem _ hj)) hq).1
        rw [show i.size + (q - (i0 + i.size)) = q - i0 by omega]
      rw [this, ← ih']
      exact sum_congr rfl fun x _ => by rw [Nat.add_assoc]
    rw [e1]
    split_ifs with ht
    · have := ((h i List.mem_cons_self).triv ht).1
      rw [this, sum_range_one]
      simp
    · have h0 := (h i List.mem_cons_self).non (by simpa using ht) u h1
      rw [sum_eq_zero, zero_add]
      intro x hx
      rw [h0 x (mem_range.1 hx), mul_zero]

theorem expandBias_linear (cols : List (ℕ → ℝ)) (b : List ℝ) (n : ℕ) (A : Mat) (p i : ℕ)
    (h : ∀ v ∈ cols, mulVec n A (fun j => v (p + j)) i = v (p + i)) :
    mulVec n A (fun j => expandBias cols b (p + j)) i = expandBias cols b (p + i) := by
  induction cols generalizing b with
  | nil => simp [expandBias, mulVec]
  | cons v cols ih =>
    cases b with
    | nil => simp [expandBias, mulVec]
    | cons w b =>
      have e : ∀ row, expandBias (v :: cols) (w :: b) row = v row * w + expandBias cols b row := fun row => by simp [expandBias]
      simp only [e]
      rw [← ih b fun v hv => h v (List.mem_cons_of_mem _ hv), ← h v List.mem_cons_self]
      simp only [mulVec, mul_add, sum_add_distrib, sum_mul]
      congr 1
      exact sum_congr rfl fun _ _ => by ring

/-- The matrix of a list of representations. -/
def repMat (rs : List (Repr El)) (g : El) : Mat := bdiag (rs.map fun r => (r.size, r.mat g))

theorem total_rs (rs : List (Repr El)) (g : El) : total (rs.map fun r => (r.size, r.mat g)) = (rs.map Repr.size).sum := by
  simp [total, Function.comp_def]

theorem cob_col_fixed {G : Grp El} {r : Repr El} (hr : r.WF) (h : ∀ i ∈ r.irreps, TrivOk G i) {q : ℕ} (hq : q ∈ trivPos 0 r.irreps) :
    Fixed G r.size r.mat (fun i => r.cob i q) := by
  intro g hg i hi
  have hlt := (trivPos_lt h hq).2
  rw [Nat.zero_add] at hlt
  rw [Repr.mat, mulVec_mul, mulVec_mul]
  have e1 : ∀ a < r.size, mulVec r.size r.cobInv (fun i => r.cob i q) a = if a = q then 1 else 0 := by
    intro a ha
    have := hr.2 a ha q hlt
    simpa [Mat.mul, Mat.one, mulVec] using this
  have e2 : ∀ a < r.size, mulVec r.size (Repr.blocks r.irreps g) (mulVec r.size r.cobInv (fun i => r.cob i q)) a = if a = q then 1 else 0 := by
    intro a ha
    rw [mulVec_congr _ e1]
    have hb := blocks_triv h hq g hg ha
    rw [Nat.sub_zero] at hb
    rw [← hb]
    have hlt' : q < r.size := hlt
    simp [mulVec, hlt']
  rw [mulVec_congr _ e2]
  have hlt' : q < r.size := hlt
  simp [mulVec, hlt']

theorem biasCols_fixed {G : Grp El} (rs : List (Repr El)) (hr : ∀ r ∈ rs, r.WF ∧ ∀ i ∈ r.irreps, TrivOk G i) (p : ℕ) :
    ∀ v ∈ biasCols p rs, Fixed G (rs.map Repr.size).sum (repMat rs) (fun i => v (p + i)) := by
  induction rs generalizing p with
  | nil => intro v hv; simp [biasCols] at hv
  | cons r rs ih =>
    intro v hv g hg i hi
    rw [List.map_cons, List.sum_cons] at hi ⊢
    rw [biasCols, List.mem_append] at hv
    rw [repMat, List.map_cons, ← total_rs rs g]
    have hr0 := hr r List.mem_cons_self
    have hrs := fun r' h' => hr r' (List.mem_cons_of_mem _ h')
    rcases Nat.lt_or_ge i r.size with hlt | hge
    · rw [mulVec_bdiag_cons_lt _ _ _ _ hlt]
      rcases hv with hv | hv
      · obtain ⟨q, hq, rfl⟩ := List.mem_map.1 hv
        have e : ∀ a < r.size, (if p ≤ p + a ∧ p + a < p + r.size then r.cob (p + a - p) q else 0) = r.cob a q := by
          intro a ha
          rw [if_pos (by omega), Nat.add_sub_cancel_left]
        rw [mulVec_congr _ e]; beta_reduce; rw [e i hlt]
        exact cob_col_fixed hr0.1 hr0.2 hq g hg i hlt
      · have hz : ∀ (rs : List (Repr El)) p' (v : ℕ → ℝ), v ∈ biasCols p' rs → ∀ row < p', v row = 0 := by
          intro rs
          induction rs with
          | nil => intro p' v hv; simp [biasCols] at hv
          | cons r rs ih =>
            intro p' v hv row hrow
            rw [biasCols, List.mem_append] at hv
            rcases hv with hv | hv
            · obtain ⟨q, -, rfl⟩ := List.mem_map.1 hv
              exact if_neg (by omega)
            · exact ih _ v hv row (by omega)
        have e : ∀ a < r.size, v (p + a) = 0 := fun a ha => hz rs _ v hv _ (by omega)
        rw [mulVec_congr _ e]; beta_reduce; rw [e i hlt]
        simp [mulVec]
    · have e0 : i = r.size + (i - r.size) := by omega
      rw [e0, mulVec_bdiag_cons_ge]
      rcases hv with hv | hv
      · obtain ⟨q, hq, rfl⟩ := List.mem_map.1 hv
        have e : ∀ a, (if p ≤ p + (r.size + a) ∧ p + (r.size + a) < p + r.size then r.cob (p + (r.size + a) - p) q else 0) = 0 := by
          intro a
          rw [if_neg (by omega)]
        simp only [e]
        simp [mulVec]
      · have := ih hrs (p + r.size) v hv g hg (i - r.size) (by omega)
        simp only [Nat.add_assoc] at this
        rw [total_rs]
        exact this

theorem biasCols_complete {G : Grp El} (rs : List (Repr El)) (hr : ∀ r ∈ rs, r.WF ∧ ∀ i ∈ r.irreps, TrivOk G i) (p : ℕ) (v : ℕ → ℝ)
    (hv : Fixed G (rs.map Repr.size).sum (repMat rs) v) :
    ∃ b : List ℝ, b.length = (biasCols p rs).length ∧ ∀ i < (rs.map Repr.size).sum, v i = expandBias (biasCols p rs) b (p + i) := by
  induction rs generalizing p v with
  | nil => exact ⟨[], rfl, fun i hi => by simp at hi⟩
  | cons r rs ih =>
    have hr0 := hr r List.mem_cons_self
    have hrs := fun r' h' => hr r' (List.mem_cons_of_mem _ h')
    have h1 : Fixed G r.size r.mat v := by
      intro g hg a ha
      have := hv g hg a (by rw [List.map_cons, List.sum_cons]; omega)
      rwa [List.map_cons, List.sum_cons, repMat, List.map_cons, ← total_rs rs g, mulVec_bdiag_cons_lt _ _ _ _ ha] at this
    have h2 : Fixed G (rs.map Repr.size).sum (repMat rs) (fun q => v (r.size + q)) := by
      intro g hg a ha
      have := hv g hg (r.size + a) (by rw [List.map_cons, List.sum_cons]; omega)
      rwa [List.map_cons, List.sum_cons, repMat, List.map_cons, ← total_rs rs g, mulVec_bdiag_cons_ge, total_rs] at this
    obtain ⟨b, hb, hbv⟩ := ih hrs (p + r.size) _ h2
    set u := mulVec r.size r.cobInv v with hu
    have hub : Fixed G r.size (Repr.blocks r.irreps) u := by
      intro g hg a ha
      have e1 : ∀ a < r.size, mulVec r.size r.cob (mulVec r.size (Repr.blocks r.irreps g) u) a = v a := by
        intro a ha
        have := h1 g hg a ha
        rwa [Repr.mat, mulVec_mul, mulVec_mul] at this
      have e2 : u a = mulVec r.size r.cobInv (mulVec r.size r.cob (mulVec r.size (Repr.blocks r.irreps g) u)) a :=
        mulVec_congr _ (fun a ha => (e1 a ha).symm) a
      rw [e2, ← mulVec_mul _ r.cobInv r.cob, mulVec_MEq hr0.1.2 _ ha, mulVec_one _ ha]
    have huv : ∀ i < r.size, v i = mulVec r.size r.cob u i := by
      intro i hi
      rw [hu, ← mulVec_mul, mulVec_MEq hr0.1.1 _ hi, mulVec_one _ hi]
    refine ⟨(trivPos 0 r.irreps).map u ++ b, by simp [biasCols, hb], ?_⟩
    intro i hi
    have hsplit : ∀ row, expandBias (biasCols p (r :: rs)) ((trivPos 0 r.irreps).map u ++ b) row =
        ((trivPos 0 r.irreps).map fun q => (if p ≤ row ∧ row < p + r.size then r.cob (row - p) q else 0) * u q).sum + expandBias (biasCols (p + r.size) rs) b row := by
      intro row
      rw [biasCols, expandBias, List.zipWith_append (by simp), List.sum_append]
      congr 1
      rw [List.zipWith_map_left, List.zipWith_map_right, List.zipWith_self]
    rw [hsplit]
    rw [List.map_cons, List.sum_cons] at hi
    have hz : ∀ (rs : List (Repr El)) p' (b : List ℝ) row, row < p' → expandBias (biasCols p' rs) b row = 0 := by
      intro rs
      induction rs with
      | nil => intro p' b row _; simp [expandBias, biasCols]
      | cons r rs ih =>
        intro p' b row hrow
        have hmem : ∀ v ∈ biasCols p' (r :: rs), v row = 0 := by
          have hz : ∀ (rs : List (Repr El)) p' (v : ℕ → ℝ), v ∈ biasCols p' rs → ∀ row < p', v row = 0 := by
            intro rs
            induction rs with
            | nil => intro p' v hv; simp [biasCols] at hv
            | cons r rs ih =>
              intro p' v hv row hrow
              rw [biasCols, List.mem_append] at hv
              rcases hv with hv | hv
              · obtain ⟨q, -, rfl⟩ := List.mem_map.1 hv
                exact if_neg (by omega)
              · exact ih _ v hv row (by omega)
          exact fun v hv => hz _ _ v hv row hrow
        rw [expandBias]
        apply List.sum_eq_zero
        intro y hy
        rw [List.mem_iff_getElem] at hy
        obtain ⟨k, hk, rfl⟩ := hy
        rw [List.getElem_zipWith, hmem _ (List.getElem_mem _), zero_mul]
    rcases Nat.lt_or_ge i r.size with hlt | hge
    · rw [hz _ _ _ _ (by omega), add_zero, huv i hlt]
      simp only [show p ≤ p + i ∧ p + i < p + r.size by omega, and_self, if_true, Nat.add_sub_cancel_left]
      have := fixed_support hr0.2 u hub 0 (fun q => r.cob i q)
      simp only [Nat.zero_add, Nat.sub_zero] at this
      exact this
    · have e : ∀ q, (if p ≤ p + i ∧ p + i < p + r.size then r.cob (p + i - p) q else 0) * u q = 0 := by
        intro q; rw [if_neg (by omega), zero_mul]
      simp only [e]
      have := hbv (i - r.size) (by omega)
      rw [show p + r.size + (i - r.size) = p + i by omega, show r.size + (i - r.size) = i by omega] at this
      rw [this]
      simp

end E2
