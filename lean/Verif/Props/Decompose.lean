import Verif.Lemmas.DecomposeChar

/-!
# C58: `decompose_representation` finds the irreps of every representation of `C_N` and `D_N`
-/

namespace E2

open Finset Mat

section
variable {El : Type} [DecidableEq El] {G : Grp El}

/-- The specification: in the basis given by the columns of `D` the representation is the direct sum of the irreps `ks`. -/
structure IsDecomposition (G : Grp El) (n : ℕ) (ρ : El → Mat) (ks : List (Irrep El)) (D Dinv : Mat) : Prop where
  size : (ks.map Irrep.size).sum = n
  inv : IsInv n D Dinv
  eq : ∀ g, G.isEl g → MEq n n (ρ g) (mul n (mul n D (Repr.blocks ks g)) Dinv)

theorem Inter.eq_conj {n : ℕ} {ρ P : El → Mat} {D Dinv : Mat} (h : Inter G n ρ n P D) (hD : IsInv n D Dinv) {g : El} (hg : G.isEl g) :
    MEq n n (ρ g) (mul n (mul n D (P g)) Dinv) := by
  refine MEq.trans ?_ (MEq.mul (h g hg) (MEq.refl Dinv))
  rw [Mat.mul_assoc]
  exact (MEq_mul_one _ _ _).symm.trans (MEq.mul (MEq.refl _) hD.1.symm)

theorem IsDecomposition.inter {n : ℕ} {ρ : El → Mat} {ks : List (Irrep El)} {D Dinv : Mat} (h : IsDecomposition G n ρ ks D Dinv) :
    Inter G n ρ n (Repr.blocks ks) D := by
  intro g hg
  refine (MEq.mul (h.eq g hg) (MEq.refl D)).trans ?_
  rw [Mat.mul_assoc]
  exact (MEq.mul (MEq.refl _) h.inv.2).trans (MEq_mul_one _ _ _)

/-- A decomposition can be reordered, keeping the change of basis orthogonal. -/
theorem IsDecomposition.perm {n : ℕ} {ρ : El → Mat} {ks ks' : List (Irrep El)} {D Dinv : Mat} (h : IsDecomposition G n ρ ks D Dinv)
    (hp : ks.Perm ks') : ∃ P, IsDecomposition G n ρ ks' (mul n D P) (mul n (tr P) Dinv) := by
  obtain ⟨P, hP, hc⟩ := blocks_perm hp
  have hs : lsize ks = n := h.size
  rw [hs] at hP hc
  have hi : IsInv n (mul n D P) (mul n (tr P) Dinv) := h.inv.mul hP
  refine ⟨P, (hp.map Irrep.size).sum_eq.symm.trans h.size, hi, fun g hg => ?_⟩
  exact Inter.eq_conj (h.inter.mul_right fun g _ => hc g) hi hg

theorem IsDecomposition.character {irreps : List (Irrep El)} {els : List El} (hc : IrrepTable G els irreps) {n : ℕ} {ρ : El → Mat}
    {ks : List (Irrep El)} (hks : ∀ i ∈ ks, i ∈ irreps) {D Dinv : Mat} (h : IsDecomposition G n ρ ks D Dinv) {g : El} (hg : G.isEl g) :
    repCharacter n ρ g = (ks.map fun k => k.character g).sum := by
  have e1 : repCharacter n ρ g = Mat.trace n (ρ g) := rfl
  have hs : lsize ks = n := h.size
  have e2 := trace_blocks ks g
  rw [hs] at e2
  rw [e1, trace_conj h.inv (h.eq g hg), e2]
  exact congrArg List.sum (List.map_congr_left fun i hi => (hc.char i (hks i hi) g).symm)

open Classical in
theorem count_expand {irreps : List (Irrep El)} (hnd : irreps.Nodup) (m : Irrep El → ℕ) (i : Irrep El) :
    (expandMult (irreps.map fun k => (k, (m k : ℤ)))).count i = if i ∈ irreps then m i else 0 := by
  induction irreps with
  | nil => simp [expandMult]
  | cons k l ih =>
    rw [List.nodup_cons] at hnd
    have ih := ih hnd.2
    simp only [expandMult, List.map_cons, List.flatMap_cons, List.count_append, Int.toNat_natCast, List.count_replicate] at ih ⊢
    rw [ih]
    by_cases hk : k = i
    · subst hk
      simp [hnd.1]
    · have hk' : ¬ i = k := fun h => hk h.symm
      simp [hk, hk']

theorem perm_expand {ms ms' : List (Irrep El × ℤ)} (h : ms.Perm ms') : (expandMult ms).Perm (expandMult ms') :=
  h.flatMap_right _

open Classical in
/-- The multiplicities agree with any decomposition. -/
theorem decomposeMult_of {irreps : List (Irrep El)} {els : List El} (hc : IrrepTable G els irreps) {n : ℕ} {ρ : El → Mat}
    {ks : List (Irrep El)} (hks : ∀ i ∈ ks, i ∈ irreps) {D Dinv : Mat} (h : IsDecomposition G n ρ ks D Dinv) :
    decomposeMult G els irreps n ρ = some (irreps.map fun i => (i, ((ks.count i : ℕ) : ℤ))) ∧
      ks.Perm (expandMult (irreps.map fun i => (i, ((ks.count i : ℕ) : ℤ)))) := by
  have hm : ∀ i ∈ irreps, multiplicity G els (repCharacter n ρ) i = ks.count i := fun i hi =>
    multiplicity_count hc hks (fun g hg => h.character hc hks hg) hi
  constructor
  · unfold decomposeMult
    dsimp only
    rw [if_pos (fun i hi => by rw [hm i hi]; simp)]
    congr 1
    exact List.map_congr_left fun i hi => by rw [hm i hi]; simp
  · rw [List.perm_iff_count]
    intro i
    rw [count_expand hc.irr_nodup (fun i => ks.count i)]
    split_ifs with hi
    · rfl
    · exact List.count_eq_zero.2 fun hmem => hi (hks i hmem)

/-- The vectorised linear system is the commutation relation. -/
theorem equation_iff {n : ℕ} (A P : Mat) (x : ℕ → ℝ) :
    (∀ a < n * n, mulVec (n * n) (cobEquation n A P) x a = 0) ↔ MEq n n (mul n A (reshapeF n x)) (mul n (reshapeF n x) P) := by
  have key : ∀ i < n, ∀ j < n, mulVec (n * n) (cobEquation n A P) x (i + n * j)
      = mul n A (reshapeF n x) i j - mul n (reshapeF n x) P i j := by
    intro i hi j hj
    have hn : 0 < n := by omega
    have hd : (i + n * j) / n = j := by rw [Nat.add_mul_div_left _ _ hn, Nat.div_eq_of_lt hi, zero_add]
    have hm : (i + n * j) % n = i := by rw [Nat.add_mul_mod_self_left, Nat.mod_eq_of_lt hi]
    simp only [mulVec, cobEquation, kronsum, hd, hm, add_mul, Finset.sum_add_distrib]
    have split : ∀ F : ℕ → ℝ, ∑ b ∈ range (n * n), F b = ∑ q ∈ range n, ∑ p ∈ range n, F (p + n * q) := by
      intro F
      rw [Finset.sum_range, Finset.sum_range, ← finProdFinEquiv.sum_comp, Fintype.sum_prod_type]
      refine Finset.sum_congr rfl fun q _ => ?_
      rw [Finset.sum_range]
      rfl
    rw [split, split]
    have e1 : ∀ q ∈ range n, ∑ p ∈ range n, (if j = (p + n * q) / n then A i ((p + n * q) % n) else 0) * x (p + n * q)
        = if j = q then ∑ p ∈ range n, A i p * x (p + n * q) else 0 := by
      intro q _
      split_ifs with h
      · refine Finset.sum_congr rfl fun p hp => ?_
        have hp' := mem_range.1 hp
        rw [Nat.add_mul_div_left _ _ hn, Nat.div_eq_of_lt hp', zero_add, if_pos h, Nat.add_mul_mod_self_left, Nat.mod_eq_of_lt hp']
      · refine Finset.sum_eq_zero fun p hp => ?_
        have hp' := mem_range.1 hp
        rw [Nat.add_mul_div_left _ _ hn, Nat.div_eq_of_lt hp', zero_add, if_neg h, zero_mul]
    have e2 : ∀ q ∈ range n, ∑ p ∈ range n, (if i = (p + n * q) % n then -1 * P ((p + n * q) / n) j else 0) * x (p + n * q)
        = -(x (i + n * q) * P q j) := by
      intro q _
      rw [Finset.sum_eq_single i]
      · rw [Nat.add_mul_mod_self_left, Nat.mod_eq_of_lt hi, if_pos rfl, Nat.add_mul_div_left _ _ hn, Nat.div_eq_of_lt hi, zero_add]
        ring
      · intro p hp hpi
        rw [Nat.add_mul_mod_self_left, Nat.mod_eq_of_lt (mem_range.1 hp), if_neg (Ne.symm hpi), zero_mul]
      · intro h; exact absurd (mem_range.2 hi) h
    rw [Finset.sum_congr rfl e1, Finset.sum_congr rfl e2, Finset.sum_ite_eq, if_pos (mem_range.2 hj), Finset.sum_neg_distrib]
    rfl
  constructor
  · intro h i hi j hj
    have hlt : i + n * j < n * n := by
      calc i + n * j < n + n * j := by omega
        _ = n * (j + 1) := by ring
        _ ≤ n * n := Nat.mul_le_mul_left _ hj
    have := h _ hlt
    rw [key i hi j hj] at this
    linarith
  · intro h a ha
    have hn : 0 < n := by
      rcases Nat.eq_zero_or_pos n with h0 | h0
      · subst h0; simp at ha
      · exact h0
    have h1 : a % n < n := Nat.mod_lt _ hn
    have h2 : a / n < n := Nat.div_lt_of_lt_mul ha
    have := key _ h1 _ h2
    rw [Nat.mod_add_div] at this
    rw [this, h _ h1 _ h2, sub_self]

/-- The vector in the order of `reshapeF`. -/
def flattenF (n : ℕ) (D : Mat) : ℕ → ℝ := fun a => D (a % n) (a / n)

theorem reshape_flatten (n : ℕ) (D : Mat) : MEq n n (reshapeF n (flattenF n D)) D := by
  intro i hi j hj
  have hn : 0 < n := by omega
  simp only [reshapeF, flattenF]
  rw [Nat.add_mul_mod_self_left, Nat.mod_eq_of_lt hi, Nat.add_mul_div_left _ _ hn, Nat.div_eq_of_lt hi, zero_add]

/-- What the numerical search has to return: a solution of the linear system (an element of its null space) which is invertible as a
matrix.  `find_orthogonal_matrix` looks for an orthogonal one. -/
structure IsSolution (els : List El) (n : ℕ) (ρ : El → Mat) (irs : List (Irrep El)) (x : ℕ → ℝ) : Prop where
  null : ∀ e ∈ els, ∀ a < n * n, mulVec (n * n) (cobEquation n (ρ e) (Repr.blocks irs e)) x a = 0
  inv : ∃ E, IsInv n (reshapeF n x) E

theorem IsInv_congr {n : ℕ} {A B E : Mat} (h : MEq n n A B) (hi : IsInv n B E) : IsInv n A E :=
  ⟨(MEq.mul h (MEq.refl _)).trans hi.1, (MEq.mul (MEq.refl _) h).trans hi.2⟩

/-- `compute_change_of_basis` accepts every solution, and what it returns is a decomposition. -/
theorem computeCob_of {irreps : List (Irrep El)} {els : List El} (hc : IrrepTable G els irreps) {n : ℕ} {ρ : El → Mat}
    {irs : List (Irrep El)} {D Dinv : Mat} (h : IsDecomposition G n ρ irs D Dinv) {x : ℕ → ℝ} (hx : n = 1 ∨ IsSolution els n ρ irs x) :
    ∃ D', computeCob els n ρ irs x = some D' ∧ IsDecomposition G n ρ irs D' (Mat.inv n D') := by
  have hs : (irs.map Irrep.size).sum = n := h.size
  unfold computeCob
  rw [hs]
  by_cases h1 : n = 1
  · subst h1
    -- one dimensional: conjugation does nothing
    have hd : D 0 0 * Dinv 0 0 = 1 := by
      have := h.inv.1 0 (by omega) 0 (by omega)
      simpa [mul, Mat.one] using this
    have hval : ∀ g, G.isEl g → ρ g 0 0 = Repr.blocks irs g 0 0 := by
      intro g hg
      have := h.eq g hg 0 (by omega) 0 (by omega)
      simp only [mul, Finset.sum_range_one] at this
      rw [this]
      linear_combination (Repr.blocks irs g 0 0) * hd
    rw [if_pos rfl, if_pos]
    · refine ⟨_, rfl, hs, ?_, fun g hg => ?_⟩
      · refine isInv_inv (B := fun _ _ => 1) (isInv_of_left ?_)
        intro i hi j hj
        obtain rfl : i = 0 := by omega
        obtain rfl : j = 0 := by omega
        simp [mul, Mat.one]
      · have hone : Mat.inv 1 (fun _ _ => (1 : ℝ)) 0 0 = 1 := by
          have hI : IsInv 1 (fun _ _ => (1 : ℝ)) (Mat.inv 1 fun _ _ => 1) := by
            refine isInv_inv (B := fun _ _ => 1) (isInv_of_left ?_)
            intro i hi j hj
            obtain rfl : i = 0 := by omega
            obtain rfl : j = 0 := by omega
            simp [mul, Mat.one]
          have := hI.1 0 (by omega) 0 (by omega)
          simpa [mul, Mat.one] using this
        intro i hi j hj
        obtain rfl : i = 0 := by omega
        obtain rfl : j = 0 := by omega
        simp [mul, hone, hval g hg]
    · intro e he
      simp [cobEquation, kronsum, hval e ((hc.mem e).1 he)]
  · have hx := hx.resolve_left h1
    rw [if_neg (by
      intro h2
      exact h1 (Nat.eq_one_of_mul_eq_one_right h2)), if_neg (by simp)]
    obtain ⟨E, hE⟩ := hx.inv
    have hinv := isInv_inv hE
    have hint : Inter G n ρ n (Repr.blocks irs) (reshapeF n x) := fun g hg =>
      (equation_iff _ _ _).1 (hx.null g ((hc.mem g).2 hg))
    have heq : ∀ g, G.isEl g → MEq n n (ρ g) (mul n (mul n (reshapeF n x) (Repr.blocks irs g)) (Mat.inv n (reshapeF n x))) :=
      fun g hg => hint.eq_conj hinv hg
    dsimp only
    rw [if_pos ⟨hinv, fun e he => heq e ((hc.mem e).1 he)⟩]
    exact ⟨_, rfl, hs, hinv, heq⟩

theorem computeCob_sound {irreps : List (Irrep El)} {els : List El} (hc : IrrepTable G els irreps) {n : ℕ} {ρ : El → Mat}
    {irs : List (Irrep El)} {x : ℕ → ℝ} {D : Mat} (h : computeCob els n ρ irs x = some D) : IsDecomposition G n ρ irs D (Mat.inv n D) := by
  unfold computeCob at h
  split_ifs at h with h1 h2 h3 h4
  · have hn : n = 1 := Nat.eq_one_of_mul_eq_one_right h1
    have hs : (irs.map Irrep.size).sum = 1 := Nat.eq_one_of_mul_eq_one_left h1
    subst hn
    cases h
    have hI : IsInv 1 (fun _ _ => (1 : ℝ)) (Mat.inv 1 fun _ _ => 1) := by
      refine isInv_inv (B := fun _ _ => 1) (isInv_of_left ?_)
      intro i hi j hj
      obtain rfl : i = 0 := by omega
      obtain rfl : j = 0 := by omega
      simp [mul, Mat.one]
    have hone : Mat.inv 1 (fun _ _ => (1 : ℝ)) 0 0 = 1 := by
      have := hI.1 0 (by omega) 0 (by omega)
      simpa [mul, Mat.one] using this
    refine ⟨hs, hI, fun g hg => ?_⟩
    have := h2 g ((hc.mem g).2 hg)
    intro i hi j hj
    obtain rfl : i = 0 := by omega
    obtain rfl : j = 0 := by omega
    simp [cobEquation, kronsum] at this
    simp [mul, hone]
    linarith
  · dsimp only at h
    split_ifs at h with h4
    cases h
    exact ⟨not_not.1 h3, h4.1, fun g hg => h4.2 g ((hc.mem g).2 hg)⟩

/-- The claims of C58 for a group with its irreps, for a representation `ρ` of size `n`. -/
structure Decomposes (G : Grp El) (els : List El) (irreps : List (Irrep El)) (n : ℕ) (ρ : El → Mat) : Prop where
  /-- The multiplicities are natural numbers, one for each irrep of the group, in the order of the irreps. -/
  mult : ∃ m : Irrep El → ℕ, decomposeMult G els irreps n ρ = some (irreps.map fun i => (i, ((m i : ℕ) : ℤ))) ∧
    -- the representation does decompose with these multiplicities, in any order of the irreps
    (∀ ms, ms.Perm (irreps.map fun i => (i, ((m i : ℕ) : ℤ))) → ∃ D Dinv, IsDecomposition G n ρ (expandMult ms) D Dinv) ∧
    -- and with an orthogonal change of basis if it is orthogonal
    (IsOrthRep G n ρ → ∀ ms, ms.Perm (irreps.map fun i => (i, ((m i : ℕ) : ℤ))) → ∃ D, IsDecomposition G n ρ (expandMult ms) D (tr D)) ∧
    -- and in no other way
    ∀ ks D Dinv, (∀ i ∈ ks, i ∈ irreps) → IsDecomposition G n ρ ks D Dinv → ks.Perm (expandMult (irreps.map fun i => (i, ((m i : ℕ) : ℤ))))

theorem decomposes {irreps : List (Irrep El)} {els : List El} (hc : IrrepTable G els irreps) {n : ℕ} {ρ : El → Mat} (hρ : IsRep G n ρ) :
    Decomposes G els irreps n ρ := by
  classical
  obtain ⟨r, hr, hri⟩ := hc.reg
  obtain ⟨ks, D, hks, hs, hD, hint⟩ := exists_decomposition hc.lawful hc.nodup hc.mem hr (fun i hi => hc.irred i (hri i hi)) hρ
  have hks' : ∀ i ∈ ks, i ∈ irreps := fun i hi => hri i (hks i hi)
  have hdec : IsDecomposition G n ρ ks D (Mat.inv n D) := ⟨hs, hD, fun g hg => hint.eq_conj hD hg⟩
  obtain ⟨h1, h2⟩ := decomposeMult_of hc hks' hdec
  refine ⟨⟨fun i => ks.count i, h1, ?_, ?_, ?_⟩⟩
  · intro ms hms
    obtain ⟨P, hP⟩ := hdec.perm (h2.trans (perm_expand hms).symm)
    exact ⟨_, _, hP⟩
  · intro ho ms hms
    obtain ⟨ks', D', hks'', hs', hD', hint'⟩ := exists_orth_decomposition hc.lawful hc.nodup hc.mem hr (fun i hi => hc.irred i (hri i hi))
      (fun i hi => hc.orth i (hri i hi)) ho
    have hdec' : IsDecomposition G n ρ ks' D' (tr D') := ⟨hs', hD', fun g hg => hint'.eq_conj hD' hg⟩
    obtain ⟨h1', h2'⟩ := decomposeMult_of hc (fun i hi => hri i (hks'' i hi)) hdec'
    rw [h1, Option.some.injEq] at h1'
    rw [h1'] at hms
    obtain ⟨P, hP⟩ := hdec'.perm (h2'.trans (perm_expand hms).symm)
    refine ⟨mul n D' P, ?_⟩
    rw [tr_mul]
    exact hP
  · intro ks' D' Dinv' hk' hdec'
    obtain ⟨h1', h2'⟩ := decomposeMult_of hc hk' hdec'
    rw [h1, Option.some.injEq] at h1'
    rw [h1']
    exact h2'

/-- Nothing in `build_from_discrete_group_representation` fails if the numerical search finds a solution, and the representation built has the
given matrices and their trace as character.  Solutions exist, and orthogonal ones if the given matrices are orthogonal. -/
structure Builds (G : Grp El) (els : List El) (irreps : List (Irrep El)) (srt : List (Irrep El × ℤ) → List (Irrep El × ℤ)) (n : ℕ)
    (ρ : El → Mat) : Prop where
  solvable : ∃ ms, decomposeMult G els irreps n ρ = some ms ∧ (∃ x, IsSolution els n ρ (expandMult (srt ms)) x) ∧
    (IsOrthRep G n ρ → ∃ x, IsSolution els n ρ (expandMult (srt ms)) x ∧ IsInv n (reshapeF n x) (tr (reshapeF n x)))
  builds : ∀ solve, (∀ ms, decomposeMult G els irreps n ρ = some ms → n = 1 ∨ IsSolution els n ρ (expandMult (srt ms)) (solve (expandMult (srt ms)))) →
    ∃ r χ, buildFromDiscrete G els irreps srt solve n ρ = some (r, χ)
  spec : ∀ solve r χ, buildFromDiscrete G els irreps srt solve n ρ = some (r, χ) →
    r.WF ∧ r.size = n ∧ (∀ i ∈ r.irreps, i ∈ irreps) ∧
      ∀ g, G.isEl g → MEq n n (r.mat g) (ρ g) ∧ χ g = Mat.trace n (ρ g)

theorem sum_expand (f : Irrep El → ℝ) (ms : List (Irrep El × ℤ)) (h : ∀ p ∈ ms, 0 ≤ p.2) :
    ((expandMult ms).map f).sum = (ms.map fun p => (p.2 : ℝ) * f p.1).sum := by
  induction ms with
  | nil => simp [expandMult]
  | cons p ms ih =>
    have ih := ih fun q hq => h q (List.mem_cons_of_mem _ hq)
    simp only [expandMult, List.flatMap_cons, List.map_append, List.sum_append, List.map_cons, List.sum_cons, List.map_replicate,
      List.sum_replicate, nsmul_eq_mul] at ih ⊢
    rw [ih]
    congr 2
    have := Int.toNat_of_nonneg (h p List.mem_cons_self)
    exact_mod_cast this

theorem builds {irreps : List (Irrep El)} {els : List El} (hc : IrrepTable G els irreps) {srt : List (Irrep El × ℤ) → List (Irrep El × ℤ)}
    (hsrt : ∀ l, (srt l).Perm l) {n : ℕ} {ρ : El → Mat} (hρ : IsRep G n ρ) : Builds G els irreps srt n ρ := by
  obtain ⟨m, hm, hdec, horth, -⟩ := (decomposes hc hρ).mult
  have hsol : ∀ D Dinv, IsDecomposition G n ρ (expandMult (srt (irreps.map fun i => (i, ((m i : ℕ) : ℤ))))) D Dinv →
      IsSolution els n ρ (expandMult (srt (irreps.map fun i => (i, ((m i : ℕ) : ℤ))))) (flattenF n D) := by
    intro D Dinv h
    refine ⟨fun e he => (equation_iff _ _ _).2 ?_, Dinv, IsInv_congr (reshape_flatten n D) h.inv⟩
    refine (MEq.mul (MEq.refl _) (reshape_flatten n D)).trans ((h.inter e ((hc.mem e).1 he)).trans ?_)
    exact MEq.mul (reshape_flatten n D).symm (MEq.refl _)
  refine ⟨⟨_, hm, ?_, ?_⟩, ?_, ?_⟩
  · obtain ⟨D, Dinv, h⟩ := hdec _ (hsrt _)
    exact ⟨_, hsol D Dinv h⟩
  · intro ho
    obtain ⟨D, h⟩ := horth ho _ (hsrt _)
    refine ⟨_, hsol D _ h, ?_⟩
    have h1 := reshape_flatten n D
    refine ⟨(MEq.mul h1 h1.tr).trans h.inv.1, (MEq.mul h1.tr h1).trans h.inv.2⟩
  · intro solve hs
    obtain ⟨D, Dinv, h⟩ := hdec _ (hsrt _)
    obtain ⟨D', hD', -⟩ := computeCob_of hc h (hs _ hm)
    unfold buildFromDiscrete decompose
    rw [hm]
    dsimp only
    rw [hD']
    exact ⟨_, _, rfl⟩
  · intro solve r χ hb
    unfold buildFromDiscrete decompose at hb
    rw [hm] at hb
    dsimp only at hb
    cases hD : computeCob els n ρ (expandMult (srt (irreps.map fun i => (i, ((m i : ℕ) : ℤ)))))
        (solve (expandMult (srt (irreps.map fun i => (i, ((m i : ℕ) : ℤ)))))) with
    | none => rw [hD] at hb; cases hb
    | some D =>
      rw [hD] at hb
      dsimp only at hb
      rw [Option.some.injEq, Prod.mk.injEq] at hb
      obtain ⟨rfl, rfl⟩ := hb
      have hd := computeCob_sound hc hD
      set ms := srt (irreps.map fun i => (i, ((m i : ℕ) : ℤ))) with hms
      have hsize : ((expandMult ms).map Irrep.size).sum = n := hd.size
      have hmem : ∀ i ∈ expandMult ms, i ∈ irreps := by
        intro i hi
        obtain ⟨p, hp, hi⟩ := List.mem_flatMap.1 hi
        rw [List.eq_of_mem_replicate hi]
        obtain ⟨k, hk, rfl⟩ := List.mem_map.1 ((hsrt _).mem_iff.1 hp)
        exact hk
      refine ⟨?_, hsize, hmem, fun g hg => ⟨?_, ?_⟩⟩
      · rw [Repr.WF, Repr.mk', Repr.size]
        simp only [hsize]
        exact hd.inv
      · have := (hd.eq g hg).symm
        rw [Repr.mat, Repr.mk', Repr.size]
        simp only [hsize]
        exact this
      · have h1 := hd.character hc hmem hg
        have h2 : repCharacter n ρ g = Mat.trace n (ρ g) := rfl
        rw [← h2, h1, sum_expand (fun k => k.character g)]
        intro p hp
        obtain ⟨k, hk, rfl⟩ := List.mem_map.1 ((hsrt _).mem_iff.1 hp)
        exact Int.natCast_nonneg _

end

/-- **C58, C_N.** For every representation of `C_N` by matrices, the multiplicities found from the characters are natural numbers, the
representation does decompose into the irreps with those multiplicities, orthogonally if it is orthogonal, and in no other way. -/
theorem c58_cyclic_decompose (N : ℕ) (hN : 0 < N) (n : ℕ) (ρ : ℤ → Mat) (hρ : IsRep (Cyclic.grp N) n ρ) :
    Decomposes (Cyclic.grp N) (Cyclic.elements N) (Cyclic.irreps N) n ρ := decomposes (Cyclic.complete hN) hρ

/-- **C58, D_N.** -/
theorem c58_dihedral_decompose (N : ℕ) (hN : 0 < N) (n : ℕ) (ρ : ℤ × ℤ → Mat) (hρ : IsRep (Dihedral.grp N) n ρ) :
    Decomposes (Dihedral.grp N) (Dihedral.elements N) (Dihedral.irreps N) n ρ := decomposes (Dihedral.complete hN) hρ

/-- **C58, building a representation from its matrices, C_N.**  In whatever order the irreps are sorted, the linear system has an invertible
solution, an orthogonal one for orthogonal matrices; whatever invertible solution the numerical search returns, the assertions pass; and the
result has the given matrices and their trace as character. -/
theorem c58_cyclic_build (N : ℕ) (hN : 0 < N) (srt : List (Irrep ℤ × ℤ) → List (Irrep ℤ × ℤ)) (hsrt : ∀ l, (srt l).Perm l) (n : ℕ)
    (ρ : ℤ → Mat) (hρ : IsRep (Cyclic.grp N) n ρ) : Builds (Cyclic.grp N) (Cyclic.elements N) (Cyclic.irreps N) srt n ρ :=
  builds (Cyclic.complete hN) hsrt hρ

/-- **C58, building a representation from its matrices, D_N.** -/
theorem c58_dihedral_build (N : ℕ) (hN : 0 < N) (srt : List (Irrep (ℤ × ℤ) × ℤ) → List (Irrep (ℤ × ℤ) × ℤ)) (hsrt : ∀ l, (srt l).Perm l)
    (n : ℕ) (ρ : ℤ × ℤ → Mat) (hρ : IsRep (Dihedral.grp N) n ρ) :
    Builds (Dihedral.grp N) (Dihedral.elements N) (Dihedral.irreps N) srt n ρ := builds (Dihedral.complete hN) hsrt hρ

/-- A representation which is not given as a direct sum: the four matrices of the permutation representation of `C_4`, which are the regular
representation, satisfy the hypothesis. -/
example : ∃ ρ : ℤ → Mat, IsRep (Cyclic.grp 4) 4 ρ ∧ ρ 1 0 3 = 1 ∧ ρ 1 0 0 = 0 := by
  obtain ⟨r, -, h2, h3⟩ := c12_cyclic_regular 4 (by norm_num)
  have hs : r.size = 4 := h2.size
  have hrep : IsRep (Cyclic.grp 4) r.size r.mat := Repr.mat_isRep (Cyclic.grp 4) r h2.wf fun i hi => by
    rw [h3] at hi
    obtain ⟨k, hk⟩ := Cyclic.exists_of_mem_irreps hi
    exact (Cyclic.irrep_isOrthRep (by norm_num) hk).toIsRep
  rw [hs] at hrep
  have hel : (Cyclic.grp 4).isEl 1 := (Cyclic.isEl_one (N := 4) (by norm_num)).1
  refine ⟨r.mat, hrep, ?_, ?_⟩
  · rw [h2.mat 1 hel 0 (by decide) 3 (by decide), if_pos (by decide)]
  · rw [h2.mat 1 hel 0 (by decide) 0 (by decide), if_neg (by decide)]

end E2
