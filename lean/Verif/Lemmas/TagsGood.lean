import Verif.Lemmas.TagsLib
import Verif.Props.TagSpec

/-!
# The operations on representations keep the promises of the strings
-/

namespace E2

open Mat

section TagOk

variable {El : Type} {G : Grp El} {n : ℕ} {ρ : El → Mat}

theorem tagOk_inducedNorm {k : ℕ} : TagOk G n ρ (.inducedNorm k) ↔ 0 < k ∧ k ∣ n ∧ ∀ e, G.isEl e → BlockMono (n / k) k (Orth k) (ρ e) := Iff.rfl

theorem tagOk_inducedGated {k : ℕ} : TagOk G n ρ (.inducedGated k) ↔ 0 < k ∧ k ∣ n ∧ ∀ e, G.isEl e → BlockMono (n / k) k (fun _ => True) (ρ e) := by
  simp only [TagOk, movesBlocks_iff]

theorem orth_one_iff {M : Mat} : Orth 1 M ↔ M 0 0 = 1 ∨ M 0 0 = -1 := by
  constructor
  · intro h
    have := h 0 one_pos 0 one_pos
    simp only [Mat.mul, Finset.sum_range_one, tr, Mat.one, if_true] at this
    exact mul_self_eq_one_iff.1 this
  · intro h i hi j hj
    obtain rfl : i = 0 := by omega
    obtain rfl : j = 0 := by omega
    simp only [Mat.mul, Finset.sum_range_one, tr, Mat.one, if_true]
    exact mul_self_eq_one_iff.2 h

theorem tagOk_inducedNorm_one : TagOk G n ρ (.inducedNorm 1) ↔ ∀ e, G.isEl e → SPerm n {1, -1} (ρ e) := by
  rw [tagOk_inducedNorm, Nat.div_one]
  have : Orth 1 = fun O => O 0 0 ∈ ({1, -1} : Set ℝ) := by
    funext O
    rw [orth_one_iff]
    rfl
  simp only [zero_lt_one, one_dvd, true_and, sPerm_iff_blockMono, this]

theorem tagOk_inducedGated_one : TagOk G n ρ (.inducedGated 1) ↔ ∀ e, G.isEl e → SPerm n Set.univ (ρ e) := by
  rw [tagOk_inducedGated, Nat.div_one]
  simp only [zero_lt_one, one_dvd, true_and, sPerm_iff_blockMono, Set.mem_univ]

theorem TagOk.congr {ρ' : El → Mat} {t : Tag} (h : TagOk G n ρ t) (he : ∀ e, G.isEl e → MEq n n (ρ e) (ρ' e)) : TagOk G n ρ' t := by
  cases t with
  | pointwise => exact fun e h' => isPerm_iff_sPerm.2 ((isPerm_iff_sPerm.1 (h e h')).congr (he e h'))
  | norm => exact fun e h' => (h e h').congr (he e h')
  | gated => trivial
  | gate => exact fun e h' => (he e h').symm.trans (h e h')
  | concatenated => exact fun e h' => isSignedPerm_iff_sPerm.2 ((isSignedPerm_iff_sPerm.1 (h e h')).congr (he e h'))
  | vectorfield => trivial
  | inducedGate => exact fun e h' => isPerm_iff_sPerm.2 ((isPerm_iff_sPerm.1 (h e h')).congr (he e h'))
  | inducedNorm k =>
    rw [tagOk_inducedNorm] at h ⊢
    exact ⟨h.1, h.2.1, fun e h' => (h.2.2 e h').congr (by rw [Nat.div_mul_cancel h.2.1]; exact he e h')⟩
  | inducedGated k =>
    rw [tagOk_inducedGated] at h ⊢
    exact ⟨h.1, h.2.1, fun e h' => (h.2.2 e h').congr (by rw [Nat.div_mul_cancel h.2.1]; exact he e h')⟩

theorem TagOk.pull {El' : Type} {H : Grp El'} {p : El' → El} (hp : ∀ e, H.isEl e → G.isEl (p e)) {t : Tag} (h : TagOk G n ρ t) :
    TagOk H n (fun e => ρ (p e)) t := by
  cases t with
  | pointwise => exact fun e h' => h _ (hp e h')
  | norm => exact fun e h' => h _ (hp e h')
  | gated => trivial
  | gate => exact fun e h' => h _ (hp e h')
  | concatenated => exact fun e h' => h _ (hp e h')
  | vectorfield => trivial
  | inducedGate => exact fun e h' => h _ (hp e h')
  | inducedNorm k => exact ⟨h.1, h.2.1, fun e h' => h.2.2 _ (hp e h')⟩
  | inducedGated k => exact ⟨h.1, h.2.1, fun e h' => h.2.2 _ (hp e h')⟩

/-- Permutations keep all promises, with subfields of one channel. -/
theorem tagOk_of_perm (h : ∀ e, G.isEl e → IsPerm n (ρ e)) {t : Tag} (ht : t ≠ .gate) (hd : t.Divisible) : TagOk G n ρ t := by
  cases t with
  | pointwise => exact h
  | norm => exact fun e h' => (h e h').signed.orth
  | gated => trivial
  | gate => exact absurd rfl ht
  | concatenated => exact fun e h' => (h e h').signed
  | vectorfield => trivial
  | inducedGate => exact h
  | inducedNorm k =>
    obtain rfl : k = 1 := hd
    exact tagOk_inducedNorm_one.2 fun e h' => isSignedPerm_iff_sPerm.1 (h e h').signed
  | inducedGated k =>
    obtain rfl : k = 1 := hd
    exact tagOk_inducedGated_one.2 fun e h' => (isPerm_iff_sPerm.1 (h e h')).mono (Set.subset_univ _)

theorem tagOk_bdiag {l : List (Repr El)} (hne : l ≠ []) {t : Tag} (h : ∀ r ∈ l, TagOk G r.size r.mat t) :
    TagOk G (total (l.map fun r => (r.size, Mat.one))) (fun e => bdiag (l.map fun r => (r.size, r.mat e))) t := by
  have htot : ∀ e, total (l.map fun r => (r.size, Mat.one)) = total (l.map fun r => (r.size, r.mat e)) := fun e => by
    simp [total, Function.comp_def]
  have hsp : ∀ S, (∀ r ∈ l, ∀ e, G.isEl e → SPerm r.size S (r.mat e)) → ∀ e, G.isEl e →
      SPerm (total (l.map fun r => (r.size, Mat.one))) S (bdiag (l.map fun r => (r.size, r.mat e))) := by
    intro S hS e he
    rw [htot e]
    refine SPerm.bdiag fun p hp => ?_
    obtain ⟨r, hr, rfl⟩ := List.mem_map.1 hp
    exact hS r hr e he
  have hbm : ∀ (k : ℕ) (Q : Mat → Prop), 0 < k → (∀ r ∈ l, k ∣ r.size ∧ ∀ e, G.isEl e → BlockMono (r.size / k) k Q (r.mat e)) →
      k ∣ total (l.map fun r => (r.size, Mat.one)) ∧ ∀ e, G.isEl e →
        BlockMono (total (l.map fun r => (r.size, Mat.one)) / k) k Q (bdiag (l.map fun r => (r.size, r.mat e))) := by
    intro k Q hk hQ
    refine ⟨?_, fun e he => ?_⟩
    · rw [total]
      refine List.dvd_sum fun x hx => ?_
      simp only [List.map_map, List.mem_map, Function.comp_apply] at hx
      obtain ⟨r, hr, rfl⟩ := hx
      exact (hQ r hr).1
    · rw [htot e]
      refine (blockMono_bdiag _ ?_ hk ?_).2
      · intro p hp
        obtain ⟨r, hr, rfl⟩ := List.mem_map.1 hp
        exact (hQ r hr).1
      · intro p hp
        obtain ⟨r, hr, rfl⟩ := List.mem_map.1 hp
        exact (hQ r hr).2 e he
  obtain ⟨r0, hr0⟩ := List.exists_mem_of_ne_nil l hne
  cases t with
  | pointwise => exact fun e h' => isPerm_iff_sPerm.2 (hsp {1} (fun r hr e he => isPerm_iff_sPerm.1 (h r hr e he)) e h')
  | norm =>
    intro e h'
    rw [htot e]
    refine orth_bdiag.2 fun p hp => ?_
    obtain ⟨r, hr, rfl⟩ := List.mem_map.1 hp
    exact h r hr e h'
  | gated => trivial
  | gate =>
    intro e h'
    rw [htot e]
    refine one_bdiag.2 fun p hp => ?_
    obtain ⟨r, hr, rfl⟩ := List.mem_map.1 hp
    exact h r hr e h'
  | concatenated => exact fun e h' => hsp {1, -1} (fun r hr e he => h r hr e he) e h'
  | vectorfield => trivial
  | inducedGate => exact fun e h' => isPerm_iff_sPerm.2 (hsp {1} (fun r hr e he => isPerm_iff_sPerm.1 (h r hr e he)) e h')
  | inducedNorm k =>
    exact ⟨(h r0 hr0).1, hbm k (Orth k) (h r0 hr0).1 fun r hr => ⟨(h r hr).2.1, (h r hr).2.2⟩⟩
  | inducedGated k =>
    rw [tagOk_inducedGated]
    refine ⟨(h r0 hr0).1, hbm k _ (h r0 hr0).1 fun r hr => ?_⟩
    have := tagOk_inducedGated.1 (h r hr)
    exact ⟨this.2.1, this.2.2⟩

end TagOk

/-! ### Disentangling -/

theorem SPerm.reindex {n : ℕ} {S : Set ℝ} {A B : Mat} (h : SPerm n S A) (s : Equiv.Perm (Fin n)) (hB : ∀ i j : Fin n, B i j = A (s i) (s j)) : SPerm n S B := by
  obtain ⟨σ, ε, hε, h⟩ := h
  refine ⟨s.trans (σ.trans s.symm), fun i => ε (s i), fun i => hε _, fun i j => ?_⟩
  rw [hB, h]
  simp only [Equiv.trans_apply, Equiv.eq_symm_apply]

theorem Orth.reindex {n : ℕ} {A B : Mat} (h : Orth n A) (s : Equiv.Perm (Fin n)) (hB : ∀ i j : Fin n, B i j = A (s i) (s j)) : Orth n B := by
  intro i hi j hj
  have := h (s ⟨i, hi⟩) (s ⟨i, hi⟩).2 (s ⟨j, hj⟩) (s ⟨j, hj⟩).2
  rw [Mat.mul, Finset.sum_range] at this ⊢
  rw [← Equiv.sum_comp s] at this
  have e : ∀ c : Fin n, tr B i c * B c j = tr A (s ⟨i, hi⟩) (s c) * A (s c) (s ⟨j, hj⟩) := fun c => by
    rw [tr, tr, ← hB c ⟨i, hi⟩, ← hB c ⟨j, hj⟩]
  simp only [e]
  rw [this, Mat.one, Mat.one]
  simp only [Fin.val_inj, s.injective.eq_iff, Fin.mk.injEq]

theorem one_reindex {n : ℕ} {A B : Mat} (h : MEq n n A Mat.one) (s : Equiv.Perm (Fin n)) (hB : ∀ i j : Fin n, B i j = A (s i) (s j)) :
    MEq n n B Mat.one := by
  intro i hi j hj
  rw [hB ⟨i, hi⟩ ⟨j, hj⟩, h _ (s _).2 _ (s _).2, Mat.one, Mat.one]
  simp only [Fin.val_inj, s.injective.eq_iff, Fin.mk.injEq]

/-- A matrix with an inverse has no zero row. -/
theorem SPerm.ne_zero {n : ℕ} {A B : Mat} (h : SPerm n Set.univ A) (hinv : MEq n n (Mat.mul n A B) Mat.one) : SPerm n {x | x ≠ 0} A := by
  obtain ⟨σ, ε, hε, h⟩ := h
  refine ⟨σ, ε, fun i hi => ?_, h⟩
  have := hinv i i.2 i i.2
  rw [Mat.mul, Finset.sum_range, Mat.one, if_pos rfl, Finset.sum_eq_zero] at this
  · exact zero_ne_one this
  · intro j _
    rw [h, hi]
    split_ifs <;> simp

theorem tagOk_of_bdiag {El : Type} {G : Grp El} {r : Repr El} {reps : List (Repr El)} {σ : ℕ → ℕ} (hs : (Repr.directsum reps).size = r.size)
    (hlt : ∀ i < r.size, σ i < r.size) (hinj : ∀ i < r.size, ∀ j < r.size, σ i = σ j → i = j)
    (hm : ∀ e, G.isEl e → ∀ i < r.size, ∀ j < r.size, (Repr.directsum reps).mat e i j = r.mat e (σ i) (σ j))
    (hinv : ∀ e, G.isEl e → ∃ B, MEq r.size r.size (Mat.mul r.size (r.mat e) B) Mat.one)
    {t : Tag} (hd : t.Divisible) (h : TagOk G r.size r.mat t) : ∀ s ∈ reps, TagOk G s.size s.mat t := by
  intro s hsr
  let f : Fin r.size → Fin r.size := fun i => ⟨σ i, hlt i i.2⟩
  have hf : Function.Injective f := fun i j hij => Fin.ext (hinj i i.2 j j.2 (Fin.mk.inj hij))
  let p : Equiv.Perm (Fin r.size) := Equiv.ofBijective f (Finite.injective_iff_bijective.1 hf)
  have hB : ∀ e, G.isEl e → ∀ i j : Fin r.size, (Repr.directsum reps).mat e i j = r.mat e (p i) (p j) := fun e he i j => hm e he i i.2 j j.2
  have htot : ∀ e, total (reps.map fun r => (r.size, r.mat e)) = r.size := fun e => by
    rw [← hs, Repr.directsum_size]
    simp [total, Function.comp_def]
  have hmem : ∀ e, (s.size, s.mat e) ∈ reps.map fun r => (r.size, r.mat e) := fun e => List.mem_map.2 ⟨s, hsr, rfl⟩
  have hsp : ∀ S : Set ℝ, (0 : ℝ) ∉ S → ∀ e, G.isEl e → SPerm r.size S (r.mat e) → SPerm s.size S (s.mat e) := by
    intro S hS e he h
    have := h.reindex p (hB e he)
    rw [Repr.directsum_mat, ← htot e] at this
    exact SPerm.of_bdiag hS this _ (hmem e)
  have hnz : (0 : ℝ) ∉ ({1, -1} : Set ℝ) := by norm_num
  cases t with
  | pointwise => exact fun e h' => isPerm_iff_sPerm.2 (hsp {1} (by norm_num) e h' (isPerm_iff_sPerm.1 (h e h')))
  | norm =>
    intro e h'
    have := Orth.reindex (h e h') p (hB e h')
    rw [Repr.directsum_mat, ← htot e] at this
    exact orth_bdiag.1 this _ (hmem e)
  | gated => trivial
  | gate =>
    intro e h'
    have := one_reindex (h e h') p (hB e h')
    rw [Repr.directsum_mat, ← htot e] at this
    exact one_bdiag.1 this _ (hmem e)
  | concatenated => exact fun e h' => hsp {1, -1} hnz e h' (h e h')
  | vectorfield => trivial
  | inducedGate => exact fun e h' => isPerm_iff_sPerm.2 (hsp {1} (by norm_num) e h' (isPerm_iff_sPerm.1 (h e h')))
  | inducedNorm k =>
    obtain rfl : k = 1 := hd
    rw [tagOk_inducedNorm_one] at h ⊢
    exact fun e h' => hsp _ hnz e h' (h e h')
  | inducedGated k =>
    obtain rfl : k = 1 := hd
    rw [tagOk_inducedGated_one] at h ⊢
    intro e h'
    obtain ⟨B, hb⟩ := hinv e h'
    exact (hsp {x | x ≠ 0} (by simp) e h' ((h e h').ne_zero hb)).mono (Set.subset_univ _)

/-! ### The concatenated nonlinearity -/

theorem IsSignedPerm.row {n : ℕ} {M : Mat} (h : IsSignedPerm n M) : ∀ i < n, ∃ e ε, SignedRow n M i e ε := by
  obtain ⟨σ, ε, hε, h⟩ := h
  intro i hi
  refine ⟨σ ⟨i, hi⟩, ε ⟨i, hi⟩, (σ _).2, hε _, fun j hj => ?_⟩
  rw [h ⟨i, hi⟩ ⟨j, hj⟩]
  simp only [Fin.ext_iff]

theorem concatMat_congr {n : ℕ} {A B : Mat} (h : MEq n n A B) : MEq (2 * n) (2 * n) (concatMat A) (concatMat B) := by
  intro a ha b hb
  unfold concatMat
  rw [h (a / 2) (by omega) (b / 2) (by omega)]

theorem concatMat_one {n : ℕ} : MEq (2 * n) (2 * n) (concatMat Mat.one) Mat.one := by
  intro a ha b hb
  unfold concatMat Mat.one
  by_cases h : a / 2 = b / 2
  · simp only [h, if_true]
    by_cases h' : a % 2 = b % 2
    · rw [if_pos h', if_pos (by omega)]
    · rw [if_neg h', if_neg (by omega)]
  · rw [if_neg h, if_neg (by norm_num), if_neg (by norm_num), if_neg (by rintro rfl; exact h rfl)]

/-- The representation built for a signed permutation is a permutation. -/
theorem IsSignedPerm.concatMat {n : ℕ} {M : Mat} (h : IsSignedPerm n M) : IsPerm (2 * n) (concatMat M) := by
  obtain ⟨σ, ε, hε, h⟩ := h
  have hrow : ∀ i : Fin n, SignedRow n M i (σ i) (ε i) := fun i => ⟨(σ i).2, hε i, fun j hj => by
    rw [h i ⟨j, hj⟩]; simp only [Fin.ext_iff]⟩
  let d : Fin (2 * n) → Fin n := fun a => ⟨a / 2, by omega⟩
  let f : Fin (2 * n) → Fin (2 * n) := fun a => ⟨concatCol (σ (d a)) (ε (d a)) a, concatCol_lt _ _ (σ (d a)).2⟩
  have hf : Function.Injective f := by
    intro a b hab
    have h1 : concatCol (σ (d a)) (ε (d a)) a = concatCol (σ (d b)) (ε (d b)) b := Fin.mk.inj hab
    have h2 : ∀ (e : ℕ) (ε : ℝ) (a : ℕ), concatCol e ε a / 2 = e := by
      intro e ε a
      unfold concatCol
      split <;> omega
    have h3 : d a = d b := by
      apply σ.injective
      apply Fin.ext
      rw [← h2 (σ (d a)) (ε (d a)) a, h1, h2]
    rw [h3] at h1
    have h4 : (a : ℕ) / 2 = b / 2 := Fin.mk.inj h3
    apply Fin.ext
    unfold concatCol at h1
    split at h1 <;> omega
  refine ⟨Equiv.ofBijective f (Finite.injective_iff_bijective.1 hf), fun a b => ?_⟩
  rw [concatMat_row (hrow (d a)) b.2]
  simp only [Equiv.ofBijective_apply, Fin.ext_iff, f]

theorem concat_isRep {El : Type} {G : Grp El} {n : ℕ} {ρ : El → Mat} (hρ : IsRep G n ρ) (h : ∀ e, G.isEl e → IsSignedPerm n (ρ e)) :
    IsRep G (2 * n) (fun e => concatMat (ρ e)) where
  one := (concatMat_congr hρ.one).trans concatMat_one
  mul a b ha hb := (concatMat_congr (hρ.mul a b ha hb)).trans (c33_concatenated_mul (h a ha).row (h b hb).row)

/-- What `_transform_representation` returns. -/
theorem LibConcat.ok {g : GName} {r r' : Repr g.El} (h : LibConcat g r r') (hg : g.Ok) (hρ : IsRep g.grp r.size r.mat)
    (hs : ∀ e, g.grp.isEl e → IsSignedPerm r.size (r.mat e)) :
    r'.WF ∧ r'.size = 2 * r.size ∧ (∀ i ∈ r'.irreps, g.IsIrr i) ∧ ∀ e, g.grp.isEl e → MEq (2 * r.size) (2 * r.size) (r'.mat e) (concatMat (r.mat e)) := by
  have hc := concat_isRep hρ hs
  cases h with
  | @cyc N r r' χ srt hsrt solve hok h =>
    obtain ⟨h1, h2, h3, h4⟩ := (c58_cyclic_build N hg srt hsrt _ _ hc).spec solve r' χ h
    exact ⟨h1, h2, fun i hi => Cyclic.exists_of_mem_irreps (h3 i hi), fun e he => (h4 e he).1⟩
  | @dih N r r' χ srt hsrt solve hok h =>
    obtain ⟨h1, h2, h3, h4⟩ := (c58_dihedral_build N hg srt hsrt _ _ hc).spec solve r' χ h
    exact ⟨h1, h2, fun i hi => Dihedral.exists_of_mem_irreps (h3 i hi), fun e he => (h4 e he).1⟩

end E2
