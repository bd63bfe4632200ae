import Verif.Props.ConcatBuildSpec
import Verif.Props.Tags
import Verif.Lemmas.ConcatBuild

/-!
# C103: the constructor of `ConcatenatedNonLinearity`
-/

namespace E2

open Mat

theorem mem_nonzeroCols {s : ℕ} {r : Mat} {i j : ℕ} : j ∈ nonzeroCols s r i ↔ j < s ∧ r i j ≠ 0 := by
  rw [nonzeroCols, List.mem_filter, List.mem_range]
  simp

theorem nonzeroCols_nodup (s : ℕ) (r : Mat) (i : ℕ) : (nonzeroCols s r i).Nodup := by
  rw [nonzeroCols]
  exact List.nodup_range.filter _

theorem nonzeroCols_length {s : ℕ} {r : Mat} {i : ℕ} : (nonzeroCols s r i).length ≤ 1 ↔ ∀ j < s, ∀ j' < s, r i j ≠ 0 → r i j' ≠ 0 → j = j' := by
  constructor
  · intro h j hj j' hj' h1 h2
    have m1 := mem_nonzeroCols.2 ⟨hj, h1⟩
    have m2 := mem_nonzeroCols.2 ⟨hj', h2⟩
    rcases hc : nonzeroCols s r i with _ | ⟨a, l⟩
    · rw [hc] at m1; simp at m1
    · rw [hc] at h m1 m2
      obtain rfl : l = [] := List.length_eq_zero_iff.1 (by rw [List.length_cons] at h; omega)
      rw [List.mem_singleton] at m1 m2
      rw [m1, m2]
  · intro h
    by_contra hl
    rcases hc : nonzeroCols s r i with _ | ⟨a, _ | ⟨b, l⟩⟩
    · rw [hc] at hl; simp at hl
    · rw [hc] at hl; simp at hl
    · have hn := nonzeroCols_nodup s r i
      have ma := (mem_nonzeroCols (s := s) (r := r) (i := i) (j := a)).1 (by rw [hc]; simp)
      have mb := (mem_nonzeroCols (s := s) (r := r) (i := i) (j := b)).1 (by rw [hc]; simp)
      rw [hc] at hn
      have := h a ma.1 b mb.1 ma.2 mb.2
      subst this
      simp at hn

/-- The value noted for a row. -/
theorem headCol_cases {s : ℕ} {r : Mat} {i : ℕ} (h : (nonzeroCols s r i).length ≤ 1) :
    (∃ j < s, r i j ≠ 0 ∧ ((nonzeroCols s r i).head?.map fun (j : ℕ) => (j : ℤ)).getD (-1) = j) ∨
      ((∀ j < s, r i j = 0) ∧ ((nonzeroCols s r i).head?.map fun (j : ℕ) => (j : ℤ)).getD (-1) = -1) := by
  rcases hc : nonzeroCols s r i with _ | ⟨a, l⟩
  · right
    refine ⟨fun j hj => ?_, by simp⟩
    by_contra hn
    have := mem_nonzeroCols.2 ⟨hj, hn⟩
    rw [hc] at this
    simp at this
  · left
    have ma := (mem_nonzeroCols (s := s) (r := r) (i := i) (j := a)).1 (by rw [hc]; simp)
    exact ⟨a, ma.1, ma.2, by simp⟩

theorem concatOk_iff {s : ℕ} {r : Mat} : ConcatOk s r ↔ SparseSigns s r := by
  constructor
  · rintro ⟨h1, h2, h3⟩
    have inj := (List.nodup_map_iff_inj_on List.nodup_range).1 h2
    refine ⟨h3, fun i hi => nonzeroCols_length.1 (h1 i hi), fun i hi i' hi' j hj e e' => ?_, fun i hi i' hi' e e' => ?_⟩
    · refine inj i (List.mem_range.2 hi) i' (List.mem_range.2 hi') ?_
      rcases headCol_cases (h1 i hi) with ⟨k, hk, hk1, hk2⟩ | ⟨hz, -⟩
      · rcases headCol_cases (h1 i' hi') with ⟨k', hk', hk1', hk2'⟩ | ⟨hz, -⟩
        · rw [hk2, hk2', nonzeroCols_length.1 (h1 i hi) k hk j hj hk1 e, nonzeroCols_length.1 (h1 i' hi') k' hk' j hj hk1' e']
        · exact absurd (hz j hj) e'
      · exact absurd (hz j hj) e
    · refine inj i (List.mem_range.2 hi) i' (List.mem_range.2 hi') ?_
      rcases headCol_cases (h1 i hi) with ⟨k, hk, hk1, -⟩ | ⟨-, hz⟩
      · exact absurd (e k hk) hk1
      · rcases headCol_cases (h1 i' hi') with ⟨k, hk, hk1, -⟩ | ⟨-, hz'⟩
        · exact absurd (e' k hk) hk1
        · rw [hz, hz']
  · rintro ⟨hv, hr, hc, hz⟩
    have h1 : ∀ i < s, (nonzeroCols s r i).length ≤ 1 := fun i hi => nonzeroCols_length.2 (hr i hi)
    refine ⟨h1, (List.nodup_map_iff_inj_on List.nodup_range).2 fun i hi i' hi' e => ?_, hv⟩
    rw [List.mem_range] at hi hi'
    rcases headCol_cases (h1 i hi) with ⟨k, hk, hk1, hk2⟩ | ⟨hz1, hz2⟩
    · rcases headCol_cases (h1 i' hi') with ⟨k', hk', hk1', hk2'⟩ | ⟨-, hz2'⟩
      · rw [hk2, hk2'] at e
        obtain rfl : k = k' := by exact_mod_cast e
        exact hc i hi i' hi' k hk hk1 hk1'
      · rw [hk2, hz2'] at e; omega
    · rcases headCol_cases (h1 i' hi') with ⟨k', hk', hk1', hk2'⟩ | ⟨hz1', -⟩
      · rw [hk2', hz2] at e; omega
      · exact hz i hi i' hi' hz1 hz1'

theorem isDoubled_concatMat (s : ℕ) (r : Mat) : IsDoubled s r (concatMat r) := by
  intro i hi j hj c hc d hd
  have e1 : (2 * i + c) / 2 = i := by omega
  have e2 : (2 * j + d) / 2 = j := by omega
  have e3 : (2 * i + c) % 2 = c := by omega
  have e4 : (2 * j + d) % 2 = d := by omega
  unfold concatMat
  rw [e1, e2, e3, e4]
  by_cases h1 : r i j = 1
  · have : ¬ r i j = -1 := by rw [h1]; norm_num
    rw [if_pos h1]
    by_cases h : c = d
    · rw [if_pos h, if_pos (Or.inl ⟨h1, h⟩)]
    · rw [if_neg h, if_neg]
      rintro (⟨-, h'⟩ | ⟨h', -⟩)
      · exact h h'
      · exact this h'
  · rw [if_neg h1]
    by_cases h2 : r i j = -1
    · rw [if_pos h2]
      by_cases h : c = d
      · rw [if_pos h, if_neg]
        rintro (⟨h', -⟩ | ⟨-, h'⟩)
        · exact h1 h'
        · exact h' h
      · rw [if_neg h, if_pos (Or.inr ⟨h2, h⟩)]
    · rw [if_neg h2, if_neg]
      rintro (⟨h', -⟩ | ⟨h', -⟩)
      · exact h1 h'
      · exact h2 h'

theorem isDoubled_iff {s : ℕ} {r M : Mat} : IsDoubled s r M ↔ MEq (2 * s) (2 * s) M (concatMat r) := by
  constructor
  · intro h a ha b hb
    have e1 : 2 * (a / 2) + a % 2 = a := by omega
    have e2 : 2 * (b / 2) + b % 2 = b := by omega
    have h1 := h (a / 2) (by omega) (b / 2) (by omega) (a % 2) (by omega) (b % 2) (by omega)
    have h2 := isDoubled_concatMat s r (a / 2) (by omega) (b / 2) (by omega) (a % 2) (by omega) (b % 2) (by omega)
    rw [e1, e2] at h1 h2
    rw [h1, h2]
  · intro h i hi j hj c hc d hd
    rw [h _ (by omega) _ (by omega)]
    exact isDoubled_concatMat s r i hi j hj c hc d hd

/-- **C103, the checks of one matrix.**  The loops raise exactly if an entry is not 1, -1 or 0, or two entries of a row or a column are not 0, or two rows are
0.  Otherwise the result is the matrix with 2×2 blocks described in the documentation. -/
theorem c103_element (s : ℕ) (r : Mat) :
    ((∃ M, concatElement s r = some M) ↔ SparseSigns s r) ∧ ∀ M, concatElement s r = some M → IsDoubled s r M :=
  ⟨⟨fun ⟨_, h⟩ => concatOk_iff.1 (concatElement_some h).1, fun h => concatElement_isSome (concatOk_iff.2 h)⟩,
    fun _ h => isDoubled_iff.2 (concatElement_some h).2⟩

theorem signedPerm_of_sparse {s : ℕ} {r : Mat} (h : SparseSigns s r) (hrow : ∀ i < s, ∃ j < s, r i j ≠ 0) : IsSignedPerm s r := by
  choose! c hc hne using hrow
  have hinj : Function.Injective fun i : Fin s => (⟨c i, hc i i.2⟩ : Fin s) := fun i i' e => by
    have e' : c i = c i' := Fin.mk.inj e
    exact Fin.ext (h.cols i i.2 i' i'.2 (c i) (hc i i.2) (hne i i.2) (by rw [e']; exact hne i' i'.2))
  refine ⟨Equiv.ofBijective _ (Finite.injective_iff_bijective.1 hinj), fun i => r i (c i), fun i => ?_, fun i j => ?_⟩
  · rcases h.values i i.2 (c i) (hc i i.2) with e | e | e
    · exact Or.inl e
    · exact Or.inr e
    · exact absurd e (hne i i.2)
  · rw [Equiv.ofBijective_apply]
    by_cases e : j = ⟨c i, hc i i.2⟩
    · rw [if_pos e, e]
    · rw [if_neg e]
      by_contra hn
      exact e (Fin.ext (h.rows i i.2 j j.2 (c i) (hc i i.2) hn (hne i i.2)))

theorem IsSignedPerm.sparse {s : ℕ} {r : Mat} (h : IsSignedPerm s r) : SparseSigns s r := by
  obtain ⟨σ, ε, hε, h⟩ := h
  exact concatOk_iff.1 (concatOk_signed σ ε hε h)

/-- **C103, invertible matrices.**  For an invertible matrix the loops return exactly if it is a permutation of the coordinates up to signs; the result is a
permutation. -/
theorem c103_invertible {s : ℕ} {r r' : Mat} (h : IsInv s r r') :
    ((∃ M, concatElement s r = some M) ↔ IsSignedPerm s r) ∧ ∀ M, concatElement s r = some M → IsPerm (2 * s) M := by
  have hrow : ∀ i < s, ∃ j < s, r i j ≠ 0 := by
    intro i hi
    by_contra hn
    push Not at hn
    have h1 := h.1 i hi i hi
    rw [Mat.mul, Finset.sum_eq_zero (fun j hj => by rw [hn j (Finset.mem_range.1 hj), zero_mul]), Mat.one, if_pos rfl] at h1
    norm_num at h1
  have key : ∀ M, concatElement s r = some M → IsSignedPerm s r := fun M hM =>
    signedPerm_of_sparse ((c103_element s r).1.1 ⟨M, hM⟩) hrow
  refine ⟨⟨fun ⟨M, hM⟩ => key M hM, fun hs => (c103_element s r).1.2 hs.sparse⟩, fun M hM => ?_⟩
  exact isPerm_iff_sPerm.2 ((isPerm_iff_sPerm.1 (key M hM).concatMat).congr (concatElement_some hM).2.symm)

/-- A matrix with one row of zeros passes the checks although it is no permutation up to signs.  (The matrices of a representation are invertible.) -/
theorem c103_zero_row : ∃ r M : Mat, concatElement 2 r = some M ∧ ¬ IsSignedPerm 2 r := by
  have hs : SparseSigns 2 (m2 1 0 0 0) := by
    refine ⟨?_, ?_, ?_, ?_⟩
    · intro i hi j hj
      interval_cases i <;> interval_cases j <;> norm_num [m2]
    · intro i hi j hj j' hj' h1 h2
      interval_cases i <;> interval_cases j <;> interval_cases j' <;>
        first | rfl | (norm_num [m2] at h1; done) | (norm_num [m2] at h2; done)
    · intro i hi j hj j' hj' h1 h2
      interval_cases i <;> interval_cases j <;> interval_cases j' <;>
        first | rfl | (norm_num [m2] at h1; done) | (norm_num [m2] at h2; done)
    · intro i hi i' hi' h1 h2
      have a1 := h1 0 (by omega)
      have a2 := h2 0 (by omega)
      interval_cases i <;> interval_cases i' <;> first | rfl | (norm_num [m2] at a1; done) | (norm_num [m2] at a2; done)
  obtain ⟨M, hM⟩ := (c103_element 2 (m2 1 0 0 0)).1.2 hs
  refine ⟨_, M, hM, fun h => ?_⟩
  obtain ⟨e, ε, h1, h2, h3⟩ := h.row 1 (by omega)
  have := h3 e h1
  rw [if_pos rfl] at this
  rcases h2 with h2 | h2 <;> rw [h2] at this <;> interval_cases e <;> norm_num [m2] at this

/-! ### The representations -/

section

variable {El : Type} [DecidableEq El] {G : Grp El}

theorem mapM_dict {A B : Type} [DecidableEq A] (f : A → Option B) (l : List A) (d : List (A × B))
    (h : (l.mapM fun a => (f a).map fun b => (a, b)) = some d) : ∀ a, (a ∈ l → ∃ b, f a = some b ∧ d.lookup a = some b) ∧ (a ∉ l → d.lookup a = none) := by
  induction l generalizing d with
  | nil => cases h; simp
  | cons a l ih =>
    rw [List.mapM_cons] at h
    cases hb : f a with
    | none => rw [hb] at h; cases h
    | some b =>
      cases hd : (l.mapM fun a => (f a).map fun b => (a, b)) with
      | none => rw [hb, hd] at h; cases h
      | some d' =>
        rw [hb, hd] at h
        cases h
        intro a'
        by_cases e : a' = a
        · subst e
          refine ⟨fun _ => ⟨b, hb, by simp⟩, fun hn => absurd List.mem_cons_self hn⟩
        · have : (a' == a) = false := by simpa using e
          rw [List.lookup_cons, this]
          exact ⟨fun hm => (ih d' hd a').1 ((List.mem_cons.1 hm).resolve_left e), fun hn => (ih d' hd a').2 fun hm => hn (List.mem_cons_of_mem _ hm)⟩

theorem mapM_dict_isSome {A B : Type} (f : A → Option B) (l : List A) (h : ∀ a ∈ l, ∃ b, f a = some b) :
    ∃ d, (l.mapM fun a => (f a).map fun b => (a, b)) = some d := by
  induction l with
  | nil => exact ⟨[], rfl⟩
  | cons a l ih =>
    obtain ⟨b, hb⟩ := h a List.mem_cons_self
    obtain ⟨d, hd⟩ := ih fun a' ha' => h a' (List.mem_cons_of_mem _ ha')
    exact ⟨(a, b) :: d, by rw [List.mapM_cons, hb, hd]; rfl⟩

omit [DecidableEq El] in
theorem rep_isInv (hG : G.Lawful) {n : ℕ} {ρ : El → Mat} (hρ : IsRep G n ρ) {e : El} (he : G.isEl e) : IsInv n (ρ e) (ρ (G.inv e)) := by
  have h1 := hρ.mul e (G.inv e) he (hG.inv_mem e he)
  have h2 := hρ.mul (G.inv e) e (hG.inv_mem e he) he
  rw [hG.op_inv e he] at h1
  rw [hG.inv_op e he] at h2
  exact ⟨h1.symm.trans hρ.one, h2.symm.trans hρ.one⟩

omit [DecidableEq El] in
theorem isRep_congr (hG : G.Lawful) {n : ℕ} {ρ ρ' : El → Mat} (hρ : IsRep G n ρ) (h : ∀ e, G.isEl e → MEq n n (ρ' e) (ρ e)) : IsRep G n ρ' where
  one := (h _ hG.one_mem).trans hρ.one
  mul a b ha hb := (h _ (hG.op_mem a b ha hb)).trans ((hρ.mul a b ha hb).trans (MEq.mul (h a ha).symm (h b hb).symm))

/-- The dictionary of the matrices. -/
theorem concat_dict {els : List El} (hG : G.Lawful) (hmem : ∀ e, e ∈ els ↔ G.isEl e) {r : Repr El} (hr : IsRep G r.size r.mat) {d : List (El × Mat)}
    (h : (els.mapM fun e => (concatElement r.size (r.mat e)).map fun M => (e, M)) = some d) :
    (∀ e, G.isEl e → IsSignedPerm r.size (r.mat e)) ∧
      (∀ e, G.isEl e → MEq (2 * r.size) (2 * r.size) ((d.lookup e).getD fun _ _ => 0) (concatMat (r.mat e))) := by
  have hd := mapM_dict (fun e => concatElement r.size (r.mat e)) els d h
  refine ⟨fun e he => ?_, fun e he => ?_⟩
  · obtain ⟨M, hM, -⟩ := (hd e).1 ((hmem e).2 he)
    exact (c103_invertible (rep_isInv hG hr he)).1.1 ⟨M, hM⟩
  · obtain ⟨M, hM, hl⟩ := (hd e).1 ((hmem e).2 he)
    rw [hl]
    exact (concatElement_some hM).2

theorem concatTransform_spec {els : List El} {irreps : List (Irrep El)} (hc : IrrepTable G els irreps) {srt : List (Irrep El × ℤ) → List (Irrep El × ℤ)}
    (hsrt : ∀ l, (srt l).Perm l) {r : Repr El} (hr : IsRep G r.size r.mat) {solve : List (Irrep El) → ℕ → ℝ} {r' : Repr El}
    (h : concatTransform els (buildFromDiscrete G els irreps srt solve) r = some r') :
    (∀ e, G.isEl e → IsSignedPerm r.size (r.mat e)) ∧ r'.WF ∧ r'.size = 2 * r.size ∧ (∀ i ∈ r'.irreps, i ∈ irreps) ∧
      ∀ e, G.isEl e → MEq (2 * r.size) (2 * r.size) (r'.mat e) (concatMat (r.mat e)) := by
  unfold concatTransform at h
  rw [Option.bind_eq_some_iff] at h
  obtain ⟨d, hd, h⟩ := h
  obtain ⟨⟨r'', χ⟩, hb, rfl⟩ := Option.map_eq_some_iff.1 h
  obtain ⟨h1, h2⟩ := concat_dict hc.lawful hc.mem hr hd
  obtain ⟨b1, b2, b3, b4⟩ := (builds hc hsrt (isRep_congr hc.lawful (concat_isRep hr h1) h2)).spec solve r'' χ hb
  exact ⟨h1, b1, b2, b3, fun e he => (b4 e he).1.trans (h2 e he)⟩

theorem concatTransform_isSome {els : List El} {irreps : List (Irrep El)} (hc : IrrepTable G els irreps) {srt : List (Irrep El × ℤ) → List (Irrep El × ℤ)}
    (hsrt : ∀ l, (srt l).Perm l) {r : Repr El} (hr : IsRep G r.size r.mat) (hs : ∀ e, G.isEl e → IsSignedPerm r.size (r.mat e))
    {solve : List (Irrep El) → ℕ → ℝ} (hsolve : ∀ (ρ : El → Mat) (irs : List (Irrep El)), (∀ e, G.isEl e → IsDoubled r.size (r.mat e) (ρ e)) →
      (∃ x, IsSolution els (2 * r.size) ρ irs x) → IsSolution els (2 * r.size) ρ irs (solve irs)) :
    ∃ r', concatTransform els (buildFromDiscrete G els irreps srt solve) r = some r' := by
  obtain ⟨d, hd⟩ := mapM_dict_isSome (fun e => concatElement r.size (r.mat e)) els fun e he =>
    (c103_element _ _).1.2 (hs e ((hc.mem e).1 he)).sparse
  obtain ⟨h1, h2⟩ := concat_dict hc.lawful hc.mem hr hd
  have hB := builds hc hsrt (isRep_congr hc.lawful (concat_isRep hr h1) h2)
  obtain ⟨ms, hms, hx, -⟩ := hB.solvable
  obtain ⟨r', χ, hb⟩ := hB.builds solve fun ms' hms' => by
    obtain rfl : ms = ms' := by rw [hms] at hms'; exact Option.some.inj hms'
    exact Or.inr (hsolve _ _ (fun e he => isDoubled_iff.2 (h2 e he)) hx)
  refine ⟨r', ?_⟩
  unfold concatTransform
  rw [hd, Option.bind_some, hb]
  rfl

end

/-- **C103, the representation of the output.**  If `_transform_representation` returns for a representation, its matrices are permutations up to signs, and
the result is a well formed representation of twice the size, made of irreps of the group, whose matrices are the doubled matrices, which are permutations. -/
theorem c103_transform {g : GName} (hg : g.Ok) {srt : List (Irrep g.El × ℤ) → List (Irrep g.El × ℤ)} (hsrt : ∀ l, (srt l).Perm l)
    {solve : List (Irrep g.El) → ℕ → ℝ} {r r' : Repr g.El} (hr : IsRep g.grp r.size r.mat) (h : concatRepr g srt solve r = some r') :
    g.IsFinite ∧ (∀ e, g.grp.isEl e → IsSignedPerm r.size (r.mat e)) ∧ r'.WF ∧ r'.size = 2 * r.size ∧ (∀ i ∈ r'.irreps, g.IsIrr i) ∧
      IsRep g.grp r'.size r'.mat ∧ ∀ e, g.grp.isEl e → IsDoubled r.size (r.mat e) (r'.mat e) ∧ IsPerm r'.size (r'.mat e) := by
  have main : ∀ (_ : g.IsFinite) (_ : g.grp.Lawful), ((∀ e, g.grp.isEl e → IsSignedPerm r.size (r.mat e)) ∧ r'.WF ∧ r'.size = 2 * r.size ∧ (∀ i ∈ r'.irreps, g.IsIrr i) ∧
      ∀ e, g.grp.isEl e → MEq (2 * r.size) (2 * r.size) (r'.mat e) (concatMat (r.mat e))) → _ := fun hf hl ⟨h1, h2, h3, h4, h5⟩ =>
    (⟨hf, h1, h2, h3, h4, by rw [h3]; exact isRep_congr hl (concat_isRep hr h1) h5, fun e he => ⟨isDoubled_iff.2 (h5 e he), by
      rw [h3]; exact isPerm_iff_sPerm.2 ((isPerm_iff_sPerm.1 (h1 e he).concatMat).congr (h5 e he).symm)⟩⟩ :
        g.IsFinite ∧ (∀ e, g.grp.isEl e → IsSignedPerm r.size (r.mat e)) ∧ r'.WF ∧ r'.size = 2 * r.size ∧ (∀ i ∈ r'.irreps, g.IsIrr i) ∧
          IsRep g.grp r'.size r'.mat ∧ ∀ e, g.grp.isEl e → IsDoubled r.size (r.mat e) (r'.mat e) ∧ IsPerm r'.size (r'.mat e))
  cases g with
  | cyc N =>
    obtain ⟨h1, h2, h3, h4, h5⟩ := concatTransform_spec (Cyclic.complete hg) hsrt hr h
    exact main trivial (Cyclic.lawful hg) ⟨h1, h2, h3, fun i hi => Cyclic.exists_of_mem_irreps (h4 i hi), h5⟩
  | dih N =>
    obtain ⟨h1, h2, h3, h4, h5⟩ := concatTransform_spec (Dihedral.complete hg) hsrt hr h
    exact main trivial (Dihedral.lawful hg) ⟨h1, h2, h3, fun i hi => Dihedral.exists_of_mem_irreps (h4 i hi), h5⟩
  | so2 => cases h
  | o2 => cases h

/-- **C103, when the representation can be built.**  For a representation of a finite group whose matrices are permutations up to signs, and a solver which
finds solutions where there are some, `_transform_representation` returns. -/
theorem c103_returns {g : GName} (hg : g.Ok) (hf : g.IsFinite) {srt : List (Irrep g.El × ℤ) → List (Irrep g.El × ℤ)} (hsrt : ∀ l, (srt l).Perm l)
    {r : Repr g.El} (hr : IsRep g.grp r.size r.mat) (hs : ∀ e, g.grp.isEl e → IsSignedPerm r.size (r.mat e))
    {solve : List (Irrep g.El) → ℕ → ℝ} (hsolve : GoodSolver g r solve) : ∃ r', concatRepr g srt solve r = some r' := by
  cases g with
  | cyc N => exact concatTransform_isSome (Cyclic.complete hg) hsrt hr hs hsolve
  | dih N => exact concatTransform_isSome (Dihedral.complete hg) hsrt hr hs hsolve
  | so2 => exact hf.elim
  | o2 => exact hf.elim

/-- **C103, continuous groups.** -/
theorem c103_continuous {g : GName} (hf : ¬ g.IsFinite) (srt : List (Irrep g.El × ℤ) → List (Irrep g.El × ℤ)) (solve : List (Irrep g.El) → ℕ → ℝ) (r : Repr g.El) :
    concatRepr g srt solve r = none := by
  cases g with
  | cyc N => exact (hf trivial).elim
  | dih N => exact (hf trivial).elim
  | so2 => rfl
  | o2 => rfl

/-! ### The type of the output and the constructor -/

theorem lookup_mapM {F R : Type} [DecidableEq F] (tr : F → Option R) (d : List (F × R)) (t : List F) (h : ∀ r ∈ t, d.lookup r = tr r) :
    (t.mapM fun r => d.lookup r) = t.mapM tr := by
  induction t with
  | nil => rfl
  | cons r t ih => rw [List.mapM_cons, List.mapM_cons, h r List.mem_cons_self, ih fun r' hr' => h r' (List.mem_cons_of_mem _ hr')]

theorem mapM_none {F R : Type} (tr : F → Option R) (t : List F) {r : F} (hr : r ∈ t) (h : tr r = none) : t.mapM tr = none := by
  induction t with
  | nil => cases hr
  | cons a t ih =>
    rw [List.mapM_cons]
    rcases List.mem_cons.1 hr with rfl | hr
    · rw [h]; rfl
    · rw [ih hr]
      cases tr a <;> rfl

theorem mapM_length {F R : Type} (tr : F → Option R) (t : List F) {l : List R} (h : t.mapM tr = some l) : l.length = t.length := by
  induction t generalizing l with
  | nil => cases h; rfl
  | cons a t ih =>
    rw [List.mapM_cons] at h
    cases ha : tr a with
    | none => rw [ha] at h; cases h
    | some b =>
      cases ht : t.mapM tr with
      | none => rw [ha, ht] at h; cases h
      | some l' =>
        rw [ha, ht] at h
        cases h
        rw [List.length_cons, List.length_cons, ih ht]

/-- **C103, the type of the output.**  In whatever order the set of the different representations is gone through, the fields of the output are those of the
input, each transformed; the construction raises exactly if one of them cannot be transformed. -/
theorem c103_type {F R : Type} [DecidableEq F] (tr : F → Option R) (uniq t : List F) (hu : ∀ r, r ∈ uniq ↔ r ∈ t) (ht : t ≠ []) :
    concatType uniq t tr = t.mapM tr := by
  unfold concatType
  by_cases h : ∀ r ∈ uniq, ∃ b, tr r = some b
  · obtain ⟨d, hd⟩ := mapM_dict_isSome tr uniq h
    have hl := mapM_dict tr uniq d hd
    rw [hd, Option.bind_some, lookup_mapM tr d t fun r hr => by
      obtain ⟨b, h1, h2⟩ := (hl r).1 ((hu r).2 hr)
      rw [h1, h2]]
    cases hm : t.mapM tr with
    | none => rfl
    | some l =>
      rw [Option.bind_some, if_neg]
      rw [mapM_length tr t hm]
      exact fun e => ht (List.length_eq_zero_iff.1 e)
  · push Not at h
    obtain ⟨r, hr, hn⟩ := h
    have hn' : tr r = none := by
      cases hc : tr r with
      | none => rfl
      | some b => exact absurd hc (hn b)
    rw [mapM_none tr t ((hu r).1 hr) hn', mapM_none _ uniq hr (by rw [hn']; rfl)]
    rfl

theorem mapM_get {F R : Type} (tr : F → Option R) (t : List F) {l : List R} (h : t.mapM tr = some l) :
    ∀ (i : ℕ) r, t[i]? = some r → ∃ b, tr r = some b ∧ l[i]? = some b := by
  induction t generalizing l with
  | nil => intro i r hr; simp at hr
  | cons a t ih =>
    rw [List.mapM_cons] at h
    cases ha : tr a with
    | none => rw [ha] at h; cases h
    | some b =>
      cases ht : t.mapM tr with
      | none => rw [ha, ht] at h; cases h
      | some l' =>
        rw [ha, ht] at h
        cases h
        intro i r hr
        cases i with
        | zero =>
          obtain rfl : a = r := by simpa using hr
          exact ⟨b, ha, rfl⟩
        | succ i => exact ih ht i r (by simpa using hr)

theorem mapM_isSome {F R : Type} (tr : F → Option R) (t : List F) (h : ∀ r ∈ t, ∃ b, tr r = some b) : ∃ l, t.mapM tr = some l := by
  induction t with
  | nil => exact ⟨[], rfl⟩
  | cons a t ih =>
    obtain ⟨b, hb⟩ := h a List.mem_cons_self
    obtain ⟨l, hl⟩ := ih fun r hr => h r (List.mem_cons_of_mem _ hr)
    exact ⟨b :: l, by rw [List.mapM_cons, hb, hl]; rfl⟩

section

variable {F : Type} [DecidableEq F] {g : GName} {srt : List (Irrep g.El × ℤ) → List (Irrep g.El × ℤ)} {solve : F → List (Irrep g.El) → ℕ → ℝ}
  {rep : F → Repr g.El} {tags : F → List Tag} {uniq t : List F} {name : String}

/-- **C103, the constructor.**  Whatever strings the representations carry: if the constructor returns, every field has matrices which are permutations up to
signs, the fields of the output are as many, and each has twice the size, the doubled matrices of its field, and is a representation by permutations. -/
theorem c103_init (hg : g.Ok) (hsrt : ∀ l, (srt l).Perm l) (hrep : ∀ r ∈ t, IsRep g.grp (rep r).size (rep r).mat) (hu : ∀ r, r ∈ uniq ↔ r ∈ t) (ht : t ≠ [])
    {outs : List (Repr g.El)} {f : ℝ → ℝ} (h : concatInit g srt solve rep tags uniq t name = some (outs, f)) :
    g.IsFinite ∧ concatFunction name = some f ∧ outs.length = t.length ∧ ∀ (i : ℕ) r, t[i]? = some r → ∃ r' : Repr g.El, outs[i]? = some r' ∧
      Tag.concatenated ∈ tags r ∧ r'.WF ∧ r'.size = 2 * (rep r).size ∧ IsRep g.grp r'.size r'.mat ∧
      ∀ e, g.grp.isEl e → IsSignedPerm (rep r).size ((rep r).mat e) ∧ IsDoubled (rep r).size ((rep r).mat e) (r'.mat e) ∧ IsPerm r'.size (r'.mat e) := by
  unfold concatInit at h
  split_ifs at h with hacc
  rw [Option.bind_eq_some_iff] at h
  obtain ⟨outs', ho, h⟩ := h
  obtain ⟨f', hf, h⟩ := Option.map_eq_some_iff.1 h
  cases h
  rw [c103_type _ uniq t hu ht] at ho
  have hget := mapM_get _ t ho
  refine ⟨?_, hf, mapM_length _ t ho, fun i r hr => ?_⟩
  · obtain ⟨r, t', rfl⟩ := List.exists_cons_of_ne_nil ht
    obtain ⟨b, hb, -⟩ := hget 0 r rfl
    exact (c103_transform hg hsrt (hrep r List.mem_cons_self) hb).1
  · have hm : r ∈ t := List.mem_of_getElem? hr
    obtain ⟨b, hb, hi⟩ := hget i r hr
    obtain ⟨-, h1, h2, h3, -, h5, h6⟩ := c103_transform hg hsrt (hrep r hm) hb
    exact ⟨b, hi, accepts_mem tags hacc r hm, h2, h3, h5, fun e he => ⟨h1 e he, h6 e he⟩⟩

/-- **C103, accepted types.**  For representations of a finite group built by the library which carry the string `concatenated`, and a solver which finds
solutions where there are some, the constructor returns. -/
theorem c103_library {cut : Bool} (hg : g.Ok) (hf : g.IsFinite) (hsrt : ∀ l, (srt l).Perm l) (hlib : ∀ r ∈ t, Lib cut g (rep r) (tags r))
    (hacc : ∀ r ∈ t, Tag.concatenated ∈ tags r) (hsolve : ∀ r ∈ t, GoodSolver g (rep r) (solve r)) (hu : ∀ r, r ∈ uniq ↔ r ∈ t) (ht : t ≠ [])
    {f : ℝ → ℝ} (hn : concatFunction name = some f) : ∃ outs, concatInit g srt solve rep tags uniq t name = some (outs, f) := by
  have ha : accepts tags .concatenated t = true := by
    unfold accepts
    simpa using hacc
  obtain ⟨outs, ho⟩ := mapM_isSome (fun r => concatRepr g srt (solve r) (rep r)) t fun r hr =>
    c103_returns hg hf hsrt (lib_good (hlib r hr)).isRep ((lib_good (hlib r hr)).tagOk _ (hacc r hr) fun _ => trivial) (hsolve r hr)
  refine ⟨outs, ?_⟩
  unfold concatInit
  rw [if_pos ha, c103_type _ uniq t hu ht, ho, Option.bind_some, hn]
  rfl

/-- **C103, equivariance of the constructed module.**  `out` names the representations built by the constructor.  The module built returns on every tensor of its
type, and returns on the transformed tensor the transformed result. -/
theorem c103_equivariant {P : Type} (hg : g.Ok) (hsrt : ∀ l, (srt l).Perm l) (hrep : ∀ r ∈ t, IsRep g.grp (rep r).size (rep r).mat)
    (hu : ∀ r, r ∈ uniq ↔ r ∈ t) (ht : t ≠ []) {outs : List (Repr g.El)} {f : ℝ → ℝ} (h : concatInit g srt solve rep tags uniq t name = some (outs, f))
    (out : F → F) (hout : t.map (fun r => rep (out r)) = outs) (e : g.El) (he : g.grp.isEl e) (p : P → P) (x : GTensor F (P → ℝ))
    (hx : x.WF fun r => (rep r).size) (hxt : x.ty = t) :
    ∃ y, concatenated (fun r => (rep r).size) out t f x = some y ∧ y.ty = t.map out ∧
      concatenated (fun r => (rep r).size) out t f (x.transform (fun r => (rep r).size) (fun r => (rep r).mat e) p)
        = some (y.transform (fun r => (rep r).size) (fun r => (rep r).mat e) p) := by
  obtain ⟨-, -, -, hi⟩ := c103_init hg hsrt hrep hu ht h
  have hr : ∀ r ∈ t, (rep (out r)).size = 2 * (rep r).size ∧ IsSignedPerm (rep r).size ((rep r).mat e) ∧
      IsDoubled (rep r).size ((rep r).mat e) ((rep (out r)).mat e) := by
    intro r hr
    obtain ⟨i, hir⟩ := List.getElem?_of_mem hr
    obtain ⟨r', h1, -, -, h2, -, h3⟩ := hi i r hir
    rw [← hout, List.getElem?_map, hir] at h1
    cases h1
    exact ⟨h2, (h3 e he).1, (h3 e he).2.1⟩
  refine c33_concatenated _ _ out t (fun r h => (hr r h).1) f (fun r => (rep r).mat e) (fun r => (rep r).mat e) (fun r h => concatOk_iff.2 (hr r h).2.1.sparse) ?_
    (fun r h => isDoubled_iff.1 (hr r h).2.2) p x hx hxt
  intro r h i hi
  obtain ⟨j, ε, h1, h2, h3⟩ := (hr r h).2.1.row i hi
  refine ⟨j, h1, ?_⟩
  rw [h3 j h1, if_pos rfl]
  rcases h2 with h2 | h2 <;> rw [h2] <;> norm_num

end

/-- The strings can be wrong (`directsum` with a change of basis keeps them, C73).  The constructor then raises instead of returning a module which is not
equivariant. -/
theorem c103_wrong_tag : ∃ (r : Repr ℤ) (tags : List Tag), Tag.concatenated ∈ tags ∧ IsRep (Cyclic.grp 2) r.size r.mat ∧
    ∀ (srt : List (Irrep ℤ × ℤ) → List (Irrep ℤ × ℤ)) (solve : List (Irrep ℤ) → ℕ → ℝ), (∀ l, (srt l).Perm l) → concatRepr (.cyc 2) srt solve r = none := by
  obtain ⟨i0, i1, t0, t1, tags, Q, Q', h0, h1, -, -, ht, -, hw, hs, -, hn⟩ := c73_directsum_cob_wrong
  have hr : IsRep (Cyclic.grp 2) (Repr.directsumCob [i0.repr, i1.repr] Q).size (Repr.directsumCob [i0.repr, i1.repr] Q).mat := by
    refine Repr.mat_isRep (Cyclic.grp 2) _ hw fun i hi => ?_
    have hi' : i = i0 ∨ i = i1 := by simpa [Repr.directsumCob, Repr.directsum, Irrep.repr, Repr.mk'] using hi
    rcases hi' with rfl | rfl
    · exact (GName.isOrthRep (g := .cyc 2) (by norm_num [GName.Ok]) h0.isIrr).toIsRep
    · exact (GName.isOrthRep (g := .cyc 2) (by norm_num [GName.Ok]) h1.isIrr).toIsRep
  refine ⟨_, tags, ht, hr, fun srt solve hsrt => ?_⟩
  cases hc : concatRepr (.cyc 2) srt solve (Repr.directsumCob [i0.repr, i1.repr] Q) with
  | none => rfl
  | some r' =>
    obtain ⟨-, h2, -⟩ := c103_transform (g := .cyc 2) (by norm_num [GName.Ok]) hsrt hr hc
    rw [hs] at h2
    exact absurd h2 hn

/-! ### Examples -/

theorem IsSolution.congr {El : Type} [DecidableEq El] {els : List El} {n : ℕ} {ρ ρ' : El → Mat} (h : ∀ e ∈ els, MEq n n (ρ e) (ρ' e)) {irs : List (Irrep El)} {x : ℕ → ℝ}
    (hx : IsSolution els n ρ irs x) : IsSolution els n ρ' irs x :=
  ⟨fun e he => (equation_iff _ _ _).2 ((MEq.mul (h e he).symm (MEq.refl _)).trans ((equation_iff _ _ _).1 (hx.null e he))), hx.inv⟩

theorem GName.mem_elements {g : GName} {e : g.El} (he : e ∈ g.elements) : g.grp.isEl e := by
  cases g with
  | cyc N => exact ((Cyclic.mem_elements N e).trans (Cyclic.isElement_iff N e).symm).1 he
  | dih N => exact ((Dihedral.mem_elements N e).trans (Dihedral.isElement_iff N e).symm).1 he
  | so2 => cases he
  | o2 => cases he

/-- A solver as required exists for every representation. -/
theorem exists_goodSolver (g : GName) (r : Repr g.El) : ∃ solve, GoodSolver g r solve := by
  classical
  refine ⟨fun irs => if h : ∃ x, IsSolution g.elements (2 * r.size) (fun e => concatMat (r.mat e)) irs x then h.choose else fun _ => 0, ?_⟩
  rintro ρ irs hρ ⟨x, hx⟩
  have hm : ∀ e ∈ g.elements, MEq (2 * r.size) (2 * r.size) (ρ e) (concatMat (r.mat e)) := fun e he => isDoubled_iff.1 (hρ e (GName.mem_elements he))
  have hex : ∃ x, IsSolution g.elements (2 * r.size) (fun e => concatMat (r.mat e)) irs x := ⟨x, hx.congr hm⟩
  dsimp only
  rw [dif_pos hex]
  exact hex.choose_spec.congr fun e he => (hm e he).symm

/-- The module `ConcatenatedNonLinearity` on two fields with the sign irrep of `C_2` and a regular field of `C_2` between them can be constructed, and the sizes of
the fields of the output are 2, 4 and 2. -/
example : ∃ (rep : Bool → Repr ℤ) (tags : Bool → List Tag) (solve : Bool → List (Irrep ℤ) → ℕ → ℝ) (outs : List (Repr ℤ)) (f : ℝ → ℝ),
    concatInit (.cyc 2) id solve rep tags [true, false] [false, true, false] "c_relu" = some (outs, f) ∧ f (-3) = 0 ∧ f 5 = 5 ∧
      outs.map Repr.size = [2, 4, 2] := by
  obtain ⟨i, hi⟩ : ∃ i, Cyclic.irrep 2 1 = some i := by simp [Cyclic.irrep, Cyclic.order, Cyclic.elements]
  have hs : i.size = 1 := by
    simp [Cyclic.irrep, Cyclic.order, Cyclic.elements] at hi; rw [← hi]
  obtain ⟨r, hr, hreg, -⟩ := c12_cyclic_regular 2 (by norm_num)
  have hrs : r.size = 2 := hreg.size
  have hL0 : Lib false (.cyc 2) i.repr (Cyclic.irrepTags 2 1) := .irrep (show 0 < 2 by norm_num) (.cyc hi)
  have hL1 : Lib false (.cyc 2) r Cyclic.regularTags := .cycRegular (by norm_num) hr
  obtain ⟨s0, hs0⟩ := exists_goodSolver (.cyc 2) i.repr
  obtain ⟨s1, hs1⟩ := exists_goodSolver (.cyc 2) r
  have hg : GName.Ok (.cyc 2) := by norm_num [GName.Ok]
  let rep : Bool → Repr (GName.El (.cyc 2)) := fun b => if b then r else i.repr
  let tags : Bool → List Tag := fun b => if b then Cyclic.regularTags else Cyclic.irrepTags 2 1
  have hlib : ∀ b ∈ [false, true, false], Lib false (.cyc 2) (rep b) (tags b) := by
    intro b _
    cases b
    · exact hL0
    · exact hL1
  have hacc : ∀ b ∈ [false, true, false], Tag.concatenated ∈ tags b := by
    intro b _
    cases b
    · simp [tags, Cyclic.irrepTags, Cyclic.order, Cyclic.elements]
    · simp [tags, Cyclic.regularTags, regularTags]
  have hu : ∀ b, b ∈ [true, false] ↔ b ∈ [false, true, false] := by decide
  have hf : concatFunction "c_relu" = some fun x => max x 0 := by simp [concatFunction]
  obtain ⟨outs, ho⟩ := c103_library (g := .cyc 2) (srt := id) (solve := fun b => if b then s1 else s0) (rep := rep) (tags := tags) (uniq := [true, false])
    (t := [false, true, false]) (name := "c_relu") hg trivial (fun l => List.Perm.refl l) hlib hacc (by
      intro b _
      cases b
      · exact hs0
      · exact hs1) hu (by simp) hf
  refine ⟨rep, tags, _, outs, _, ho, by norm_num, by norm_num, ?_⟩
  obtain ⟨-, -, hl, hout⟩ := c103_init hg (fun l => List.Perm.refl l) (fun b hb => (lib_good (hlib b hb)).isRep) hu (by simp) ho
  obtain ⟨a, ha, -, -, ha', -⟩ := hout 0 false rfl
  obtain ⟨b, hb, -, -, hb', -⟩ := hout 1 true rfl
  obtain ⟨c, hc, -, -, hc', -⟩ := hout 2 false rfl
  have e0 : (rep false).size = 1 := by simp [rep, Irrep.repr_size, hs]
  have e1 : (rep true).size = 2 := by simp [rep, hrs]
  rw [e0] at ha' hc'
  rw [e1] at hb'
  match outs, hl, ha, hb, hc with
  | [x, y, z], _, ha, hb, hc =>
    simp at ha hb hc
    subst ha hb hc
    simp [ha', hb', hc']

end E2
