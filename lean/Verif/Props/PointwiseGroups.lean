import Verif.Props.Pointwise
import Verif.Props.QuotientDihedral
import Mathlib.Data.Fintype.EquivFin

/-!
The representations on which pointwise nonlinearities are allowed act by permutations (C33), and the constructor of the concatenated
nonlinearity accepts permutations and signs.
-/

namespace E2

open Mat

variable {El El' : Type}

/-- The matrix of an injective map `τ` of the axes, with the entry 1 at `(τ i, i)`, is a permutation matrix. -/
theorem isPerm_of_cols {n : ℕ} {M : Mat} (τ : Fin n → Fin n) (hτ : Function.Injective τ)
    (h : ∀ i j : Fin n, M j i = if j = τ i then 1 else 0) : IsPerm n M := by
  let e : Equiv.Perm (Fin n) := Equiv.ofBijective τ (Finite.injective_iff_bijective.1 hτ)
  refine ⟨e.symm, fun i j => ?_⟩
  rw [h j i]
  have : (i = τ j) ↔ (j = e.symm i) := by
    rw [Equiv.eq_symm_apply]
    exact eq_comm
  simp only [this]

/-- The regular representation acts by permutations. -/
theorem c33_regular_isPerm [DecidableEq El] {G : Grp El} (L : G.Lawful) {els : List El} (nd : els.Nodup) (mem : ∀ e, e ∈ els ↔ G.isEl e)
    {r : Repr El} (hr : IsRegularRep G els r) {g : El} (hg : G.isEl g) : IsPerm r.size (r.mat g) := by
  rw [hr.size]
  have hex : ∀ i : Fin els.length, ∃ j : Fin els.length, els[j] = G.op g els[i] := by
    intro i
    have hi : G.isEl els[i] := (mem _).1 (List.getElem_mem _)
    obtain ⟨j, hj, e⟩ := List.getElem_of_mem ((mem _).2 (L.op_mem _ _ hg hi))
    exact ⟨⟨j, hj⟩, e⟩
  choose τ hτ using hex
  refine isPerm_of_cols τ ?_ ?_
  · intro i i' e
    have h1 := hτ i
    rw [e, hτ i'] at h1
    have hi : G.isEl els[i] := (mem _).1 (List.getElem_mem _)
    have hi' : G.isEl els[i'] := (mem _).1 (List.getElem_mem _)
    have h2 := congrArg (G.op (G.inv g)) h1
    rw [← L.assoc _ _ _ (L.inv_mem _ hg) hg hi', ← L.assoc _ _ _ (L.inv_mem _ hg) hg hi, L.inv_op _ hg, L.one_op _ hi', L.one_op _ hi] at h2
    exact Fin.ext ((List.Nodup.getElem_inj_iff nd).1 h2).symm
  · intro i j
    rw [hr.mat g hg j j.2 i i.2]
    have : (els[(j : ℕ)] = G.op g els[(i : ℕ)]) ↔ j = τ i := by
      rw [show G.op g els[(i : ℕ)] = els[(τ i : ℕ)] from (hτ i).symm, List.Nodup.getElem_inj_iff nd]
      exact Fin.ext_iff.symm
    simp only [this]

/-- An element of the group permutes the cosets. -/
theorem coset_perm [DecidableEq El] {G : Grp El} {els : List El} {H : Grp El'} {S : SubData El El'} (ok : SubOk G els H S) {reps : List El}
    (T : IsTransversal G H S reps) {g : El} (hg : G.isEl g) :
    ∃ τ : Fin reps.length → Fin reps.length, Function.Injective τ ∧
      ∀ i j : Fin reps.length, InCoset G H S reps[(j : ℕ)] (G.op g reps[(i : ℕ)]) ↔ j = τ i := by
  have L := ok.lawG
  have hex : ∀ i : Fin reps.length, ∃ j : Fin reps.length, InCoset G H S reps[j] (G.op g reps[i]) := by
    intro i
    obtain ⟨s, ⟨hs, hc⟩, -⟩ := T.exists_unique _ (L.op_mem _ _ hg (T.mem _ (List.getElem_mem i.2)))
    obtain ⟨j, hj, e⟩ := List.getElem_of_mem hs
    exact ⟨⟨j, hj⟩, by subst e; exact hc⟩
  choose τ hτ using hex
  have huniq : ∀ {x}, G.isEl x → ∀ j k : Fin reps.length, InCoset G H S reps[j] x → InCoset G H S reps[k] x → j = k := by
    intro x hx j k hj hk
    have := (T.exists_unique x hx).unique ⟨List.getElem_mem j.2, hj⟩ ⟨List.getElem_mem k.2, hk⟩
    exact Fin.ext ((List.Nodup.getElem_inj_iff T.nodup).1 this)
  refine ⟨τ, ?_, ?_⟩
  · intro i i' e
    have hi := T.mem _ (List.getElem_mem i.2)
    have hi' := T.mem _ (List.getElem_mem i'.2)
    obtain ⟨h, hh, e1⟩ := hτ i
    obtain ⟨h', hh', e2⟩ := hτ i'
    rw [e] at e1
    have hr' := T.mem _ (List.getElem_mem (τ i').2)
    have hx := L.op_mem _ _ (L.inv_mem _ hg) hr'
    -- both `reps[i]` and `reps[i']` lie in the coset of `g⁻¹ reps[τ i']`
    have key : ∀ {a k}, G.isEl a → H.isEl k → G.op g a = G.op reps[τ i'] (S.parent k) → InCoset G H S a (G.op (G.inv g) reps[τ i']) := by
      intro a k ha hk ea
      refine InCoset.meet ok ha hx (inCoset_self ok ha) ⟨k, hk, ?_⟩
      refine Eq.symm (Eq.trans (L.assoc _ _ _ (L.inv_mem _ hg) hr' (ok.emb.mem _ hk)) ?_)
      rw [← ea, ← L.assoc _ _ _ (L.inv_mem _ hg) hg ha, L.inv_op _ hg, L.one_op _ ha]
    exact huniq hx i i' (key hi hh e1) (key hi' hh' e2)
  · intro i j
    have hgi := L.op_mem _ _ hg (T.mem _ (List.getElem_mem i.2))
    constructor
    · intro hc; exact huniq hgi j (τ i) hc (hτ i)
    · rintro rfl; exact hτ i

/-- The quotient representations act by permutations. -/
theorem c33_quotient_isPerm [DecidableEq El] {G : Grp El} {els : List El} {H : Grp El'} {S : SubData El El'} (ok : SubOk G els H S) {reps : List El}
    {r : Repr El} (hr : IsQuotientRep G H S reps r) {g : El} (hg : G.isEl g) : IsPerm r.size (r.mat g) := by
  rw [hr.size]
  obtain ⟨τ, hinj, hτ⟩ := coset_perm ok hr.transversal hg
  refine isPerm_of_cols τ hinj ?_
  intro i j
  have := hr.mat g hg i i.2 j j.2
  rw [hτ i j] at this
  by_cases hj : j = τ i
  · rw [if_pos hj]; exact this.1 hj
  · rw [if_neg hj]; exact this.2 hj

/-- Trivial representations of size one. -/
theorem isPerm_trivial {M : Mat} (h : M 0 0 = 1) : IsPerm 1 M := by
  refine isPerm_of_cols id Function.injective_id fun i j => ?_
  have hi : i = 0 := Subsingleton.elim _ _
  have hj : j = 0 := Subsingleton.elim _ _
  subst hi hj
  simpa using h

theorem nonzeroCols_eq {s : ℕ} {r : Mat} {i e : ℕ} (he : e < s) (h0 : r i e ≠ 0) (h : ∀ j < s, j ≠ e → r i j = 0) : nonzeroCols s r i = [e] := by
  classical
  have hn : (nonzeroCols s r i).Nodup := by
    rw [nonzeroCols]
    exact List.nodup_range.filter _
  have hm : ∀ j, j ∈ nonzeroCols s r i ↔ j = e := by
    intro j
    rw [nonzeroCols, List.mem_filter, List.mem_range]
    constructor
    · rintro ⟨h1, h2⟩
      by_contra hne
      simp [h j h1 hne] at h2
    · rintro rfl
      exact ⟨he, by simpa using h0⟩
  exact List.perm_singleton.1 ((List.perm_ext_iff_of_nodup hn (List.nodup_singleton e)).2 fun j => by rw [hm, List.mem_singleton])

/-- The constructor of the concatenated nonlinearity accepts signed permutations. -/
theorem concatOk_signed {s : ℕ} {r : Mat} (σ : Equiv.Perm (Fin s)) (ε : Fin s → ℝ) (hε : ∀ i, ε i = 1 ∨ ε i = -1)
    (h : ∀ i j : Fin s, r i j = if j = σ i then ε i else 0) : ConcatOk s r := by
  have hcol : ∀ i : Fin s, nonzeroCols s r i = [(σ i : ℕ)] := by
    intro i
    refine nonzeroCols_eq (σ i).2 ?_ ?_
    · rw [h i (σ i), if_pos rfl]; rcases hε i with e | e <;> rw [e] <;> norm_num
    · intro j hj hne
      rw [h i ⟨j, hj⟩, if_neg fun e => hne (congrArg Fin.val e)]
  refine ⟨fun i hi => by rw [hcol ⟨i, hi⟩]; simp, ?_, ?_⟩
  · refine List.Nodup.map_on ?_ List.nodup_range
    intro i hi j hj e
    rw [List.mem_range] at hi hj
    simp only [hcol ⟨i, hi⟩, hcol ⟨j, hj⟩, List.head?_cons, Option.map_some, Option.getD_some] at e
    have := σ.injective (Fin.ext (by exact_mod_cast e) : σ ⟨i, hi⟩ = σ ⟨j, hj⟩)
    exact congrArg Fin.val this
  · intro i hi j hj
    rw [h ⟨i, hi⟩ ⟨j, hj⟩]
    split
    · rcases hε ⟨i, hi⟩ with e | e <;> rw [e] <;> simp
    · simp

theorem IsPerm.concatOk {s : ℕ} {r : Mat} (h : IsPerm s r) : ConcatOk s r := by
  obtain ⟨σ, h⟩ := h
  exact concatOk_signed σ (fun _ => 1) (fun _ => Or.inl rfl) h

theorem IsPerm.row {s : ℕ} {r : Mat} (h : IsPerm s r) : ∀ i < s, ∃ j < s, r i j ≠ 0 := by
  obtain ⟨σ, h⟩ := h
  intro i hi
  exact ⟨σ ⟨i, hi⟩, (σ ⟨i, hi⟩).2, by rw [h ⟨i, hi⟩, if_pos rfl]; norm_num⟩

/-- Two regular fields of `C_N`: the hypotheses of `c33_pointwise` hold for every rotation. -/
example (N : ℕ) (hN : 0 < N) : ∃ r, IsRegularRep (Cyclic.grp N) (Cyclic.elements N) r ∧
    ∀ g, (Cyclic.grp N).isEl g → ∀ (f : ℝ → ℝ) (π : ℕ × ℕ → ℕ × ℕ) (d : List (ℕ × ℕ → ℝ)), d.length = 2 * N →
      ∃ y, pointwise (fun _ : Unit => r.size) [(), ()] f ⟨[(), ()], d⟩ = some y ∧
        pointwise (fun _ : Unit => r.size) [(), ()] f ((⟨[(), ()], d⟩ : GTensor _ _).transform (fun _ => r.size) (fun _ => r.mat g) π)
          = some (y.transform (fun _ => r.size) (fun _ => r.mat g) π) := by
  obtain ⟨r, -, hr, -⟩ := c12_cyclic_regular N hN
  refine ⟨r, hr, fun g hg f π d hd => ?_⟩
  have hp := c33_regular_isPerm (Cyclic.lawful hN) (Cyclic.elements_nodup N) 
    (fun e => (Cyclic.mem_elements N e).trans (Cyclic.isElement_iff N e).symm) hr hg
  obtain ⟨y, h1, -, h2⟩ := c33_pointwise (fun _ : Unit => r.size) [(), ()] f (fun _ => r.mat g) (fun _ _ => hp) π ⟨[(), ()], d⟩
    ⟨by simp, by simp [hd, typeSize, hr.size, Cyclic.elements]; omega⟩ rfl
  exact ⟨y, h1, h2⟩

/-- The quotient of `C_6` by its subgroup of order 2, with three axes. -/
example : ∃ r, Cyclic.quotient 6 2 = some r ∧ r.size = 3 ∧ ∀ g, (Cyclic.grp 6).isEl g → IsPerm r.size (r.mat g) := by
  obtain ⟨S, r, hS, hr, hs, hq⟩ := c13_cyclic_quotient 6 (by norm_num) 2 (by norm_num) (by norm_num)
  exact ⟨r, hr, hs, fun g hg => c33_quotient_isPerm (Cyclic.subData_ok (by norm_num) hS) hq hg⟩

/-- The sign representation, which the constructor of the concatenated nonlinearity accepts although pointwise functions are not allowed. -/
example : ConcatOk 1 (m1 (-1)) ∧ ¬ IsPerm 1 (m1 (-1)) := by
  constructor
  · refine concatOk_signed 1 (fun _ => -1) (fun _ => Or.inr rfl) fun i j => ?_
    have hi : i = 0 := Subsingleton.elim _ _
    have hj : j = 0 := Subsingleton.elim _ _
    subst hi hj
    simp [m1]
  · rintro ⟨σ, h⟩
    have := h 0 0
    rw [if_pos (Subsingleton.elim _ _)] at this
    norm_num [m1] at this

end E2
