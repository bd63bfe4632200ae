import Verif.Lemmas.Disentangle
import Verif.Props.DirectSum

/-!
# C11: disentangling a representation
-/

namespace E2

open Finset Mat

/-- The indices below `n` with label `b`. -/
def sel (n : ℕ) (l : ℕ → ℕ) (b : ℕ) : List ℕ := (List.range n).filter fun i => l i = b

theorem mem_sel {n : ℕ} {l : ℕ → ℕ} {b k : ℕ} (h : k < (sel n l b).length) :
    (sel n l b).getD k 0 < n ∧ l ((sel n l b).getD k 0) = b := by
  obtain ⟨h1, h2⟩ := List.mem_filter.1 (getD_mem h)
  exact ⟨List.mem_range.1 h1, of_decide_eq_true h2⟩

theorem sum_sel' (n : ℕ) (l : ℕ → ℕ) (b : ℕ) (f : ℕ → ℝ) (h : ∀ i < n, l i ≠ b → f i = 0) :
    ∑ i ∈ range n, f i = ∑ k ∈ range (sel n l b).length, f ((sel n l b).getD k 0) :=
  sum_sel n (fun i => l i = b) f h

section
variable {n : ℕ} {A A' : Mat} {rl cl : ℕ → ℕ}

theorem commutes (hA : ∀ x < n, ∀ c < n, rl x ≠ cl c → A x c = 0) (b : ℕ) :
    Matrix.diagonal (fun x : Fin n => if rl x = b then (1 : ℝ) else 0) * toM n A
      = toM n A * Matrix.diagonal (fun c : Fin n => if cl c = b then (1 : ℝ) else 0) := by
  ext x c
  rw [Matrix.diagonal_mul, Matrix.mul_diagonal, toM]
  by_cases h : rl x = cl c
  · rw [h, _root_.mul_comm]
  · rw [hA x x.2 c c.2 h]; simp

theorem commutes' (hinv : IsInv n A A') (hA : ∀ x < n, ∀ c < n, rl x ≠ cl c → A x c = 0) (b : ℕ) :
    toM n A' * Matrix.diagonal (fun x : Fin n => if rl x = b then (1 : ℝ) else 0)
      = Matrix.diagonal (fun c : Fin n => if cl c = b then (1 : ℝ) else 0) * toM n A' := by
  have h := commutes hA b
  have h1 := hinv.toM_left
  have h2 := hinv.toM_right
  calc _ = toM n A' * (Matrix.diagonal (fun x : Fin n => if rl x = b then (1 : ℝ) else 0) * toM n A) * toM n A' := by
        rw [_root_.mul_assoc, _root_.mul_assoc, h1, mul_one]
    _ = _ := by rw [h, ← _root_.mul_assoc, h2, one_mul]

theorem inv_zero (hinv : IsInv n A A') (hA : ∀ x < n, ∀ c < n, rl x ≠ cl c → A x c = 0) :
    ∀ c < n, ∀ x < n, rl x ≠ cl c → A' c x = 0 := by
  intro c hc x hx h
  have := congrFun (congrFun (commutes' hinv hA (cl c)) ⟨c, hc⟩) ⟨x, hx⟩
  rw [Matrix.mul_diagonal, Matrix.diagonal_mul] at this
  simpa [h, toM] using this.symm

theorem sel_length (n : ℕ) (l : ℕ → ℕ) (b : ℕ) :
    ((sel n l b).length : ℝ) = Matrix.trace (Matrix.diagonal (fun x : Fin n => if l x = b then (1 : ℝ) else 0)) := by
  rw [Matrix.trace_diagonal, Fin.sum_univ_eq_sum_range (fun x => if l x = b then (1 : ℝ) else 0) n,
    sum_filter_list n (fun i => l i = b)]
  simp [sel]

theorem sel_length_eq (hinv : IsInv n A A') (hA : ∀ x < n, ∀ c < n, rl x ≠ cl c → A x c = 0) (b : ℕ) :
    (sel n cl b).length = (sel n rl b).length := by
  have h : ((sel n cl b).length : ℝ) = (sel n rl b).length := by
    rw [sel_length, sel_length]
    have h1 := hinv.toM_left
    have h2 := commutes' hinv hA b
    calc _ = Matrix.trace (Matrix.diagonal (fun x : Fin n => if cl x = b then (1 : ℝ) else 0) * (toM n A' * toM n A)) := by
          rw [hinv.toM_right, mul_one]
      _ = Matrix.trace (toM n A' * Matrix.diagonal (fun x : Fin n => if rl x = b then (1 : ℝ) else 0) * toM n A) := by
          rw [← _root_.mul_assoc, h2]
      _ = _ := by rw [Matrix.trace_mul_comm, ← _root_.mul_assoc, h1, one_mul]
  exact_mod_cast h

theorem ix_mul (R C S : List ℕ) (M N : Mat)
    (h : ∀ i < R.length, ∀ j < S.length, ∑ k ∈ range n, M (R.getD i 0) k * N k (S.getD j 0)
      = ∑ k ∈ range C.length, M (R.getD i 0) (C.getD k 0) * N (C.getD k 0) (S.getD j 0)) :
    MEq R.length S.length (Mat.mul C.length (ix R C M) (ix C S N)) (ix R S (Mat.mul n M N)) := by
  intro i hi j hj
  exact (h i hi j hj).symm

/-- Everything about one block. -/
theorem block_spec (hinv : IsInv n A A') (hA : ∀ x < n, ∀ c < n, rl x ≠ cl c → A x c = 0) (B : Mat) (b : ℕ)
    {R C : List ℕ} (hR : R = sel n rl b) (hC : C = sel n cl b) :
    IsInv R.length (ix R C A) (ix C R A') ∧
    MEq R.length R.length (conj R.length (ix R C A) (ix C C B) (ix C R A')) (ix R R (conj n A B A')) := by
  subst hR hC
  have hA' := inv_zero hinv hA
  have hlen := sel_length_eq hinv hA b
  have e1 := ix_mul (n := n) (sel n rl b) (sel n cl b) (sel n rl b) A A' (fun i hi j hj =>
    sum_sel' n cl b _ fun k hk hkb => by
      rw [hA _ (mem_sel hi).1 k hk (by rw [(mem_sel hi).2]; exact fun e => hkb e.symm), zero_mul])
  rw [hlen] at e1
  refine ⟨isInv_of_left (e1.trans ?_), ?_⟩
  · intro i hi j hj
    rw [ix, hinv.1 _ (mem_sel hi).1 _ (mem_sel hj).1, Mat.one, Mat.one]
    have hnd : (sel n rl b).Nodup := List.Nodup.filter _ List.nodup_range
    congr 1
    rw [List.getD_eq_getElem _ _ hi, List.getD_eq_getElem _ _ hj, hnd.getElem_inj_iff]
  · have e2 := ix_mul (n := n) (sel n rl b) (sel n cl b) (sel n cl b) A B (fun i hi j hj =>
      sum_sel' n cl b _ fun k hk hkb => by
        rw [hA _ (mem_sel hi).1 k hk (by rw [(mem_sel hi).2]; exact fun e => hkb e.symm), zero_mul])
    have e3 := ix_mul (n := n) (sel n rl b) (sel n cl b) (sel n rl b) (Mat.mul n A B) A' (fun i hi j hj =>
      sum_sel' n cl b _ fun k hk hkb => by
        rw [hA' k hk _ (mem_sel hj).1 (by rw [(mem_sel hj).2]; exact fun e => hkb e.symm), mul_zero])
    rw [hlen] at e2 e3
    exact (MEq.mul e2 (MEq.refl _)).trans e3

theorem conj_zero (hinv : IsInv n A A') (hA : ∀ x < n, ∀ c < n, rl x ≠ cl c → A x c = 0) {B : Mat}
    (hB : ∀ c < n, ∀ d < n, cl c ≠ cl d → B c d = 0) :
    ∀ x < n, ∀ y < n, rl x ≠ rl y → conj n A B A' x y = 0 := by
  intro x hx y hy hxy
  rw [conj, Mat.mul]
  refine Finset.sum_eq_zero fun d hd => ?_
  by_cases h : rl y = cl d
  · rw [Mat.mul, Finset.sum_eq_zero, zero_mul]
    intro c hc
    by_cases h' : rl x = cl c
    · rw [hB c (mem_range.1 hc) d (mem_range.1 hd) (by rw [← h', ← h]; exact hxy), mul_zero]
    · rw [hA x hx c (mem_range.1 hc) h', zero_mul]
  · rw [inv_zero hinv hA d (mem_range.1 hd) y hy h, mul_zero]

end

namespace Repr

variable {El : Type} (r : Repr El) (lab : ℕ → ℕ)

theorem map_irrepSel (g : El) (b : ℕ) : (r.irrepSel lab b).map (fun i => (i.size, i.mat g))
    = selOf (r.irreps.map fun i => (i.size, i.mat g)) lab b := by
  rw [irrepSel, selOf, List.map_filterMap, irrepIdx, List.length_map]
  congr 1
  funext i
  simp

theorem colIdx_eq (b : ℕ) : r.colIdx lab b = sel r.size (colLab (r.irreps.map Irrep.size) lab) b := by
  rw [sel, size, ← colsOf_eq, colIdx, colsOf, irrepIdx, List.length_map]
  rfl

theorem irrepSel_size (b : ℕ) : ((r.irrepSel lab b).map Irrep.size).sum = (r.colIdx lab b).length := by
  have h := total_selOf (r.irreps.map fun i => (i.size, Mat.one)) lab b
  rw [colIdx, irrepIdx]
  rw [colsOf, List.map_map] at h
  have e : (Prod.fst ∘ fun i : Irrep El => (i.size, Mat.one)) = Irrep.size := rfl
  rw [e, List.length_map] at h
  rw [show (fun i => List.range' (r.irrepPos i) (r.irrepSize i)) = fun i =>
    List.range' (offset (r.irreps.map Irrep.size) i) ((r.irreps.map Irrep.size).getD i 0) from rfl, ← h]
  rw [total, selOf, List.map_filterMap, irrepSel, irrepIdx, List.map_filterMap, List.length_map]
  congr 2
  funext i
  simp [Function.comp_def]

theorem cob_zero {r : Repr El} {n : ℕ} {lab : ℕ → ℕ}
    (h : IsComponents (r.irreps.length + r.size) r.entangled n lab) :
    ∀ x < r.size, ∀ c < r.size,
      lab (r.irreps.length + x) ≠ colLab (r.irreps.map Irrep.size) lab c → r.cob x c = 0 := by
  intro x hx c hc hne
  by_contra h0
  obtain ⟨k, hk, y, hy, rfl⟩ := exists_offset _ hc
  rw [colLab_offset _ _ hk hy] at hne
  rw [List.length_map] at hk
  refine hne ((h.iff _ (by omega) k (by omega)).2 (Relation.EqvGen.rel _ _ ⟨by omega, by omega, ?_⟩))
  refine ⟨k, x, y, hk, hx, ?_, h0, Or.inr ⟨rfl, rfl⟩⟩
  rw [irrepSize, List.getD_eq_getElem _ _ (by simpa using hk)]
  exact hy

theorem blocks_zero (g : El) : ∀ c < r.size, ∀ d < r.size,
    colLab (r.irreps.map Irrep.size) lab c ≠ colLab (r.irreps.map Irrep.size) lab d →
    blocks r.irreps g c d = 0 := by
  intro c hc d hd hne
  obtain ⟨k, hk, y, hy, rfl⟩ := exists_offset _ hc
  obtain ⟨m, hm, z, hz, rfl⟩ := exists_offset _ hd
  rw [colLab_offset _ _ hk hy, colLab_offset _ _ hm hz] at hne
  have := bdiag_entry (r.irreps.map fun i => (i.size, i.mat g)) (k := k) (m := m) (x := y) (y := z)
    (by simpa using hk) (by simpa using hm) (by simpa using hy) (by simpa using hz)
  rw [List.map_map] at this
  rw [blocks, show (Prod.fst ∘ fun i : Irrep El => (i.size, i.mat g)) = Irrep.size from rfl] at *
  rw [this, if_neg]
  rintro rfl
  exact hne rfl

end Repr

theorem filterMap_range {α : Type} (l : List α) : (List.range l.length).filterMap (fun i => l[i]?) = l := by
  induction l with
  | nil => rfl
  | cons a l ih =>
    rw [List.length_cons, range_len_succ, List.filterMap_cons, List.filterMap_map]
    simp only [Function.comp_def, List.getElem?_cons_succ, ih]
    simp

/-- `Q` is the array of a permutation: row `i` has a single `1`, in column `σ i`. -/
def IsPermutation (n : ℕ) (Q : Mat) (σ : ℕ → ℕ) : Prop :=
  (∀ i < n, σ i < n) ∧ (∀ i < n, ∀ j < n, σ i = σ j → i = j) ∧ (∀ i < n, ∀ c < n, Q i c = if σ i = c then 1 else 0)

theorem IsPermutation.isInv {n : ℕ} {Q : Mat} {σ : ℕ → ℕ} (h : IsPermutation n Q σ) : IsInv n Q (tr Q) := by
  obtain ⟨h1, h2, h3⟩ := h
  refine isInv_of_left ?_
  intro i hi j hj
  rw [Mat.mul, Finset.sum_eq_single (σ i)]
  · rw [tr, h3 i hi _ (h1 i hi), h3 j hj _ (h1 i hi), if_pos rfl, one_mul, Mat.one]
    by_cases e : i = j
    · rw [e]; simp
    · rw [if_neg e, if_neg fun e' => e (h2 i hi j hj e'.symm)]
  · intro c hc hne
    rw [h3 i hi c (mem_range.1 hc), if_neg (Ne.symm hne), zero_mul]
  · intro h; exact absurd (mem_range.2 (h1 i hi)) h

theorem IsPermutation.conj {n : ℕ} {Q : Mat} {σ : ℕ → ℕ} (h : IsPermutation n Q σ) (A : Mat) {i j : ℕ}
    (hi : i < n) (hj : j < n) : E2.conj n Q A (tr Q) i j = A (σ i) (σ j) := by
  obtain ⟨h1, h2, h3⟩ := h
  rw [E2.conj, Mat.mul, Finset.sum_eq_single (σ j)]
  · rw [tr, h3 j hj _ (h1 j hj), if_pos rfl, mul_one, Mat.mul, Finset.sum_eq_single (σ i)]
    · rw [h3 i hi _ (h1 i hi), if_pos rfl, one_mul]
    · intro c hc hne
      rw [h3 i hi c (mem_range.1 hc), if_neg (Ne.symm hne), zero_mul]
    · intro h; exact absurd (mem_range.2 (h1 i hi)) h
  · intro c hc hne
    rw [tr, h3 j hj c (mem_range.1 hc), if_neg (Ne.symm hne), mul_zero]
  · intro h; exact absurd (mem_range.2 (h1 j hj)) h

/-- **C11.** For every representation and every correct answer of `connected_components`, `disentangle` succeeds; it
returns a permutation `Q` and representations, all well formed, whose direct sum is at every `g` the conjugate by `Q`
of the given representation, and whose irreps are together those of the given one. -/
theorem c11_disentangle {El : Type} (r : Repr El) (hr : r.WF) (n : ℕ) (lab : ℕ → ℕ)
    (hc : IsComponents (r.irreps.length + r.size) r.entangled n lab) :
    ∃ Q reps σ, r.disentangle n lab = some (Q, reps) ∧ IsPermutation r.size Q σ ∧ IsInv r.size Q (tr Q) ∧
      (∀ s ∈ reps, s.WF) ∧ (Repr.directsum reps).size = r.size ∧
      (Repr.directsum reps).irreps.Perm r.irreps ∧
      ∀ g, MEq r.size r.size ((Repr.directsum reps).mat g) (conj r.size Q (r.mat g) (tr Q)) := by
  set rl : ℕ → ℕ := fun x => lab (r.irreps.length + x) with hrl
  set cl : ℕ → ℕ := colLab (r.irreps.map Irrep.size) lab with hcl
  have hA : ∀ x < r.size, ∀ c < r.size, rl x ≠ cl c → r.cob x c = 0 := Repr.cob_zero hc
  have hrow : ∀ b, r.rowIdx lab b = sel r.size rl b := fun b => rfl
  have hcol : ∀ b, r.colIdx lab b = sel r.size cl b := fun b => Repr.colIdx_eq r lab b
  have hlen : ∀ b, (r.colIdx lab b).length = (r.rowIdx lab b).length := fun b => by
    rw [hcol, hrow]; exact sel_length_eq hr hA b
  have hsz : ∀ b, ((r.irrepSel lab b).map Irrep.size).sum = (r.rowIdx lab b).length := fun b => by
    rw [Repr.irrepSel_size, hlen]
  have hrlt : ∀ x < r.size, rl x < n := fun x hx => hc.lt _ (by omega)
  have hperm : ((List.range n).map (r.rowIdx lab)).flatten.Perm (List.range r.size) :=
    flatten_filter_perm r.size n rl hrlt
  set L := (List.range n).map (r.rowIdx lab) with hL
  have hLlen : L.flatten.length = r.size := by rw [hperm.length_eq, List.length_range]
  have hnd : L.flatten.Nodup := hperm.nodup_iff.2 List.nodup_range
  have hQ : IsPermutation r.size (Repr.permMat L) fun i => L.flatten.getD i 0 := by
    refine ⟨?_, ?_, ?_⟩
    · intro i hi
      exact List.mem_range.1 (hperm.mem_iff.1 (getD_mem (by omega)))
    · intro i hi j hj h
      simp only at h
      rw [List.getD_eq_getElem _ _ (by omega), List.getD_eq_getElem _ _ (by omega)] at h
      exact (hnd.getElem_inj_iff).1 h
    · intro i hi c _
      have h0 : i < L.flatten.length := by omega
      simp only
      have h4 := List.getD_eq_getElem L.flatten 0 h0
      rw [permMat_entry, List.getElem?_eq_getElem h0]
      simp only [h4, Option.some.injEq]
  have hdis : r.disentangle n lab = some (Repr.permMat L, (List.range n).map fun b =>
      Repr.mk' (r.irrepSel lab b) (ix (r.rowIdx lab b) (r.colIdx lab b) r.cob)) := by
    rw [Repr.disentangle, if_pos fun b _ => ⟨hsz b, hlen b⟩]
  have hB : ∀ g, ∀ c < r.size, ∀ d < r.size, cl c ≠ cl d → Repr.blocks r.irreps g c d = 0 :=
    fun g => Repr.blocks_zero r lab g
  have hinvb := fun b => (block_spec hr hA Mat.one b (hrow b) (hcol b)).1
  have hwf : ∀ b, (Repr.mk' (r.irrepSel lab b) (ix (r.rowIdx lab b) (r.colIdx lab b) r.cob)).WF := by
    intro b
    refine Repr.wf_mk' (D := ix (r.colIdx lab b) (r.rowIdx lab b) r.cobInv) ?_
    rw [hsz]
    exact hinvb b
  have hsize : (Repr.directsum ((List.range n).map fun b =>
      Repr.mk' (r.irrepSel lab b) (ix (r.rowIdx lab b) (r.colIdx lab b) r.cob))).size = r.size := by
    rw [Repr.directsum_size, List.map_map, ← hLlen, List.length_flatten, hL, List.map_map]
    congr 1
    refine List.map_congr_left fun b _ => ?_
    exact hsz b
  refine ⟨_, _, _, hdis, hQ, hQ.isInv, ?_, hsize, ?_, ?_⟩
  · intro s hs
    rw [List.mem_map] at hs
    obtain ⟨b, _, rfl⟩ := hs
    exact hwf b
  · have h1 := flatten_filter_perm r.irreps.length n lab fun i hi => hc.lt i (by omega)
    have h2 := h1.filterMap (fun i => r.irreps[i]?)
    have h3 : (List.range r.irreps.length).filterMap (fun i => r.irreps[i]?) = r.irreps :=
      filterMap_range r.irreps
    rw [h3] at h2
    refine List.Perm.trans (List.Perm.of_eq ?_) h2
    rw [List.filterMap_flatten, List.map_map]
    show List.flatMap _ _ = _
    rw [List.flatMap_def, List.map_map]
    rfl
  · intro g i hi j hj
    rw [hQ.conj _ hi hj, Repr.directsum_mat, List.map_map]
    have e : ∀ b, MEq (r.rowIdx lab b).length (r.rowIdx lab b).length
        ((Repr.mk' (r.irrepSel lab b) (ix (r.rowIdx lab b) (r.colIdx lab b) r.cob)).mat g)
        (ix (r.rowIdx lab b) (r.rowIdx lab b) (r.mat g)) := by
      intro b
      have h1 := (block_spec hr hA (Repr.blocks r.irreps g) b (hrow b) (hcol b)).2
      have h2 : MEq (r.rowIdx lab b).length (r.rowIdx lab b).length (Repr.blocks (r.irrepSel lab b) g)
          (ix (r.colIdx lab b) (r.colIdx lab b) (Repr.blocks r.irreps g)) := by
        intro i hi j hj
        rw [← hlen] at hi hj
        have h3 : r.colIdx lab b = colsOf ((r.irreps.map fun i => (i.size, i.mat g)).map Prod.fst) lab b := by
          rw [List.map_map, colsOf_eq, hcol]
          rfl
        rw [h3] at hi hj ⊢
        rw [Repr.blocks, Repr.blocks, ix_colsOf _ _ _ hi hj, Repr.map_irrepSel]
      have h4 : MEq (r.rowIdx lab b).length (r.rowIdx lab b).length
          (Repr.mk' (r.irrepSel lab b) (ix (r.rowIdx lab b) (r.colIdx lab b) r.cob)).cobInv
          (ix (r.colIdx lab b) (r.rowIdx lab b) r.cobInv) := by
        have hw := hwf b
        rw [Repr.WF, Repr.size_mk', hsz] at hw
        exact hw.unique (hinvb b)
      rw [conj] at h1
      rw [Repr.mat, Repr.size_mk', hsz]
      exact (MEq.mul (MEq.mul (MEq.refl _) h2) h4).trans h1
    have e2 : (List.range n).map ((fun s : Repr El => (s.size, s.mat g)) ∘ fun b =>
        Repr.mk' (r.irrepSel lab b) (ix (r.rowIdx lab b) (r.colIdx lab b) r.cob))
        = (List.range n).map fun b => ((r.rowIdx lab b).length,
          (Repr.mk' (r.irrepSel lab b) (ix (r.rowIdx lab b) (r.colIdx lab b) r.cob)).mat g) := by
      refine List.map_congr_left fun b _ => ?_
      simp only [Function.comp, Repr.size_mk', hsz]
    rw [e2, bdiag_congr _ _ (fun b => ix (r.rowIdx lab b) (r.rowIdx lab b) (r.mat g)) _ fun b _ => e b]
    have := bdiag_ix L (r.mat g) ?_ (i := i) (j := j) (by omega) (by omega)
    · rw [hL, List.map_map] at this
      exact this
    · rw [hL, List.pairwise_map]
      refine List.Pairwise.imp_of_mem ?_ List.nodup_range
      intro a b _ _ hab x hx y hy
      rw [hrow, sel, List.mem_filter, List.mem_range] at hx hy
      have hx2 : rl x = a := by simpa using hx.2
      have hy2 : rl y = b := by simpa using hy.2
      have hne : rl x ≠ rl y := by rw [hx2, hy2]; exact hab
      exact ⟨conj_zero hr hA (hB g) x hx.1 y hy.1 hne, conj_zero hr hA (hB g) y hy.1 x hx.1 hne.symm⟩

/-- A correct answer of `connected_components` exists for every graph. -/
theorem exists_components (nV : ℕ) (adj : ℕ → ℕ → Prop) : ∃ n lab, IsComponents nV adj n lab := by
  classical
  let S : Setoid (Fin nV) := ⟨fun u v => Relation.EqvGen (fun a b => a < nV ∧ b < nV ∧ adj a b) u v,
    ⟨fun u => Relation.EqvGen.refl _, fun h => Relation.EqvGen.symm _ _ h, fun h h' => Relation.EqvGen.trans _ _ _ h h'⟩⟩
  have : Fintype (Quotient S) := Fintype.ofFinite _
  let e := Fintype.equivFin (Quotient S)
  refine ⟨Fintype.card (Quotient S), fun v => if h : v < nV then e (Quotient.mk S ⟨v, h⟩) else 0, ?_, ?_, ?_⟩
  · intro v hv
    simp only [hv, dif_pos]
    exact Fin.is_lt _
  · intro b hb
    obtain ⟨⟨v, hv⟩, he⟩ := Quotient.exists_rep (e.symm ⟨b, hb⟩)
    refine ⟨v, hv, ?_⟩
    simp only [hv, dif_pos]
    rw [show Quotient.mk S ⟨v, hv⟩ = e.symm ⟨b, hb⟩ from he]
    simp
  · intro u hu v hv
    simp only [hu, hv, dif_pos]
    rw [← Fin.ext_iff, e.apply_eq_iff_eq, Quotient.eq]
    rfl

/-- The hypotheses of `c11_disentangle` are met by a representation with two one-dimensional irreps and the change of
basis swapping them; there the two rows are in different components. -/
example : ∃ (r : Repr ℤ) (n : ℕ) (lab : ℕ → ℕ), r.irreps.length = 2 ∧ r.WF ∧ r.cob 0 1 = 1 ∧
    IsComponents (r.irreps.length + r.size) r.entangled n lab := by
  let i : Irrep ℤ := { size := 1, socs := 1, mat := fun e => m1 e, freq := 0, flip := 0 }
  let r : Repr ℤ := ⟨[i, i], m2 0 1 1 0, m2 0 1 1 0⟩
  obtain ⟨n, lab, h⟩ := exists_components (r.irreps.length + r.size) r.entangled
  refine ⟨r, n, lab, rfl, ?_, rfl, h⟩
  refine isInv_of_left ?_
  show MEq 2 2 (Mat.mul 2 (m2 0 1 1 0) (m2 0 1 1 0)) _
  rw [m2_mul]
  norm_num
  exact m2_one

end E2
