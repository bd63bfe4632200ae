import Mathlib.Data.List.ProdSigma
import Verif.Lemmas.Expansion
import Verif.Props.KernelSpec

/-!
# The filter computed by `BlocksBasisExpansion.forward`
-/

set_option linter.unusedSectionVars false

namespace E2

open Finset Mat

variable {F A I V W : Type}

namespace Exp

/-- Conditions on the inputs of the constructor: the representations have positive sizes, the bases given to the expansion are
not empty (otherwise `EmptyBasisException` is raised) and the identifiers inside a block are distinct. -/
structure WF (E : Exp F A I) : Prop where
  inNe : E.inT ≠ []
  outNe : E.outT ≠ []
  inSz : ∀ n ∈ E.inT, 0 < E.sz n
  outSz : ∀ n ∈ E.outT, 0 < E.sz n
  blkNe : ∀ i ∈ E.inT, ∀ o ∈ E.outT, ∀ bl, E.gen i o = some bl → bl ≠ []
  ids : ∀ i ∈ E.inT, ∀ o ∈ E.outT, ∀ bl, E.gen i o = some bl → (bl.map fun e => E.ident e.attr).Nodup

variable [LinearOrder F] [DecidableEq I]

theorem block_eq (E : Exp F A I) {p : F × F} (hp : p ∈ E.pairs) : E.gen p.1 p.2 = some (E.block p) := by
  obtain ⟨_, _, h⟩ := (E.mem_pairs p).1 hp
  obtain ⟨b, hb⟩ := Option.isSome_iff_exists.1 h
  rw [block, hb]; rfl

theorem WF.block_pos {E : Exp F A I} (h : E.WF) {p : F × F} (hp : p ∈ E.pairs) : 0 < (E.block p).length := by
  obtain ⟨h1, h2, _⟩ := (E.mem_pairs p).1 hp
  exact List.length_pos_iff.2 (h.blkNe _ h1 _ h2 _ (E.block_eq hp))

theorem basisToIds_length (E : Exp F A I) : E.basisToIds.length = E.total := by
  rw [basisToIds, List.length_flatMap, total]
  congr 1
  apply List.map_congr_left
  intro p _
  exact E.basisIds_length p

theorem WF.ids_nodup {E : Exp F A I} (h : E.WF) : E.basisToIds.Nodup := by
  rw [basisToIds, List.nodup_flatMap]
  constructor
  · intro p hp
    obtain ⟨h1, h2, _⟩ := (E.mem_pairs p).1 hp
    have hn := h.ids _ h1 _ h2 _ (E.block_eq hp)
    rw [basisIds_eq, List.nodup_flatMap]
    constructor
    · intro o _
      rw [List.nodup_flatMap]
      constructor
      · intro i _
        refine (List.Nodup.of_map ParamId.elem ?_)
        rw [List.map_map]
        exact hn
      · refine (posOf_nodup _ _).imp ?_
        intro a b hab q hq hq'
        obtain ⟨_, _, rfl⟩ := List.mem_map.1 hq
        obtain ⟨_, _, he⟩ := List.mem_map.1 hq'
        exact hab (congrArg ParamId.inPos he).symm
    · refine (posOf_nodup _ _).imp ?_
      intro a b hab q hq hq'
      obtain ⟨_, _, hq⟩ := List.mem_flatMap.1 hq
      obtain ⟨_, _, rfl⟩ := List.mem_map.1 hq
      obtain ⟨_, _, hq'⟩ := List.mem_flatMap.1 hq'
      obtain ⟨_, _, he⟩ := List.mem_map.1 hq'
      exact hab (congrArg ParamId.outPos he).symm
  · refine E.pairs_nodup.imp ?_
    intro a b hab q hq hq'
    rw [basisIds_eq] at hq hq'
    obtain ⟨_, _, hq⟩ := List.mem_flatMap.1 hq
    obtain ⟨_, _, hq⟩ := List.mem_flatMap.1 hq
    obtain ⟨_, _, rfl⟩ := List.mem_map.1 hq
    obtain ⟨_, _, hq'⟩ := List.mem_flatMap.1 hq'
    obtain ⟨_, _, hq'⟩ := List.mem_flatMap.1 hq'
    obtain ⟨_, _, he⟩ := List.mem_map.1 hq'
    exact hab (Prod.ext (congrArg ParamId.inName he).symm (congrArg ParamId.outName he).symm)

theorem WF.dimension_eq {E : Exp F A I} (h : E.WF) : E.dimension = E.total := by
  rw [dimension, h.ids_nodup.dedup, basisToIds_length]

/-! ## Indices -/

theorem indices_eq (E : Exp F A I) (t : List F) (n : F) : E.indices t n = chanIdx (t.map E.sz) (posOf t n) :=
  (labelIdx_eq t (t.map E.sz) (by simp) n).1

theorem indices_ne (E : Exp F A I) {t : List F} {n : F} (hn : n ∈ t) (hs : 0 < E.sz n) : E.indices t n ≠ [] := by
  rw [indices_eq]
  intro h
  have := chanIdx_posOf_length E.sz t n
  rw [h, List.length_nil] at this
  have hc : 0 < t.count n := List.count_pos_iff.2 hn
  have := Nat.mul_pos hc hs
  omega

theorem indices_pairwise (E : Exp F A I) (t : List F) (n : F) : (E.indices t n).Pairwise (· < ·) := by
  rw [indices_eq]
  exact chanIdx_pairwise _ _ (fun c hc => by simpa using posOf_lt hc) (posOf_pairwise _ _)

theorem contig_eq (E : Exp F A I) {t : List F} {n : F} (hn : n ∈ t) (hs : 0 < E.sz n) :
    ∃ b, E.contig t n = some b ∧ (b = true ↔ ∃ a m, E.indices t n = List.range' a m) :=
  c32_test_iff_range _ (E.indices_ne hn hs) (E.indices_pairwise t n)

/-! ## One block -/

/-- The value of the filter at entry `(r, c)` of the block number `po`, `pi` of the pair `p`. -/
noncomputable def val (E : Exp F A I) (w : List ℝ) (j : ℕ) (p : F × F) (po pi r c s : ℕ) : ℝ :=
  blockForward (E.block p) (fun e => w.getD (E.start j + ((po * E.inT.count p.1 + pi) * (E.block p).length + e)) 0) r c s

theorem expandBlock_eq (E : Exp F A I) (w : List ℝ) (hw : w.length = E.total) {j : ℕ} {p : F × F} (hj : E.pairs[j]? = some p)
    (hd : 0 < (E.block p).length) :
    ∃ X, E.expandBlock w p = some X ∧ ∀ po pi r c s, po < E.outT.count p.2 → pi < E.inT.count p.1 →
      X po r pi c s = E.val w j p po pi r c s := by
  have hle := E.start_add_le hj
  have hlen : (pySlice w (E.start j) (E.start j + E.len p)).length = E.len p := by
    simp [pySlice, hw]; omega
  rw [expandBlock, E.ranges_find_pair hj]
  simp only [hlen]
  have hm : E.len p = (E.outT.count p.2 * E.inT.count p.1) * (E.block p).length := by rw [len, Nat.mul_assoc]
  rw [if_pos ⟨by rw [hm, Nat.mul_mod_left], by rw [hm, Nat.mul_div_cancel _ hd]⟩]
  refine ⟨_, rfl, ?_⟩
  intro po pi r c s hpo hpi
  unfold val blockForward
  apply Finset.sum_congr rfl
  intro e he
  congr 1
  have he := Finset.mem_range.1 he
  have hlt : (po * E.inT.count p.1 + pi) * (E.block p).length + e < E.len p := by
    rw [hm]
    calc (po * E.inT.count p.1 + pi) * (E.block p).length + e < (po * E.inT.count p.1 + pi + 1) * (E.block p).length := by
          rw [Nat.succ_mul]; omega
      _ ≤ _ := Nat.mul_le_mul_right _ (by nlinarith)
  beta_reduce
  rw [List.getD_eq_getElem?_getD, List.getD_eq_getElem?_getD, pySlice, List.getElem?_drop, List.getElem?_take,
    if_pos (by omega)]

theorem writePoints_aux (rows : ℕ → ℕ → ℝ) (L : List (ℕ × ℕ)) (f : Arr3) (c a b s : ℕ) :
    ((a, b) ∉ L → (L.zipIdx c).foldl (fun (g : Arr3) q a b s => if a = q.1.1 ∧ b = q.1.2 then rows q.2 s else g a b s) f a b s = f a b s) ∧
    (∀ k, L.Nodup → L[k]? = some (a, b) →
      (L.zipIdx c).foldl (fun (g : Arr3) q a b s => if a = q.1.1 ∧ b = q.1.2 then rows q.2 s else g a b s) f a b s = rows (c + k) s) := by
  induction L generalizing f c with
  | nil => simp
  | cons q L ih =>
    rw [List.zipIdx_cons, List.foldl_cons]
    obtain ⟨h1, h2⟩ := ih (fun a b s => if a = q.1 ∧ b = q.2 then rows c s else f a b s) (c + 1)
    constructor
    · intro hm
      rw [List.mem_cons, not_or] at hm
      rw [h1 hm.2, if_neg]
      rintro ⟨rfl, rfl⟩
      exact hm.1 rfl
    · intro k hn hk
      rw [List.nodup_cons] at hn
      cases k with
      | zero =>
        rw [List.getElem?_cons_zero, Option.some.injEq] at hk
        subst hk
        rw [h1 hn.1]; simp
      | succ k =>
        rw [List.getElem?_cons_succ] at hk
        rw [h2 k hn.2 hk]; congr 1; omega

theorem mesh_zip (out inn : List ℕ) : (meshOut out inn).zip (meshIn out inn) = out ×ˢ inn := by
  induction out with
  | nil => simp [meshOut, meshIn]
  | cons a out ih =>
    rw [meshOut, meshIn, List.flatMap_cons, List.flatMap_cons, List.zip_append (by simp), List.product_cons, ← ih, meshOut, meshIn]
    congr 1
    rw [List.zip_map_left]
    clear ih
    induction inn with
    | nil => rfl
    | cons b inn ih => simpa using ih

theorem writePoints_eq (f : Arr3) (out inn : List ℕ) (ho : out.Nodup) (hi : inn.Nodup) (rows : ℕ → ℕ → ℝ) (a b s : ℕ) :
    (¬ (a ∈ out ∧ b ∈ inn) → writePoints f (meshOut out inn) (meshIn out inn) rows a b s = f a b s) ∧
    (∀ x y, out[x]? = some a → inn[y]? = some b →
      writePoints f (meshOut out inn) (meshIn out inn) rows a b s = rows (x * inn.length + y) s) := by
  unfold writePoints
  rw [mesh_zip]
  constructor
  · intro h
    exact (writePoints_aux rows _ f 0 a b s).1 (by rwa [List.mem_product])
  · intro x y hx hy
    have := (writePoints_aux rows (out ×ˢ inn) f 0 a b s).2 (x * inn.length + y) (ho.product hi) (by
      change (out.flatMap fun a => inn.map (Prod.mk a))[_]? = _
      rw [flatMap_const_get _ _ inn.length (by simp) _ _ (List.getElem?_eq_some_iff.1 hy).1, hx]
      simp [hy])
    rw [this, Nat.zero_add]

theorem divmod (k n r : ℕ) (h : r < n) : (k * n + r) / n = k ∧ (k * n + r) % n = r := by
  constructor
  · rw [Nat.add_comm, Nat.add_mul_div_right _ _ (by omega), Nat.div_eq_of_lt h, Nat.zero_add]
  · rw [Nat.add_comm, Nat.add_mul_mod_self_right, Nat.mod_eq_of_lt h]

theorem range'_of_pos (E : Exp F A I) {t : List F} {n : F} {a m : ℕ} (h : E.indices t n = List.range' a m) (hne : E.indices t n ≠ []) :
    ∃ m', m = m' + 1 ∧ (E.indices t n).min? = some a ∧ (E.indices t n).max? = some (a + m') := by
  cases m with
  | zero => rw [h] at hne; simp at hne
  | succ m => exact ⟨m, rfl, by rw [h, min?_range'], by rw [h, max?_range']⟩

/-- One step of the loop writes the blocks of one pair and nothing else. -/
theorem writePair_eq {E : Exp F A I} (hE : E.WF) (w : List ℝ) (hw : w.length = E.total) {j : ℕ} {p : F × F} (hj : E.pairs[j]? = some p)
    (f : Arr3) :
    ∃ f', E.writePair w p f = some f' ∧ ∀ (o i r c s : ℕ) (n m : F), E.outT[o]? = some n → E.inT[i]? = some m → r < E.sz n → c < E.sz m →
      ((m, n) ≠ p → f' (offset (E.outT.map E.sz) o + r) (offset (E.inT.map E.sz) i + c) s
        = f (offset (E.outT.map E.sz) o + r) (offset (E.inT.map E.sz) i + c) s) ∧
      (∀ po pi, (m, n) = p → (posOf E.outT p.2)[po]? = some o → (posOf E.inT p.1)[pi]? = some i →
        f' (offset (E.outT.map E.sz) o + r) (offset (E.inT.map E.sz) i + c) s = E.val w j p po pi r c s) := by
  have hp := List.mem_of_getElem? hj
  obtain ⟨h1, h2, _⟩ := (E.mem_pairs p).1 hp
  obtain ⟨ci, hci, hci'⟩ := E.contig_eq h1 (hE.inSz _ h1)
  obtain ⟨co, hco, hco'⟩ := E.contig_eq h2 (hE.outSz _ h2)
  obtain ⟨X, hX, hX'⟩ := E.expandBlock_eq w hw hj (hE.block_pos hp)
  have hine := E.indices_ne h1 (hE.inSz _ h1)
  have hone := E.indices_ne h2 (hE.outSz _ h2)
  have hmiss : ∀ (o i r c : ℕ) (n m : F), E.outT[o]? = some n → E.inT[i]? = some m → r < E.sz n → c < E.sz m → (m, n) ≠ p →
      ¬ (offset (E.outT.map E.sz) o + r ∈ E.indices E.outT p.2 ∧ offset (E.inT.map E.sz) i + c ∈ E.indices E.inT p.1) := by
    intro o i r c n m ho hi hr hc hne h
    rw [indices_eq, indices_eq, mem_chanIdx_posOf _ _ _ ho hr, mem_chanIdx_posOf _ _ _ hi hc] at h
    exact hne (Prod.ext h.2 h.1)
  unfold writePair
  rw [hci, hco, hX]
  simp only [Option.bind_some]
  by_cases hcc : ci = true ∧ co = true
  · rw [if_pos hcc]
    obtain ⟨ai, mi, hri⟩ := hci'.1 hcc.1
    obtain ⟨ao, mo, hro⟩ := hco'.1 hcc.2
    obtain ⟨mi, rfl, hi1, hi2⟩ := E.range'_of_pos hri hine
    obtain ⟨mo, rfl, ho1, ho2⟩ := E.range'_of_pos hro hone
    rw [hi1, hi2, ho1, ho2]
    refine ⟨_, rfl, ?_⟩
    intro o i r c s n m ho hi hr hc
    constructor
    · intro hne
      have := hmiss o i r c n m ho hi hr hc hne
      rw [hri, hro, List.mem_range'_1, List.mem_range'_1] at this
      rw [writeRect, if_neg (by omega)]
    · intro po pi he hpo hpi
      subst he
      have e1 := chanIdx_get E.sz E.outT n hpo hr
      have e2 := chanIdx_get E.sz E.inT m hpi hc
      rw [← indices_eq, hro] at e1
      rw [← indices_eq, hri] at e2
      have l1 := (List.getElem?_eq_some_iff.1 e1).1
      have l2 := (List.getElem?_eq_some_iff.1 e2).1
      rw [List.length_range'] at l1 l2
      rw [List.getElem?_range' l1, Option.some.injEq] at e1
      rw [List.getElem?_range' l2, Option.some.injEq] at e2
      have q1 : offset (E.outT.map E.sz) o + r - ao = po * E.sz n + r := by omega
      have q2 : offset (E.inT.map E.sz) i + c - ai = pi * E.sz m + c := by omega
      rw [writeRect, if_pos (by omega), mergeAxes, q1, q2]
      obtain ⟨d1, d2⟩ := divmod po _ _ hr
      obtain ⟨d3, d4⟩ := divmod pi _ _ hc
      rw [d1, d2, d3, d4]
      exact hX' po pi r c s (by rw [← posOf_length]; exact (List.getElem?_eq_some_iff.1 hpo).1)
        (by rw [← posOf_length]; exact (List.getElem?_eq_some_iff.1 hpi).1)
  · rw [if_neg hcc]
    refine ⟨_, rfl, ?_⟩
    intro o i r c s n m ho hi hr hc
    obtain ⟨w1, w2⟩ := writePoints_eq f (E.indices E.outT p.2) (E.indices E.inT p.1)
      ((E.indices_pairwise _ _).imp (fun h => (Nat.ne_of_lt h))) ((E.indices_pairwise _ _).imp (fun h => (Nat.ne_of_lt h)))
      (fun k s => mergeAxes (E.sz p.2) (E.sz p.1) X (k / (E.indices E.inT p.1).length) (k % (E.indices E.inT p.1).length) s)
      (offset (E.outT.map E.sz) o + r) (offset (E.inT.map E.sz) i + c) s
    constructor
    · intro hne
      exact w1 (hmiss o i r c n m ho hi hr hc hne)
    · intro po pi he hpo hpi
      subst he
      have e1 := chanIdx_get E.sz E.outT n hpo hr
      have e2 := chanIdx_get E.sz E.inT m hpi hc
      rw [← indices_eq] at e1 e2
      have l2 := (List.getElem?_eq_some_iff.1 e2).1
      rw [w2 _ _ e1 e2]
      obtain ⟨d5, d6⟩ := divmod (po * E.sz n + r) _ _ l2
      rw [d5, d6, mergeAxes]
      obtain ⟨d1, d2⟩ := divmod po _ _ hr
      obtain ⟨d3, d4⟩ := divmod pi _ _ hc
      rw [d1, d2, d3, d4]
      exact hX' po pi r c s (by rw [← posOf_length]; exact (List.getElem?_eq_some_iff.1 hpo).1)
        (by rw [← posOf_length]; exact (List.getElem?_eq_some_iff.1 hpi).1)

/-- The loop over the pairs. -/
theorem fold_eq {E : Exp F A I} (hE : E.WF) (w : List ℝ) (hw : w.length = E.total) (ps : List (F × F)) (hps : ps.Nodup)
    (hsub : ∀ p ∈ ps, p ∈ E.pairs) (f : Arr3) :
    ∃ f', ps.foldlM (fun f p => E.writePair w p f) f = some f' ∧
      ∀ (o i r c s : ℕ) (n m : F), E.outT[o]? = some n → E.inT[i]? = some m → r < E.sz n → c < E.sz m →
      ((m, n) ∉ ps → f' (offset (E.outT.map E.sz) o + r) (offset (E.inT.map E.sz) i + c) s
        = f (offset (E.outT.map E.sz) o + r) (offset (E.inT.map E.sz) i + c) s) ∧
      (∀ j po pi, (m, n) ∈ ps → E.pairs[j]? = some (m, n) → (posOf E.outT n)[po]? = some o → (posOf E.inT m)[pi]? = some i →
        f' (offset (E.outT.map E.sz) o + r) (offset (E.inT.map E.sz) i + c) s = E.val w j (m, n) po pi r c s) := by
  induction ps generalizing f with
  | nil => exact ⟨f, rfl, fun o i r c s n m _ _ _ _ => ⟨fun _ => rfl, fun j po pi h => by simp at h⟩⟩
  | cons p ps ih =>
    rw [List.nodup_cons] at hps
    obtain ⟨j0, hj0⟩ : ∃ j : ℕ, E.pairs[j]? = some p := List.mem_iff_getElem?.1 (hsub p (by simp))
    obtain ⟨f1, h1, h1'⟩ := writePair_eq hE w hw hj0 f
    obtain ⟨f2, h2, h2'⟩ := ih hps.2 (fun q hq => hsub q (by simp [hq])) f1
    refine ⟨f2, by rw [List.foldlM_cons, h1]; exact h2, ?_⟩
    intro o i r c s n m ho hi hr hc
    obtain ⟨a1, a2⟩ := h1' o i r c s n m ho hi hr hc
    obtain ⟨b1, b2⟩ := h2' o i r c s n m ho hi hr hc
    constructor
    · intro hn
      rw [List.mem_cons, not_or] at hn
      rw [b1 hn.2, a1 hn.1]
    · intro j po pi hm hj hpo hpi
      rcases List.mem_cons.1 hm with h | h
      · subst h
        have hjj : j = j0 := by
          obtain ⟨x1, x2⟩ := List.getElem?_eq_some_iff.1 hj
          obtain ⟨x3, x4⟩ := List.getElem?_eq_some_iff.1 hj0
          exact E.pairs_nodup.getElem_inj_iff.1 (x2.trans x4.symm)
        rw [b1 hps.1, hjj]
        exact a2 po pi rfl hpo hpi
      · exact b2 j po pi h hj hpo hpi

theorem eq_of_nPairs {E : Exp F A I} (h : E.nPairs = 1) : (∀ a ∈ E.inT, ∀ b ∈ E.inT, a = b) ∧ (∀ a ∈ E.outT, ∀ b ∈ E.outT, a = b) := by
  unfold nPairs at h
  have h1 := Nat.eq_one_of_mul_eq_one_right h
  have h2 := Nat.eq_one_of_mul_eq_one_left h
  have key : ∀ t : List F, t.dedup.length = 1 → ∀ a ∈ t, ∀ b ∈ t, a = b := by
    intro t ht a ha b hb
    obtain ⟨x, hx⟩ := List.length_eq_one_iff.1 ht
    have ha := List.mem_dedup.2 ha
    have hb := List.mem_dedup.2 hb
    rw [hx, List.mem_singleton] at ha hb
    rw [ha, hb]
  exact ⟨key _ h1, key _ h2⟩

theorem posOf_all {t : List F} {n : F} (h : ∀ a ∈ t, a = n) : posOf t n = List.range t.length := by
  unfold posOf
  apply List.filter_eq_self.2
  intro i hi
  have hi := List.mem_range.1 hi
  rw [List.getElem?_eq_getElem hi, h _ (List.getElem_mem hi)]
  simp

theorem offset_all {t : List F} {n : F} (sz : F → ℕ) (h : ∀ a ∈ t, a = n) (i : ℕ) (hi : i ≤ t.length) : offset (t.map sz) i = i * sz n := by
  induction i with
  | zero => simp [offset_zero]
  | succ i ih =>
    rw [offset_succ _ (by simp; omega), ih (by omega), List.getElem_map, h _ (List.getElem_mem _), Nat.succ_mul]

/-- The entries of the filter. -/
theorem forward_eq {E : Exp F A I} (hE : E.WF) (hone : E.nPairs = 1 → E.pairs ≠ []) (w : List ℝ) (hw : w.length = E.dimension) :
    ∃ f, E.forward w = some f ∧ ∀ (o i r c s : ℕ) (n m : F), E.outT[o]? = some n → E.inT[i]? = some m → r < E.sz n → c < E.sz m →
      ((m, n) ∉ E.pairs → f (offset (E.outT.map E.sz) o + r) (offset (E.inT.map E.sz) i + c) s = 0) ∧
      (∀ j po pi, E.pairs[j]? = some (m, n) → (posOf E.outT n)[po]? = some o → (posOf E.inT m)[pi]? = some i →
        f (offset (E.outT.map E.sz) o + r) (offset (E.inT.map E.sz) i + c) s = E.val w j (m, n) po pi r c s) := by
  have hw' : w.length = E.total := by rw [hw, hE.dimension_eq]
  rw [forward, if_pos hw]
  by_cases h1 : E.nPairs = 1
  · rw [if_pos h1]
    obtain ⟨p, hp⟩ := List.exists_mem_of_ne_nil _ (hone h1)
    obtain ⟨e1, e2⟩ := eq_of_nPairs h1
    obtain ⟨m1, m2, _⟩ := (E.mem_pairs p).1 hp
    have hall : ∀ q ∈ E.pairs, q = p := by
      intro q hq
      obtain ⟨x1, x2, _⟩ := (E.mem_pairs q).1 hq
      exact Prod.ext (e1 _ x1 _ m1) (e2 _ x2 _ m2)
    obtain ⟨q, l, hql⟩ := List.exists_cons_of_ne_nil (hone h1)
    have hq : q = p := hall q (by rw [hql]; simp)
    subst hq
    have hl : l = [] := by
      have hn := E.pairs_nodup
      rw [hql, List.nodup_cons] at hn
      rw [List.eq_nil_iff_forall_not_mem]
      intro x hx
      have := hall x (by rw [hql]; simp [hx])
      subst this
      exact hn.1 hx
    subst hl
    have hj : E.pairs[0]? = some q := by rw [hql]; rfl
    have hin : ∀ a ∈ E.inT, a = q.1 := fun a ha => e1 a ha _ m1
    have hout : ∀ a ∈ E.outT, a = q.2 := fun a ha => e2 a ha _ m2
    have hrange : ∀ t : List F, ∀ n, (∀ a ∈ t, a = n) → ∃ a m, E.indices t n = List.range' a m := by
      intro t n ht
      rw [indices_eq, posOf_all ht, List.range_eq_range', chanIdx_range' _ _ _ (by simp)]
      exact ⟨_, _, rfl⟩
    obtain ⟨ci, hci, hci'⟩ := E.contig_eq m1 (hE.inSz _ m1)
    obtain ⟨co, hco, hco'⟩ := E.contig_eq m2 (hE.outSz _ m2)
    obtain ⟨X, hX, hX'⟩ := E.expandBlock_eq w hw' hj (hE.block_pos hp)
    rw [hql]
    simp only
    rw [hci, hco, hX]
    simp only [Option.bind_some, Option.map_some]
    rw [if_pos ⟨hci'.2 (hrange _ _ hin), hco'.2 (hrange _ _ hout)⟩]
    refine ⟨_, rfl, ?_⟩
    intro o i r c s n m ho hi hr hc
    have hm : m = q.1 := hin _ (List.mem_of_getElem? hi)
    have hn : n = q.2 := hout _ (List.mem_of_getElem? ho)
    have hmn : (m, n) = q := Prod.ext hm hn
    constructor
    · intro h
      rw [hmn] at h
      simp at h
    · intro j po pi hj' hpo hpi
      have hj0 : j = 0 := by
        have := (List.getElem?_eq_some_iff.1 hj').1
        simp at this; exact this
      subst hj0
      have ho' := (List.getElem?_eq_some_iff.1 ho).1
      have hi' := (List.getElem?_eq_some_iff.1 hi).1
      rw [hn, posOf_all hout, List.getElem?_eq_some_iff] at hpo
      rw [hm, posOf_all hin, List.getElem?_eq_some_iff] at hpi
      obtain ⟨hpo, ho2⟩ := hpo
      obtain ⟨hpi, hi2⟩ := hpi
      rw [List.getElem_range] at ho2 hi2
      subst ho2; subst hi2
      rw [List.length_range] at hpo hpi
      rw [offset_all E.sz hout _ (by omega), offset_all E.sz hin _ (by omega), mergeAxes]
      rw [hn] at hr
      rw [hm] at hc
      obtain ⟨d1, d2⟩ := divmod po _ _ hr
      obtain ⟨d3, d4⟩ := divmod pi _ _ hc
      rw [d1, d2, d3, d4, hmn]
      exact hX' po pi r c s (by rw [← posOf_length, posOf_all hout]; simpa using hpo)
        (by rw [← posOf_length, posOf_all hin]; simpa using hpi)
  · rw [if_neg h1]
    obtain ⟨f, hf, hf'⟩ := fold_eq hE w hw' E.pairs E.pairs_nodup (fun _ h => h) fun _ _ _ => 0
    refine ⟨f, hf, ?_⟩
    intro o i r c s n m ho hi hr hc
    obtain ⟨a1, a2⟩ := hf' o i r c s n m ho hi hr hc
    exact ⟨fun h => a1 h, fun j po pi hj => a2 j po pi (List.mem_of_getElem? hj) hj⟩

end Exp

end E2
