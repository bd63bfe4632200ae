import Verif.Model.Steerable
import Verif.Props.KernelSpec
import Verif.Lemmas.Bdiag
import Mathlib.Data.List.GetD

/-!
# Helper lemmas on steerable bases
-/

namespace E2

open Finset Mat

theorem tr_place (r0 rs c0 cs : ℕ) (M : Mat) : Mat.tr (Mat.place r0 rs c0 cs M) = Mat.place c0 cs r0 rs (Mat.tr M) := by
  funext i j
  simp only [Mat.tr, Mat.place]
  exact if_congr and_comm rfl rfl

theorem tr_bdiag (l : List (ℕ × Mat)) : Mat.tr (bdiag l) = bdiag (l.map fun p => (p.1, Mat.tr p.2)) := by
  induction l with
  | nil => rfl
  | cons a l ih =>
    obtain ⟨s, A⟩ := a
    funext i j
    have := congrFun (congrFun ih (i - s)) (j - s)
    simp only [Mat.tr, bdiag, List.map_cons] at this ⊢
    by_cases hi : i < s <;> by_cases hj : j < s <;> simp [hi, hj, this]

theorem bdiag_mul_place (l : List (ℕ × Mat)) {k : ℕ} (hk : k < l.length) (c0 cs : ℕ) (M : Mat) :
    Mat.mul (l.map Prod.fst).sum (bdiag l) (Mat.place (offset (l.map Prod.fst) k) l[k].1 c0 cs M)
      = Mat.place (offset (l.map Prod.fst) k) l[k].1 c0 cs (Mat.mul l[k].1 l[k].2 M) := by
  induction l generalizing k with
  | nil => simp at hk
  | cons a l ih =>
    obtain ⟨s, A⟩ := a
    funext i j
    simp only [Mat.mul, List.map_cons, List.sum_cons]
    rw [Finset.sum_range_add]
    cases k with
    | zero =>
      simp only [offset_zero, List.getElem_cons_zero, Mat.place, zero_le, true_and, zero_add, Nat.sub_zero]
      rw [Finset.sum_eq_zero (s := range (l.map Prod.fst).sum) (fun t _ => by rw [if_neg (by omega), mul_zero]), add_zero]
      by_cases hi : i < s
      · by_cases hj : c0 ≤ j ∧ j < c0 + cs
        · rw [if_pos ⟨hi, hj⟩]
          refine Finset.sum_congr rfl fun t ht => ?_
          have := mem_range.1 ht
          rw [if_pos ⟨this, hj⟩]
          simp [bdiag, hi, this]
        · rw [if_neg (by tauto)]
          exact Finset.sum_eq_zero fun t _ => by rw [if_neg (by tauto), mul_zero]
      · rw [if_neg (by tauto)]
        refine Finset.sum_eq_zero fun t ht => ?_
        have := mem_range.1 ht
        simp [bdiag, hi, this]
    | succ k =>
      simp only [offset_cons_succ, List.getElem_cons_succ]
      rw [Finset.sum_eq_zero (s := range s) (fun t ht => by
        have := mem_range.1 ht
        simp only [Mat.place]
        rw [if_neg (by omega), mul_zero]), zero_add]
      have ih' := congrFun (congrFun (ih (by simpa using hk)) (i - s)) j
      simp only [Mat.mul] at ih'
      by_cases hi : i < s
      · rw [Mat.place, if_neg (by omega)]
        refine Finset.sum_eq_zero fun t _ => ?_
        simp [bdiag, hi]
      · have e : ∀ N : Mat, Mat.place (s + offset (l.map Prod.fst) k) (l[k]'(by simpa using hk)).1 c0 cs N i j
            = Mat.place (offset (l.map Prod.fst) k) (l[k]'(by simpa using hk)).1 c0 cs N (i - s) j := by
          intro N
          simp only [Mat.place]
          refine if_congr (by omega) ?_ rfl
          congr 1; omega
        rw [e, ← ih']
        refine Finset.sum_congr rfl fun t _ => ?_
        have e1 : s + t - s = t := by omega
        simp only [bdiag, hi, if_false, show ¬ s + t < s by omega, e1]
        congr 1
        simp only [Mat.place]
        refine if_congr (by omega) ?_ rfl
        congr 1; omega

theorem place_mul_bdiag (l : List (ℕ × Mat)) {k : ℕ} (hk : k < l.length) (r0 rs : ℕ) (M : Mat) :
    Mat.mul (l.map Prod.fst).sum (Mat.place r0 rs (offset (l.map Prod.fst) k) l[k].1 M) (bdiag l)
      = Mat.place r0 rs (offset (l.map Prod.fst) k) l[k].1 (Mat.mul l[k].1 M l[k].2) := by
  have h := bdiag_mul_place (l.map fun p => (p.1, Mat.tr p.2)) (k := k) (by simpa using hk) r0 rs (Mat.tr M)
  have e : ((l.map fun p => (p.1, Mat.tr p.2)).map Prod.fst) = l.map Prod.fst := by simp
  rw [e, ← tr_bdiag] at h
  simp only [List.getElem_map] at h
  have h' := congrArg Mat.tr h
  rw [tr_mul, tr_place, tr_place, tr_mul, tr_tr, tr_tr, tr_tr] at h'
  exact h'

theorem MEq_place {n m r0 rs c0 cs : ℕ} {M N : Mat} (h : MEq rs cs M N) :
    MEq n m (Mat.place r0 rs c0 cs M) (Mat.place r0 rs c0 cs N) := by
  intro i _ j _
  simp only [Mat.place]
  split_ifs with h1
  · exact h _ (by omega) _ (by omega)
  · rfl

namespace SBasis

variable {El E X : Type}

/-! ### Enumeration -/

theorem enum_getElem? {α : Type} (l : List α) (k : ℕ) : (enum l)[k]? = l[k]?.map fun a => (k, a) := by
  simp [enum, List.getElem?_zipIdx, Option.map_map, Function.comp_def]

theorem length_enum {α : Type} (l : List α) : (enum l).length = l.length := by simp [enum]

theorem iterLoop_append (bases : Irrep El → Irrep El → List E) (ps qs : List ((ℕ × Irrep El) × (ℕ × Irrep El))) (c : ℕ) :
    iterLoop bases (ps ++ qs) c = iterLoop bases ps c ++ iterLoop bases qs (c + (ps.map fun p => (bases p.1.2 p.2.2).length).sum) := by
  induction ps generalizing c with
  | nil => simp [iterLoop]
  | cons p ps ih =>
    obtain ⟨⟨ii, i⟩, ⟨oo, o⟩⟩ := p
    simp only [List.cons_append, iterLoop, ih, List.map_cons, List.sum_cons, List.append_assoc, Nat.add_assoc]

theorem length_iterLoop (bases : Irrep El → Irrep El → List E) (ps : List ((ℕ × Irrep El) × (ℕ × Irrep El))) (c : ℕ) :
    (iterLoop bases ps c).length = (ps.map fun p => (bases p.1.2 p.2.2).length).sum := by
  induction ps generalizing c with
  | nil => rfl
  | cons p ps ih =>
    obtain ⟨⟨ii, i⟩, ⟨oo, o⟩⟩ := p
    simp only [iterLoop, List.length_append, List.length_map, length_enum, ih, List.map_cons, List.sum_cons]

/-- What the `k`-th yielded entry says. -/
theorem iterLoop_get (bases : Irrep El → Irrep El → List E) (ps : List ((ℕ × Irrep El) × (ℕ × Irrep El))) (c k : ℕ) {a : Attr El E}
    (h : (iterLoop bases ps c)[k]? = some a) :
    ((a.inIdx, a.inIrrep), (a.outIdx, a.outIrrep)) ∈ ps ∧ (bases a.inIrrep a.outIrrep)[a.innerIdx]? = some a.elem ∧ a.idx = c + k := by
  induction ps generalizing c k with
  | nil => simp [iterLoop] at h
  | cons p ps ih =>
    obtain ⟨⟨ii, i⟩, ⟨oo, o⟩⟩ := p
    simp only [iterLoop] at h
    rw [List.getElem?_append] at h
    split_ifs at h with hk
    · rw [List.getElem?_map, enum_getElem?, Option.map_map, Option.map_eq_some_iff] at h
      obtain ⟨e, he, rfl⟩ := h
      exact ⟨by simp, he, rfl⟩
    · simp only [List.length_map, length_enum] at h hk
      obtain ⟨h1, h2, h3⟩ := ih _ _ h
      exact ⟨by simp [h1], h2, by omega⟩

theorem getLoop_eq (bases : Irrep El → Irrep El → List E) (ps : List ((ℕ × Irrep El) × (ℕ × Irrep El))) (c idx : ℕ) (h : c ≤ idx) :
    getLoop bases idx ps c = (iterLoop bases ps c)[idx - c]? := by
  induction ps generalizing c with
  | nil => simp [getLoop, iterLoop]
  | cons p ps ih =>
    obtain ⟨⟨ii, i⟩, ⟨oo, o⟩⟩ := p
    simp only [getLoop, iterLoop]
    rw [List.getElem?_append]
    simp only [List.length_map, length_enum]
    by_cases hl : bases i o = []
    · rw [if_pos hl, ih c h]
      simp [hl]
    · rw [if_neg hl]
      have e : ((idx : ℤ) - c).toNat = idx - c := by omega
      by_cases hk : idx - c < (bases i o).length
      · rw [if_pos (by omega), if_pos hk, List.getElem?_map, enum_getElem?, e, List.getElem?_eq_getElem hk]
        simp only [Option.map_some, Option.some.injEq, Attr.mk.injEq, true_and]
        omega
      · rw [if_neg (by omega), if_neg hk, ih _ (by omega)]
        congr 1; omega

/-! ### The sampling loops -/

/-- The pairs visited by the inner loop, from the `n`-th output irrep. -/
def rowPairs (p : ℕ × Irrep El) (n : ℕ) (os : List (Irrep El)) : List ((ℕ × Irrep El) × (ℕ × Irrep El)) :=
  (os.zipIdx n).map fun q => (p, (q.2, q.1))

theorem writeBlock_lt (out block : Arr3) (r0 rs c0 cs b0 bs : ℕ) {b : ℕ} (h : b < b0) (i j : ℕ) :
    writeBlock out r0 rs c0 cs b0 bs block i j b = out i j b := by
  rw [writeBlock, if_neg (by omega)]

theorem writeBlock_ge (out block : Arr3) (r0 rs c0 cs b0 bs : ℕ) {b : ℕ} (h : b0 + bs ≤ b) (i j : ℕ) :
    writeBlock out r0 rs c0 cs b0 bs block i j b = out i j b := by
  rw [writeBlock, if_neg (by omega)]

theorem loopOut_spec (samp : Irrep El → Irrep El → E → X → Mat) (bases : Irrep El → Irrep El → List E) (x : X) (i : Irrep El) (ii inPos : ℕ)
    (os pre : List (Irrep El)) (c : ℕ) (out : Arr3) (hz : ∀ r s b, c ≤ b → out r s b = 0) :
    (loopOut samp bases x i inPos os (pre.map Irrep.size).sum c out).1 = c + (os.map fun o => (bases i o).length).sum ∧
    (∀ r s b, b < c → (loopOut samp bases x i inPos os (pre.map Irrep.size).sum c out).2 r s b = out r s b) ∧
    (∀ r s b, c + (os.map fun o => (bases i o).length).sum ≤ b →
      (loopOut samp bases x i inPos os (pre.map Irrep.size).sum c out).2 r s b = 0) ∧
    (∀ k a, (iterLoop bases (rowPairs (ii, i) pre.length os) c)[k]? = some a → ∀ r s,
      (loopOut samp bases x i inPos os (pre.map Irrep.size).sum c out).2 r s (c + k)
        = Mat.place (offset ((pre ++ os).map Irrep.size) a.outIdx) a.outIrrep.size inPos a.inIrrep.size
            (samp a.inIrrep a.outIrrep a.elem x) r s) := by
  induction os generalizing pre c out with
  | nil =>
    refine ⟨by simp [loopOut], fun r s b _ => rfl, fun r s b h => ?_, fun k a h => ?_⟩
    · exact hz r s b (by simpa using h)
    · simp [rowPairs, iterLoop] at h
  | cons o os ih =>
    have epos : (pre.map Irrep.size).sum + o.size = ((pre ++ [o]).map Irrep.size).sum := by simp
    have erow : rowPairs (ii, i) pre.length (o :: os) = ((ii, i), (pre.length, o)) :: rowPairs (ii, i) (pre ++ [o]).length os := by
      simp [rowPairs]
    have eapp : pre ++ o :: os = (pre ++ [o]) ++ os := by simp
    by_cases hl : bases i o = []
    · simp only [loopOut, hl, if_true]
      rw [epos]
      obtain ⟨h1, h2, h3, h4⟩ := ih (pre ++ [o]) c out hz
      refine ⟨by rw [h1]; simp [hl], h2, fun r s b hb => h3 r s b (by simpa [hl] using hb), fun k a h r s => ?_⟩
      rw [erow] at h
      simp only [iterLoop, hl] at h
      simp only [enum, List.zipIdx_nil, List.map_nil, List.nil_append, List.length_nil, Nat.add_zero] at h
      rw [eapp]
      exact h4 k a h r s
    · simp only [loopOut, hl, if_false]
      rw [epos]
      set w := writeBlock out (pre.map Irrep.size).sum o.size inPos i.size c (bases i o).length (irrepSample samp i o (bases i o) x) with hw
      obtain ⟨h1, h2, h3, h4⟩ := ih (pre ++ [o]) (c + (bases i o).length) w (fun r s b hb => by
        rw [hw, writeBlock_ge _ _ _ _ _ _ _ _ hb]
        exact hz r s b (by omega))
      refine ⟨?_, fun r s b hb => ?_, fun r s b hb => ?_, fun k a h r s => ?_⟩
      · rw [h1]; simp [Nat.add_assoc]
      · rw [h2 r s b (by omega), hw, writeBlock_lt _ _ _ _ _ _ _ _ hb]
      · refine h3 r s b ?_
        simp only [List.map_cons, List.sum_cons] at hb
        omega
      · rw [erow] at h
        simp only [iterLoop] at h
        rw [List.getElem?_append] at h
        simp only [List.length_map, length_enum] at h
        split_ifs at h with hk
        · rw [List.getElem?_map, enum_getElem?, Option.map_map, Option.map_eq_some_iff] at h
          obtain ⟨e, he, rfl⟩ := h
          rw [h2 r s _ (by omega), hw, writeBlock]
          simp only [irrepSample]
          have e2 : c + k - c = k := by omega
          rw [e2, he]
          have e3 : offset ((pre ++ o :: os).map Irrep.size) pre.length = (pre.map Irrep.size).sum := by
            simp [offset]
          simp only [Mat.place, Function.comp]
          rw [e3, hz r s _ (by omega)]
          refine if_congr ?_ rfl rfl
          constructor
          · rintro ⟨ha, hb, -⟩; exact ⟨ha, hb⟩
          · rintro ⟨ha, hb⟩; exact ⟨ha, hb, by omega⟩
        · have := h4 _ a h r s
          rw [eapp, ← this, show c + (bases i o).length + (k - (bases i o).length) = c + k by omega]

/-- The pairs visited by the nested loops, from the `n`-th input irrep. -/
def allPairs (outs : List (Irrep El)) (n : ℕ) (is : List (Irrep El)) : List ((ℕ × Irrep El) × (ℕ × Irrep El)) :=
  (is.zipIdx n).flatMap fun p => rowPairs (p.2, p.1) 0 outs

theorem pairs_eq (S : SBasis El E) : S.pairs = allPairs S.outs 0 S.ins := by
  simp [pairs, allPairs, enum, rowPairs, List.flatMap_map, Function.comp_def]

theorem sum_rowPairs (bases : Irrep El → Irrep El → List E) (p : ℕ × Irrep El) (n : ℕ) (os : List (Irrep El)) :
    ((rowPairs p n os).map fun q => (bases q.1.2 q.2.2).length).sum = (os.map fun o => (bases p.2 o).length).sum := by
  induction os generalizing n with
  | nil => rfl
  | cons o os ih =>
    simp only [rowPairs, List.zipIdx_cons, List.map_cons, List.sum_cons] at ih ⊢
    rw [ih (n + 1)]

theorem sum_allPairs (bases : Irrep El → Irrep El → List E) (outs : List (Irrep El)) (n : ℕ) (is : List (Irrep El)) :
    ((allPairs outs n is).map fun q => (bases q.1.2 q.2.2).length).sum
      = (is.map fun i => (outs.map fun o => (bases i o).length).sum).sum := by
  induction is generalizing n with
  | nil => rfl
  | cons i is ih =>
    simp only [allPairs, List.zipIdx_cons, List.flatMap_cons, List.map_append, List.sum_append, List.map_cons, List.sum_cons] at ih ⊢
    rw [ih (n + 1), sum_rowPairs]

theorem loopIn_spec (samp : Irrep El → Irrep El → E → X → Mat) (bases : Irrep El → Irrep El → List E) (x : X) (outs : List (Irrep El))
    (is pre : List (Irrep El)) (c : ℕ) (out : Arr3) (hz : ∀ r s b, c ≤ b → out r s b = 0) :
    (∀ r s b, b < c → loopIn samp bases x outs is (pre.map Irrep.size).sum c out r s b = out r s b) ∧
    (∀ k a, (iterLoop bases (allPairs outs pre.length is) c)[k]? = some a → ∀ r s,
      loopIn samp bases x outs is (pre.map Irrep.size).sum c out r s (c + k)
        = Mat.place (offset (outs.map Irrep.size) a.outIdx) a.outIrrep.size
            (offset ((pre ++ is).map Irrep.size) a.inIdx) a.inIrrep.size (samp a.inIrrep a.outIrrep a.elem x) r s) := by
  induction is generalizing pre c out with
  | nil =>
    refine ⟨fun r s b _ => rfl, fun k a h => ?_⟩
    simp [allPairs, iterLoop] at h
  | cons i is ih =>
    have epos : (pre.map Irrep.size).sum + i.size = ((pre ++ [i]).map Irrep.size).sum := by simp
    have erow : allPairs outs pre.length (i :: is) = rowPairs (pre.length, i) 0 outs ++ allPairs outs (pre ++ [i]).length is := by
      simp [allPairs]
    have eapp : pre ++ i :: is = (pre ++ [i]) ++ is := by simp
    simp only [loopIn]
    rw [epos]
    have hrow := loopOut_spec samp bases x i pre.length (pre.map Irrep.size).sum outs [] c out hz
    simp only [List.map_nil, List.sum_nil, List.length_nil, List.nil_append] at hrow
    generalize loopOut samp bases x i (pre.map Irrep.size).sum outs 0 c out = res at *
    obtain ⟨h1, h2, h3, h4⟩ := hrow
    obtain ⟨g1, g2⟩ := ih (pre ++ [i]) res.1 res.2 (fun r s b hb => h3 r s b (by rw [← h1]; exact hb))
    refine ⟨fun r s b hb => ?_, fun k a h r s => ?_⟩
    · rw [g1 r s b (by omega), h2 r s b hb]
    · rw [erow, iterLoop_append, List.getElem?_append, length_iterLoop, sum_rowPairs] at h
      split_ifs at h with hk
      · rw [g1 r s _ (by simp only at hk; omega), h4 k a h r s]
        have ha := (iterLoop_get _ _ _ _ h).1
        simp only [rowPairs, List.mem_map, Prod.mk.injEq] at ha
        obtain ⟨q, -, ⟨ha1, ha2⟩, -⟩ := ha
        have : offset ((pre ++ i :: is).map Irrep.size) a.inIdx = (pre.map Irrep.size).sum := by
          rw [← ha1]; simp [offset]
        rw [this]
      · rw [← h1] at h
        have := g2 _ a h r s
        rw [eapp, ← this]
        congr 1
        simp only at hk ⊢
        omega

/-- Every slice of the direct sum contains one block, that of the attributes at the same index. -/
theorem sampleDirectSum_slice (samp : Irrep El → Irrep El → E → X → Mat) (S : SBasis El E) (x : X) {b : ℕ} {a : Attr El E}
    (h : S.iter[b]? = some a) :
    (S.sampleDirectSum samp x).slice b = Mat.place (offset (S.outs.map Irrep.size) a.outIdx) a.outIrrep.size
      (offset (S.ins.map Irrep.size) a.inIdx) a.inIrrep.size (samp a.inIrrep a.outIrrep a.elem x) := by
  have := (loopIn_spec samp S.bases x S.outs S.ins [] 0 (fun _ _ _ => 0) (fun _ _ _ _ => rfl)).2 b a (by
    rw [← h, iter, pairs_eq]; rfl)
  funext r s
  have := this r s
  simp only [zero_add, List.nil_append] at this
  exact this

theorem length_iter (S : SBasis El E) : S.iter.length = S.dim := by
  rw [iter, length_iterLoop, pairs_eq, sum_allPairs, dim]

theorem getItem_eq (S : SBasis El E) (idx : ℕ) : S.getItem idx = S.iter[idx]? := by
  unfold getItem
  split_ifs with h
  · rw [getLoop_eq _ _ _ _ (by omega)]; rfl
  · rw [List.getElem?_eq_none]
    rw [length_iter]; omega

/-- Validity of the reported attributes. -/
theorem iter_get (S : SBasis El E) {b : ℕ} {a : Attr El E} (h : S.iter[b]? = some a) :
    S.ins[a.inIdx]? = some a.inIrrep ∧ S.outs[a.outIdx]? = some a.outIrrep ∧
    (S.bases a.inIrrep a.outIrrep)[a.innerIdx]? = some a.elem ∧ a.idx = b := by
  obtain ⟨h1, h2, h3⟩ := iterLoop_get _ _ _ _ h
  rw [pairs, List.mem_flatMap] at h1
  obtain ⟨p, hp, hq⟩ := h1
  rw [List.mem_map] at hq
  obtain ⟨q, hq, he⟩ := hq
  have e1 : p = (a.inIdx, a.inIrrep) := congrArg Prod.fst he
  have e2 : q = (a.outIdx, a.outIrrep) := congrArg Prod.snd he
  rw [e1] at hp
  rw [e2] at hq
  have key : ∀ {l : List (Irrep El)} {n : ℕ} {r : Irrep El}, (n, r) ∈ enum l → l[n]? = some r := by
    intro l n r h
    rw [List.mem_iff_getElem?] at h
    obtain ⟨k, hk⟩ := h
    rw [enum_getElem?, Option.map_eq_some_iff] at hk
    obtain ⟨r', hr, he⟩ := hk
    cases he
    exact hr
  exact ⟨key hp, key hq, h2, by omega⟩

end SBasis

end E2
