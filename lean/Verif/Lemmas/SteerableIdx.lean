import Verif.Lemmas.Steerable
import Verif.Lemmas.Bias
import Mathlib.Data.List.ProdSigma

/-!
# The correspondence between the indices of a steerable basis and the triples (input irrep, output irrep, element)
-/

namespace E2

open Finset Mat

/-- The rows of a product with a block diagonal matrix. -/
theorem bdiag_mul_row (l : List (ℕ × Mat)) {k : ℕ} (hk : k < l.length) (M : Mat) {a : ℕ} (ha : a < l[k].1) (j : ℕ) :
    Mat.mul (total l) (bdiag l) M (offset (l.map Prod.fst) k + a) j
      = Mat.mul l[k].1 l[k].2 (fun x y => M (offset (l.map Prod.fst) k + x) y) a j := by
  induction l generalizing k M with
  | nil => simp at hk
  | cons b l ih =>
    obtain ⟨s, A⟩ := b
    cases k with
    | zero =>
      have := mulVec_bdiag_cons_lt s A l (fun x => M x j) (i := a) (by simpa using ha)
      simp only [List.map_cons, offset_zero, zero_add, List.getElem_cons_zero]
      exact this
    | succ k =>
      have := mulVec_bdiag_cons_ge s A l (fun x => M x j) (offset (l.map Prod.fst) k + a)
      simp only [List.map_cons, offset_cons_succ, List.getElem_cons_succ, _root_.add_assoc]
      refine (this.trans (ih (by simpa using hk) (fun x y => M (s + x) y) (by simpa using ha))).trans ?_
      rfl

/-- The columns of a product with a block diagonal matrix. -/
theorem mul_bdiag_col (l : List (ℕ × Mat)) {k : ℕ} (hk : k < l.length) (M : Mat) {a : ℕ} (ha : a < l[k].1) (i : ℕ) :
    Mat.mul (total l) M (bdiag l) i (offset (l.map Prod.fst) k + a)
      = Mat.mul l[k].1 (fun x y => M x (offset (l.map Prod.fst) k + y)) l[k].2 i a := by
  have h := bdiag_mul_row (l.map fun p => (p.1, Mat.tr p.2)) (k := k) (by simpa using hk) (Mat.tr M) (a := a) (by simpa using ha) i
  have e : ((l.map fun p => (p.1, Mat.tr p.2)).map Prod.fst) = l.map Prod.fst := by simp
  have e2 : total (l.map fun p => (p.1, Mat.tr p.2)) = total l := by rw [total, e]; rfl
  rw [e, e2, ← tr_bdiag] at h
  simp only [List.getElem_map] at h
  have h' : Mat.mul (total l) (Mat.tr (bdiag l)) (Mat.tr M) = Mat.tr (Mat.mul (total l) M (bdiag l)) := by rw [tr_mul]
  rw [h'] at h
  refine Eq.trans h ?_
  simp only [Mat.mul, Mat.tr]
  exact Finset.sum_congr rfl fun x _ => by ring

namespace SBasis

variable {El E X : Type}

/-- The positions of the irreps and of the element named by an entry. -/
def Attr.key (a : Attr El E) : (ℕ × ℕ) × ℕ := ((a.inIdx, a.outIdx), a.innerIdx)

theorem enum_map_fst {α : Type} (l : List α) : (enum l).map Prod.fst = List.range l.length := by
  simp only [enum, List.map_map, Function.comp_def]
  exact List.zipIdx_map_snd 0 l |>.trans List.range'_eq_map_range |>.trans (by simp)

theorem iterLoop_keys (bases : Irrep El → Irrep El → List E) (ps : List ((ℕ × Irrep El) × (ℕ × Irrep El))) (c : ℕ) :
    (iterLoop bases ps c).map Attr.key
      = ps.flatMap fun p => (List.range (bases p.1.2 p.2.2).length).map fun k => ((p.1.1, p.2.1), k) := by
  induction ps generalizing c with
  | nil => rfl
  | cons p ps ih =>
    obtain ⟨⟨ii, i⟩, ⟨oo, o⟩⟩ := p
    simp only [iterLoop, List.map_append, ih, List.flatMap_cons, List.map_map, ← enum_map_fst (bases i o), Function.comp_def, Attr.key]

theorem pairs_keys (S : SBasis El E) : S.pairs.map (fun p => (p.1.1, p.2.1)) = List.product (List.range S.ins.length) (List.range S.outs.length) := by
  simp only [pairs, List.map_flatMap, List.product, ← enum_map_fst, List.flatMap_map, List.map_map, Function.comp_def]

theorem iter_keys_nodup (S : SBasis El E) : (S.iter.map Attr.key).Nodup := by
  rw [iter, iterLoop_keys, List.nodup_flatMap]
  refine ⟨fun p _ => ?_, ?_⟩
  · exact List.Nodup.map (fun a b h => by simpa using h) List.nodup_range
  · have h : (S.pairs.map fun p => (p.1.1, p.2.1)).Nodup := by
      rw [pairs_keys]
      exact List.Nodup.product List.nodup_range List.nodup_range
    rw [List.Nodup, List.pairwise_map] at h
    refine h.imp fun {p q} hne x hx hy => ?_
    obtain ⟨k, -, rfl⟩ := List.mem_map.1 hx
    obtain ⟨k', -, e⟩ := List.mem_map.1 hy
    exact hne (congrArg Prod.fst e).symm

/-- Two indices that name the same element are equal. -/
theorem iter_key_inj (S : SBasis El E) {b b' : ℕ} {a a' : Attr El E} (h : S.iter[b]? = some a) (h' : S.iter[b']? = some a')
    (he : a.key = a'.key) : b = b' := by
  have hb := (List.getElem?_eq_some_iff.1 h).1
  have e : (S.iter.map Attr.key)[b]? = (S.iter.map Attr.key)[b']? := by
    simp [h, h', he]
  exact (List.getElem?_inj (by simpa using hb) S.iter_keys_nodup).1 e

theorem mem_iterLoop {bases : Irrep El → Irrep El → List E} {ps : List ((ℕ × Irrep El) × (ℕ × Irrep El))} {i o : Irrep El} {ii oo k : ℕ} {e : E}
    (hp : ((ii, i), (oo, o)) ∈ ps) (he : (bases i o)[k]? = some e) (c : ℕ) : ∃ idx, (⟨i, o, ii, oo, k, e, idx⟩ : Attr El E) ∈ iterLoop bases ps c := by
  induction ps generalizing c with
  | nil => simp at hp
  | cons p ps ih =>
    obtain ⟨⟨ii', i'⟩, ⟨oo', o'⟩⟩ := p
    rcases List.mem_cons.1 hp with h | h
    · simp only [Prod.mk.injEq] at h
      obtain ⟨⟨rfl, rfl⟩, rfl, rfl⟩ := h
      refine ⟨c + k, ?_⟩
      simp only [iterLoop]
      refine List.mem_append_left _ (List.mem_map.2 ⟨(k, e), ?_, rfl⟩)
      have : (enum (bases i o))[k]? = some (k, e) := by rw [enum_getElem?, he]; rfl
      exact List.mem_of_getElem? this
    · obtain ⟨idx, hidx⟩ := ih h (c + (bases i' o').length)
      exact ⟨idx, List.mem_append_right _ hidx⟩

/-- Every element of every pair of irreps has an index. -/
theorem exists_index (S : SBasis El E) {i o : Irrep El} {ii oo k : ℕ} {e : E} (hi : S.ins[ii]? = some i) (ho : S.outs[oo]? = some o)
    (he : (S.bases i o)[k]? = some e) : ∃ b < S.dim, ∃ a, S.iter[b]? = some a ∧ a.key = ((ii, oo), k) := by
  have hp : ((ii, i), (oo, o)) ∈ S.pairs := by
    refine List.mem_flatMap.2 ⟨(ii, i), ?_, List.mem_map.2 ⟨(oo, o), ?_, rfl⟩⟩
    · exact List.mem_of_getElem? (show (enum S.ins)[ii]? = _ by rw [enum_getElem?, hi]; rfl)
    · exact List.mem_of_getElem? (show (enum S.outs)[oo]? = _ by rw [enum_getElem?, ho]; rfl)
  obtain ⟨idx, h⟩ := mem_iterLoop hp he 0
  rw [← iter] at h
  obtain ⟨b, hb, hba⟩ := List.mem_iff_getElem.1 h
  exact ⟨b, by rw [← S.length_iter]; exact hb, _, by rw [List.getElem?_eq_getElem hb, hba], rfl⟩

/-- One entry of a linear combination of the elements of the direct sum: only the elements of one pair of irreps contribute. -/
theorem sum_block (samp : Irrep El → Irrep El → E → X → Mat) (S : SBasis El E) (p : X) {ii oo : ℕ} {i o : Irrep El} (hi : S.ins[ii]? = some i)
    (ho : S.outs[oo]? = some o) {x y : ℕ} (hx : x < o.size) (hy : y < i.size) (w : ℕ → ℝ) (index : Fin (S.bases i o).length → ℕ)
    (hindex : ∀ k, index k < S.dim ∧ ∃ a, S.iter[index k]? = some a ∧ a.key = ((ii, oo), (k : ℕ))) :
    ∑ b ∈ range S.dim, w b * (S.sampleDirectSum samp p).slice b (offset (S.outs.map Irrep.size) oo + x) (offset (S.ins.map Irrep.size) ii + y)
      = ∑ k, w (index k) * samp i o (S.bases i o)[k] p x y := by
  classical
  obtain ⟨hil, hie⟩ := List.getElem?_eq_some_iff.1 hi
  obtain ⟨hol, hoe⟩ := List.getElem?_eq_some_iff.1 ho
  have hinj : Function.Injective index := by
    intro k k' h
    obtain ⟨-, a, ha, hk⟩ := hindex k
    obtain ⟨-, a', ha', hk'⟩ := hindex k'
    rw [h, ha'] at ha
    cases ha
    rw [hk] at hk'
    simp only [Prod.mk.injEq, true_and] at hk'
    exact Fin.ext hk'
  have himg : Finset.univ.image index ⊆ range S.dim := by
    intro b hb
    obtain ⟨k, -, rfl⟩ := Finset.mem_image.1 hb
    exact Finset.mem_range.2 (hindex k).1
  rw [← Finset.sum_subset himg, Finset.sum_image fun k _ k' _ h => hinj h]
  · refine Finset.sum_congr rfl fun k _ => ?_
    obtain ⟨-, a, ha, hk⟩ := hindex k
    obtain ⟨a1, a2, a3, -⟩ := S.iter_get ha
    simp only [Attr.key, Prod.mk.injEq] at hk
    obtain ⟨⟨k1, k2⟩, k3⟩ := hk
    rw [k1, hi] at a1
    rw [k2, ho] at a2
    rw [← Option.some.inj a1, ← Option.some.inj a2, k3, List.getElem?_eq_getElem k.2] at a3
    rw [S.sampleDirectSum_slice samp p ha, k1, k2, ← Option.some.inj a1, ← Option.some.inj a2, ← Option.some.inj a3, Mat.place,
      if_pos (by omega)]
    congr 2 <;> omega
  · intro b hb hnot
    obtain ⟨a, ha⟩ : ∃ a, S.iter[b]? = some a :=
      ⟨_, List.getElem?_eq_getElem (by rw [SBasis.length_iter]; exact Finset.mem_range.1 hb)⟩
    obtain ⟨a1, a2, a3, -⟩ := S.iter_get ha
    rw [S.sampleDirectSum_slice samp p ha, Mat.place, if_neg, mul_zero]
    intro hblock
    obtain ⟨hal, hae⟩ := List.getElem?_eq_some_iff.1 a1
    obtain ⟨hbl, hbe⟩ := List.getElem?_eq_some_iff.1 a2
    have e1 := offset_inj (S.outs.map Irrep.size) (k := oo) (l := a.outIdx) (x := x)
      (y := offset (S.outs.map Irrep.size) oo + x - offset (S.outs.map Irrep.size) a.outIdx) (by simpa using hol) (by simpa using hbl)
      (by simpa [hoe] using hx) (by simp only [List.getElem_map, hbe]; omega) (by omega)
    have e2 := offset_inj (S.ins.map Irrep.size) (k := ii) (l := a.inIdx) (x := y)
      (y := offset (S.ins.map Irrep.size) ii + y - offset (S.ins.map Irrep.size) a.inIdx) (by simpa using hil) (by simpa using hal)
      (by simpa [hie] using hy) (by simp only [List.getElem_map, hae]; omega) (by omega)
    rw [← e1.1, ho] at a2
    rw [← e2.1, hi] at a1
    cases a1
    obtain ⟨hk, -⟩ := List.getElem?_eq_some_iff.1 a3
    have ho' : a.outIrrep = o := (Option.some.inj a2).symm
    rw [ho'] at hk
    refine hnot (Finset.mem_image.2 ⟨⟨a.innerIdx, hk⟩, Finset.mem_univ _, ?_⟩)
    obtain ⟨-, a', ha', hk'⟩ := hindex ⟨a.innerIdx, hk⟩
    refine S.iter_key_inj ha' ha ?_
    rw [hk', Attr.key, e1.1, e2.1]

end SBasis

end E2
