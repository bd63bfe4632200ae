import Verif.Props.Expansion

/-!
# The constraint on an expanded filter at one element of the group, up to a sign
-/

namespace E2

open Finset Mat

variable {El F A I X : Type} [LinearOrder F] [DecidableEq I]

/-- An expansion with at least one parameter has at least one pair. -/
theorem Exp.pairs_ne_nil {E : Exp F A I} (h : E.dimension ≠ 0) : E.pairs ≠ [] := by
  intro h0
  exact h (by simp [Exp.dimension, Exp.basisToIds, h0])

/-- A pair with a basis gives at least one parameter. -/
theorem Exp.WF.dimension_ne_zero {E : Exp F A I} (h : E.WF) {i o : F} (hi : i ∈ E.inT) (ho : o ∈ E.outT) (hg : (E.gen i o).isSome) :
    E.dimension ≠ 0 := by
  have hp : (i, o) ∈ E.pairs := (E.mem_pairs _).2 ⟨hi, ho, hg⟩
  have hb := h.block_pos hp
  rw [h.dimension_eq, Exp.total]
  intro h0
  have h1 := List.sum_eq_zero_iff.1 h0 _ (List.mem_map.2 ⟨_, hp, rfl⟩)
  have h2 : 0 < E.outT.count o * (E.inT.count i * (E.block (i, o)).length) :=
    Nat.mul_pos (List.count_pos_iff.2 ho) (Nat.mul_pos (List.count_pos_iff.2 hi) hb)
  exact absurd h1 (Nat.pos_iff_ne_zero.1 h2)

/-- If the sampled elements of the bases which pass the filter `keep` satisfy the constraint between two points at one element of the group up to the
factor `ε`, then so does the expanded filter. -/
theorem filter_at (rep : F → Repr El) (inT outT : List F) (S : ℕ) (points : ℕ → X)
    (basis : F → F → List (A × (X → Mat))) (keep : A → Bool) (shape0 : A → ℕ) (ident : A → I) (inIdx outIdx : A → ℕ)
    (h : FilterInput rep inT outT basis ident)
    (E : Exp F A I) (hE : E = filterExp rep inT outT S points basis keep shape0 ident inIdx outIdx)
    (hone : E.nPairs = 1 → E.pairs ≠ []) (w : List ℝ) (hw : w.length = E.dimension) :
    ∃ f, E.forward w = some f ∧ ∀ (g g' : El) (ε : ℝ) (s s' : ℕ),
      (∀ i ∈ inT, ∀ o ∈ outT, ∀ b ∈ basis i o, keep b.1 = true → MEq (rep o).size (rep i).size (b.2 (points s'))
        fun r c => ε * Mat.mul (rep i).size (Mat.mul (rep o).size ((rep o).mat g) (b.2 (points s))) ((rep i).mat g') r c) →
      MEq (typeSize (fun n => (rep n).size) outT) (typeSize (fun n => (rep n).size) inT) (f.at s')
        fun r c => ε * Mat.mul (typeSize (fun n => (rep n).size) inT) (Mat.mul (typeSize (fun n => (rep n).size) outT) (typeMat rep outT g) (f.at s))
          (typeMat rep inT g') r c := by
  have hwf : E.WF := hE ▸ filterExp_wf h S points keep shape0 inIdx outIdx
  obtain ⟨ker, hker, hf⟩ := c24_filter E hwf hone
  obtain ⟨f, hfw, hf⟩ := hf w hw
  refine ⟨f, hfw, ?_⟩
  intro g g' ε s s' hK
  have hsz : E.sz = fun n => (rep n).size := by rw [hE]; rfl
  have hin : E.inT = inT := by rw [hE]; rfl
  have hout : E.outT = outT := by rw [hE]; rfl
  have hs1 := hf s
  have hs2 := hf s'
  rw [hsz, hin, hout] at hs1 hs2
  have e1 : MEq (typeSize (fun n => (rep n).size) outT) (typeSize (fun n => (rep n).size) inT)
      (Mat.mul (typeSize (fun n => (rep n).size) inT) (Mat.mul (typeSize (fun n => (rep n).size) outT) (typeMat rep outT g) (f.at s))
          (typeMat rep inT g'))
      (Mat.mul (typeSize (fun n => (rep n).size) inT) (Mat.mul (typeSize (fun n => (rep n).size) outT) (typeMat rep outT g)
        (fun a b => ∑ k ∈ range E.dimension, w.getD k 0 * E.inBlock k ((ker k).at s) a b)) (typeMat rep inT g')) :=
    ((MEq.refl _).mul hs1).mul (MEq.refl _)
  intro a ha b hb
  dsimp only
  rw [hs2 a ha b hb, e1 a ha b hb, mul_sum_left', mul_sum_right']
  dsimp only
  rw [Finset.mul_sum]
  apply Finset.sum_congr rfl
  intro k hk
  rw [mul_left_comm]
  congr 1
  obtain ⟨info, bl, e, h1, h2, h3, h4, h5, h6, -, -⟩ := c24_attributes E hwf k (Finset.mem_range.1 hk)
  obtain ⟨bl', e', h4', h5', h6', h7'⟩ := hker k info h1
  have h1' := h1
  rw [E.elementInfo_eq] at h1'
  have hib : ∀ M, E.inBlock k M = Mat.place (offset (outT.map fun n => (rep n).size) info.outField) (rep info.outRepr).size
      (offset (inT.map fun n => (rep n).size) info.inField) (rep info.inRepr).size M := by
    intro M
    rw [Exp.inBlock, h1', hsz, hin, hout]
  rw [hin] at h2
  rw [hout] at h3
  rw [hib, hib]
  obtain ⟨x1, x2⟩ := List.getElem?_eq_some_iff.1 h2
  obtain ⟨x3, x4⟩ := List.getElem?_eq_some_iff.1 h3
  have hm1 : info.inRepr ∈ inT := List.mem_of_getElem? h2
  have hm2 : info.outRepr ∈ outT := List.mem_of_getElem? h3
  have lem1 := bdiag_mul_place (outT.map fun n => ((rep n).size, (rep n).mat g)) (k := info.outField) (by simpa using x3)
    (offset (inT.map fun n => (rep n).size) info.inField) (rep info.inRepr).size ((ker k).at s)
  have lem2 := fun M => place_mul_bdiag (inT.map fun n => ((rep n).size, (rep n).mat g')) (k := info.inField) (by simpa using x1)
    (offset (outT.map fun n => (rep n).size) info.outField) (rep info.outRepr).size M
  simp only [List.map_map, Function.comp_def, List.getElem_map, x2, x4] at lem1 lem2
  have hsum : ∀ t : List F, (t.map fun n => (rep n).size).sum = typeSize (fun n => (rep n).size) t := fun t => rfl
  rw [hsum] at lem1 lem2
  rw [typeMat, typeMat, lem1, lem2]
  have hgen : E.gen info.inRepr info.outRepr = singleBlock (rep info.outRepr).size (rep info.inRepr).size S keep shape0
      ((basis info.inRepr info.outRepr).map fun b => ⟨b.1, fun r c s => b.2 (points s) r c⟩) := by rw [hE]; rfl
  rw [hgen] at h4'
  obtain ⟨b0, hb0, c0, hkeep, -, hc0⟩ := (singleBlock_spec h4').2.2 e' h5'
  obtain ⟨b1, hb1, rfl⟩ := List.mem_map.1 hb0
  have hcon := hK _ hm1 _ hm2 b1 hb1 hkeep
  have hp : ∀ (r0 rs c0' cs : ℕ) (M : Mat) (x y : ℕ), ε * Mat.place r0 rs c0' cs M x y = Mat.place r0 rs c0' cs (fun p q => ε * M p q) x y := by
    intro r0 rs c0' cs M x y
    unfold Mat.place
    split_ifs <;> simp
  rw [hp]
  refine MEq_place ?_ a ha b hb
  intro r hr c hc
  have := hcon r hr c hc
  simp only [h7', Arr3.at, Mat.mul, hc0] at this ⊢
  rw [this, mul_div_assoc, Finset.sum_div]
  congr 1
  apply Finset.sum_congr rfl
  intro l _
  rw [Finset.sum_mul, Finset.sum_mul, Finset.sum_div]
  apply Finset.sum_congr rfl
  intro l' _
  ring

/-- The elements kept by `SingleBlockBasisExpansion` are not zero. -/
theorem singleBlock_ne_zero {so si S : ℕ} {keep : A → Bool} {shape0 : A → ℕ} {basis bl : List (Elem A)}
    (h : singleBlock so si S keep shape0 basis = some bl) {e : Elem A} (he : e ∈ bl) : ∃ o < so, ∃ i < si, ∃ s < S, e.ker o i s ≠ 0 := by
  classical
  unfold singleBlock at h
  dsimp only at h
  split_ifs at h with h1 h2
  rw [Option.some.injEq] at h
  subst h
  have hn := (List.mem_filter.1 he).2
  rw [decide_eq_true_eq] at hn
  by_contra hc
  push Not at hc
  have h0 : sqNorm so si S e.ker = 0 := by
    unfold sqNorm
    refine Finset.sum_eq_zero fun o ho => Finset.sum_eq_zero fun i hi => Finset.sum_eq_zero fun s hs => ?_
    rw [hc o (Finset.mem_range.1 ho) i (Finset.mem_range.1 hi) s (Finset.mem_range.1 hs)]
    norm_num
  rw [h0] at hn
  norm_num at hn

/-- For some weights the expanded filter is not zero. -/
theorem filter_ne_zero (rep : F → Repr El) (inT outT : List F) (S : ℕ) (points : ℕ → X)
    (basis : F → F → List (A × (X → Mat))) (keep : A → Bool) (shape0 : A → ℕ) (ident : A → I) (inIdx outIdx : A → ℕ)
    (h : FilterInput rep inT outT basis ident)
    (E : Exp F A I) (hE : E = filterExp rep inT outT S points basis keep shape0 ident inIdx outIdx) (hdim : E.dimension ≠ 0) :
    ∃ w : List ℝ, w.length = E.dimension ∧ ∃ f, E.forward w = some f ∧
      ∃ o < typeSize (fun n => (rep n).size) outT, ∃ i < typeSize (fun n => (rep n).size) inT, ∃ s < S, f o i s ≠ 0 := by
  have hwf : E.WF := hE ▸ filterExp_wf h S points keep shape0 inIdx outIdx
  obtain ⟨ker, hker, hf⟩ := c24_filter E hwf fun _ => Exp.pairs_ne_nil hdim
  have hl : ((1 : ℝ) :: List.replicate (E.dimension - 1) 0).length = E.dimension := by simp; omega
  obtain ⟨f, hfw, hf⟩ := hf _ hl
  refine ⟨_, hl, f, hfw, ?_⟩
  have hsz : E.sz = fun n => (rep n).size := by rw [hE]; rfl
  have hin : E.inT = inT := by rw [hE]; rfl
  have hout : E.outT = outT := by rw [hE]; rfl
  obtain ⟨info, bl, e, h1, h2, h3, h4, h5, h6, -, -⟩ := c24_attributes E hwf 0 (Nat.pos_of_ne_zero hdim)
  obtain ⟨bl', e', h4', h5', h6', h7'⟩ := hker 0 info h1
  have h1' := h1
  rw [E.elementInfo_eq] at h1'
  have hib : ∀ M, E.inBlock 0 M = Mat.place (offset (outT.map fun n => (rep n).size) info.outField) (rep info.outRepr).size
      (offset (inT.map fun n => (rep n).size) info.inField) (rep info.inRepr).size M := by
    intro M
    rw [Exp.inBlock, h1', hsz, hin, hout]
  rw [hin] at h2
  rw [hout] at h3
  have hgen : E.gen info.inRepr info.outRepr = singleBlock (rep info.outRepr).size (rep info.inRepr).size S keep shape0
      ((basis info.inRepr info.outRepr).map fun b => ⟨b.1, fun r c s => b.2 (points s) r c⟩) := by rw [hE]; rfl
  rw [hgen] at h4'
  obtain ⟨o, ho, i, hi, s, hs, hne⟩ := singleBlock_ne_zero h4' h5'
  have hb : ∀ (t : List F) (k : ℕ) (n : F), t[k]? = some n →
      offset (t.map fun n => (rep n).size) k + (rep n).size ≤ typeSize (fun n => (rep n).size) t := by
    intro t k n hk
    have := offset_add_le (t.map fun n => (rep n).size) (k := k) (by simpa using (List.getElem?_eq_some_iff.1 hk).1)
    simpa [typeSize, (List.getElem?_eq_some_iff.1 hk).2] using this
  have hbo := hb outT _ _ h3
  have hbi := hb inT _ _ h2
  refine ⟨offset (outT.map fun n => (rep n).size) info.outField + o, by omega, offset (inT.map fun n => (rep n).size) info.inField + i, by omega,
    s, hs, ?_⟩
  have := hf s (offset (outT.map fun n => (rep n).size) info.outField + o) (by rw [hsz, hout]; omega)
    (offset (inT.map fun n => (rep n).size) info.inField + i) (by rw [hsz, hin]; omega)
  change f _ _ s = _ at this
  rw [this]
  dsimp only
  rw [Finset.sum_eq_single 0]
  · rw [hib, h7']
    unfold Mat.place
    rw [if_pos ⟨⟨by omega, by omega⟩, ⟨by omega, by omega⟩⟩]
    simpa [Arr3.at] using hne
  · intro k hk hk0
    have : ((1 : ℝ) :: List.replicate (E.dimension - 1) 0).getD k 0 = 0 := by
      cases k with
      | zero => exact absurd rfl hk0
      | succ k =>
        rw [List.getD_cons_succ, List.getD, List.getElem?_replicate]
        split_ifs <;> rfl
    rw [this, zero_mul]
  · intro h0
    exact absurd (Finset.mem_range.2 (Nat.pos_of_ne_zero hdim)) h0

end E2
