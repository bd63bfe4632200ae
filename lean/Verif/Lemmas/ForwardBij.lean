import Verif.Lemmas.Forward
import Verif.Props.Expansion

/-!
# Which filters `BlocksBasisExpansion.forward` can produce, and from how many choices of weights
-/

set_option linter.unusedSectionVars false

namespace E2

open Finset Mat

variable {F A I : Type} [LinearOrder F] [DecidableEq I]

namespace Exp

/-- The weights with the coefficient `c o i p e` for the element number `e` of the pair `p`, at the fields `o` and `i`. -/
noncomputable def weightsOf (E : Exp F A I) (c : ℕ → ℕ → F × F → ℕ → ℝ) : List ℝ :=
  E.pairs.flatMap fun p => (posOf E.outT p.2).flatMap fun o => (posOf E.inT p.1).flatMap fun i => (E.block p).zipIdx.map fun e => c o i p e.2

theorem zipIdx_nest (E : Exp F A I) (p : F × F) (g : ℕ → ℕ → ℕ → ℝ) :
    ((posOf E.outT p.2).flatMap fun o => (posOf E.inT p.1).flatMap fun i => (E.block p).zipIdx.map fun e => g o i e.2).length = E.len p := by
  rw [flatMap_const_length _ _ (E.inT.count p.1 * (E.block p).length), posOf_length, len]
  intro o _
  rw [flatMap_const_length _ _ (E.block p).length, posOf_length]
  intro i _
  simp

theorem weightsOf_length (E : Exp F A I) (c : ℕ → ℕ → F × F → ℕ → ℝ) : (E.weightsOf c).length = E.total := by
  unfold weightsOf total
  rw [List.length_flatMap]
  exact congrArg List.sum (List.map_congr_left fun p _ => E.zipIdx_nest p fun o i e => c o i p e)

theorem weightsOf_get (E : Exp F A I) (c : ℕ → ℕ → F × F → ℕ → ℝ) {j po pi e o i : ℕ} {p : F × F} (hj : E.pairs[j]? = some p)
    (ho : (posOf E.outT p.2)[po]? = some o) (hi : (posOf E.inT p.1)[pi]? = some i) (he : e < (E.block p).length) :
    (E.weightsOf c)[E.start j + ((po * E.inT.count p.1 + pi) * (E.block p).length + e)]? = some (c o i p e) := by
  have hl : ∀ q : F × F, ((posOf E.outT q.2).flatMap fun o => (posOf E.inT q.1).flatMap fun i => (E.block q).zipIdx.map fun e => c o i q e.2).length = E.len q :=
    fun q => E.zipIdx_nest q fun o i e => c o i q e
  have hlt : (po * E.inT.count p.1 + pi) * (E.block p).length + e < E.len p := E.nest_lt ho hi (List.getElem?_eq_getElem he)
  have := flatMap_offset_get E.pairs (fun p => (posOf E.outT p.2).flatMap fun o => (posOf E.inT p.1).flatMap fun i => (E.block p).zipIdx.map fun e => c o i p e.2)
    j ((po * E.inT.count p.1 + pi) * (E.block p).length + e) p hj (by rw [hl]; exact hlt)
  simp only [hl] at this
  rw [weightsOf, Exp.start, this]
  have hil : pi < E.inT.count p.1 := by rw [← posOf_length]; exact (List.getElem?_eq_some_iff.1 hi).1
  have hlt' : pi * (E.block p).length + e < E.inT.count p.1 * (E.block p).length := by
    calc pi * (E.block p).length + e < pi * (E.block p).length + (E.block p).length := by omega
      _ = (pi + 1) * (E.block p).length := by ring
      _ ≤ _ := Nat.mul_le_mul_right _ hil
  rw [show (po * E.inT.count p.1 + pi) * (E.block p).length + e
      = po * (E.inT.count p.1 * (E.block p).length) + (pi * (E.block p).length + e) by ring,
    flatMap_const_get _ _ (E.inT.count p.1 * (E.block p).length) _ _ _ hlt', ho, Option.bind_some,
    flatMap_const_get _ _ (E.block p).length _ _ _ he, hi, Option.bind_some]
  · simp [he]
  · intro i _; simp
  · intro o _
    rw [flatMap_const_length _ _ (E.block p).length, posOf_length]
    intro i _; simp

/-- An array whose blocks are combinations of the elements of the pairs, and zero where there are none, is the filter of some weights. -/
theorem forward_surj {E : Exp F A I} (hE : E.WF) (hone : E.nPairs = 1 → E.pairs ≠ []) (S : ℕ) (M : Arr3)
    (hM : ∀ (o i : ℕ) (n m : F), E.outT[o]? = some n → E.inT[i]? = some m →
      ((m, n) ∉ E.pairs → ∀ r < E.sz n, ∀ c < E.sz m, ∀ s < S, M (offset (E.outT.map E.sz) o + r) (offset (E.inT.map E.sz) i + c) s = 0) ∧
      ((m, n) ∈ E.pairs → ∃ v : ℕ → ℝ, ∀ r < E.sz n, ∀ c < E.sz m, ∀ s < S,
        M (offset (E.outT.map E.sz) o + r) (offset (E.inT.map E.sz) i + c) s = blockForward (E.block (m, n)) v r c s)) :
    ∃ w : List ℝ, w.length = E.dimension ∧ ∃ f, E.forward w = some f ∧
      ∀ s < S, MEq (typeSize E.sz E.outT) (typeSize E.sz E.inT) (f.at s) (M.at s) := by
  classical
  have hex : ∀ (o i : ℕ) (p : F × F), ∃ v : ℕ → ℝ, E.outT[o]? = some p.2 → E.inT[i]? = some p.1 → p ∈ E.pairs → ∀ r < E.sz p.2, ∀ c < E.sz p.1, ∀ s < S,
      M (offset (E.outT.map E.sz) o + r) (offset (E.inT.map E.sz) i + c) s = blockForward (E.block p) v r c s := by
    intro o i p
    by_cases h : E.outT[o]? = some p.2 ∧ E.inT[i]? = some p.1 ∧ p ∈ E.pairs
    · obtain ⟨v, hv⟩ := (hM o i p.2 p.1 h.1 h.2.1).2 h.2.2
      exact ⟨v, fun _ _ _ => hv⟩
    · exact ⟨fun _ => 0, fun h1 h2 h3 => absurd ⟨h1, h2, h3⟩ h⟩
  choose c hc using hex
  have hw : (E.weightsOf c).length = E.dimension := by rw [weightsOf_length, hE.dimension_eq]
  obtain ⟨f, hf, hf'⟩ := forward_eq hE hone (E.weightsOf c) hw
  refine ⟨_, hw, f, hf, fun s hs a ha b hb => ?_⟩
  obtain ⟨o, lo, r, hr, rfl⟩ := exists_offset (E.outT.map E.sz) ha
  obtain ⟨i, li, q, hq, rfl⟩ := exists_offset (E.inT.map E.sz) hb
  rw [List.length_map] at lo li
  rw [List.getElem_map] at hr hq
  have ho : E.outT[o]? = some E.outT[o] := List.getElem?_eq_getElem lo
  have hi : E.inT[i]? = some E.inT[i] := List.getElem?_eq_getElem li
  obtain ⟨f1, f2⟩ := hf' o i r q s _ _ ho hi hr hq
  show f _ _ s = M _ _ s
  by_cases hp : (E.inT[i], E.outT[o]) ∈ E.pairs
  · obtain ⟨j, hj⟩ := List.mem_iff_getElem?.1 hp
    obtain ⟨po, hpo⟩ := posOf_rank ho
    obtain ⟨pi, hpi⟩ := posOf_rank hi
    rw [f2 j po pi hj hpo hpi, hc o i _ ho hi hp r hr q hq s hs]
    unfold val blockForward
    refine Finset.sum_congr rfl fun e he => ?_
    congr 1
    dsimp only
    rw [List.getD_eq_getElem?_getD, E.weightsOf_get c hj hpo hpi (Finset.mem_range.1 he)]
    rfl
  · rw [f1 hp, (hM o i _ _ ho hi).1 hp r hr q hq s hs]

/-- If the elements of every pair are linearly independent then different weights give different filters. -/
theorem forward_inj {E : Exp F A I} (hE : E.WF) (hone : E.nPairs = 1 → E.pairs ≠ []) (S : ℕ)
    (hind : ∀ p ∈ E.pairs, ∀ v : ℕ → ℝ, (∀ r < E.sz p.2, ∀ c < E.sz p.1, ∀ s < S, blockForward (E.block p) v r c s = 0) →
      ∀ e < (E.block p).length, v e = 0)
    {w w' : List ℝ} (hw : w.length = E.dimension) (hw' : w'.length = E.dimension) {f f' : Arr3} (hf : E.forward w = some f) (hf' : E.forward w' = some f')
    (heq : ∀ s < S, MEq (typeSize E.sz E.outT) (typeSize E.sz E.inT) (f.at s) (f'.at s)) : w = w' := by
  obtain ⟨f₁, e₁, h₁⟩ := forward_eq hE hone w hw
  obtain ⟨f₂, e₂, h₂⟩ := forward_eq hE hone w' hw'
  cases hf.symm.trans e₁
  cases hf'.symm.trans e₂
  refine List.ext_getElem (hw.trans hw'.symm) fun k hk hk' => ?_
  have hkt : k < E.total := by rw [← hE.dimension_eq, ← hw]; exact hk
  obtain ⟨j, po, pi, e, o, i, p, b, hj, ho, hi, he, hlt, rfl⟩ := E.decode hkt
  obtain ⟨lo, ho'⟩ := posOf_get_lt ho
  obtain ⟨li, hi'⟩ := posOf_get_lt hi
  set v : ℕ → ℝ := fun e => w.getD (E.start j + ((po * E.inT.count p.1 + pi) * (E.block p).length + e)) 0
    - w'.getD (E.start j + ((po * E.inT.count p.1 + pi) * (E.block p).length + e)) 0 with hv
  have hz := hind p (List.mem_of_getElem? hj) v (fun r hr c hc s hs => by
    have q1 := (h₁ o i r c s p.2 p.1 ho' hi' hr hc).2 j po pi hj ho hi
    have q2 := (h₂ o i r c s p.2 p.1 ho' hi' hr hc).2 j po pi hj ho hi
    have q3 := heq s hs (offset (E.outT.map E.sz) o + r) (by
      have := offset_add_le (E.outT.map E.sz) (k := o) (by simpa using lo)
      rw [List.getElem_map, (List.getElem?_eq_some_iff.1 ho').2] at this
      unfold typeSize
      omega) (offset (E.inT.map E.sz) i + c) (by
      have := offset_add_le (E.inT.map E.sz) (k := i) (by simpa using li)
      rw [List.getElem_map, (List.getElem?_eq_some_iff.1 hi').2] at this
      unfold typeSize
      omega)
    unfold Arr3.at at q3
    rw [q1, q2] at q3
    unfold val blockForward at q3
    unfold blockForward
    simp only [hv, mul_sub, Finset.sum_sub_distrib]
    exact sub_eq_zero.2 q3) e (List.getElem?_eq_some_iff.1 he).1
  rw [hv] at hz
  dsimp only at hz
  rw [List.getD_eq_getElem _ _ hk, List.getD_eq_getElem _ _ hk'] at hz
  exact sub_eq_zero.1 hz

end Exp

end E2
