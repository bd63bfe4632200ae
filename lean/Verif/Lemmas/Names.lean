import Verif.Model.Names
import Verif.Lemmas.ForwardBij

/-!
# Lemmas on expansions of types with names
-/

set_option linter.unusedSectionVars false

namespace E2

open Finset Mat

variable {El F A I X B : Type}

/-! ## The dictionary -/

theorem dict_inner {α β : Type} (gen : α → Option β) (P : α → Prop) [DecidablePred P] (v : Option β) (l : List α) (h : ∀ x ∈ l, P x → gen x = v) (d : Option β) :
    ((∃ x ∈ l, P x) → l.foldl (fun d x => if P x then (gen x).or d else d) d = v.or d) ∧
    ((¬ ∃ x ∈ l, P x) → l.foldl (fun d x => if P x then (gen x).or d else d) d = d) := by
  induction l generalizing d with
  | nil => simp
  | cons x l ih =>
    rw [List.foldl_cons]
    have ih := ih (fun y hy => h y (List.mem_cons_of_mem _ hy)) (if P x then (gen x).or d else d)
    by_cases hx : P x
    · have e := h x (List.mem_cons_self ..) hx
      rw [if_pos hx, e] at ih ⊢
      refine ⟨fun _ => ?_, fun hn => absurd ⟨x, List.mem_cons_self .., hx⟩ hn⟩
      by_cases hl : ∃ x ∈ l, P x
      · rw [ih.1 hl]
        cases v <;> rfl
      · rw [ih.2 hl]
    · rw [if_neg hx] at ih ⊢
      have hiff : (∃ y ∈ x :: l, P y) ↔ ∃ y ∈ l, P y := by
        constructor
        · rintro ⟨y, hy, hp⟩
          rcases List.mem_cons.1 hy with rfl | hy
          · exact absurd hp hx
          · exact ⟨y, hy, hp⟩
        · rintro ⟨y, hy, hp⟩
          exact ⟨y, List.mem_cons_of_mem _ hy, hp⟩
      rw [hiff]
      exact ih

theorem dict_flat {α γ β : Type} (gen : α → γ → Option β) (P : α → γ → Prop) [∀ a c, Decidable (P a c)] (ins : List α) (outs : List γ) (d : Option β) :
    ins.foldl (fun d i => outs.foldl (fun d o => if P i o then (gen i o).or d else d) d) d =
    (ins.flatMap fun i => outs.map fun o => (i, o)).foldl (fun d x => if P x.1 x.2 then (gen x.1 x.2).or d else d) d := by
  induction ins generalizing d with
  | nil => rfl
  | cons i ins ih =>
    rw [List.foldl_cons, ih, List.flatMap_cons, List.foldl_append, List.foldl_map]

variable [LinearOrder F] [DecidableEq I]

/-- If all the pairs of representations with two names have the same expansion then this is the one in the dictionary. -/
theorem blockDict_eq (gen : NRep El F → NRep El F → Option B) {ins outs : List (NRep El F)} {n m : F} {v : Option B}
    (h : ∀ i ∈ ins, ∀ o ∈ outs, i.name = n → o.name = m → gen i o = v) (hn : ∃ i ∈ ins, i.name = n) (hm : ∃ o ∈ outs, o.name = m) :
    blockDict gen ins outs n m = v := by
  unfold blockDict
  rw [dict_flat gen (fun i o => i.name = n ∧ o.name = m)]
  refine ((dict_inner (fun x : NRep El F × NRep El F => gen x.1 x.2) (fun x => x.1.name = n ∧ x.2.name = m) v _ ?_ none).1 ?_).trans (by cases v <;> rfl)
  swap
  · obtain ⟨i, hi, hin⟩ := hn
    obtain ⟨o, ho, hon⟩ := hm
    exact ⟨(i, o), List.mem_flatMap.2 ⟨i, hi, List.mem_map.2 ⟨o, ho, rfl⟩⟩, hin, hon⟩
  · rintro ⟨i, o⟩ hx ⟨h1, h2⟩
    obtain ⟨i', hi', hx⟩ := List.mem_flatMap.1 hx
    obtain ⟨o', ho', hx⟩ := List.mem_map.1 hx
    obtain ⟨rfl, rfl⟩ := Prod.ext_iff.1 hx
    exact h _ hi' _ ho' h1 h2

/-- The last representation with a non empty basis is the one in the dictionary. -/
theorem blockDict_append (gen : NRep El F → NRep El F → Option B) (ins : List (NRep El F)) (i : NRep El F) {outs : List (NRep El F)} {n m : F} {b : B}
    (hi : i.name = n) (h : ∀ o ∈ outs, o.name = m → gen i o = some b) (hm : ∃ o ∈ outs, o.name = m) :
    blockDict gen (ins ++ [i]) outs n m = some b := by
  unfold blockDict
  rw [List.foldl_append, List.foldl_cons, List.foldl_nil]
  obtain ⟨o, ho, hon⟩ := hm
  exact (dict_inner (gen i) (fun o => i.name = n ∧ o.name = m) (some b) outs (fun o ho hp => h o ho hp.2) _).1 ⟨o, ho, hi, hon⟩

/-! ## Expansions which agree on the fields of the types -/

namespace Exp

/-- Two expansions for the same names, with the same sizes and blocks for the names of the types. -/
structure Agree (E E' : Exp F A I) : Prop where
  inT : E.inT = E'.inT
  outT : E.outT = E'.outT
  ident : E.ident = E'.ident
  szI : ∀ n ∈ E.inT, E.sz n = E'.sz n
  szO : ∀ n ∈ E.outT, E.sz n = E'.sz n
  gen : ∀ i ∈ E.inT, ∀ o ∈ E.outT, E.gen i o = E'.gen i o

variable {E E' : Exp F A I}

theorem Agree.pairs (h : Agree E E') : E.pairs = E'.pairs := by
  unfold Exp.pairs Exp.pairsRaw
  rw [← h.inT, ← h.outT]
  congr 1
  refine List.flatMap_congr fun i hi => List.filterMap_congr fun o ho => ?_
  rw [h.gen i (List.mem_dedup.1 hi) o (List.mem_dedup.1 ho)]

theorem Agree.block (h : Agree E E') {p : F × F} (h1 : p.1 ∈ E.inT) (h2 : p.2 ∈ E.outT) : E.block p = E'.block p := by
  unfold Exp.block
  rw [h.gen _ h1 _ h2]

theorem Agree.basisIds (h : Agree E E') (p : F × F) : E.basisIds p = E'.basisIds p := by
  unfold Exp.basisIds
  rw [← h.inT, ← h.outT, ← h.ident]
  refine List.flatMap_congr fun q hq => List.flatMap_congr fun r hr => ?_
  split_ifs with hp
  · subst hp
    have h1 : r.1 ∈ E.inT := List.fst_mem_of_mem_zipIdx hr
    have h2 : q.1 ∈ E.outT := List.fst_mem_of_mem_zipIdx hq
    rw [h.block (p := (r.1, q.1)) h1 h2]
  · rfl

theorem Agree.dimension (h : Agree E E') : E.dimension = E'.dimension := by
  unfold Exp.dimension Exp.basisToIds
  rw [h.pairs]
  congr 2
  exact List.flatMap_congr fun p _ => h.basisIds p

theorem Agree.ranges (h : Agree E E') : E.ranges = E'.ranges := by
  unfold Exp.ranges
  rw [h.pairs]
  generalize E'.pairs = l
  generalize 0 = k
  induction l generalizing k with
  | nil => rfl
  | cons p l ih => rw [Exp.rangesLoop, Exp.rangesLoop, h.basisIds, ih]

theorem Agree.indicesI (h : Agree E E') (n : F) : E.indices E.inT n = E'.indices E'.inT n := by
  unfold Exp.indices
  rw [List.map_congr_left h.szI, h.inT]

theorem Agree.indicesO (h : Agree E E') (n : F) : E.indices E.outT n = E'.indices E'.outT n := by
  unfold Exp.indices
  rw [List.map_congr_left h.szO, h.outT]

theorem Agree.expandBlock (h : Agree E E') (w : List ℝ) {p : F × F} (h1 : p.1 ∈ E.inT) (h2 : p.2 ∈ E.outT) : E.expandBlock w p = E'.expandBlock w p := by
  unfold Exp.expandBlock
  rw [h.ranges, h.block h1 h2, h.inT, h.outT]

theorem Agree.writePair (h : Agree E E') (w : List ℝ) {p : F × F} (h1 : p.1 ∈ E.inT) (h2 : p.2 ∈ E.outT) (f : Arr3) : E.writePair w p f = E'.writePair w p f := by
  unfold Exp.writePair Exp.contig
  rw [h.indicesI, h.indicesO, h.expandBlock w h1 h2, h.szI _ h1, h.szO _ h2]

theorem Agree.forwardWith (h : Agree E E') (k : ℕ) (w : List ℝ) : E.forwardWith k w = E'.forwardWith k w := by
  unfold Exp.forwardWith
  rw [h.dimension]
  have hm : ∀ p ∈ E'.pairs, p.1 ∈ E.inT ∧ p.2 ∈ E.outT := by
    intro p hp
    rw [← h.pairs] at hp
    exact ⟨((E.mem_pairs p).1 hp).1, ((E.mem_pairs p).1 hp).2.1⟩
  rw [h.pairs]
  have h1 : (match E'.pairs with
      | [] => none
      | p :: _ => (E.contig E.inT p.1).bind fun ci => (E.contig E.outT p.2).bind fun co =>
          if ci ∧ co then (E.expandBlock w p).map (mergeAxes (E.sz p.2) (E.sz p.1)) else none) =
      (match E'.pairs with
      | [] => none
      | p :: _ => (E'.contig E'.inT p.1).bind fun ci => (E'.contig E'.outT p.2).bind fun co =>
          if ci ∧ co then (E'.expandBlock w p).map (mergeAxes (E'.sz p.2) (E'.sz p.1)) else none) := by
    cases hp : E'.pairs with
    | nil => rfl
    | cons p l =>
      obtain ⟨m1, m2⟩ := hm p (by rw [hp]; exact List.mem_cons_self ..)
      dsimp only
      unfold Exp.contig
      rw [h.indicesI, h.indicesO, h.expandBlock w m1 m2, h.szI _ m1, h.szO _ m2]
  have h2 : E'.pairs.foldlM (fun f p => E.writePair w p f) (fun _ _ _ => (0 : ℝ)) = E'.pairs.foldlM (fun f p => E'.writePair w p f) (fun _ _ _ => (0 : ℝ)) := by
    generalize (fun _ _ _ => (0 : ℝ)) = f0
    revert hm
    generalize E'.pairs = l
    intro hm
    clear h1
    induction l generalizing f0 with
    | nil => rfl
    | cons p l ih =>
      obtain ⟨m1, m2⟩ := hm p (List.mem_cons_self ..)
      rw [List.foldlM_cons, List.foldlM_cons, h.writePair w m1 m2]
      cases E'.writePair w p f0 with
      | none => rfl
      | some f => exact ih f fun q hq => hm q (List.mem_cons_of_mem _ hq)
  rw [h2]
  split_ifs
  · exact h1
  · rfl
  · rfl

theorem forwardWith_nPairs (E : Exp F A I) (w : List ℝ) : E.forwardWith E.nPairs w = E.forward w := rfl

/-- Whatever the number of pairs, as long as it is not 1 on either side. -/
theorem forwardWith_of_ne (E : Exp F A I) {k : ℕ} (hk : k ≠ 1) (hE : E.nPairs ≠ 1) (w : List ℝ) : E.forwardWith k w = E.forward w := by
  unfold Exp.forwardWith Exp.forward
  rw [if_neg hk, if_neg hE]

end Exp

/-! ## Types in which the names determine the representations -/

/-- The names of the fields of two types determine the representations: a function from the names gives them. -/
def NamesDetermine (rep : F → Repr El) (inT outT : List (NRep El F)) : Prop := ∀ f ∈ inT ++ outT, rep f.name = f.rep

theorem NamesDetermine.find {rep : F → Repr El} {inT outT : List (NRep El F)} (h : NamesDetermine rep inT outT) {n : F} (hn : ∃ f ∈ inT ++ outT, f.name = n)
    {C : Type} (c : C) (φ : Repr El → C) : (((inT ++ outT).find? fun f => f.name = n).elim c fun f => φ f.rep) = φ (rep n) := by
  obtain ⟨f, hf, hfn⟩ := hn
  cases he : (inT ++ outT).find? fun f => f.name = n with
  | none => exact absurd hfn (by simpa using List.find?_eq_none.1 he f hf)
  | some q =>
    have h1 := List.find?_some he
    have h2 := List.mem_of_find?_eq_some he
    have h1 : q.name = n := by simpa using h1
    show φ q.rep = φ (rep n)
    rw [← h q h2, h1]

theorem NamesDetermine.agree {rep : F → Repr El} {inT outT ins outs : List (NRep El F)} (h : NamesDetermine rep inT outT) (hi : UniqueOf ins inT) (ho : UniqueOf outs outT)
    (S : ℕ) (points : ℕ → X) (basis : Repr El → Repr El → List (A × (X → Mat))) (keep : A → Bool) (shape0 : A → ℕ) (ident : A → I) (inIdx outIdx : A → ℕ) :
    Exp.Agree (namedExp inT outT ins outs S points basis keep shape0 ident inIdx outIdx)
      (filterExp rep (inT.map NRep.name) (outT.map NRep.name) S points (fun n m => basis (rep n) (rep m)) keep shape0 ident inIdx outIdx) where
  inT := rfl
  outT := rfl
  ident := rfl
  szI n hn := by
    obtain ⟨f, hf, rfl⟩ := List.mem_map.1 hn
    exact h.find ⟨f, List.mem_append_left _ hf, rfl⟩ 0 Repr.size
  szO n hn := by
    obtain ⟨f, hf, rfl⟩ := List.mem_map.1 hn
    exact h.find ⟨f, List.mem_append_right _ hf, rfl⟩ 0 Repr.size
  gen n hn m hm := by
    obtain ⟨f, hf, rfl⟩ := List.mem_map.1 hn
    obtain ⟨q, hq, rfl⟩ := List.mem_map.1 hm
    refine blockDict_eq _ (fun i hi' o ho' e1 e2 => ?_) ⟨f, (hi.2 f).2 hf, rfl⟩ ⟨q, (ho.2 q).2 hq, rfl⟩
    have q1 := h i (List.mem_append_left _ ((hi.2 i).1 hi'))
    have q2 := h o (List.mem_append_right _ ((ho.2 o).1 ho'))
    rw [e1] at q1
    rw [e2] at q2
    rw [← q1, ← q2]
    rfl

/-- The number of pairs of representations is the number of pairs of names. -/
theorem NamesDetermine.length {rep : F → Repr El} {inT outT t l : List (NRep El F)} (h : NamesDetermine rep inT outT) (ht : ∀ f ∈ t, f ∈ inT ++ outT) (hl : UniqueOf l t) :
    l.length = (t.map NRep.name).dedup.length := by
  have hinj : ∀ f ∈ l, ∀ q ∈ l, f.name = q.name → f = q := by
    rintro ⟨n, r⟩ hf ⟨m, s⟩ hq e
    obtain rfl : n = m := e
    have h1 := h _ (ht _ ((hl.2 _).1 hf))
    have h2 := h _ (ht _ ((hl.2 _).1 hq))
    dsimp only at h1 h2
    rw [← h1, ← h2]
  rw [← List.length_map (f := NRep.name)]
  refine List.Perm.length_eq ((List.perm_ext_iff_of_nodup ?_ (List.nodup_dedup _)).2 fun n => ?_)
  · exact List.Nodup.map_on hinj hl.1
  · rw [List.mem_dedup, List.mem_map, List.mem_map]
    exact exists_congr fun f => and_congr_left fun _ => hl.2 f

/-! ## Groups -/

/-- One group has the representations of the whole type. -/
theorem convGroups_mem {F : Type} [DecidableEq F] {groups : ℕ} {inT outT inG : List F} (h : convGroups groups inT outT = some inG) (f : F) : f ∈ inG ↔ f ∈ inT := by
  unfold convGroups at h
  split_ifs at h with h1 h2
  · obtain rfl := Option.some.inj h
    refine ⟨fun hf => List.mem_of_mem_take hf, fun hf => ?_⟩
    obtain ⟨i, hi, rfl⟩ := List.getElem_of_mem hf
    have hk : 0 < inT.length / groups := by
      refine Nat.div_pos ?_ (by omega)
      refine Nat.le_of_dvd (by omega) (Nat.dvd_of_mod_eq_zero h2.1)
    have e := h2.2.2.1 i hi
    have hlt := Nat.mod_lt i hk
    have hle := Nat.div_le_self inT.length groups
    rw [List.getElem?_eq_getElem hi, List.getElem?_eq_getElem (by omega)] at e
    rw [Option.some.inj e]
    exact List.mem_iff_getElem.2 ⟨i % (inT.length / groups), by rw [List.length_take]; omega, by rw [List.getElem_take]⟩
  · obtain rfl := Option.some.inj h
    rfl

theorem UniqueOf.group {groups : ℕ} {inT outT inG ins : List (NRep El F)} (h : convGroups groups inT outT = some inG) (hi : UniqueOf ins inT) : UniqueOf ins inG :=
  ⟨hi.1, fun f => (hi.2 f).trans (convGroups_mem h f).symm⟩

theorem NamesDetermine.eq_iff {rep : F → Repr El} {inT outT t : List (NRep El F)} (h : NamesDetermine rep inT outT) (ht : ∀ f ∈ t, f ∈ inT ++ outT) (i j : ℕ) :
    (t.map NRep.name)[i]? = (t.map NRep.name)[j]? ↔ t[i]? = t[j]? := by
  rw [List.getElem?_map, List.getElem?_map]
  refine ⟨fun e => ?_, fun e => by rw [e]⟩
  cases hi : t[i]? with
  | none =>
    cases hj : t[j]? with
    | none => rfl
    | some q => rw [hi, hj] at e; exact absurd e (by simp)
  | some f =>
    cases hj : t[j]? with
    | none => rw [hi, hj] at e; exact absurd e (by simp)
    | some q =>
      rw [hi, hj] at e
      obtain ⟨n, r⟩ := f
      obtain ⟨m, s⟩ := q
      have e1 : n = m := by simpa using e
      subst e1
      have h1 := h _ (ht _ (List.mem_of_getElem? hi))
      have h2 := h _ (ht _ (List.mem_of_getElem? hj))
      dsimp only at h1 h2
      rw [← h1, ← h2]

/-- If the names determine the representations, the test of the groups can be made on the names. -/
theorem NamesDetermine.convGroups {rep : F → Repr El} {inT outT : List (NRep El F)} (h : NamesDetermine rep inT outT) (groups : ℕ) :
    E2.convGroups groups (inT.map NRep.name) (outT.map NRep.name) = (E2.convGroups groups inT outT).map (List.map NRep.name) := by
  unfold E2.convGroups
  simp only [List.length_map, h.eq_iff (t := inT) fun f hf => List.mem_append_left _ hf, h.eq_iff (t := outT) fun f hf => List.mem_append_right _ hf]
  by_cases hg : groups > 1
  · rw [if_pos hg, if_pos hg]
    split_ifs with h2
    · rw [Option.map_some, List.map_take]
    · rfl
  · rw [if_neg hg, if_neg hg]
    rfl

theorem NamesDetermine.group {rep : F → Repr El} {inT outT inG : List (NRep El F)} (h : NamesDetermine rep inT outT) {groups : ℕ}
    (hg : E2.convGroups groups inT outT = some inG) : NamesDetermine rep inG outT := by
  intro f hf
  refine h f ?_
  rcases List.mem_append.1 hf with h1 | h1
  · exact List.mem_append_left _ ((convGroups_mem hg f).1 h1)
  · exact List.mem_append_right _ h1

end E2
