import Verif.Model.Induced
import Verif.Lemmas.Regular

namespace E2

set_option linter.unusedSectionVars false

open Finset Mat

section
variable {El El' : Type} [DecidableEq El]

/-- The subgroup data describe a subgroup of a finite group. -/
structure SubOk (G : Grp El) (els : List El) (H : Grp El') (S : SubData El El') : Prop where
  lawG : G.Lawful
  nodup : els.Nodup
  mem : ∀ e, e ∈ els ↔ G.isEl e
  lawH : H.Lawful
  nodupH : S.els.Nodup
  memH : ∀ h, h ∈ S.els ↔ H.isEl h
  emb : IsEmbedding H G S.parent
  pinv : IsPartialInverse H G S.parent S.child

/-- `x` lies in the left coset of `r`. -/
def InCoset (G : Grp El) (H : Grp El') (S : SubData El El') (r x : El) : Prop :=
  ∃ h, H.isEl h ∧ x = G.op r (S.parent h)

variable {G : Grp El} {els : List El} {H : Grp El'} {S : SubData El El'}

open Classical in
theorem addCoset_eq (e : El) (c : El → Option El) (x : El) :
    addCoset G S e c x = if ∃ h ∈ S.els, G.op e (S.parent h) = x then some e else c x := by
  unfold addCoset
  generalize S.els = l
  induction l generalizing c with
  | nil => simp
  | cons a l ih =>
    rw [List.foldl_cons, ih]
    by_cases h1 : ∃ h ∈ l, G.op e (S.parent h) = x
    · rw [if_pos h1, if_pos]
      obtain ⟨h, hl, hx⟩ := h1
      exact ⟨h, List.mem_cons_of_mem _ hl, hx⟩
    · rw [if_neg h1]
      by_cases h2 : G.op e (S.parent a) = x
      · rw [if_pos ⟨a, by simp, h2⟩, ← h2]
        simp
      · rw [if_neg, Function.update_of_ne (Ne.symm h2)]
        rintro ⟨h, hl, hx⟩
        rcases List.mem_cons.1 hl with rfl | hl
        · exact h2 hx
        · exact h1 ⟨h, hl, hx⟩

theorem inCoset_iff (ok : SubOk G els H S) {r x : El} (hr : G.isEl r) (hx : G.isEl x) :
    InCoset G H S r x ↔ ∃ h, H.isEl h ∧ S.parent h = G.op (G.inv r) x := by
  have L := ok.lawG
  constructor
  · rintro ⟨h, hh, rfl⟩
    refine ⟨h, hh, ?_⟩
    rw [← L.assoc _ _ _ (L.inv_mem _ hr) hr (ok.emb.mem _ hh), L.inv_op _ hr, L.one_op _ (ok.emb.mem _ hh)]
  · rintro ⟨h, hh, e⟩
    refine ⟨h, hh, ?_⟩
    rw [e, ← L.assoc _ _ _ hr (L.inv_mem _ hr) hx, L.op_inv _ hr, L.one_op _ hx]

theorem inCoset_self (ok : SubOk G els H S) {r : El} (hr : G.isEl r) : InCoset G H S r r :=
  ⟨H.one, ok.lawH.one_mem, by rw [ok.emb.one, ok.lawG.op_one _ hr]⟩

theorem InCoset.isEl (ok : SubOk G els H S) {r x : El} (hr : G.isEl r) (h : InCoset G H S r x) : G.isEl x := by
  obtain ⟨h, hh, rfl⟩ := h
  exact ok.lawG.op_mem _ _ hr (ok.emb.mem _ hh)

omit [DecidableEq El] in
theorem parent_inv (L : G.Lawful) (LH : H.Lawful) {p : El' → El} (emb : IsEmbedding H G p) {h : El'}
    (hh : H.isEl h) : p (H.inv h) = G.inv (p h) := by
  have h1 : G.op (p (H.inv h)) (p h) = G.one := by
    rw [← emb.op _ _ (LH.inv_mem _ hh) hh, LH.inv_op _ hh, emb.one]
  have hp := emb.mem _ hh
  have hq := emb.mem _ (LH.inv_mem _ hh)
  rw [← L.op_one _ hq, ← L.op_inv _ hp, ← L.assoc _ _ _ hq hp (L.inv_mem _ hp), h1, L.one_op _ (L.inv_mem _ hp)]

/-- Cosets with a common element coincide. -/
theorem InCoset.meet (ok : SubOk G els H S) {r s x : El} (hr : G.isEl r) (hs : G.isEl s)
    (h1 : InCoset G H S r x) (h2 : InCoset G H S s x) : InCoset G H S r s := by
  have L := ok.lawG
  obtain ⟨h, hh, rfl⟩ := h1
  obtain ⟨k, hk, e⟩ := h2
  have pk := ok.emb.mem _ hk
  have ph := ok.emb.mem _ hh
  refine ⟨H.op h (H.inv k), ok.lawH.op_mem _ _ hh (ok.lawH.inv_mem _ hk), ?_⟩
  rw [ok.emb.op _ _ hh (ok.lawH.inv_mem _ hk), parent_inv L ok.lawH ok.emb hk,
    ← L.assoc _ _ _ hr ph (L.inv_mem _ pk), e, L.assoc _ _ _ hs pk (L.inv_mem _ pk), L.op_inv _ pk, L.op_one _ hs]

/-- The invariant of the coset loop. -/
structure CosetInv (G : Grp El) (H : Grp El') (S : SubData El El') (done : List El) (st : CosetState El) : Prop where
  mem : ∀ r ∈ st.reps, G.isEl r
  nodup : st.reps.Nodup
  get : ∀ x r, st.cosets x = some r → r ∈ st.reps ∧ InCoset G H S r x
  cover : ∀ r ∈ st.reps, ∀ x, InCoset G H S r x → st.cosets x = some r
  done : ∀ x ∈ done, (st.cosets x).isSome

theorem cosetInv_step (ok : SubOk G els H S) {done : List El} {st : CosetState El} (inv : CosetInv G H S done st)
    {e : El} (he : G.isEl e) : CosetInv G H S (done ++ [e]) (cosetStep G S st e) := by
  classical
  unfold cosetStep
  cases hc : st.cosets e with
  | some r =>
    refine ⟨inv.mem, inv.nodup, inv.get, inv.cover, fun x hx => ?_⟩
    rcases List.mem_append.1 hx with hx | hx
    · exact inv.done x hx
    · rw [List.mem_singleton.1 hx, hc]; rfl
  | none =>
    have hne : e ∉ st.reps := fun h => by
      rw [inv.cover e h e (inCoset_self ok he)] at hc
      cases hc
    have hA : ∀ x, addCoset G S e st.cosets x = if InCoset G H S e x then some e else st.cosets x := by
      intro x
      rw [addCoset_eq]
      have : (∃ h ∈ S.els, G.op e (S.parent h) = x) ↔ InCoset G H S e x := by
        constructor
        · rintro ⟨h, hh, rfl⟩; exact ⟨h, (ok.memH h).1 hh, rfl⟩
        · rintro ⟨h, hh, rfl⟩; exact ⟨h, (ok.memH h).2 hh, rfl⟩
      simp only [this]
    refine ⟨?_, ?_, ?_, ?_, ?_⟩
    · intro r hr
      rcases List.mem_append.1 hr with hr | hr
      · exact inv.mem r hr
      · rw [List.mem_singleton.1 hr]; exact he
    · rw [List.nodup_append]
      refine ⟨inv.nodup, List.nodup_singleton _, ?_⟩
      intro a ha b hb
      rw [List.mem_singleton.1 hb]
      rintro rfl
      exact hne ha
    · intro x r hx
      simp only [hA] at hx
      by_cases hin : InCoset G H S e x
      · rw [if_pos hin] at hx
        cases hx
        exact ⟨by simp, hin⟩
      · rw [if_neg hin] at hx
        obtain ⟨h1, h2⟩ := inv.get x r hx
        exact ⟨List.mem_append_left _ h1, h2⟩
    · intro r hr x hx
      simp only [hA]
      rcases List.mem_append.1 hr with hr | hr
      · rw [if_neg, inv.cover r hr x hx]
        intro hin
        have := inv.cover r hr e (hx.meet ok (inv.mem r hr) he hin)
        rw [hc] at this
        cases this
      · rw [List.mem_singleton.1 hr] at hx ⊢
        rw [if_pos hx]
    · intro x hx
      simp only [hA]
      rcases List.mem_append.1 hx with hx | hx
      · have := inv.done x hx
        split_ifs
        · rfl
        · exact this
      · rw [List.mem_singleton.1 hx, if_pos (inCoset_self ok he)]; rfl

theorem cosetLoop_inv (ok : SubOk G els H S) : CosetInv G H S els (cosetLoop G els S) := by
  have key : ∀ (l done : List El) (st : CosetState El), (∀ e ∈ l, G.isEl e) → CosetInv G H S done st →
      CosetInv G H S (done ++ l) (l.foldl (cosetStep G S) st) := by
    intro l
    induction l with
    | nil => intro done st _ h; simpa using h
    | cons e l ih =>
      intro done st hl h
      rw [List.foldl_cons, show done ++ e :: l = (done ++ [e]) ++ l by simp]
      exact ih _ _ (fun x hx => hl x (by simp [hx])) (cosetInv_step ok h (hl e (by simp)))
  have := key els [] ⟨fun _ => none, []⟩ (fun e he => (ok.mem e).1 he)
    ⟨by simp, by simp, by simp, by simp, by simp⟩
  rw [List.nil_append] at this
  exact this

/-- The set of representatives: every element lies in the coset of exactly one of them. -/
structure IsTransversal (G : Grp El) (H : Grp El') (S : SubData El El') (reps : List El) : Prop where
  nodup : reps.Nodup
  mem : ∀ r ∈ reps, G.isEl r
  exists_unique : ∀ x, G.isEl x → ∃! r, r ∈ reps ∧ InCoset G H S r x

theorem cosetLoop_transversal (ok : SubOk G els H S) : IsTransversal G H S (cosetLoop G els S).reps := by
  have inv := cosetLoop_inv ok
  refine ⟨inv.nodup, inv.mem, fun x hx => ?_⟩
  have := inv.done x ((ok.mem x).2 hx)
  obtain ⟨r, hr⟩ := Option.isSome_iff_exists.1 this
  refine ⟨r, inv.get x r hr, fun s hs => ?_⟩
  have := inv.cover s hs.1 x hs.2
  rw [hr] at this
  exact (Option.some.inj this).symm

theorem child_isSome (ok : SubOk G els H S) {x : El} (hx : G.isEl x) :
    (S.child x).isSome ↔ ∃ h, H.isEl h ∧ S.parent h = x := by
  have := ok.pinv.none_iff x hx
  rw [← not_iff_not, ← this]
  simp

theorem cosetLoop_ok (ok : SubOk G els H S) {g : El} (hg : G.isEl g) : inducedOk G S (cosetLoop G els S) g := by
  have inv := cosetLoop_inv ok
  intro r hr
  have L := ok.lawG
  have hgr := L.op_mem _ _ hg (inv.mem r hr)
  obtain ⟨s, hs⟩ := Option.isSome_iff_exists.1 (inv.done _ ((ok.mem _).2 hgr))
  refine ⟨s, hs, ?_⟩
  obtain ⟨h1, h2⟩ := inv.get _ _ hs
  have hse := inv.mem s h1
  rw [child_isSome ok (L.op_mem _ _ (L.inv_mem _ hse) hgr)]
  exact (inCoset_iff ok hse hgr).1 h2

/-- **The induced matrices.**  Block `(j, i)` of the matrix of `g` is the representation of the subgroup at `r_j⁻¹ g r_i` if
this element lies in the subgroup, and zero otherwise. -/
theorem inducedMat_eq (ok : SubOk G els H S) (ρ : Irrep El') {g : El} (hg : G.isEl g) {i j : ℕ}
    (hi : i < (cosetLoop G els S).reps.length) (hj : j < (cosetLoop G els S).reps.length) {a b : ℕ}
    (ha : a < ρ.size) (hb : b < ρ.size) :
    inducedMat G S (cosetLoop G els S) ρ g (j * ρ.size + a) (i * ρ.size + b)
      = match S.child (G.op (G.inv (cosetLoop G els S).reps[j]) (G.op g (cosetLoop G els S).reps[i])) with
        | none => 0
        | some h => ρ.mat h a b := by
  have inv := cosetLoop_inv ok
  have L := ok.lawG
  have hok := cosetLoop_ok ok hg
  generalize cosetLoop G els S = st at *
  have d1 : ∀ k c, c < ρ.size → (k * ρ.size + c) / ρ.size = k := fun k c hc => by
    rw [_root_.mul_comm, Nat.mul_add_div (by omega), Nat.div_eq_of_lt hc, add_zero]
  have d2 : ∀ k c, c < ρ.size → (k * ρ.size + c) % ρ.size = c := fun k c hc => by
    rw [_root_.mul_comm, Nat.mul_add_mod, Nat.mod_eq_of_lt hc]
  have hri := inv.mem _ (List.getElem_mem hi)
  have hrj := inv.mem _ (List.getElem_mem hj)
  have hgr := L.op_mem _ _ hg hri
  obtain ⟨s, hs, hch⟩ := hok _ (List.getElem_mem hi)
  have hget : st.reps[i]? = some st.reps[i] := List.getElem?_eq_getElem hi
  simp only [inducedMat, d1 _ _ ha, d1 _ _ hb, d2 _ _ ha, d2 _ _ hb, hget]
  have hs' : st.cosets (G.op g st.reps[i]) = some s := hs
  obtain ⟨h, hh⟩ := Option.isSome_iff_exists.1 hch
  simp only [hs', hh]
  obtain ⟨hsm, hsc⟩ := inv.get _ _ hs'
  by_cases e : st.reps[j] = s
  · rw [e, hh, if_pos]
    rw [← e]
    exact inv.nodup.idxOf_getElem j hj
  · rw [if_neg]
    · cases hx : S.child (G.op (G.inv st.reps[j]) (G.op g st.reps[i])) with
      | none => rfl
      | some k =>
        exfalso
        have h1 := (child_isSome ok (L.op_mem _ _ (L.inv_mem _ hrj) hgr)).1 (by rw [hx]; rfl)
        have h2 := (inCoset_iff ok hrj hgr).2 h1
        have := inv.cover _ (List.getElem_mem hj) _ h2
        rw [hs'] at this
        exact e (Option.some.inj this).symm
    · intro h1
      apply e
      have h2 := List.idxOf_lt_length_of_mem hsm
      have : st.reps[st.reps.idxOf s] = s := List.getElem_idxOf h2
      rw [← this]
      simp only [h1]

theorem cosetLoop_card (ok : SubOk G els H S) : (cosetLoop G els S).reps.length * S.els.length = els.length := by
  classical
  have T := cosetLoop_transversal ok
  set reps := (cosetLoop G els S).reps
  have hbij : (reps.flatMap fun r => S.els.map fun h => G.op r (S.parent h)).Perm els := by
    rw [List.perm_ext_iff_of_nodup _ ok.nodup]
    · intro x
      rw [List.mem_flatMap, ok.mem]
      constructor
      · rintro ⟨r, hr, hx⟩
        obtain ⟨h, hh, rfl⟩ := List.mem_map.1 hx
        exact ok.lawG.op_mem _ _ (T.mem r hr) (ok.emb.mem _ ((ok.memH h).1 hh))
      · intro hx
        obtain ⟨r, ⟨hr, h, hh, e⟩, -⟩ := T.exists_unique x hx
        exact ⟨r, hr, List.mem_map.2 ⟨h, (ok.memH h).2 hh, e.symm⟩⟩
    · rw [List.nodup_flatMap]
      constructor
      · intro r hr
        refine List.Nodup.map_on ?_ ok.nodupH
        intro a ha b hb e
        have L := ok.lawG
        have hre := T.mem r hr
        have pa := ok.emb.mem _ ((ok.memH a).1 ha)
        have pb := ok.emb.mem _ ((ok.memH b).1 hb)
        refine ok.emb.inj a b ((ok.memH a).1 ha) ((ok.memH b).1 hb) ?_
        rw [← L.one_op _ pa, ← L.inv_op _ hre, L.assoc _ _ _ (L.inv_mem _ hre) hre pa, e,
          ← L.assoc _ _ _ (L.inv_mem _ hre) hre pb, L.inv_op _ hre, L.one_op _ pb]
      · refine List.Pairwise.imp_of_mem ?_ T.nodup
        intro r s hr hs hne x hx hy
        apply hne
        obtain ⟨h, hh, rfl⟩ := List.mem_map.1 hx
        have hxe := ok.lawG.op_mem _ _ (T.mem r hr) (ok.emb.mem _ ((ok.memH h).1 hh))
        obtain ⟨k, hk, e⟩ := List.mem_map.1 hy
        exact (T.exists_unique _ hxe).unique ⟨hr, h, (ok.memH h).1 hh, rfl⟩ ⟨hs, k, (ok.memH k).1 hk, e.symm⟩
  have := hbij.length_eq
  rw [← this, List.length_flatMap]
  simp

end
end E2
