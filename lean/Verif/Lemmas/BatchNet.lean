import Verif.Lemmas.BatchLayers
import Verif.Props.Translate

/-!
The contents of new memory do not matter; networks commute with the choice of images.
-/

set_option linter.unusedSectionVars false

namespace E2

open Mat

variable {El F A I B B' K : Type} [LinearOrder F] [DecidableEq I] [Fintype B] [Fintype B']

theorem pickJunk_ok {f : B' → B} {junk : (c n : ℕ) → List (Pix B n → ℝ)} (h : JunkOk junk) : JunkOk (pickJunk f junk) := fun c n => by
  rw [pickJunk_eq, List.length_map, h c n]

/-- Whether a module returns does not depend on the contents of new memory. -/
theorem layer_returns (rep : F → Repr El) (l : Layer F A I) (hf : l.Frozen) {junk junk' : (c n : ℕ) → List (Pix B n → ℝ)} (hj : JunkOk junk) (hj' : JunkOk junk')
    (x : ETensor F B) : (l.forward rep junk x).isSome = (l.forward rep junk' x).isSome := by
  have h1 := layer_pick rep (fun e : Empty => (e.elim : B)) l (.inl hf) junk x
  have h2 := layer_pick rep (fun e : Empty => (e.elim : B)) l (.inl hf) junk' x
  have e : pickJunk (fun e : Empty => (e.elim : B)) junk = pickJunk (fun e : Empty => (e.elim : B)) junk' := by
    funext c n
    refine List.ext_getElem (by rw [pickJunk_ok hj, pickJunk_ok hj']) fun k _ _ => ?_
    funext q
    exact q.1.elim
  rw [e] at h1
  have h3 := congrArg Option.isSome (h1.symm.trans h2)
  simpa using h3

/-- The modules which treat each position separately. -/
theorem fibre_junk {rep : F → Repr El} {l : Layer F A I} (hl : LocalStep (B := B) rep l 1 0 1) (hf : l.Frozen) {junk junk' : (c n : ℕ) → List (Pix B n → ℝ)}
    (hj : JunkOk junk) (hj' : JunkOk junk') {n : ℕ} (x : GTensor F (Pix B n → ℝ)) (hx : x.WF fun r => (rep r).size) (hxt : x.ty = l.inTy)
    (hn : ∀ junk x', l.forward rep junk ⟨n, x⟩ = some x' → x'.n = n) : l.forward rep junk ⟨n, x⟩ = l.forward rep junk' ⟨n, x⟩ := by
  have h := layer_returns rep l hf hj hj' ⟨n, x⟩
  cases e1 : l.forward rep junk ⟨n, x⟩ with
  | none =>
    rw [e1] at h
    exact (Option.not_isSome_iff_eq_none.1 fun e => by rw [← h] at e; exact absurd e (by simp)).symm
  | some x1 =>
    rw [e1] at h
    obtain ⟨x2, e2⟩ := Option.isSome_iff_exists.1 h.symm
    obtain ⟨-, a2, a3, a4, a5, -, a6⟩ := hl n x x hx hx hxt hxt junk junk' hj hj' x1 x2 e1 e2
    have n1 := hn _ _ e1
    have n2 := hn _ _ e2
    obtain ⟨m1, t1, d1⟩ := x1
    obtain ⟨m2, t2, d2⟩ := x2
    dsimp only at n1 n2 a2 a3 a4 a5 a6
    subst n1
    subst n2
    rw [e2]
    have hd : d1 = d2 := by
      have hlen : d1.length = d2.length := by rw [a2.2, a3.2, a4, a5]
      refine List.ext_getElem hlen fun k h1 h2 => ?_
      funext q
      obtain ⟨b, i, j⟩ := q
      have := a6 b b i j i j ⟨Nat.zero_le _, by omega⟩ ⟨Nat.zero_le _, by omega⟩ ⟨Nat.zero_le _, by omega⟩ ⟨Nat.zero_le _, by omega⟩ (fun _ _ _ _ _ => rfl) k
      rw [chanImg_in i.2 j.2, chanImg_in i.2 j.2, List.getD_eq_getElem _ _ h1, List.getD_eq_getElem _ _ h2] at this
      exact this
    subst hd
    rw [a4, a5]

/-- A batch normalisation in any mode. -/
theorem bnModule_junk {R L S P : Type} [DecidableEq R] [DecidableEq L] [LinearOrder R] (M : Normaliser P L S) (sz : R → ℕ) (lab : R → L) (t : List R) (contig : L → Bool)
    (order : List L) (hn : order.Nodup) (hm : ∀ l, l ∈ order ↔ l ∈ t.map lab) (hpos : ∀ r ∈ t, 0 < sz r) (hsz : ∀ r ∈ t, M.size (lab r) = sz r)
    (hf : ∀ l ∈ order, FlagOk (contig l) (labelChannels (t.map lab) (t.map sz) l))
    (ha : ∀ b r k fld st, r ∈ t → fld.length = sz r → (M.apply b (lab r) k fld st).length = sz r)
    (training : Bool) (st : NormState S) (x : GTensor R (P → ℝ)) (hx : x.WF sz) (hxt : x.ty = t) (out out' : List (P → ℝ))
    (ho : out.length = x.data.length) (ho' : out'.length = x.data.length) :
    bnModule M sz t (t.map lab) contig order training st out x = bnModule M sz t (t.map lab) contig order training st out' x := by
  obtain ⟨st', y, h1, h2, -, h3⟩ := bnModule_equivariant M sz lab t contig order hn hm hpos hsz hf ha (fun _ => Mat.one) id
    (fun r k n fld s _ h => by rw [moveField_one h]; simp)
    (fun b r k fld s hr h => by rw [moveField_one h, moveField_one (ha b r k fld s hr h)]; simp) training st x hx hxt out out' ho ho'
  rw [transform_one hx, transform_one h2] at h3
  simp only [Function.comp_id, List.map_id'] at h3
  rw [h1, h3]

/-- **The contents of new memory do not matter**, for all modules in any mode. -/
theorem layer_junk {rep : F → Repr El} (hpos : ∀ r, 0 < (rep r).size) (l : Layer F A I) (hl : l.Plain rep) {junk junk' : (c n : ℕ) → List (Pix B n → ℝ)}
    (hj : JunkOk junk) (hj' : JunkOk junk') {n : ℕ} (x : GTensor F (Pix B n → ℝ)) (hx : x.WF fun r => (rep r).size) (hxt : x.ty = l.inTy) :
    l.forward rep junk ⟨n, x⟩ = l.forward rep junk' ⟨n, x⟩ := by
  have hn : ∀ {o : Option (GTensor F (Pix B n → ℝ))} {x' : ETensor F B}, (o.map fun y => (⟨n, y⟩ : ETensor F B)) = some x' → x'.n = n := by
    intro o x' h
    obtain ⟨_, -, rfl⟩ := Option.map_eq_some_iff.1 h
    rfl
  have hpos' : ∀ t : List F, ∀ r ∈ t, 0 < (rep r).size := fun _ r _ => hpos r
  cases l with
  | norm t f eps bias => exact fibre_junk (layer_local hpos _ hl (s := 1) (p := 0) (r := 1) rfl).2.2 trivial hj hj' x hx hxt fun _ _ h => hn h
  | inducedNorm t subs f eps bias => exact fibre_junk (layer_local hpos _ hl (s := 1) (p := 0) (r := 1) rfl).2.2 trivial hj hj' x hx hxt fun _ _ h => hn h
  | gated t trivial' supports gates drop σ bias => exact fibre_junk (layer_local hpos _ hl (s := 1) (p := 0) (r := 1) rfl).2.2 trivial hj hj' x hx hxt fun _ _ h => hn h
  | groupPool t triv => exact fibre_junk (layer_local hpos _ hl (s := 1) (p := 0) (r := 1) rfl).2.2 trivial hj hj' x hx hxt fun _ _ h => hn h
  | normPool t triv => exact fibre_junk (layer_local hpos _ hl (s := 1) (p := 0) (r := 1) rfl).2.2 trivial hj hj' x hx hxt fun _ _ h => hn h
  | inducedNormPool t sub triv => exact fibre_junk (layer_local hpos _ hl (s := 1) (p := 0) (r := 1) rfl).2.2 trivial hj hj' x hx hxt fun _ _ h => hn h
  | dropout t p inplace => exact fibre_junk (layer_local hpos _ hl (s := 1) (p := 0) (r := 1) rfl).2.2 trivial hj hj' x hx hxt fun _ _ h => hn h
  | innerBatchNorm t momentum eps track w b training st =>
    have hxt : x.ty = t := hxt
    have key := bnModule_junk (innerBN (P := Pix B n) momentum eps track w b) (fun r => (rep r).size) (fun r => (rep r).size) t
      (fun s => ((indexesFromLabels (fun r => (rep r).size) t (t.map fun r => (rep r).size) s).map fun e => e.1).getD false)
      (firstKeys (t.map fun r => (rep r).size)) (firstKeys_nodup _) (fun l => mem_firstKeys _ l) (hpos' t) (fun _ _ => rfl)
      (fun l hl => inner_flagOk _ t (hpos' t) ((mem_firstKeys _ l).1 hl)) (fun b r k fld s _ h => by simpa [innerBN] using h) training
      st x hx hxt (junk x.data.length n) (junk' x.data.length n) (hj _ _) (hj' _ _)
    simp only [Layer.forward, innerBatchNorm, key]
  | gnormBatchNorm t order momentum eps w b training st =>
    have hxt : x.ty = t := hxt
    obtain ⟨hnd, ho⟩ := hl
    have hid : t.map (fun r => r) = t := List.map_id t
    have key := bnModule_junk (gnormBN (P := Pix B n) rep momentum eps w b) (fun r => (rep r).size) (fun r => r) t
      (fun r => (contigFlags t r).getD false) order hnd (fun l => by rw [hid]; exact ho l) (hpos' t) (fun _ _ => rfl)
      (fun l _ => by
        have := bn_flagOk (fun r => (rep r).size) (fun r => r) t (hpos' t) l
        rw [hid] at this ⊢
        exact this)
      (fun b r k fld s _ h => by simp [gnormBN, chAct_length]) training st x hx hxt (junk x.data.length n) (junk' x.data.length n) (hj _ _) (hj' _ _)
    rw [hid] at key
    simp only [Layer.forward, gnormBatchNorm, key]
  | _ => rfl

/-- A module returns tensors of its output type. -/
theorem layer_typed {rep : F → Repr El} (l : Layer F A I) (ho : l.outTy ≠ []) {junk : (c n : ℕ) → List (Pix B n → ℝ)} (x y : ETensor F B)
    (hx : x.x.WF fun r => (rep r).size) (h : l.forward rep junk x = some y) : y.x.WF (fun r => (rep r).size) ∧ y.x.ty = l.outTy := by
  have mk : ∀ {n : ℕ} {d : List (Pix B n → ℝ)} {t : List F} {z : GTensor F (Pix B n → ℝ)}, t ≠ [] → mkGT (fun r => (rep r).size) d t = some z →
      z.WF (fun r => (rep r).size) ∧ z.ty = t := by
    intro n d t z ht hz
    obtain ⟨h1, rfl⟩ := mkGT_eq_some.1 hz
    exact ⟨⟨ht, h1⟩, rfl⟩
  have cw : ∀ {n m : ℕ} {t : List F} {g : (Pix B n → ℝ) → Pix B m → ℝ} {x : GTensor F (Pix B n → ℝ)} {y : ETensor F B}, t ≠ [] →
      (channelwise (fun r => (rep r).size) t g x).map (fun y => (⟨m, y⟩ : ETensor F B)) = some y → y.x.WF (fun r => (rep r).size) ∧ y.x.ty = t := by
    intro n m t g x y ht h
    obtain ⟨z, hz, rfl⟩ := Option.map_eq_some_iff.1 h
    unfold channelwise at hz
    split_ifs at hz
    exact mk ht hz
  have wr : ∀ {inT outT : List F} {g : PTensor B → Option (PTensor B)} {x y : ETensor F B}, outT ≠ [] → wrapped (fun r => (rep r).size) inT outT g x = some y →
      y.x.WF (fun r => (rep r).size) ∧ y.x.ty = outT := by
    intro inT outT g x y ht h
    unfold wrapped at h
    split_ifs at h
    split at h
    · exact absurd h (by simp)
    · obtain ⟨z, hz, rfl⟩ := Option.map_eq_some_iff.1 h
      exact mk ht hz
  have bn : ∀ {L S : Type} [DecidableEq L] {M : Normaliser (Pix B x.n) L S} {t : List F} {labels : List L} {contig : L → Bool} {order : List L} {tr : Bool} {st : NormState S}
      {out : List (Pix B x.n → ℝ)}, t ≠ [] →
      (bnModule M (fun r => (rep r).size) t labels contig order tr st out x.x).map (fun r => (⟨x.n, r.2⟩ : ETensor F B)) = some y →
      y.x.WF (fun r => (rep r).size) ∧ y.x.ty = t := by
    intro L S _ M t labels contig order tr st out ht h
    obtain ⟨z, hz, rfl⟩ := Option.map_eq_some_iff.1 h
    unfold bnModule at hz
    split_ifs at hz
    split at hz
    · exact absurd hz (by simp)
    · obtain ⟨u, hu, rfl⟩ := Option.map_eq_some_iff.1 hz
      exact mk ht hu
  cases l with
  | conv c basis inT outT w b =>
    simp only [Layer.forward] at h
    split at h
    · exact absurd h (by simp)
    · split at h
      · exact absurd h (by simp)
      · exact wr ho h
  | convT c basis inT outT w b =>
    simp only [Layer.forward] at h
    split at h
    · exact absurd h (by simp)
    · split at h
      · exact absurd h (by simp)
      · exact wr ho h
  | pointwise t g => exact cw ho h
  | norm t g eps bias =>
    obtain ⟨z, hz, rfl⟩ := Option.map_eq_some_iff.1 h
    unfold normNonlin at hz
    split_ifs at hz
    dsimp only at hz
    split at hz
    · exact absurd hz (by simp)
    · exact mk ho hz
  | inducedNorm t subs g eps bias =>
    obtain ⟨z, hz, rfl⟩ := Option.map_eq_some_iff.1 h
    unfold inducedNorm at hz
    split_ifs at hz
    dsimp only at hz
    split at hz
    · exact absurd hz (by simp)
    · exact mk ho hz
  | gated t trivial supports gates drop g bias =>
    obtain ⟨z, hz, rfl⟩ := Option.map_eq_some_iff.1 h
    unfold gated1 at hz
    by_cases h1 : gated1Check trivial supports t gates = true
    · rw [if_pos h1] at hz
      by_cases h2 : x.x.ty = t
      · rw [if_pos h2] at hz
        dsimp only at hz
        split at hz
        · exact absurd hz (by simp)
        · split at hz
          · exact absurd hz (by simp)
          · split at hz
            · exact absurd hz (by simp)
            · exact mk ho hz
      · rw [if_neg h2] at hz
        exact absurd hz (by simp)
    · rw [if_neg h1] at hz
      exact absurd hz (by simp)
  | innerBatchNorm t momentum eps track w b training st => exact bn ho h
  | normBatchNorm t momentum eps w training st => exact bn ho h
  | inducedBatchNorm t sub momentum eps w training st => exact bn ho h
  | gnormBatchNorm t order momentum eps w b training st => exact bn ho h
  | maxPool t k s p d ceil =>
    simp only [Layer.forward] at h
    split at h
    · exact absurd h (by simp)
    · exact cw ho h
  | maxPoolAntialiased t k s p ceil fs sigma =>
    simp only [Layer.forward] at h
    split at h
    · exact absurd h (by simp)
    · split at h
      · exact absurd h (by simp)
      · exact cw ho h
  | avgPool t k s p ceil =>
    simp only [Layer.forward] at h
    split at h
    · exact absurd h (by simp)
    · exact cw ho h
  | avgPoolAntialiased t s p fs sigma =>
    simp only [Layer.forward] at h
    split at h
    · exact absurd h (by simp)
    · exact cw ho h
  | adaptiveAvgPool t m => exact cw ho h
  | adaptiveMaxPool t m => exact cw ho h
  | groupPool t triv =>
    obtain ⟨z, hz, rfl⟩ := Option.map_eq_some_iff.1 h
    unfold groupPooling poolBySize at hz
    split_ifs at hz
    dsimp only at hz
    split at hz
    · exact absurd hz (by simp)
    · exact mk ho hz
  | normPool t triv =>
    obtain ⟨z, hz, rfl⟩ := Option.map_eq_some_iff.1 h
    unfold normPool poolBySize at hz
    split_ifs at hz
    dsimp only at hz
    split at hz
    · exact absurd hz (by simp)
    · exact mk ho hz
  | inducedNormPool t sub triv =>
    obtain ⟨z, hz, rfl⟩ := Option.map_eq_some_iff.1 h
    unfold inducedNormPool at hz
    split_ifs at hz
    dsimp only at hz
    split at hz
    · exact absurd hz (by simp)
    · exact mk ho hz
  | mask t S margin =>
    simp only [Layer.forward] at h
    split_ifs at h
    exact cw ho h
  | upsample t c =>
    simp only [Layer.forward] at h
    split at h
    · exact absurd h (by simp)
    · exact cw ho h
  | dropout t p inplace =>
    obtain ⟨z, hz, rfl⟩ := Option.map_eq_some_iff.1 h
    unfold fieldDropout at hz
    by_cases h2 : x.x.ty = t
    · rw [if_pos h2, if_neg (by simp)] at hz
      obtain rfl := Option.some.inj hz
      exact ⟨hx, h2⟩
    · rw [if_neg h2] at hz
      exact absurd hz (by simp)
  | identity t =>
    simp only [Layer.forward] at h
    split_ifs at h with h2
    obtain rfl := Option.some.inj h
    exact ⟨hx, h2⟩
  | concatenated t out g =>
    obtain ⟨z, hz, rfl⟩ := Option.map_eq_some_iff.1 h
    unfold concatenated at hz
    split_ifs at hz
    exact mk ho hz
  | reshuffle t perm =>
    simp only [Layer.forward] at h
    split_ifs at h with h2
    obtain ⟨z, hz, rfl⟩ := Option.map_eq_some_iff.1 h
    obtain ⟨h3, h4⟩ := reshuffle_typed hx hz
    subst h2
    exact ⟨h3, h4⟩

/-! ### Networks -/

/-- Two modules with the same types, of which the second one does with `a x` what the first one does with `x`. -/
def ModRel {T X X' S : Type} (a : X → X') (m : EMod T X S) (m' : EMod T X' S) : Prop :=
  m.inTy = m'.inTy ∧ m.outTy = m'.outTy ∧ ∀ x, m'.fwd (a x) = (m.fwd x).map a

theorem dictSet_rel {V V' : Type} [DecidableEq K] {r : V → V' → Prop} {d : List (K × V)} {d' : List (K × V')}
    (h : List.Forall₂ (fun p q => p.1 = q.1 ∧ r p.2 q.2) d d') (k : K) {v : V} {v' : V'} (hv : r v v') :
    List.Forall₂ (fun p q => p.1 = q.1 ∧ r p.2 q.2) (dictSet d k v) (dictSet d' k v') := by
  induction h with
  | nil => exact .cons ⟨rfl, hv⟩ .nil
  | @cons p q d d' h1 h2 ih =>
    obtain ⟨k1, v1⟩ := p
    obtain ⟨k2, v2⟩ := q
    obtain ⟨rfl, h1⟩ : k1 = k2 ∧ r v1 v2 := h1
    unfold dictSet
    split_ifs
    · exact .cons ⟨rfl, hv⟩ h2
    · exact .cons ⟨rfl, h1⟩ ih

/-- Two sequences related module by module. -/
def SeqRel {T X X' S : Type} (a : X → X') (st : SeqState K T X S) (st' : SeqState K T X' S) : Prop :=
  st.inTy = st'.inTy ∧ st.outTy = st'.outTy ∧ List.Forall₂ (fun p q => p.1 = q.1 ∧ ModRel a p.2 q.2) st.mods st'.mods

theorem addModule_rel {T X X' S : Type} [DecidableEq K] [DecidableEq T] {a : X → X'} {st : SeqState K T X S} {st' : SeqState K T X' S} (h : SeqRel a st st')
    (k : K) {m : EMod T X S} {m' : EMod T X' S} (hm : ModRel a m m') : Option.Rel (SeqRel a) (addModule st k m) (addModule st' k m') := by
  obtain ⟨h1, h2, h3⟩ := h
  unfold addModule
  rw [← h3.length_eq, ← h1, ← h2, ← hm.1]
  split_ifs
  · exact .some ⟨by rw [hm.1], by rw [hm.2.1], dictSet_rel h3 k hm⟩
  · exact .none
  · exact .some ⟨rfl, by rw [hm.2.1], dictSet_rel h3 k hm⟩
  · exact .none

theorem addModules_rel {T X X' S : Type} [DecidableEq K] [DecidableEq T] {a : X → X'} {l : List (K × EMod T X S)} {l' : List (K × EMod T X' S)}
    (hl : List.Forall₂ (fun p q => p.1 = q.1 ∧ ModRel a p.2 q.2) l l') {st : SeqState K T X S} {st' : SeqState K T X' S} (h : SeqRel a st st') :
    Option.Rel (SeqRel a) (addModules st l) (addModules st' l') := by
  induction hl generalizing st st' with
  | nil => exact .some h
  | @cons p q l l' h1 h2 ih =>
    obtain ⟨k1, m1⟩ := p
    obtain ⟨k2, m2⟩ := q
    obtain ⟨rfl, h1⟩ : k1 = k2 ∧ ModRel a m1 m2 := h1
    rw [addModules, addModules]
    have := addModule_rel h k1 h1
    revert this
    cases addModule st k1 m1 <;> cases addModule st' k1 m2 <;> intro this <;> cases this
    · exact .none
    · rename_i h
      exact ih h

theorem runMods_rel {T X X' S : Type} {a : X → X'} {l : List (K × EMod T X S)} {l' : List (K × EMod T X' S)}
    (hl : List.Forall₂ (fun p q => p.1 = q.1 ∧ ModRel a p.2 q.2) l l') (x : X) : runMods l' (a x) = (runMods l x).map a := by
  induction hl generalizing x with
  | nil => rfl
  | @cons p q l l' h1 h2 ih =>
    obtain ⟨k1, m1⟩ := p
    obtain ⟨k2, m2⟩ := q
    rw [runMods, runMods, h1.2.2.2]
    cases m1.fwd x with
    | none => rfl
    | some y => exact ih y

theorem seqForward_rel {T X X' S : Type} [DecidableEq T] {a : X → X'} {ty : X → T} {ty' : X' → T} (hty : ∀ x, ty' (a x) = ty x) {st : SeqState K T X S}
    {st' : SeqState K T X' S} (h : SeqRel a st st') (x : X) : seqForward ty' st' (a x) = (seqForward ty st x).map a := by
  unfold seqForward
  rw [hty, ← h.1, ← h.2.1]
  split_ifs
  · rw [runMods_rel h.2.2]
    cases runMods st.mods x with
    | none => rfl
    | some y =>
      simp only [Option.map_some, Option.bind_some, hty]
      split_ifs <;> rfl
  · rfl

theorem seq_rel {T X X' S : Type} [DecidableEq K] [DecidableEq T] {a : X → X'} {ty : X → T} {ty' : X' → T} (hty : ∀ x, ty' (a x) = ty x) {l : List (K × EMod T X S)}
    {l' : List (K × EMod T X' S)} (hl : List.Forall₂ (fun p q => p.1 = q.1 ∧ ModRel a p.2 q.2) l l') (x : X) :
    ((seqNew l').bind fun st => seqForward ty' st (a x)) = ((seqNew l).bind fun st => seqForward ty st x).map a := by
  have := addModules_rel (st := (⟨none, none, []⟩ : SeqState K T X S)) (st' := ⟨none, none, []⟩) hl ⟨rfl, rfl, .nil⟩
  unfold seqNew
  revert this
  cases addModules (⟨none, none, []⟩ : SeqState K T X S) l <;> cases addModules (⟨none, none, []⟩ : SeqState K T X' S) l' <;> intro this <;> cases this
  · rfl
  · rename_i h
    exact seqForward_rel hty h x

end E2
