import Verif.Lemmas.BatchLayers
import Verif.Model.DiffopTree

/-!
Choosing images of a batch commutes with the modules built by `SequentialModule` and `MultipleModule`.
-/

set_option linter.unusedSectionVars false

namespace E2

open Mat

variable {El F A I B B' K L : Type}

/-! ### The branches -/

theorem branchSub_map {P P' : Type} [DecidableEq L] (σ : P' → P) (sz : F → ℕ) (labels : List L) (x : GTensor F (P → ℝ)) (l : L) :
    branchSub sz labels (x.mapCh (· ∘ σ)) l = (branchSub sz labels x l).map (GTensor.mapCh (· ∘ σ)) := by
  unfold branchSub
  simp only [GTensor.mapCh, Option.bind_eq_bind]
  cases groupByLabels x.ty labels l with
  | none => rfl
  | some t =>
    cases contigLoop labels none (fun _ => none) l with
    | none => rfl
    | some c =>
      simp only [Option.bind_some, readGroup_map]
      cases readGroup x.data c ((labelIdxFrom 0 0 (labels.zip (x.ty.map sz)) (fun _ => [], fun _ => [])).1 l) with
      | none => rfl
      | some y => exact mkGT_map sz _ y t

theorem branch_map {P P' : Type} [LinearOrder F] [LinearOrder L] (σ : P' → P) (sz : F → ℕ) (level : ℕ) (labels : List L) (x : GTensor F (P → ℝ)) (l : L) :
    branch sz level labels (x.mapCh (· ∘ σ)) l = (branch sz level labels x l).map (GTensor.mapCh (· ∘ σ)) := by
  unfold branch
  show (if level < 3 ∧ x.ty.length = labels.length then if 0 < level ∧ branchPerm sz level labels x.ty ≠ List.range x.ty.length then _ else _ else none) = _
  split_ifs
  · simp only [Option.bind_eq_bind]
    rw [show (x.mapCh (· ∘ σ)).ty = x.ty from rfl, reshuffle_map]
    cases reshuffle sz (branchPerm sz level labels x.ty) x with
    | none => rfl
    | some y =>
      simp only [Option.map_some, Option.bind_some]
      cases (branchPerm sz level labels x.ty).mapM fun p => labels[p]? with
      | none => rfl
      | some ls => exact branchSub_map σ sz ls y l
  · exact branchSub_map σ sz labels x l
  · rfl

theorem mergeLoop_map {V W : Type} (g : V → W) (p : ℕ) (ys : List (List V)) (out : List V) :
    mergeLoop p (ys.map (List.map g)) (out.map g) = (mergeLoop p ys out).map g := by
  induction ys generalizing p out with
  | nil => rfl
  | cons y ys ih =>
    rw [List.map_cons, mergeLoop, mergeLoop, List.length_map, ← ih]
    congr 1
    simp [writeSlice, List.map_take, List.map_drop]

theorem mergeGT_map {P P' : Type} (σ : P' → P) (sz : F → ℕ) (out : List (P → ℝ)) (ys : List (GTensor F (P → ℝ))) :
    mergeGT sz (out.map (· ∘ σ)) (ys.map (GTensor.mapCh (· ∘ σ))) = (mergeGT sz out ys).map (GTensor.mapCh (· ∘ σ)) := by
  unfold mergeGT
  by_cases h : ys = []
  · rw [if_pos h, if_pos (by rw [h]; rfl)]
    rfl
  · rw [if_neg h, if_neg (by simpa using h)]
    have e1 : (ys.map (GTensor.mapCh (· ∘ σ))).flatMap GTensor.ty = ys.flatMap GTensor.ty := by
      rw [List.flatMap_map]
      rfl
    have e2 : (ys.map (GTensor.mapCh (· ∘ σ))).map GTensor.data = (ys.map GTensor.data).map (List.map (· ∘ σ)) := by
      rw [List.map_map, List.map_map]
      rfl
    rw [e1, e2, mergeLoop_map]
    cases mkType (ys.flatMap GTensor.ty) with
    | none => rfl
    | some t => exact mkGT_map sz _ _ t

theorem fit_pick (f : B' → B) (n : ℕ) (y : ETensor F B) : (y.pick f).fit n = (y.fit n).map (GTensor.mapCh (· ∘ pickPix n f)) := by
  obtain ⟨m, y⟩ := y
  unfold ETensor.fit
  by_cases h : m = n
  · subst h
    rw [dif_pos rfl, dif_pos (show (ETensor.pick f ⟨m, y⟩).n = m from rfl)]
    rfl
  · rw [dif_neg h, dif_neg (show (ETensor.pick f ⟨m, y⟩).n ≠ n from h)]
    by_cases h1 : m = 1
    · rw [dif_pos h1, dif_pos (show (ETensor.pick f ⟨m, y⟩).n = 1 from h1)]
      simp only [Option.map_some, GTensor.mapCh, ETensor.pick, List.map_map]
      rfl
    · rw [dif_neg h1, dif_neg (show (ETensor.pick f ⟨m, y⟩).n ≠ 1 from h1)]
      rfl

theorem mapM_rel {α α' β β' : Type} {R : α → α' → Prop} (g : α → Option β) (g' : α' → Option β') (h : β → β') (hg : ∀ a a', R a a' → g' a' = (g a).map h)
    {l : List α} {l' : List α'} (hl : List.Forall₂ R l l') : l'.mapM g' = (l.mapM g).map (List.map h) := by
  induction hl with
  | nil => rfl
  | cons ha _ ih =>
    rename_i a a' l l' _
    rw [List.mapM_cons, List.mapM_cons, hg _ _ ha, ih]
    cases g a with
    | none => rfl
    | some b => cases l.mapM g <;> rfl

/-! ### The shapes -/

/-- The same shape with another size of the batch. -/
def reb (b : Dim) (s : List Dim) : List Dim := b :: s.tail

theorem mergeDim_reb (b : Dim) {s t : List Dim} {d : Dim} (hs : s.head? = some d) (ht : t.head? = some d) : mergeDim (reb b s) (reb b t) = (mergeDim s t).map (reb b) := by
  obtain _ | ⟨s0, _ | ⟨s1, s⟩⟩ := s
  · cases hs
  · obtain _ | ⟨t0, _ | ⟨t1, t⟩⟩ := t <;> rfl
  · obtain _ | ⟨t0, _ | ⟨t1, t⟩⟩ := t
    · cases ht
    · rfl
    · obtain rfl : s0 = d := Option.some.inj hs
      obtain rfl : t0 = s0 := Option.some.inj ht
      simp only [reb, List.tail_cons, mergeDim, true_and]
      split_ifs
      · cases s1.add t1 <;> rfl
      · rfl

theorem mergeDim_head {s t r : List Dim} {d : Dim} (hs : s.head? = some d) (h : mergeDim s t = some r) : r.head? = some d := by
  obtain _ | ⟨s0, _ | ⟨s1, s⟩⟩ := s
  · cases hs
  · obtain _ | ⟨t0, _ | ⟨t1, t⟩⟩ := t <;> cases h
  · obtain _ | ⟨t0, _ | ⟨t1, t⟩⟩ := t
    · cases h
    · cases h
    · rw [mergeDim] at h
      split_ifs at h
      obtain ⟨c, -, rfl⟩ := Option.map_eq_some_iff.1 h
      exact hs

theorem foldDims_reb (b : Dim) {d : Dim} (ss : List (List Dim)) (hss : ∀ t ∈ ss, t.head? = some d) (s : List Dim) (hs : s.head? = some d) :
    (ss.map (reb b)).foldlM mergeDim (reb b s) = (ss.foldlM mergeDim s).map (reb b) ∧ ∀ r, ss.foldlM mergeDim s = some r → r.head? = some d := by
  induction ss generalizing s with
  | nil => exact ⟨rfl, fun r h => by cases h; exact hs⟩
  | cons t ss ih =>
    simp only [List.map_cons, List.foldlM_cons, Option.bind_eq_bind]
    rw [mergeDim_reb b hs (hss t (by simp))]
    cases e : mergeDim s t with
    | none => exact ⟨rfl, fun r h => by cases h⟩
    | some r => exact ih (fun t ht => hss t (List.mem_cons_of_mem _ ht)) r (mergeDim_head hs e)

theorem mergeDims_reb (b : Dim) {d : Dim} (ss : List (List Dim)) (hss : ∀ t ∈ ss, t.head? = some d) :
    mergeDims (ss.map (reb b)) = (mergeDims ss).map (reb b) ∧ ∀ r, mergeDims ss = some r → r.head? = some d := by
  cases ss with
  | nil => exact ⟨rfl, fun r h => by cases h⟩
  | cons s ss => exact foldDims_reb b ss (fun t ht => hss t (List.mem_cons_of_mem _ ht)) s (hss s (by simp))

theorem allocSize_reb (m m' : ℕ) {s : List Dim} (h : s.head? = some (.int m)) : allocSize m' (reb (.int m') s) = allocSize m s := by
  obtain _ | ⟨s0, s⟩ := s
  · cases h
  · obtain rfl : s0 = .int m := Option.some.inj h
    obtain _ | ⟨s1, _ | ⟨s2, _ | ⟨s3, _ | ⟨s4, s⟩⟩⟩⟩ := s
    · rfl
    · cases s1 <;> rfl
    · cases s1 <;> cases s2 <;> rfl
    · cases s1 <;> cases s2 <;> cases s3 <;> simp [reb, allocSize]
    · cases s1 <;> cases s2 <;> cases s3 <;> rfl

/-! ### Modules -/

/-- The second module does with chosen images what the first does with all of them; both declare the same shapes, with the size of the batch they are given. -/
structure PickRel (f : B' → B) (M : EMod (List F) (ETensor F B) (List Dim)) (M' : EMod (List F) (ETensor F B') (List Dim)) : Prop where
  inTy : M'.inTy = M.inTy
  outTy : M'.outTy = M.outTy
  fwd : ∀ x, M'.fwd (x.pick f) = (M.fwd x).map (ETensor.pick f)
  shape : ∀ s, M'.shape s = M.shape s
  keeps : ∀ b b' s, M.shape (b' :: s) = (M.shape (b :: s)).map (reb b')

theorem PickRel.head {f : B' → B} {M : EMod (List F) (ETensor F B) (List Dim)} {M' : EMod (List F) (ETensor F B') (List Dim)} (h : PickRel f M M') (b : Dim) (s r : List Dim)
    (hr : M.shape (b :: s) = some r) : r.head? = some b := by
  have := h.keeps b b s
  rw [hr] at this
  rw [Option.some.inj this]
  rfl

theorem declAxes_keeps (p q : ℕ) (fh fw : Dim → Option Dim) (b b' : Dim) (s : List Dim) : declAxes p q fh fw (b' :: s) = (declAxes p q fh fw (b :: s)).map (reb b') := by
  obtain _ | ⟨s1, _ | ⟨s2, _ | ⟨s3, _ | ⟨s4, s⟩⟩⟩⟩ := s
  · rfl
  · rfl
  · rfl
  · simp only [declAxes]
    split_ifs
    · cases fh s2 with
      | none => rfl
      | some h => cases fw s3 <;> rfl
    · rfl
  · rfl

theorem Layer.declared_keeps (sz : F → ℕ) (l : Layer F A I) (b b' : Dim) (s : List Dim) : l.declared sz (b' :: s) = (l.declared sz (b :: s)).map (reb b') := by
  cases l with
  | mask => rfl
  | avgPool => rfl
  | identity t =>
    simp only [Layer.declared, declIdentity, List.length_cons, List.getElem?_cons_succ]
    split_ifs <;> rfl
  | maxPool => simp only [Layer.declared]; split_ifs <;> exact declAxes_keeps ..
  | maxPoolAntialiased => simp only [Layer.declared]; split_ifs <;> exact declAxes_keeps ..
  | upsample t c => simp only [Layer.declared]; cases c.size <;> exact declAxes_keeps ..
  | _ => exact declAxes_keeps ..

section forward

variable [LinearOrder F] [DecidableEq I] [LinearOrder K] [Fintype B] [Fintype B']

theorem layer_rel (rep : F → Repr El) (f : B' → B) (l : Layer F A I) (h : l.Frozen ∨ f.Bijective) (junk : (c n : ℕ) → List (Pix B n → ℝ)) :
    PickRel f (l.toShapedMod rep junk) (l.toShapedMod rep (pickJunk f junk)) :=
  ⟨rfl, rfl, layer_pick rep f l h junk, fun _ => rfl, l.declared_keeps _⟩

/-! ### `SequentialModule` -/

/-- Related modules under the same name. -/
def NamedRel (f : B' → B) (a : K × EMod (List F) (ETensor F B) (List Dim)) (a' : K × EMod (List F) (ETensor F B') (List Dim)) : Prop :=
  a'.1 = a.1 ∧ PickRel f a.2 a'.2

/-- Related states of a `SequentialModule`. -/
structure StRel (f : B' → B) (st : SeqState K (List F) (ETensor F B) (List Dim)) (st' : SeqState K (List F) (ETensor F B') (List Dim)) : Prop where
  inTy : st'.inTy = st.inTy
  outTy : st'.outTy = st.outTy
  mods : List.Forall₂ (NamedRel f) st.mods st'.mods

theorem dictSet_named (f : B' → B) {d : List (K × EMod (List F) (ETensor F B) (List Dim))} {d' : List (K × EMod (List F) (ETensor F B') (List Dim))}
    (h : List.Forall₂ (NamedRel f) d d') (k : K) {M : EMod (List F) (ETensor F B) (List Dim)} {M' : EMod (List F) (ETensor F B') (List Dim)} (hM : PickRel f M M') :
    List.Forall₂ (NamedRel f) (dictSet d k M) (dictSet d' k M') := by
  induction h with
  | nil => exact .cons ⟨rfl, hM⟩ .nil
  | cons ha hl ih =>
    rename_i a a' l l'
    obtain ⟨k1, m1⟩ := a
    obtain ⟨k2, m2⟩ := a'
    obtain rfl : k2 = k1 := ha.1
    rw [dictSet, dictSet]
    split_ifs
    · exact .cons ⟨rfl, hM⟩ hl
    · exact .cons ha ih

theorem addModule_named (f : B' → B) {st : SeqState K (List F) (ETensor F B) (List Dim)} {st' : SeqState K (List F) (ETensor F B') (List Dim)} (h : StRel f st st') (k : K)
    {M : EMod (List F) (ETensor F B) (List Dim)} {M' : EMod (List F) (ETensor F B') (List Dim)} (hM : PickRel f M M') :
    Option.Rel (StRel f) (addModule st k M) (addModule st' k M') := by
  unfold addModule
  rw [h.inTy, h.outTy, hM.inTy, hM.outTy, ← h.mods.length_eq]
  split_ifs
  · exact .some ⟨rfl, rfl, dictSet_named f h.mods k hM⟩
  · exact .none
  · exact .some ⟨rfl, rfl, dictSet_named f h.mods k hM⟩
  · exact .none

theorem addModules_named (f : B' → B) {l : List (K × EMod (List F) (ETensor F B) (List Dim))} {l' : List (K × EMod (List F) (ETensor F B') (List Dim))}
    (hl : List.Forall₂ (NamedRel f) l l') {st : SeqState K (List F) (ETensor F B) (List Dim)} {st' : SeqState K (List F) (ETensor F B') (List Dim)} (h : StRel f st st') :
    Option.Rel (StRel f) (addModules st l) (addModules st' l') := by
  induction hl generalizing st st' with
  | nil => exact .some h
  | cons ha _ ih =>
    rename_i a a' l l' _
    obtain ⟨k1, m1⟩ := a
    obtain ⟨k2, m2⟩ := a'
    obtain rfl : k2 = k1 := ha.1
    rw [addModules, addModules]
    have h1 := addModule_named f h k2 ha.2
    revert h1
    cases addModule st k2 m1 <;> cases addModule st' k2 m2 <;> intro h1
    · exact .none
    · cases h1
    · cases h1
    · cases h1 with
      | some h1 => exact ih h1

theorem runMods_named (f : B' → B) {l : List (K × EMod (List F) (ETensor F B) (List Dim))} {l' : List (K × EMod (List F) (ETensor F B') (List Dim))}
    (hl : List.Forall₂ (NamedRel f) l l') (x : ETensor F B) : runMods l' (x.pick f) = (runMods l x).map (ETensor.pick f) := by
  induction hl generalizing x with
  | nil => rfl
  | cons ha _ ih =>
    rename_i a a' l l' _
    rw [runMods, runMods, ha.2.fwd]
    cases a.2.fwd x with
    | none => rfl
    | some y => exact ih y

theorem foldShape_rel (f : B' → B) {l : List (K × EMod (List F) (ETensor F B) (List Dim))} {l' : List (K × EMod (List F) (ETensor F B') (List Dim))}
    (hl : List.Forall₂ (NamedRel f) l l') : (∀ s : List Dim, l'.foldlM (fun s m => m.2.shape s) s = l.foldlM (fun s m => m.2.shape s) s) ∧
      ∀ (b b' : Dim) (s : List Dim), l.foldlM (fun s m => m.2.shape s) (b' :: s) = Option.map (reb b') (l.foldlM (fun s m => m.2.shape s) (b :: s)) := by
  induction hl with
  | nil => exact ⟨fun _ => rfl, fun _ _ _ => rfl⟩
  | cons ha _ ih =>
    rename_i a a' l l' _
    refine ⟨fun s => ?_, fun b b' s => ?_⟩
    · simp only [List.foldlM_cons, Option.bind_eq_bind, ha.2.shape]
      exact congrArg _ (funext ih.1)
    · simp only [List.foldlM_cons, Option.bind_eq_bind]
      rw [ha.2.keeps b b' s]
      cases e : a.2.shape (b :: s) with
      | none => rfl
      | some r =>
        obtain _ | ⟨c, r⟩ := r
        · exact absurd (ha.2.head b s _ e) (by simp)
        · exact ih.2 c b' r

theorem seqMod_rel (f : B' → B) (sz : F → ℕ) {l : List (K × EMod (List F) (ETensor F B) (List Dim))} {l' : List (K × EMod (List F) (ETensor F B') (List Dim))}
    (hl : List.Forall₂ (NamedRel f) l l') : Option.Rel (PickRel f) (seqMod sz l) (seqMod sz l') := by
  have h := addModules_named f hl (st := ⟨none, none, []⟩) (st' := ⟨none, none, []⟩) ⟨rfl, rfl, .nil⟩
  unfold seqMod seqNew
  revert h
  cases addModules ⟨none, none, []⟩ l <;> cases addModules ⟨none, none, []⟩ l' <;> intro h
  · exact .none
  · cases h
  · cases h
  · rename_i st st'
    cases h with
    | some h =>
      obtain ⟨i, o, ms⟩ := st
      obtain ⟨i', o', ms'⟩ := st'
      obtain ⟨h1, h2, h3⟩ := h
      dsimp only at h1 h2 h3
      subst h1 h2
      cases i' with
      | none => exact .none
      | some i =>
        cases o' with
        | none => exact .none
        | some o =>
          refine .some ⟨rfl, rfl, fun x => ?_, fun s => ?_, fun b b' s => ?_⟩
          · simp only [seqForward]
            rw [show (x.pick f).x.ty = x.x.ty from rfl, runMods_named f h3]
            split_ifs
            · cases runMods ms x with
              | none => rfl
              | some y =>
                simp only [Option.map_some, Option.bind_some]
                by_cases hy : some y.x.ty = some o
                · rw [if_pos hy, if_pos (show some (y.pick f).x.ty = some o from hy)]
                  rfl
                · rw [if_neg hy, if_neg (show some (y.pick f).x.ty ≠ some o from hy)]
                  rfl
            · rfl
          · exact congrArg (fun o => if seqShapeOk sz (some i) s = true then o else none) ((foldShape_rel f h3).1 s)
          · have hk : seqShapeOk sz (some i) (b' :: s) = seqShapeOk sz (some i) (b :: s) := by simp [seqShapeOk]
            simp only [seqShape, hk]
            rw [(foldShape_rel f h3).2 b b' s]
            split_ifs <;> rfl

/-! ### `MultipleModule` -/

theorem multiForward_rel (f : B' → B) (sz : F → ℕ) (inT : List F) (level : ℕ) (labels : List K) {l : List (K × EMod (List F) (ETensor F B) (List Dim))}
    {l' : List (K × EMod (List F) (ETensor F B') (List Dim))} (hl : List.Forall₂ (NamedRel f) l l') (junk : (c n : ℕ) → List (Pix B n → ℝ)) (x : ETensor F B) :
    multiForward sz inT level labels l' (pickJunk f junk) (x.pick f) = (multiForward sz inT level labels l junk x).map (ETensor.pick f) := by
  unfold multiForward
  rw [show (x.pick f).x.ty = x.x.ty from rfl]
  by_cases ht : x.x.ty = inT
  swap
  · rw [if_neg ht, if_neg ht]
    rfl
  rw [if_pos ht, if_pos ht]
  have hb : ∀ k, branch sz level labels (x.pick f).x k = (branch sz level labels x.x k).map (GTensor.mapCh (· ∘ pickPix x.n f)) :=
    fun k => branch_map (pickPix x.n f) sz level labels x.x k
  have hs : (l'.mapM fun m => (branch sz level labels (x.pick f).x m.1).bind fun z => m.2.shape (ETensor.dims ⟨(x.pick f).n, z⟩)) =
      (l.mapM fun m => (branch sz level labels x.x m.1).bind fun z => m.2.shape (ETensor.dims ⟨x.n, z⟩)).map (List.map (reb (.int (Fintype.card B')))) := by
    refine mapM_rel (R := NamedRel f) _ _ _ (fun a a' ha => ?_) hl
    rw [hb, ha.1]
    cases branch sz level labels x.x a.1 with
    | none => rfl
    | some z =>
      simp only [Option.map_some, Option.bind_some]
      refine (ha.2.shape _).trans ?_
      have hd : (⟨x.n, z.mapCh (· ∘ pickPix x.n f)⟩ : ETensor F B').dims = .int (Fintype.card B') :: (⟨x.n, z⟩ : ETensor F B).dims.tail := by
        simp [ETensor.dims, Shape.dims, GTensor.mapCh]
      exact (congrArg a.2.shape hd).trans (ha.2.keeps (.int (Fintype.card B)) _ _)
  rw [hs]
  cases e : l.mapM fun m => (branch sz level labels x.x m.1).bind fun z => m.2.shape (ETensor.dims ⟨x.n, z⟩) with
  | none => rfl
  | some ss =>
    simp only [Option.map_some, Option.bind_some]
    have hss : ∀ t ∈ ss, t.head? = some (Dim.int (Fintype.card B)) := by
      have key : ∀ (l : List (K × EMod (List F) (ETensor F B) (List Dim))) (l' : List (K × EMod (List F) (ETensor F B') (List Dim))), List.Forall₂ (NamedRel f) l l' →
          ∀ ss, (l.mapM fun m => (branch sz level labels x.x m.1).bind fun z => m.2.shape (ETensor.dims ⟨x.n, z⟩)) = some ss →
          ∀ t ∈ ss, t.head? = some (Dim.int (Fintype.card B)) := by
        intro l l' hl
        induction hl with
        | nil => intro ss e t h; cases e; cases h
        | cons ha _ ih =>
          intro ss e t h
          rw [List.mapM_cons] at e
          simp only [Option.bind_eq_bind] at e
          obtain ⟨r, e1, e2⟩ := Option.bind_eq_some_iff.1 e
          obtain ⟨rs, e3, e4⟩ := Option.bind_eq_some_iff.1 e2
          cases e4
          rcases List.mem_cons.1 h with rfl | h
          · obtain ⟨z, -, e5⟩ := Option.bind_eq_some_iff.1 e1
            exact ha.2.head _ _ _ e5
          · exact ih rs e3 t h
      exact key l l' hl ss e
    obtain ⟨m1, m2⟩ := mergeDims_reb (.int (Fintype.card B')) ss hss
    rw [m1]
    cases e2 : mergeDims ss with
    | none => rfl
    | some s =>
      simp only [Option.map_some, Option.bind_some]
      rw [allocSize_reb (Fintype.card B) (Fintype.card B') (m2 s e2)]
      cases allocSize (Fintype.card B) s with
      | none => rfl
      | some cn =>
        simp only [Option.bind_some]
        have hy : (l'.mapM fun m => (branch sz level labels (x.pick f).x m.1).bind fun z => (m.2.fwd ⟨(x.pick f).n, z⟩).bind (ETensor.fit cn.2)) =
            (l.mapM fun m => (branch sz level labels x.x m.1).bind fun z => (m.2.fwd ⟨x.n, z⟩).bind (ETensor.fit cn.2)).map (List.map (GTensor.mapCh (· ∘ pickPix cn.2 f))) := by
          refine mapM_rel (R := NamedRel f) _ _ _ (fun a a' ha => ?_) hl
          rw [hb, ha.1]
          cases branch sz level labels x.x a.1 with
          | none => rfl
          | some z =>
            simp only [Option.map_some, Option.bind_some]
            refine (congrArg (fun o => Option.bind o (ETensor.fit cn.2)) (ha.2.fwd ⟨x.n, z⟩)).trans ?_
            cases a.2.fwd ⟨x.n, z⟩ with
            | none => rfl
            | some y => exact fit_pick f cn.2 y
        rw [hy]
        cases l.mapM fun m => (branch sz level labels x.x m.1).bind fun z => (m.2.fwd ⟨x.n, z⟩).bind (ETensor.fit cn.2) with
        | none => rfl
        | some ys =>
          simp only [Option.map_some, Option.bind_some, pickJunk_eq]
          rw [mergeGT_map]
          exact map_pick f cn.2 _

theorem multiMod_rel (f : B' → B) (sz : F → ℕ) (inT : List F) (level : ℕ) (labels : List K) {l : List (K × EMod (List F) (ETensor F B) (List Dim))}
    {l' : List (K × EMod (List F) (ETensor F B') (List Dim))} (hl : List.Forall₂ (NamedRel f) l l') (junk : (c n : ℕ) → List (Pix B n → ℝ)) :
    Option.Rel (PickRel f) (multiMod sz inT level labels l junk) (multiMod sz inT level labels l' (pickJunk f junk)) := by
  have e1 : l'.map Prod.fst = l.map Prod.fst := by
    induction hl with
    | nil => rfl
    | cons ha _ ih => rw [List.map_cons, List.map_cons, ih, ha.1]
  have e2 : (l'.flatMap fun m => m.2.outTy) = l.flatMap fun m => m.2.outTy := by
    clear e1
    induction hl with
    | nil => rfl
    | cons ha _ ih => rw [List.flatMap_cons, List.flatMap_cons, ih, ha.2.outTy]
  have e3 : (∀ m ∈ l', branchType sz level labels inT m.1 = some m.2.inTy) ↔ ∀ m ∈ l, branchType sz level labels inT m.1 = some m.2.inTy := by
    clear e1 e2
    induction hl with
    | nil => simp
    | cons ha _ ih => rw [List.forall_mem_cons, List.forall_mem_cons, ih, ha.1, ha.2.inTy]
  unfold multiMod
  by_cases hc : level < 3 ∧ inT.length = labels.length ∧ (∀ k, k ∈ l.map Prod.fst ↔ k ∈ labels) ∧ ∀ m ∈ l, branchType sz level labels inT m.1 = some m.2.inTy
  · rw [if_pos hc, if_pos (by rw [e1, e3]; exact hc), e2]
    cases mkType (l.flatMap fun m => m.2.outTy) with
    | none => exact .none
    | some t =>
      refine .some ⟨rfl, rfl, multiForward_rel f sz inT level labels hl junk, fun _ => rfl, fun b b' s => ?_⟩
      simp only [multiShape, mergeDecl, List.length_cons, List.getElem?_cons_succ]
      split_ifs <;> simp_all
  · rw [if_neg hc, if_neg (by rw [e1, e3]; exact hc)]
    exact .none

end forward

end E2
