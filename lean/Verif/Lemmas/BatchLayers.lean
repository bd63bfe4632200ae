import Verif.Lemmas.Batch
import Verif.Props.BatchSpec

/-!
Every module commutes with the choice of images.
-/

set_option linter.unusedSectionVars false

namespace E2

open Mat

section positions

variable {P P' El R : Type} [Fintype P] [Fintype P']

theorem sumSq_map {σ : P' → P} (hσ : σ.Bijective) (fld : List (P → ℝ)) : sumSq (fld.map (· ∘ σ)) = sumSq fld := by
  unfold sumSq
  rw [List.map_map]
  congr 1
  exact List.map_congr_left fun v _ => hσ.sum_comp fun p => v p ^ 2

theorem sum1_map {σ : P' → P} (hσ : σ.Bijective) (fld : List (P → ℝ)) : ((fld.map (· ∘ σ)).map fun v => ∑ p, v p).sum = (fld.map fun v => ∑ p, v p).sum := by
  rw [List.map_map]
  congr 1
  exact List.map_congr_left fun v _ => hσ.sum_comp fun p => v p

theorem fieldMean_map {σ : P' → P} (hσ : σ.Bijective) (fld : List (P → ℝ)) : fieldMean (fld.map (· ∘ σ)) = fieldMean fld := by
  unfold fieldMean
  rw [sum1_map hσ, Fintype.card_of_bijective hσ, List.length_map]

theorem fieldVar_map {σ : P' → P} (hσ : σ.Bijective) (fld : List (P → ℝ)) : fieldVar (fld.map (· ∘ σ)) = fieldVar fld := by
  unfold fieldVar
  rw [fieldMean_map hσ, Fintype.card_of_bijective hσ, List.length_map, List.map_map]
  congr 2
  exact List.map_congr_left fun v _ => hσ.sum_comp fun p => (v p - fieldMean fld) ^ 2

theorem chAct_map (n : ℕ) (M : Mat) (σ : P' → P) (x : List (P → ℝ)) : chAct n M (x.map (· ∘ σ)) = (chAct n M x).map (· ∘ σ) := by
  rw [chAct, chAct, List.map_map]
  apply List.map_congr_left
  intro c _
  funext p
  simp only [Function.comp_apply, Finset.sum_apply, Pi.smul_apply]
  apply Finset.sum_congr rfl
  intro j _
  rw [List.getElem?_map]
  cases x[j]? <;> simp

theorem irrepBlocks_map (r : Repr El) (σ : P' → P) (fld : List (P → ℝ)) : irrepBlocks r (fld.map (· ∘ σ)) = (irrepBlocks r fld).map (List.map (· ∘ σ)) := by
  rw [irrepBlocks, chAct_map, chunks_map', ← irrepBlocks]

theorem blockMean_map {σ : P' → P} (hσ : σ.Bijective) (blk : List (P → ℝ)) : blockMean (blk.map (· ∘ σ)) = blockMean blk := by
  unfold blockMean
  rw [sum1_map hσ, Fintype.card_of_bijective hσ]

theorem blockVar_map {σ : P' → P} (hσ : σ.Bijective) (triv : Bool) (blk : List (P → ℝ)) : blockVar triv (blk.map (· ∘ σ)) = blockVar triv blk := by
  unfold blockVar
  rw [blockMean_map hσ, Fintype.card_of_bijective hσ, List.length_map, List.map_map]
  congr 2
  refine List.map_congr_left fun v _ => ?_
  rw [Function.comp_apply, show (∑ p, (v ∘ σ) p ^ 2) = ∑ p, v p ^ 2 from hσ.sum_comp fun p => v p ^ 2]

theorem gnormStats_map {σ : P' → P} (hσ : σ.Bijective) (r : Repr El) (fld : List (P → ℝ)) : gnormStats r (fld.map (· ∘ σ)) = gnormStats r fld := by
  unfold gnormStats
  rw [irrepBlocks_map, List.zipWith_map_right]
  simp only [blockMean_map hσ, blockVar_map hσ]

theorem gnorm_apply_map (σ : P' → P) (rep : R → Repr El) (momentum : Option ℝ) (eps : ℝ) (w b : ℕ → ℕ → ℝ) (training : Bool)
    (h : training = false ∨ σ.Bijective) (l : R) (k : ℕ) (fld : List (P → ℝ)) (st : ℕ → ℝ × ℝ) :
    (gnormBN (P := P') rep momentum eps w b).apply training l k (fld.map (· ∘ σ)) st = ((gnormBN (P := P) rep momentum eps w b).apply training l k fld st).map (· ∘ σ) := by
  have hst : (if training then fun o => (gnormStats (rep l) (fld.map (· ∘ σ)))[o]?.getD (0, 0) else st) =
      if training then fun o => (gnormStats (rep l) fld)[o]?.getD (0, 0) else st := by
    rcases h with rfl | h
    · rfl
    · rw [gnormStats_map h]
  simp only [gnormBN]
  rw [hst, ← chAct_map]
  congr 1
  rw [List.map_flatten, irrepBlocks_map, List.map_zipWith, List.zipWith_map_right]
  congr 2
  funext a blk
  simp [gnormBlock, List.map_map, Function.comp_def]

end positions

section layers

variable {El F A I B B' K : Type} [LinearOrder F] [DecidableEq I] [Fintype B] [Fintype B']

/-- The pixel of the chosen image. -/
def pickPix (n : ℕ) (f : B' → B) : Pix B' n → Pix B n := fun q => (f q.1, q.2)

theorem pickPix_bij {n : ℕ} {f : B' → B} (h : f.Bijective) : (pickPix n f).Bijective :=
  ⟨fun a b e => Prod.ext (h.1 (congrArg Prod.fst e)) (show (pickPix n f a).2 = (pickPix n f b).2 by rw [e]),
   fun b => ⟨((h.2 b.1).choose, b.2), Prod.ext (h.2 b.1).choose_spec rfl⟩⟩

theorem pick_eq (f : B' → B) (x : ETensor F B) : x.pick f = ⟨x.n, x.x.mapCh (· ∘ pickPix x.n f)⟩ := rfl

theorem pickJunk_eq (f : B' → B) (junk : (c n : ℕ) → List (Pix B n → ℝ)) (c n : ℕ) : pickJunk f junk c n = (junk c n).map (· ∘ pickPix n f) := rfl

theorem readZ_pick (f : B' → B) (n p : ℕ) (v : Pix B n → ℝ) (b : B') (u w : ℕ) : readZ n p (v ∘ pickPix n f) b u w = readZ n p v (f b) u w := rfl

theorem chanImg_pick (f : B' → B) {n : ℕ} (d : List (Pix B n → ℝ)) (b : B') : chanImg (d.map (· ∘ pickPix n f)) b = chanImg d (f b) := by
  funext c i j
  unfold chanImg
  rw [← readZ_pick]
  congr 1
  simp only [List.getD_eq_getElem?_getD, List.getElem?_map]
  cases d[c]? <;> rfl

/-- A layer of PyTorch which treats each image separately. -/
theorem wrapped_pick (f : B' → B) (sz : F → ℕ) (inT outT : List F) (g : PTensor B → Option (PTensor B)) (g' : PTensor B' → Option (PTensor B'))
    (h : ∀ n (d : List (Pix B n → ℝ)), g' ⟨n, d.map (· ∘ pickPix n f)⟩ = (g ⟨n, d⟩).map fun y => ⟨y.n, y.chans.map (· ∘ pickPix y.n f)⟩) (x : ETensor F B) :
    wrapped sz inT outT g' (x.pick f) = (wrapped sz inT outT g x).map (ETensor.pick f) := by
  unfold wrapped
  by_cases ht : x.x.ty = inT
  · rw [if_pos ht, if_pos (show (x.pick f).x.ty = inT from ht)]
    rw [show (x.pick f).plain = ⟨x.n, x.x.data.map (· ∘ pickPix x.n f)⟩ from rfl, h, show (⟨x.n, x.x.data⟩ : PTensor B) = x.plain from rfl]
    cases g x.plain with
    | none => rfl
    | some y =>
      simp only [Option.map_some, mkE]
      rw [mkGT_map]
      cases mkGT sz y.chans outT <;> rfl
  · rw [if_neg ht, if_neg (show ¬ (x.pick f).x.ty = inT from ht)]
    rfl

theorem map_pick (f : B' → B) (n : ℕ) (o : Option (GTensor F (Pix B n → ℝ))) :
    (o.map (GTensor.mapCh (· ∘ pickPix n f))).map (fun y => (⟨n, y⟩ : ETensor F B')) = (o.map fun y => (⟨n, y⟩ : ETensor F B)).map (ETensor.pick f) := by
  cases o <;> rfl

theorem bn_pick {S : Type} (f : B' → B) (n : ℕ) (o : Option (NormState S × GTensor F (Pix B n → ℝ))) :
    (o.map fun r => (r.1, r.2.mapCh (· ∘ pickPix n f))).map (fun r => (⟨n, r.2⟩ : ETensor F B')) = (o.map fun r => (⟨n, r.2⟩ : ETensor F B)).map (ETensor.pick f) := by
  cases o <;> rfl

theorem channelwise_pick (f : B' → B) {n m : ℕ} (sz : F → ℕ) (t : List F) (g : (Pix B n → ℝ) → Pix B m → ℝ) (g' : (Pix B' n → ℝ) → Pix B' m → ℝ)
    (h : ∀ v, g' (v ∘ pickPix n f) = g v ∘ pickPix m f) (x : GTensor F (Pix B n → ℝ)) :
    (channelwise sz t g' (x.mapCh (· ∘ pickPix n f))).map (fun y => (⟨m, y⟩ : ETensor F B')) = ((channelwise sz t g x).map fun y => (⟨m, y⟩ : ETensor F B)).map (ETensor.pick f) :=
  (congrArg _ (channelwise_map sz t g g' _ (· ∘ pickPix m f) h x)).trans (map_pick f m _)

theorem gateValues_map {P P' : Type} (σ : P' → P) (s : ℝ → ℝ) (bias : List ℝ) (g : List (P → ℝ)) : gateValues s bias (g.map (· ∘ σ)) = (gateValues s bias g).map (· ∘ σ) := by
  unfold gateValues
  rw [List.zipWith_map_left, List.map_zipWith]
  rfl

theorem normNonlin_map {P P' : Type} (σ : P' → P) (sz : F → ℕ) (t : List F) (f : ℝ → ℝ) (eps : ℝ) (bias : List ℝ) (junk : List (P → ℝ)) (x : GTensor F (P → ℝ)) :
    normNonlin sz t f eps bias (junk.map (· ∘ σ)) (x.mapCh (· ∘ σ)) = (normNonlin sz t f eps bias junk x).map (GTensor.mapCh (· ∘ σ)) := by
  unfold normNonlin
  by_cases ht : x.ty = t
  · rw [if_pos ht, if_pos (show (x.mapCh (· ∘ σ)).ty = t from ht)]
    simp only [GTensor.mapCh]
    rw [fieldLoop_map (· ∘ σ) (· ∘ σ) x.data _ _ _ _ (fun s => eachField s fun k fld => List.replicate s fun p => normMultiplier f eps (bias[k]?.getD 0) (fieldNorm fld p)) _
        (fun l k fld => eachField_map _ _ _ _ _ (fun k fld => by rw [fieldNorm_map, List.map_replicate]; rfl) k fld)]
    cases fieldLoop x.data _ _ _ _ (fun s => eachField s fun k fld => List.replicate s fun p => normMultiplier f eps (bias[k]?.getD 0) (fieldNorm fld p)) _ 0 junk with
    | none => rfl
    | some y => simp only [Option.map_some, mulList_map]; exact mkGT_map _ _ _ _
  · rw [if_neg ht, if_neg (show ¬ (x.mapCh (· ∘ σ)).ty = t from ht)]
    rfl

theorem inducedNorm_map {P P' : Type} (σ : P' → P) (sz : F → ℕ) (subs : F → List ℕ) (t : List F) (f : ℝ → ℝ) (eps : ℝ) (bias : List ℝ) (junk : List (P → ℝ))
    (x : GTensor F (P → ℝ)) :
    inducedNorm sz subs t f eps bias (junk.map (· ∘ σ)) (x.mapCh (· ∘ σ)) = (inducedNorm sz subs t f eps bias junk x).map (GTensor.mapCh (· ∘ σ)) := by
  unfold inducedNorm
  by_cases hc : inducedNormCheck sz subs t = true
  · rw [if_pos hc, if_pos hc]
    by_cases ht : x.ty = t
    · rw [if_pos ht, if_pos (show (x.mapCh (· ∘ σ)).ty = t from ht)]
      simp only [GTensor.mapCh]
      rw [fieldLoop_map (· ∘ σ) (· ∘ σ) x.data _ _ _ _ (fun (l : ℕ × ℕ) next => eachField l.2 (fun m fld => List.replicate l.2 fun p =>
          normMultiplier f eps (bias[m / (l.1 / l.2)]?.getD 0) (fieldNorm fld p)) (next * (l.1 / l.2))) _
          (fun l k fld => eachField_map _ _ _ _ _ (fun k fld => by rw [fieldNorm_map, List.map_replicate]; rfl) _ fld)]
      cases fieldLoop x.data _ _ _ _ (fun (l : ℕ × ℕ) next => eachField l.2 (fun m fld => List.replicate l.2 fun p =>
          normMultiplier f eps (bias[m / (l.1 / l.2)]?.getD 0) (fieldNorm fld p)) (next * (l.1 / l.2))) _ 0 junk with
      | none => rfl
      | some y => simp only [Option.map_some, mulList_map]; exact mkGT_map _ _ _ _
    · rw [if_neg ht, if_neg (show ¬ (x.mapCh (· ∘ σ)).ty = t from ht)]
      rfl
  · rw [if_neg hc, if_neg hc]
    rfl

theorem gated1_map {P P' : Type} (σ : P' → P) (sz : F → ℕ) (trivial supports : F → Bool) (t : List F) (gates : List Bool) (drop : Bool) (f : ℝ → ℝ) (bias : List ℝ)
    (junk : List (P → ℝ)) (x : GTensor F (P → ℝ)) :
    gated1 sz trivial supports t gates drop f bias (junk.map (· ∘ σ)) (x.mapCh (· ∘ σ)) =
      (gated1 sz trivial supports t gates drop f bias junk x).map (GTensor.mapCh (· ∘ σ)) := by
  unfold gated1
  by_cases hc : gated1Check trivial supports t gates = true
  · rw [if_pos hc, if_pos hc]
    by_cases ht : x.ty = t
    · rw [if_pos ht, if_pos (show (x.mapCh (· ∘ σ)).ty = t from ht)]
      simp only [GTensor.mapCh]
      rw [readGroup_map]
      cases readGroup x.data ((contigFlags (gated1Labels sz t gates) none).getD false) (labelChannels (gated1Labels sz t gates) (t.map sz) none) with
      | none => rfl
      | some g =>
        simp only [Option.map_some, gateValues_map]
        have h1 : (if drop = true then some (junk.map (· ∘ σ)) else writeGroup (junk.map (· ∘ σ)) ((contigFlags (gated1Labels sz t gates) none).getD false)
            (labelChannels (gated1Labels sz t gates) (t.map sz) none) ((gateValues f bias g).map (· ∘ σ))) =
            (if drop = true then some junk else writeGroup junk ((contigFlags (gated1Labels sz t gates) none).getD false)
            (labelChannels (gated1Labels sz t gates) (t.map sz) none) (gateValues f bias g)).map (List.map (· ∘ σ)) := by
          split_ifs
          · rfl
          · exact writeGroup_map _ _ _ _ _
        rw [h1]
        cases (if drop = true then some junk else writeGroup junk ((contigFlags (gated1Labels sz t gates) none).getD false)
            (labelChannels (gated1Labels sz t gates) (t.map sz) none) (gateValues f bias g)) with
        | none => rfl
        | some out =>
          simp only [Option.map_some]
          rw [fieldLoop_map (· ∘ σ) (· ∘ σ) x.data _ _ _ _ (fun (l : Option ℕ) => eachField (l.getD 0) fun k fld => fld.map (· * (gateValues f bias g)[k]?.getD 0))
            (fun (l : Option ℕ) => eachField (l.getD 0) fun k fld => fld.map (· * ((gateValues f bias g).map (· ∘ σ))[k]?.getD 0))
            (fun l k fld => eachField_map _ _ _ _ _ (fun k fld => by
              rw [List.map_map, List.map_map, List.getElem?_map]
              refine List.map_congr_left fun v _ => ?_
              cases (gateValues f bias g)[k]? <;> rfl) k fld)]
          cases fieldLoop x.data _ _ _ _ (fun (l : Option ℕ) => eachField (l.getD 0) fun k fld => fld.map (· * (gateValues f bias g)[k]?.getD 0)) _ 0 out with
          | none => rfl
          | some y => simp only [Option.map_some]; exact mkGT_map _ _ _ _
    · rw [if_neg ht, if_neg (show ¬ (x.mapCh (· ∘ σ)).ty = t from ht)]
      rfl
  · rw [if_neg hc, if_neg hc]
    rfl

theorem inducedNormPool_map {P P' : Type} (σ : P' → P) (sz sub : F → ℕ) (t : List F) (triv : F) (junk : List (P → ℝ)) (x : GTensor F (P → ℝ)) :
    inducedNormPool sz sub t triv (junk.map (· ∘ σ)) (x.mapCh (· ∘ σ)) = (inducedNormPool sz sub t triv junk x).map (GTensor.mapCh (· ∘ σ)) := by
  unfold inducedNormPool
  by_cases ht : x.ty = t ∧ ∀ r ∈ t, sz r % sub r = 0
  · rw [if_pos ht, if_pos (show (x.mapCh (· ∘ σ)).ty = t ∧ ∀ r ∈ t, sz r % sub r = 0 from ht)]
    simp only [GTensor.mapCh]
    rw [fieldLoop_map (· ∘ σ) (· ∘ σ) x.data _ _ _ _ (fun (l : ℕ × ℕ) => eachField l.1 fun _ fld => [subfieldNorm l.2 fld]) _
        (fun l k fld => eachField_map _ _ _ _ _ (fun k fld => by
          simp only [List.map_cons, List.map_nil, List.cons.injEq, and_true]
          funext p
          simp only [subfieldNorm, viewFields_map, List.map_map, Function.comp_apply]
          congr 1
          exact List.map_congr_left fun g _ => congrFun (fieldNorm_map σ g) p) k fld)]
    cases fieldLoop x.data _ _ _ _ (fun (l : ℕ × ℕ) => eachField l.1 fun _ fld => [subfieldNorm l.2 fld]) _ 0 junk with
    | none => rfl
    | some y => simp only [Option.map_some]; exact mkGT_map _ _ _ _
  · rw [if_neg ht, if_neg (show ¬ ((x.mapCh (· ∘ σ)).ty = t ∧ ∀ r ∈ t, sz r % sub r = 0) from ht)]
    rfl

theorem concatenated_map {P P' : Type} (σ : P' → P) (sz : F → ℕ) (out : F → F) (t : List F) (g : ℝ → ℝ) (x : GTensor F (P → ℝ)) :
    concatenated sz out t g (x.mapCh (· ∘ σ)) = (concatenated sz out t g x).map (GTensor.mapCh (· ∘ σ)) := by
  unfold concatenated
  by_cases ht : x.ty = t
  · rw [if_pos ht, if_pos (show (x.mapCh (· ∘ σ)).ty = t from ht), ← mkGT_map]
    congr 1
    simp only [concatChannels, GTensor.mapCh, List.length_map, List.map_map]
    refine List.map_congr_left fun k _ => ?_
    funext p
    simp only [Function.comp_apply, List.getElem?_map]
    cases x.data[k / 2]? <;> simp
  · rw [if_neg ht, if_neg (show ¬ (x.mapCh (· ∘ σ)).ty = t from ht)]
    rfl

theorem reshuffle_map {P P' : Type} (σ : P' → P) (sz : F → ℕ) (perm : List ℕ) (x : GTensor F (P → ℝ)) :
    reshuffle sz perm (x.mapCh (· ∘ σ)) = (reshuffle sz perm x).map (GTensor.mapCh (· ∘ σ)) := by
  unfold reshuffle
  by_cases h : (∀ i ∈ perm, i < x.ty.length) ∧ (∀ i ∈ List.range x.ty.length, i ∈ perm)
  · rw [if_pos h, if_pos (show (∀ i ∈ perm, i < (x.mapCh (· ∘ σ)).ty.length) ∧ (∀ i ∈ List.range (x.mapCh (· ∘ σ)).ty.length, i ∈ perm) from h)]
    simp only [GTensor.mapCh, Option.bind_eq_bind, gather_map]
    cases indexSelect x.ty (perm.map Int.ofNat) with
    | none => rfl
    | some t =>
      simp only [Option.bind_some]
      cases perm.mapM fun c => ((positionsFrom 0 (x.ty.map sz))[c]?).bind fun p => (x.ty[c]?).bind fun r => some (List.range' p (sz r)) with
      | none => rfl
      | some ranges =>
        simp only [Option.bind_some]
        cases gather x.data ranges.flatten with
        | none => rfl
        | some y => exact mkGT_map _ _ _ _
  · rw [if_neg h, if_neg (show ¬ ((∀ i ∈ perm, i < (x.mapCh (· ∘ σ)).ty.length) ∧ (∀ i ∈ List.range (x.mapCh (· ∘ σ)).ty.length, i ∈ perm)) from h)]
    rfl

/-- **All modules.** -/
theorem layer_pick (rep : F → Repr El) (f : B' → B) (l : Layer F A I) (h : l.Frozen ∨ f.Bijective) (junk : (c n : ℕ) → List (Pix B n → ℝ)) (x : ETensor F B) :
    l.forward rep (pickJunk f junk) (x.pick f) = (l.forward rep junk x).map (ETensor.pick f) := by
  obtain ⟨n, x⟩ := x
  cases l with
  | conv c basis inT outT w b =>
    simp only [Layer.forward]
    cases convGroups c.groups inT outT with
    | none => rfl
    | some inG =>
      dsimp only
      cases (c.exp rep inG outT basis).forward w with
      | none => rfl
      | some fl =>
        refine wrapped_pick f _ _ _ _ _ (fun n d => ?_) _
        simp only [runConv, List.length_map, chanImg_pick]
        split_ifs
        · cases convSize n c.p c.k c.s c.d <;> simp [Function.comp_def, pickPix]
        · rfl
  | convT c basis inT outT w b =>
    simp only [Layer.forward]
    cases transGroups c.groups inT outT with
    | none => rfl
    | some outG =>
      dsimp only
      cases (c.exp rep inT outG basis).forward w with
      | none => rfl
      | some fl =>
        refine wrapped_pick f _ _ _ _ _ (fun n d => ?_) _
        simp only [runConvT, List.length_map, chanImg_pick]
        split_ifs
        · cases convTSize n c.p 0 c.k c.s c.d <;> simp [Function.comp_def, pickPix]
        · rfl
  | pointwise t g => exact channelwise_pick f _ t (fun v p => g (v p)) (fun v p => g (v p)) (fun _ => rfl) x
  | norm t g eps bias => exact (congrArg _ (normNonlin_map (pickPix n f) _ t g eps bias _ x)).trans (map_pick f n _)
  | inducedNorm t subs g eps bias => exact (congrArg _ (inducedNorm_map (pickPix n f) _ subs t g eps bias _ x)).trans (map_pick f n _)
  | gated t trivial supports gates drop g bias => exact (congrArg _ (gated1_map (pickPix n f) _ trivial supports t gates drop g bias _ x)).trans (map_pick f n _)
  | innerBatchNorm t momentum eps track w b training st =>
    have h : (training = false ∧ track = true) ∨ f.Bijective := h
    have key := bnModule_map (· ∘ pickPix n f) (innerBN momentum eps track w b) (innerBN momentum eps track w b) rfl (fun r => (rep r).size) t (t.map fun r => (rep r).size)
      (fun s => ((indexesFromLabels (fun r => (rep r).size) t (t.map fun r => (rep r).size) s).map fun e => e.1).getD false)
      (firstKeys (t.map fun r => (rep r).size)) training st (fun ht l k m fld s => ?_) (fun l k fld s => ?_) (junk x.data.length n) x
    · have e : (x.mapCh (· ∘ pickPix n f)).data.length = x.data.length := List.length_map _
      refine Eq.trans ?_ ((congrArg _ key).trans (bn_pick f n _))
      change Option.map _ (innerBatchNorm _ t momentum eps track w b training st (pickJunk f junk (x.mapCh (· ∘ pickPix n f)).data.length n) _) = _
      rw [e]
      rfl
    · rcases h with h | h
      · rw [ht] at h
        exact absurd h.1 (by simp)
      · simp only [innerBN, fieldMean_map (pickPix_bij h), fieldVar_map (pickPix_bij h), Fintype.card_of_bijective (pickPix_bij h), List.length_map]
    · simp only [innerBN]
      have e : (if training || !track then (fieldMean (fld.map (· ∘ pickPix n f)), fieldVar (fld.map (· ∘ pickPix n f))) else s) =
          if training || !track then (fieldMean fld, fieldVar fld) else s := by
        rcases h with h | h
        · simp [h]
        · rw [fieldMean_map (pickPix_bij h), fieldVar_map (pickPix_bij h)]
      rw [e, List.map_map, List.map_map]
      rfl
  | normBatchNorm t momentum eps w training st =>
    have h : training = false ∨ f.Bijective := h
    have key := bnModule_map (· ∘ pickPix n f) (normBN momentum eps w) (normBN momentum eps w) rfl (fun r => (rep r).size) t (t.map fun r => (rep r).size)
      (fun s => (contigFlags (t.map fun r => (rep r).size) s).getD false)
      (firstKeys (t.map fun r => (rep r).size)) training st (fun ht l k m fld s => ?_) (fun l k fld s => ?_) x.data x
    · simp only [Layer.forward, pick_eq, normBatchNorm]
      exact (congrArg _ key).trans (bn_pick f n _)
    · rcases h with h | h
      · rw [ht] at h
        exact absurd h (by simp)
      · simp only [normBN, sumSq_map (pickPix_bij h), Fintype.card_of_bijective (pickPix_bij h)]
    · simp only [normBN, List.map_map]
      rfl
  | inducedBatchNorm t sub momentum eps w training st =>
    have h : training = false ∨ f.Bijective := h
    have key := bnModule_map (· ∘ pickPix n f) (inducedBN momentum eps w) (inducedBN momentum eps w) rfl (fun r => (rep r).size) t (t.map fun r => ((rep r).size, sub r))
      (fun s => (contigFlags (t.map fun r => ((rep r).size, sub r)) s).getD false)
      (firstKeys (t.map fun r => ((rep r).size, sub r))) training st (fun ht l k m fld s => ?_) (fun l k fld s => ?_) x.data x
    · simp only [Layer.forward, pick_eq, inducedNormBatchNorm]
      exact (congrArg _ key).trans (bn_pick f n _)
    · rcases h with h | h
      · rw [ht] at h
        exact absurd h (by simp)
      · simp only [inducedBN, sumSq_map (pickPix_bij h), Fintype.card_of_bijective (pickPix_bij h)]
    · simp only [inducedBN, List.map_map]
      rfl
  | gnormBatchNorm t order momentum eps w b training st =>
    have h : training = false ∨ f.Bijective := h
    have key := bnModule_map (· ∘ pickPix n f) (gnormBN rep momentum eps w b) (gnormBN rep momentum eps w b) rfl (fun r => (rep r).size) t t
      (fun r => (contigFlags t r).getD false) order training st (fun ht l k m fld s => ?_)
      (fun l k fld s => gnorm_apply_map (pickPix n f) rep momentum eps w b training (h.imp id pickPix_bij) l k fld s) (junk x.data.length n) x
    · have e : (x.mapCh (· ∘ pickPix n f)).data.length = x.data.length := List.length_map _
      refine Eq.trans ?_ ((congrArg _ key).trans (bn_pick f n _))
      change Option.map _ (gnormBatchNorm rep t order momentum eps w b training st (pickJunk f junk (x.mapCh (· ∘ pickPix n f)).data.length n) _) = _
      rw [e]
      rfl
    · rcases h with h | h
      · rw [ht] at h
        exact absurd h (by simp)
      · simp only [gnormBN, gnormStats_map (pickPix_bij h)]
  | maxPool t k s p d ceil =>
    simp only [Layer.forward, pick_eq]
    cases poolSize ceil n p k s d with
    | none => rfl
    | some m => exact channelwise_pick f _ t (maxPool2d n p k s d m) (maxPool2d n p k s d m) (fun _ => rfl) x
  | maxPoolAntialiased t k s p ceil fs sigma =>
    simp only [Layer.forward, pick_eq]
    cases poolSize ceil n p k 1 1 with
    | none => rfl
    | some n1 =>
      dsimp only
      cases convSize n1 (p + (fs - 1) / 2) fs s 1 with
      | none => rfl
      | some m => exact channelwise_pick f _ t (fun v => depthConv n1 (p + (fs - 1) / 2) fs s m (gaussFilter fs sigma) (maxPool2d n p k 1 1 n1 v)) (fun v => depthConv n1 (p + (fs - 1) / 2) fs s m (gaussFilter fs sigma) (maxPool2d n p k 1 1 n1 v)) (fun _ => rfl) x
  | avgPool t k s p ceil =>
    simp only [Layer.forward, pick_eq]
    cases poolSize ceil n p k s 1 with
    | none => rfl
    | some m => exact channelwise_pick f _ t (avgPool2d n p k s m) (avgPool2d n p k s m) (fun _ => rfl) x
  | avgPoolAntialiased t s p fs sigma =>
    simp only [Layer.forward, pick_eq]
    cases convSize n p fs s 1 with
    | none => rfl
    | some m => exact channelwise_pick f _ t (depthConv n p fs s m (gaussFilter fs sigma)) (depthConv n p fs s m (gaussFilter fs sigma)) (fun _ => rfl) x
  | adaptiveAvgPool t m => exact channelwise_pick f _ t (adaptiveAvg n m) (adaptiveAvg n m) (fun _ => rfl) x
  | adaptiveMaxPool t m => exact channelwise_pick f _ t (adaptiveMax n m) (adaptiveMax n m) (fun _ => rfl) x
  | groupPool t triv =>
    exact (congrArg _ (poolBySize_map (pickPix n f) _ t triv (fun fld p => maxVal (fld.map fun c => c p)) (fun fld p => maxVal (fld.map fun c => c p)) (fun fld => by funext p; rw [List.map_map]; rfl) _ x)).trans (map_pick f n _)
  | normPool t triv => exact (congrArg _ (poolBySize_map (pickPix n f) _ t triv _ _ (fun fld => fieldNorm_map _ fld) _ x)).trans (map_pick f n _)
  | inducedNormPool t sub triv => exact (congrArg _ (inducedNormPool_map (pickPix n f) _ sub t triv _ x)).trans (map_pick f n _)
  | mask t S margin =>
    by_cases hn : n = S
    · refine (if_pos hn).trans (Eq.trans ?_ (congrArg (Option.map (ETensor.pick f)) (if_pos hn).symm))
      exact channelwise_pick f _ t (fun v q => v q * buildMask n margin q.2.1 q.2.2) (fun v q => v q * buildMask n margin q.2.1 q.2.2) (fun _ => rfl) x
    · have h1 : (Layer.mask t S margin : Layer F A I).forward rep junk ⟨n, x⟩ = none := if_neg hn
      rw [h1]
      exact if_neg hn
  | upsample t c =>
    simp only [Layer.forward, pick_eq]
    cases upSize c.scale c.size n with
    | none => rfl
    | some r => exact channelwise_pick f _ t (interpolate c.mode c.align n r.1 r.2) (interpolate c.mode c.align n r.1 r.2) (fun _ => by unfold interpolate; cases c.mode <;> rfl) x
  | dropout t p inplace =>
    simp only [Layer.forward, fieldDropout, pick_eq, GTensor.mapCh]
    by_cases ht : x.ty = t
    · simp [ht, pick_eq, GTensor.mapCh]
    · simp [ht]
  | identity t =>
    simp only [Layer.forward, pick_eq, GTensor.mapCh]
    by_cases ht : x.ty = t
    · simp [ht, pick_eq, GTensor.mapCh]
    · simp [ht]
  | concatenated t out g => exact (congrArg _ (concatenated_map (pickPix n f) _ out t g x)).trans (map_pick f n _)
  | reshuffle t perm =>
    simp only [Layer.forward]
    by_cases ht : x.ty = t
    · rw [if_pos ht, if_pos (show (ETensor.pick f ⟨n, x⟩).x.ty = t from ht)]
      exact (congrArg _ (reshuffle_map (pickPix n f) _ perm x)).trans (map_pick f n _)
    · rw [if_neg ht, if_neg (show ¬ (ETensor.pick f ⟨n, x⟩).x.ty = t from ht)]
      rfl

end layers

end E2
