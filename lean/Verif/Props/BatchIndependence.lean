import Verif.Lemmas.BatchNet

/-!
# C88: the images of a batch do not influence each other

`ETensor.pick` and `Layer.Frozen` are in `Props/BatchSpec.lean`.
-/

set_option linter.unusedSectionVars false

namespace E2

open Mat

variable {El F A I B B' K : Type} [LinearOrder F] [DecidableEq I] [Fintype B] [Fintype B'] [DecidableEq K]

/-- A network commutes with the choice of images if the memory is chosen likewise: also the errors are the same. -/
theorem net_pick (rep : F → Repr El) (net : List (K × Layer F A I)) (f : B' → B) (h : (∀ l ∈ net, l.2.Frozen) ∨ f.Bijective)
    (junk : K → (c n : ℕ) → List (Pix B n → ℝ)) (x : ETensor F B) :
    netForward rep (fun k => pickJunk f (junk k)) net (x.pick f) = (netForward rep junk net x).map (ETensor.pick f) := by
  refine seq_rel (fun _ => rfl) ?_ x
  rw [List.forall₂_map_left_iff, List.forall₂_map_right_iff, List.forall₂_same]
  exact fun l hl => ⟨rfl, rfl, rfl, fun x => layer_pick rep f l.2 (h.imp (fun h => h l hl) id) (junk l.1) x⟩

theorem compose_junk {rep : F → Repr El} (hpos : ∀ r, 0 < (rep r).size) (net : List (K × Layer F A I)) (hpl : ∀ l ∈ net, l.2.Plain rep) (hne : ∀ l ∈ net, l.2.outTy ≠ [])
    (hfit : (net.map Prod.snd).IsChain fun a b => a.outTy = b.inTy) {junk junk' : K → (c n : ℕ) → List (Pix B n → ℝ)} (hj : ∀ k, JunkOk (junk k)) (hj' : ∀ k, JunkOk (junk' k))
    (x : ETensor F B) (hx : x.x.WF fun r => (rep r).size) (hxt : ∀ l ∈ net.head?, x.x.ty = l.2.inTy) :
    compose ((net.map fun l => (l.1, l.2.toMod rep (junk l.1))).map Prod.snd) x = compose ((net.map fun l => (l.1, l.2.toMod rep (junk' l.1))).map Prod.snd) x := by
  induction net generalizing x with
  | nil => rfl
  | cons l net ih =>
    simp only [List.map_cons, compose]
    have h1 : l.2.forward rep (junk l.1) x = l.2.forward rep (junk' l.1) x := layer_junk hpos l.2 (hpl l (by simp)) (hj _) (hj' _) x.x hx (hxt l rfl)
    show (l.2.forward rep (junk l.1) x).bind _ = (l.2.forward rep (junk' l.1) x).bind _
    rw [← h1]
    cases e : l.2.forward rep (junk l.1) x with
    | none => rfl
    | some y =>
      obtain ⟨h2, h3⟩ := layer_typed l.2 (hne l (by simp)) x y hx e
      rw [List.map_cons, List.isChain_cons] at hfit
      refine ih (fun l hl => hpl l (List.mem_cons_of_mem _ hl)) (fun l hl => hne l (List.mem_cons_of_mem _ hl)) hfit.2 y h2 fun a ha => ?_
      rw [h3]
      exact hfit.1 a.2 (by rw [List.head?_map, Option.mem_def.1 ha]; rfl)

theorem net_junk_le {rep : F → Repr El} (hpos : ∀ r, 0 < (rep r).size) (net : List (K × Layer F A I)) (hnd : (net.map Prod.fst).Nodup) (hpl : ∀ l ∈ net, l.2.Plain rep)
    (hne : ∀ l ∈ net, l.2.outTy ≠ []) {junk junk' : K → (c n : ℕ) → List (Pix B n → ℝ)} (hj : ∀ k, JunkOk (junk k)) (hj' : ∀ k, JunkOk (junk' k))
    (x y : ETensor F B) (hx : x.x.WF fun r => (rep r).size) (h : netForward rep junk net x = some y) : netForward rep junk' net x = some y := by
  have hnd' : ∀ junk : K → (c n : ℕ) → List (Pix B n → ℝ), ((net.map fun l => (l.1, l.2.toMod rep (junk l.1))).map Prod.fst).Nodup := by
    intro junk
    rw [List.map_map]
    exact hnd
  obtain ⟨hin, hcomp⟩ := netForward_compose net hnd junk x y h
  obtain ⟨st, hst, h⟩ := Option.bind_eq_some_iff.1 h
  obtain ⟨c0, c1, c2, c3⟩ := (c41_built _ (hnd' junk)).2 st hst
  have hfit : (net.map Prod.snd).IsChain fun a b => a.outTy = b.inTy := by
    have := c0
    rw [Fits, List.map_map, List.isChain_map] at this
    rw [List.isChain_map]
    exact this
  have hfit' : Fits ((net.map fun l => (l.1, l.2.toMod rep (junk' l.1))).map Prod.snd) := by
    rw [Fits, List.map_map, List.isChain_map]
    rw [List.isChain_map] at hfit
    exact hfit
  obtain ⟨st', hst'⟩ := Option.isSome_iff_exists.1 ((c41_built _ (hnd' junk')).1 hfit')
  obtain ⟨-, d1, d2, d3⟩ := (c41_built _ (hnd' junk')).2 st' hst'
  have e1 : st'.inTy = st.inTy := by
    rw [c2, d2, List.head?_map, List.head?_map, Option.map_map, Option.map_map]
    rfl
  have e2 : st'.outTy = st.outTy := by
    rw [c3, d3, List.getLast?_map, List.getLast?_map, Option.map_map, Option.map_map]
    rfl
  refine Option.bind_eq_some_iff.2 ⟨st', hst', ?_⟩
  have e3 : runMods st'.mods x = runMods st.mods x := by
    rw [c1, d1, runMods_eq, runMods_eq]
    exact (compose_junk hpos net hpl hne hfit hj hj' x hx hin).symm
  rw [seqForward, e1, e2, e3]
  exact h

/-- The contents of new memory do not matter, for networks of all modules in any mode. -/
theorem net_junk {rep : F → Repr El} (hpos : ∀ r, 0 < (rep r).size) (net : List (K × Layer F A I)) (hnd : (net.map Prod.fst).Nodup) (hpl : ∀ l ∈ net, l.2.Plain rep)
    (hne : ∀ l ∈ net, l.2.outTy ≠ []) {junk junk' : K → (c n : ℕ) → List (Pix B n → ℝ)} (hj : ∀ k, JunkOk (junk k)) (hj' : ∀ k, JunkOk (junk' k))
    (x : ETensor F B) (hx : x.x.WF fun r => (rep r).size) : netForward rep junk net x = netForward rep junk' net x :=
  Option.ext fun y => ⟨net_junk_le hpos net hnd hpl hne hj hj' x y hx, net_junk_le hpos net hnd hpl hne hj' hj x y hx⟩

/-- **C88, choice of images**: a network without statistics of the batch (evaluation mode) does the same with some of the images of a batch, in any order and any number of
times, as with the whole batch: it fails on both or returns the chosen images of the output, whatever the weights and the contents of new memory. -/
theorem c88_pick {rep : F → Repr El} (hpos : ∀ r, 0 < (rep r).size) (net : List (K × Layer F A I)) (hnd : (net.map Prod.fst).Nodup) (hpl : ∀ l ∈ net, l.2.Plain rep)
    (hne : ∀ l ∈ net, l.2.outTy ≠ []) (hfr : ∀ l ∈ net, l.2.Frozen) (f : B' → B) (x : ETensor F B) (hx : x.x.WF fun r => (rep r).size)
    (junk : K → (c n : ℕ) → List (Pix B n → ℝ)) (hj : ∀ k, JunkOk (junk k)) (junk' : K → (c n : ℕ) → List (Pix B' n → ℝ)) (hj' : ∀ k, JunkOk (junk' k)) :
    netForward rep junk' net (x.pick f) = (netForward rep junk net x).map (ETensor.pick f) := by
  have hx' : (x.pick f).x.WF fun r => (rep r).size := ⟨hx.1, (List.length_map _).trans hx.2⟩
  rw [net_junk hpos net hnd hpl hne hj' (fun k => pickJunk_ok (f := f) (hj k)) (x.pick f) hx']
  exact net_pick rep net f (.inl hfr) junk x

/-- **C88, training**: in any mode, reordering the images of a batch reorders those of the output. -/
theorem c88_reorder {rep : F → Repr El} (hpos : ∀ r, 0 < (rep r).size) (net : List (K × Layer F A I)) (hnd : (net.map Prod.fst).Nodup) (hpl : ∀ l ∈ net, l.2.Plain rep)
    (hne : ∀ l ∈ net, l.2.outTy ≠ []) (f : B' ≃ B) (x : ETensor F B) (hx : x.x.WF fun r => (rep r).size)
    (junk : K → (c n : ℕ) → List (Pix B n → ℝ)) (hj : ∀ k, JunkOk (junk k)) (junk' : K → (c n : ℕ) → List (Pix B' n → ℝ)) (hj' : ∀ k, JunkOk (junk' k)) :
    netForward rep junk' net (x.pick f) = (netForward rep junk net x).map (ETensor.pick f) := by
  have hx' : (x.pick f).x.WF fun r => (rep r).size := ⟨hx.1, (List.length_map _).trans hx.2⟩
  rw [net_junk hpos net hnd hpl hne hj' (fun k => pickJunk_ok (f := f) (hj k)) (x.pick f) hx']
  exact net_pick rep net f (.inr f.bijective) junk x

/-- **C88, one image**: if image `b` of one batch is image `b'` of another one, which may have another size, then the outputs for these images are the same, whatever the
other images are. -/
theorem c88_image {rep : F → Repr El} (hpos : ∀ r, 0 < (rep r).size) (net : List (K × Layer F A I)) (hnd : (net.map Prod.fst).Nodup) (hpl : ∀ l ∈ net, l.2.Plain rep)
    (hne : ∀ l ∈ net, l.2.outTy ≠ []) (hfr : ∀ l ∈ net, l.2.Frozen) {n : ℕ} (x : GTensor F (Pix B n → ℝ)) (x' : GTensor F (Pix B' n → ℝ))
    (hx : x.WF fun r => (rep r).size) (hx' : x'.WF fun r => (rep r).size)
    (junk : K → (c n : ℕ) → List (Pix B n → ℝ)) (hj : ∀ k, JunkOk (junk k)) (junk' : K → (c n : ℕ) → List (Pix B' n → ℝ)) (hj' : ∀ k, JunkOk (junk' k))
    (y : ETensor F B) (y' : ETensor F B') (hy : netForward rep junk net ⟨n, x⟩ = some y) (hy' : netForward rep junk' net ⟨n, x'⟩ = some y') (b : B) (b' : B')
    (ht : x.ty = x'.ty) (hb : ∀ c i j, chanImg x.data b c i j = chanImg x'.data b' c i j) :
    y.n = y'.n ∧ y.x.ty = y'.x.ty ∧ y.x.data.length = y'.x.data.length ∧ ∀ c i j, chanImg y.x.data b c i j = chanImg y'.x.data b' c i j := by
  let one : K → (c n : ℕ) → List (Pix Unit n → ℝ) := fun _ c n => List.replicate c 0
  have ho : ∀ k, JunkOk (one k) := fun _ c n => List.length_replicate
  have h1 := c88_pick hpos net hnd hpl hne hfr (fun _ : Unit => b) ⟨n, x⟩ hx junk hj one ho
  have h2 := c88_pick hpos net hnd hpl hne hfr (fun _ : Unit => b') ⟨n, x'⟩ hx' junk' hj' one ho
  have e : (⟨n, x⟩ : ETensor F B).pick (fun _ : Unit => b) = (⟨n, x'⟩ : ETensor F B').pick (fun _ : Unit => b') := by
    have hl : x.data.length = x'.data.length := by rw [hx.2, hx'.2, ht]
    have hd : (x.data.map fun v (q : Pix Unit n) => v (b, q.2)) = x'.data.map fun v (q : Pix Unit n) => v (b', q.2) := by
      refine List.ext_getElem (by simpa using hl) fun k g1 g2 => ?_
      simp only [List.length_map] at g1 g2
      simp only [List.getElem_map]
      funext q
      have := hb k q.2.1 q.2.2
      rwa [chanImg_in q.2.1.2 q.2.2.2, chanImg_in q.2.1.2 q.2.2.2, List.getD_eq_getElem _ _ g1, List.getD_eq_getElem _ _ g2] at this
    unfold ETensor.pick
    dsimp only
    rw [ht, hd]
  rw [e, h2, hy, hy'] at h1
  have h3 : y'.pick (fun _ : Unit => b') = y.pick (fun _ : Unit => b) := Option.some.inj h1
  obtain ⟨m, y⟩ := y
  obtain ⟨m', y'⟩ := y'
  have hm : m' = m := congrArg ETensor.n h3
  subst hm
  have h4 : (y'.mapCh (· ∘ pickPix m' (fun _ : Unit => b')) : GTensor F (Pix Unit m' → ℝ)) = y.mapCh (· ∘ pickPix m' (fun _ : Unit => b)) := by
    injection h3
  have h5 := congrArg GTensor.data h4
  refine ⟨rfl, (congrArg GTensor.ty h4).symm, by simpa [GTensor.mapCh] using (congrArg List.length h5).symm, fun c i j => ?_⟩
  have h6 := congrArg (fun d => chanImg d () c i j) h5
  simp only [GTensor.mapCh, chanImg_pick] at h6
  exact h6.symm

/-! ### Statistics of the batch -/

/-- `InnerBatchNorm` on one field with one channel when it uses the statistics of the batch. -/
theorem innerBatchNorm_single {P : Type} [Fintype P] (sz : F → ℕ) (r : F) (hr : sz r = 1) (momentum : Option ℝ) (eps : ℝ) (track : Bool) (w b : ℕ → ℝ) (training : Bool)
    (h : training = true ∨ track = false) (st : NormState (ℝ × ℝ)) (j v : P → ℝ) :
    ((innerBatchNorm sz [r] momentum eps track w b training st [j] ⟨[r], [v]⟩).map fun z => z.2) =
      some ⟨[r], [fun p => (v p - fieldMean [v]) / √(fieldVar [v] + eps) * w 0 + b 0]⟩ := by
  have h1 : ∀ track, ((innerBatchNorm sz [r] momentum eps track w b true st [j] ⟨[r], [v]⟩).map fun z => z.2) =
      some ⟨[r], [fun p => (v p - fieldMean [v]) / √(fieldVar [v] + eps) * w 0 + b 0]⟩ := fun track => by
    simp [innerBatchNorm, bnModule, bnForward, hr, firstKeys, indexesFromLabels, checkConsecutive, consecutiveLoop, labelIdxFrom, dictAppend, fieldLoop, updLoop,
      labelChannels, readGroup, writeGroup, eachField, viewFields, chunks, pySlice, writeSlice, innerBN, mkGT, typeSize]
  cases training
  · obtain rfl : track = false := by simpa using h
    simp [innerBatchNorm, bnModule, bnForward, hr, firstKeys, indexesFromLabels, checkConsecutive, consecutiveLoop, labelIdxFrom, dictAppend, fieldLoop,
      labelChannels, readGroup, writeGroup, eachField, viewFields, chunks, pySlice, writeSlice, innerBN, mkGT, typeSize]
  · exact h1 track

/-- **C88 needs evaluation mode and running statistics**: in training mode, and in evaluation mode without `track_running_stats`, the output of `InnerBatchNorm` for an
image depends on the other image of the batch. -/
theorem c88_statistics_false {rep : F → Repr El} (r : F) (hr : (rep r).size = 1) (momentum : Option ℝ) (eps : ℝ) (heps : 0 < eps) (track : Bool) (w b : ℕ → ℝ)
    (hw : w 0 ≠ 0) (training : Bool) (h : training = true ∨ track = false) (st : NormState (ℝ × ℝ)) :
    ∃ x : ETensor F (Fin 2), x.x.WF (fun r => (rep r).size) ∧ x.x.ty = [r] ∧
      ∀ (junk : (c n : ℕ) → List (Pix (Fin 2) n → ℝ)) (junk' : (c n : ℕ) → List (Pix Unit n → ℝ)), JunkOk junk → JunkOk junk' →
      ∃ y y', (Layer.innerBatchNorm [r] momentum eps track w b training st : Layer F A I).forward rep junk x = some y ∧
        (Layer.innerBatchNorm [r] momentum eps track w b training st : Layer F A I).forward rep junk' (x.pick fun _ => 1) = some y' ∧ y' ≠ y.pick fun _ => 1 := by
  refine ⟨⟨1, [r], [fun q => if q.1 = 0 then 0 else 2]⟩, ⟨by simp, by simp [typeSize, hr]⟩, rfl, fun junk junk' hj hj' => ?_⟩
  obtain ⟨j, hjj⟩ := List.length_eq_one_iff.1 (hj 1 1)
  obtain ⟨j', hjj'⟩ := List.length_eq_one_iff.1 (hj' 1 1)
  have h1 := innerBatchNorm_single (fun r => (rep r).size) r hr momentum eps track w b training h st j fun q : Pix (Fin 2) 1 => if q.1 = 0 then 0 else 2
  have h2 := innerBatchNorm_single (fun r => (rep r).size) r hr momentum eps track w b training h st j' fun q : Pix Unit 1 => 2
  have g1 := congrArg (Option.map fun z => (⟨1, z⟩ : ETensor F (Fin 2))) h1
  have g2 := congrArg (Option.map fun z => (⟨1, z⟩ : ETensor F Unit)) h2
  rw [Option.map_map, ← hjj] at g1
  rw [Option.map_map, ← hjj'] at g2
  refine ⟨_, _, g1, g2, fun e => ?_⟩
  have e1 := congrArg (fun z => chanImg z.x.data () 0 0 0) e
  have m1 : fieldMean [fun q : Pix (Fin 2) 1 => if q.1 = 0 then (0 : ℝ) else 2] = 1 := by
    simp [fieldMean, Fintype.sum_prod_type, Fintype.card_prod]
  have v1 : fieldVar [fun q : Pix (Fin 2) 1 => if q.1 = 0 then (0 : ℝ) else 2] = 1 := by
    rw [fieldVar, m1]
    simp [Fintype.sum_prod_type, Fintype.card_prod]
    norm_num
  have m2 : fieldMean [fun _ : Pix Unit 1 => (2 : ℝ)] = 2 := by
    simp [fieldMean, Fintype.sum_prod_type, Fintype.card_prod]
  simp only [ETensor.pick, m1, v1, m2] at e1
  simp [chanImg, readZ] at e1
  have := Real.sqrt_pos.2 (show (0 : ℝ) < 1 + eps by linarith)
  rcases e1 with e1 | e1
  · rcases e1 with e1 | e1
    · norm_num at e1
    · exact this.ne' e1
  · exact hw e1

/-! ### A concrete network -/

/-- The hypotheses of `c88_pick` and `c88_reorder` are met: the network with a convolution, a norm nonlinearity, a batch normalisation in evaluation mode, the norms of the fields and an
average over windows does with the first, second and again the first of seven images what it does with all of them, and it returns. -/
example (interp : ℝ → Img → Img) (w : List ℝ) (hw : w.length = (exCfg.exp exRep [0, 1] [1] exBasis).dimension) (f : ℝ → ℝ) (bias : List ℝ) (v : ℕ → ℝ) (st : NormState ℝ)
    (x : GTensor ℕ (Pix (Fin 7) 13 → ℝ)) (hx : x.ty = [0, 1] ∧ x.data.length = 3) (junk : ℕ → (c n : ℕ) → List (Pix (Fin 7) n → ℝ)) (hj : ∀ k, JunkOk (junk k))
    (junk' : ℕ → (c n : ℕ) → List (Pix (Fin 3) n → ℝ)) (hj' : ∀ k, JunkOk (junk' k)) :
    ∃ y, netForward exRep junk (trNet exCfg 3 1 w f bias v st) ⟨13, x⟩ = some y ∧ y.n = 5 ∧
      netForward exRep junk' (trNet exCfg 3 1 w f bias v st) (ETensor.pick ![0, 1, 0] ⟨13, x⟩) = some (y.pick ![0, 1, 0]) := by
  classical
  have hS := c62_cyclic (F := ℕ) (A := Option (PolarAttr ((ℝ × ℝ) × ℕ) (SBasis.Attr ℤ AngElem))) (I := Option (ℕ × ℕ × ℝ × ℕ)) interp 4 (by omega) exRep exRep_ok exRep_pos
  have hd : (exCfg.exp exRep [0, 1] [1] exBasis).nPairs = 2 := rfl
  have hok : NetOk (rotSpace interp 4) exRep (builtRot 4 exRep) ((trNet exCfg 3 1 w f bias v st).map Prod.snd) 13 5 :=
    ⟨7, ⟨exInput, ⟨_, _, some 2, none, by simp, rfl⟩, Nat.one_pos, ⟨[0, 1], rfl, fun h => absurd (h.symm.trans hd) (by omega), hw⟩, trivial, rfl, by decide⟩,
      7, ⟨rfl, fun r _ => exRep_orth r⟩, 7, ⟨rfl, fun r _ => exRep_orth r⟩, 7, ⟨rfl, ⟨exRep_size 0, fun g hg => (exRep_trivial g hg).2⟩, fun r _ => exRep_orth r⟩,
      5, ⟨rfl, rfl⟩, rfl⟩
  have hfit : ((trNet exCfg 3 1 w f bias v st).map Prod.snd).IsChain fun a b => a.outTy = b.inTy := by simp [trNet, Layer.inTy, Layer.outTy]
  have hnd : ((trNet exCfg 3 1 w f bias v st).map Prod.fst).Nodup := by simp [trNet]
  obtain ⟨y, a1, -, -, a2, -⟩ := c62_network hS (trNet exCfg 3 1 w f bias v st) (by simp [trNet]) hnd hfit hok ⟨13, x⟩ rfl (exRep_wf x hx) hx.1
  refine ⟨y, a2 junk hj, a1, ?_⟩
  rw [c88_pick exRep_pos _ hnd (trNet_plain _ _ _ _ _ _ _ _) (by simp [trNet, Layer.outTy]) (by simp [trNet, Layer.Frozen]) ![0, 1, 0] ⟨13, x⟩ (exRep_wf x hx) junk hj junk' hj',
    a2 junk hj]
  rfl

end E2
