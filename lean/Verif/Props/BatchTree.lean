import Verif.Props.BatchTreeSpec
import Verif.Lemmas.BatchTree
import Verif.Props.BatchIndependence
import Verif.Props.NetTree
import Verif.Props.DiffopTree

/-!
The images of a batch do not influence each other in nested networks (C107).  `ETensor.pick` and `Layer.Frozen` are in `Props/BatchSpec.lean`, `NetMod.Frozen` and
`DNetMod.Frozen` in `Props/BatchTreeSpec.lean`.
-/

set_option linter.unusedSectionVars false

namespace E2

open Mat

variable {El F A I B B' K : Type} [LinearOrder F] [DecidableEq I] [LinearOrder K] [Fintype B] [Fintype B']

/-- Images which are the same make the same batches of one image. -/
theorem pick_of_images {sz : F → ℕ} {n : ℕ} (x : GTensor F (Pix B n → ℝ)) (x' : GTensor F (Pix B' n → ℝ)) (hx : x.WF sz) (hx' : x'.WF sz) (b : B) (b' : B')
    (ht : x.ty = x'.ty) (hb : ∀ c i j, chanImg x.data b c i j = chanImg x'.data b' c i j) :
    (⟨n, x⟩ : ETensor F B).pick (fun _ : Unit => b) = (⟨n, x'⟩ : ETensor F B').pick (fun _ : Unit => b') := by
  have hl : x.data.length = x'.data.length := by rw [hx.2, hx'.2, ht]
  have hd : (x.data.map fun v (q : Pix Unit n) => v (b, q.2)) = x'.data.map fun v (q : Pix Unit n) => v (b', q.2) := by
    refine List.ext_getElem (by simpa using hl) fun k g1 g2 => ?_
    simp only [List.length_map] at g1 g2
    simp only [List.getElem_map]
    funext q
    have := hb k q.2.1 q.2.2
    rwa [chanImg_in q.2.1.2 q.2.2.2, chanImg_in q.2.1.2 q.2.2.2, List.getD_eq_getElem _ _ g1, List.getD_eq_getElem _ _ g2] at this
  unfold ETensor.pick
  dsimp only
  rw [ht, hd]

/-- The converse. -/
theorem images_of_pick (y : ETensor F B) (y' : ETensor F B') (b : B) (b' : B') (h : y'.pick (fun _ : Unit => b') = y.pick (fun _ : Unit => b)) :
    y.n = y'.n ∧ y.x.ty = y'.x.ty ∧ y.x.data.length = y'.x.data.length ∧ ∀ c i j, chanImg y.x.data b c i j = chanImg y'.x.data b' c i j := by
  obtain ⟨m, y⟩ := y
  obtain ⟨m', y'⟩ := y'
  have hm : m' = m := congrArg ETensor.n h
  subst hm
  have h4 : (y'.mapCh (· ∘ pickPix m' (fun _ : Unit => b')) : GTensor F (Pix Unit m' → ℝ)) = y.mapCh (· ∘ pickPix m' (fun _ : Unit => b)) := by
    injection h
  have h5 := congrArg GTensor.data h4
  refine ⟨rfl, (congrArg GTensor.ty h4).symm, by simpa [GTensor.mapCh] using (congrArg List.length h5).symm, fun c i j => ?_⟩
  have h6 := congrArg (fun d => chanImg d () c i j) h5
  simp only [GTensor.mapCh, chanImg_pick] at h6
  exact h6.symm

theorem dlayer_rel (rep : F → Repr El) (f : B' → B) (l : DLayer El F A I) (h : l.Frozen ∨ f.Bijective) (junk : (c n : ℕ) → List (Pix B n → ℝ)) :
    PickRel f (l.toShapedMod rep junk) (l.toShapedMod rep (pickJunk f junk)) := by
  cases l with
  | lib l => exact ⟨rfl, rfl, layer_pick rep f l h junk, fun _ => rfl, l.declared_keeps _⟩
  | diffop smp M inT outT w b =>
    refine ⟨rfl, rfl, fun x => ?_, fun _ => rfl, fun b b' s => declAxes_keeps ..⟩
    show DLayer.forward rep (pickJunk f junk) (.diffop smp M inT outT w b : DLayer El F A I) (x.pick f) =
      (DLayer.forward rep junk (.diffop smp M inT outT w b : DLayer El F A I) x).map _
    simp only [DLayer.forward]
    cases (M.exp smp rep outT).forward w with
    | none => rfl
    | some fl =>
      refine wrapped_pick f _ _ _ _ _ (fun n d => ?_) _
      simp only [runConv, List.length_map, chanImg_pick]
      split_ifs
      · cases convSize n M.cfg.p M.size M.cfg.s M.cfg.d <;> simp [Function.comp_def, pickPix]
      · rfl

mutual

theorem NetMod.build_rel (rep : F → Repr El) (f : B' → B) : ∀ (net : NetMod F A I K) (_ : net.Frozen ∨ f.Bijective) (junk : List ℕ → (c n : ℕ) → List (Pix B n → ℝ)),
    Option.Rel (PickRel f) (net.build rep junk) (net.build rep fun p => pickJunk f (junk p))
  | .layer l, h, junk => by
    rw [NetMod.build, NetMod.build]
    exact .some (layer_rel rep f l h (junk []))
  | .seq ms, h, junk => by
    rw [NetMod.build, NetMod.build]
    have h1 := NetMods.build_rel rep f ms h junk 0
    revert h1
    cases ms.build rep junk 0 <;> cases ms.build rep (fun p => pickJunk f (junk p)) 0 <;> intro h1
    · exact .none
    · cases h1
    · cases h1
    · cases h1 with
      | some h1 => exact seqMod_rel f _ h1
  | .multi inT level labels ms, h, junk => by
    rw [NetMod.build, NetMod.build]
    have h1 := NetMods.build_rel rep f ms h junk 0
    revert h1
    cases ms.build rep junk 0 <;> cases ms.build rep (fun p => pickJunk f (junk p)) 0 <;> intro h1
    · exact .none
    · cases h1
    · cases h1
    · cases h1 with
      | some h1 => exact multiMod_rel f _ inT level labels h1 (junk [])

theorem NetMods.build_rel (rep : F → Repr El) (f : B' → B) : ∀ (ms : NetMods F A I K) (_ : ms.Frozen ∨ f.Bijective) (junk : List ℕ → (c n : ℕ) → List (Pix B n → ℝ))
    (i : ℕ), Option.Rel (List.Forall₂ (NamedRel f)) (ms.build rep junk i) (ms.build rep (fun p => pickJunk f (junk p)) i)
  | .nil, _, _, _ => .some .nil
  | .cons k m ms, h, junk, i => by
    rw [NetMods.build, NetMods.build]
    have h1 := NetMod.build_rel rep f m (h.imp (fun h => by rw [NetMods.Frozen] at h; exact h.1) id) fun p => junk (i :: p)
    have h2 := NetMods.build_rel rep f ms (h.imp (fun h => by rw [NetMods.Frozen] at h; exact h.2) id) junk (i + 1)
    revert h1 h2
    cases m.build rep (fun p => junk (i :: p)) <;> cases m.build rep (fun p => pickJunk f (junk (i :: p))) <;> intro h1
    · exact fun _ => .none
    · cases h1
    · cases h1
    · cases h1 with
      | some h1 =>
        cases ms.build rep junk (i + 1) <;> cases ms.build rep (fun p => pickJunk f (junk p)) (i + 1) <;> intro h2
        · exact .none
        · cases h2
        · cases h2
        · cases h2 with
          | some h2 => exact .some (.cons ⟨rfl, h1⟩ h2)

end

/-- **C107, errors included**: a network of any modules does with chosen images what it does with all of them, and raises for both or for none, if the
uninitialised memory is chosen likewise and no module uses statistics of the batch, or if the choice only reorders the images. -/
theorem c107_any (rep : F → Repr El) (net : NetMod F A I K) (f : B' → B) (h : net.Frozen ∨ f.Bijective) (junk : List ℕ → (c n : ℕ) → List (Pix B n → ℝ)) (x : ETensor F B) :
    net.forward rep (fun p => pickJunk f (junk p)) (x.pick f) = (net.forward rep junk x).map (ETensor.pick f) := by
  have h1 := NetMod.build_rel rep f net h junk
  unfold NetMod.forward
  revert h1
  cases net.build rep junk <;> cases net.build rep (fun p => pickJunk f (junk p)) <;> intro h1
  · rfl
  · cases h1
  · cases h1
  · cases h1 with
    | some h1 => exact h1.fwd x

theorem c107_both {Sp : Space El} {rep : F → Repr El} {built : (F → F → List (A × (ℝ × ℝ → Mat))) → (A → I) → Prop} (hS : NetSpace Sp rep built)
    (net : NetMod F A I K) {n m : ℕ} (hok : net.Ok Sp rep built n m) (f : B' → B) (h : net.Frozen ∨ f.Bijective)
    (M : EMod (List F) (ETensor F B) (List Dim)) (junk : List ℕ → (c n : ℕ) → List (Pix B n → ℝ)) (hj : ∀ p, JunkOk (junk p))
    (junk' : List ℕ → (c n : ℕ) → List (Pix B' n → ℝ)) (hj' : ∀ p, JunkOk (junk' p)) (hM : net.build rep junk = some M)
    (x : ETensor F B) (hn : x.n = n) (hx : x.x.WF fun r => (rep r).size) (hxt : x.x.ty = M.inTy) :
    ∃ y, net.forward rep junk x = some y ∧ y.n = m ∧ y.x.ty = M.outTy ∧ net.forward rep junk' (x.pick f) = some (y.pick f) := by
  obtain ⟨y, h1, -, h3, h4, -⟩ := c102_network hS net hok junk hj M hM x hn hx hxt
  have h5 := NetMod.build_rel rep f net h junk
  rw [hM] at h5
  cases h6 : net.build rep (fun p => pickJunk f (junk p)) with
  | none => rw [h6] at h5; cases h5
  | some M' =>
    rw [h6] at h5
    cases h5 with
    | some h5 =>
      have hx' : (x.pick f).x.WF fun r => (rep r).size := ⟨hx.1, (List.length_map _).trans hx.2⟩
      have ho : ∀ p, JunkOk (pickJunk f (junk p)) := fun p => pickJunk_ok (hj p)
      obtain ⟨z, -, -, -, g4, -⟩ := c102_network hS net hok _ ho M' h6 (x.pick f) hn hx' (hxt.trans h5.inTy.symm)
      have h7 := c107_any rep net f h junk x
      rw [h4 junk hj, g4 _ ho] at h7
      exact ⟨y, h4 junk hj, h1, h3, (g4 junk' hj').trans h7⟩

/-- **C107, choice of images**: in evaluation mode a network returns for some of the images of a batch, in any order and any number of times, the same as for
the whole batch, whatever the uninitialised memory contains. -/
theorem c107_pick {Sp : Space El} {rep : F → Repr El} {built : (F → F → List (A × (ℝ × ℝ → Mat))) → (A → I) → Prop} (hS : NetSpace Sp rep built)
    (net : NetMod F A I K) {n m : ℕ} (hok : net.Ok Sp rep built n m) (hfr : net.Frozen) (f : B' → B)
    (M : EMod (List F) (ETensor F B) (List Dim)) (junk : List ℕ → (c n : ℕ) → List (Pix B n → ℝ)) (hj : ∀ p, JunkOk (junk p))
    (junk' : List ℕ → (c n : ℕ) → List (Pix B' n → ℝ)) (hj' : ∀ p, JunkOk (junk' p)) (hM : net.build rep junk = some M)
    (x : ETensor F B) (hn : x.n = n) (hx : x.x.WF fun r => (rep r).size) (hxt : x.x.ty = M.inTy) :
    ∃ y, net.forward rep junk x = some y ∧ y.n = m ∧ y.x.ty = M.outTy ∧ net.forward rep junk' (x.pick f) = some (y.pick f) :=
  c107_both hS net hok f (.inl hfr) M junk hj junk' hj' hM x hn hx hxt

/-- **C107, training**: in any mode, reordering the images of a batch reorders those of the output. -/
theorem c107_reorder {Sp : Space El} {rep : F → Repr El} {built : (F → F → List (A × (ℝ × ℝ → Mat))) → (A → I) → Prop} (hS : NetSpace Sp rep built)
    (net : NetMod F A I K) {n m : ℕ} (hok : net.Ok Sp rep built n m) (f : B' ≃ B)
    (M : EMod (List F) (ETensor F B) (List Dim)) (junk : List ℕ → (c n : ℕ) → List (Pix B n → ℝ)) (hj : ∀ p, JunkOk (junk p))
    (junk' : List ℕ → (c n : ℕ) → List (Pix B' n → ℝ)) (hj' : ∀ p, JunkOk (junk' p)) (hM : net.build rep junk = some M)
    (x : ETensor F B) (hn : x.n = n) (hx : x.x.WF fun r => (rep r).size) (hxt : x.x.ty = M.inTy) :
    ∃ y, net.forward rep junk x = some y ∧ y.n = m ∧ y.x.ty = M.outTy ∧ net.forward rep junk' (x.pick f) = some (y.pick f) :=
  c107_both hS net hok f (.inr f.bijective) M junk hj junk' hj' hM x hn hx hxt

/-- **C107, one image**: if image `b` of one batch is image `b'` of another one, which may have another size, then the outputs for these images are the same,
whatever the other images and the memory are. -/
theorem c107_image {Sp : Space El} {rep : F → Repr El} {built : (F → F → List (A × (ℝ × ℝ → Mat))) → (A → I) → Prop} (hS : NetSpace Sp rep built)
    (net : NetMod F A I K) {n m : ℕ} (hok : net.Ok Sp rep built n m) (hfr : net.Frozen)
    (M : EMod (List F) (ETensor F B) (List Dim)) (junk : List ℕ → (c n : ℕ) → List (Pix B n → ℝ)) (hj : ∀ p, JunkOk (junk p)) (hM : net.build rep junk = some M)
    (junk' : List ℕ → (c n : ℕ) → List (Pix B' n → ℝ)) (hj' : ∀ p, JunkOk (junk' p))
    (x : GTensor F (Pix B n → ℝ)) (x' : GTensor F (Pix B' n → ℝ)) (hx : x.WF fun r => (rep r).size) (hx' : x'.WF fun r => (rep r).size) (hxt : x.ty = M.inTy)
    (b : B) (b' : B') (ht : x.ty = x'.ty) (hb : ∀ c i j, chanImg x.data b c i j = chanImg x'.data b' c i j) :
    ∃ y y', net.forward rep junk ⟨n, x⟩ = some y ∧ net.forward rep junk' ⟨n, x'⟩ = some y' ∧
      y.n = y'.n ∧ y.x.ty = y'.x.ty ∧ y.x.data.length = y'.x.data.length ∧ ∀ c i j, chanImg y.x.data b c i j = chanImg y'.x.data b' c i j := by
  let one : List ℕ → (c n : ℕ) → List (Pix Unit n → ℝ) := fun _ c n => List.replicate c 0
  have ho : ∀ p, JunkOk (one p) := fun _ c n => List.length_replicate
  obtain ⟨y, h1, -, -, h2⟩ := c107_pick hS net hok hfr (fun _ : Unit => b) M junk hj one ho hM ⟨n, x⟩ rfl hx hxt
  have hB : ∃ M', net.build rep junk' = some M' ∧ M'.inTy = M.inTy := by
    have e1 := NetMod.build_rel rep (fun _ : B' => b) net (.inl hfr) junk
    rw [hM] at e1
    cases e2 : net.build rep (fun p => pickJunk (fun _ : B' => b) (junk p)) with
    | none => rw [e2] at e1; cases e1
    | some M₁ =>
      rw [e2] at e1
      cases e1 with
      | some e1 =>
        obtain ⟨M', e3, e4⟩ := NetMod.twin hS net _ _ _ junk' M₁ hok (fun p => pickJunk_ok (hj p)) hj' e2
        exact ⟨M', e3, e4.inTy.trans e1.inTy⟩
  obtain ⟨M', hM', hi⟩ := hB
  obtain ⟨y', h1', -, -, h2'⟩ := c107_pick hS net hok hfr (fun _ : Unit => b') M' junk' hj' one ho hM' ⟨n, x'⟩ rfl hx' (by rw [hi, ← hxt, ht])
  rw [pick_of_images x x' hx hx' b b' ht hb, h2'] at h2
  exact ⟨y, y', h1, h1', images_of_pick y y' b b' (Option.some.inj h2)⟩

mutual

theorem DNetMod.build_rel (rep : F → Repr El) (f : B' → B) : ∀ (net : DNetMod El F A I K) (_ : net.Frozen ∨ f.Bijective) (junk : List ℕ → (c n : ℕ) → List (Pix B n → ℝ)),
    Option.Rel (PickRel f) (net.build rep junk) (net.build rep fun p => pickJunk f (junk p))
  | .layer l, h, junk => by
    rw [DNetMod.build, DNetMod.build]
    exact .some (dlayer_rel rep f l h (junk []))
  | .seq ms, h, junk => by
    rw [DNetMod.build, DNetMod.build]
    have h1 := DNetMods.build_rel rep f ms h junk 0
    revert h1
    cases ms.build rep junk 0 <;> cases ms.build rep (fun p => pickJunk f (junk p)) 0 <;> intro h1
    · exact .none
    · cases h1
    · cases h1
    · cases h1 with
      | some h1 => exact seqMod_rel f _ h1
  | .multi inT level labels ms, h, junk => by
    rw [DNetMod.build, DNetMod.build]
    have h1 := DNetMods.build_rel rep f ms h junk 0
    revert h1
    cases ms.build rep junk 0 <;> cases ms.build rep (fun p => pickJunk f (junk p)) 0 <;> intro h1
    · exact .none
    · cases h1
    · cases h1
    · cases h1 with
      | some h1 => exact multiMod_rel f _ inT level labels h1 (junk [])

theorem DNetMods.build_rel (rep : F → Repr El) (f : B' → B) : ∀ (ms : DNetMods El F A I K) (_ : ms.Frozen ∨ f.Bijective) (junk : List ℕ → (c n : ℕ) → List (Pix B n → ℝ))
    (i : ℕ), Option.Rel (List.Forall₂ (NamedRel f)) (ms.build rep junk i) (ms.build rep (fun p => pickJunk f (junk p)) i)
  | .nil, _, _, _ => .some .nil
  | .cons k m ms, h, junk, i => by
    rw [DNetMods.build, DNetMods.build]
    have h1 := DNetMod.build_rel rep f m (h.imp (fun h => by rw [DNetMods.Frozen] at h; exact h.1) id) fun p => junk (i :: p)
    have h2 := DNetMods.build_rel rep f ms (h.imp (fun h => by rw [DNetMods.Frozen] at h; exact h.2) id) junk (i + 1)
    revert h1 h2
    cases m.build rep (fun p => junk (i :: p)) <;> cases m.build rep (fun p => pickJunk f (junk (i :: p))) <;> intro h1
    · exact fun _ => .none
    · cases h1
    · cases h1
    · cases h1 with
      | some h1 =>
        cases ms.build rep junk (i + 1) <;> cases ms.build rep (fun p => pickJunk f (junk p)) (i + 1) <;> intro h2
        · exact .none
        · cases h2
        · cases h2
        · cases h2 with
          | some h2 => exact .some (.cons ⟨rfl, h1⟩ h2)

end

/-- **C107, errors included, with differential operators**: a network of any modules does with chosen images what it does with all of them, and raises for both or for none, if the
uninitialised memory is chosen likewise and no module uses statistics of the batch, or if the choice only reorders the images. -/
theorem c107_diffop_any (rep : F → Repr El) (net : DNetMod El F A I K) (f : B' → B) (h : net.Frozen ∨ f.Bijective) (junk : List ℕ → (c n : ℕ) → List (Pix B n → ℝ)) (x : ETensor F B) :
    net.forward rep (fun p => pickJunk f (junk p)) (x.pick f) = (net.forward rep junk x).map (ETensor.pick f) := by
  have h1 := DNetMod.build_rel rep f net h junk
  unfold DNetMod.forward
  revert h1
  cases net.build rep junk <;> cases net.build rep (fun p => pickJunk f (junk p)) <;> intro h1
  · rfl
  · cases h1
  · cases h1
  · cases h1 with
    | some h1 => exact h1.fwd x

theorem c107_diffop_both {Sp : Space El} {G : DiffopGen El} {rep : F → Repr El} {built : (F → F → List (A × (ℝ × ℝ → Mat))) → (A → I) → Prop}
    {meth : Sampler → DiffopArgs El → DiffopModule El F → Prop} {sel : El → Prop} (hS : NetSpace Sp rep built) (hD : DiffopSpace Sp G rep meth sel)
    (net : DNetMod El F A I K) {n m : ℕ} (hok : net.Ok Sp G rep built meth n m) (f : B' → B) (h : net.Frozen ∨ f.Bijective)
    (M : EMod (List F) (ETensor F B) (List Dim)) (junk : List ℕ → (c n : ℕ) → List (Pix B n → ℝ)) (hj : ∀ p, JunkOk (junk p))
    (junk' : List ℕ → (c n : ℕ) → List (Pix B' n → ℝ)) (hj' : ∀ p, JunkOk (junk' p)) (hM : net.build rep junk = some M)
    (x : ETensor F B) (hn : x.n = n) (hx : x.x.WF fun r => (rep r).size) (hxt : x.x.ty = M.inTy) :
    ∃ y, net.forward rep junk x = some y ∧ y.n = m ∧ y.x.ty = M.outTy ∧ net.forward rep junk' (x.pick f) = some (y.pick f) := by
  obtain ⟨y, h1, -, h3, h4, -⟩ := c106_network hS hD net hok junk hj M hM x hn hx hxt
  have h5 := DNetMod.build_rel rep f net h junk
  rw [hM] at h5
  cases h6 : net.build rep (fun p => pickJunk f (junk p)) with
  | none => rw [h6] at h5; cases h5
  | some M' =>
    rw [h6] at h5
    cases h5 with
    | some h5 =>
      have hx' : (x.pick f).x.WF fun r => (rep r).size := ⟨hx.1, (List.length_map _).trans hx.2⟩
      have ho : ∀ p, JunkOk (pickJunk f (junk p)) := fun p => pickJunk_ok (hj p)
      obtain ⟨z, -, -, -, g4, -⟩ := c106_network hS hD net hok _ ho M' h6 (x.pick f) hn hx' (hxt.trans h5.inTy.symm)
      have h7 := c107_diffop_any rep net f h junk x
      rw [h4 junk hj, g4 _ ho] at h7
      exact ⟨y, h4 junk hj, h1, h3, (g4 junk' hj').trans h7⟩

/-- **C107, choice of images, with differential operators**: in evaluation mode a network returns for some of the images of a batch, in any order and any number of times, the same as for
the whole batch, whatever the uninitialised memory contains. -/
theorem c107_diffop_pick {Sp : Space El} {G : DiffopGen El} {rep : F → Repr El} {built : (F → F → List (A × (ℝ × ℝ → Mat))) → (A → I) → Prop}
    {meth : Sampler → DiffopArgs El → DiffopModule El F → Prop} {sel : El → Prop} (hS : NetSpace Sp rep built) (hD : DiffopSpace Sp G rep meth sel)
    (net : DNetMod El F A I K) {n m : ℕ} (hok : net.Ok Sp G rep built meth n m) (hfr : net.Frozen) (f : B' → B)
    (M : EMod (List F) (ETensor F B) (List Dim)) (junk : List ℕ → (c n : ℕ) → List (Pix B n → ℝ)) (hj : ∀ p, JunkOk (junk p))
    (junk' : List ℕ → (c n : ℕ) → List (Pix B' n → ℝ)) (hj' : ∀ p, JunkOk (junk' p)) (hM : net.build rep junk = some M)
    (x : ETensor F B) (hn : x.n = n) (hx : x.x.WF fun r => (rep r).size) (hxt : x.x.ty = M.inTy) :
    ∃ y, net.forward rep junk x = some y ∧ y.n = m ∧ y.x.ty = M.outTy ∧ net.forward rep junk' (x.pick f) = some (y.pick f) :=
  c107_diffop_both hS hD net hok f (.inl hfr) M junk hj junk' hj' hM x hn hx hxt

/-- **C107, training, with differential operators**: in any mode, reordering the images of a batch reorders those of the output. -/
theorem c107_diffop_reorder {Sp : Space El} {G : DiffopGen El} {rep : F → Repr El} {built : (F → F → List (A × (ℝ × ℝ → Mat))) → (A → I) → Prop}
    {meth : Sampler → DiffopArgs El → DiffopModule El F → Prop} {sel : El → Prop} (hS : NetSpace Sp rep built) (hD : DiffopSpace Sp G rep meth sel)
    (net : DNetMod El F A I K) {n m : ℕ} (hok : net.Ok Sp G rep built meth n m) (f : B' ≃ B)
    (M : EMod (List F) (ETensor F B) (List Dim)) (junk : List ℕ → (c n : ℕ) → List (Pix B n → ℝ)) (hj : ∀ p, JunkOk (junk p))
    (junk' : List ℕ → (c n : ℕ) → List (Pix B' n → ℝ)) (hj' : ∀ p, JunkOk (junk' p)) (hM : net.build rep junk = some M)
    (x : ETensor F B) (hn : x.n = n) (hx : x.x.WF fun r => (rep r).size) (hxt : x.x.ty = M.inTy) :
    ∃ y, net.forward rep junk x = some y ∧ y.n = m ∧ y.x.ty = M.outTy ∧ net.forward rep junk' (x.pick f) = some (y.pick f) :=
  c107_diffop_both hS hD net hok f (.inr f.bijective) M junk hj junk' hj' hM x hn hx hxt

/-- **C107, one image, with differential operators**: if image `b` of one batch is image `b'` of another one, which may have another size, then the outputs for these images are the same,
whatever the other images and the memory are. -/
theorem c107_diffop_image {Sp : Space El} {G : DiffopGen El} {rep : F → Repr El} {built : (F → F → List (A × (ℝ × ℝ → Mat))) → (A → I) → Prop}
    {meth : Sampler → DiffopArgs El → DiffopModule El F → Prop} {sel : El → Prop} (hS : NetSpace Sp rep built) (hD : DiffopSpace Sp G rep meth sel)
    (net : DNetMod El F A I K) {n m : ℕ} (hok : net.Ok Sp G rep built meth n m) (hfr : net.Frozen)
    (M : EMod (List F) (ETensor F B) (List Dim)) (junk : List ℕ → (c n : ℕ) → List (Pix B n → ℝ)) (hj : ∀ p, JunkOk (junk p)) (hM : net.build rep junk = some M)
    (junk' : List ℕ → (c n : ℕ) → List (Pix B' n → ℝ)) (hj' : ∀ p, JunkOk (junk' p))
    (x : GTensor F (Pix B n → ℝ)) (x' : GTensor F (Pix B' n → ℝ)) (hx : x.WF fun r => (rep r).size) (hx' : x'.WF fun r => (rep r).size) (hxt : x.ty = M.inTy)
    (b : B) (b' : B') (ht : x.ty = x'.ty) (hb : ∀ c i j, chanImg x.data b c i j = chanImg x'.data b' c i j) :
    ∃ y y', net.forward rep junk ⟨n, x⟩ = some y ∧ net.forward rep junk' ⟨n, x'⟩ = some y' ∧
      y.n = y'.n ∧ y.x.ty = y'.x.ty ∧ y.x.data.length = y'.x.data.length ∧ ∀ c i j, chanImg y.x.data b c i j = chanImg y'.x.data b' c i j := by
  let one : List ℕ → (c n : ℕ) → List (Pix Unit n → ℝ) := fun _ c n => List.replicate c 0
  have ho : ∀ p, JunkOk (one p) := fun _ c n => List.length_replicate
  obtain ⟨y, h1, -, -, h2⟩ := c107_diffop_pick hS hD net hok hfr (fun _ : Unit => b) M junk hj one ho hM ⟨n, x⟩ rfl hx hxt
  have hB : ∃ M', net.build rep junk' = some M' ∧ M'.inTy = M.inTy := by
    have e1 := DNetMod.build_rel rep (fun _ : B' => b) net (.inl hfr) junk
    rw [hM] at e1
    cases e2 : net.build rep (fun p => pickJunk (fun _ : B' => b) (junk p)) with
    | none => rw [e2] at e1; cases e1
    | some M₁ =>
      rw [e2] at e1
      cases e1 with
      | some e1 =>
        obtain ⟨M', e3, e4⟩ := DNetMod.twin hS hD net _ _ _ junk' M₁ hok (fun p => pickJunk_ok (hj p)) hj' e2
        exact ⟨M', e3, e4.inTy.trans e1.inTy⟩
  obtain ⟨M', hM', hi⟩ := hB
  obtain ⟨y', h1', -, -, h2'⟩ := c107_diffop_pick hS hD net hok hfr (fun _ : Unit => b') M' junk' hj' one ho hM' ⟨n, x'⟩ rfl hx' (by rw [hi, ← hxt, ht])
  rw [pick_of_images x x' hx hx' b b' ht hb, h2'] at h2
  exact ⟨y, y', h1, h1', images_of_pick y y' b b' (Option.some.inj h2)⟩

/-- **C107 needs evaluation mode and running statistics**: in training mode, and in evaluation mode without `track_running_stats`, a network with an
`InnerBatchNorm` in a `SequentialModule` returns for an image something which depends on the other image of the batch. -/
theorem c107_statistics_false {rep : F → Repr El} (k : K) (r : F) (hr : (rep r).size = 1) (momentum : Option ℝ) (eps : ℝ) (heps : 0 < eps) (track : Bool) (w b : ℕ → ℝ)
    (hw : w 0 ≠ 0) (training : Bool) (h : training = true ∨ track = false) (st : NormState (ℝ × ℝ)) :
    ∃ net : NetMod F A I K, net = .seq (.cons k (.layer (.innerBatchNorm [r] momentum eps track w b training st)) .nil) ∧
      ∃ x : ETensor F (Fin 2), x.x.WF (fun r => (rep r).size) ∧
        ∀ (junk : List ℕ → (c n : ℕ) → List (Pix (Fin 2) n → ℝ)) (junk' : List ℕ → (c n : ℕ) → List (Pix Unit n → ℝ)), (∀ p, JunkOk (junk p)) → (∀ p, JunkOk (junk' p)) →
        ∃ y y', net.forward rep junk x = some y ∧ net.forward rep junk' (x.pick fun _ => 1) = some y' ∧ y' ≠ y.pick fun _ => 1 := by
  obtain ⟨x, hx, ht, hall⟩ := c88_statistics_false (A := A) (I := I) r hr momentum eps heps track w b hw training h st
  refine ⟨_, rfl, x, hx, fun junk junk' hj hj' => ?_⟩
  obtain ⟨y, y', h1, h2, h3⟩ := hall (junk [0]) (junk' [0]) (hj _) (hj' _)
  have key : ∀ {B : Type} [Fintype B] (junk : List ℕ → (c n : ℕ) → List (Pix B n → ℝ)) (x y : ETensor F B), x.x.WF (fun r => (rep r).size) → x.x.ty = [r] →
      (Layer.innerBatchNorm [r] momentum eps track w b training st : Layer F A I).forward rep (junk [0]) x = some y →
      (NetMod.seq (.cons k (.layer (.innerBatchNorm [r] momentum eps track w b training st)) .nil) : NetMod F A I K).forward rep junk x = some y := by
    intro B _ junk x y hx ht e
    have hy : y.x.ty = [r] := (layer_typed (.innerBatchNorm [r] momentum eps track w b training st : Layer F A I) (by simp [Layer.outTy]) x y hx e).2
    simp [NetMod.forward, NetMod.build, NetMods.build, seqMod, seqNew, addModules, addModule, dictSet, seqForward, runMods, Layer.toShapedMod, Layer.inTy, Layer.outTy, ht, e, hy]
  exact ⟨y, y', key junk x y hx ht h1, key junk' _ y' ⟨hx.1, (List.length_map _).trans hx.2⟩ ht h2, h3⟩

end E2
