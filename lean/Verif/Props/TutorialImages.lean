import Verif.Props.TutorialNet
import Verif.Props.WideImages

/-!
The network of the tutorial (C87) and the images of a batch: in evaluation mode the classes of an image do not depend on the other images, in training mode they do
not depend on the order.
-/

namespace E2

variable {B B' : Type} [Fintype B] [Fintype B']


theorem tutConv_frozen {S : Stage} {k p : ℕ} {inT outT : List ℕ} {w : List ℝ} {l : SLayer S} (h : tutConv S k p inT outT w = some l) : l.Frozen := by
  unfold tutConv at h
  split at h
  · exact absurd h (by simp)
  · split_ifs at h
    obtain rfl := Option.some.inj h
    trivial

theorem tutPool_frozen {S : Stage} {t : List ℕ} {sigma : ℝ} {stride : ℕ} {p : Option ℕ} {l : SLayer S} (h : tutPool S t sigma stride p = some l) : l.Frozen := by
  unfold tutPool at h
  split_ifs at h
  obtain rfl := Option.some.inj h
  trivial

theorem tutGroupPool_frozen {S : Stage} {t : List ℕ} {l : SLayer S} (h : tutGroupPool S t = some l) : l.Frozen := by
  unfold tutGroupPool at h
  split_ifs at h
  obtain rfl := Option.some.inj h
  trivial

theorem tutModules_safe {S : Stage} {training : Bool} {f : B' → B} (hf : training = false ∨ f.Bijective) {k p : ℕ} {inT outT : List ℕ} {v : BlockVals}
    {ls : List (SLayer S)} (h : tutModules S training k p inT outT v = some ls) : (∀ l ∈ ls, l.Frozen) ∨ f.Bijective := by
  rcases hf with rfl | hf
  · left
    unfold tutModules at h
    simp only [Option.bind_eq_bind, Option.bind_eq_some_iff] at h
    obtain ⟨conv, h1, bn, h2, relu, h3, e⟩ := h
    obtain rfl := Option.some.inj e
    have hbn : bn.Frozen := by
      unfold tutBN at h2
      split_ifs at h2
      obtain rfl := Option.some.inj h2
      exact ⟨rfl, rfl⟩
    simpa using ⟨tutConv_frozen h1, hbn, wideReLU_frozen h3⟩
  · exact .inr hf

theorem numbered_pick {S : Stage} {ls : List (SLayer S)} {f : B' → B} (h : (∀ l ∈ ls, l.Frozen) ∨ f.Bijective) (junk : ℕ → Junk B) (x : ETensor ℕ B) :
    netForward S.rep (fun k => pickJunk f (junk k)) (numbered ls) (x.pick f) = (netForward S.rep junk (numbered ls) x).map (ETensor.pick f) := by
  refine net_pick S.rep (numbered ls) f (h.imp (fun h l hl => ?_) id) junk x
  unfold numbered at hl
  obtain ⟨p, hp, rfl⟩ := List.mem_map.1 hl
  exact h _ (List.fst_mem_of_mem_zipIdx hp)

theorem fullyNet_pick {training : Bool} {f : B' → B} (hf : training = false ∨ f.Bijective) (v : HeadVals) (c : ℕ) (x : ℕ → B → ℝ) :
    fullyNet training v c (fun i b => x i (f b)) = fun o b => fullyNet training v c x o (f b) := by
  have hbn : ∀ y : ℕ → B → ℝ, batchNorm1d training v (fun i b => y i (f b)) = fun j b => batchNorm1d training v y j (f b) := by
    intro y
    funext j b
    rcases hf with rfl | hf
    · rfl
    · have hm : ∀ z : B → ℝ, (∑ b, z (f b)) / Fintype.card B' = (∑ b, z b) / Fintype.card B := fun z => by
        rw [hf.sum_comp, Fintype.card_of_bijective hf]
      cases training
      · rfl
      · show (y j (f b) - (∑ b, y j (f b)) / Fintype.card B') /
            Real.sqrt ((∑ b, (y j (f b) - (∑ b, y j (f b)) / Fintype.card B') ^ 2) / Fintype.card B' + v.eps) * v.gamma j + v.beta j = _
        rw [hm (y j), hm fun b => (y j b - (∑ b, y j b) / Fintype.card B) ^ 2]
        rfl
  funext o b
  have := fun j => congrFun (congrFun (hbn fun j b => ∑ i ∈ Finset.range c, v.w1 j i * x i b + v.b1 j) j) b
  exact congrArg (· + v.b2 o) (Finset.sum_congr rfl fun j _ => congrArg (fun t => v.w2 o j * eluFun 1 t) (this j))

theorem flatPixels_pick (f : B' → B) (x : ETensor ℕ B) : flatPixels (x.pick f) = fun i b => flatPixels x i (f b) := by
  funext i b
  unfold flatPixels
  by_cases h : 0 < x.n
  · rw [dif_pos h, dif_pos (show 0 < (x.pick f).n from h)]
    show (x.x.data.map fun v (q : Pix B' x.n) => v (f q.1, q.2)).getD (i / (x.n * x.n)) 0 _ = _
    simp only [List.getD_eq_getElem?_getD, List.getElem?_map]
    cases x.x.data[i / (x.n * x.n)]? <;> rfl
  · rw [dif_neg h, dif_neg (show ¬ 0 < (x.pick f).n from h)]

/-- **C87 and batches**: in evaluation mode the network does the same with some of the images of a batch, in any order and any number of times, as with the whole batch;
in training mode it does the same with all images in another order. -/
theorem c87_pick {N : ℕ} {training : Bool} {v : TutVals} {net : TutNet} (h : tutorialNet N training v = some net) (f : B' → B) (hf : training = false ∨ f.Bijective)
    (junk : ℕ → ℕ → Junk B) {n : ℕ} (x : List (Pix B n → ℝ)) :
    net.forward (fun i j => pickJunk f (junk i j)) (x.map fun v q => v (f q.1, q.2)) = (net.forward junk x).map fun y o b => y o (f b) := by
  unfold tutorialNet at h
  simp only [Option.bind_eq_bind] at h
  obtain ⟨S, hS, h⟩ := Option.bind_eq_some_iff.1 h
  obtain ⟨m1, hm1, h⟩ := Option.bind_eq_some_iff.1 h
  obtain ⟨m2, hm2, h⟩ := Option.bind_eq_some_iff.1 h
  obtain ⟨p1, hp1, h⟩ := Option.bind_eq_some_iff.1 h
  obtain ⟨m3, hm3, h⟩ := Option.bind_eq_some_iff.1 h
  obtain ⟨m4, hm4, h⟩ := Option.bind_eq_some_iff.1 h
  obtain ⟨p2, hp2, h⟩ := Option.bind_eq_some_iff.1 h
  obtain ⟨m5, hm5, h⟩ := Option.bind_eq_some_iff.1 h
  obtain ⟨m6, hm6, h⟩ := Option.bind_eq_some_iff.1 h
  obtain ⟨p3, hp3, h⟩ := Option.bind_eq_some_iff.1 h
  obtain ⟨gp, hgp, h⟩ := Option.bind_eq_some_iff.1 h
  obtain rfl := Option.some.inj h
  have one : ∀ l : SLayer S, l.Frozen → (∀ l' ∈ [l], l'.Frozen) ∨ f.Bijective := fun l hl => .inl (by simpa using hl)
  have b1 : (∀ l ∈ (.mask [0] 29 1 :: m1 : List (SLayer S)), l.Frozen) ∨ f.Bijective :=
    (tutModules_safe hf hm1).imp (fun h l hl => by
      rcases List.mem_cons.1 hl with rfl | hl
      · trivial
      · exact h l hl) id
  unfold TutNet.forward
  simp only [Option.bind_eq_bind]
  refine bind_pick (a := GTensor.mapCh (· ∘ pickPix n f)) (mkGT_map _ (· ∘ pickPix n f) x _) fun x => ?_
  refine bind_pick (a := ETensor.pick f) (numbered_pick b1 _ ⟨n, x⟩) fun y => ?_
  refine bind_pick (a := ETensor.pick f) (numbered_pick (tutModules_safe hf hm2) _ y) fun y => ?_
  refine bind_pick (a := ETensor.pick f) (numbered_pick (one p1 (tutPool_frozen hp1)) _ y) fun y => ?_
  refine bind_pick (a := ETensor.pick f) (numbered_pick (tutModules_safe hf hm3) _ y) fun y => ?_
  refine bind_pick (a := ETensor.pick f) (numbered_pick (tutModules_safe hf hm4) _ y) fun y => ?_
  refine bind_pick (a := ETensor.pick f) (numbered_pick (one p2 (tutPool_frozen hp2)) _ y) fun y => ?_
  refine bind_pick (a := ETensor.pick f) (numbered_pick (tutModules_safe hf hm5) _ y) fun y => ?_
  refine bind_pick (a := ETensor.pick f) (numbered_pick (tutModules_safe hf hm6) _ y) fun y => ?_
  refine bind_pick (a := ETensor.pick f) (layer_pick _ f p3 (.inl (tutPool_frozen hp3)) _ y) fun y => ?_
  refine bind_pick (a := ETensor.pick f) (layer_pick _ f gp (.inl (tutGroupPool_frozen hgp)) _ y) fun y => ?_
  have hl : (y.pick f).x.data.length = y.x.data.length := List.length_map _
  by_cases hc : y.x.data.length * (y.n * y.n) = 64
  · rw [if_pos hc, if_pos (show (y.pick f).x.data.length * ((y.pick f).n * (y.pick f).n) = 64 by rw [hl]; exact hc), flatPixels_pick, fullyNet_pick hf]
    rfl
  · rw [if_neg hc, if_neg (show ¬ (y.pick f).x.data.length * ((y.pick f).n * (y.pick f).n) = 64 by rw [hl]; exact hc)]
    rfl

/-- **C87, one image**: whatever the contents of new memory, in evaluation mode the classes of an image are those computed for a batch with this image only. -/
theorem c87_image {N : ℕ} (hN : 0 < N) {v : TutVals} {net : TutNet} (h : tutorialNet N false v = some net) (x : Pix B 29 → ℝ) (b : B) :
    ∃ y : ℕ → B → ℝ, (∀ junk : ℕ → ℕ → Junk B, (∀ i j, JunkOk (junk i j)) → net.forward junk [x] = some y) ∧
      ∀ junk : ℕ → ℕ → Junk Unit, (∀ i j, JunkOk (junk i j)) → net.forward junk [fun q => x (b, q.2)] = some fun o _ => y o b := by
  obtain ⟨-, y, hy, -⟩ := c87_invariant (fun _ x => x) hN h x
  obtain ⟨-, z, hz, -⟩ := c87_invariant (fun _ x => x) hN h fun q : Pix Unit 29 => x (b, q.2)
  have hj : JunkOk (fun c n => List.replicate c (0 : Pix B n → ℝ)) := fun c n => List.length_replicate
  have e : net.forward _ [fun q : Pix Unit 29 => x (b, q.2)] = _ := c87_pick h (fun _ : Unit => b) (.inl rfl) (fun _ _ c n => List.replicate c 0) [x]
  rw [hy _ fun _ _ => hj, hz _ fun _ _ => pickJunk_ok hj] at e
  refine ⟨y, hy, fun junk hjk => ?_⟩
  rw [hz junk hjk, e]
  rfl

/-- The network of the notebook, on batches of 16 images. -/
example : ∃ v net, tutorialNet 8 false v = some net ∧ ∀ (x : Pix (Fin 16) 29 → ℝ) b, ∃ y : ℕ → Fin 16 → ℝ,
    (∀ junk : ℕ → ℕ → Junk (Fin 16), (∀ i j, JunkOk (junk i j)) → net.forward junk [x] = some y) ∧
      ∀ junk : ℕ → ℕ → Junk Unit, (∀ i j, JunkOk (junk i j)) → net.forward junk [fun q => x (b, q.2)] = some fun o _ => y o b := by
  obtain ⟨d, -, hd⟩ := c87_builds (N := 8) (by norm_num)
  let bv : ℕ → BlockVals := fun n => ⟨List.replicate n 1, someBN⟩
  let v : TutVals := ⟨bv (d 0), bv (d 1), bv (d 2), bv (d 3), bv (d 4), bv (d 5), ⟨0, 0, 1, 1, 0, 0, 1, 0, 0⟩⟩
  obtain ⟨net, h⟩ := Option.isSome_iff_exists.1 ((hd false v).2 ⟨List.length_replicate, List.length_replicate, List.length_replicate, List.length_replicate,
    List.length_replicate, List.length_replicate⟩)
  exact ⟨v, net, h, fun x b => c87_image (by norm_num) h x b⟩

end E2
