import Verif.Props.WideResNetBuilds
import Verif.Props.BatchIndependence

/-!
The wide residual networks in evaluation mode (C74): the classes of an image do not depend on the other images of the batch.
-/

namespace E2

variable {B B' : Type} [Fintype B] [Fintype B']

theorem expand_pick (f : B' → B) (n : ℕ) (x : ETensor ℕ B) :
    expand n (x.pick f).plain = (expand n x.plain).map fun d => d.map (· ∘ pickPix n f) := by
  obtain ⟨m, t, d⟩ := x
  unfold expand
  by_cases h : m = n
  · subst h
    rw [dif_pos (show (ETensor.pick f ⟨m, t, d⟩ : ETensor ℕ B').plain.n = m from rfl), dif_pos (show (⟨m, t, d⟩ : ETensor ℕ B).plain.n = m from rfl)]
    rfl
  · rw [dif_neg (show ¬ (ETensor.pick f ⟨m, t, d⟩ : ETensor ℕ B').plain.n = n from h), dif_neg (show ¬ (⟨m, t, d⟩ : ETensor ℕ B).plain.n = n from h)]
    by_cases h1 : m = 1
    · rw [dif_pos (show (ETensor.pick f ⟨m, t, d⟩ : ETensor ℕ B').plain.n = 1 from h1), dif_pos (show (⟨m, t, d⟩ : ETensor ℕ B).plain.n = 1 from h1)]
      simp only [Option.map_some, Option.some.injEq, ETensor.plain, ETensor.pick, List.map_map]
      rfl
    · rw [dif_neg (show ¬ (ETensor.pick f ⟨m, t, d⟩ : ETensor ℕ B').plain.n = 1 from h1), dif_neg (show ¬ (⟨m, t, d⟩ : ETensor ℕ B).plain.n = 1 from h1)]
      rfl

theorem iaddE_pick (f : B' → B) (a b : ETensor ℕ B) : iaddE (a.pick f) (b.pick f) = (iaddE a b).map (ETensor.pick f) := by
  obtain ⟨n, t, d⟩ := a
  unfold iaddE inE
  by_cases h : t = b.x.ty
  · rw [if_pos (show (ETensor.pick f ⟨n, t, d⟩ : ETensor ℕ B').x.ty = (b.pick f).x.ty from h), if_pos h]
    show Option.map _ (Option.map _ (expand n (b.pick f).plain)) = _
    rw [expand_pick]
    simp only [Option.map_map]
    cases expand n b.plain with
    | none => rfl
    | some v =>
      simp only [Option.map_some, Function.comp_apply, ETensor.pick, List.zipWith_map, List.map_zipWith]
      rfl
  · rw [if_neg (show ¬ (ETensor.pick f ⟨n, t, d⟩ : ETensor ℕ B').x.ty = (b.pick f).x.ty from h), if_neg h]
    rfl

/-- The modules of a block do not use statistics of the batch. -/
def WideBlock.Frozen {S : Stage} (b : WideBlock S) : Prop :=
  b.bn1.Frozen ∧ b.relu1.Frozen ∧ b.conv1.Frozen ∧ b.bn2.Frozen ∧ b.relu2.Frozen ∧ b.dropout.Frozen ∧ b.conv2.Frozen ∧ ∀ l ∈ b.shortcut, l.Frozen

theorem wideBN_frozen {S : Stage} {t : List ℕ} {v : BNVals} {l : SLayer S} (h : wideBN S t v = some l) : l.Frozen := by
  unfold wideBN at h
  split_ifs at h
  obtain rfl := Option.some.inj h
  exact ⟨rfl, rfl⟩

theorem wideReLU_frozen {S : Stage} {t : List ℕ} {l : SLayer S} (h : wideReLU S t = some l) : l.Frozen := by
  unfold wideReLU at h
  split_ifs at h
  obtain rfl := Option.some.inj h
  trivial

theorem wideDropout_frozen {S : Stage} {t : List ℕ} {p : ℝ} {l : SLayer S} (h : wideDropout S t p = some l) : l.Frozen := by
  unfold wideDropout at h
  split_ifs at h
  obtain rfl := Option.some.inj h
  trivial

theorem wideConv_frozen {S : Stage} {p stride : ℕ} {inT outT : List ℕ} {w : List ℝ} {l : SLayer S} (h : wideConv S p stride inT outT w = some l) : l.Frozen := by
  unfold wideConv at h
  split at h
  · exact absurd h (by simp)
  · split_ifs at h
    obtain rfl := Option.some.inj h
    trivial

theorem wideBasic_frozen {S : Stage} {inT innerT outT : List ℕ} {rate : ℝ} {stride : ℕ} {v : WideVals} {b : WideBlock S}
    (h : wideBasic S inT innerT outT rate stride v = some b) : b.Frozen := by
  unfold wideBasic at h
  simp only [Option.bind_eq_bind, Option.bind_eq_some_iff] at h
  obtain ⟨bn1, h1, relu1, h2, conv1, h3, bn2, h4, relu2, h5, dropout, h6, conv2, h7, h8⟩ := h
  have key : ∀ sc : Option (SLayer S), (∀ l ∈ sc, l.Frozen) → some (⟨inT, outT, bn1, relu1, conv1, bn2, relu2, dropout, conv2, sc⟩ : WideBlock S) = some b → b.Frozen := by
    intro sc hsc e
    obtain rfl := Option.some.inj e
    exact ⟨wideBN_frozen h1, wideReLU_frozen h2, wideConv_frozen h3, wideBN_frozen h4, wideReLU_frozen h5, wideDropout_frozen h6, wideConv_frozen h7, hsc⟩
  split_ifs at h8 with hc
  · obtain ⟨sc, hs, e⟩ := Option.bind_eq_some_iff.1 h8
    obtain ⟨l', hl', rfl⟩ := Option.map_eq_some_iff.1 hs
    refine key _ (fun l hl => ?_) e
    obtain rfl := Option.some.inj (show some l' = some l from hl)
    exact wideConv_frozen hl'
  · exact key none (fun l hl => absurd hl (by simp)) h8

theorem bind_pick {X X' Y Y' : Type} {a : X → X'} {c : Y → Y'} {o : Option X} {o' : Option X'} (h : o' = o.map a) {k : X → Option Y} {k' : X' → Option Y'}
    (hk : ∀ y, k' (a y) = (k y).map c) : o'.bind k' = (o.bind k).map c := by
  subst h
  cases o with
  | none => rfl
  | some y => exact hk y

theorem block_pick {S : Stage} {b : WideBlock S} (h : b.Frozen) (f : B' → B) (junk : ℕ → Junk B) (x : ETensor ℕ B) :
    b.forward (fun k => pickJunk f (junk k)) (x.pick f) = (b.forward junk x).map (ETensor.pick f) := by
  obtain ⟨f1, f2, f3, f4, f5, f6, f7, f8⟩ := h
  have step : ∀ (l : SLayer S), l.Frozen → ∀ (J : Junk B) (x : ETensor ℕ B) (k : ETensor ℕ B → Option (ETensor ℕ B)) (k' : ETensor ℕ B' → Option (ETensor ℕ B')),
      (∀ y, k' (y.pick f) = (k y).map (ETensor.pick f)) →
      (l.forward S.rep (pickJunk f J) (x.pick f)).bind k' = ((l.forward S.rep J x).bind k).map (ETensor.pick f) :=
    fun l hl J x k k' hk => bind_pick (layer_pick S.rep f l (.inl hl) J x) hk
  unfold WideBlock.forward
  simp only [Option.bind_eq_bind]
  refine step _ f1 _ _ _ _ fun x1 => step _ f2 _ _ _ _ fun xn => step _ f3 _ _ _ _ fun y1 => step _ f4 _ _ _ _ fun y2 => step _ f5 _ _ _ _ fun y3 =>
    step _ f6 _ _ _ _ fun y4 => step _ f7 _ _ _ _ fun out => ?_
  cases hs : b.shortcut with
  | none => exact iaddE_pick f out x
  | some l => exact step l (f8 l hs) _ _ _ _ fun sc => iaddE_pick f out sc

theorem wideSeq_pick {S : Stage} {bs : List (WideBlock S)} (h : ∀ b ∈ bs, b.Frozen) (f : B' → B) (junk : ℕ → ℕ → Junk B) (x : ETensor ℕ B) :
    wideSeq bs (fun i k => pickJunk f (junk i k)) (x.pick f) = (wideSeq bs junk x).map (ETensor.pick f) := by
  unfold wideSeq seqNewArgs
  refine seq_rel (a := ETensor.pick f) (fun _ => rfl) ?_ x
  rw [List.zipIdx_map, List.zipIdx_map, List.map_map, List.map_map, List.forall₂_map_left_iff, List.forall₂_map_right_iff, List.forall₂_same]
  rintro ⟨⟨b, i⟩, j⟩ hb
  have hb' : b ∈ bs := by
    have h1 := List.fst_mem_of_mem_zipIdx hb
    exact List.fst_mem_of_mem_zipIdx h1
  exact ⟨rfl, rfl, rfl, fun x => block_pick (h b hb') f (junk i) x⟩

theorem disForward_map {P P' R R' N : Type} [Fintype P] [Fintype P'] [DecidableEq R] [DecidableEq N] (σ : P' → P) (sz : R → ℕ) (sz' : R' → ℕ) (name : R → N) (dis : R → Mat × List R')
    (uniq inType : List R) (junk : List (P → ℝ)) (x : GTensor R (P → ℝ)) :
    disForward sz sz' name dis uniq inType (junk.map (· ∘ σ)) (x.mapCh (· ∘ σ)) = (disForward sz sz' name dis uniq inType junk x).map (GTensor.mapCh (· ∘ σ)) := by
  unfold disForward
  cases (disOutType name dis uniq inType).bind mkType with
  | none => rfl
  | some outType =>
    dsimp only
    by_cases ht : x.ty = inType
    · rw [if_pos ht, if_pos (show (x.mapCh (· ∘ σ)).ty = inType from ht)]
      split_ifs with hv
      · simp only [GTensor.mapCh]
        rw [fieldLoop_map (· ∘ σ) (· ∘ σ) x.data _ _ _ _
          (fun n => eachField (((byName name uniq n).map sz).getD 0) fun _ fld =>
            chAct (((byName name uniq n).map sz).getD 0) (((byName name uniq n).map fun r => (dis r).1).getD fun _ _ => 0) fld) _
          (fun l k fld => eachField_map _ _ _ _ _ (fun k fld => chAct_map _ _ σ fld) k fld)]
        cases fieldLoop x.data _ _ _ _
          (fun n => eachField (((byName name uniq n).map sz).getD 0) fun _ fld =>
            chAct (((byName name uniq n).map sz).getD 0) (((byName name uniq n).map fun r => (dis r).1).getD fun _ _ => 0) fld) _ 0 junk with
        | none => rfl
        | some y => exact mkGT_map _ _ _ _
      · rfl
    · rw [if_neg ht, if_neg (show ¬ (x.mapCh (· ∘ σ)).ty = inType from ht)]
      rfl

theorem restrictGT_map {V W R R' : Type} (g : V → W) (sz' : R' → ℕ) (restr : R → Option R') (x : GTensor R V) :
    restrictGT sz' restr (x.mapCh g) = (restrictGT sz' restr x).map (GTensor.mapCh g) := by
  unfold restrictGT
  show ((x.ty.mapM restr).bind fun t => (mkType t).bind fun t => mkGT sz' (x.data.map g) t) = _
  cases x.ty.mapM restr with
  | none => rfl
  | some t =>
    simp only [Option.bind_some]
    cases mkType t with
    | none => rfl
    | some t => exact mkGT_map _ _ _ _

theorem link_pick {S T : Stage} (l : Link S T) (f : B' → B) (junk : Junk B) (x : ETensor ℕ B) :
    l.forward (pickJunk f junk) (x.pick f) = (l.forward junk x).map (ETensor.pick f) := by
  cases l with
  | none => rfl
  | restrict fields parent r Q c =>
    rw [Link.forward, Link.forward]
    by_cases ht : x.x.ty = List.replicate fields 1
    · rw [if_pos ht, if_pos (show (x.pick f).x.ty = List.replicate fields 1 from ht)]
      have h1 := restrictGT_map (· ∘ pickPix x.n f) Repr.size (fun _ : ℕ => some r) x.x
      refine Eq.trans (congrArg _ (bind_pick (c := GTensor.mapCh (· ∘ pickPix x.n f)) h1 fun y => ?_)) (map_pick f x.n _)
      classical
      exact disForward_map (pickPix x.n f) Repr.size _ _ _ _ _ (junk (fields * r.size) x.n) y
    · rw [if_neg ht, if_neg (show ¬ (x.pick f).x.ty = List.replicate fields 1 from ht)]
      rfl

theorem wideLoop_frozen {S : Stage} {rate : ℝ} {mainT innerT outT : List ℕ} {nb : ℤ} {vals : ℕ → WideVals} (strides : List ℕ) (i : ℕ) (inT : List ℕ)
    {r : List (WideBlock S) × List ℕ} (h : wideLoop S rate mainT innerT outT nb vals i strides inT = some r) : ∀ b ∈ r.1, b.Frozen := by
  induction strides generalizing i inT r with
  | nil =>
    obtain rfl := Option.some.inj h
    simp
  | cons s l ih =>
    rw [wideLoop] at h
    simp only [Option.bind_eq_bind, Option.bind_eq_some_iff] at h
    obtain ⟨b, hb, r', hr', e⟩ := h
    obtain rfl := Option.some.inj e
    intro b' hb'
    rcases List.mem_cons.1 hb' with rfl | hb'
    · exact wideBasic_frozen hb
    · exact ih _ _ hr' b' hb'

theorem wideLayer_frozen {S : Stage} {rate : ℝ} {fix : Bool} {planes : ℕ} {nb : ℤ} {stride : ℕ} {triv : Bool} {vals : ℕ → WideVals} {inT : List ℕ}
    {r : List (WideBlock S) × List ℕ} (h : wideLayer S rate fix planes nb stride triv vals inT = some r) : ∀ b ∈ r.1, b.Frozen := by
  unfold wideLayer at h
  obtain ⟨mainT, -, h⟩ := Option.bind_eq_some_iff.1 h
  obtain ⟨innerT, -, h⟩ := Option.bind_eq_some_iff.1 h
  split_ifs at h <;> obtain ⟨outT, -, h⟩ := Option.bind_eq_some_iff.1 h <;> exact wideLoop_frozen _ _ _ h

theorem head_pick (net : WideNet) (f : B' → B) (x : ETensor ℕ B) : net.head (x.pick f) = fun o b => net.head x o (f b) := by
  funext o b
  unfold WideNet.head
  congr 1
  refine Finset.sum_congr rfl fun c _ => ?_
  have e : ∀ i j : Fin x.n, (x.pick f).x.data.getD c 0 (b, i, j) = x.x.data.getD c 0 (f b, i, j) := by
    intro i j
    show (x.x.data.map fun v q => v (f q.1, q.2)).getD c 0 (b, i, j) = _
    simp only [List.getD_eq_getElem?_getD, List.getElem?_map]
    cases x.x.data[c]? <;> rfl
  congr 2
  exact Finset.sum_congr rfl fun i _ => Finset.sum_congr rfl fun j _ => e i j

/-- **C74**: a wide residual network in evaluation mode does the same with some of the images of a batch, in any order and any number of times, as with the whole batch:
it fails on both or returns the classes of the chosen images. -/
theorem c74_pick {comp : Comps} {a : WideArgs} {v : WideParams} {net : WideNet} (h : wideResNet comp a v = some net) (f : B' → B) (junk : ℕ → ℕ → ℕ → Junk B) {n : ℕ}
    (x : List (Pix B n → ℝ)) :
    net.forward (fun i j k => pickJunk f (junk i j k)) (x.map fun v q => v (f q.1, q.2)) = (net.forward junk x).map fun y o b => y o (f b) := by
  rw [wideResNet_eq] at h
  by_cases hdep : (a.depth - 4) % 6 = 0
  swap
  · rw [if_neg hdep] at h
    cases h
  rw [if_pos hdep] at h
  obtain ⟨s, hsp, h⟩ := Option.bind_eq_some_iff.1 h
  by_cases hr : a.r ≤ 3
  swap
  · rw [if_neg hr] at h
    cases h
  rw [if_pos hr] at h
  obtain ⟨S1, hS1, h⟩ := Option.bind_eq_some_iff.1 h
  obtain ⟨r2, hr2, h⟩ := Option.bind_eq_some_iff.1 h
  obtain ⟨conv1, hconv1, h⟩ := Option.bind_eq_some_iff.1 h
  obtain ⟨l1, hl1, h⟩ := Option.bind_eq_some_iff.1 h
  obtain ⟨k1, hk1, h⟩ := Option.bind_eq_some_iff.1 h
  obtain ⟨l2, hl2, h⟩ := Option.bind_eq_some_iff.1 h
  obtain ⟨k2, hk2, h⟩ := Option.bind_eq_some_iff.1 h
  obtain ⟨l3, hl3, h⟩ := Option.bind_eq_some_iff.1 h
  obtain ⟨bn, hbn, h⟩ := Option.bind_eq_some_iff.1 h
  obtain ⟨relu, hrelu, h⟩ := Option.bind_eq_some_iff.1 h
  obtain rfl := Option.some.inj h
  unfold WideNet.forward
  simp only [Option.bind_eq_bind]
  refine bind_pick (a := GTensor.mapCh (· ∘ pickPix n f)) (mkGT_map _ (· ∘ pickPix n f) x _) fun x => ?_
  refine bind_pick (a := ETensor.pick f) (layer_pick S1.rep f conv1 (.inl (wideConv_frozen hconv1)) _ ⟨n, x⟩) fun y => ?_
  refine bind_pick (a := ETensor.pick f) (wideSeq_pick (wideLayer_frozen hl1) f _ y) fun y => ?_
  refine bind_pick (a := ETensor.pick f) (link_pick _ f _ y) fun y => ?_
  refine bind_pick (a := ETensor.pick f) (wideSeq_pick (wideLayer_frozen hl2) f _ y) fun y => ?_
  refine bind_pick (a := ETensor.pick f) (link_pick _ f _ y) fun y => ?_
  refine bind_pick (a := ETensor.pick f) (wideSeq_pick (wideLayer_frozen hl3) f _ y) fun y => ?_
  refine bind_pick (a := ETensor.pick f) (layer_pick _ f bn (.inl (wideBN_frozen hbn)) _ y) fun y => ?_
  refine bind_pick (a := ETensor.pick f) (layer_pick _ f relu (.inl (wideReLU_frozen hrelu)) _ y) fun y => ?_
  exact congrArg some (head_pick _ f y)

/-- **C74, one image**: whatever the contents of new memory, the classes of an image are those computed for a batch with this image only. -/
theorem c74_image {comp : Comps} (hc : CompsOk comp) {a : WideArgs} {v : WideParams} {net : WideNet} (h : wideResNet comp a v = some net) (hd : 10 ≤ a.depth)
    (hs : 0 < a.initialStride) {n q : ℕ} (hn : n = 1 + a.initialStride * (4 * q)) (x : List (Pix B n → ℝ)) (hx : x.length = 3) (b : B) :
    ∃ y : ℕ → B → ℝ, (∀ junk : ℕ → ℕ → ℕ → Junk B, (∀ i j k, JunkOk (junk i j k)) → net.forward junk x = some y) ∧
      ∀ junk : ℕ → ℕ → ℕ → Junk Unit, (∀ i j k, JunkOk (junk i j k)) → net.forward junk (x.map fun v q => v (b, q.2)) = some fun o _ => y o b := by
  obtain ⟨y, hy, -⟩ := c74_invariant_partial (fun _ x => x) (fun _ _ => rfl) hc h hd hs hn x hx
  obtain ⟨z, hz, -⟩ := c74_invariant_partial (fun _ x => x) (fun _ _ => rfl) hc h hd hs hn (x.map fun v (q : Pix Unit n) => v (b, q.2)) (by rw [List.length_map, hx])
  have hj : JunkOk (fun c n => List.replicate c (0 : Pix B n → ℝ)) := fun c n => List.length_replicate
  have e := c74_pick h (fun _ : Unit => b) (fun _ _ _ c n => List.replicate c 0) x
  rw [hy _ fun _ _ _ => hj, hz _ fun _ _ _ => pickJunk_ok hj] at e
  refine ⟨y, hy, fun junk hjk => ?_⟩
  rw [hz junk hjk, e]
  rfl

/-- A network of depth 28 with restrictions, on batches of five images of 33 pixels a side. -/
example : ∃ comp a v net, CompsOk comp ∧ wideResNet comp a v = some net ∧ a.r = 3 ∧ ∀ (x : List (Pix (Fin 5) 33 → ℝ)), x.length = 3 → ∀ b,
    ∃ y : ℕ → Fin 5 → ℝ, (∀ junk : ℕ → ℕ → ℕ → Junk (Fin 5), (∀ i j k, JunkOk (junk i j k)) → net.forward junk x = some y) ∧
      ∀ junk : ℕ → ℕ → ℕ → Junk Unit, (∀ i j k, JunkOk (junk i j k)) → net.forward junk (x.map fun v q => v (b, q.2)) = some fun o _ => y o b := by
  obtain ⟨comp, hc⟩ := exists_comps
  obtain ⟨-, -, -, ⟨v, net, h⟩, -⟩ := c74_named hc true
  exact ⟨comp, _, v, net, hc, h, rfl, fun x hx b => c74_image hc h (by norm_num) (by norm_num) (q := 8) (by norm_num) x hx b⟩

end E2
