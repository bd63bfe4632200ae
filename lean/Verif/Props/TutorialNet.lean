import Verif.Model.TutorialNet
import Verif.Lemmas.WideResNetBuild
import Verif.Props.WideResNet

/-!
# C87: the network of the tutorial is invariant to right angles, for all parameters, in training and evaluation
-/

set_option linter.unusedSectionVars false

namespace E2

open Finset Mat Real

variable {B : Type} [Fintype B] (interp : ℝ → Img → Img)

theorem numbered_snd {M : Type} (ms : List M) : (numbered ms).map Prod.snd = ms := by simp [numbered, List.map_map, Function.comp_def]

theorem numbered_fst {M : Type} (ms : List M) : ((numbered ms).map Prod.fst).Nodup := by
  have : (numbered ms).map Prod.fst = List.range ms.length := by
    simp only [numbered, List.map_map, Function.comp_def, List.zipIdx_map_snd, List.range_eq_range']
  rw [this]
  exact List.nodup_range

/-- The modules of a `SequentialModule` which fit, on images with `n × n` pixels. -/
theorem sequential_step {S : Stage} (hS : StageOk S) (ms : List (SLayer S)) (hne : ms ≠ []) (hfit : ms.IsChain fun a b => a.outTy = b.inTy) {n m : ℕ}
    (hok : NetOk (S.s.space interp) S.rep (S.built interp) ms n m) {x : ETensor ℕ B} (hn : x.n = n) (hx : x.x.WF fun r => (S.rep r).size)
    (hxt : x.x.ty = (ms.head hne).inTy) :
    StepJ (S.s.space interp) S.rep (fun junk : ℕ → Junk B => ∀ i, JunkOk (junk i)) (fun junk => netForward S.rep junk (numbered ms)) x m (ms.getLast hne).outTy := by
  have hne' : numbered ms ≠ [] := by
    intro h
    exact hne (by rw [← numbered_snd ms, h]; rfl)
  have hd : (numbered ms).head hne' = (0, ms.head hne) := by
    cases ms with
    | nil => exact absurd rfl hne
    | cons a l => simp [numbered]
  have hl : ((numbered ms).getLast hne').2 = ms.getLast hne := by
    rw [← List.getLast_map (f := Prod.snd) (h := by simpa using hne')]
    simp only [numbered_snd]
  obtain ⟨y, h1, h2, h3, h4, h5⟩ := c62_network (hS.netSpace interp) (numbered ms) hne' (numbered_fst ms) (by rw [numbered_snd]; exact hfit)
    (by rw [numbered_snd]; exact hok) x hn hx (by rw [hd]; exact hxt)
  exact ⟨y, h1, h2, h3.trans (by rw [hl]), h4, h5⟩

theorem tutConv_ok {S : Stage} (hS : StageOk S) {k p : ℕ} (hk : 0 < k) {inT outT : List ℕ} {w : List ℝ} {l : SLayer S} (h : tutConv S k p inT outT w = some l)
    (hi : inT ≠ []) (ho : outT ≠ []) (n m : ℕ) (hm : n + 2 * p = m + k) :
    l.inTy = inT ∧ l.outTy = outT ∧ l.Ok (S.s.space interp) S.rep (S.built interp) n (1 + m) := by
  classical
  unfold tutConv at h
  cases hM : r2convInit S.s.gen ⟨k, p, 1, 1, .zeros, 1, none, .inl (-1), none, none, none⟩ S.rep inT outT with
  | none => simp [hM] at h
  | some M =>
    rw [hM] at h
    dsimp only at h
    split_ifs at h with hw
    obtain rfl := Option.some.inj h
    refine ⟨rfl, rfl, ?_⟩
    unfold r2convInit at hM
    have hgr : convGroups 1 inT outT = some inT := by simp [convGroups]
    dsimp only at hM
    rw [hgr] at hM
    cases hp : computeBasisParams k 1 (.inl (-1)) none none with
    | none => simp [hp] at hM
    | some q =>
      obtain ⟨rings, sigma, fco, maxFreq⟩ := q
      rw [hp] at hM
      dsimp only at hM
      split_ifs at hM with hall hdim
      obtain rfl := Option.some.inj hM
      have hr : rings = basisRings k 1 none := by
        unfold computeBasisParams at hp
        dsimp only at hp
        split_ifs at hp
        obtain ⟨F', -, h⟩ := Option.map_eq_some_iff.1 hp
        exact (Prod.ext_iff.1 h).1.symm
      have hnd : rings.Nodup := hr ▸ basisRings_nodup _ _ Nat.one_pos _ (by simp)
      refine ⟨⟨hi, ho, fun n _ => (hS.good n).pos, fun n _ => (hS.good n).pos, ?_⟩, ?_, Nat.one_pos, ⟨inT, hgr, fun _ => Exp.pairs_ne_nil hdim, hw⟩, ?_, ?_, ?_⟩
      · intro i hii o hoo
        obtain ⟨l, hl⟩ := Option.ne_none_iff_exists'.1 (hall i hii o hoo)
        simp only [hl, Option.getD_some]
        exact buildKernelBasis_ids hl hnd
      · intro i o b hb
        rcases hl : buildKernelBasis S.s.gen sigma rings (some maxFreq) none (S.rep i) (S.rep o) with _ | l
        · simp [hl] at hb
        · simp only [hl, Option.getD_some] at hb
          exact c66_build_kernel_basis _ _ S.rep [i] [o] (WSpace.genOk interp hS.ok S.rep hS.irr [i] [o]) sigma rings _ _ i o (by simp) (by simp) l hl b hb
      · trivial
      · show convSize n p k 1 1 = some (1 + m)
        unfold convSize
        rw [if_pos (by omega)]
        have : n + 2 * p - 1 * (k - 1) - 1 = m := by omega
        rw [this, Nat.div_one, Nat.add_comm]
      · exact one_dvd _

theorem tutBN_ok {S : Stage} (hS : StageOk S) {t : List ℕ} {tr : Bool} {v : BNVals} {l : SLayer S} (h : tutBN S t tr v = some l) (n : ℕ) :
    l.inTy = t ∧ l.outTy = t ∧ l.Ok (S.s.space interp) S.rep (S.built interp) n n := by
  unfold tutBN at h
  split_ifs at h with ha
  obtain rfl := Option.some.inj h
  exact ⟨rfl, rfl, rfl, accepts_perm interp hS ha⟩

theorem aaFilter_tutorial : aaFilter 0.66 = 5 := by
  unfold aaFilter
  have : round (3 * (0.66 : ℝ)) = 2 := by
    rw [round_eq, Int.floor_eq_iff]
    norm_num
  rw [this]
  rfl

theorem tutPool_ok {S : Stage} {t : List ℕ} {stride : ℕ} {padding : Option ℕ} {l : SLayer S} (h : tutPool S t 0.66 stride padding = some l)
    (hs : 0 < stride) (n m : ℕ) (hm : n + 2 * padding.getD 2 = stride * m + 5) :
    l.inTy = t ∧ l.outTy = t ∧ l.Ok (S.s.space interp) S.rep (S.built interp) n (1 + m) := by
  unfold tutPool at h
  split_ifs at h with ha
  obtain rfl := Option.some.inj h
  refine ⟨rfl, rfl, ?_⟩
  show convSize n _ _ stride 1 = _ ∧ Covers n _ _ stride 1 _
  rw [aaFilter_tutorial]
  have hp : padding.getD ((5 - 1) / 2) = padding.getD 2 := rfl
  rw [hp]
  constructor
  · unfold convSize
    rw [if_pos (by omega)]
    have : n + 2 * padding.getD 2 - 1 * (5 - 1) - 1 = stride * m := by omega
    rw [this, Nat.mul_div_cancel_left _ hs, Nat.add_comm]
  · unfold Covers
    have : (1 + m - 1) * stride = stride * m := by rw [Nat.add_sub_cancel_left, Nat.mul_comm]
    rw [this]
    omega

theorem tutGroupPool_ok {S : Stage} (hS : StageOk S) {t : List ℕ} {l : SLayer S} (h : tutGroupPool S t = some l) (n : ℕ) :
    l.inTy = t ∧ l.outTy = List.replicate t.length 0 ∧ l.Ok (S.s.space interp) S.rep (S.built interp) n n := by
  unfold tutGroupPool at h
  split_ifs at h with ha
  obtain rfl := Option.some.inj h
  exact ⟨rfl, rfl, rfl, ⟨hS.triv.1, fun g _ => hS.triv.2 g⟩, accepts_perm interp hS ha⟩

/-- A block, after other modules which keep the input. -/
theorem tutModules_step {S : Stage} (hS : StageOk S) {tr : Bool} {k p : ℕ} (hk : 0 < k) {inT outT : List ℕ} {v : BlockVals} {ms : List (SLayer S)}
    (h : tutModules S tr k p inT outT v = some ms) (hi : inT ≠ []) (ho : outT ≠ []) (n m : ℕ) (hm : n + 2 * p = m + k) (pre : List (SLayer S))
    (hpre : ∀ l ∈ pre, l.inTy = inT ∧ l.outTy = inT ∧ l.Ok (S.s.space interp) S.rep (S.built interp) n n)
    {x : ETensor ℕ B} (hn : x.n = n) (hx : x.x.WF fun r => (S.rep r).size) (hxt : x.x.ty = inT) :
    StepJ (S.s.space interp) S.rep (fun junk : ℕ → Junk B => ∀ i, JunkOk (junk i)) (fun junk => netForward S.rep junk (numbered (pre ++ ms))) x (1 + m) outT := by
  unfold tutModules at h
  simp only [Option.bind_eq_bind] at h
  obtain ⟨conv, hconv, h⟩ := Option.bind_eq_some_iff.1 h
  obtain ⟨bn, hbn, h⟩ := Option.bind_eq_some_iff.1 h
  obtain ⟨relu, hrelu, h⟩ := Option.bind_eq_some_iff.1 h
  obtain rfl := Option.some.inj h
  obtain ⟨c1, c2, c3⟩ := tutConv_ok interp hS hk hconv hi ho n m hm
  obtain ⟨b1, b2, b3⟩ := tutBN_ok interp hS hbn (1 + m)
  obtain ⟨r1, r2, r3⟩ := wideReLU_ok interp hS hrelu (1 + m)
  have hne : pre ++ [conv, bn, relu] ≠ [] := by simp
  have hok : NetOk (S.s.space interp) S.rep (S.built interp) (pre ++ [conv, bn, relu]) n (1 + m) := by
    clear hne
    induction pre with
    | nil => exact ⟨_, c3, _, b3, _, r3, rfl⟩
    | cons l pre ih => exact ⟨n, (hpre l (by simp)).2.2, ih fun l' hl' => hpre l' (by simp [hl'])⟩
  have hfit : (pre ++ [conv, bn, relu]).IsChain fun a b => a.outTy = b.inTy := by
    clear hne hok
    induction pre with
    | nil => exact .cons_cons (by rw [c2, b1]) (.cons_cons (by rw [b2, r1]) (.singleton _))
    | cons l pre ih =>
      have := ih fun l' hl' => hpre l' (by simp [hl'])
      cases pre with
      | nil => exact .cons_cons (by rw [(hpre l (by simp)).2.1, c1]) this
      | cons l' pre => exact .cons_cons (by rw [(hpre l (by simp)).2.1, (hpre l' (by simp)).1]) this
  have hhead : ((pre ++ [conv, bn, relu]).head hne).inTy = inT := by
    cases pre with
    | nil => exact c1
    | cons l pre => exact (hpre l (by simp)).1
  have := sequential_step interp hS (pre ++ [conv, bn, relu]) hne hfit hok hn hx (by rw [hhead]; exact hxt)
  rwa [show ((pre ++ [conv, bn, relu]).getLast hne).outTy = outT from by simp [r2]] at this

/-- A `SequentialModule` with one module. -/
theorem single_step {S : Stage} (hS : StageOk S) {t t' : List ℕ} {l : SLayer S} {n m : ℕ} (h : l.inTy = t ∧ l.outTy = t' ∧ l.Ok (S.s.space interp) S.rep (S.built interp) n m)
    {x : ETensor ℕ B} (hn : x.n = n) (hx : x.x.WF fun r => (S.rep r).size) (hxt : x.x.ty = t) :
    StepJ (S.s.space interp) S.rep (fun junk : ℕ → Junk B => ∀ i, JunkOk (junk i)) (fun junk => netForward S.rep junk (numbered [l])) x m t' := by
  have := sequential_step (B := B) interp hS [l] (by simp) (.singleton _) ⟨m, h.2.2, rfl⟩ hn hx (by simpa [h.1] using hxt)
  simpa [h.2.1] using this

theorem bare_step {S : Stage} (hS : StageOk S) {t t' : List ℕ} {l : SLayer S} {n m : ℕ} (h : l.inTy = t ∧ l.outTy = t' ∧ l.Ok (S.s.space interp) S.rep (S.built interp) n m)
    {x : ETensor ℕ B} (hn : x.n = n) (hx : x.x.WF fun r => (S.rep r).size) (hxt : x.x.ty = t) :
    Step (S.s.space interp) S.rep (fun junk => l.forward S.rep junk) x m t' := by
  have := layer_step' (hS.netSpace interp) h.2.2 hn hx (hxt.trans h.1.symm)
  rwa [h.2.1] at this

/-- Images with a single pixel and trivial fields do not change. -/
theorem act_pixel {S : Stage} (hS : StageOk S) {g : S.s.El} (hg : (S.s.space interp).G.isEl g) (hq : (S.s.space interp).grid g) {y : ETensor ℕ B} (hn : y.n = 1) {c : ℕ}
    (hy : y.x.WF fun r => (S.rep r).size) (ht : y.x.ty = List.replicate c 0) : y.act (S.s.space interp) S.rep g = y := by
  obtain ⟨τ, t1, -⟩ := (hS.netSpace interp).grid g hg hq
  obtain ⟨m, t, d⟩ := y
  obtain rfl : m = 1 := hn
  dsimp only at ht hy
  rw [act_scalars t1 hS.triv (by rw [ht]; simp) hy]
  have hid : (Pix.move τ : Pix B 1 → Pix B 1) = id := by
    funext q
    exact Prod.ext rfl (Subsingleton.elim _ _)
  rw [hid]
  simp

/-- **C87** for all elements of the group which permute the pixels. -/
theorem c87_invariant {N : ℕ} (hN : 0 < N) {training : Bool} {v : TutVals} {net : TutNet} (h : tutorialNet N training v = some net) (x : Pix B 29 → ℝ) :
    net.S.s = .rot N ∧ ∃ y, (∀ junk : ℕ → ℕ → Junk B, (∀ i j, JunkOk (junk i j)) → net.forward junk [x] = some y) ∧
      ∀ g, (net.S.s.space interp).G.isEl g → (net.S.s.space interp).grid g → ∀ junk : ℕ → ℕ → Junk B, (∀ i j, JunkOk (junk i j)) →
        net.forward junk (movePictures ((net.S.s.space interp).base 29 g) [x]) = some y := by
  unfold tutorialNet at h
  simp only [Option.bind_eq_bind] at h
  obtain ⟨S, hS, h⟩ := Option.bind_eq_some_iff.1 h
  obtain ⟨m1, hm1, h⟩ := Option.bind_eq_some_iff.1 h
  obtain ⟨m2, hm2, h⟩ := Option.bind_eq_some_iff.1 h
  obtain ⟨p1, hp1, h⟩ := Option.bind_eq_some_iff.1 h
  obtain ⟨m3, hm3, h⟩ := Option.bind_eq_some_iff.1 h
  obtain ⟨m4, hm4, h⟩ := Option.bind_eq_some_iff.1 h
  obtain ⟨p2, hp2, h⟩ := Option.bind_eq_some_iff.1 h
  obtain ⟨m5, hm5, h⟩ := Option.bind_eq_some_iff.1 h
  obtain ⟨m6, hm6, h⟩ := Option.bind_eq_some_iff.1 h
  obtain ⟨p3, hp3, h⟩ := Option.bind_eq_some_iff.1 h
  obtain ⟨gp, hgp, h⟩ := Option.bind_eq_some_iff.1 h
  obtain rfl := Option.some.inj h
  obtain ⟨hs, ok⟩ := Stage.new_ok (s := .rot N) hN (by simp) hS
  refine ⟨hs, ?_⟩
  have hw0 : (⟨[0], [x]⟩ : GTensor ℕ (Pix B 29 → ℝ)).WF fun i => (S.rep i).size := ⟨by simp, by simp [typeSize, ok.triv.1]⟩
  have hmk : ∀ z : List (Pix B 29 → ℝ), z.length = 1 → mkGT (fun i => (S.rep i).size) z [0] = some ⟨[0], z⟩ := fun z hz =>
    mkGT_eq_some.2 ⟨by simp [typeSize, ok.triv.1, hz], rfl⟩
  obtain ⟨y1, n1, w1, t1, f1, e1⟩ := tutModules_step interp ok (by norm_num) hm1 (by simp) (by simp) 29 24 (by norm_num) [.mask [0] 29 1]
    (fun l hl => by obtain rfl := List.mem_singleton.1 hl; exact ⟨rfl, rfl, rfl, rfl⟩) (x := ⟨29, [0], [x]⟩) rfl hw0 rfl
  obtain ⟨y2, n2, w2, t2, f2, e2⟩ := tutModules_step interp ok (by norm_num) hm2 (by simp) (by simp) 25 24 (by norm_num) [] (by simp) n1 w1 t1
  obtain ⟨y3, n3, w3, t3, f3, e3⟩ := single_step interp ok (tutPool_ok interp hp1 (by norm_num) 25 12 (by norm_num)) n2 w2 t2
  obtain ⟨y4, n4, w4, t4, f4, e4⟩ := tutModules_step interp ok (by norm_num) hm3 (by simp) (by simp) 13 12 (by norm_num) [] (by simp) n3 w3 t3
  obtain ⟨y5, n5, w5, t5, f5, e5⟩ := tutModules_step interp ok (by norm_num) hm4 (by simp) (by simp) 13 12 (by norm_num) [] (by simp) n4 w4 t4
  obtain ⟨y6, n6, w6, t6, f6, e6⟩ := single_step interp ok (tutPool_ok interp hp2 (by norm_num) 13 6 (by norm_num)) n5 w5 t5
  obtain ⟨y7, n7, w7, t7, f7, e7⟩ := tutModules_step interp ok (by norm_num) hm5 (by simp) (by simp) 7 6 (by norm_num) [] (by simp) n6 w6 t6
  obtain ⟨y8, n8, w8, t8, f8, e8⟩ := tutModules_step interp ok (by norm_num) hm6 (by simp) (by simp) 7 4 (by norm_num) [] (by simp) n7 w7 t7
  obtain ⟨y9, n9, w9, t9, f9, e9⟩ := bare_step interp ok (tutPool_ok interp hp3 (by norm_num) 5 0 (by norm_num)) n8 w8 t8
  obtain ⟨y10, n10, w10, t10, f10, e10⟩ := bare_step interp ok (tutGroupPool_ok interp ok hgp 1) n9 w9 t9
  have hlen : y10.x.data.length * (y10.n * y10.n) = 64 := by
    have h1 : y10.n * y10.n = 1 := by rw [n10]
    rw [h1, w10.2, t10]
    simp [typeSize, ok.triv.1]
  dsimp only [List.cons_append, List.nil_append] at f1 e1 f2 e2 f3 e3 f4 e4 f5 e5 f6 e6 f7 e7 f8 e8 f9 e9 f10 e10
  refine ⟨fullyNet training v.head 64 (flatPixels y10), fun junk hj => ?_, fun g hg hq junk hj => ?_⟩
  · simp only [TutNet.forward, Option.bind_eq_bind]
    rw [hmk [x] rfl, Option.bind_some, f1 _ (hj 0), Option.bind_some, f2 _ (hj 1), Option.bind_some, f3 _ (hj 2), Option.bind_some, f4 _ (hj 3), Option.bind_some,
      f5 _ (hj 4), Option.bind_some, f6 _ (hj 5), Option.bind_some, f7 _ (hj 6), Option.bind_some, f8 _ (hj 7), Option.bind_some, f9 _ (hj 8 0), Option.bind_some,
      f10 _ (hj 9 0), Option.bind_some, if_pos hlen]
  · obtain ⟨τ, hτ, -⟩ := (ok.netSpace interp).grid g hg hq
    have hin : (⟨29, [0], movePictures ((S.s.space interp).base 29 g) [x]⟩ : ETensor ℕ B) = ETensor.act (S.s.space interp) S.rep g ⟨29, [0], [x]⟩ := by
      rw [movePictures_eq hτ]
      exact (act_scalars hτ ok.triv rfl hw0).symm
    simp only [TutNet.forward, Option.bind_eq_bind]
    rw [hmk _ (by simp [movePictures]), Option.bind_some, hin, e1 g hg hq _ (hj 0), Option.bind_some, e2 g hg hq _ (hj 1), Option.bind_some, e3 g hg hq _ (hj 2), Option.bind_some,
      e4 g hg hq _ (hj 3), Option.bind_some, e5 g hg hq _ (hj 4), Option.bind_some, e6 g hg hq _ (hj 5), Option.bind_some, e7 g hg hq _ (hj 6), Option.bind_some,
      e8 g hg hq _ (hj 7), Option.bind_some, e9 g hg hq _ (hj 8 0), Option.bind_some, e10 g hg hq _ (hj 9 0), Option.bind_some,
      act_pixel interp ok hg hq n10 w10 t10, if_pos hlen]

/-- **C87**: the network of the tutorial gives the same values for an image turned by any multiple of a right angle, in training and in evaluation, for all weights,
parameters and statistics and every batch of images. -/
theorem c87_right_angles {training : Bool} {v : TutVals} {net : TutNet} (h : tutorialNet 8 training v = some net) (x : Pix B 29 → ℝ) :
    ∃ y, ∀ junk : ℕ → ℕ → Junk B, (∀ i j, JunkOk (junk i j)) →
      net.forward junk [x] = some y ∧
      net.forward junk [fun q => x (q.1, q.2.2, q.2.1.rev)] = some y ∧
      net.forward junk [fun q => x (q.1, q.2.1.rev, q.2.2.rev)] = some y ∧
      net.forward junk [fun q => x (q.1, q.2.2.rev, q.2.1)] = some y := by
  have turn : ∀ x : Pix B 29 → ℝ, ∃ y, ∀ junk : ℕ → ℕ → Junk B, (∀ i j, JunkOk (junk i j)) →
      net.forward junk [x] = some y ∧ net.forward junk [fun q => x (q.1, q.2.2, q.2.1.rev)] = some y := by
    intro x
    obtain ⟨hs, y, h1, h2⟩ := c87_invariant (fun _ x => x) (by norm_num) h x
    refine ⟨y, fun junk hj => ⟨h1 junk hj, ?_⟩⟩
    obtain ⟨g, g1, g2, g3⟩ := standard_quarter (fun _ x => x) (f := false) (K := 8) (p := 2) (k := 1) (hs.trans (by simp [standardSpace])) (by norm_num) (by norm_num) (by norm_num)
    have := h2 g g1 g2 junk hj
    rw [movePictures_of (m := fun q => (q.2, q.1.rev)) fun x i j => by
      rw [g3, show rot90 29 ((1 : ℕ) : ℤ) x = Img.transp (Img.flip1 29 x) from by simp [rot90]]
      simp only [Img.transp, Img.flip1, Fin.val_rev]
      congr 1
      omega] at this
    exact this
  obtain ⟨y, hy⟩ := turn x
  refine ⟨y, fun junk hj => ?_⟩
  have next : ∀ (u : Pix B 29 → ℝ), net.forward junk [u] = some y → net.forward junk [fun q => u (q.1, q.2.2, q.2.1.rev)] = some y := by
    intro u hu
    obtain ⟨y', hy'⟩ := turn u
    rw [(hy' junk hj).2, ← (hy' junk hj).1, hu]
  have a1 := (hy junk hj).2
  have a2 := next _ a1
  have a3 := next _ a2
  simp only [Fin.rev_rev] at a2 a3
  exact ⟨(hy junk hj).1, a1, a2, a3⟩

/-- **C87, sizes**: other images than 29 × 29 with one channel are refused. -/
theorem c87_refused {N : ℕ} (hN : 0 < N) {training : Bool} {v : TutVals} {net : TutNet} (h : tutorialNet N training v = some net) {n : ℕ} (x : List (Pix B n → ℝ))
    (hx : ¬ (n = 29 ∧ x.length = 1)) (junk : ℕ → ℕ → Junk B) : net.forward junk x = none := by
  unfold tutorialNet at h
  simp only [Option.bind_eq_bind] at h
  obtain ⟨S, hS, h⟩ := Option.bind_eq_some_iff.1 h
  obtain ⟨m1, hm1, h⟩ := Option.bind_eq_some_iff.1 h
  obtain ⟨m2, hm2, h⟩ := Option.bind_eq_some_iff.1 h
  obtain ⟨p1, hp1, h⟩ := Option.bind_eq_some_iff.1 h
  obtain ⟨m3, hm3, h⟩ := Option.bind_eq_some_iff.1 h
  obtain ⟨m4, hm4, h⟩ := Option.bind_eq_some_iff.1 h
  obtain ⟨p2, hp2, h⟩ := Option.bind_eq_some_iff.1 h
  obtain ⟨m5, hm5, h⟩ := Option.bind_eq_some_iff.1 h
  obtain ⟨m6, hm6, h⟩ := Option.bind_eq_some_iff.1 h
  obtain ⟨p3, hp3, h⟩ := Option.bind_eq_some_iff.1 h
  obtain ⟨gp, hgp, h⟩ := Option.bind_eq_some_iff.1 h
  obtain rfl := Option.some.inj h
  obtain ⟨hs, ok⟩ := Stage.new_ok (s := .rot N) hN (by simp) hS
  simp only [TutNet.forward, Option.bind_eq_bind]
  cases hg : mkGT (fun i => (S.rep i).size) x [0] with
  | none => rfl
  | some g =>
    obtain ⟨h1, rfl⟩ := mkGT_eq_some.1 hg
    have hn : n ≠ 29 := fun hn => hx ⟨hn, by simpa [typeSize, ok.triv.1] using h1⟩
    have : netForward S.rep (junk 0) (numbered (.mask [0] 29 1 :: m1)) (⟨n, [0], x⟩ : ETensor ℕ B) = none := by
      unfold netForward
      rw [Option.bind_eq_none_iff]
      intro st hst
      unfold seqForward
      split_ifs with hty
      · have hm : st.mods = (numbered (.mask [0] 29 1 :: m1)).map fun l => (l.1, l.2.toMod S.rep (junk 0 l.1)) := by
          exact ((addModules_spec _ [] ⟨none, none, []⟩ (by
            rw [List.nil_append, List.map_map]
            exact numbered_fst _) rfl rfl rfl (by simp [Fits])).1 st hst).1
        rw [hm]
        simp [numbered, runMods, Layer.toMod, Layer.forward, hn]
      · rfl
    rw [Option.bind_some, this]
    rfl

/-- Weights can be found for a block. -/
theorem tutModules_some {S : Stage} (hS : StageBuilds S) (j p : ℕ) {inT outT : List ℕ} (hi : inT ≠ []) (ho : 1 ∈ outT) :
    ∃ d, 0 < d ∧ ∀ (tr : Bool) (v : BlockVals), v.w.length = d ↔ ∃ ms, tutModules S tr (2 * j + 1) p inT outT v = some ms := by
  obtain ⟨M, hM, hd⟩ := c75_conv hS.gen ⟨2 * j + 1, p, 1, 1, .zeros, 1, none, .inl (-1), none, none, none⟩ j
    ⟨rfl, one_pos, rfl, rfl, rfl, rfl, by simp [cutoffFun, manualFco1]⟩ S.rep inT outT inT (by simp [convGroups]) (fun n _ => hS.plane n) (fun n _ => hS.plane n)
    (hS.share hi (List.ne_nil_of_mem ho) (Or.inr ho))
  refine ⟨M.dim, Nat.pos_of_ne_zero hd, fun tr v => ?_⟩
  unfold tutModules tutConv tutBN wideReLU
  rw [hM, if_pos (hS.accepts outT), if_pos (hS.accepts outT)]
  dsimp only
  by_cases hw : v.w.length = M.dim <;> simp [hw]

/-- **C87, construction**: the network can be built, and each of its six convolutions has a positive number of weights, the only constraint on the parameters. -/
theorem c87_builds {N : ℕ} (hN : 0 < N) : ∃ d : Fin 6 → ℕ, (∀ i, 0 < d i) ∧ ∀ training v,
    (tutorialNet N training v).isSome ↔ v.v1.w.length = d 0 ∧ v.v2.w.length = d 1 ∧ v.v3.w.length = d 2 ∧ v.v4.w.length = d 3 ∧ v.v5.w.length = d 4 ∧ v.v6.w.length = d 5 := by
  obtain ⟨S, hS, -, hb⟩ := Stage.new_some (s := .rot N) hN hN
  obtain ⟨d1, p1, h1⟩ := tutModules_some hb 3 1 (inT := [0]) (outT := List.replicate 24 1) (by simp) (by simp)
  obtain ⟨d2, p2, h2⟩ := tutModules_some hb 2 2 (inT := List.replicate 24 1) (outT := List.replicate 48 1) (by simp) (by simp)
  obtain ⟨d3, p3, h3⟩ := tutModules_some hb 2 2 (inT := List.replicate 48 1) (outT := List.replicate 48 1) (by simp) (by simp)
  obtain ⟨d4, p4, h4⟩ := tutModules_some hb 2 2 (inT := List.replicate 48 1) (outT := List.replicate 96 1) (by simp) (by simp)
  obtain ⟨d5, p5, h5⟩ := tutModules_some hb 2 2 (inT := List.replicate 96 1) (outT := List.replicate 96 1) (by simp) (by simp)
  obtain ⟨d6, p6, h6⟩ := tutModules_some hb 2 1 (inT := List.replicate 96 1) (outT := List.replicate 64 1) (by simp) (by simp)
  refine ⟨![d1, d2, d3, d4, d5, d6], fun i => by fin_cases i <;> assumption, fun tr v => ?_⟩
  have hpool : ∀ t stride padding, ∃ l : SLayer S, tutPool S t 0.66 stride padding = some l := by
    intro t stride padding
    unfold tutPool
    rw [if_pos (by norm_num)]
    exact ⟨_, rfl⟩
  obtain ⟨q1, hq1⟩ := hpool (List.replicate 48 1) 2 none
  obtain ⟨q2, hq2⟩ := hpool (List.replicate 96 1) 2 none
  obtain ⟨q3, hq3⟩ := hpool (List.replicate 64 1) 1 (some 0)
  show _ ↔ _ = d1 ∧ _ = d2 ∧ _ = d3 ∧ _ = d4 ∧ _ = d5 ∧ _ = d6
  rw [h1 tr, h2 tr, h3 tr, h4 tr, h5 tr, h6 tr, Option.isSome_iff_exists]
  unfold tutorialNet
  simp only [Option.bind_eq_bind]
  constructor
  · rintro ⟨net, h⟩
    rw [hS, Option.bind_some] at h
    obtain ⟨m1, hm1, h⟩ := Option.bind_eq_some_iff.1 h
    obtain ⟨m2, hm2, h⟩ := Option.bind_eq_some_iff.1 h
    obtain ⟨p1, hp1, h⟩ := Option.bind_eq_some_iff.1 h
    obtain ⟨m3, hm3, h⟩ := Option.bind_eq_some_iff.1 h
    obtain ⟨m4, hm4, h⟩ := Option.bind_eq_some_iff.1 h
    obtain ⟨p2, hp2, h⟩ := Option.bind_eq_some_iff.1 h
    obtain ⟨m5, hm5, h⟩ := Option.bind_eq_some_iff.1 h
    obtain ⟨m6, hm6, h⟩ := Option.bind_eq_some_iff.1 h
    exact ⟨⟨_, hm1⟩, ⟨_, hm2⟩, ⟨_, hm3⟩, ⟨_, hm4⟩, ⟨_, hm5⟩, ⟨_, hm6⟩⟩
  · rintro ⟨⟨m1, hm1⟩, ⟨m2, hm2⟩, ⟨m3, hm3⟩, ⟨m4, hm4⟩, ⟨m5, hm5⟩, ⟨m6, hm6⟩⟩
    refine ⟨⟨S, tr, .mask [0] 29 1 :: m1, m2, [q1], m3, m4, [q2], m5, m6, q3, .groupPool (List.replicate 64 1) 0, v.head⟩, ?_⟩
    rw [hS, Option.bind_some, hm1, Option.bind_some, hm2, Option.bind_some, hq1, Option.bind_some, hm3, Option.bind_some, hm4, Option.bind_some, hq2, Option.bind_some,
      hm5, Option.bind_some, hm6, Option.bind_some, hq3, Option.bind_some]
    unfold tutGroupPool
    rw [if_pos (hb.accepts _)]
    rfl

/-- The network of the notebook exists. -/
example : ∃ v net, tutorialNet 8 false v = some net := by
  obtain ⟨d, -, h⟩ := c87_builds (N := 8) (by norm_num)
  let b : ℕ → BlockVals := fun n => ⟨List.replicate n 1, ⟨none, 1, fun _ => 1, fun _ => 0, ⟨0, fun _ => (0, 1)⟩⟩⟩
  exact ⟨⟨b (d 0), b (d 1), b (d 2), b (d 3), b (d 4), b (d 5), ⟨fun _ _ => 1, fun _ => 0, 1, fun _ => 1, fun _ => 0, fun _ => 0, fun _ => 1, fun _ _ => 1, fun _ => 0⟩⟩,
    Option.isSome_iff_exists.1 ((h false _).2 (by simp [b]))⟩

end E2
