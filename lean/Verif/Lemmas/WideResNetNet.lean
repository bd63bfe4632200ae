import Verif.Lemmas.WideResNetLink

/-!
Lemmas for C74: the layers and the whole network.
-/

set_option linter.unusedSectionVars false

namespace E2

open Finset Mat Real

variable {B : Type} [Fintype B] (interp : ℝ → Img → Img)

theorem wideLoop_last {S : Stage} {rate : ℝ} {mainT innerT outT : List ℕ} {nb : ℤ} {vals : ℕ → WideVals} (strides : List ℕ) (h0 : strides ≠ []) (i : ℕ) (inT : List ℕ)
    (hi : (i : ℤ) + strides.length = nb) (bs : List (WideBlock S)) (t : List ℕ) (h : wideLoop S rate mainT innerT outT nb vals i strides inT = some (bs, t)) :
    t = outT := by
  induction strides generalizing i inT bs t with
  | nil => exact absurd rfl h0
  | cons s strides ih =>
    unfold wideLoop at h
    simp only [Option.bind_eq_bind] at h
    obtain ⟨b, hb, h⟩ := Option.bind_eq_some_iff.1 h
    obtain ⟨⟨bs', t'⟩, hr, h⟩ := Option.bind_eq_some_iff.1 h
    obtain ⟨rfl, rfl⟩ := Prod.ext_iff.1 (Option.some.inj h)
    rw [List.length_cons] at hi
    push_cast at hi
    by_cases hs : strides = []
    · subst hs
      rw [wideLoop, if_pos (by rw [List.length_nil] at hi; push_cast at hi; omega)] at hr
      exact (Prod.ext_iff.1 (Option.some.inj hr)).2.symm
    · exact ih hs (i + 1) _ (by push_cast; omega) bs' t' hr

theorem regularType_some {S : Stage} {planes : ℕ} {fp : Bool} {t : List ℕ} (h : S.regularType planes fp = some t) : t ≠ [] ∧ t = List.replicate t.length 1 := by
  unfold Stage.regularType at h
  split at h
  · obtain ⟨h1, h2⟩ := mkType_eq_some.1 h
    rw [h2]
    exact ⟨h1, by simp⟩
  · cases h

theorem trivialType_some {S : Stage} {planes : ℕ} {fp : Bool} {t : List ℕ} (h : S.trivialType planes fp = some t) : t ≠ [] ∧ t = List.replicate t.length 0 := by
  unfold Stage.trivialType at h
  obtain ⟨h1, h2⟩ := mkType_eq_some.1 h
  rw [h2]
  exact ⟨h1, by simp⟩

theorem wideLayer_step {S : Stage} (hS : StageOk S) {rate : ℝ} {fp : Bool} {planes : ℕ} {nb : ℤ} {stride : ℕ} {tt : Bool} {vals : ℕ → WideVals} {inT : List ℕ}
    {l : List (WideBlock S) × List ℕ} (h : wideLayer S rate fp planes nb stride tt vals inT = some l) (hi : inT ≠ []) (hs : 0 < stride) :
    l.2 ≠ [] ∧ (tt = true → 1 ≤ nb → l.2 = List.replicate l.2.length 0) ∧
      ∀ (m : ℕ) (x : ETensor ℕ B), x.n = 1 + stride * m → x.x.WF (fun i => (S.rep i).size) → x.x.ty = inT →
      StepJ (S.s.space interp) S.rep (fun junk : ℕ → ℕ → Junk B => ∀ i j, JunkOk (junk i j)) (fun junk => wideSeq l.1 junk) x (1 + m) l.2 := by
  unfold wideLayer at h
  simp only [Option.bind_eq_bind] at h
  obtain ⟨mainT, hmain, h⟩ := Option.bind_eq_some_iff.1 h
  obtain ⟨innerT, hinner, h⟩ := Option.bind_eq_some_iff.1 h
  have hsplit : ∃ outT, outT ≠ [] ∧ (tt = true → outT = List.replicate outT.length 0) ∧
      wideLoop S rate mainT innerT outT nb vals 0 (stride :: List.replicate (nb - 1).toNat 1) inT = some l := by
    cases tt with
    | true =>
      rw [if_pos rfl] at h
      obtain ⟨outT, hout, h⟩ := Option.bind_eq_some_iff.1 h
      exact ⟨outT, (trivialType_some hout).1, fun _ => (trivialType_some hout).2, h⟩
    | false =>
      rw [if_neg (by simp)] at h
      obtain ⟨outT, hout, h⟩ := Option.bind_eq_some_iff.1 h
      exact ⟨outT, (regularType_some hout).1, by simp, h⟩
  obtain ⟨outT, ho, htriv, h⟩ := hsplit
  have hm := (regularType_some hmain).1
  have hin := (regularType_some hinner).1
  have hst : ∀ s ∈ stride :: List.replicate (nb - 1).toNat 1, 0 < s := by
    intro s hs'
    rcases List.mem_cons.1 hs' with rfl | hs'
    · exact hs
    · rw [List.eq_of_mem_replicate hs']; exact Nat.one_pos
  refine ⟨(wideLoop_step interp (B := B) hS rate hm hin ho nb vals _ hst 0 inT hi l.1 l.2 h).1, fun h1 h2 => ?_, fun m x hn hx hxt => ?_⟩
  · have := wideLoop_last _ (by simp) 0 inT (by simp; omega) l.1 l.2 h
    rw [this]
    exact htriv h1
  · exact wideSeq_step interp hS rate hm hin ho nb vals _ (by simp) hst 0 inT hi l.1 l.2 h m x (by simpa using hn) hx hxt

theorem linkLayer_ok (hp : Periodic interp) {comp : Comps} (hc : CompsOk comp) {S : Stage} (hS : StageOk S) {f : Bool} {M : Option ℕ} {inT : List ℕ} (hi : inT ≠ [])
    {k : (T : Stage) × Link S T × List ℕ} (h : linkLayer comp S f M inT = some k) :
    StageOk k.1 ∧ k.2.2 ≠ [] ∧ LinkOk interp B k.2.1 inT k.2.2 := by
  cases M with
  | some M => exact restrictLayer_ok interp hp hc hS hi h
  | none =>
    obtain rfl := Option.some.inj h
    refine ⟨hS, hi, fun _ h => h, fun _ _ h => h, fun _ _ _ _ => rfl, fun x hx hxt => ⟨x, rfl, hx, hxt, fun _ _ => rfl, fun _ _ _ _ _ => rfl⟩⟩

theorem head_move {net : WideNet} {m : ℕ} {t : List ℕ} {d : List (Pix B m → ℝ)} (τ : GSym) :
    net.head (⟨m, t, d.map fun v => v ∘ Pix.move τ⟩ : ETensor ℕ B) = net.head (⟨m, t, d⟩ : ETensor ℕ B) := by
  funext o b
  unfold WideNet.head
  dsimp only
  congr 1
  refine Finset.sum_congr rfl fun c _ => ?_
  congr 2
  have hget : (d.map fun v => v ∘ Pix.move τ).getD c 0 = (d.getD c 0) ∘ Pix.move τ := by
    rw [List.getD_eq_getElem?_getD, List.getD_eq_getElem?_getD, List.getElem?_map]
    cases d[c]? <;> rfl
  rw [hget]
  rw [← Fintype.sum_prod_type' (f := fun i j => ((d.getD c 0) ∘ Pix.move τ) (b, i, j)), ← Fintype.sum_prod_type' (f := fun i j => (d.getD c 0) (b, i, j))]
  exact Equiv.sum_comp (τ.perm m) fun q => (d.getD c 0) (b, q.1, q.2)

/-- The pictures moved by an action on images, channel by channel. -/
noncomputable def movePictures {n : ℕ} (base : Img → Img) (x : List (Pix B n → ℝ)) : List (Pix B n → ℝ) := x.map fun v q => base (pixImg v q.1) q.2.1 q.2.2

theorem act_scalars {El : Type} {Sp : Space El} {rep : ℕ → Repr El} {g : El} {τ : GSym}
    (hτ : ∀ n x i j, i < n → j < n → Sp.base n g x i j = x (τ.ap n (i, j)).1 (τ.ap n (i, j)).2) (h0 : (rep 0).size = 1 ∧ ∀ e, (rep 0).mat e 0 0 = 1)
    {n : ℕ} {t : List ℕ} (ht : t = List.replicate t.length 0) {d : List (Pix B n → ℝ)} (hx : (⟨t, d⟩ : GTensor ℕ (Pix B n → ℝ)).WF fun i => (rep i).size) :
    ETensor.act Sp rep g ⟨n, t, d⟩ = ⟨n, t, d.map fun v => v ∘ Pix.move τ⟩ := by
  rw [act_eq rep hτ]
  have := transform_trivial (fun r => (rep r).size) (fun r => (rep r).mat g) (Pix.move τ) (⟨t, d⟩ : GTensor ℕ (Pix B n → ℝ)) hx fun r hr => by
    rw [show r = 0 from by
      have hr' : r ∈ List.replicate t.length 0 := ht ▸ hr
      exact List.eq_of_mem_replicate hr']
    exact ⟨h0.1, h0.2 g⟩
  dsimp only
  rw [← this]
  rfl

theorem movePictures_eq {El : Type} {Sp : Space El} {g : El} {τ : GSym} (hτ : ∀ n x i j, i < n → j < n → Sp.base n g x i j = x (τ.ap n (i, j)).1 (τ.ap n (i, j)).2)
    {n : ℕ} (x : List (Pix B n → ℝ)) : movePictures (Sp.base n g) x = x.map fun v => v ∘ Pix.move τ := by
  refine List.map_congr_left fun v _ => ?_
  funext q
  rw [hτ n _ _ _ q.2.1.2 q.2.2.2]
  have h := (τ.fin n q.2)
  show pixImg v q.1 _ _ = v (q.1, τ.fin n q.2)
  unfold pixImg
  rw [dif_pos ⟨(τ.fin n q.2).1.2, (τ.fin n q.2).2.2⟩]
  rfl

theorem WideArgs.space_ok {a : WideArgs} {s : WSpace} (h : a.space = some s) : s.group.Ok := by
  unfold WideArgs.space at h
  split_ifs at h with h1 h2 h3 h4
  all_goals obtain rfl := Option.some.inj h
  · exact Nat.pos_of_ne_zero h1
  · exact two_pos
  · exact Nat.pos_of_ne_zero h1
  · exact one_pos

theorem wideResNet_eq (comp : Comps) (a : WideArgs) (v : WideParams) : wideResNet comp a v =
    if (a.depth - 4) % 6 = 0 then a.space.bind fun s => if a.r ≤ 3 then
      (Stage.new s []).bind fun S1 => (S1.regularType 16 true).bind fun r2 => (wideConv S1 2 1 [0, 0, 0] r2 v.conv1).bind fun conv1 =>
      (wideLayer S1 a.rate a.fixparams (16 * a.widen) ((a.depth - 4) / 6) a.initialStride false v.layer1 r2).bind fun l1 =>
      (linkLayer comp S1 a.f a.restrict1 l1.2).bind fun k1 =>
      (wideLayer k1.1 a.rate a.fixparams (32 * a.widen) ((a.depth - 4) / 6) 2 false v.layer2 k1.2.2).bind fun l2 =>
      (linkLayer comp k1.1 a.f a.restrict2 l2.2).bind fun k2 =>
      (wideLayer k2.1 a.rate a.fixparams (64 * a.widen) ((a.depth - 4) / 6) 2 true v.layer3 k2.2.2).bind fun l3 =>
      (wideBN k2.1 l3.2 v.bn).bind fun bn => (wideReLU k2.1 l3.2).bind fun relu =>
      some ⟨S1, k1.1, k2.1, conv1, l1.1, k1.2.1, l2.1, k2.2.1, l3.1, bn, relu, l3.2, v.linear⟩ else none else none := by
  unfold wideResNet
  by_cases h1 : (a.depth - 4) % 6 = 0
  · rw [if_pos h1, if_pos h1]
    refine congrArg (Option.bind a.space) (funext fun s => ?_)
    by_cases h2 : a.r ≤ 3
    · rw [if_pos h2, if_pos h2]
      rfl
    · rw [if_neg h2, if_neg h2]
      rfl
  · rw [if_neg h1, if_neg h1]
    rfl

/-- The last stage. -/
theorem wideResNet_ok (hp : Periodic interp) {comp : Comps} (hc : CompsOk comp) {a : WideArgs} {v : WideParams} {net : WideNet} (h : wideResNet comp a v = some net)
    (hs : 0 < a.initialStride) : StageOk net.S3 := by
  rw [wideResNet_eq] at h
  by_cases hdep : (a.depth - 4) % 6 = 0
  swap
  · rw [if_neg hdep] at h
    cases h
  rw [if_pos hdep] at h
  obtain ⟨s, hsp, h⟩ := Option.bind_eq_some_iff.1 h
  by_cases hr : a.r ≤ 3
  swap
  · rw [if_neg hr] at h
    cases h
  rw [if_pos hr] at h
  obtain ⟨S1, hS1, h⟩ := Option.bind_eq_some_iff.1 h
  obtain ⟨r2, hr2, h⟩ := Option.bind_eq_some_iff.1 h
  obtain ⟨conv1, hconv1, h⟩ := Option.bind_eq_some_iff.1 h
  obtain ⟨l1, hl1, h⟩ := Option.bind_eq_some_iff.1 h
  obtain ⟨k1, hk1, h⟩ := Option.bind_eq_some_iff.1 h
  obtain ⟨l2, hl2, h⟩ := Option.bind_eq_some_iff.1 h
  obtain ⟨k2, hk2, h⟩ := Option.bind_eq_some_iff.1 h
  obtain ⟨l3, hl3, h⟩ := Option.bind_eq_some_iff.1 h
  obtain ⟨bn, hbn, h⟩ := Option.bind_eq_some_iff.1 h
  obtain ⟨relu, hrelu, h⟩ := Option.bind_eq_some_iff.1 h
  obtain rfl := Option.some.inj h
  obtain ⟨-, ok1⟩ := Stage.new_ok (WideArgs.space_ok hsp) (by simp) hS1
  have hr2' := (regularType_some hr2).1
  obtain ⟨ne1, -, st1⟩ := wideLayer_step interp (B := Unit) ok1 hl1 hr2' hs
  obtain ⟨ok2, ne1', lk1⟩ := linkLayer_ok interp (B := Unit) hp hc ok1 ne1 hk1
  obtain ⟨ne2, -, st2⟩ := wideLayer_step interp (B := Unit) ok2 hl2 ne1' two_pos
  obtain ⟨ok3, ne2', lk2⟩ := linkLayer_ok interp (B := Unit) hp hc ok2 ne2 hk2
  exact ok3

set_option maxHeartbeats 1000000 in
/-- The whole network. -/
theorem wideResNet_invariant (hp : Periodic interp) {comp : Comps} (hc : CompsOk comp) {a : WideArgs} {v : WideParams} {net : WideNet}
    (h : wideResNet comp a v = some net) (hd : 10 ≤ a.depth) (hs : 0 < a.initialStride) (q : ℕ) {n : ℕ} (hn : n = 1 + a.initialStride * (4 * q))
    (x : List (Pix B n → ℝ)) (hx : x.length = 3) :
    ∃ y, (∀ junk : ℕ → ℕ → ℕ → Junk B, (∀ i j k, JunkOk (junk i j k)) → net.forward junk x = some y) ∧
      ∀ g, (net.S3.s.space interp).G.isEl g → (net.S3.s.space interp).grid g → ∀ junk : ℕ → ℕ → ℕ → Junk B, (∀ i j k, JunkOk (junk i j k)) →
        net.forward junk (movePictures ((net.S3.s.space interp).base n g) x) = some y := by
  rw [wideResNet_eq] at h
  by_cases hdep : (a.depth - 4) % 6 = 0
  swap
  · rw [if_neg hdep] at h
    cases h
  rw [if_pos hdep] at h
  obtain ⟨s, hsp, h⟩ := Option.bind_eq_some_iff.1 h
  by_cases hr : a.r ≤ 3
  swap
  · rw [if_neg hr] at h
    cases h
  rw [if_pos hr] at h
  obtain ⟨S1, hS1, h⟩ := Option.bind_eq_some_iff.1 h
  obtain ⟨r2, hr2, h⟩ := Option.bind_eq_some_iff.1 h
  obtain ⟨conv1, hconv1, h⟩ := Option.bind_eq_some_iff.1 h
  obtain ⟨l1, hl1, h⟩ := Option.bind_eq_some_iff.1 h
  obtain ⟨k1, hk1, h⟩ := Option.bind_eq_some_iff.1 h
  obtain ⟨l2, hl2, h⟩ := Option.bind_eq_some_iff.1 h
  obtain ⟨k2, hk2, h⟩ := Option.bind_eq_some_iff.1 h
  obtain ⟨l3, hl3, h⟩ := Option.bind_eq_some_iff.1 h
  obtain ⟨bn, hbn, h⟩ := Option.bind_eq_some_iff.1 h
  obtain ⟨relu, hrelu, h⟩ := Option.bind_eq_some_iff.1 h
  obtain rfl := Option.some.inj h
  obtain ⟨-, ok1⟩ := Stage.new_ok (WideArgs.space_ok hsp) (by simp) hS1
  have hr2' := (regularType_some hr2).1
  obtain ⟨ne1, -, st1⟩ := wideLayer_step interp (B := B) ok1 hl1 hr2' hs
  obtain ⟨ok2, ne1', lk1⟩ := linkLayer_ok interp (B := B) hp hc ok1 ne1 hk1
  obtain ⟨ne2, -, st2⟩ := wideLayer_step interp (B := B) ok2 hl2 ne1' two_pos
  obtain ⟨ok3, ne2', lk2⟩ := linkLayer_ok interp (B := B) hp hc ok2 ne2 hk2
  obtain ⟨ne3, tr3, st3⟩ := wideLayer_step interp (B := B) ok3 hl3 ne2' two_pos
  have tr3' := tr3 rfl (by omega)
  -- the tensors
  have hw0 : (⟨[0, 0, 0], x⟩ : GTensor ℕ (Pix B n → ℝ)).WF fun i => (S1.rep i).size := ⟨by simp, by simp [typeSize, ok1.triv.1, hx]⟩
  have hmk : ∀ z : List (Pix B n → ℝ), z.length = 3 → mkGT (fun i => (S1.rep i).size) z [0, 0, 0] = some ⟨[0, 0, 0], z⟩ := fun z hz =>
    mkGT_eq_some.2 ⟨by simp [typeSize, ok1.triv.1, hz], rfl⟩
  obtain ⟨ci, co, ck⟩ := wideConv_ok interp ok1 hconv1 (by simp) hr2' (a.initialStride * (4 * q)) Nat.one_pos
  rw [one_mul] at ck
  obtain ⟨y1, n1, w1, t1, f1, e1⟩ := layer_step' (ok1.netSpace interp) ck (x := ⟨n, [0, 0, 0], x⟩) hn hw0 ci.symm
  rw [co] at t1
  obtain ⟨y2, n2, w2, t2, f2, e2⟩ := st1 (4 * q) y1 n1 w1 t1
  obtain ⟨y3, n3, w3, t3, f3, e3⟩ := lk1.step y2 w2 t2
  obtain ⟨y4, n4, w4, t4, f4, e4⟩ := st2 (2 * q) y3 (by rw [n3, n2]; ring) w3 t3
  obtain ⟨y5, n5, w5, t5, f5, e5⟩ := lk2.step y4 w4 t4
  obtain ⟨y6, n6, w6, t6, f6, e6⟩ := st3 q y5 (by rw [n5, n4]) w5 t5
  obtain ⟨bi, bo, bk⟩ := wideBN_ok interp ok3 hbn (1 + q)
  obtain ⟨y7, n7, w7, t7, f7, e7⟩ := layer_step' (ok3.netSpace interp) bk n6 w6 (by rw [t6, bi])
  obtain ⟨ri, ro, rk⟩ := wideReLU_ok interp ok3 hrelu (1 + q)
  obtain ⟨y8, n8, w8, t8, f8, e8⟩ := layer_step' (ok3.netSpace interp) rk n7 w7 (by rw [t7, bo, ri])
  rw [ro] at t8
  dsimp only at f1 e1 f2 e2 f4 e4 f6 e6 f7 e7 f8 e8
  refine ⟨WideNet.head (⟨S1, k1.1, k2.1, conv1, l1.1, k1.2.1, l2.1, k2.2.1, l3.1, bn, relu, l3.2, v.linear⟩ : WideNet) y8, fun junk hj => ?_, fun g hg hq junk hj => ?_⟩
  · simp only [WideNet.forward, Option.bind_eq_bind]
    rw [hmk x hx, Option.bind_some, f1 _ (hj 0 0 0), Option.bind_some, f2 _ (hj 1), Option.bind_some, f3 _ (hj 2 0 0), Option.bind_some, f4 _ (hj 3), Option.bind_some,
      f5 _ (hj 4 0 0), Option.bind_some, f6 _ (hj 5), Option.bind_some, f7 _ (hj 6 0 0), Option.bind_some, f8 _ (hj 6 0 1), Option.bind_some]
  · have hg2 := lk2.mem g hg
    have hq2 := lk2.grid g hg hq
    have hg1 := lk1.mem _ hg2
    have hq1 := lk1.grid _ hg2 hq2
    obtain ⟨τ1, hτ1, -⟩ := (ok1.netSpace interp).grid _ hg1 hq1
    obtain ⟨τ3, hτ3, -⟩ := (ok3.netSpace interp).grid g hg hq
    have hmv : movePictures ((k2.1.s.space interp).base n g) x = x.map fun v => v ∘ Pix.move τ1 := by
      rw [← movePictures_eq hτ1 x]
      unfold movePictures
      refine List.map_congr_left fun v _ => ?_
      funext q
      rw [lk2.base g hg, lk1.base _ hg2]
    have hin : (⟨n, [0, 0, 0], movePictures ((k2.1.s.space interp).base n g) x⟩ : ETensor ℕ B)
        = ETensor.act (S1.s.space interp) S1.rep (k1.2.1.parent (k2.2.1.parent g)) ⟨n, [0, 0, 0], x⟩ := by
      rw [hmv]
      exact (act_scalars hτ1 ok1.triv rfl hw0).symm
    simp only [WideNet.forward, Option.bind_eq_bind]
    rw [hmk _ (by simp [movePictures, hx]), Option.bind_some, hin, e1 _ hg1 hq1 _ (hj 0 0 0), Option.bind_some, e2 _ hg1 hq1 _ (hj 1), Option.bind_some, e3 _ hg2 hq2 _ (hj 2 0 0),
      Option.bind_some, e4 _ hg2 hq2 _ (hj 3), Option.bind_some, e5 _ hg hq _ (hj 4 0 0), Option.bind_some, e6 _ hg hq _ (hj 5), Option.bind_some,
      e7 _ hg hq _ (hj 6 0 0), Option.bind_some, e8 _ hg hq _ (hj 6 0 1), Option.bind_some]
    obtain ⟨m8, t8', d8⟩ := y8
    dsimp only at t8 w8 n8
    subst t8
    rw [act_scalars hτ3 ok3.triv tr3' w8]
    exact congrArg some (head_move τ3)

end E2
