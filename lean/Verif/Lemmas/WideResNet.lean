import Verif.Model.WideResNet
import Verif.Props.Tags
import Verif.Props.Program
import Verif.Props.R2ConvInit
import Verif.Props.SpaceRestrict
import Verif.Props.DisentangleModule
import Verif.Props.Reorder

/-!
Lemmas for C74: the stages of a wide residual network, its convolutions, blocks, layers and restrictions.
-/

set_option linter.unusedSectionVars false

namespace E2

open Finset Mat Real

variable {B : Type} [Fintype B] (interp : ℝ → Img → Img)

namespace WSpace

theorem space_G (s : WSpace) : (s.space interp).G = s.group.grp := by cases s <;> rfl

theorem gridAction {s : WSpace} (h : s.group.Ok) : (s.space interp).GridAction := by
  cases s with
  | trivial => exact trivialSpace_grid
  | rot N => exact rotSpace_grid interp N h
  | flip axis => exact flipSpace_grid interp axis
  | flipRot N axis => exact flipRotSpace_grid interp N axis

theorem invOk {s : WSpace} (h : s.group.Ok) : (s.space interp).G.InvOk := by
  rw [space_G]
  exact GName.invOk h

variable {F : Type} [LinearOrder F]

theorem genOk {s : WSpace} (h : s.group.Ok) (rep : F → Repr s.El) (hr : ∀ n, (rep n).WF ∧ ∀ i ∈ (rep n).irreps, s.group.IsIrr i) (inT outT : List F) :
    GenOk (s.space interp) s.gen rep inT outT := by
  intro mf mo bas hb i _ o _ radials
  have h1 := hr i
  have h2 := hr o
  cases s with
  | trivial =>
    obtain ⟨b, hcb, rfl⟩ := Option.map_eq_some_iff.1 hb
    obtain ⟨S, hS, -, -, hK⟩ := c21_cyclic_kernels 1 (by norm_num) (rep i) (rep o) h1.1 h2.1 h1.2 h2.2 b.1 b.2 (checkBounds_some hcb) radials
    refine ⟨S, hS, fun k hk g hg p => ?_⟩
    obtain rfl := cyclic_one hg
    have h := hK k hk 0 hg p
    dsimp only at h
    rw [show E2.rot (((0 : ℤ) : ℝ) * (2 * π / (1 : ℕ))) = id from by rw [Int.cast_zero, zero_mul]; exact funext rot_zero] at h
    exact h
  | rot N =>
    obtain ⟨b, hcb, rfl⟩ := Option.map_eq_some_iff.1 hb
    obtain ⟨S, hS, -, -, hK⟩ := c21_cyclic_kernels N h (rep i) (rep o) h1.1 h2.1 h1.2 h2.2 b.1 b.2 (checkBounds_some hcb) radials
    exact ⟨S, hS, hK⟩
  | flip axis =>
    obtain ⟨b, hcb, rfl⟩ := Option.map_eq_some_iff.1 hb
    obtain ⟨S, hS, -, -, hK⟩ := c21_flip_kernels axis (rep i) (rep o) h1.1 h2.1 h1.2 h2.2 b.1 b.2 (checkBounds_some hcb) radials
    exact ⟨S, hS, hK⟩
  | flipRot N axis =>
    obtain ⟨b, hcb, rfl⟩ := Option.map_eq_some_iff.1 hb
    obtain ⟨S, hS, -, -, hK⟩ := c21_dihedral_kernels N h axis (rep i) (rep o) h1.1 h2.1 h1.2 h2.2 b.1 b.2 (checkBounds_some hcb) radials
    exact ⟨S, hS, hK⟩

theorem biasOk {s : WSpace} (h : s.group.Ok) (rep : F → Repr s.El) (hr : ∀ n, (rep n).WF ∧ ∀ i ∈ (rep n).irreps, s.group.IsIrr i) (outT : List F) :
    BiasOk (s.space interp).G rep outT := by
  cases s with
  | trivial => exact c26_cyclic 1 h rep outT fun n _ => hr n
  | rot N => exact c26_cyclic N h rep outT fun n _ => hr n
  | flip axis => exact c26_cyclic 2 h rep outT fun n _ => hr n
  | flipRot N axis => exact c26_dihedral N h rep outT fun n _ => hr n

end WSpace

/-- The representations of a stage are good, the first one is trivial. -/
structure StageOk (S : Stage) : Prop where
  good : ∀ i, Good true S.s.group (S.rep i) (S.tags i)
  triv : (S.rep 0).size = 1 ∧ ∀ e, (S.rep 0).mat e 0 0 = 1

theorem StageOk.ok {S : Stage} (h : StageOk S) : S.s.group.Ok := (h.good 0).ok

theorem stageOk_mk {S : Stage} (ht : Good true S.s.group S.triv.1 S.triv.2) (hr : Good true S.s.group S.reg.1 S.reg.2)
    (hx : ∀ p ∈ S.extra, Good true S.s.group p.1 p.2) (h0 : S.triv.1.size = 1 ∧ ∀ e, S.triv.1.mat e 0 0 = 1) : StageOk S := by
  refine ⟨fun i => ?_, h0⟩
  match i with
  | 0 => exact ht
  | 1 => exact hr
  | i + 2 =>
    show Good true S.s.group (S.extra.getD i S.triv).1 (S.extra.getD i S.triv).2
    rw [List.getD_eq_getElem?_getD]
    rcases hi : S.extra[i]? with _ | p
    · exact ht
    · exact hx p (List.mem_of_getElem? hi)

/-- The kernels satisfy the constraint. -/
def Stage.built (S : Stage) (basis : ℕ → ℕ → List (BasisAttr S.s.El × (ℝ × ℝ → Mat))) (_ : BasisAttr S.s.El → AttrId) : Prop :=
  ∀ i o, ∀ b ∈ basis i o,
    KernelConstraint (S.s.space interp).G (S.s.space interp).act (S.rep o).size (S.rep i).size (S.rep o).mat (S.rep i).mat b.2

theorem StageOk.irr {S : Stage} (h : StageOk S) : ∀ n, (S.rep n).WF ∧ ∀ i ∈ (S.rep n).irreps, S.s.group.IsIrr i :=
  fun n => ⟨(h.good n).wf, (h.good n).irr⟩

theorem StageOk.netSpace {S : Stage} (h : StageOk S) : NetSpace (S.s.space interp) S.rep (S.built interp) where
  grid := WSpace.gridAction interp h.ok
  one := by
    have hg := h.ok
    generalize S.s = s at hg
    cases s with
    | trivial => exact (Cyclic.lawful (N := 1) hg).one_mem
    | rot N => exact (Cyclic.lawful hg).one_mem
    | flip axis => exact (Cyclic.lawful (N := 2) hg).one_mem
    | flipRot N axis => exact (Dihedral.lawful hg).one_mem
  pos r := (h.good r).pos
  isRep r := by rw [WSpace.space_G]; exact (h.good r).isRep
  conv basis ident inT outT hb hi := by
    have hfc : ∀ inG outG, FiltersConstrained (S.s.space interp).G (S.s.space interp).act S.rep inG outG basis ident := by
      intro inG outG hi' L points keep shape0 inIdx outIdx E hE hone w hw
      exact c23_filter_constraint _ _ S.rep inG outG L points basis keep shape0 ident inIdx outIdx hi' (fun i _ o _ b hb' => hb i o b hb') E hE hone w hw
    have hrep : ∀ n ∈ inT, IsRep (S.s.space interp).G (S.rep n).size (S.rep n).mat := fun n _ => by rw [WSpace.space_G]; exact (h.good n).isRep
    exact ⟨c25_conv _ (WSpace.gridAction interp h.ok) (WSpace.invOk interp h.ok) S.rep inT outT basis ident hi (fun inG _ => hfc inG outT) hrep
        (WSpace.biasOk interp h.ok S.rep h.irr outT),
      c61_conv_partial _ (WSpace.gridAction interp h.ok) (WSpace.invOk interp h.ok) S.rep inT outT basis ident hi (fun outG _ => hfc inT outG) hrep
        (WSpace.biasOk interp h.ok S.rep h.irr outT)⟩

/-! ### The modules -/

theorem wideConv_ok {S : Stage} (hS : StageOk S) {p stride : ℕ} {inT outT : List ℕ} {w : List ℝ} {l : SLayer S} (h : wideConv S p stride inT outT w = some l)
    (hi : inT ≠ []) (ho : outT ≠ []) (m : ℕ) (hs : 0 < stride) :
    l.inTy = inT ∧ l.outTy = outT ∧ l.Ok (S.s.space interp) S.rep (S.built interp) (1 + stride * m) (1 + m) := by
  classical
  unfold wideConv at h
  cases hM : r2convInit S.s.gen ⟨2 * p + 1, p, stride, 1, .zeros, 1, none, .inr (fun r => 3 * r), none, none, none⟩ S.rep inT outT with
  | none => simp [hM] at h
  | some M =>
    rw [hM] at h
    dsimp only at h
    split_ifs at h with hw
    obtain rfl := Option.some.inj h
    refine ⟨rfl, rfl, ?_⟩
    unfold r2convInit at hM
    have hgr : convGroups 1 inT outT = some inT := by simp [convGroups]
    dsimp only at hM
    rw [hgr] at hM
    cases hp : computeBasisParams (2 * p + 1) 1 (.inr fun r => 3 * r) none none with
    | none => simp [hp] at hM
    | some q =>
      obtain ⟨rings, sigma, fco, maxFreq⟩ := q
      rw [hp] at hM
      dsimp only at hM
      split_ifs at hM with hall hdim
      obtain rfl := Option.some.inj hM
      have hr : rings = basisRings (2 * p + 1) 1 none := by
        unfold computeBasisParams at hp
        dsimp only at hp
        split_ifs at hp
        obtain ⟨F', -, h⟩ := Option.map_eq_some_iff.1 hp
        exact (Prod.ext_iff.1 h).1.symm
      have hnd : rings.Nodup := hr ▸ basisRings_nodup _ _ Nat.one_pos _ (by simp)
      refine ⟨⟨hi, ho, fun n _ => (hS.good n).pos, fun n _ => (hS.good n).pos, ?_⟩, ?_, Nat.one_pos, ⟨inT, hgr, fun _ => Exp.pairs_ne_nil hdim, hw⟩, ?_, ?_, ?_⟩
      · intro i hii o hoo
        obtain ⟨l, hl⟩ := Option.ne_none_iff_exists'.1 (hall i hii o hoo)
        simp only [hl, Option.getD_some]
        exact buildKernelBasis_ids hl hnd
      · intro i o b hb
        rcases hl : buildKernelBasis S.s.gen sigma rings (some maxFreq) none (S.rep i) (S.rep o) with _ | l
        · simp [hl] at hb
        · simp only [hl, Option.getD_some] at hb
          exact c66_build_kernel_basis _ _ S.rep [i] [o] (WSpace.genOk interp hS.ok S.rep hS.irr [i] [o]) sigma rings _ _ i o (by simp) (by simp) l hl b hb
      · trivial
      · show convSize (1 + stride * m) p (2 * p + 1) stride 1 = some (1 + m)
        unfold convSize
        rw [if_pos (by omega)]
        have : 1 + stride * m + 2 * p - 1 * (2 * p + 1 - 1) - 1 = stride * m := by omega
        rw [this, Nat.mul_div_cancel_left _ hs, Nat.add_comm]
      · show stride ∣ 1 + stride * m + 2 * p - 1 * (2 * p + 1 - 1) - 1
        have : 1 + stride * m + 2 * p - 1 * (2 * p + 1 - 1) - 1 = stride * m := by omega
        rw [this]
        exact dvd_mul_right _ _

theorem accepts_perm {S : Stage} (hS : StageOk S) {t : List ℕ} (h : accepts S.tags .pointwise t = true) :
    ∀ r ∈ t, ∀ g, (S.s.space interp).G.isEl g → IsPerm (S.rep r).size ((S.rep r).mat g) := by
  intro r hr g hg
  rw [WSpace.space_G] at hg
  exact (hS.good r).tagOk .pointwise (accepts_mem S.tags h r hr) (fun _ => trivial) g hg

theorem wideBN_ok {S : Stage} (hS : StageOk S) {t : List ℕ} {v : BNVals} {l : SLayer S} (h : wideBN S t v = some l) (n : ℕ) :
    l.inTy = t ∧ l.outTy = t ∧ l.Ok (S.s.space interp) S.rep (S.built interp) n n := by
  unfold wideBN at h
  split_ifs at h with ha
  obtain rfl := Option.some.inj h
  exact ⟨rfl, rfl, rfl, accepts_perm interp hS ha⟩

theorem wideReLU_ok {S : Stage} (hS : StageOk S) {t : List ℕ} {l : SLayer S} (h : wideReLU S t = some l) (n : ℕ) :
    l.inTy = t ∧ l.outTy = t ∧ l.Ok (S.s.space interp) S.rep (S.built interp) n n := by
  unfold wideReLU at h
  split_ifs at h with ha
  obtain rfl := Option.some.inj h
  exact ⟨rfl, rfl, rfl, accepts_perm interp hS ha⟩

theorem wideDropout_ok {S : Stage} {t : List ℕ} {p : ℝ} {l : SLayer S} (h : wideDropout S t p = some l) (n : ℕ) :
    l.inTy = t ∧ l.outTy = t ∧ l.Ok (S.s.space interp) S.rep (S.built interp) n n := by
  unfold wideDropout at h
  split_ifs at h with ha
  obtain rfl := Option.some.inj h
  exact ⟨rfl, rfl, rfl⟩

/-! ### One block -/

variable {F El : Type} [LinearOrder F]

/-- `Step` with any kind of new memory. -/
def StepJ {J : Type} (Sp : Space El) (rep : F → Repr El) (ok : J → Prop) (fwd : J → ETensor F B → Option (ETensor F B)) (x : ETensor F B) (m : ℕ) (t : List F) : Prop :=
  ∃ y : ETensor F B, y.n = m ∧ y.x.WF (fun r => (rep r).size) ∧ y.x.ty = t ∧ (∀ j, ok j → fwd j x = some y) ∧
    ∀ g, Sp.G.isEl g → Sp.grid g → ∀ j, ok j → fwd j (x.act Sp rep g) = some (y.act Sp rep g)

theorem iaddE_step {Sp : Space El} (hgrid : Sp.GridAction) {rep : ℕ → Repr El} {a b : ETensor ℕ B} (hn : a.n = b.n) (ht : a.x.ty = b.x.ty)
    (ha : a.x.WF fun r => (rep r).size) (hb : b.x.WF fun r => (rep r).size) :
    ∃ z : ETensor ℕ B, z.n = a.n ∧ z.x.WF (fun r => (rep r).size) ∧ z.x.ty = a.x.ty ∧ iaddE a b = some z ∧
      ∀ g, Sp.G.isEl g → Sp.grid g → iaddE (a.act Sp rep g) (b.act Sp rep g) = some (z.act Sp rep g) := by
  have hop : ((· + ·) : ℝ → ℝ → ℝ) = fun u v => u + 1 * v := by funext u v; rw [one_mul]
  obtain ⟨d, hd⟩ : ∃ d, inE (fun u v => u + 1 * v) a b = some d := by
    obtain ⟨n, b⟩ := b
    dsimp only at hn ht hb
    subst hn
    exact ⟨_, by rw [inE, if_pos ht, show expand a.n (ETensor.plain ⟨a.n, b⟩) = _ from expand_self ⟨a.n, b⟩]; rfl⟩
  have hl : d.length = typeSize (fun r => (rep r).size) a.x.ty := (inE_act (ρ := fun _ => 0) (τ := ⟨false, false, false⟩) 1 ha hb hd).1
  refine ⟨⟨a.n, a.x.ty, d⟩, rfl, ⟨ha.1, hl⟩, rfl, by rw [iaddE, hop, hd]; rfl, fun g hg hq => ?_⟩
  obtain ⟨τ, hτ, -⟩ := hgrid g hg hq
  rw [act_eq rep hτ, act_eq rep hτ, act_eq rep hτ, iaddE, hop]
  have := (inE_act (ρ := fun r => (rep r).mat g) (τ := τ) 1 ha hb hd).2
  simp only [trE] at this
  rw [this]
  rfl

variable {A I : Type} [DecidableEq I]

theorem layer_step' {Sp : Space El} {rep : F → Repr El} {built : (F → F → List (A × (ℝ × ℝ → Mat))) → (A → I) → Prop} (hS : NetSpace Sp rep built)
    {l : Layer F A I} {n m : ℕ} (hl : l.Ok Sp rep built n m) {x : ETensor F B} (hn : x.n = n) (hx : x.x.WF fun r => (rep r).size) (hxt : x.x.ty = l.inTy) :
    Step Sp rep (fun junk => l.forward rep junk) x m l.outTy := by
  subst hn
  exact layer_step hS l hl x.x hx hxt

theorem wideBasic_step {S : Stage} (hS : StageOk S) {inT innerT outT : List ℕ} {rate : ℝ} {stride : ℕ} {v : WideVals} {b : WideBlock S}
    (h : wideBasic S inT innerT outT rate stride v = some b) (hi : inT ≠ []) (hm : innerT ≠ []) (ho : outT ≠ []) (hs : 0 < stride) :
    b.inT = inT ∧ b.outT = outT ∧ ∀ (m : ℕ) (x : ETensor ℕ B), x.n = 1 + stride * m → x.x.WF (fun i => (S.rep i).size) → x.x.ty = inT →
      StepJ (S.s.space interp) S.rep (fun junk : ℕ → Junk B => ∀ i, JunkOk (junk i)) (fun junk => b.forward junk) x (1 + m) outT := by
  have hN := hS.netSpace interp
  unfold wideBasic at h
  simp only [Option.bind_eq_bind] at h
  obtain ⟨bn1, hbn1, h⟩ := Option.bind_eq_some_iff.1 h
  obtain ⟨relu1, hrelu1, h⟩ := Option.bind_eq_some_iff.1 h
  obtain ⟨conv1, hconv1, h⟩ := Option.bind_eq_some_iff.1 h
  obtain ⟨bn2, hbn2, h⟩ := Option.bind_eq_some_iff.1 h
  obtain ⟨relu2, hrelu2, h⟩ := Option.bind_eq_some_iff.1 h
  obtain ⟨dropout, hdropout, h⟩ := Option.bind_eq_some_iff.1 h
  obtain ⟨conv2, hconv2, h⟩ := Option.bind_eq_some_iff.1 h
  have hsplit : ∃ sc, (if stride ≠ 1 ∨ inT ≠ outT then (wideConv S 0 stride inT outT v.ws).map some else some none) = some sc ∧
      b = ⟨inT, outT, bn1, relu1, conv1, bn2, relu2, dropout, conv2, sc⟩ := by
    split_ifs at h ⊢ with hc
    · obtain ⟨sc, hsc, h⟩ := Option.bind_eq_some_iff.1 h
      exact ⟨sc, hsc, (Option.some.inj h).symm⟩
    · exact ⟨none, rfl, (Option.some.inj h).symm⟩
  obtain ⟨shortcut, hshortcut, rfl⟩ := hsplit
  refine ⟨rfl, rfl, fun m x hxn hx hxt => ?_⟩
  obtain ⟨i1, o1, k1⟩ := wideBN_ok interp hS hbn1 (1 + stride * m)
  obtain ⟨x1, n1, w1, t1, f1, e1⟩ := layer_step' hN k1 hxn hx (by rw [hxt, i1])
  obtain ⟨i2, o2, k2⟩ := wideReLU_ok interp hS hrelu1 (1 + stride * m)
  obtain ⟨xn, n2, w2, t2, f2, e2⟩ := layer_step' hN k2 n1 w1 (by rw [t1, o1, i2])
  obtain ⟨i3, o3, k3⟩ := wideConv_ok interp hS hconv1 hi hm (stride * m) Nat.one_pos
  rw [one_mul] at k3
  obtain ⟨y1, n3, w3, t3, f3, e3⟩ := layer_step' hN k3 n2 w2 (by rw [t2, o2, i3])
  obtain ⟨i4, o4, k4⟩ := wideBN_ok interp hS hbn2 (1 + stride * m)
  obtain ⟨y2, n4, w4, t4, f4, e4⟩ := layer_step' hN k4 n3 w3 (by rw [t3, o3, i4])
  obtain ⟨i5, o5, k5⟩ := wideReLU_ok interp hS hrelu2 (1 + stride * m)
  obtain ⟨y3, n5, w5, t5, f5, e5⟩ := layer_step' hN k5 n4 w4 (by rw [t4, o4, i5])
  obtain ⟨i6, o6, k6⟩ := wideDropout_ok interp hdropout (1 + stride * m)
  obtain ⟨y4, n6, w6, t6, f6, e6⟩ := layer_step' hN k6 n5 w5 (by rw [t5, o5, i6])
  obtain ⟨i7, o7, k7⟩ := wideConv_ok interp hS hconv2 hm ho m hs
  obtain ⟨out, n7, w7, t7, f7, e7⟩ := layer_step' hN k7 n6 w6 (by rw [t6, o6, i7])
  rw [o7] at t7
  split_ifs at hshortcut with hc
  · obtain ⟨l, hl, rfl⟩ := Option.map_eq_some_iff.1 hshortcut
    obtain ⟨i8, o8, k8⟩ := wideConv_ok interp hS hl hi ho m hs
    obtain ⟨sc, n8, w8, t8, f8, e8⟩ := layer_step' hN k8 n2 w2 (by rw [t2, o2, i8])
    rw [o8] at t8
    obtain ⟨z, nz, wz, tz, fz, ez⟩ := iaddE_step hN.grid (n7.trans n8.symm) (t7.trans t8.symm) w7 w8
    refine ⟨z, nz.trans n7, wz, tz.trans t7, fun j hj => ?_, fun g hg hq j hj => ?_⟩
    · simp only [WideBlock.forward, Option.bind_eq_bind, f1 _ (hj 0), f2 _ (hj 1), f3 _ (hj 2), f4 _ (hj 3), f5 _ (hj 4), f6 _ (hj 5), f7 _ (hj 6), f8 _ (hj 7),
        Option.bind_some, fz]
    · simp only [WideBlock.forward, Option.bind_eq_bind, e1 g hg hq _ (hj 0), e2 g hg hq _ (hj 1), e3 g hg hq _ (hj 2), e4 g hg hq _ (hj 3), e5 g hg hq _ (hj 4),
        e6 g hg hq _ (hj 5), e7 g hg hq _ (hj 6), e8 g hg hq _ (hj 7), Option.bind_some, ez g hg hq]
  · obtain rfl := Option.some.inj hshortcut
    push Not at hc
    obtain ⟨z, nz, wz, tz, fz, ez⟩ := iaddE_step hN.grid (n7.trans (by rw [hxn, hc.1, one_mul])) (t7.trans (by rw [hxt, hc.2])) w7 hx
    refine ⟨z, nz.trans n7, wz, tz.trans t7, fun j hj => ?_, fun g hg hq j hj => ?_⟩
    · simp only [WideBlock.forward, Option.bind_eq_bind, f1 _ (hj 0), f2 _ (hj 1), f3 _ (hj 2), f4 _ (hj 3), f5 _ (hj 4), f6 _ (hj 5), f7 _ (hj 6),
        Option.bind_some, fz]
    · simp only [WideBlock.forward, Option.bind_eq_bind, e1 g hg hq _ (hj 0), e2 g hg hq _ (hj 1), e3 g hg hq _ (hj 2), e4 g hg hq _ (hj 3), e5 g hg hq _ (hj 4),
        e6 g hg hq _ (hj 5), e7 g hg hq _ (hj 6), Option.bind_some, ez g hg hq]

/-! ### One layer -/

/-- The modules of a layer, numbered from `k` on. -/
noncomputable def wideMods {S : Stage} (bs : List (WideBlock S)) (k : ℕ) (junk : ℕ → ℕ → Junk B) : List (EMod (List ℕ) (ETensor ℕ B) Unit) :=
  (bs.zipIdx k).map fun b => ⟨b.1.inT, b.1.outT, b.1.forward (junk b.2), some⟩

theorem wideLoop_step {S : Stage} (hS : StageOk S) (rate : ℝ) {mainT innerT outT : List ℕ} (hmain : mainT ≠ []) (hinner : innerT ≠ []) (hout : outT ≠ [])
    (nb : ℤ) (vals : ℕ → WideVals) (strides : List ℕ) (hs : ∀ s ∈ strides, 0 < s) (i : ℕ) (inT : List ℕ) (hi : inT ≠ []) (bs : List (WideBlock S)) (t : List ℕ)
    (h : wideLoop S rate mainT innerT outT nb vals i strides inT = some (bs, t)) :
    t ≠ [] ∧ bs.length = strides.length ∧ (∀ k (junk : ℕ → ℕ → Junk B), Fits (wideMods bs k junk) ∧ (∀ a ∈ (wideMods bs k junk).head?, a.inTy = inT) ∧
        ∀ a ∈ (wideMods bs k junk).getLast?, a.outTy = t) ∧
      ∀ (k m : ℕ) (x : ETensor ℕ B), x.n = 1 + strides.prod * m → x.x.WF (fun i => (S.rep i).size) → x.x.ty = inT →
      StepJ (S.s.space interp) S.rep (fun junk : ℕ → ℕ → Junk B => ∀ i j, JunkOk (junk i j)) (fun junk => compose (wideMods bs k junk)) x (1 + m) t := by
  induction strides generalizing i inT bs t with
  | nil =>
    obtain ⟨rfl, rfl⟩ := Prod.ext_iff.1 (Option.some.inj h)
    refine ⟨hi, rfl, fun k junk => ⟨by simp [Fits, wideMods], by simp [wideMods], by simp [wideMods]⟩, fun k m x hn hx hxt => ?_⟩
    exact ⟨x, by simpa using hn, hx, hxt, fun _ _ => rfl, fun _ _ _ _ _ => rfl⟩
  | cons s strides ih =>
    unfold wideLoop at h
    simp only [Option.bind_eq_bind] at h
    obtain ⟨b, hb, h⟩ := Option.bind_eq_some_iff.1 h
    obtain ⟨⟨bs', t'⟩, hr, h⟩ := Option.bind_eq_some_iff.1 h
    obtain ⟨rfl, rfl⟩ := Prod.ext_iff.1 (Option.some.inj h)
    set outF := if (i : ℤ) = nb - 1 then outT else mainT with houtF
    have hF : outF ≠ [] := by rw [houtF]; split_ifs <;> assumption
    obtain ⟨b1, b2, b3⟩ := wideBasic_step interp (B := B) hS hb hi hinner hF (hs s (by simp))
    obtain ⟨r0, r1, r2, r3⟩ := ih (fun a ha => hs a (by simp [ha])) (i + 1) outF hF bs' t' hr
    refine ⟨r0, by simp [r1], fun k junk => ?_, fun k m x hn hx hxt => ?_⟩
    · obtain ⟨c1, c2, c3⟩ := r2 (k + 1) junk
      have hcons : wideMods (b :: bs') k junk = ⟨b.inT, b.outT, b.forward (junk k), some⟩ :: wideMods bs' (k + 1) junk := rfl
      rw [hcons]
      refine ⟨?_, by simp [b1], ?_⟩
      · rw [Fits, List.isChain_cons]
        refine ⟨fun a ha => ?_, c1⟩
        rw [c2 a ha, b2]
      · intro a ha
        rw [List.getLast?_cons] at ha
        cases hl : (wideMods bs' (k + 1) junk).getLast? with
        | none =>
          have hnil : bs' = [] := by
            have := List.getLast?_eq_none_iff.1 hl
            simpa [wideMods] using this
          have hstr : strides = [] := by
            rw [hnil] at r1
            exact List.length_eq_zero_iff.1 r1.symm
          subst hstr
          rw [wideLoop] at hr
          have := (Prod.ext_iff.1 (Option.some.inj hr)).2
          rw [hl] at ha
          obtain rfl := Option.some.inj ha
          exact b2.trans this
        | some a' =>
          rw [hl] at ha
          obtain rfl := Option.some.inj ha
          exact c3 _ hl
    · obtain ⟨y, ny, wy, ty, fy, ey⟩ := b3 (strides.prod * m) x (by rw [hn, List.prod_cons, _root_.mul_assoc]) hx hxt
      obtain ⟨z, nz, wz, tz, fz, ez⟩ := r3 (k + 1) m y ny wy ty
      refine ⟨z, nz, wz, tz, fun j hj => ?_, fun g hg hq j hj => ?_⟩
      · have e := fy _ (hj k)
        dsimp only at e
        show ((b.forward (j k) x).bind (compose (wideMods bs' (k + 1) j))) = _
        rw [e, Option.bind_some]
        exact fz j hj
      · have e := ey g hg hq _ (hj k)
        dsimp only at e
        show ((b.forward (j k) _).bind (compose (wideMods bs' (k + 1) j))) = _
        rw [e, Option.bind_some]
        exact ez g hg hq j hj

theorem wideSeq_step {S : Stage} (hS : StageOk S) (rate : ℝ) {mainT innerT outT : List ℕ} (hmain : mainT ≠ []) (hinner : innerT ≠ []) (hout : outT ≠ [])
    (nb : ℤ) (vals : ℕ → WideVals) (strides : List ℕ) (h0 : strides ≠ []) (hs : ∀ s ∈ strides, 0 < s) (i : ℕ) (inT : List ℕ) (hi : inT ≠ [])
    (bs : List (WideBlock S)) (t : List ℕ) (h : wideLoop S rate mainT innerT outT nb vals i strides inT = some (bs, t)) (m : ℕ) (x : ETensor ℕ B)
    (hn : x.n = 1 + strides.prod * m) (hx : x.x.WF fun i => (S.rep i).size) (hxt : x.x.ty = inT) :
    StepJ (S.s.space interp) S.rep (fun junk : ℕ → ℕ → Junk B => ∀ i j, JunkOk (junk i j)) (fun junk => wideSeq bs junk) x (1 + m) t := by
  obtain ⟨-, hlen, hF, hstep⟩ := wideLoop_step interp (B := B) hS rate hmain hinner hout nb vals strides hs i inT hi bs t h
  obtain ⟨y, ny, wy, ty, fy, ey⟩ := hstep 0 m x hn hx hxt
  have hbs : bs ≠ [] := by
    intro h1
    rw [h1] at hlen
    exact h0 (List.length_eq_zero_iff.1 hlen.symm)
  have key : ∀ (junk : ℕ → ℕ → Junk B) (a b : ETensor ℕ B), a.x.ty = inT → b.x.ty = t → compose (wideMods bs 0 junk) a = some b → wideSeq bs junk a = some b := by
    intro junk a b ha hb hc
    obtain ⟨f1, f2, f3⟩ := hF 0 junk
    have hne : wideMods bs 0 junk ≠ [] := by simpa [wideMods] using hbs
    obtain ⟨c1, c2⟩ := c41_built_args (id : ℕ → ℕ) Function.injective_id (wideMods bs 0 junk)
    obtain ⟨st, hst⟩ := Option.isSome_iff_exists.1 (c1.2 f1)
    obtain ⟨d1, d2, d3⟩ := c2 st hst
    show (seqNewArgs id (wideMods bs 0 junk)).bind _ = _
    rw [hst, Option.bind_some, seqForward, runMods_eq, d1, d2, d3, hc]
    obtain ⟨p, hp⟩ := Option.isSome_iff_exists.1 (show (wideMods bs 0 junk).head?.isSome by simpa using hne)
    obtain ⟨q, hq⟩ := Option.isSome_iff_exists.1 (show (wideMods bs 0 junk).getLast?.isSome by simpa using hne)
    rw [hp, hq, Option.map_some, Option.map_some, f2 p hp, f3 q hq, ha, if_pos rfl, Option.bind_some, if_pos (by rw [hb])]
  exact ⟨y, ny, wy, ty, fun j hj => key j x y hxt ty (fy j hj), fun g hg hq j hj => key j _ _ hxt ty (ey g hg hq j hj)⟩

end E2
