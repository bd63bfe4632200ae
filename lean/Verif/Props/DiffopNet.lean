import Verif.Props.DiffopNetSpec
import Verif.Props.Network
import Verif.Props.GaussDiff

/-!
Networks with differential operators (C104): every `SequentialModule` of modules of the library, `R2Diffop` among them, commutes with the elements of the group
which permute the pixels.
-/

set_option linter.unusedSectionVars false

namespace E2

open Finset Mat

variable {El F A I B K : Type} [LinearOrder F] [DecidableEq I] [Fintype B]

/-- What is needed of the operators of a space: `R2Diffop` with the methods in `meth` commutes with the elements in `sel` which permute the pixels (C68, C82, C83). -/
def DiffopSpace (Sp : Space El) (G : DiffopGen El) (rep : F → Repr El) (meth : Sampler → DiffopArgs El → DiffopModule El F → Prop) (sel : El → Prop) : Prop :=
  ∀ smp inT outT, inT ≠ [] → outT ≠ [] → R2DiffopCommutes smp Sp G rep inT outT (meth smp) sel

/-- The space with fewer elements in `grid`. -/
def Space.only (Sp : Space El) (sel : El → Prop) : Space El := { Sp with grid := fun g => Sp.grid g ∧ sel g }

theorem NetSpace.only {Sp : Space El} {rep : F → Repr El} {built : (F → F → List (A × (ℝ × ℝ → Mat))) → (A → I) → Prop} (hS : NetSpace Sp rep built)
    (sel : El → Prop) : NetSpace (Sp.only sel) rep built where
  grid g hg hq := hS.grid g hg hq.1
  one := hS.one
  pos := hS.pos
  isRep := hS.isRep
  conv basis ident inT outT hb hi := by
    obtain ⟨h1, h2⟩ := hS.conv basis ident inT outT hb hi
    refine ⟨fun c inG n m w b e1 e2 e3 e4 e5 e6 e7 e8 => ?_, fun c outG n m w b e1 e2 e3 e4 e5 e6 e7 => ?_⟩
    · obtain ⟨layer, f1, f2⟩ := h1 c inG n m w b e1 e2 e3 e4 e5 e6 e7 e8
      exact ⟨layer, f1, fun g hg hq => f2 g hg hq.1⟩
    · obtain ⟨layer, f1, f2⟩ := h2 c outG n m w b e1 e2 e3 e4 e5 e6 e7
      exact ⟨layer, f1, fun g hg hq => f2 g hg hq.1⟩

theorem Layer.Ok.only {Sp : Space El} {rep : F → Repr El} {built : (F → F → List (A × (ℝ × ℝ → Mat))) → (A → I) → Prop} (sel : El → Prop) {l : Layer F A I}
    {n m : ℕ} (h : l.Ok Sp rep built n m) : l.Ok (Sp.only sel) rep built n m := by
  cases l <;> exact h

/-- `forward` of `R2Diffop` on a tensor, by its action on the single images. -/
theorem diffop_forward {smp : Sampler} {G : DiffopGen El} {a : DiffopArgs El} {rep : F → Repr El} {inT outT : List F} {M : DiffopModule El F}
    (hM : r2diffopInit smp G a rep inT outT = some M) (hi0 : inT ≠ []) (ho0 : outT ≠ []) (hg : 0 < a.groups) {n m : ℕ}
    (hpad : padOk a.paddingMode n a.padding) (hm : convSize n a.padding M.size a.stride a.dilation = some m) {w b : List ℝ} {layer : Fmap → Fmap}
    (h1 : ∀ x, M.forward smp rep outT w b n x = some (layer x)) :
    (∀ x x', FEq (typeSize (fun r => (rep r).size) inT) n x x' → FEq (typeSize (fun r => (rep r).size) outT) m (layer x) (layer x')) ∧
    ∀ junk (z : List (Pix B n → ℝ)), z.length = typeSize (fun r => (rep r).size) inT →
      (DLayer.diffop smp M inT outT w b : DLayer El F A I).forward rep junk ⟨n, inT, z⟩
        = some ⟨m, outT, imgLayer layer (typeSize (fun r => (rep r).size) outT) z⟩ := by
  obtain ⟨hcfg, pw, -, hG, -⟩ := r2diffopInit_spec hM
  obtain ⟨hin, outG, hout⟩ := convGroups_spec hG hg hi0 ho0
  have e1 : M.cfg.groups = a.groups := by rw [hcfg]; rfl
  have e2 : M.cfg.p = a.padding := by rw [hcfg]; rfl
  have e3 : M.cfg.s = a.stride := by rw [hcfg]; rfl
  have e4 : M.cfg.d = a.dilation := by rw [hcfg]; rfl
  have e5 : M.cfg.mode = a.paddingMode := by rw [hcfg]; rfl
  have hsi : typeSize (fun r => (rep r).size) inT = a.groups * typeSize (fun r => (rep r).size) M.inG := by
    rw [hin]; exact typeSize_flatten _ _ _
  have hso : typeSize (fun r => (rep r).size) outT = a.groups * typeSize (fun r => (rep r).size) outG := by
    rw [hout]; exact typeSize_flatten _ _ _
  have hcin : typeSize (fun r => (rep r).size) inT / a.groups = typeSize (fun r => (rep r).size) M.inG := by
    rw [hsi]; exact Nat.mul_div_cancel_left _ hg
  have hcout : typeSize (fun r => (rep r).size) outT / a.groups = typeSize (fun r => (rep r).size) outG := by
    rw [hso]; exact Nat.mul_div_cancel_left _ hg
  have hf : ∃ f, (M.exp smp rep outT).forward w = some f ∧
      layer = conv2d a.paddingMode n a.padding M.size a.stride a.dilation (typeSize (fun r => (rep r).size) M.inG) (typeSize (fun r => (rep r).size) outG)
        (reshapeFilter M.size f) (outBias rep outT b) := by
    cases hf : (M.exp smp rep outT).forward w with
    | none =>
      have e := h1 0
      rw [DiffopModule.forward, hf] at e
      simp at e
    | some f =>
      refine ⟨f, rfl, funext fun z => ?_⟩
      have e := h1 z
      rw [DiffopModule.forward, hf, e1, e2, e3, e4, e5, hcout] at e
      exact (Option.some.inj e).symm
  obtain ⟨f, hf, rfl⟩ := hf
  refine ⟨fun z z' h => ?_, fun junk z hz => ?_⟩
  · rw [hsi] at h
    rw [hso]
    exact conv2d_congr hpad hm _ _ h
  · simp only [DLayer.forward, hf, wrapped, if_pos, runConv, ETensor.plain, hz, e1, e2, e3, e4, e5, hm, hcin, hcout, Option.map_some, mkE, mkGT]
    rw [if_pos (by simp)]
    rfl

theorem dlayer_step {Sp : Space El} {G : DiffopGen El} {rep : F → Repr El} {built : (F → F → List (A × (ℝ × ℝ → Mat))) → (A → I) → Prop}
    {meth : Sampler → DiffopArgs El → DiffopModule El F → Prop} {sel : El → Prop} (hS : NetSpace Sp rep built) (hD : DiffopSpace Sp G rep meth sel)
    (l : DLayer El F A I) {n m : ℕ} (hl : l.Ok Sp G rep built meth n m) (x : GTensor F (Pix B n → ℝ)) (hx : x.WF fun r => (rep r).size) (hxt : x.ty = l.inTy) :
    Step (Sp.only sel) rep (fun junk => l.forward rep junk) ⟨n, x⟩ m l.outTy := by
  cases l with
  | lib l => exact layer_step (hS.only sel) l (Layer.Ok.only sel hl) x hx hxt
  | diffop smp M inT outT w b =>
    obtain ⟨hi0, ho0, a, hM, hme, hg, hd, hw, hpad, hm, hdiv⟩ := hl
    obtain ⟨layer, h1, h2⟩ := hD smp inT outT hi0 ho0 a M hM hme hg hd w b n m hw hpad hm hdiv
    obtain ⟨h3, h4⟩ := diffop_forward (A := A) (I := I) (B := B) hM hi0 ho0 hg hpad hm h1
    exact step_img (hS.only sel) ho0 layer h3 (fun g hg hq => h2 g hg hq.1 hq.2) h4 x hx hxt

theorem dnet_step {Sp : Space El} {G : DiffopGen El} {rep : F → Repr El} {built : (F → F → List (A × (ℝ × ℝ → Mat))) → (A → I) → Prop}
    {meth : Sampler → DiffopArgs El → DiffopModule El F → Prop} {sel : El → Prop} (hS : NetSpace Sp rep built) (hD : DiffopSpace Sp G rep meth sel)
    (net : List (K × DLayer El F A I)) {n m : ℕ} (hok : DNetOk Sp G rep built meth (net.map Prod.snd) n m)
    (hfit : (net.map Prod.snd).IsChain fun a b => a.outTy = b.inTy) (x : ETensor F B) (hn : x.n = n) (hx : x.x.WF fun r => (rep r).size)
    (hxt : ∀ l ∈ net.head?, x.x.ty = l.2.inTy) :
    ∃ y : ETensor F B, y.n = m ∧ y.x.WF (fun r => (rep r).size) ∧ (∀ l ∈ net.getLast?, y.x.ty = l.2.outTy) ∧
      (∀ junk : K → (c n : ℕ) → List (Pix B n → ℝ), (∀ k, JunkOk (junk k)) →
        compose ((net.map fun l => (l.1, l.2.toMod rep (junk l.1))).map Prod.snd) x = some y) ∧
      ∀ g, Sp.G.isEl g → Sp.grid g → sel g → ∀ junk : K → (c n : ℕ) → List (Pix B n → ℝ), (∀ k, JunkOk (junk k)) →
        compose ((net.map fun l => (l.1, l.2.toMod rep (junk l.1))).map Prod.snd) (x.act Sp rep g) = some (y.act Sp rep g) := by
  induction net generalizing n x with
  | nil =>
    simp only [List.map_nil, DNetOk] at hok
    exact ⟨x, by omega, hx, by simp, fun _ _ => rfl, fun _ _ _ _ _ _ => rfl⟩
  | cons p net ih =>
    obtain ⟨k, l⟩ := p
    obtain ⟨n1, h1, h2⟩ := hok
    obtain ⟨n0, x⟩ := x
    obtain rfl : n0 = n := hn
    obtain ⟨y, e1, e2, e3, e4, e5⟩ := dlayer_step (B := B) hS hD l h1 x hx (hxt (k, l) rfl)
    have hfit' : (net.map Prod.snd).IsChain fun a b => a.outTy = b.inTy := by
      rw [List.map_cons] at hfit
      exact hfit.tail
    obtain ⟨z, f1, f2, f3, f4, f5⟩ := ih h2 hfit' y e1 e2 (fun l' hl' => by
      cases net with
      | nil => simp at hl'
      | cons q net =>
        obtain rfl : q = l' := by simpa using hl'
        rw [List.map_cons, List.map_cons, List.isChain_cons_cons] at hfit
        exact e3.trans hfit.1)
    refine ⟨z, f1, f2, fun l' hl' => ?_, fun junk hj => ?_, fun g hg hq hs junk hj => ?_⟩
    · cases net with
      | nil =>
        obtain rfl : (k, l) = l' := by simpa using hl'
        have := f4 (fun _ c n => List.replicate c 0) fun _ _ _ => List.length_replicate
        simp only [List.map_nil, compose, Option.some.injEq] at this
        rw [← this]
        exact e3
      | cons q net => exact f3 l' (by simpa using hl')
    · exact (congrArg (fun o => Option.bind o _) (e4 _ (hj k))).trans (f4 junk hj)
    · exact (congrArg (fun o => Option.bind o _) (e5 g hg ⟨hq, hs⟩ _ (hj k))).trans (f5 g hg hq hs junk hj)

/-- **C104, all spaces**: a `SequentialModule` of modules with different names, `R2Diffop` among them, whose types fit and which are used as they should be on
images with `n × n` pixels, accepts every tensor of its input type, returns a tensor of its output type with `m × m` pixels, whatever the contents of new
memory, and for every element which permutes the pixels, and with which the methods of discretisation commute, it sends the transformed tensor to the
transformed output. -/
theorem c104_network [DecidableEq K] {Sp : Space El} {G : DiffopGen El} {rep : F → Repr El} {built : (F → F → List (A × (ℝ × ℝ → Mat))) → (A → I) → Prop}
    {meth : Sampler → DiffopArgs El → DiffopModule El F → Prop} {sel : El → Prop} (hS : NetSpace Sp rep built) (hD : DiffopSpace Sp G rep meth sel)
    (net : List (K × DLayer El F A I)) (hne : net ≠ []) (hnd : (net.map Prod.fst).Nodup)
    (hfit : (net.map Prod.snd).IsChain fun a b => a.outTy = b.inTy) {n m : ℕ} (hok : DNetOk Sp G rep built meth (net.map Prod.snd) n m)
    (x : ETensor F B) (hn : x.n = n) (hx : x.x.WF fun r => (rep r).size) (hxt : x.x.ty = (net.head hne).2.inTy) :
    ∃ y : ETensor F B, y.n = m ∧ y.x.WF (fun r => (rep r).size) ∧ y.x.ty = (net.getLast hne).2.outTy ∧
      (∀ junk : K → (c n : ℕ) → List (Pix B n → ℝ), (∀ k, JunkOk (junk k)) → dnetForward rep junk net x = some y) ∧
      ∀ g, Sp.G.isEl g → Sp.grid g → sel g → ∀ junk : K → (c n : ℕ) → List (Pix B n → ℝ), (∀ k, JunkOk (junk k)) →
        dnetForward rep junk net (x.act Sp rep g) = some (y.act Sp rep g) := by
  obtain ⟨y, h1, h2, h3, h4, h5⟩ := dnet_step hS hD net hok hfit x hn hx fun l hl => by
    rw [List.head?_eq_some_head hne] at hl
    rw [hxt, Option.mem_some.1 hl]
  have h3 : y.x.ty = (net.getLast hne).2.outTy := h3 _ (List.getLast?_eq_some_getLast hne)
  have key : ∀ (junk : K → (c n : ℕ) → List (Pix B n → ℝ)) (z w : ETensor F B), z.x.ty = x.x.ty → w.x.ty = y.x.ty →
      compose ((net.map fun l => (l.1, l.2.toMod rep (junk l.1))).map Prod.snd) z = some w → dnetForward rep junk net z = some w := by
    intro junk z w hz hw hc
    set ms := net.map fun l => (l.1, l.2.toMod rep (junk l.1)) with hms
    have hnd' : (ms.map Prod.fst).Nodup := by
      rw [hms, List.map_map]
      exact hnd
    have hf : Fits (ms.map Prod.snd) := by
      rw [hms, Fits, List.map_map]
      rw [List.isChain_map] at hfit ⊢
      exact hfit
    obtain ⟨b1, b2⟩ := c41_built ms hnd'
    obtain ⟨st, hst⟩ := Option.isSome_iff_exists.1 (b1 hf)
    obtain ⟨-, c1, c2, c3⟩ := b2 st hst
    have hin : some z.x.ty = st.inTy := by
      rw [c2, hms, List.head?_map, List.head?_eq_some_head hne, hz, hxt]
      rfl
    have hout : some w.x.ty = st.outTy := by
      rw [c3, hms, List.getLast?_map, List.getLast?_eq_some_getLast hne, hw, h3]
      rfl
    rw [dnetForward, hst, Option.bind_some, seqForward, if_pos hin, c1, runMods_eq, hc, Option.bind_some, if_pos hout]
  exact ⟨y, h1, h2, h3, fun junk hj => key junk x y rfl rfl (h4 junk hj), fun g hg hq hs junk hj => key junk _ _ rfl rfl (h5 g hg hq hs junk hj)⟩

/-! ### The spaces of the library -/

section spaces

variable (interp : ℝ → Img → Img)

/-- The three methods for a space of rotations. -/
theorem diffopSpace_turn {Sp : Space El} {G : DiffopGen El} {rep : F → Repr El} {sel : El → Prop}
    (h1 : ∀ fd, FDSpec fd → ∀ inT outT, inT ≠ [] ∧ outT ≠ [] → R2DiffopCommutes (fdSample fd) Sp G rep inT outT (fun _ _ => True) sel)
    (h2 : ∀ ga std, GaussSpec ga → ∀ inT outT, inT ≠ [] ∧ outT ≠ [] → R2DiffopCommutes (gaussSample ga std) Sp G rep inT outT (fun _ _ => True) sel)
    (h3 : ∀ wm phi, ∀ inT outT, inT ≠ [] ∧ outT ≠ [] → R2DiffopCommutes (rbfSample wm phi) Sp G rep inT outT
      (fun a M => True ∧ ∀ n ≤ M.order, RBFSpec wm phi ((List.range (M.size * M.size)).map (gridCoords M.size a.dilation)) n) sel) :
    DiffopSpace Sp G rep TurnMethod sel := by
  intro smp inT outT hi ho a M hM hme
  rcases hme with ⟨fd, hfd, rfl⟩ | ⟨ga, std, hga, rfl⟩ | ⟨wm, phi, rfl, hwm⟩
  · exact h1 fd hfd inT outT ⟨hi, ho⟩ a M hM trivial
  · exact h2 ga std hga inT outT ⟨hi, ho⟩ a M hM trivial
  · exact h3 wm phi inT outT ⟨hi, ho⟩ a M hM ⟨trivial, hwm⟩

/-- The three methods for a space with reflections. -/
theorem diffopSpace_plane {Sp : Space El} {G : DiffopGen El} {rep : F → Repr El} {sel : El → Prop}
    (h1 : ∀ fd, FDSpec fd → ∀ inT outT, inT ≠ [] ∧ outT ≠ [] → R2DiffopCommutes (fdSample fd) Sp G rep inT outT EvenOps sel)
    (h2 : ∀ ga std, GaussSpec ga → ∀ inT outT, inT ≠ [] ∧ outT ≠ [] →
      R2DiffopCommutes (gaussSample ga std) Sp G rep inT outT (fun a _ => a.angleOffset = none) sel)
    (h3 : ∀ wm phi, ∀ inT outT, inT ≠ [] ∧ outT ≠ [] → R2DiffopCommutes (rbfSample wm phi) Sp G rep inT outT
      (fun a M => a.angleOffset = none ∧ ∀ n ≤ M.order, RBFSpec wm phi ((List.range (M.size * M.size)).map (gridCoords M.size a.dilation)) n) sel) :
    DiffopSpace Sp G rep PlaneMethod sel := by
  intro smp inT outT hi ho a M hM hme
  rcases hme with ⟨h0, ⟨fd, hfd, rfl, he⟩ | ⟨ga, std, hga, rfl⟩ | ⟨wm, phi, rfl, hwm⟩⟩
  · exact h1 fd hfd inT outT ⟨hi, ho⟩ a M hM he
  · exact h2 ga std hga inT outT ⟨hi, ho⟩ a M hM h0
  · exact h3 wm phi inT outT ⟨hi, ho⟩ a M hM ⟨h0, hwm⟩

/-- **C104 for `Rot2dOnR2` with `C_N`**: the hypothesis of `c104_network` about the operators, all three methods and all elements. -/
theorem c104_cyclic (N : ℕ) (hN : 0 < N) (rep : F → Repr ℤ) (hr : ∀ r, (rep r).WF ∧ ∀ i ∈ (rep r).irreps, ∃ k, Cyclic.irrep N k = some i)
    (hpos : ∀ r, 0 < (rep r).size) : DiffopSpace (rotSpace interp N) (rot2dDiffops N) rep TurnMethod fun _ => True :=
  diffopSpace_turn (fun _ hfd inT outT hne => c68_cyclic interp inT outT hne hfd N hN rep (fun r _ => hpos r) fun r _ => hr r)
    (fun _ std hga inT outT hne => c82_cyclic interp inT outT hne hga std N hN rep (fun r _ => hpos r) fun r _ => hr r)
    fun _ _ inT outT hne => c83_cyclic interp inT outT hne N hN rep (fun r _ => hpos r) fun r _ => hr r

/-- **C104 for `Rot2dOnR2` with SO(2)**. -/
theorem c104_so2 (rep : F → Repr ℝ) (hr : ∀ r, (rep r).WF ∧ ∀ i ∈ (rep r).irreps, ∃ k, i = SO2.irrep k) (hpos : ∀ r, 0 < (rep r).size) :
    DiffopSpace (so2Space interp) so2Diffops rep TurnMethod fun _ => True :=
  diffopSpace_turn (fun _ hfd inT outT hne => c68_so2 interp inT outT hne hfd rep (fun r _ => hpos r) fun r _ => hr r)
    (fun _ std hga inT outT hne => c82_so2 interp inT outT hne hga std rep (fun r _ => hpos r) fun r _ => hr r)
    fun _ _ inT outT hne => c83_so2 interp inT outT hne rep (fun r _ => hpos r) fun r _ => hr r

/-- **C104 for `Flip2dOnR2`**: no angle offset, and finite differences for even orders only. -/
theorem c104_flip (axis : ℝ) (rep : F → Repr ℤ) (hr : ∀ r, (rep r).WF ∧ ∀ i ∈ (rep r).irreps, ∃ k, Cyclic.irrep 2 k = some i)
    (hpos : ∀ r, 0 < (rep r).size) : DiffopSpace (flipSpace interp axis) (flip2dDiffops axis) rep PlaneMethod fun _ => True :=
  diffopSpace_plane (fun _ hfd inT outT hne => c68_flip_even interp inT outT hne hfd axis rep (fun r _ => hpos r) fun r _ => hr r)
    (fun _ std hga inT outT hne => c82_flip interp inT outT hne hga std axis rep (fun r _ => hpos r) fun r _ => hr r)
    fun _ _ inT outT hne => c83_flip interp inT outT hne axis rep (fun r _ => hpos r) fun r _ => hr r

/-- **C104 for `FlipRot2dOnR2` with a dihedral group**: no angle offset, and finite differences for even orders only. -/
theorem c104_dihedral (N : ℕ) (hN : 0 < N) (axis : ℝ) (rep : F → Repr (ℤ × ℤ))
    (hr : ∀ r, (rep r).WF ∧ ∀ i ∈ (rep r).irreps, ∃ j k, Dihedral.irrep N j k = some i) (hpos : ∀ r, 0 < (rep r).size) :
    DiffopSpace (flipRotSpace interp N axis) (flipRot2dDiffops N axis) rep PlaneMethod fun _ => True :=
  diffopSpace_plane (fun _ hfd inT outT hne => c68_dihedral_even interp inT outT hne hfd N hN axis rep (fun r _ => hpos r) fun r _ => hr r)
    (fun _ std hga inT outT hne => c82_dihedral interp inT outT hne hga std N hN axis rep (fun r _ => hpos r) fun r _ => hr r)
    fun _ _ inT outT hne => c83_dihedral interp inT outT hne N hN axis rep (fun r _ => hpos r) fun r _ => hr r

/-- **C104 for `FlipRot2dOnR2` with O(2)**: no angle offset, and finite differences for even orders only. -/
theorem c104_o2 (axis : ℝ) (rep : F → Repr (ℤ × ℝ)) (hr : ∀ r, (rep r).WF ∧ ∀ i ∈ (rep r).irreps, ∃ j k, O2.irrep j k = some i)
    (hpos : ∀ r, 0 < (rep r).size) : DiffopSpace (o2Space interp axis) (o2Diffops axis) rep PlaneMethod fun _ => True :=
  diffopSpace_plane (fun _ hfd inT outT hne => c68_o2_even interp inT outT hne hfd axis rep (fun r _ => hpos r) fun r _ => hr r)
    (fun _ std hga inT outT hne => c82_o2 interp inT outT hne hga std axis rep (fun r _ => hpos r) fun r _ => hr r)
    fun _ _ inT outT hne => c83_o2 interp inT outT hne axis rep (fun r _ => hpos r) fun r _ => hr r

/-- **C104 for the rotations of `FlipRot2dOnR2` with a dihedral group**: all three methods, all orders, any angle offset. -/
theorem c104_dihedral_turns (N : ℕ) (hN : 0 < N) (axis : ℝ) (rep : F → Repr (ℤ × ℤ))
    (hr : ∀ r, (rep r).WF ∧ ∀ i ∈ (rep r).irreps, ∃ j k, Dihedral.irrep N j k = some i) (hpos : ∀ r, 0 < (rep r).size) :
    DiffopSpace (flipRotSpace interp N axis) (flipRot2dDiffops N axis) rep TurnMethod fun g => g.1 = 0 :=
  diffopSpace_turn (fun _ hfd inT outT hne => c68_dihedral_partial interp inT outT hne hfd N hN axis rep (fun r _ => hpos r) fun r _ => hr r)
    (fun _ std hga inT outT hne => c82_dihedral_offset interp inT outT hne hga std N hN axis rep (fun r _ => hpos r) fun r _ => hr r)
    fun _ _ inT outT hne => c83_dihedral_offset interp inT outT hne N hN axis rep (fun r _ => hpos r) fun r _ => hr r

/-- **C104 for the rotations of `FlipRot2dOnR2` with O(2)**: all three methods, all orders, any angle offset. -/
theorem c104_o2_turns (axis : ℝ) (rep : F → Repr (ℤ × ℝ)) (hr : ∀ r, (rep r).WF ∧ ∀ i ∈ (rep r).irreps, ∃ j k, O2.irrep j k = some i)
    (hpos : ∀ r, 0 < (rep r).size) : DiffopSpace (o2Space interp axis) (o2Diffops axis) rep TurnMethod fun g => g.1 = 0 :=
  diffopSpace_turn (fun _ hfd inT outT hne => c68_o2_partial interp inT outT hne hfd axis rep (fun r _ => hpos r) fun r _ => hr r)
    (fun _ std hga inT outT hne => c82_o2_offset interp inT outT hne hga std axis rep (fun r _ => hpos r) fun r _ => hr r)
    fun _ _ inT outT hne => c83_o2_offset interp inT outT hne axis rep (fun r _ => hpos r) fun r _ => hr r

end spaces

/-! ### Reflections -/

/-- A network with one module. -/
theorem dnetForward_single [DecidableEq K] (rep : F → Repr El) (junk : K → (c n : ℕ) → List (Pix B n → ℝ)) (k : K) (l : DLayer El F A I) {x y : ETensor F B}
    (hx : x.x.ty = l.inTy) (hy : y.x.ty = l.outTy) (h : l.forward rep (junk k) x = some y) : dnetForward rep junk [(k, l)] x = some y := by
  obtain ⟨b1, b2⟩ := c41_built [(k, l.toMod rep (junk k))] (by simp)
  obtain ⟨st, hst⟩ := Option.isSome_iff_exists.1 (b1 (by simp [Fits]))
  obtain ⟨-, c1, c2, c3⟩ := b2 st hst
  have hin : some x.x.ty = st.inTy := by
    rw [c2, hx]
    rfl
  have hout : some y.x.ty = st.outTy := by
    rw [c3, hy]
    rfl
  have hc : compose ([(k, l.toMod rep (junk k))].map Prod.snd) x = some y := by
    show (l.forward rep (junk k) x).bind some = some y
    rw [h]
    rfl
  rw [dnetForward]
  show (seqNew [(k, l.toMod rep (junk k))]).bind _ = _
  rw [hst, Option.bind_some, seqForward, if_pos hin, c1, runMods_eq, hc, Option.bind_some, if_pos hout]

theorem fieldAct_congr {Sp : Space El} {g : El} {τ : GSym}
    (hτ : ∀ n x i j, i < n → j < n → Sp.base n g x i j = x (τ.ap n (i, j)).1 (τ.ap n (i, j)).2) {N n : ℕ} (ρ : Mat) {x y : Fmap} (h : FEq N n x y) (c : ℕ) :
    FEq c n (fieldAct N ρ (Sp.base n g) x) (fieldAct N ρ (Sp.base n g) y) := by
  intro o _ i hi j hj
  rw [fieldAct_grid hτ _ _ _ _ _ hi hj, fieldAct_grid hτ _ _ _ _ _ hi hj]
  refine Finset.sum_congr rfl fun c hc => ?_
  have := τ.ap_lt hi hj
  rw [h c (mem_range.1 hc) _ this.1 _ this.2]

theorem chanImg_of (n N : ℕ) (x : Fmap) : FEq N n (chanImg ((List.range N).map fun c (q : Pix Unit n) => x c q.2.1 q.2.2) ()) x := by
  intro o ho i hi j hj
  exact chanImg_map _ () ho hi hj

/-- The module `R2Diffop(kernel_size=3, maximum_order=1)` on `Flip2dOnR2(axis=0)` with finite differences, on tensors. -/
theorem flip_wrong_layer {fd : ℕ → List ℝ → ℕ → ℝ} (hfd : FDSpec fd) (interp : ℝ → Img → Img) :
    ∃ M, r2diffopInit (fdSample fd) (flip2dDiffops 0) exArgs exFlipRep [0] [1] = some M ∧
    ∃ (w : List ℝ) (x y z : ETensor ℕ Unit), x.x.WF (fun r => (exFlipRep r).size) ∧ x.x.ty = [0] ∧ y.x.ty = [1] ∧ z.x.ty = [1] ∧
      z ≠ y.act (flipSpace interp 0) exFlipRep 1 ∧ ∀ junk : (c n : ℕ) → List (Pix Unit n → ℝ),
        (.diffop (fdSample fd) M [0] [1] w [] : DLayer ℤ ℕ A I).forward exFlipRep junk x = some y ∧
        (.diffop (fdSample fd) M [0] [1] w [] : DLayer ℤ ℕ A I).forward exFlipRep junk (x.act (flipSpace interp 0) exFlipRep 1) = some z := by
  obtain ⟨M, hM, w, n, layer, hm, h1, x, hx⟩ := c68_flip_wrong hfd interp
  have hsz : ∀ n, typeSize (fun m => (exFlipRep m).size) [n] = 1 := fun n => by simp [typeSize, (exFlipRep_ok n).2.1]
  have hs : M.size = 3 := by
    obtain ⟨-, pw, hr, -⟩ := r2diffopInit_spec hM
    have : exArgs.cfg.resolve = some (3, 1, 0) := rfl
    rw [this] at hr
    exact (congrArg (fun t : Option (ℕ × ℕ × ℕ) => (t.getD 0).1) hr).symm
  obtain ⟨h2, h3⟩ := diffop_forward (A := A) (I := I) (B := Unit) hM (by simp) (by simp) one_pos (n := n) (m := 1) trivial (by rw [hs]; exact hm) h1
  rw [hsz, hsz] at h2
  set d : List (Pix Unit n → ℝ) := (List.range 1).map fun c q => x c q.2.1 q.2.2 with hd
  have hdl : d.length = 1 := by simp [hd]
  have hcd : FEq 1 n (chanImg d ()) x := chanImg_of n 1 x
  refine ⟨M, hM, w, ⟨n, [0], d⟩, ⟨1, [1], imgLayer layer 1 d⟩,
    ⟨1, [1], imgLayer layer 1 (ETensor.act (flipSpace interp 0) exFlipRep 1 (⟨n, [0], d⟩ : ETensor ℕ Unit)).x.data⟩, ⟨by simp, by rw [hsz]; exact hdl⟩, rfl, rfl, rfl,
    fun h => hx ?_, fun junk => ⟨?_, ?_⟩⟩
  rotate_left
  · refine (h3 _ d (by rw [hsz]; exact hdl)).trans ?_
    rw [hsz]
  · refine (h3 junk (ETensor.act (flipSpace interp 0) exFlipRep 1 (⟨n, [0], d⟩ : ETensor ℕ Unit)).x.data (by simp [ETensor.act])).trans ?_
    rw [hsz]
    rfl
  · obtain ⟨τ, hτ, -⟩ := flipSpace_grid interp 0 1 (by simp [flipSpace, Cyclic.grp, Cyclic.isElement, Cyclic.order_eq]) (Or.inr ⟨0, by simp⟩)
    have key : FEq 1 1 (chanImg (imgLayer (m := 1) layer 1 (ETensor.act (flipSpace interp 0) exFlipRep 1 (⟨n, [0], d⟩ : ETensor ℕ Unit)).x.data) ())
        (chanImg (ETensor.act (flipSpace interp 0) exFlipRep 1 (⟨1, [1], imgLayer layer 1 d⟩ : ETensor ℕ Unit)).x.data ()) := by
      intro o _ i _ j _
      exact congrArg (fun z : ETensor ℕ Unit => chanImg z.x.data () o i j) h
    have e1 : FEq 1 n (chanImg (ETensor.act (flipSpace interp 0) exFlipRep 1 (⟨n, [0], d⟩ : ETensor ℕ Unit)).x.data ())
        (fieldAct 1 (typeMat exFlipRep [0] 1) ((flipSpace interp 0).base n 1) (chanImg d ())) := by
      intro o ho i hi j hj
      simp only [ETensor.act, hsz]
      exact chanImg_map _ () ho hi hj
    have e2 : FEq 1 1 (chanImg (ETensor.act (flipSpace interp 0) exFlipRep 1 (⟨1, [1], imgLayer layer 1 d⟩ : ETensor ℕ Unit)).x.data ())
        (fieldAct 1 (typeMat exFlipRep [1] 1) ((flipSpace interp 0).base 1 1) (chanImg (imgLayer (m := 1) layer 1 d) ())) := by
      intro o ho i hi j hj
      simp only [ETensor.act, hsz]
      exact chanImg_map _ () ho hi hj
    have e3 : ∀ D : List (Pix Unit n → ℝ), FEq 1 1 (chanImg (imgLayer (m := 1) layer 1 D) ()) (layer (chanImg D ())) := by
      intro D o ho i hi j hj
      exact chanImg_map _ () ho hi hj
    intro o ho i hi j hj
    refine (h2 _ _ (fun o ho i hi j hj => (e1 o ho i hi j hj).trans (fieldAct_congr hτ _ hcd 1 o ho i hi j hj)) o ho i hi j hj).symm.trans ?_
    refine (e3 _ o ho i hi j hj).symm.trans ((key o ho i hi j hj).trans ((e2 o ho i hi j hj).trans ?_))
    exact fieldAct_congr hτ _ (fun o ho i hi j hj => (e3 _ o ho i hi j hj).trans (h2 _ _ hcd o ho i hi j hj)) 1 o ho i hi j hj

/-- **C104 is false for finite differences at the reflections**: the network of the single module `R2Diffop(kernel_size=3, maximum_order=1)` on
`Flip2dOnR2(axis=0)`, from a trivial field to a field of the sign representation, does not commute with the reflection for some weights and some image. -/
theorem c104_flip_wrong {fd : ℕ → List ℝ → ℕ → ℝ} (hfd : FDSpec fd) (interp : ℝ → Img → Img) :
    ∃ M, r2diffopInit (fdSample fd) (flip2dDiffops 0) exArgs exFlipRep [0] [1] = some M ∧
    ∃ (w : List ℝ) (x y : ETensor ℕ Unit), x.x.WF (fun r => (exFlipRep r).size) ∧ x.x.ty = [0] ∧
      ∀ junk : Unit → (c n : ℕ) → List (Pix Unit n → ℝ),
        dnetForward exFlipRep junk [((), (.diffop (fdSample fd) M [0] [1] w [] : DLayer ℤ ℕ A I))] x = some y ∧
        dnetForward exFlipRep junk [((), (.diffop (fdSample fd) M [0] [1] w [] : DLayer ℤ ℕ A I))] (x.act (flipSpace interp 0) exFlipRep 1)
          ≠ some (y.act (flipSpace interp 0) exFlipRep 1) := by
  obtain ⟨M, hM, w, x, y, z, h1, h2, h3, h4, h5, h6⟩ := flip_wrong_layer (A := A) (I := I) hfd interp
  refine ⟨M, hM, w, x, y, h1, h2, fun junk => ⟨dnetForward_single _ _ _ _ h2 h3 (h6 _).1, fun h => h5 ?_⟩⟩
  rw [dnetForward_single exFlipRep junk () (.diffop (fdSample fd) M [0] [1] w [] : DLayer ℤ ℕ A I) (x := x.act (flipSpace interp 0) exFlipRep 1) h2 h4 (h6 _).2] at h
  exact Option.some.inj h

/-! ### A concrete network -/

theorem exFlipRep_orth (n : ℕ) (g : ℤ) (hg : (Cyclic.grp 2).isEl g) : Orth (exFlipRep n).size ((exFlipRep n).mat g) := by
  have hs : ((Cyclic.irrep 2 (if n = 0 then 0 else 1)).isSome : Prop) := by
    by_cases hn : n = 0 <;> simp [Cyclic.irrep, Cyclic.order_eq, hn]
  obtain ⟨i, hi⟩ := Option.isSome_iff_exists.1 hs
  have h1 : (exFlipRep n).size = i.size := by simp [exFlipRep, Repr.size, hi]
  have h2 : MEq i.size i.size ((exFlipRep n).mat g) (i.mat g) := by
    have h : MEq (exFlipRep n).size (exFlipRep n).size ((exFlipRep n).mat g) (Repr.blocks (exFlipRep n).irreps g) :=
      (MEq_mul_one _ _ _).trans (MEq_one_mul _ _ _)
    intro a ha b hb
    rw [h a (h1 ▸ ha) b (h1 ▸ hb)]
    simp [exFlipRep, hi, Repr.blocks, bdiag, ha, hb]
  rw [h1]
  exact (MEq.mul (fun a ha b hb => h2 b hb a ha) h2).trans ((Cyclic.irrep_isOrthRep (by omega) hi).orth (Cyclic.invOk (by omega)) g hg)

open Classical in
/-- The hypotheses of `c104_network` and `c104_cyclic` are met: on `Rot2dOnR2(2)`, a derivative of first order by finite differences from a trivial field to a
field of the sign representation, a norm nonlinearity, and the identity, on batches of images with `5 × 5` pixels, commutes with half a turn, for all weights. -/
example {fd : ℕ → List ℝ → ℕ → ℝ} (hfd : FDSpec fd) (interp : ℝ → Img → Img) (f : ℝ → ℝ) (bias : List ℝ) :
    ∃ M, r2diffopInit (fdSample fd) (rot2dDiffops 2) exArgs exFlipRep [0] [1] = some M ∧ 0 < (M.exp (fdSample fd) exFlipRep [1]).dimension ∧
    ∀ (w b : List ℝ), w.length = (M.exp (fdSample fd) exFlipRep [1]).dimension → ∀ (x : GTensor ℕ (Pix (Fin 7) 5 → ℝ)), x.ty = [0] → x.data.length = 1 →
      ∃ y : ETensor ℕ (Fin 7), y.n = 3 ∧ ∀ junk : ℕ → (c n : ℕ) → List (Pix (Fin 7) n → ℝ), (∀ k, JunkOk (junk k)) →
        dnetForward exFlipRep junk [(0, (.diffop (fdSample fd) M [0] [1] w b : DLayer ℤ ℕ Unit Unit)), (1, .lib (.norm [1] f 0 bias)), (2, .lib (.identity [1]))]
            ((⟨5, x⟩ : ETensor ℕ (Fin 7)).act (rotSpace interp 2) exFlipRep 1) = some (y.act (rotSpace interp 2) exFlipRep 1) := by
  have hok : ∀ n, (exFlipRep n).WF ∧ ∀ i ∈ (exFlipRep n).irreps, ∃ k, Cyclic.irrep 2 k = some i := fun n => ⟨(exFlipRep_ok n).1, (exFlipRep_ok n).2.2⟩
  have hpos : ∀ n, 0 < (exFlipRep n).size := fun n => by rw [(exFlipRep_ok n).2.1]; exact one_pos
  have hG := diffopGenOk_cyclic interp [0] [1] 2 (by norm_num) exFlipRep fun n _ => hok n
  obtain ⟨D, D', hD, hdeg, h0, h1⟩ := exRotOps_eq
  have hb : (rot2dDiffops 2).bas (some 1) none = some fun i o => dRot 2 i o (some 1) none := by
    simp [rot2dDiffops, checkBounds]
  obtain ⟨M, hM, hs, ho, hds, hne⟩ := exArgs_init hfd _ _ hG hb hD D (by simp) hdeg h0 h1
  refine ⟨M, hM, Nat.pos_of_ne_zero (r2diffopInit_spec hM).2.choose_spec.2.2.2.2.2, fun w b hw x hx hxl => ?_⟩
  obtain ⟨y, h2, -, -, -, h3⟩ := c104_network (c62_cyclic (A := Unit) (I := Unit) interp 2 (by norm_num) exFlipRep hok hpos)
    (c104_cyclic interp 2 (by norm_num) exFlipRep hok hpos)
    [((0 : ℕ), (.diffop (fdSample fd) M [0] [1] w b : DLayer ℤ ℕ Unit Unit)), (1, .lib (.norm [1] f 0 bias)), (2, .lib (.identity [1]))] (by simp) (by simp)
    (by simp [DLayer.inTy, DLayer.outTy, Layer.inTy, Layer.outTy]) (n := 5) (m := 3)
    ⟨3, ⟨by simp, by simp, exArgs, hM, Or.inl ⟨fd, hfd, rfl⟩, one_pos, one_pos, hw, trivial, by rw [hs]; rfl, one_dvd _⟩,
      3, ⟨rfl, fun r _ => exFlipRep_orth r⟩, 3, rfl, rfl⟩
    ⟨5, x⟩ rfl ⟨by simp [hx], by simp [hx, hxl, typeSize, (exFlipRep_ok 0).2.1]⟩ hx
  exact ⟨y, h2, fun junk hj => h3 1 (by simp [rotSpace, Cyclic.grp, Cyclic.isElement, Cyclic.order_eq]) ⟨2, by simp; ring⟩ trivial junk hj⟩

end E2
