import Verif.Lemmas.Network
import Verif.Lemmas.NetFibre
import Verif.Props.Sequential
import Verif.Props.Dropout

/-!
Networks (C62): every `SequentialModule` of modules of the library commutes with the elements of the group which permute the pixels.
-/

set_option linter.unusedSectionVars false

namespace E2

open Finset Mat

variable {El F A I B K : Type} [LinearOrder F] [DecidableEq I] [Fintype B]

/-- What a space and the representations in use have to satisfy: they are representations of the group, of positive size; the elements in `grid` permute the
pixels; and convolutions with the bases in `built` are equivariant (C25, C61). -/
structure NetSpace (Sp : Space El) (rep : F → Repr El) (built : (F → F → List (A × (ℝ × ℝ → Mat))) → (A → I) → Prop) : Prop where
  grid : Sp.GridAction
  one : Sp.G.isEl Sp.G.one
  pos : ∀ r, 0 < (rep r).size
  isRep : ∀ r, IsRep Sp.G (rep r).size (rep r).mat
  conv : ∀ basis ident inT outT, built basis ident → FilterInput rep inT outT basis ident →
    ConvEquivariant Sp rep inT outT basis ident ∧ ConvTEquivariant 0 Sp rep inT outT basis ident

/-- The new memory has the number of channels asked for; its values are arbitrary. -/
def JunkOk (junk : (c n : ℕ) → List (Pix B n → ℝ)) : Prop := ∀ c n, (junk c n).length = c

/-- One module on the tensor `x`: it returns a tensor of type `t` with `m × m` pixels, whatever the new memory, and the transformed tensor for the transformed
input. -/
def Step (Sp : Space El) (rep : F → Repr El) (fwd : ((c n : ℕ) → List (Pix B n → ℝ)) → ETensor F B → Option (ETensor F B)) (x : ETensor F B) (m : ℕ)
    (t : List F) : Prop :=
  ∃ y : ETensor F B, y.n = m ∧ y.x.WF (fun r => (rep r).size) ∧ y.x.ty = t ∧ (∀ junk, JunkOk junk → fwd junk x = some y) ∧
    ∀ g, Sp.G.isEl g → Sp.grid g → ∀ junk, JunkOk junk → fwd junk (x.act Sp rep g) = some (y.act Sp rep g)

theorem move_id {n : ℕ} : (Pix.move ⟨false, false, false⟩ : Pix B n → Pix B n) = id := by
  funext q
  obtain ⟨b, i, j⟩ := q
  simp [Pix.move, GSym.fin, GSym.ap]

theorem exists_junk : ∃ junk : (c n : ℕ) → List (Pix B n → ℝ), JunkOk junk := ⟨fun c _ => List.replicate c 0, fun _ _ => List.length_replicate⟩

/-- From the theorems about the single modules. -/
theorem step_of {Sp : Space El} {rep : F → Repr El} {built : (F → F → List (A × (ℝ × ℝ → Mat))) → (A → I) → Prop} (hS : NetSpace Sp rep built)
    {fwd : ((c n : ℕ) → List (Pix B n → ℝ)) → ETensor F B → Option (ETensor F B)} {n m : ℕ} {t : List F} (x : GTensor F (Pix B n → ℝ))
    (hx : x.WF fun r => (rep r).size)
    (f : ((c n : ℕ) → List (Pix B n → ℝ)) → GTensor F (Pix B n → ℝ) → Option (GTensor F (Pix B m → ℝ)))
    (hf : ∀ junk, JunkOk junk → ∀ z : GTensor F (Pix B n → ℝ), z.WF (fun r => (rep r).size) → z.ty = x.ty → fwd junk ⟨n, z⟩ = (f junk z).map fun y => ⟨m, y⟩)
    (h : ∀ g, Sp.G.isEl g → ∀ (τ : GSym) junk junk', JunkOk junk → JunkOk junk' → ∃ y, f junk x = some y ∧ y.WF (fun r => (rep r).size) ∧ y.ty = t ∧
      f junk' (x.transform (fun r => (rep r).size) (fun r => (rep r).mat g) (Pix.move τ))
        = some (y.transform (fun r => (rep r).size) (fun r => (rep r).mat g) (Pix.move τ))) :
    Step Sp rep fwd ⟨n, x⟩ m t := by
  obtain ⟨j0, hj0⟩ := exists_junk (B := B)
  have hone : ∀ {k : ℕ} {z : GTensor F (Pix B k → ℝ)}, z.WF (fun r => (rep r).size) →
      z.transform (fun r => (rep r).size) (fun r => (rep r).mat Sp.G.one) (Pix.move ⟨false, false, false⟩) = z := by
    intro k z hz
    rw [move_id]
    exact transform_id hz fun r => (hS.isRep r).one
  obtain ⟨y, h1, h2, h3, -⟩ := h _ hS.one ⟨false, false, false⟩ j0 j0 hj0 hj0
  have hall : ∀ junk, JunkOk junk → f junk x = some y := by
    intro junk hj
    obtain ⟨y', e1, -, -, e2⟩ := h _ hS.one ⟨false, false, false⟩ j0 junk hj0 hj
    rw [h1] at e1
    obtain rfl := Option.some.inj e1
    rw [hone hx, hone h2] at e2
    exact e2
  refine ⟨⟨m, y⟩, rfl, h2, h3, fun junk hj => by rw [hf junk hj x hx rfl, hall junk hj]; rfl, fun g hg hq junk hj => ?_⟩
  obtain ⟨τ, hτ, -⟩ := hS.grid g hg hq
  obtain ⟨y', e1, -, -, e2⟩ := h g hg τ j0 junk hj0 hj
  rw [h1] at e1
  obtain rfl := Option.some.inj e1
  rw [act_eq rep hτ, act_eq rep hτ, hf junk hj _ (transform_wf _ _ hx) rfl]
  exact congrArg (Option.map _) e2

/-- The symmetries of the grid as permutations of the pixels of a batch. -/
noncomputable def Pix.perm (τ : GSym) (n : ℕ) : Equiv.Perm (Pix B n) := (Equiv.refl B).prodCongr (τ.perm n)

theorem Pix.perm_coe (τ : GSym) (n : ℕ) : (Pix.perm τ n : Pix B n → Pix B n) = Pix.move τ := by
  funext q
  rfl

/-- A list of trivial fields transforms by its positions only. -/
theorem transform_triv_type {P : Type} {sz : F → ℕ} {ρ : F → Mat} {triv : F} (h1 : sz triv = 1) (h2 : ρ triv 0 0 = 1) (k : ℕ) (d : List (P → ℝ))
    (hd : d.length = k) (hk : 0 < k) (π : P → P) :
    (⟨List.replicate k triv, d⟩ : GTensor F (P → ℝ)).WF sz ∧
      (⟨List.replicate k triv, d⟩ : GTensor F (P → ℝ)).transform sz ρ π = moveScalars π ⟨List.replicate k triv, d⟩ := by
  have hs : typeSize sz (List.replicate k triv) = k := by simp [typeSize, h1]
  have hwf : (⟨List.replicate k triv, d⟩ : GTensor F (P → ℝ)).WF sz := ⟨by simp; omega, by rw [hs]; exact hd⟩
  have := transform_trivial sz ρ π _ hwf fun r hr => by
    obtain rfl := List.eq_of_mem_replicate hr
    exact ⟨h1, h2⟩
  exact ⟨hwf, by rw [moveScalars, ← this]; rfl⟩

/-- The poolings with one output channel for each field. -/
theorem step_pool {P : Type} {sz : F → ℕ} {ρ : F → Mat} {triv : F} (h1 : sz triv = 1) (h2 : ρ triv 0 0 = 1) {t : List F} (ht : t ≠ []) (π : P → P)
    {f : List (P → ℝ) → GTensor F (P → ℝ) → Option (GTensor F (P → ℝ))} {x x' : GTensor F (P → ℝ)} {junk junk' : List (P → ℝ)}
    (hj : junk.length = t.length) (hj' : junk'.length = t.length)
    (hs : ∀ junk, junk.length = t.length → ∃ d, f junk x' = some ⟨List.replicate t.length triv, d⟩ ∧ d.length = t.length)
    (hd : ∀ j j' : List (P → ℝ), j.length = t.length → j'.length = t.length → f j x' = f j' x')
    (hinv : ∃ y, f junk x = some y ∧ f junk x' = some (moveScalars π y)) :
    ∃ y, f junk x = some y ∧ y.WF sz ∧ y.ty = List.replicate t.length triv ∧ f junk' x' = some (y.transform sz ρ π) := by
  obtain ⟨y, e1, e2⟩ := hinv
  obtain ⟨d, e3, e4⟩ := hs junk hj
  have hk : 0 < t.length := List.length_pos_iff.2 ht
  rw [e3] at e2
  have e5 := Option.some.inj e2
  obtain ⟨ty, dy⟩ := y
  obtain rfl : ty = List.replicate t.length triv := (congrArg GTensor.ty e5).symm
  have hl : dy.length = t.length := by
    have := congrArg (fun z => z.data.length) e5
    simp only [moveScalars, List.length_map] at this
    omega
  obtain ⟨w1, w2⟩ := transform_triv_type (ρ := ρ) h1 h2 t.length dy hl hk π
  refine ⟨_, e1, w1, rfl, ?_⟩
  rw [hd junk' junk hj' hj, e3, e5, w2]

theorem groupPooling_junk {P : Type} (sz : F → ℕ) (t : List F) (triv : F) (htriv : sz triv = 1) (f : List (P → ℝ) → P → ℝ) (hpos : ∀ r ∈ t, 0 < sz r)
    (x : GTensor F (P → ℝ)) (hx : x.WF sz) (hxt : x.ty = t) (j j' : List (P → ℝ)) (hj : j.length = t.length) (hj' : j'.length = t.length) :
    poolBySize sz t triv f j x = poolBySize sz t triv f j' x := by
  obtain ⟨d, h1, h2, h3⟩ := poolBySize_spec sz t (hxt ▸ hx.1) triv htriv f hpos j hj x hx hxt
  obtain ⟨d', h1', h2', h3'⟩ := poolBySize_spec sz t (hxt ▸ hx.1) triv htriv f hpos j' hj' x hx hxt
  rw [h1, h1']
  congr 2
  apply List.ext_getElem?
  intro c
  by_cases hc : c < t.length
  · rw [h3 c hc, h3' c hc]
  · rw [List.getElem?_eq_none (by omega), List.getElem?_eq_none (by omega)]

theorem inducedNormPool_junk {P : Type} (sz sub : F → ℕ) (t : List F) (triv : F) (htriv : sz triv = 1) (hpos : ∀ r ∈ t, 0 < sz r) (hdiv : ∀ r ∈ t, sub r ∣ sz r)
    (x : GTensor F (P → ℝ)) (hx : x.WF sz) (hxt : x.ty = t) (j j' : List (P → ℝ)) (hj : j.length = t.length) (hj' : j'.length = t.length) :
    inducedNormPool sz sub t triv j x = inducedNormPool sz sub t triv j' x := by
  obtain ⟨d, h1, h2, h3⟩ := inducedNormPool_spec sz sub t triv htriv hpos hdiv j hj x hx hxt
  obtain ⟨d', h1', h2', h3'⟩ := inducedNormPool_spec sz sub t triv htriv hpos hdiv j' hj' x hx hxt
  rw [h1, h1']
  congr 2
  apply List.ext_getElem?
  intro c
  by_cases hc : c < t.length
  · have := List.getElem?_eq_getElem hc
    rw [h3 c _ this, h3' c _ this]
  · rw [List.getElem?_eq_none (by omega), List.getElem?_eq_none (by omega)]

/-! ### The convolutions -/

theorem step_img {Sp : Space El} {rep : F → Repr El} {built : (F → F → List (A × (ℝ × ℝ → Mat))) → (A → I) → Prop} (hS : NetSpace Sp rep built)
    {fwd : ((c n : ℕ) → List (Pix B n → ℝ)) → ETensor F B → Option (ETensor F B)} {inT outT : List F} (ho : outT ≠ []) {n m : ℕ} (L : Fmap → Fmap)
    (hc : ∀ x x', FEq (typeSize (fun r => (rep r).size) inT) n x x' → FEq (typeSize (fun r => (rep r).size) outT) m (L x) (L x'))
    (hL : ∀ g, Sp.G.isEl g → Sp.grid g → ∀ x, FEq (typeSize (fun m => (rep m).size) outT) m
          (L (fieldAct (typeSize (fun m => (rep m).size) inT) (typeMat rep inT g) (Sp.base n g) x))
          (fieldAct (typeSize (fun m => (rep m).size) outT) (typeMat rep outT g) (Sp.base m g) (L x)))
    (hf : ∀ junk (z : List (Pix B n → ℝ)), z.length = typeSize (fun r => (rep r).size) inT →
      fwd junk ⟨n, inT, z⟩ = some ⟨m, outT, imgLayer L (typeSize (fun r => (rep r).size) outT) z⟩)
    (x : GTensor F (Pix B n → ℝ)) (hx : x.WF fun r => (rep r).size) (hxt : x.ty = inT) : Step Sp rep fwd ⟨n, x⟩ m outT := by
  subst hxt
  refine ⟨⟨m, outT, imgLayer L (typeSize (fun r => (rep r).size) outT) x.data⟩, rfl, ⟨ho, by simp [imgLayer]⟩, rfl, fun junk _ => hf junk _ hx.2,
    fun g hg hq junk _ => ?_⟩
  obtain ⟨τ, hτ, -⟩ := hS.grid g hg hq
  rw [← imgLayer_equivariant hτ L hc (hL g hg hq)]
  refine hf junk _ ?_
  simp [ETensor.act]

theorem step_conv {Sp : Space El} {rep : F → Repr El} {built : (F → F → List (A × (ℝ × ℝ → Mat))) → (A → I) → Prop} (hS : NetSpace Sp rep built)
    {n m : ℕ} (c : ConvCfg A I) (basis : F → F → List (A × (ℝ × ℝ → Mat))) (inT outT : List F) (w b : List ℝ)
    (hl : (Layer.conv c basis inT outT w b).Ok Sp rep built n m) (x : GTensor F (Pix B n → ℝ)) (hx : x.WF fun r => (rep r).size) (hxt : x.ty = inT) :
    Step Sp rep (fun junk => (Layer.conv c basis inT outT w b).forward rep junk) ⟨n, x⟩ m outT := by
  obtain ⟨hi, hb, hg, ⟨inG, hG, hone, hw⟩, hpad, hm, hdiv⟩ := hl
  obtain ⟨layer, h1, h2⟩ := (hS.conv basis c.ident inT outT hb hi).1 c inG n m w b rfl hg hG hone hw hpad hm hdiv
  obtain ⟨hin, outG, hout⟩ := convGroups_spec hG hg hi.inNe hi.outNe
  have hsi : typeSize (fun r => (rep r).size) inT = c.groups * typeSize (fun r => (rep r).size) inG := by
    rw [hin]; exact typeSize_flatten _ _ _
  have hso : typeSize (fun r => (rep r).size) outT = c.groups * typeSize (fun r => (rep r).size) outG := by
    rw [hout]; exact typeSize_flatten _ _ _
  have hcin : typeSize (fun r => (rep r).size) inT / c.groups = typeSize (fun r => (rep r).size) inG := by
    rw [hsi]; exact Nat.mul_div_cancel_left _ hg
  have hcout : typeSize (fun r => (rep r).size) outT / c.groups = typeSize (fun r => (rep r).size) outG := by
    rw [hso]; exact Nat.mul_div_cancel_left _ hg
  have hf : ∃ f, (c.exp rep inG outT basis).forward w = some f ∧
      layer = conv2d c.mode n c.p c.k c.s c.d (typeSize (fun r => (rep r).size) inG) (typeSize (fun r => (rep r).size) outG)
        (reshapeFilter c.k f) (outBias rep outT b) := by
    have e := h1 0
    simp only [r2conv, hG] at e
    cases hf : (c.exp rep inG outT basis).forward w with
    | none => rw [hf] at e; simp at e
    | some f =>
      refine ⟨f, rfl, funext fun z => ?_⟩
      have e := h1 z
      simp only [r2conv, hG, hf, hcout] at e
      exact (Option.some.inj e).symm
  obtain ⟨f, hf, rfl⟩ := hf
  refine step_img hS hi.outNe _ ?_ h2 ?_ x hx hxt
  · intro z z' h
    rw [hsi] at h
    rw [hso]
    exact conv2d_congr hpad hm _ _ h
  · intro junk z hz
    simp only [Layer.forward, hG, hf, wrapped, if_pos, runConv, ETensor.plain, hz, hm, hcin, hcout, Option.map_some, mkE, mkGT]
    rw [if_pos (by simp)]
    rfl

theorem step_convT {Sp : Space El} {rep : F → Repr El} {built : (F → F → List (A × (ℝ × ℝ → Mat))) → (A → I) → Prop} (hS : NetSpace Sp rep built)
    {n m : ℕ} (c : ConvCfg A I) (basis : F → F → List (A × (ℝ × ℝ → Mat))) (inT outT : List F) (w b : List ℝ)
    (hl : (Layer.convT c basis inT outT w b).Ok Sp rep built n m) (x : GTensor F (Pix B n → ℝ)) (hx : x.WF fun r => (rep r).size) (hxt : x.ty = inT) :
    Step Sp rep (fun junk => (Layer.convT c basis inT outT w b).forward rep junk) ⟨n, x⟩ m outT := by
  obtain ⟨hi, hb, hg, ⟨outG, hG, hone, hw⟩, hm, hm0⟩ := hl
  obtain ⟨layer, h1, h2⟩ := (hS.conv basis c.ident inT outT hb hi).2 c outG n m w b rfl hg hG hone hw hm hm0
  obtain ⟨hout, inG, hin⟩ := convGroups_spec ((transGroups_eq _ _ _).symm.trans hG) hg hi.outNe hi.inNe
  have hsi : typeSize (fun r => (rep r).size) inT = c.groups * typeSize (fun r => (rep r).size) inG := by
    rw [hin]; exact typeSize_flatten _ _ _
  have hso : typeSize (fun r => (rep r).size) outT = c.groups * typeSize (fun r => (rep r).size) outG := by
    rw [hout]; exact typeSize_flatten _ _ _
  have hcin : typeSize (fun r => (rep r).size) inT / c.groups = typeSize (fun r => (rep r).size) inG := by
    rw [hsi]; exact Nat.mul_div_cancel_left _ hg
  have hcout : typeSize (fun r => (rep r).size) outT / c.groups = typeSize (fun r => (rep r).size) outG := by
    rw [hso]; exact Nat.mul_div_cancel_left _ hg
  have hf : ∃ f, (c.exp rep inT outG basis).forward w = some f ∧
      layer = convT2d n c.p c.k c.s c.d (typeSize (fun r => (rep r).size) inG) (typeSize (fun r => (rep r).size) outG)
        (transposeFilter c.k f) (outBias rep outT b) := by
    have e := h1 0
    simp only [r2convT, hG] at e
    cases hf : (c.exp rep inT outG basis).forward w with
    | none => rw [hf] at e; simp at e
    | some f =>
      refine ⟨f, rfl, funext fun z => ?_⟩
      have e := h1 z
      simp only [r2convT, hG, hf, hcin] at e
      exact (Option.some.inj e).symm
  obtain ⟨f, hf, rfl⟩ := hf
  refine step_img hS hi.outNe _ ?_ h2 ?_ x hx hxt
  · intro z z' h
    rw [hsi] at h
    rw [hso]
    exact convT2d_congr _ _ h
  · intro junk z hz
    simp only [Layer.forward, hG, hf, wrapped, if_pos, runConvT, ETensor.plain, hz, hm, hcin, hcout, Option.map_some, mkE, mkGT]
    rw [if_pos (by simp)]
    rfl

/-! ### All modules -/

theorem layer_step {Sp : Space El} {rep : F → Repr El} {built : (F → F → List (A × (ℝ × ℝ → Mat))) → (A → I) → Prop} (hS : NetSpace Sp rep built)
    (l : Layer F A I) {n m : ℕ} (hl : l.Ok Sp rep built n m) (x : GTensor F (Pix B n → ℝ)) (hx : x.WF fun r => (rep r).size) (hxt : x.ty = l.inTy) :
    Step Sp rep (fun junk => l.forward rep junk) ⟨n, x⟩ m l.outTy := by
  have hpos : ∀ t : List F, ∀ r ∈ t, 0 < (rep r).size := fun _ r _ => hS.pos r
  cases l with
  | conv c basis inT outT w b => exact step_conv hS c basis inT outT w b hl x hx hxt
  | convT c basis inT outT w b => exact step_convT hS c basis inT outT w b hl x hx hxt
  | pointwise t f =>
    have hxt : x.ty = t := hxt
    have hne : t ≠ [] := hxt ▸ hx.1
    obtain ⟨rfl, hp⟩ := hl
    refine step_of hS x hx (fun _ => E2.pointwise (fun r => (rep r).size) t f) (fun _ _ _ _ _ => rfl) fun g hg τ _ _ _ _ => ?_
    obtain ⟨y, h1, h2, h3⟩ := c33_pointwise (fun r => (rep r).size) t f (fun r => (rep r).mat g) (fun r hr => hp r hr g hg) (Pix.move τ) x hx hxt
    refine ⟨y, h1, ?_, h2, h3⟩
    have e := h1
    rw [E2.pointwise, if_pos hxt] at e
    obtain ⟨e1, rfl⟩ := mkGT_eq_some.1 e
    exact ⟨hne, e1⟩
  | norm t f eps bias =>
    have hxt : x.ty = t := hxt
    have hne : t ≠ [] := hxt ▸ hx.1
    obtain ⟨rfl, hp⟩ := hl
    refine step_of hS x hx (fun junk => normNonlin (fun r => (rep r).size) t f eps bias (junk (typeSize (fun r => (rep r).size) t) m)) (fun _ _ _ _ _ => rfl)
      fun g hg τ junk junk' hj hj' => ?_
    obtain ⟨y, h1, h2⟩ := c34_norm_equivariant (fun r => (rep r).size) t (hpos t) f eps bias (fun r => (rep r).mat g) (fun r hr => hp r hr g hg) (Pix.move τ)
      (junk _ m) (junk' _ m) (hj _ _) (hj' _ _) x hx hxt
    obtain ⟨ord, -, hall⟩ := c34_norm_scalars (P := Pix B m) (fun r => (rep r).size) t hne (hpos t) f eps bias
    obtain ⟨y', e1, e2, e3, -⟩ := hall (junk _ m) x (hj _ _) hx hxt
    obtain rfl := Option.some.inj (h1.symm.trans e1)
    exact ⟨y, h1, e2, e3, h2⟩
  | inducedNorm t subs f eps bias =>
    have hxt : x.ty = t := hxt
    have hne : t ≠ [] := hxt ▸ hx.1
    obtain ⟨rfl, hc, hp⟩ := hl
    refine step_of hS x hx (fun junk => E2.inducedNorm (fun r => (rep r).size) subs t f eps bias (junk (typeSize (fun r => (rep r).size) t) m))
      (fun _ _ _ _ _ => rfl) fun g hg τ junk junk' hj hj' => ?_
    obtain ⟨y, h1, h2⟩ := c55_norm_equivariant (fun r => (rep r).size) subs t (hpos t) hc f eps bias (fun r => (rep r).mat g) (fun r hr => hp r hr g hg)
      (Pix.move τ) (junk _ m) (junk' _ m) (hj _ _) (hj' _ _) x hx hxt
    obtain ⟨ord, -, hall⟩ := c55_norm_scalars (P := Pix B m) (fun r => (rep r).size) subs t hne (hpos t) hc f eps bias
    obtain ⟨y', e1, e2, e3, -⟩ := hall (junk _ m) x (hj _ _) hx hxt
    obtain rfl := Option.some.inj (h1.symm.trans e1)
    exact ⟨y, h1, e2, e3, h2⟩
  | gated t trivial supports gates drop σ bias =>
    have hxt : x.ty = t := hxt
    have hne : t ≠ [] := hxt ▸ hx.1
    obtain ⟨rfl, hc, hb, ht⟩ := hl
    refine step_of hS x hx (fun junk => gated1 (fun r => (rep r).size) trivial supports t gates drop σ bias
      (junk (typeSize (fun r => (rep r).size) (gated1Out t gates drop)) m)) (fun _ _ _ _ _ => rfl) fun g hg τ junk junk' hj hj' => ?_
    obtain ⟨y, h1, h2⟩ := c34_gated1_equivariant (fun r => (rep r).size) trivial supports t (hpos t) gates drop hc σ bias hb (fun r => (rep r).mat g)
      (Pix.move τ) (fun r hr => ⟨(ht r hr).1, (ht r hr).2 g hg⟩) (junk _ m) (junk' _ m) (hj _ _) (hj' _ _) x hx hxt
    obtain ⟨ord, -, hall⟩ := c34_gated1_scalars (P := Pix B m) (fun r => (rep r).size) trivial supports (fun r hr => (ht r hr).1) t hne (hpos t)
      gates drop hc σ bias hb
    obtain ⟨y', e1, e2, e3, -⟩ := hall (junk _ m) x (hj _ _) hx hxt
    obtain rfl := Option.some.inj (h1.symm.trans e1)
    exact ⟨y, h1, e2, e3, h2⟩
  | innerBatchNorm t momentum eps track w b training st =>
    have hxt : x.ty = t := hxt
    have hne : t ≠ [] := hxt ▸ hx.1
    obtain ⟨rfl, hp⟩ := hl
    refine step_of hS x hx (fun junk z => (E2.innerBatchNorm (fun r => (rep r).size) t momentum eps track w b training st (junk z.data.length m) z).map Prod.snd)
      (fun _ _ _ _ _ => by simp [Layer.forward, Option.map_map, Function.comp_def]) fun g hg τ junk junk' hj hj' => ?_
    obtain ⟨st', y, h1, h2, h3, h4⟩ := c37_inner (fun r => (rep r).size) t (hpos t) momentum eps track w b (fun r => (rep r).mat g) (fun r hr => hp r hr g hg)
      (Pix.perm τ m) training st x hx hxt (junk x.data.length m)
      (junk' (x.transform (fun r => (rep r).size) (fun r => (rep r).mat g) (Pix.move τ)).data.length m) (hj _ _)
      (by rw [hj', (transform_wf _ _ hx).2, hx.2]; rfl)
    rw [Pix.perm_coe] at h4
    exact ⟨y, by rw [h1]; rfl, h2, h3, by rw [h4]; rfl⟩
  | normBatchNorm t momentum eps w training st =>
    have hxt : x.ty = t := hxt
    have hne : t ≠ [] := hxt ▸ hx.1
    obtain ⟨rfl, hp⟩ := hl
    refine step_of hS x hx (fun _ z => (E2.normBatchNorm (fun r => (rep r).size) t momentum eps w training st z).map Prod.snd)
      (fun _ _ _ _ _ => by simp [Layer.forward, Option.map_map, Function.comp_def]) fun g hg τ junk junk' hj hj' => ?_
    obtain ⟨st', y, h1, h2, h3, h4⟩ := c37_norm (fun r => (rep r).size) t (hpos t) momentum eps w (fun r => (rep r).mat g) (fun r hr => hp r hr g hg)
      (Pix.perm τ m) training st x hx hxt
    rw [Pix.perm_coe] at h4
    exact ⟨y, by rw [h1]; rfl, h2, h3, by rw [h4]; rfl⟩
  | inducedBatchNorm t sub momentum eps w training st =>
    have hxt : x.ty = t := hxt
    have hne : t ≠ [] := hxt ▸ hx.1
    obtain ⟨rfl, hp⟩ := hl
    refine step_of hS x hx (fun _ z => (inducedNormBatchNorm (fun r => (rep r).size) sub t momentum eps w training st z).map Prod.snd)
      (fun _ _ _ _ _ => by simp [Layer.forward, Option.map_map, Function.comp_def]) fun g hg τ junk junk' hj hj' => ?_
    obtain ⟨st', y, h1, h2, h3, h4⟩ := c37_induced (fun r => (rep r).size) sub t (hpos t) momentum eps w (fun r => (rep r).mat g) (fun r hr => hp r hr g hg)
      (Pix.perm τ m) training st x hx hxt
    rw [Pix.perm_coe] at h4
    exact ⟨y, by rw [h1]; rfl, h2, h3, by rw [h4]; rfl⟩
  | gnormBatchNorm t order momentum eps w b training st =>
    have hxt : x.ty = t := hxt
    have hne : t ≠ [] := hxt ▸ hx.1
    obtain ⟨rfl, hn, ho, hp⟩ := hl
    refine step_of hS x hx (fun junk z => (E2.gnormBatchNorm rep t order momentum eps w b training st (junk z.data.length m) z).map Prod.snd)
      (fun _ _ _ _ _ => by simp [Layer.forward, Option.map_map, Function.comp_def]) fun g hg τ junk junk' hj hj' => ?_
    obtain ⟨st', y, h1, h2, h3, h4⟩ := c37_gnorm rep t order hn ho (hpos t) momentum eps w b g (fun r hr => hp r hr g hg)
      (Pix.perm τ m) training st x hx hxt (junk x.data.length m)
      (junk' (x.transform (fun r => (rep r).size) (fun r => (rep r).mat g) (Pix.move τ)).data.length m) (hj _ _)
      (by rw [hj', (transform_wf _ _ hx).2, hx.2]; rfl)
    rw [Pix.perm_coe] at h4
    exact ⟨y, by rw [h1]; rfl, h2, h3, by rw [h4]; rfl⟩
  | maxPool t k s p d ceil =>
    have hxt : x.ty = t := hxt
    have hne : t ≠ [] := hxt ▸ hx.1
    obtain ⟨hm, hc, hp⟩ := hl
    refine step_of hS x hx (fun _ => pointwiseMaxPool (fun r => (rep r).size) t n p k s d m) (fun _ _ _ _ _ => by simp [Layer.forward, hm]) fun g hg τ _ _ _ _ =>
      c39_maxpool (fun r => (rep r).size) t hc (fun r => (rep r).mat g) (fun r hr => hp r hr g hg) τ x hx hxt
  | maxPoolAntialiased t k s p ceil fs sigma =>
    have hxt : x.ty = t := hxt
    have hne : t ≠ [] := hxt ▸ hx.1
    obtain ⟨⟨n1, hm1, hm, hc1, hc⟩, hp⟩ := hl
    refine step_of hS x hx (fun _ => pointwiseMaxPoolAA (fun r => (rep r).size) t n p k s n1 m fs sigma) (fun _ _ _ _ _ => by simp [Layer.forward, hm1, hm])
      fun g hg τ _ _ _ _ => c39_maxpool_antialiased (fun r => (rep r).size) t sigma hc1 hc (fun r => (rep r).mat g) (fun r hr => hp r hr g hg) τ x hx hxt
  | avgPool t k s p ceil =>
    have hxt : x.ty = t := hxt
    have hne : t ≠ [] := hxt ▸ hx.1
    obtain ⟨hm, hc⟩ := hl
    refine step_of hS x hx (fun _ => pointwiseAvgPool (fun r => (rep r).size) t n p k s m) (fun _ _ _ _ _ => by simp [Layer.forward, hm]) fun g hg τ _ _ _ _ =>
      c39_avgpool (fun r => (rep r).size) t hc (fun r => (rep r).mat g) τ x hx hxt
  | avgPoolAntialiased t s p fs sigma =>
    have hxt : x.ty = t := hxt
    have hne : t ≠ [] := hxt ▸ hx.1
    obtain ⟨hm, hc⟩ := hl
    refine step_of hS x hx (fun _ => pointwiseAvgPoolAA (fun r => (rep r).size) t n p s m fs sigma) (fun _ _ _ _ _ => by simp [Layer.forward, hm])
      fun g hg τ _ _ _ _ => c39_avgpool_antialiased (fun r => (rep r).size) t sigma hc (fun r => (rep r).mat g) τ x hx hxt
  | adaptiveAvgPool t m' =>
    have hxt : x.ty = t := hxt
    have hne : t ≠ [] := hxt ▸ hx.1
    obtain rfl := hl
    exact step_of hS x hx (fun _ => pointwiseAdaptiveAvg (fun r => (rep r).size) t n m) (fun _ _ _ _ _ => rfl)
      fun g hg τ _ _ _ _ => c39_adaptive_avg (fun r => (rep r).size) t n m (fun r => (rep r).mat g) τ x hx hxt
  | adaptiveMaxPool t m' =>
    have hxt : x.ty = t := hxt
    have hne : t ≠ [] := hxt ▸ hx.1
    obtain ⟨rfl, hp⟩ := hl
    exact step_of hS x hx (fun _ => pointwiseAdaptiveMax (fun r => (rep r).size) t n m) (fun _ _ _ _ _ => rfl)
      fun g hg τ _ _ _ _ => c39_adaptive_max (fun r => (rep r).size) t n m (fun r => (rep r).mat g) (fun r hr => hp r hr g hg) τ x hx hxt
  | groupPool t triv =>
    have hxt : x.ty = t := hxt
    have hne : t ≠ [] := hxt ▸ hx.1
    obtain ⟨rfl, ⟨ht1, ht2⟩, hp⟩ := hl
    refine step_of hS x hx (fun junk => groupPooling (fun r => (rep r).size) t triv (junk t.length m)) (fun _ _ _ _ _ => rfl) fun g hg τ junk junk' hj hj' => ?_
    have hx' := transform_wf (fun r => (rep r).mat g) (Pix.move τ) hx
    obtain ⟨y, h1, -, h3⟩ := c36_groupPooling_invariant (fun r => (rep r).size) t triv ht1 (hpos t) (junk t.length m) (hj _ _) x hx hxt (fun r => (rep r).mat g)
      (fun r hr => hp r hr g hg) (Pix.move τ)
    refine step_pool (F := F) (sz := fun r => (rep r).size) (ρ := fun r => (rep r).mat g) (triv := triv) (t := t) ht1 (ht2 g hg) hne (Pix.move τ) (f := groupPooling (fun r => (rep r).size) t triv) (hj _ _) (hj' _ _) (fun j hj => ?_)
      (fun j j' hj hj' => groupPooling_junk _ t triv ht1 _ (hpos t) _ hx' hxt j j' hj hj') ⟨y, h1, h3⟩
    obtain ⟨d, e1, e2, -⟩ := c36_groupPooling_max (fun r => (rep r).size) t triv ht1 (hpos t) j hj _ hx' hxt
    exact ⟨d, e1, e2⟩
  | normPool t triv =>
    have hxt : x.ty = t := hxt
    have hne : t ≠ [] := hxt ▸ hx.1
    obtain ⟨rfl, ⟨ht1, ht2⟩, hp⟩ := hl
    refine step_of hS x hx (fun junk => E2.normPool (fun r => (rep r).size) t triv (junk t.length m)) (fun _ _ _ _ _ => rfl) fun g hg τ junk junk' hj hj' => ?_
    have hx' := transform_wf (fun r => (rep r).mat g) (Pix.move τ) hx
    obtain ⟨y, h1, -, h3⟩ := c36_normPool_invariant (fun r => (rep r).size) t triv ht1 (hpos t) (junk t.length m) (hj _ _) x hx hxt (fun r => (rep r).mat g)
      (fun r hr => hp r hr g hg) (Pix.move τ)
    refine step_pool (F := F) (sz := fun r => (rep r).size) (ρ := fun r => (rep r).mat g) (triv := triv) (t := t) ht1 (ht2 g hg) hne (Pix.move τ) (f := E2.normPool (fun r => (rep r).size) t triv) (hj _ _) (hj' _ _) (fun j hj => ?_)
      (fun j j' hj hj' => groupPooling_junk _ t triv ht1 _ (hpos t) _ hx' hxt j j' hj hj') ⟨y, h1, h3⟩
    obtain ⟨d, e1, e2, -⟩ := c36_normPool_norm (fun r => (rep r).size) t triv ht1 (hpos t) j hj _ hx' hxt
    exact ⟨d, e1, e2⟩
  | inducedNormPool t sub triv =>
    have hxt : x.ty = t := hxt
    have hne : t ≠ [] := hxt ▸ hx.1
    obtain ⟨rfl, ⟨ht1, ht2⟩, hd, hp⟩ := hl
    refine step_of hS x hx (fun junk => E2.inducedNormPool (fun r => (rep r).size) sub t triv (junk t.length m)) (fun _ _ _ _ _ => rfl)
      fun g hg τ junk junk' hj hj' => ?_
    have hx' := transform_wf (fun r => (rep r).mat g) (Pix.move τ) hx
    obtain ⟨y, h1, -, h3⟩ := c36_inducedNorm_invariant (fun r => (rep r).size) sub t triv ht1 (hpos t) hd (junk t.length m) (hj _ _) x hx hxt
      (fun r => (rep r).mat g) (fun r hr => hp r hr g hg) (Pix.move τ)
    refine step_pool (F := F) (sz := fun r => (rep r).size) (ρ := fun r => (rep r).mat g) (triv := triv) (t := t) ht1 (ht2 g hg) hne (Pix.move τ) (f := E2.inducedNormPool (fun r => (rep r).size) sub t triv) (hj _ _) (hj' _ _) (fun j hj => ?_)
      (fun j j' hj hj' => inducedNormPool_junk _ sub t triv ht1 (hpos t) hd _ hx' hxt j j' hj hj') ⟨y, h1, h3⟩
    obtain ⟨d, e1, e2, -⟩ := c36_inducedNorm_max (fun r => (rep r).size) sub t triv ht1 (hpos t) hd j hj _ hx' hxt
    exact ⟨d, e1, e2⟩
  | mask t S margin =>
    have hxt : x.ty = t := hxt
    have hne : t ≠ [] := hxt ▸ hx.1
    obtain ⟨rfl, rfl⟩ := hl
    exact step_of hS x hx (fun _ => maskModule (fun r => (rep r).size) t m margin) (fun _ _ _ _ _ => by simp [Layer.forward])
      fun g hg τ _ _ _ _ => c39_mask (fun r => (rep r).size) t m margin (fun r => (rep r).mat g) τ x hx hxt
  | upsample t c =>
    have hxt : x.ty = t := hxt
    have hne : t ≠ [] := hxt ▸ hx.1
    obtain ⟨hn, step, hu, hsym⟩ := hl
    exact step_of hS x hx (fun _ => r2Upsampling (fun r => (rep r).size) t c n m step) (fun _ _ _ _ _ => by simp [Layer.forward, hu])
      fun g hg τ _ _ _ _ => c54_upsampling (fun r => (rep r).size) t c hn hu hsym (fun r => (rep r).mat g) τ x hx hxt
  | dropout t p inplace =>
    have hxt : x.ty = t := hxt
    have hne : t ≠ [] := hxt ▸ hx.1
    obtain rfl := hl
    refine step_of hS x hx (fun _ => some) (fun junk _ z _ hz => ?_) fun g hg τ _ _ _ _ => ⟨x, rfl, hx, hxt, rfl⟩
    have hz : t = z.ty := (hz.trans hxt).symm
    subst hz
    rw [Layer.forward, c38_eval]
  | identity t =>
    have hxt : x.ty = t := hxt
    have hne : t ≠ [] := hxt ▸ hx.1
    obtain rfl := hl
    refine step_of hS x hx (fun _ => some) (fun junk _ z _ hz => ?_) fun g hg τ _ _ _ _ => ⟨x, rfl, hx, hxt, rfl⟩
    have hz : z.ty = t := hz.trans hxt
    rw [Layer.forward, if_pos hz]
    rfl
  | concatenated t out f =>
    have hxt : x.ty = t := hxt
    obtain ⟨rfl, hp⟩ := hl
    exact step_of hS x hx (fun _ => E2.concatenated (fun r => (rep r).size) out t f) (fun _ _ _ _ _ => rfl) fun g hg τ _ _ _ _ =>
      concatenated_step (fun r => (rep r).size) out t (fun r hr => (hp r hr).1) f (fun r => (rep r).mat g) (fun r hr => ((hp r hr).2 g hg).1)
        (fun r hr => ((hp r hr).2 g hg).2) (Pix.move τ) x hx hxt
  | reshuffle t perm =>
    obtain rfl : x.ty = t := hxt
    obtain ⟨rfl, hp⟩ := hl
    exact step_of hS x hx (fun _ => E2.reshuffle (fun r => (rep r).size) perm) (fun _ _ z _ hz => by rw [Layer.forward, if_pos hz]) fun g hg τ _ _ _ _ =>
      reshuffle_step (fun r => (rep r).size) (fun r => (rep r).mat g) (Pix.move τ) perm x hx hp


/-! ### Sequences of modules -/

theorem net_step {Sp : Space El} {rep : F → Repr El} {built : (F → F → List (A × (ℝ × ℝ → Mat))) → (A → I) → Prop} (hS : NetSpace Sp rep built)
    (net : List (K × Layer F A I)) {n m : ℕ} (hok : NetOk Sp rep built (net.map Prod.snd) n m)
    (hfit : (net.map Prod.snd).IsChain fun a b => a.outTy = b.inTy) (x : ETensor F B) (hn : x.n = n) (hx : x.x.WF fun r => (rep r).size)
    (hxt : ∀ l ∈ net.head?, x.x.ty = l.2.inTy) :
    ∃ y : ETensor F B, y.n = m ∧ y.x.WF (fun r => (rep r).size) ∧ (∀ l ∈ net.getLast?, y.x.ty = l.2.outTy) ∧
      (∀ junk : K → (c n : ℕ) → List (Pix B n → ℝ), (∀ k, JunkOk (junk k)) →
        compose ((net.map fun l => (l.1, l.2.toMod rep (junk l.1))).map Prod.snd) x = some y) ∧
      ∀ g, Sp.G.isEl g → Sp.grid g → ∀ junk : K → (c n : ℕ) → List (Pix B n → ℝ), (∀ k, JunkOk (junk k)) →
        compose ((net.map fun l => (l.1, l.2.toMod rep (junk l.1))).map Prod.snd) (x.act Sp rep g) = some (y.act Sp rep g) := by
  induction net generalizing n x with
  | nil =>
    simp only [List.map_nil, NetOk] at hok
    exact ⟨x, by omega, hx, by simp, fun _ _ => rfl, fun _ _ _ _ _ => rfl⟩
  | cons p net ih =>
    obtain ⟨k, l⟩ := p
    obtain ⟨n1, h1, h2⟩ := hok
    obtain ⟨n0, x⟩ := x
    obtain rfl : n0 = n := hn
    obtain ⟨y, e1, e2, e3, e4, e5⟩ := layer_step (B := B) hS l h1 x hx (hxt (k, l) rfl)
    have hfit' : (net.map Prod.snd).IsChain fun a b => a.outTy = b.inTy := by
      rw [List.map_cons] at hfit
      exact hfit.tail
    obtain ⟨z, f1, f2, f3, f4, f5⟩ := ih h2 hfit' y e1 e2 (fun l' hl' => by
      cases net with
      | nil => simp at hl'
      | cons q net =>
        obtain rfl : q = l' := by simpa using hl'
        rw [List.map_cons, List.map_cons, List.isChain_cons_cons] at hfit
        exact e3.trans hfit.1)
    refine ⟨z, f1, f2, fun l' hl' => ?_, fun junk hj => ?_, fun g hg hq junk hj => ?_⟩
    · cases net with
      | nil =>
        obtain rfl : (k, l) = l' := by simpa using hl'
        have := f4 (fun _ c n => List.replicate c 0) fun _ _ _ => List.length_replicate
        simp only [List.map_nil, compose, Option.some.injEq] at this
        rw [← this]
        exact e3
      | cons q net => exact f3 l' (by simpa using hl')
    · exact (congrArg (fun o => Option.bind o _) (e4 _ (hj k))).trans (f4 junk hj)
    · exact (congrArg (fun o => Option.bind o _) (e5 g hg hq _ (hj k))).trans (f5 g hg hq junk hj)

/-- **C62, all spaces**: a `SequentialModule` of modules with different names, whose types fit and which are used as they should be on images with `n × n`
pixels, accepts every tensor of its input type, returns a tensor of its output type with `m × m` pixels, whatever the contents of new memory, and for every
element which permutes the pixels it sends the transformed tensor to the transformed output. -/
theorem c62_network [DecidableEq K] {Sp : Space El} {rep : F → Repr El} {built : (F → F → List (A × (ℝ × ℝ → Mat))) → (A → I) → Prop}
    (hS : NetSpace Sp rep built) (net : List (K × Layer F A I)) (hne : net ≠ []) (hnd : (net.map Prod.fst).Nodup)
    (hfit : (net.map Prod.snd).IsChain fun a b => a.outTy = b.inTy) {n m : ℕ} (hok : NetOk Sp rep built (net.map Prod.snd) n m)
    (x : ETensor F B) (hn : x.n = n) (hx : x.x.WF fun r => (rep r).size) (hxt : x.x.ty = (net.head hne).2.inTy) :
    ∃ y : ETensor F B, y.n = m ∧ y.x.WF (fun r => (rep r).size) ∧ y.x.ty = (net.getLast hne).2.outTy ∧
      (∀ junk : K → (c n : ℕ) → List (Pix B n → ℝ), (∀ k, JunkOk (junk k)) → netForward rep junk net x = some y) ∧
      ∀ g, Sp.G.isEl g → Sp.grid g → ∀ junk : K → (c n : ℕ) → List (Pix B n → ℝ), (∀ k, JunkOk (junk k)) →
        netForward rep junk net (x.act Sp rep g) = some (y.act Sp rep g) := by
  obtain ⟨y, h1, h2, h3, h4, h5⟩ := net_step hS net hok hfit x hn hx fun l hl => by
    rw [List.head?_eq_some_head hne] at hl
    rw [hxt, Option.mem_some.1 hl]
  have h3 : y.x.ty = (net.getLast hne).2.outTy := h3 _ (List.getLast?_eq_some_getLast hne)
  have key : ∀ (junk : K → (c n : ℕ) → List (Pix B n → ℝ)) (z w : ETensor F B), z.x.ty = x.x.ty → w.x.ty = y.x.ty →
      compose ((net.map fun l => (l.1, l.2.toMod rep (junk l.1))).map Prod.snd) z = some w → netForward rep junk net z = some w := by
    intro junk z w hz hw hc
    set ms := net.map fun l => (l.1, l.2.toMod rep (junk l.1)) with hms
    have hnd' : (ms.map Prod.fst).Nodup := by
      rw [hms, List.map_map]
      exact hnd
    have hf : Fits (ms.map Prod.snd) := by
      rw [hms, Fits, List.map_map]
      rw [List.isChain_map] at hfit ⊢
      exact hfit
    obtain ⟨b1, b2⟩ := c41_built ms hnd'
    obtain ⟨st, hst⟩ := Option.isSome_iff_exists.1 (b1 hf)
    obtain ⟨-, c1, c2, c3⟩ := b2 st hst
    have hin : some z.x.ty = st.inTy := by
      rw [c2, hms, List.head?_map, List.head?_eq_some_head hne, hz, hxt]
      rfl
    have hout : some w.x.ty = st.outTy := by
      rw [c3, hms, List.getLast?_map, List.getLast?_eq_some_getLast hne, hw, h3]
      rfl
    rw [netForward, hst, Option.bind_some, seqForward, if_pos hin, c1, runMods_eq, hc, Option.bind_some, if_pos hout]
  exact ⟨y, h1, h2, h3, fun junk hj => key junk x y rfl rfl (h4 junk hj), fun g hg hq junk hj => key junk _ _ rfl rfl (h5 g hg hq junk hj)⟩

/-- **C62, invariant networks**: if in addition the output is a single pixel with fields of the trivial representation, then the network is invariant. -/
theorem c62_invariant [DecidableEq K] {Sp : Space El} {rep : F → Repr El} {built : (F → F → List (A × (ℝ × ℝ → Mat))) → (A → I) → Prop}
    (hS : NetSpace Sp rep built) (net : List (K × Layer F A I)) (hne : net ≠ []) (hnd : (net.map Prod.fst).Nodup)
    (hfit : (net.map Prod.snd).IsChain fun a b => a.outTy = b.inTy) {n : ℕ} (hok : NetOk Sp rep built (net.map Prod.snd) n 1)
    (htriv : ∀ r ∈ (net.getLast hne).2.outTy, (rep r).size = 1 ∧ ∀ g, Sp.G.isEl g → (rep r).mat g 0 0 = 1)
    (x : ETensor F B) (hn : x.n = n) (hx : x.x.WF fun r => (rep r).size) (hxt : x.x.ty = (net.head hne).2.inTy)
    (g : El) (hg : Sp.G.isEl g) (hq : Sp.grid g) (junk junk' : K → (c n : ℕ) → List (Pix B n → ℝ)) (hj : ∀ k, JunkOk (junk k)) (hj' : ∀ k, JunkOk (junk' k)) :
    ∃ y, netForward rep junk net x = some y ∧ netForward rep junk' net (x.act Sp rep g) = some y := by
  obtain ⟨y, h1, h2, h3, h4, h5⟩ := c62_network hS net hne hnd hfit hok x hn hx hxt
  refine ⟨y, h4 junk hj, (h5 g hg hq junk' hj').trans ?_⟩
  obtain ⟨τ, t1, -⟩ := hS.grid g hg hq
  obtain ⟨m, y⟩ := y
  obtain rfl : m = 1 := h1
  rw [act_eq rep t1]
  have hid : (Pix.move τ : Pix B 1 → Pix B 1) = id := by
    funext q
    exact Prod.ext rfl (Subsingleton.elim _ _)
  have hd := transform_trivial (fun r => (rep r).size) (fun r => (rep r).mat g) (Pix.move τ) y h2 fun r hr => by
    rw [h3] at hr
    exact ⟨(htriv r hr).1, (htriv r hr).2 g hg⟩
  rw [hid] at hd ⊢
  have : y.transform (fun r => (rep r).size) (fun r => (rep r).mat g) id = y := by
    obtain ⟨t, d⟩ := y
    refine congrArg (GTensor.mk t) (hd.trans ?_)
    simp
  rw [this]

/-! ### The spaces of the library, with their bases -/

variable (interp : ℝ → Img → Img)

/-- The bases built by `Rot2dOnR2` with `C_N`, with some radial profiles and cut-off frequencies. -/
def builtRot (N : ℕ) (rep : F → Repr ℤ) (basis : F → F → List (A × (ℝ × ℝ → Mat))) (_ : A → I) : Prop :=
  ∃ radials attr maxFreq maxOff, ¬ (maxFreq = none ∧ maxOff = none) ∧ basis = planeBasis 0 radials (fun i o => rotBasis N i o maxFreq maxOff) attr rep

/-- The same for `Rot2dOnR2` with SO(2). -/
def builtSO2 (rep : F → Repr ℝ) (basis : F → F → List (A × (ℝ × ℝ → Mat))) (_ : A → I) : Prop :=
  ∃ radials attr, basis = planeBasis 0 radials contBasis attr rep

/-- The same for `Flip2dOnR2`. -/
def builtFlip (axis : ℝ) (rep : F → Repr ℤ) (basis : F → F → List (A × (ℝ × ℝ → Mat))) (_ : A → I) : Prop :=
  ∃ radials attr maxFreq maxOff, ¬ (maxFreq = none ∧ maxOff = none) ∧ basis = planeBasis axis radials (fun i o => flipsBasis i o maxFreq maxOff) attr rep

/-- The same for `FlipRot2dOnR2` with a dihedral group. -/
def builtFlipRot (N : ℕ) (axis : ℝ) (rep : F → Repr (ℤ × ℤ)) (basis : F → F → List (A × (ℝ × ℝ → Mat))) (_ : A → I) : Prop :=
  ∃ radials attr maxFreq maxOff, ¬ (maxFreq = none ∧ maxOff = none) ∧ basis = planeBasis axis radials (fun i o => flipRotBasis N i o maxFreq maxOff) attr rep

/-- The same for `FlipRot2dOnR2` with O(2). -/
def builtO2 (axis : ℝ) (rep : F → Repr (ℤ × ℝ)) (basis : F → F → List (A × (ℝ × ℝ → Mat))) (_ : A → I) : Prop :=
  ∃ radials attr, basis = planeBasis axis radials flipContBasis attr rep

/-- **C62 for `Rot2dOnR2` with `C_N`**: the hypothesis of `c62_network` and `c62_invariant` about the space. -/
theorem c62_cyclic (N : ℕ) (hN : 0 < N) (rep : F → Repr ℤ) (hr : ∀ r, (rep r).WF ∧ ∀ i ∈ (rep r).irreps, ∃ k, Cyclic.irrep N k = some i)
    (hpos : ∀ r, 0 < (rep r).size) : NetSpace (A := A) (I := I) (rotSpace interp N) rep (builtRot N rep) where
  grid := rotSpace_grid interp N hN
  one := (c01_cyclic_group_laws N hN).1.one_mem
  pos := hpos
  isRep r := Cyclic.isRep_of hN (hr r)
  conv := by
    rintro _ ident inT outT ⟨radials, attr, maxFreq, maxOff, hb, rfl⟩ hi
    exact ⟨c25_cyclic radials attr ident inT outT interp N hN rep (fun r _ => hr r) maxFreq maxOff hb hi,
      c61_cyclic_partial radials attr ident inT outT interp N hN rep (fun r _ => hr r) maxFreq maxOff hb hi⟩

/-- **C62 for `Rot2dOnR2` with SO(2)**. -/
theorem c62_so2 (rep : F → Repr ℝ) (hr : ∀ r, (rep r).WF ∧ ∀ i ∈ (rep r).irreps, ∃ k, i = SO2.irrep k) (hpos : ∀ r, 0 < (rep r).size) :
    NetSpace (A := A) (I := I) (so2Space interp) rep (builtSO2 rep) where
  grid := so2Space_grid interp
  one := trivial
  pos := hpos
  isRep r := SO2.isRep_of (hr r)
  conv := by
    rintro _ ident inT outT ⟨radials, attr, rfl⟩ hi
    exact ⟨c25_so2 radials attr ident inT outT interp rep (fun r _ => hr r) hi, c61_so2_partial radials attr ident inT outT interp rep (fun r _ => hr r) hi⟩

/-- **C62 for `Flip2dOnR2`**. -/
theorem c62_flip (axis : ℝ) (rep : F → Repr ℤ) (hr : ∀ r, (rep r).WF ∧ ∀ i ∈ (rep r).irreps, ∃ k, Cyclic.irrep 2 k = some i)
    (hpos : ∀ r, 0 < (rep r).size) : NetSpace (A := A) (I := I) (flipSpace interp axis) rep (builtFlip axis rep) where
  grid := flipSpace_grid interp axis
  one := (c01_cyclic_group_laws 2 (by omega)).1.one_mem
  pos := hpos
  isRep r := Cyclic.isRep_of (by omega) (hr r)
  conv := by
    rintro _ ident inT outT ⟨radials, attr, maxFreq, maxOff, hb, rfl⟩ hi
    exact ⟨c25_flip radials attr ident inT outT interp axis rep (fun r _ => hr r) maxFreq maxOff hb hi,
      c61_flip_partial radials attr ident inT outT interp axis rep (fun r _ => hr r) maxFreq maxOff hb hi⟩

/-- **C62 for `FlipRot2dOnR2` with a dihedral group**. -/
theorem c62_dihedral (N : ℕ) (hN : 0 < N) (axis : ℝ) (rep : F → Repr (ℤ × ℤ))
    (hr : ∀ r, (rep r).WF ∧ ∀ i ∈ (rep r).irreps, ∃ j k, Dihedral.irrep N j k = some i)
    (hpos : ∀ r, 0 < (rep r).size) : NetSpace (A := A) (I := I) (flipRotSpace interp N axis) rep (builtFlipRot N axis rep) where
  grid := flipRotSpace_grid interp N axis
  one := (c02_dihedral_group_laws N hN).1.one_mem
  pos := hpos
  isRep r := Dihedral.isRep_of hN (hr r)
  conv := by
    rintro _ ident inT outT ⟨radials, attr, maxFreq, maxOff, hb, rfl⟩ hi
    exact ⟨c25_dihedral radials attr ident inT outT interp N hN axis rep (fun r _ => hr r) maxFreq maxOff hb hi,
      c61_dihedral_partial radials attr ident inT outT interp N hN axis rep (fun r _ => hr r) maxFreq maxOff hb hi⟩

/-- **C62 for `FlipRot2dOnR2` with O(2)**. -/
theorem c62_o2 (axis : ℝ) (rep : F → Repr (ℤ × ℝ)) (hr : ∀ r, (rep r).WF ∧ ∀ i ∈ (rep r).irreps, ∃ j k, O2.irrep j k = some i)
    (hpos : ∀ r, 0 < (rep r).size) : NetSpace (A := A) (I := I) (o2Space interp axis) rep (builtO2 axis rep) where
  grid := o2Space_grid interp axis
  one := Or.inl rfl
  pos := hpos
  isRep r := O2.isRep_of (hr r)
  conv := by
    rintro _ ident inT outT ⟨radials, attr, rfl⟩ hi
    exact ⟨c25_o2 radials attr ident inT outT interp axis rep (fun r _ => hr r) hi, c61_o2_partial radials attr ident inT outT interp axis rep (fun r _ => hr r) hi⟩


/-! ### A concrete network -/

theorem exRep_mat (n : ℕ) {i : Irrep ℤ} (hi : Cyclic.irrep 4 (if n = 0 then 0 else 1) = some i) (g : ℤ) :
    (exRep n).size = i.size ∧ MEq i.size i.size ((exRep n).mat g) (i.mat g) := by
  have hs : (exRep n).size = i.size := by simp [exRep, Repr.size, hi]
  refine ⟨hs, ?_⟩
  have h : MEq (exRep n).size (exRep n).size ((exRep n).mat g) (Repr.blocks (exRep n).irreps g) :=
    (MEq_mul_one _ _ _).trans (MEq_one_mul _ _ _)
  intro a ha b hb
  rw [h a (hs ▸ ha) b (hs ▸ hb)]
  simp [exRep, hi, Repr.blocks, bdiag, ha, hb]

theorem exRep_orth (n : ℕ) (g : ℤ) (hg : (Cyclic.grp 4).isEl g) : Orth (exRep n).size ((exRep n).mat g) := by
  have hs : ((Cyclic.irrep 4 (if n = 0 then 0 else 1)).isSome : Prop) := by
    unfold Cyclic.irrep; rw [Cyclic.order_eq]; split_ifs <;> simp_all
  obtain ⟨i, hi⟩ := Option.isSome_iff_exists.1 hs
  obtain ⟨h1, h2⟩ := exRep_mat n hi g
  rw [h1]
  exact (MEq.mul (fun a ha b hb => h2 b hb a ha) h2).trans ((Cyclic.irrep_isOrthRep (by omega) hi).orth (Cyclic.invOk (by omega)) g hg)

theorem exRep_trivial (g : ℤ) (hg : (Cyclic.grp 4).isEl g) : (exRep 0).size = 1 ∧ (exRep 0).mat g 0 0 = 1 := by
  have hs : ((Cyclic.irrep 4 0).isSome : Prop) := by
    unfold Cyclic.irrep; rw [Cyclic.order_eq]; split_ifs <;> simp_all
  obtain ⟨i, hi⟩ := Option.isSome_iff_exists.1 hs
  obtain ⟨h1, h2⟩ := exRep_mat 0 hi g
  have h3 := exRep_size 0
  have h4 : i.size = 1 := h1.symm.trans h3
  refine ⟨h3, ?_⟩
  rw [h2 0 (by omega) 0 (by omega)]
  have hf : i.freq = 0 ∧ i.flip = 0 := by
    unfold Cyclic.irrep at hi
    simp at hi
    rw [← hi]
    exact ⟨rfl, rfl⟩
  exact ((Cyclic.trivOk (by omega) hi).triv (by simp [isTrivial, hf.1, hf.2])).2 g hg

/-- A network for `C_4`: a convolution with stride 2 from fields of frequencies 0 and 1 to a field of frequency 1, a norm nonlinearity, a batch normalisation in
training mode, the norms of the fields, the average over all pixels. -/
noncomputable def exNet (w : List ℝ) (f : ℝ → ℝ) (bias : List ℝ) (v : ℕ → ℝ) (st : NormState ℝ) :
    List (ℕ × Layer ℕ (Option (PolarAttr ((ℝ × ℝ) × ℕ) (SBasis.Attr ℤ AngElem))) (Option (ℕ × ℕ × ℝ × ℕ))) :=
  [(0, .conv exCfg exBasis [0, 1] [1] w []), (1, .norm [1] f 0 bias), (2, .normBatchNorm [1] (some (1 / 10)) (1 / 100000) v true st), (3, .normPool [1] 0),
    (4, .avgPool [0] 3 1 0 false)]

open Classical in
theorem exNet_ok (w : List ℝ) (hw : w.length = (exCfg.exp exRep [0, 1] [1] exBasis).dimension) (f : ℝ → ℝ) (bias : List ℝ) (v : ℕ → ℝ) (st : NormState ℝ) :
    NetOk (rotSpace interp 4) exRep (builtRot 4 exRep) ((exNet w f bias v st).map Prod.snd) 5 1 := by
  have hd : (exCfg.exp exRep [0, 1] [1] exBasis).nPairs = 2 := rfl
  refine ⟨3, ⟨exInput, ⟨_, _, some 2, none, by simp, rfl⟩, Nat.one_pos, ⟨[0, 1], rfl, fun h => absurd (h.symm.trans hd) (by omega), hw⟩, trivial, rfl, by decide⟩,
    3, ⟨rfl, fun r _ => exRep_orth r⟩, 3, ⟨rfl, fun r _ => exRep_orth r⟩, 3, ⟨rfl, ⟨exRep_size 0, fun g hg => (exRep_trivial g hg).2⟩, fun r _ => exRep_orth r⟩,
    1, ⟨rfl, rfl⟩, rfl⟩

open Classical in
/-- The hypotheses of `c62_cyclic` and `c62_invariant` are met: on images with `5 × 5` pixels this network is invariant under the rotation by a right angle,
for all weights, functions, parameters and states. -/
example (w : List ℝ) (hw : w.length = (exCfg.exp exRep [0, 1] [1] exBasis).dimension) (f : ℝ → ℝ) (bias : List ℝ) (v : ℕ → ℝ) (st : NormState ℝ)
    (x : GTensor ℕ (Pix (Fin 7) 5 → ℝ)) (hx : x.ty = [0, 1] ∧ x.data.length = 3) (junk : ℕ → (c n : ℕ) → List (Pix (Fin 7) n → ℝ)) (hj : ∀ k, JunkOk (junk k)) :
    ∃ y, netForward exRep junk (exNet w f bias v st) ⟨5, x⟩ = some y ∧
      netForward exRep junk (exNet w f bias v st) (ETensor.act (rotSpace interp 4) exRep 1 ⟨5, x⟩) = some y := by
  have hS := c62_cyclic (F := ℕ) (A := Option (PolarAttr ((ℝ × ℝ) × ℕ) (SBasis.Attr ℤ AngElem))) (I := Option (ℕ × ℕ × ℝ × ℕ)) interp 4 (by omega) exRep exRep_ok
    (fun r => by rw [exRep_size]; split_ifs <;> omega)
  refine c62_invariant hS (exNet w f bias v st) (by simp [exNet]) (by simp [exNet]) (by simp [exNet, Layer.inTy, Layer.outTy]) (exNet_ok interp w hw f bias v st)
    (fun r hr => ?_) ⟨5, x⟩ rfl ⟨by simp [hx.1], ?_⟩ hx.1 1 rfl ⟨1, by norm_num; ring⟩ junk junk hj hj
  · obtain rfl : r = 0 := by simpa [exNet, Layer.outTy] using hr
    exact ⟨exRep_size 0, fun g hg => (exRep_trivial g hg).2⟩
  · change x.data.length = _
    rw [hx.1, hx.2]
    simp [typeSize, exRep_size]

end E2
