import Verif.Props.DiffopTreeSpec
import Verif.Props.DiffopNet
import Verif.Props.NetTree

/-!
Nested networks with differential operators (C106): networks of `SequentialModule` and `MultipleModule`, to any depth, `R2Diffop` among the modules, commute with
the elements of the group which permute the pixels.
-/

set_option linter.unusedSectionVars false

namespace E2

open Mat

variable {El F A I B K : Type} [LinearOrder F] [DecidableEq I] [LinearOrder K] [Fintype B]

section induction

variable {Sp : Space El} {G : DiffopGen El} {rep : F → Repr El} {built : (F → F → List (A × (ℝ × ℝ → Mat))) → (A → I) → Prop}
  {meth : Sampler → DiffopArgs El → DiffopModule El F → Prop} {sel : El → Prop}

/-- **C106, shapes**: the shape which `R2Diffop.evaluate_output_shape` declares for a tensor is the shape of the output of `forward`, for every module returned
by the constructor, whether the kernel size was given or found from the order and the accuracy. -/
theorem c106_shape {smp : Sampler} {a : DiffopArgs El} {inT outT : List F} {M : DiffopModule El F} (hM : r2diffopInit smp G a rep inT outT = some M)
    (w b : List ℝ) (junk : (c n : ℕ) → List (Pix B n → ℝ)) (x y : ETensor F B) (hx : x.x.WF fun r => (rep r).size)
    (h : (DLayer.diffop smp M inT outT w b : DLayer El F A I).forward rep junk x = some y) :
    (DLayer.diffop smp M inT outT w b : DLayer El F A I).declared (fun r => (rep r).size) x.dims = some y.dims := by
  have hk : 0 < M.size := by
    obtain ⟨-, pw, hr, -⟩ := r2diffopInit_spec hM
    unfold DiffopCfg.resolve at hr
    split at hr
    · simp at hr
    · split_ifs at hr with hc
      have := congrArg (fun t : Option (ℕ × ℕ × ℕ) => (t.getD 0).1) hr
      simp only [Option.getD_some] at this
      omega
  rw [DLayer.forward] at h
  split at h
  · simp at h
  rename_i f hf
  unfold wrapped at h
  split_ifs at h with hxt
  unfold runConv at h
  split_ifs at h with hlen
  · cases hc : convSize x.n M.cfg.p M.size M.cfg.s M.cfg.d with
    | none => simp [ETensor.plain, hc] at h
    | some m =>
      simp only [ETensor.plain, hc, Option.map_some, mkE, mkGT] at h
      split_ifs at h with hl2
      · obtain rfl := Option.some.inj h
        have hc' : x.x.data.length = typeSize (fun r => (rep r).size) inT := by rw [hx.2, hxt]
        rw [ETensor.dims, ETensor.dims, hc']
        simp only [List.length_map, List.length_range]
        exact declAxes_dims (axisFloor_int hk hc)
      · simp at h

theorem dlayer_twin (hS : NetSpace Sp rep built) (hD : DiffopSpace Sp G rep meth sel)
    (l : DLayer El F A I) {n m : ℕ} (hl : l.Ok Sp G rep built meth n m) {junk junk' : (c n : ℕ) → List (Pix B n → ℝ)} (hj : JunkOk junk) (hj' : JunkOk junk') :
    Twin (Sp.only sel) rep l.ShapeOk n m (l.toShapedMod rep junk) (l.toShapedMod rep junk') := by
  refine ⟨rfl, rfl, rfl, fun x hn hx hxt => ?_⟩
  obtain ⟨n', x⟩ := x
  obtain rfl : n' = n := hn
  obtain ⟨y, h1, h2, h3, h4, h5⟩ := dlayer_step hS hD l hl x hx hxt
  refine ⟨y, h1, h2, h3, h4 junk hj, h4 junk' hj', fun hs => ?_, fun g hg hq => h5 g hg hq junk' hj'⟩
  cases l with
  | lib l => exact c98_module l hs (by rw [show l.outTy = y.x.ty from h3.symm]; exact h2.1) _ y hx (h4 junk hj)
  | diffop smp M inT outT w b =>
    obtain ⟨-, -, a, hM, -⟩ := hl
    exact c106_shape hM w b junk ⟨n', x⟩ y hx (h4 junk hj)

mutual

theorem DNetMod.twin (hS : NetSpace Sp rep built) (hD : DiffopSpace Sp G rep meth sel) : ∀ (net : DNetMod El F A I K) (n m : ℕ) (junk junk' : List ℕ → (c n : ℕ) → List (Pix B n → ℝ))
    (M : EMod (List F) (ETensor F B) (List Dim)), net.Ok Sp G rep built meth n m → (∀ p, JunkOk (junk p)) → (∀ p, JunkOk (junk' p)) →
    net.build rep junk = some M → ∃ M', net.build rep junk' = some M' ∧ Twin (Sp.only sel) rep net.ShapeOk n m M M'
  | .layer l, n, m, junk, junk', M, hok, hj, hj', hM => by
    rw [DNetMod.build] at hM
    obtain rfl := Option.some.inj hM
    rw [DNetMod.Ok] at hok
    exact ⟨_, by rw [DNetMod.build], by rw [DNetMod.ShapeOk]; exact dlayer_twin hS hD l hok (hj []) (hj' [])⟩
  | .seq ms, n, m, junk, junk', M, hok, hj, hj', hM => by
    rw [DNetMod.build] at hM
    obtain ⟨l, hl, hM⟩ := Option.bind_eq_some_iff.1 hM
    rw [DNetMod.Ok] at hok
    obtain ⟨l', hl', ht, hn⟩ := DNetMods.twinSeq hS hD ms n m 0 junk junk' l hok.2 hj hj' hl
    obtain ⟨M', hM', h⟩ := seq_twin ht (hn ▸ hok.1) hM
    exact ⟨M', by rw [DNetMod.build, hl', Option.bind_some, hM'], by rw [DNetMod.ShapeOk]; exact h⟩
  | .multi inT level labels ms, n, m, junk, junk', M, hok, hj, hj', hM => by
    rw [DNetMod.build] at hM
    obtain ⟨l, hl, hM⟩ := Option.bind_eq_some_iff.1 hM
    rw [DNetMod.Ok] at hok
    obtain ⟨l', hl', ht⟩ := DNetMods.twinAll hS hD ms n m 0 junk junk' l hok.2 hok.1 hj hj' hl
    obtain ⟨M', hM', h⟩ := multi_twin (hS.only sel) ht (hj []) (hj' []) hM
    exact ⟨M', by rw [DNetMod.build, hl', Option.bind_some, hM'], by rw [DNetMod.ShapeOk]; exact h⟩

theorem DNetMods.twinSeq (hS : NetSpace Sp rep built) (hD : DiffopSpace Sp G rep meth sel) : ∀ (ms : DNetMods El F A I K) (n m i : ℕ) (junk junk' : List ℕ → (c n : ℕ) → List (Pix B n → ℝ))
    (l : List (K × EMod (List F) (ETensor F B) (List Dim))), ms.OkSeq Sp G rep built meth n m → (∀ p, JunkOk (junk p)) → (∀ p, JunkOk (junk' p)) →
    ms.build rep junk i = some l → ∃ l', ms.build rep junk' i = some l' ∧ TwinSeq (Sp.only sel) rep ms.ShapeOk l l' n m ∧ l.map Prod.fst = ms.names
  | .nil, n, m, i, junk, junk', l, hok, hj, hj', hl => by
    rw [DNetMods.build] at hl
    obtain rfl := Option.some.inj hl
    rw [DNetMods.OkSeq] at hok
    exact ⟨[], by rw [DNetMods.build], hok, rfl⟩
  | .cons k a ms, n, m, i, junk, junk', l, hok, hj, hj', hl => by
    rw [DNetMods.build] at hl
    obtain ⟨M, hM, hl⟩ := Option.bind_eq_some_iff.1 hl
    obtain ⟨l, hl2, rfl⟩ := Option.map_eq_some_iff.1 hl
    rw [DNetMods.OkSeq] at hok
    obtain ⟨q, h1, h2⟩ := hok
    obtain ⟨M', hM', ht⟩ := DNetMod.twin hS hD a n q (fun p => junk (i :: p)) (fun p => junk' (i :: p)) M h1 (fun p => hj _) (fun p => hj' _) hM
    obtain ⟨l', hl', hs, hn⟩ := DNetMods.twinSeq hS hD ms q m (i + 1) junk junk' l h2 hj hj' hl2
    refine ⟨(k, M') :: l', by rw [DNetMods.build, hM', Option.bind_some, hl', Option.map_some], ⟨rfl, q, ?_, ?_⟩, ?_⟩
    · rw [DNetMods.ShapeOk]
      exact ht.mono And.left
    · rw [DNetMods.ShapeOk]
      exact hs.mono And.right
    · rw [List.map_cons, hn, DNetMods.names]

theorem DNetMods.twinAll (hS : NetSpace Sp rep built) (hD : DiffopSpace Sp G rep meth sel) : ∀ (ms : DNetMods El F A I K) (n m i : ℕ) (junk junk' : List ℕ → (c n : ℕ) → List (Pix B n → ℝ))
    (l : List (K × EMod (List F) (ETensor F B) (List Dim))), ms.OkAll Sp G rep built meth n m → ms.ShapeOk → (∀ p, JunkOk (junk p)) → (∀ p, JunkOk (junk' p)) →
    ms.build rep junk i = some l → ∃ l', ms.build rep junk' i = some l' ∧ TwinAll (Sp.only sel) rep True n m l l'
  | .nil, n, m, i, junk, junk', l, hok, hsh, hj, hj', hl => by
    rw [DNetMods.build] at hl
    obtain rfl := Option.some.inj hl
    exact ⟨[], by rw [DNetMods.build], List.Forall₂.nil⟩
  | .cons k a ms, n, m, i, junk, junk', l, hok, hsh, hj, hj', hl => by
    rw [DNetMods.build] at hl
    obtain ⟨M, hM, hl⟩ := Option.bind_eq_some_iff.1 hl
    obtain ⟨l, hl2, rfl⟩ := Option.map_eq_some_iff.1 hl
    rw [DNetMods.OkAll] at hok
    rw [DNetMods.ShapeOk] at hsh
    obtain ⟨M', hM', ht⟩ := DNetMod.twin hS hD a n m (fun p => junk (i :: p)) (fun p => junk' (i :: p)) M hok.1 (fun p => hj _) (fun p => hj' _) hM
    obtain ⟨l', hl', hs⟩ := DNetMods.twinAll hS hD ms n m (i + 1) junk junk' l hok.2 hsh.2 hj hj' hl2
    exact ⟨(k, M') :: l', by rw [DNetMods.build, hM', Option.bind_some, hl', Option.map_some], List.Forall₂.cons ⟨rfl, ht.mono fun _ => hsh.1⟩ hs⟩

end

end induction

/-- **C106.**  A network of any depth, `R2Diffop` among its modules, which can be built accepts every tensor of its input type, returns a tensor of its output type which does not
depend on the memory of the modules, and for every
element which permutes the pixels, and with which the methods of discretisation commute, returns the transformed tensor for the transformed input. -/
theorem c106_network {Sp : Space El} {G : DiffopGen El} {rep : F → Repr El} {built : (F → F → List (A × (ℝ × ℝ → Mat))) → (A → I) → Prop}
    {meth : Sampler → DiffopArgs El → DiffopModule El F → Prop} {sel : El → Prop} (hS : NetSpace Sp rep built) (hD : DiffopSpace Sp G rep meth sel)
    (net : DNetMod El F A I K) {n m : ℕ} (hok : net.Ok Sp G rep built meth n m) (junk₀ : List ℕ → (c n : ℕ) → List (Pix B n → ℝ)) (hj₀ : ∀ p, JunkOk (junk₀ p))
    (M : EMod (List F) (ETensor F B) (List Dim)) (hM : net.build rep junk₀ = some M)
    (x : ETensor F B) (hn : x.n = n) (hx : x.x.WF fun r => (rep r).size) (hxt : x.x.ty = M.inTy) :
    ∃ y : ETensor F B, y.n = m ∧ y.x.WF (fun r => (rep r).size) ∧ y.x.ty = M.outTy ∧
      (∀ junk, (∀ p, JunkOk (junk p)) → net.forward rep junk x = some y) ∧
      ∀ g, Sp.G.isEl g → Sp.grid g → sel g → ∀ junk, (∀ p, JunkOk (junk p)) → net.forward rep junk (x.act Sp rep g) = some (y.act Sp rep g) := by
  obtain ⟨M', hM', ht⟩ := DNetMod.twin hS hD net n m junk₀ junk₀ M hok hj₀ hj₀ hM
  obtain ⟨y, h1, h2, h3, h4, -, -⟩ := ht.step x hn hx hxt
  refine ⟨y, h1, h2, h3, fun junk hj => ?_, fun g hg hq hs junk hj => ?_⟩
  · obtain ⟨M₁, hM₁, ht₁⟩ := DNetMod.twin hS hD net n m junk₀ junk M hok hj₀ hj hM
    obtain ⟨z, -, -, -, e4, e5, -⟩ := ht₁.step x hn hx hxt
    rw [h4] at e4
    obtain rfl := Option.some.inj e4
    rw [DNetMod.forward, hM₁, Option.bind_some, e5]
  · obtain ⟨M₁, hM₁, ht₁⟩ := DNetMod.twin hS hD net n m junk₀ junk M hok hj₀ hj hM
    obtain ⟨z, -, -, -, e4, -, -, e6⟩ := ht₁.step x hn hx hxt
    rw [h4] at e4
    obtain rfl := Option.some.inj e4
    rw [DNetMod.forward, hM₁, Option.bind_some]
    exact e6 g hg ⟨hq, hs⟩


/-- The network of one module. -/
theorem DNetMod.forward_layer (rep : F → Repr El) (junk : List ℕ → (c n : ℕ) → List (Pix B n → ℝ)) (l : DLayer El F A I) (x : ETensor F B) :
    (DNetMod.layer l : DNetMod El F A I K).forward rep junk x = l.forward rep (junk []) x := by
  rw [DNetMod.forward, DNetMod.build, Option.bind_some, DLayer.toShapedMod]

/-- **C106 is false for finite differences at the reflections**, already for the network of one module, see `c104_flip_wrong`. -/
theorem c106_flip_wrong {fd : ℕ → List ℝ → ℕ → ℝ} (hfd : FDSpec fd) (interp : ℝ → Img → Img) :
    ∃ M, r2diffopInit (fdSample fd) (flip2dDiffops 0) exArgs exFlipRep [0] [1] = some M ∧
    ∃ (w : List ℝ) (x y : ETensor ℕ Unit), x.x.WF (fun r => (exFlipRep r).size) ∧ x.x.ty = [0] ∧
      ∀ junk : List ℕ → (c n : ℕ) → List (Pix Unit n → ℝ),
        (.layer (.diffop (fdSample fd) M [0] [1] w []) : DNetMod ℤ ℕ A I K).forward exFlipRep junk x = some y ∧
        (.layer (.diffop (fdSample fd) M [0] [1] w []) : DNetMod ℤ ℕ A I K).forward exFlipRep junk (x.act (flipSpace interp 0) exFlipRep 1)
          ≠ some (y.act (flipSpace interp 0) exFlipRep 1) := by
  obtain ⟨M, hM, w, x, y, z, h1, h2, -, -, h5, h6⟩ := flip_wrong_layer (A := A) (I := I) hfd interp
  refine ⟨M, hM, w, x, y, h1, h2, fun junk => ⟨by rw [DNetMod.forward_layer, (h6 _).1], fun h => h5 ?_⟩⟩
  rw [DNetMod.forward_layer, (h6 _).2] at h
  exact Option.some.inj h

end E2
