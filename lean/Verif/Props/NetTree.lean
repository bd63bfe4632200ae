import Verif.Lemmas.NetTree

/-!
Nested networks (C102): networks of `SequentialModule` and `MultipleModule`, to any depth, commute with the elements of the group which permute the pixels; a
`MultipleModule` is the direct sum of its networks; and a `MultipleModule` inside a network of a `MultipleModule` makes every call raise.
-/

set_option linter.unusedSectionVars false

namespace E2

open Mat

variable {El F A I B K : Type} [LinearOrder F] [DecidableEq I] [LinearOrder K] [Fintype B]

/-! ### Induction over the network -/

section induction

variable {Sp : Space El} {rep : F → Repr El} {built : (F → F → List (A × (ℝ × ℝ → Mat))) → (A → I) → Prop}

mutual

theorem NetMod.twin (hS : NetSpace Sp rep built) : ∀ (net : NetMod F A I K) (n m : ℕ) (junk junk' : List ℕ → (c n : ℕ) → List (Pix B n → ℝ))
    (M : EMod (List F) (ETensor F B) (List Dim)), net.Ok Sp rep built n m → (∀ p, JunkOk (junk p)) → (∀ p, JunkOk (junk' p)) →
    net.build rep junk = some M → ∃ M', net.build rep junk' = some M' ∧ Twin Sp rep net.ShapeOk n m M M'
  | .layer l, n, m, junk, junk', M, hok, hj, hj', hM => by
    rw [NetMod.build] at hM
    obtain rfl := Option.some.inj hM
    rw [NetMod.Ok] at hok
    exact ⟨_, by rw [NetMod.build], by rw [NetMod.ShapeOk]; exact layer_twin hS l hok (hj []) (hj' [])⟩
  | .seq ms, n, m, junk, junk', M, hok, hj, hj', hM => by
    rw [NetMod.build] at hM
    obtain ⟨l, hl, hM⟩ := Option.bind_eq_some_iff.1 hM
    rw [NetMod.Ok] at hok
    obtain ⟨l', hl', ht, hn⟩ := NetMods.twinSeq hS ms n m 0 junk junk' l hok.2 hj hj' hl
    obtain ⟨M', hM', h⟩ := seq_twin ht (hn ▸ hok.1) hM
    exact ⟨M', by rw [NetMod.build, hl', Option.bind_some, hM'], by rw [NetMod.ShapeOk]; exact h⟩
  | .multi inT level labels ms, n, m, junk, junk', M, hok, hj, hj', hM => by
    rw [NetMod.build] at hM
    obtain ⟨l, hl, hM⟩ := Option.bind_eq_some_iff.1 hM
    rw [NetMod.Ok] at hok
    obtain ⟨l', hl', ht⟩ := NetMods.twinAll hS ms n m 0 junk junk' l hok.2 hok.1 hj hj' hl
    obtain ⟨M', hM', h⟩ := multi_twin hS ht (hj []) (hj' []) hM
    exact ⟨M', by rw [NetMod.build, hl', Option.bind_some, hM'], by rw [NetMod.ShapeOk]; exact h⟩

theorem NetMods.twinSeq (hS : NetSpace Sp rep built) : ∀ (ms : NetMods F A I K) (n m i : ℕ) (junk junk' : List ℕ → (c n : ℕ) → List (Pix B n → ℝ))
    (l : List (K × EMod (List F) (ETensor F B) (List Dim))), ms.OkSeq Sp rep built n m → (∀ p, JunkOk (junk p)) → (∀ p, JunkOk (junk' p)) →
    ms.build rep junk i = some l → ∃ l', ms.build rep junk' i = some l' ∧ TwinSeq Sp rep ms.ShapeOk l l' n m ∧ l.map Prod.fst = ms.names
  | .nil, n, m, i, junk, junk', l, hok, hj, hj', hl => by
    rw [NetMods.build] at hl
    obtain rfl := Option.some.inj hl
    rw [NetMods.OkSeq] at hok
    exact ⟨[], by rw [NetMods.build], hok, rfl⟩
  | .cons k a ms, n, m, i, junk, junk', l, hok, hj, hj', hl => by
    rw [NetMods.build] at hl
    obtain ⟨M, hM, hl⟩ := Option.bind_eq_some_iff.1 hl
    obtain ⟨l, hl2, rfl⟩ := Option.map_eq_some_iff.1 hl
    rw [NetMods.OkSeq] at hok
    obtain ⟨q, h1, h2⟩ := hok
    obtain ⟨M', hM', ht⟩ := NetMod.twin hS a n q (fun p => junk (i :: p)) (fun p => junk' (i :: p)) M h1 (fun p => hj _) (fun p => hj' _) hM
    obtain ⟨l', hl', hs, hn⟩ := NetMods.twinSeq hS ms q m (i + 1) junk junk' l h2 hj hj' hl2
    refine ⟨(k, M') :: l', by rw [NetMods.build, hM', Option.bind_some, hl', Option.map_some], ⟨rfl, q, ?_, ?_⟩, ?_⟩
    · rw [NetMods.ShapeOk]
      exact ht.mono And.left
    · rw [NetMods.ShapeOk]
      exact hs.mono And.right
    · rw [List.map_cons, hn, NetMods.names]

theorem NetMods.twinAll (hS : NetSpace Sp rep built) : ∀ (ms : NetMods F A I K) (n m i : ℕ) (junk junk' : List ℕ → (c n : ℕ) → List (Pix B n → ℝ))
    (l : List (K × EMod (List F) (ETensor F B) (List Dim))), ms.OkAll Sp rep built n m → ms.ShapeOk → (∀ p, JunkOk (junk p)) → (∀ p, JunkOk (junk' p)) →
    ms.build rep junk i = some l → ∃ l', ms.build rep junk' i = some l' ∧ TwinAll Sp rep True n m l l'
  | .nil, n, m, i, junk, junk', l, hok, hsh, hj, hj', hl => by
    rw [NetMods.build] at hl
    obtain rfl := Option.some.inj hl
    exact ⟨[], by rw [NetMods.build], List.Forall₂.nil⟩
  | .cons k a ms, n, m, i, junk, junk', l, hok, hsh, hj, hj', hl => by
    rw [NetMods.build] at hl
    obtain ⟨M, hM, hl⟩ := Option.bind_eq_some_iff.1 hl
    obtain ⟨l, hl2, rfl⟩ := Option.map_eq_some_iff.1 hl
    rw [NetMods.OkAll] at hok
    rw [NetMods.ShapeOk] at hsh
    obtain ⟨M', hM', ht⟩ := NetMod.twin hS a n m (fun p => junk (i :: p)) (fun p => junk' (i :: p)) M hok.1 (fun p => hj _) (fun p => hj' _) hM
    obtain ⟨l', hl', hs⟩ := NetMods.twinAll hS ms n m (i + 1) junk junk' l hok.2 hsh.2 hj hj' hl2
    exact ⟨(k, M') :: l', by rw [NetMods.build, hM', Option.bind_some, hl', Option.map_some], List.Forall₂.cons ⟨rfl, ht.mono fun _ => hsh.1⟩ hs⟩

end

end induction

/-- **C102, equivariance.**  A network of any depth which can be built accepts every tensor of its input type, returns a tensor of its output type which does not
depend on the memory of the modules, and returns the transformed tensor for the transformed input. -/
theorem c102_network {Sp : Space El} {rep : F → Repr El} {built : (F → F → List (A × (ℝ × ℝ → Mat))) → (A → I) → Prop} (hS : NetSpace Sp rep built)
    (net : NetMod F A I K) {n m : ℕ} (hok : net.Ok Sp rep built n m) (junk₀ : List ℕ → (c n : ℕ) → List (Pix B n → ℝ)) (hj₀ : ∀ p, JunkOk (junk₀ p))
    (M : EMod (List F) (ETensor F B) (List Dim)) (hM : net.build rep junk₀ = some M)
    (x : ETensor F B) (hn : x.n = n) (hx : x.x.WF fun r => (rep r).size) (hxt : x.x.ty = M.inTy) :
    ∃ y : ETensor F B, y.n = m ∧ y.x.WF (fun r => (rep r).size) ∧ y.x.ty = M.outTy ∧
      (∀ junk, (∀ p, JunkOk (junk p)) → net.forward rep junk x = some y) ∧
      ∀ g, Sp.G.isEl g → Sp.grid g → ∀ junk, (∀ p, JunkOk (junk p)) → net.forward rep junk (x.act Sp rep g) = some (y.act Sp rep g) := by
  obtain ⟨M', hM', ht⟩ := NetMod.twin hS net n m junk₀ junk₀ M hok hj₀ hj₀ hM
  obtain ⟨y, h1, h2, h3, h4, -, -⟩ := ht.step x hn hx hxt
  refine ⟨y, h1, h2, h3, fun junk hj => ?_, fun g hg hq junk hj => ?_⟩
  · obtain ⟨M₁, hM₁, ht₁⟩ := NetMod.twin hS net n m junk₀ junk M hok hj₀ hj hM
    obtain ⟨z, -, -, -, e4, e5, -⟩ := ht₁.step x hn hx hxt
    rw [h4] at e4
    obtain rfl := Option.some.inj e4
    rw [NetMod.forward, hM₁, Option.bind_some, e5]
  · obtain ⟨M₁, hM₁, ht₁⟩ := NetMod.twin hS net n m junk₀ junk M hok hj₀ hj hM
    obtain ⟨z, -, -, -, e4, -, -, e6⟩ := ht₁.step x hn hx hxt
    rw [h4] at e4
    obtain rfl := Option.some.inj e4
    rw [NetMod.forward, hM₁, Option.bind_some, e6 g hg hq]

/-! ### A `MultipleModule` is the direct sum of its networks -/

theorem NetMods.results {Sp : Space El} {rep : F → Repr El} {built : (F → F → List (A × (ℝ × ℝ → Mat))) → (A → I) → Prop} (hS : NetSpace Sp rep built)
    {n m level : ℕ} {labels : List K} (hlev : level < 3) (x : GTensor F (Pix B n → ℝ)) (hx : x.WF fun r => (rep r).size) (hl : x.ty.length = labels.length)
    (junk : List ℕ → (c n : ℕ) → List (Pix B n → ℝ)) : ∀ (ms : NetMods F A I K) (i : ℕ) (l : List (K × EMod (List F) (ETensor F B) (List Dim)))
      (ys : List (GTensor F (Pix B m → ℝ))), ms.build rep junk i = some l → (∀ a ∈ l, a.1 ∈ labels) →
      (∀ a ∈ l, ∀ z y, z.WF (fun r => (rep r).size) → branch (fun r => (rep r).size) level labels x a.1 = some z → a.2.fwd ⟨n, z⟩ = some y → y.n = m) →
      (l.mapM fun a => (branch (fun r => (rep r).size) level labels x a.1).bind fun z => (a.2.fwd ⟨n, z⟩).bind (ETensor.fit m)) = some ys →
      ms.Results rep junk level labels x m i ys
  | .nil, i, l, ys, hb, _, _, h => by
    rw [NetMods.build] at hb
    obtain rfl := Option.some.inj hb
    rw [NetMods.Results]
    exact (Option.some.inj h).symm
  | .cons k a ms, i, l, ys, hb, hk, hsz, h => by
    rw [NetMods.build] at hb
    obtain ⟨M, hM, hb⟩ := Option.bind_eq_some_iff.1 hb
    obtain ⟨l, hl2, rfl⟩ := Option.map_eq_some_iff.1 hb
    rw [List.mapM_cons] at h
    simp only [Option.bind_eq_bind] at h
    obtain ⟨y, hy, h⟩ := Option.bind_eq_some_iff.1 h
    obtain ⟨zs, hzs, h⟩ := Option.bind_eq_some_iff.1 h
    obtain rfl := Option.some.inj h
    obtain ⟨z, hz, hy⟩ := Option.bind_eq_some_iff.1 hy
    obtain ⟨w, hw, hy⟩ := Option.bind_eq_some_iff.1 hy
    obtain ⟨fs, z', h1, h2, h3, h4, h5⟩ := c31_branch (fun r => (rep r).size) level hlev x hx (fun r _ => hS.pos r) labels hl.symm k
      (hk (k, M) List.mem_cons_self)
    have hz' : branch (fun r => (rep r).size) level labels x k = some z := hz
    rw [hz'] at h4
    obtain rfl := Option.some.inj h4
    have hwn := hsz (k, M) List.mem_cons_self z w ((GTensor.select_eq_some hx).1 h5).2.2.2 hz hw
    obtain ⟨m', w⟩ := w
    obtain rfl : m' = m := hwn
    rw [fit_eq] at hy
    obtain rfl := Option.some.inj hy
    rw [NetMods.Results]
    refine ⟨fs, z, w, zs, h1, h2, h3, h5, ?_, rfl, ?_⟩
    · rw [NetMod.forward, hM]
      exact hw
    · exact NetMods.results hS hlev x hx hl junk ms (i + 1) l zs hl2 (fun a ha => hk a (List.mem_cons_of_mem _ ha))
        (fun a ha => hsz a (List.mem_cons_of_mem _ ha)) hzs

/-- **C102, branches.**  A `MultipleModule` which can be built and whose networks declare their shapes correctly returns the direct sum of the results of its
networks, each on the fields with its label. -/
theorem c102_multiple {Sp : Space El} {rep : F → Repr El} {built : (F → F → List (A × (ℝ × ℝ → Mat))) → (A → I) → Prop} (hS : NetSpace Sp rep built)
    (inT : List F) (level : ℕ) (labels : List K) (ms : NetMods F A I K) {n m : ℕ} (hok : (NetMod.multi inT level labels ms).Ok Sp rep built n m)
    (junk : List ℕ → (c n : ℕ) → List (Pix B n → ℝ)) (hj : ∀ p, JunkOk (junk p))
    (hM : ((NetMod.multi inT level labels ms).build rep junk).isSome) (x : GTensor F (Pix B n → ℝ)) (hx : x.WF fun r => (rep r).size) (hxt : x.ty = inT) :
    ∃ ys : List (GTensor F (Pix B m → ℝ)), ms.Results rep junk level labels x m 0 ys ∧ (∀ y ∈ ys, y.WF fun r => (rep r).size) ∧
      (NetMod.multi inT level labels ms).forward rep junk ⟨n, x⟩ = some ⟨m, ys.flatMap GTensor.ty, ys.flatMap GTensor.data⟩ := by
  obtain ⟨M, hM⟩ := Option.isSome_iff_exists.1 hM
  have hM0 := hM
  rw [NetMod.build] at hM
  obtain ⟨l, hl, hM⟩ := Option.bind_eq_some_iff.1 hM
  rw [NetMod.Ok] at hok
  obtain ⟨l', hl', ht⟩ := NetMods.twinAll hS ms n m 0 junk junk l hok.2 hok.1 hj hj hl
  rw [hl] at hl'
  obtain rfl := Option.some.inj hl'
  have hM1 := hM
  unfold multiMod at hM1
  split_ifs at hM1 with hc
  obtain ⟨hlev, hlen, hlab, hty⟩ := hc
  subst hxt
  have hkl : ∀ a ∈ l, a.1 ∈ labels := fun a ha => (hlab a.1).1 (List.mem_map_of_mem ha)
  obtain ⟨ys, e1, e2, e3, e4, -, -, -⟩ := branches_step hS hlev x hx hlen l l (fun a ha => ⟨hkl a ha, hty a ha⟩) ht
  obtain ⟨M', hM', htw⟩ := multi_twin hS ht (hj []) (hj []) hM
  rw [hM] at hM'
  obtain rfl := Option.some.inj hM'
  have hres : ms.Results rep junk level labels x m 0 ys := by
    refine NetMods.results hS hlev x hx hlen junk ms 0 l ys hl hkl ?_ e4
    intro a ha z y hzw hz hy
    obtain ⟨i, hi, hai⟩ := List.getElem_of_mem ha
    have hta : Twin Sp rep True n m a.2 a.2 := by
      have := (List.forall₂_iff_get.1 ht).2 i hi hi
      simp only [List.get_eq_getElem, hai] at this
      exact this.2
    have hzt : z.ty = a.2.inTy := by
      have := branch_ty _ _ _ _ _ _ hz
      rw [hty a ha] at this
      exact (Option.some.inj this).symm
    obtain ⟨y', f1, -, -, f4, -⟩ := hta.step ⟨n, z⟩ rfl hzw hzt
    rw [hy] at f4
    rw [Option.some.inj f4, f1]
  refine ⟨ys, hres, e1, ?_⟩
  obtain ⟨outT, ho, rfl⟩ := Option.map_eq_some_iff.1 hM1
  have hne : ys ≠ [] := by
    rintro rfl
    have hl0 : l = [] := List.map_eq_nil_iff.1 e2.symm
    rw [hl0] at ho
    simp [mkType] at ho
  obtain ⟨y, -, -, -, f4, -⟩ := htw.step ⟨n, x⟩ rfl hx rfl
  rw [NetMod.forward, hM0, Option.bind_some, f4]
  simp only [multiForward] at f4
  rw [if_pos trivial, e3, Option.bind_some, mergeDims_types _ _ _ ys hne, Option.bind_some, alloc_dims, Option.bind_some, e4, Option.bind_some,
    mergeGT_eq (fun r => (rep r).size) ys hne e1 (junk [] _ m) (hj [] _ _), (directsumGT_eq (fun r => (rep r).size) ys hne e1).1] at f4
  exact f4.symm

/-! ### Networks which cannot be branches -/

theorem NetMods.build_names (rep : F → Repr El) : ∀ (ms : NetMods F A I K) (i : ℕ) (junk : List ℕ → (c n : ℕ) → List (Pix B n → ℝ))
    (l : List (K × EMod (List F) (ETensor F B) (List Dim))), ms.build rep junk i = some l → l.map Prod.fst = ms.names
  | .nil, i, junk, l, hl => by
    rw [NetMods.build] at hl
    obtain rfl := Option.some.inj hl
    rfl
  | .cons k a ms, i, junk, l, hl => by
    rw [NetMods.build] at hl
    obtain ⟨M, hM, hl⟩ := Option.bind_eq_some_iff.1 hl
    obtain ⟨l, hl2, rfl⟩ := Option.map_eq_some_iff.1 hl
    rw [List.map_cons, NetMods.build_names rep ms (i + 1) junk l hl2, NetMods.names]

theorem foldlM_none {α β : Type} (f : β → α → Option β) (l : List α) (a : α) (ha : a ∈ l) (h : ∀ s, f s a = none) (s : β) : l.foldlM f s = none := by
  induction l generalizing s with
  | nil => simp at ha
  | cons b l ih =>
    rw [List.foldlM_cons]
    rcases List.mem_cons.1 ha with rfl | ha
    · rw [h]; rfl
    · cases f s b with
      | none => rfl
      | some s' => exact ih ha s'

mutual

theorem NetMod.shape_none (rep : F → Repr El) : ∀ (net : NetMod F A I K) (junk : List ℕ → (c n : ℕ) → List (Pix B n → ℝ))
    (M : EMod (List F) (ETensor F B) (List Dim)), net.Undeclared → net.build rep junk = some M → ∀ s, M.shape s = none
  | .layer l, junk, M, h, hM, s => by
    rw [NetMod.build] at hM
    obtain rfl := Option.some.inj hM
    cases l with
    | avgPool t k s p ceil => rfl
    | _ => exact absurd h (by simp [NetMod.Undeclared])
  | .seq ms, junk, M, h, hM, s => by
    rw [NetMod.build] at hM
    obtain ⟨l, hl, hM⟩ := Option.bind_eq_some_iff.1 hM
    rw [NetMod.Undeclared] at h
    obtain ⟨⟨a, ha, hs⟩, hn⟩ := NetMods.shape_none rep ms 0 junk l h.2 hl
    unfold seqMod at hM
    obtain ⟨st, hst, hM⟩ := Option.bind_eq_some_iff.1 hM
    obtain ⟨i, hi, hM⟩ := Option.bind_eq_some_iff.1 hM
    obtain ⟨o, ho, rfl⟩ := Option.map_eq_some_iff.1 hM
    obtain ⟨-, h1, -, -⟩ := (c41_built l (hn ▸ h.1)).2 st hst
    simp only [seqShape, h1]
    split_ifs
    · exact foldlM_none _ l a ha hs s
    · rfl
  | .multi inT level labels ms, junk, M, h, hM, s => by
    rw [NetMod.build] at hM
    obtain ⟨l, hl, hM⟩ := Option.bind_eq_some_iff.1 hM
    unfold multiMod at hM
    split_ifs at hM
    obtain ⟨o, ho, rfl⟩ := Option.map_eq_some_iff.1 hM
    simp [multiShape, mergeDecl]

theorem NetMods.shape_none (rep : F → Repr El) : ∀ (ms : NetMods F A I K) (i : ℕ) (junk : List ℕ → (c n : ℕ) → List (Pix B n → ℝ))
    (l : List (K × EMod (List F) (ETensor F B) (List Dim))), ms.Undeclared → ms.build rep junk i = some l →
    (∃ a ∈ l, ∀ s, a.2.shape s = none) ∧ l.map Prod.fst = ms.names
  | .nil, i, junk, l, h, hl => by
    rw [NetMods.Undeclared] at h
    exact h.elim
  | .cons k a ms, i, junk, l, h, hl => by
    rw [NetMods.build] at hl
    obtain ⟨M, hM, hl⟩ := Option.bind_eq_some_iff.1 hl
    obtain ⟨l, hl2, rfl⟩ := Option.map_eq_some_iff.1 hl
    rw [NetMods.Undeclared] at h
    refine ⟨?_, by rw [List.map_cons, NetMods.build_names rep ms (i + 1) junk l hl2, NetMods.names]⟩
    rcases h with h | h
    · exact ⟨_, List.mem_cons_self, NetMod.shape_none rep a _ M h hM⟩
    · obtain ⟨⟨b, hb, hs⟩, -⟩ := NetMods.shape_none rep ms (i + 1) junk l h hl2
      exact ⟨b, List.mem_cons_of_mem _ hb, hs⟩

end

theorem mapM_none_of {α β : Type} (f : α → Option β) (l : List α) (a : α) (ha : a ∈ l) (h : f a = none) : l.mapM f = none := by
  induction l with
  | nil => simp at ha
  | cons b l ih =>
    rw [List.mapM_cons]
    rcases List.mem_cons.1 ha with rfl | ha
    · rw [h]; rfl
    · cases f b with
      | none => rfl
      | some c => rw [ih ha]; rfl

/-- **C102, nesting fails.**  A `MultipleModule` with a network which contains a `MultipleModule` or a `PointwiseAvgPool` raises on every tensor, even though it can
be built: `MergeModule.forward` asks each network for the shape of its output. -/
theorem c102_nested (rep : F → Repr El) (junk : List ℕ → (c n : ℕ) → List (Pix B n → ℝ)) (inT : List F) (level : ℕ) (labels : List K) (ms : NetMods F A I K)
    (h : ms.Undeclared) (x : ETensor F B) : (NetMod.multi inT level labels ms).forward rep junk x = none := by
  rw [NetMod.forward, NetMod.build]
  cases hl : ms.build rep junk 0 with
  | none => rfl
  | some l =>
    rw [Option.bind_some]
    obtain ⟨⟨a, ha, hs⟩, -⟩ := NetMods.shape_none rep ms 0 junk l h hl
    unfold multiMod
    split_ifs
    · cases mkType (l.flatMap fun m => m.2.outTy) with
      | none => rfl
      | some o =>
        simp only [Option.map_some, Option.bind_some, multiForward]
        split_ifs
        · rw [mapM_none_of _ l a ha (by cases branch (fun r => (rep r).size) level labels x.x a.1 <;> simp [hs])]
          rfl
        · rfl
    · rfl

theorem mergeDim_drop {a b c : List Dim} (h : mergeDim a b = some c) : c.drop 2 = a.drop 2 ∧ c.drop 2 = b.drop 2 := by
  match a, b, h with
  | b :: c :: r, b' :: c' :: r', h =>
    rw [mergeDim] at h
    split_ifs at h with e
    obtain ⟨d, -, rfl⟩ := Option.map_eq_some_iff.1 h
    exact ⟨rfl, e.2⟩

theorem mergeDims_drop {ss : List (List Dim)} {s : List Dim} (h : mergeDims ss = some s) : ∀ r ∈ ss, s.drop 2 = r.drop 2 := by
  match ss, h with
  | a :: ss, h =>
    rw [mergeDims] at h
    have key : ∀ (ss : List (List Dim)) (a s : List Dim), ss.foldlM mergeDim a = some s → s.drop 2 = a.drop 2 ∧ ∀ r ∈ ss, s.drop 2 = r.drop 2 := by
      intro ss
      induction ss with
      | nil =>
        intro a s h
        obtain rfl := Option.some.inj h
        exact ⟨rfl, by simp⟩
      | cons b ss ih =>
        intro a s h
        rw [List.foldlM_cons] at h
        obtain ⟨c, hc, h⟩ := Option.bind_eq_some_iff.1 h
        obtain ⟨h1, h2⟩ := ih c s h
        obtain ⟨h3, h4⟩ := mergeDim_drop hc
        refine ⟨h1.trans h3, fun r hr => ?_⟩
        rcases List.mem_cons.1 hr with rfl | hr
        · exact h1.trans h4
        · exact h2 r hr
    obtain ⟨h1, h2⟩ := key ss a s h
    intro r hr
    rcases List.mem_cons.1 hr with rfl | hr
    · exact h1
    · exact h2 r hr

theorem mapM_mem {α β : Type} (f : α → Option β) (l : List α) (r : List β) (h : l.mapM f = some r) (a : α) (ha : a ∈ l) : ∃ b ∈ r, f a = some b := by
  induction l generalizing r with
  | nil => simp at ha
  | cons c l ih =>
    rw [List.mapM_cons] at h
    obtain ⟨b, hb, h⟩ := Option.bind_eq_some_iff.1 h
    obtain ⟨bs, hbs, h⟩ := Option.bind_eq_some_iff.1 h
    obtain rfl := Option.some.inj h
    rcases List.mem_cons.1 ha with rfl | ha
    · exact ⟨b, List.mem_cons_self, hb⟩
    · obtain ⟨d, hd, e⟩ := ih bs hbs ha
      exact ⟨d, List.mem_cons_of_mem _ hd, e⟩

theorem NetMods.build_mem (rep : F → Repr El) (k : K) (y : Layer F A I) : ∀ (ms : NetMods F A I K) (i : ℕ) (junk : List ℕ → (c n : ℕ) → List (Pix B n → ℝ))
    (l : List (K × EMod (List F) (ETensor F B) (List Dim))), ms.build rep junk i = some l → (k, .layer y) ∈ ms.toList →
    ∃ j, (k, y.toShapedMod rep j) ∈ l
  | .nil, i, junk, l, hl, h => by simp [NetMods.toList] at h
  | .cons k' a ms, i, junk, l, hl, h => by
    rw [NetMods.build] at hl
    obtain ⟨M, hM, hl⟩ := Option.bind_eq_some_iff.1 hl
    obtain ⟨l, hl2, rfl⟩ := Option.map_eq_some_iff.1 hl
    rw [NetMods.toList] at h
    rcases List.mem_cons.1 h with h | h
    · obtain ⟨rfl, rfl⟩ := Prod.ext_iff.1 h
      rw [NetMod.build] at hM
      obtain rfl := Option.some.inj hM
      exact ⟨_, List.mem_cons_self⟩
    · obtain ⟨j, hj⟩ := NetMods.build_mem rep k y ms (i + 1) junk l hl2 h
      exact ⟨j, List.mem_cons_of_mem _ hj⟩

/-- **C102, adaptive pooling fails.**  A `MultipleModule` with an adaptive pooling as one of its networks raises on every tensor: the shape declared contains a pair,
with which no memory can be allocated. -/
theorem c102_adaptive (rep : F → Repr El) (junk : List ℕ → (c n : ℕ) → List (Pix B n → ℝ)) (inT : List F) (level : ℕ) (labels : List K) (ms : NetMods F A I K)
    (k : K) (t : List F) (q : ℕ) (h : (k, .layer (.adaptiveAvgPool t q)) ∈ ms.toList ∨ (k, .layer (.adaptiveMaxPool t q)) ∈ ms.toList) (x : ETensor F B) :
    (NetMod.multi inT level labels ms).forward rep junk x = none := by
  rw [NetMod.forward, NetMod.build]
  cases hl : ms.build rep junk 0 with
  | none => rfl
  | some l =>
    rw [Option.bind_some]
    obtain ⟨a, ha, hs⟩ : ∃ a ∈ l, a.2.shape = declAxes (typeSize (fun r => (rep r).size) t) (typeSize (fun r => (rep r).size) t)
        (fun _ => some (.pair q q)) (fun _ => some (.pair q q)) := by
      rcases h with h | h
      · obtain ⟨j, hj⟩ := NetMods.build_mem rep k _ ms 0 junk l hl h
        exact ⟨_, hj, rfl⟩
      · obtain ⟨j, hj⟩ := NetMods.build_mem rep k _ ms 0 junk l hl h
        exact ⟨_, hj, rfl⟩
    unfold multiMod
    split_ifs
    · cases mkType (l.flatMap fun m => m.2.outTy) with
      | none => rfl
      | some o =>
        simp only [Option.map_some, Option.bind_some, multiForward]
        split_ifs
        · generalize hss : (l.mapM fun m => (branch (fun r => (rep r).size) level labels x.x m.1).bind fun z => m.2.shape (ETensor.dims ⟨x.n, z⟩)) = ss
          cases ss with
          | none => rfl
          | some ss =>
            rw [Option.bind_some]
            cases hs' : mergeDims ss with
            | none => rfl
            | some s =>
              obtain ⟨r, hr, hra⟩ := mapM_mem _ l ss hss a ha
              obtain ⟨z, -, hz⟩ := Option.bind_eq_some_iff.1 hra
              have hd := mergeDims_drop hs' r hr
              rw [hs] at hz
              simp only [ETensor.dims, Shape.dims, declAxes] at hz
              split_ifs at hz
              simp only [Option.bind_some, Option.map_some, Option.some.injEq] at hz
              rw [← hz] at hd
              simp only [List.drop_succ_cons, List.drop_zero] at hd
              have : allocSize (Fintype.card B) s = none := by
                match s, hd with
                | [b, c, .pair _ _, w], hd => cases b <;> cases c <;> rfl
              rw [Option.bind_some, this]
              rfl
        · rfl
    · rfl

/-- **C102, broadcasting.**  Without the condition on the shapes a `MultipleModule` can return something else than the results of its networks: for images with one
pixel this max pooling in ceil mode returns one pixel but declares two rows and two columns, and the `MultipleModule` returns the pixel repeated four times. -/
theorem c102_broadcast (rep : F → Repr El) (hpos : ∀ r, 0 < (rep r).size) (junk : List ℕ → (c n : ℕ) → List (Pix B n → ℝ)) (hj : ∀ p, JunkOk (junk p)) (k : K) (r : F)
    (x : GTensor F (Pix B 1 → ℝ)) (hx : x.WF fun r => (rep r).size) (hxt : x.ty = [r]) :
    (NetMod.layer (.maxPool [r] 2 2 1 1 true) : NetMod F A I K).forward rep junk ⟨1, x⟩ = some ⟨1, x⟩ ∧
      (NetMod.multi [r] 0 [k] (.cons k (.layer (.maxPool [r] 2 2 1 1 true)) .nil) : NetMod F A I K).forward rep junk ⟨1, x⟩
        = some ⟨2, [r], x.data.map fun v q => v (q.1, 0, 0)⟩ := by
  have hax : axisPix 1 1 2 2 1 0 = [0] := by decide
  have hmax : (maxPool2d 1 1 2 2 1 1 : (Pix B 1 → ℝ) → Pix B 1 → ℝ) = id := by
    funext v q
    obtain ⟨b, i, j⟩ := q
    obtain rfl : i = 0 := Subsingleton.elim _ _
    obtain rfl : j = 0 := Subsingleton.elim _ _
    change maxVal ((windowPix 1 1 2 2 1 0 0).map fun u => v (b, u)) = _
    rw [windowPix, hax]
    simp [maxVal]
  have hfw : ∀ j, (Layer.maxPool [r] 2 2 1 1 true : Layer F A I).forward rep j ⟨1, x⟩ = some ⟨1, x⟩ := by
    intro j
    have hps : poolSize true 1 1 2 2 1 = some 1 := rfl
    simp only [Layer.forward, hps]
    rw [pointwiseMaxPool, channelwise, if_pos hxt, hmax, List.map_id, ← hxt, mkGT, if_pos hx.2]
    rfl
  refine ⟨by rw [NetMod.forward, NetMod.build]; exact hfw (junk []), ?_⟩
  have hlen : x.data.length = (rep r).size := by
    rw [hx.2, hxt]
    simp [typeSize]
  have hbr : branch (fun r => (rep r).size) 0 [k] x k = some x := by
    obtain ⟨fs, z, h1, h2, -, h4, h5⟩ := c31_branch (fun r => (rep r).size) 0 (by omega) x hx (fun r _ => hpos r) [k] (by rw [hxt]; rfl) k (by simp)
    obtain rfl : fs = [0] := by
      have hm : ∀ c, c ∈ fs ↔ c = 0 := by
        intro c
        rw [h1]
        cases c <;> simp
      cases fs with
      | nil => simpa using (hm 0).2 rfl
      | cons a fs =>
        obtain rfl := (hm a).1 (by simp)
        cases fs with
        | nil => rfl
        | cons b fs =>
          obtain rfl := (hm b).1 (by simp)
          simp at h2
    rw [h4]
    have h6 := GTensor.select_range hx
    rw [hxt] at h6
    exact h5.symm.trans h6
  obtain ⟨M, hM, -, -⟩ := multiMod_some (fun r => (rep r).size) [r] 0 [k] [(k, (Layer.maxPool [r] 2 2 1 1 true : Layer F A I).toShapedMod rep (junk [0]))]
    (junk []) (by omega) rfl (by simp) (by
      intro m hm
      obtain rfl := List.mem_singleton.1 hm
      have := branch_ty _ _ _ _ _ _ hbr
      rw [hxt] at this
      exact this) (by simp [Layer.toShapedMod, Layer.outTy])
  rw [NetMod.forward, NetMod.build, NetMods.build, NetMods.build, NetMod.build]
  simp only [Option.bind_some, Option.map_some]
  have hM' := hM
  unfold multiMod at hM'
  split_ifs at hM'
  rw [hM, Option.bind_some]
  obtain ⟨o, -, rfl⟩ := Option.map_eq_some_iff.1 hM'
  simp only [multiForward]
  rw [if_pos hxt]
  have hsh : ([(k, (Layer.maxPool [r] 2 2 1 1 true : Layer F A I).toShapedMod rep (junk [0]))].mapM fun m =>
      (branch (fun r => (rep r).size) 0 [k] x m.1).bind fun z => m.2.shape (ETensor.dims (B := B) ⟨1, z⟩))
        = some [(Shape.mk (Fintype.card B) (rep r).size 2 2).dims] := by
    rw [List.mapM_cons, List.mapM_nil, hbr, Option.bind_some]
    simp only [Layer.toShapedMod, Layer.declared, ETensor.dims, Shape.dims, declAxes, if_true, hlen]
    rw [if_pos (by simp [typeSize])]
    simp [axisCeil, typeSize]
    norm_num
  rw [hsh, Option.bind_some]
  change (some (Shape.mk (Fintype.card B) (rep r).size 2 2).dims).bind _ = _
  rw [Option.bind_some, alloc_dims, Option.bind_some]
  have hys : ([(k, (Layer.maxPool [r] 2 2 1 1 true : Layer F A I).toShapedMod rep (junk [0]))].mapM fun m =>
      (branch (fun r => (rep r).size) 0 [k] x m.1).bind fun z => (m.2.fwd ⟨1, z⟩).bind (ETensor.fit 2))
        = some [⟨[r], x.data.map fun v q => v (q.1, 0, 0)⟩] := by
    rw [List.mapM_cons, List.mapM_nil, hbr, Option.bind_some, Layer.toShapedMod]
    simp only [hfw, Option.bind_some]
    rw [ETensor.fit, dif_neg (by norm_num), dif_pos rfl]
    simp [hxt]
  have hw : ∀ y ∈ [(⟨[r], x.data.map fun v q => v (q.1, 0, 0)⟩ : GTensor F (Pix B 2 → ℝ))], y.WF fun r => (rep r).size := by
    intro y hy
    obtain rfl := List.mem_singleton.1 hy
    exact ⟨by simp, by simp [typeSize, hlen]⟩
  rw [hys, Option.bind_some, mergeGT_eq (fun r => (rep r).size) _ (by simp) hw (junk [] _ 2) (by rw [hj]; simp [typeSize]),
    (directsumGT_eq (fun r => (rep r).size) _ (by simp) hw).1]
  simp

end E2
