import Verif.Props.NetTreeSpec
import Verif.Props.Network

/-!
Lemmas for nested networks (C102): a network is built twice, with different memory, and called on a tensor and on the transformed tensor.
-/

set_option linter.unusedSectionVars false

namespace E2

open Mat

variable {El F A I B K : Type} [LinearOrder F] [DecidableEq I] [LinearOrder K] [Fintype B]

/-- Two copies of a module on the tensors with `n × n` pixels: they return the same tensor, and the second returns the transformed tensor for the transformed input.  If `S` holds, the shape
declared is the shape of the output. -/
structure Twin (Sp : Space El) (rep : F → Repr El) (S : Prop) (n m : ℕ) (M M' : EMod (List F) (ETensor F B) (List Dim)) : Prop where
  inTy : M'.inTy = M.inTy
  outTy : M'.outTy = M.outTy
  shape : M'.shape = M.shape
  step : ∀ x : ETensor F B, x.n = n → x.x.WF (fun r => (rep r).size) → x.x.ty = M.inTy →
    ∃ y : ETensor F B, y.n = m ∧ y.x.WF (fun r => (rep r).size) ∧ y.x.ty = M.outTy ∧ M.fwd x = some y ∧ M'.fwd x = some y ∧
      (S → M.shape x.dims = some y.dims) ∧
      ∀ g, Sp.G.isEl g → Sp.grid g → M'.fwd (x.act Sp rep g) = some (y.act Sp rep g)

theorem layer_twin {Sp : Space El} {rep : F → Repr El} {built : (F → F → List (A × (ℝ × ℝ → Mat))) → (A → I) → Prop} (hS : NetSpace Sp rep built)
    (l : Layer F A I) {n m : ℕ} (hl : l.Ok Sp rep built n m) {junk junk' : (c n : ℕ) → List (Pix B n → ℝ)} (hj : JunkOk junk) (hj' : JunkOk junk') :
    Twin Sp rep l.ShapeOk n m (l.toShapedMod rep junk) (l.toShapedMod rep junk') := by
  refine ⟨rfl, rfl, rfl, fun x hn hx hxt => ?_⟩
  obtain ⟨n', x⟩ := x
  obtain rfl : n' = n := hn
  obtain ⟨y, h1, h2, h3, h4, h5⟩ := layer_step hS l hl x hx hxt
  exact ⟨y, h1, h2, h3, h4 junk hj, h4 junk' hj', fun hs => c98_module l hs (h3 ▸ h2.1) _ y hx (h4 junk hj), fun g hg hq => h5 g hg hq junk' hj'⟩

/-! ### One after the other -/

/-- Two copies of a list of modules, one after the other. -/
def TwinSeq (Sp : Space El) (rep : F → Repr El) (S : Prop) :
    List (K × EMod (List F) (ETensor F B) (List Dim)) → List (K × EMod (List F) (ETensor F B) (List Dim)) → ℕ → ℕ → Prop
  | [], [], n, m => m = n
  | a :: l, a' :: l', n, m => a'.1 = a.1 ∧ ∃ k, Twin Sp rep S n k a.2 a'.2 ∧ TwinSeq Sp rep S l l' k m
  | _, _, _, _ => False

theorem Twin.mono {Sp : Space El} {rep : F → Repr El} {S S' : Prop} (hS : S' → S) {n m : ℕ} {M M' : EMod (List F) (ETensor F B) (List Dim)}
    (h : Twin Sp rep S n m M M') : Twin Sp rep S' n m M M' := by
  refine ⟨h.inTy, h.outTy, h.shape, fun x hn hx hxt => ?_⟩
  obtain ⟨y, h1, h2, h3, h4, h4', h5, h6⟩ := h.step x hn hx hxt
  exact ⟨y, h1, h2, h3, h4, h4', fun hs => h5 (hS hs), h6⟩

theorem TwinSeq.mono {Sp : Space El} {rep : F → Repr El} {S S' : Prop} (hS : S' → S) {l l' : List (K × EMod (List F) (ETensor F B) (List Dim))} {n m : ℕ}
    (h : TwinSeq Sp rep S l l' n m) : TwinSeq Sp rep S' l l' n m := by
  induction l generalizing l' n with
  | nil => cases l' with
    | nil => exact h
    | cons a' l' => exact h.elim
  | cons a l ih => cases l' with
    | nil => exact h.elim
    | cons a' l' =>
      obtain ⟨h1, k, h2, h3⟩ := h
      exact ⟨h1, k, h2.mono hS, ih h3⟩

theorem TwinSeq.types {Sp : Space El} {rep : F → Repr El} {S : Prop} {l l' : List (K × EMod (List F) (ETensor F B) (List Dim))} {n m : ℕ}
    (h : TwinSeq Sp rep S l l' n m) :
    l'.map (fun p => (p.1, p.2.inTy, p.2.outTy)) = l.map (fun p => (p.1, p.2.inTy, p.2.outTy)) ∧ l'.map (fun p => p.2.shape) = l.map fun p => p.2.shape := by
  induction l generalizing l' n with
  | nil => cases l' with
    | nil => exact ⟨rfl, rfl⟩
    | cons a' l' => exact h.elim
  | cons a l ih => cases l' with
    | nil => exact h.elim
    | cons a' l' =>
      obtain ⟨h1, k, h2, h3⟩ := h
      obtain ⟨h4, h5⟩ := ih h3
      refine ⟨?_, ?_⟩
      · rw [List.map_cons, List.map_cons, h4, h1, h2.inTy, h2.outTy]
      · rw [List.map_cons, List.map_cons, h5, h2.shape]

theorem TwinSeq.run {Sp : Space El} {rep : F → Repr El} {S : Prop} {l l' : List (K × EMod (List F) (ETensor F B) (List Dim))} {n m : ℕ}
    (h : TwinSeq Sp rep S l l' n m) (hf : Fits (l.map Prod.snd)) (x : ETensor F B) (hn : x.n = n) (hx : x.x.WF fun r => (rep r).size)
    (hxt : ∀ p ∈ l.head?, x.x.ty = p.2.inTy) :
    ∃ y : ETensor F B, y.n = m ∧ y.x.WF (fun r => (rep r).size) ∧ (∀ p ∈ l.getLast?, y.x.ty = p.2.outTy) ∧ runMods l x = some y ∧ runMods l' x = some y ∧
      (S → l.foldlM (fun s p => p.2.shape s) x.dims = some y.dims) ∧
      ∀ g, Sp.G.isEl g → Sp.grid g → runMods l' (x.act Sp rep g) = some (y.act Sp rep g) := by
  induction l generalizing l' n x with
  | nil => cases l' with
    | nil =>
      obtain rfl : m = n := h
      exact ⟨x, hn, hx, by simp, rfl, rfl, fun _ => rfl, fun _ _ _ => rfl⟩
    | cons a' l' => exact h.elim
  | cons a l ih => cases l' with
    | nil => exact h.elim
    | cons a' l' =>
      obtain ⟨-, k, h2, h3⟩ := h
      obtain ⟨y, e1, e2, e3, e4, e4', e5, e6⟩ := h2.step x hn hx (hxt a (by simp))
      have hfl : Fits (l.map Prod.snd) := by
        unfold Fits at hf ⊢
        rw [List.map_cons] at hf
        exact (List.isChain_cons.1 hf).2
      obtain ⟨z, f1, f2, f3, f4, f4', f5, f6⟩ := ih h3 hfl y e1 e2 (by
        intro p hp
        unfold Fits at hf
        rw [List.map_cons] at hf
        rw [e3]
        refine (List.isChain_cons.1 hf).1 p.2 ?_
        rw [List.head?_map]
        exact Option.mem_map_of_mem _ hp)
      refine ⟨z, f1, f2, ?_, ?_, ?_, ?_, ?_⟩
      · intro p hp
        cases l with
        | nil =>
          obtain rfl : a = p := by simpa using hp
          have : z = y := by simpa [runMods] using f4.symm
          rw [this, e3]
        | cons b l => exact f3 p (by rw [List.getLast?_cons_cons] at hp; exact hp)
      · rw [runMods, e4]
        exact f4
      · rw [runMods, e4']
        exact f4'
      · intro hs
        rw [List.foldlM_cons, e5 hs]
        exact f5 hs
      · intro g hg hq
        rw [runMods, e6 g hg hq]
        exact f6 g hg hq

/-- Two copies of a `SequentialModule`. -/
theorem seq_twin {Sp : Space El} {rep : F → Repr El} {S : Prop} {l l' : List (K × EMod (List F) (ETensor F B) (List Dim))} {n m : ℕ}
    (h : TwinSeq Sp rep S l l' n m) (hnd : (l.map Prod.fst).Nodup) {M : EMod (List F) (ETensor F B) (List Dim)}
    (hM : seqMod (fun r => (rep r).size) l = some M) :
    ∃ M', seqMod (fun r => (rep r).size) l' = some M' ∧ Twin Sp rep S n m M M' := by
  unfold seqMod at hM
  obtain ⟨st, hst, hM⟩ := Option.bind_eq_some_iff.1 hM
  obtain ⟨i, hi, hM⟩ := Option.bind_eq_some_iff.1 hM
  obtain ⟨o, ho, rfl⟩ := Option.map_eq_some_iff.1 hM
  obtain ⟨hf, h1, h2, h3⟩ := (c41_built l hnd).2 st hst
  obtain ⟨ht, hsh⟩ := h.types
  have hk : l'.map Prod.fst = l.map Prod.fst := by
    have := congrArg (List.map Prod.fst) ht
    simpa [List.map_map, Function.comp_def] using this
  have hin : l'.map (fun p => p.2.inTy) = l.map (fun p => p.2.inTy) := by
    have := congrArg (List.map fun p => p.2.1) ht
    simpa [List.map_map, Function.comp_def] using this
  have hout : l'.map (fun p => p.2.outTy) = l.map (fun p => p.2.outTy) := by
    have := congrArg (List.map fun p => p.2.2) ht
    simpa [List.map_map, Function.comp_def] using this
  have hf' : Fits (l'.map Prod.snd) := by
    have key : ∀ l : List (K × EMod (List F) (ETensor F B) (List Dim)), Fits (l.map Prod.snd) ↔
        (l.map fun p => (p.1, p.2.inTy, p.2.outTy)).IsChain fun a b => a.2.2 = b.2.1 := by
      intro l
      unfold Fits
      rw [List.isChain_map, List.isChain_map]
    rw [key, ht, ← key]
    exact hf
  obtain ⟨st', hst'⟩ := Option.isSome_iff_exists.1 ((c41_built l' (hk ▸ hnd)).1 hf')
  obtain ⟨-, h1', h2', h3'⟩ := (c41_built l' (hk ▸ hnd)).2 st' hst'
  have ei : st'.inTy = st.inTy := by
    rw [h2, h2', ← List.head?_map, ← List.head?_map, hin]
  have eo : st'.outTy = st.outTy := by
    rw [h3, h3', ← List.getLast?_map, ← List.getLast?_map, hout]
  refine ⟨⟨i, o, seqForward (fun x => x.x.ty) st', seqShape (seqShapeOk fun r => (rep r).size) st'⟩, ?_, rfl, rfl, ?_, ?_⟩
  · rw [seqMod, hst', Option.bind_some, ei, hi, Option.bind_some, eo, ho, Option.map_some]
  · funext s
    simp only [seqShape, ei, h1, h1']
    have e : ∀ l : List (K × EMod (List F) (ETensor F B) (List Dim)), l.foldlM (fun s p => p.2.shape s) s = (l.map fun p => p.2.shape).foldlM (fun s f => f s) s := by
      intro l
      rw [List.foldlM_map]
    rw [e l, e l', hsh]
  · intro x hn hx hxt
    obtain ⟨y, e1, e2, e3, e4, e4', e5, e6⟩ := h.run hf x hn hx (by
      intro p hp
      have : st.inTy = some p.2.inTy := by rw [h2, hp]; rfl
      rw [hi] at this
      exact hxt.trans (Option.some.inj this))
    have hyt : y.x.ty = o := by
      rw [ho] at h3
      obtain ⟨p, hp, hp'⟩ := Option.map_eq_some_iff.1 h3.symm
      rw [e3 p hp, hp']
    refine ⟨y, e1, e2, hyt, ?_, ?_, ?_, ?_⟩
    · simp only [seqForward]
      rw [hi, if_pos (by rw [hxt]), h1, e4, Option.bind_some, ho, if_pos (by rw [hyt])]
    · simp only [seqForward]
      rw [ei, hi, if_pos (by rw [hxt]), h1', e4', Option.bind_some, eo, ho, if_pos (by rw [hyt])]
    · intro hs
      simp only [seqShape]
      rw [hi, if_pos, h1]
      · exact e5 hs
      · simp [seqShapeOk, ETensor.dims, Shape.dims, hx.2, hxt]
    · intro g hg hq
      simp only [seqForward]
      rw [ei, hi, if_pos (show some (x.act Sp rep g).x.ty = some i from congrArg some hxt), h1', e6 g hg hq, Option.bind_some, eo, ho,
        if_pos (show some (y.act Sp rep g).x.ty = some o from congrArg some hyt)]

/-! ### Side by side -/

/-- The type of a branch. -/
theorem branch_ty (sz : F → ℕ) (level : ℕ) (labels : List K) {V : Type} (x y : GTensor F V) (l : K) (h : branch sz level labels x l = some y) :
    branchType sz level labels x.ty l = some y.ty := by
  have hsub : ∀ (labels : List K) (x y : GTensor F V), branchSub sz labels x l = some y → groupByLabels x.ty labels l = some y.ty := by
    intro labels x y h
    unfold branchSub at h
    simp only [Option.bind_eq_bind] at h
    obtain ⟨t, ht, h⟩ := Option.bind_eq_some_iff.1 h
    obtain ⟨c, -, h⟩ := Option.bind_eq_some_iff.1 h
    obtain ⟨z, -, h⟩ := Option.bind_eq_some_iff.1 h
    unfold mkGT at h
    split_ifs at h
    rw [ht, ← Option.some.inj h]
  unfold branch at h
  unfold branchType
  by_cases h1 : level < 3 ∧ x.ty.length = labels.length
  · rw [if_pos h1] at h ⊢
    by_cases h2 : 0 < level ∧ branchPerm sz level labels x.ty ≠ List.range x.ty.length
    · rw [if_pos h2] at h ⊢
      simp only [Option.bind_eq_bind] at h ⊢
      obtain ⟨z, hz, h⟩ := Option.bind_eq_some_iff.1 h
      obtain ⟨ls, hls, h⟩ := Option.bind_eq_some_iff.1 h
      unfold reshuffle at hz
      split_ifs at hz
      simp only [Option.bind_eq_bind] at hz
      obtain ⟨t, ht, hz⟩ := Option.bind_eq_some_iff.1 hz
      obtain ⟨r, -, hz⟩ := Option.bind_eq_some_iff.1 hz
      obtain ⟨d, -, hz⟩ := Option.bind_eq_some_iff.1 hz
      unfold mkGT at hz
      split_ifs at hz
      rw [← Option.some.inj hz] at h
      rw [ht, Option.bind_some, hls, Option.bind_some]
      exact hsub _ _ _ h
    · rw [if_neg h2] at h ⊢
      exact hsub _ _ _ h
  · rw [if_neg h1] at h
    exact absurd h (by simp)

theorem fit_eq {n : ℕ} (x : GTensor F (Pix B n → ℝ)) : ETensor.fit n ⟨n, x⟩ = some x := by
  rw [ETensor.fit, dif_pos rfl]

/-- Two copies of a list of modules, side by side. -/
def TwinAll (Sp : Space El) (rep : F → Repr El) (S : Prop) (n m : ℕ) (l l' : List (K × EMod (List F) (ETensor F B) (List Dim))) : Prop :=
  List.Forall₂ (fun a a' => a'.1 = a.1 ∧ Twin Sp rep S n m a.2 a'.2) l l'

theorem mergeDims_same (b m : ℕ) (c : ℕ) (cs : List ℕ) :
    mergeDims ((c :: cs).map fun c => (Shape.mk b c m m).dims) = some (Shape.mk b (c :: cs).sum m m).dims := by
  rw [List.map_cons, mergeDims]
  induction cs generalizing c with
  | nil => rfl
  | cons d cs ih =>
    rw [List.map_cons, List.foldlM_cons]
    have : mergeDim (Shape.mk b c m m).dims (Shape.mk b d m m).dims = some (Shape.mk b (c + d) m m).dims := by
      simp [mergeDim, Shape.dims, Dim.add]
    rw [this]
    refine (ih (c + d)).trans ?_
    simp [Nat.add_assoc]

theorem mergeDims_types {V : Type} (sz : F → ℕ) (b m : ℕ) (ys : List (GTensor F V)) (hne : ys ≠ []) :
    mergeDims (ys.map fun y => (Shape.mk b (typeSize sz y.ty) m m).dims) = some (Shape.mk b (typeSize sz (ys.flatMap GTensor.ty)) m m).dims := by
  obtain ⟨y, zs, rfl⟩ := List.exists_cons_of_ne_nil hne
  have := mergeDims_same b m (typeSize sz y.ty) (zs.map fun y => typeSize sz y.ty)
  rw [← List.map_cons (f := fun y : GTensor F V => typeSize sz y.ty), List.map_map] at this
  refine this.trans ?_
  congr 3
  induction y :: zs with
  | nil => rfl
  | cons a l ih => rw [List.map_cons, List.sum_cons, ih, List.flatMap_cons, typeSize, typeSize, typeSize, List.map_append, List.sum_append]

theorem alloc_dims (b c m : ℕ) : allocSize b (Shape.mk b c m m).dims = some (c, m) := by
  simp [allocSize, Shape.dims]

/-- The branches of two copies of a `MultipleModule`. -/
theorem branches_step {Sp : Space El} {rep : F → Repr El} {built : (F → F → List (A × (ℝ × ℝ → Mat))) → (A → I) → Prop} (hS : NetSpace Sp rep built)
    {n m level : ℕ} {labels : List K} (hlev : level < 3) (x : GTensor F (Pix B n → ℝ)) (hx : x.WF fun r => (rep r).size)
    (hl : x.ty.length = labels.length) (l l' : List (K × EMod (List F) (ETensor F B) (List Dim)))
    (hb : ∀ a ∈ l, a.1 ∈ labels ∧ branchType (fun r => (rep r).size) level labels x.ty a.1 = some a.2.inTy) (h : TwinAll Sp rep True n m l l') :
    ∃ ys : List (GTensor F (Pix B m → ℝ)), (∀ y ∈ ys, y.WF fun r => (rep r).size) ∧ ys.map GTensor.ty = l.map (fun a => a.2.outTy) ∧
      (l.mapM fun a => (branch (fun r => (rep r).size) level labels x a.1).bind fun z => a.2.shape (ETensor.dims (B := B) ⟨n, z⟩))
        = some (ys.map fun y => (Shape.mk (Fintype.card B) (typeSize (fun r => (rep r).size) y.ty) m m).dims) ∧
      (l.mapM fun a => (branch (fun r => (rep r).size) level labels x a.1).bind fun z => (a.2.fwd ⟨n, z⟩).bind (ETensor.fit m)) = some ys ∧
      (l'.mapM fun a => (branch (fun r => (rep r).size) level labels x a.1).bind fun z => a.2.shape (ETensor.dims (B := B) ⟨n, z⟩))
        = some (ys.map fun y => (Shape.mk (Fintype.card B) (typeSize (fun r => (rep r).size) y.ty) m m).dims) ∧
      (l'.mapM fun a => (branch (fun r => (rep r).size) level labels x a.1).bind fun z => (a.2.fwd ⟨n, z⟩).bind (ETensor.fit m)) = some ys ∧
      ∀ g, Sp.G.isEl g → Sp.grid g → ∀ τ : GSym, (∀ n x i j, i < n → j < n → Sp.base n g x i j = x (τ.ap n (i, j)).1 (τ.ap n (i, j)).2) →
        (l'.mapM fun a => (branch (fun r => (rep r).size) level labels
            (x.transform (fun r => (rep r).size) (fun r => (rep r).mat g) (Pix.move τ)) a.1).bind fun z => a.2.shape (ETensor.dims (B := B) ⟨n, z⟩))
          = some (ys.map fun y => (Shape.mk (Fintype.card B) (typeSize (fun r => (rep r).size) y.ty) m m).dims) ∧
        (l'.mapM fun a => (branch (fun r => (rep r).size) level labels
            (x.transform (fun r => (rep r).size) (fun r => (rep r).mat g) (Pix.move τ)) a.1).bind fun z => (a.2.fwd ⟨n, z⟩).bind (ETensor.fit m))
          = some (ys.map (GTensor.transform (fun r => (rep r).size) (fun r => (rep r).mat g) (Pix.move τ))) := by
  induction h with
  | nil => exact ⟨[], by simp, rfl, rfl, rfl, rfl, rfl, fun _ _ _ _ _ => ⟨rfl, rfl⟩⟩
  | @cons a a' l l' ha h ih =>
    obtain ⟨ys, i1, i2, i3, i4, i3', i4', i5⟩ := ih fun b hb' => hb b (List.mem_cons_of_mem _ hb')
    obtain ⟨hk, hty⟩ := hb a List.mem_cons_self
    obtain ⟨ha1, ha2⟩ := ha
    have hpos : ∀ r ∈ x.ty, 0 < (rep r).size := fun r _ => hS.pos r
    obtain ⟨fs, z, -, -, -, hz, hz'⟩ := c31_branch (fun r => (rep r).size) level hlev x hx hpos labels hl.symm a.1 hk
    have hzw : z.WF fun r => (rep r).size := ((GTensor.select_eq_some hx).1 hz').2.2.2
    have hzt : z.ty = a.2.inTy := by
      have := branch_ty _ _ _ _ _ _ hz
      rw [hty] at this
      exact (Option.some.inj this).symm
    obtain ⟨⟨m', y⟩, e1, e2, e3, e4, e4', e5, e6⟩ := ha2.step ⟨n, z⟩ rfl hzw hzt
    obtain rfl : m' = m := e1
    have hd : ETensor.dims ⟨m', y⟩ = (Shape.mk (Fintype.card B) (typeSize (fun r => (rep r).size) y.ty) m' m').dims := by
      rw [ETensor.dims, e2.2]
    refine ⟨y :: ys, by simpa using ⟨e2, i1⟩, by rw [List.map_cons, List.map_cons, i2]; congr 1, ?_, ?_, ?_, ?_, ?_⟩
    · rw [List.mapM_cons, i3, hz, Option.bind_some, e5 trivial, hd]
      rfl
    · rw [List.mapM_cons, i4, hz, Option.bind_some, e4, Option.bind_some, fit_eq]
      rfl
    · rw [List.mapM_cons, i3', ha1, hz, Option.bind_some, ha2.shape, e5 trivial, hd]
      rfl
    · rw [List.mapM_cons, i4', ha1, hz, Option.bind_some, e4', Option.bind_some, fit_eq]
      rfl
    · intro g hg hq τ hτ
      obtain ⟨j1, j2⟩ := i5 g hg hq τ hτ
      have hbt := branch_transform (fun r => (rep r).size) (fun r => (rep r).mat g) (Pix.move τ) level hlev x hx hpos labels hl.symm a.1
      rw [hz, Option.map_some] at hbt
      have e6 := e6 g hg hq
      rw [act_eq rep hτ, act_eq rep hτ] at e6
      refine ⟨?_, ?_⟩
      · have hd' : ETensor.dims (B := B) ⟨n, z.transform (fun r => (rep r).size) (fun r => (rep r).mat g) (Pix.move τ)⟩ = ETensor.dims ⟨n, z⟩ := by
          rw [ETensor.dims, ETensor.dims]
          congr 2
          exact ((transform_wf (fun r => (rep r).mat g) (Pix.move τ) hzw).2.trans hzw.2.symm)
        rw [List.mapM_cons, j1, ha1, hbt, Option.bind_some, ha2.shape, hd', e5 trivial, hd]
        rfl
      · rw [List.mapM_cons, j2, ha1, hbt, Option.bind_some, e6, Option.bind_some, fit_eq]
        rfl

/-- Two copies of a `MultipleModule`. -/
theorem multi_twin {Sp : Space El} {rep : F → Repr El} {built : (F → F → List (A × (ℝ × ℝ → Mat))) → (A → I) → Prop} (hS : NetSpace Sp rep built)
    {n m level : ℕ} {inT : List F} {labels : List K} {l l' : List (K × EMod (List F) (ETensor F B) (List Dim))}
    (h : TwinAll Sp rep True n m l l') {junk junk' : (c n : ℕ) → List (Pix B n → ℝ)} (hj : JunkOk junk) (hj' : JunkOk junk')
    {M : EMod (List F) (ETensor F B) (List Dim)} (hM : multiMod (fun r => (rep r).size) inT level labels l junk = some M) :
    ∃ M', multiMod (fun r => (rep r).size) inT level labels l' junk' = some M' ∧ Twin Sp rep False n m M M' := by
  have hk : l'.map Prod.fst = l.map Prod.fst := by
    clear hM
    induction h with
    | nil => rfl
    | cons ha _ ih => rw [List.map_cons, List.map_cons, ih, ha.1]
  have hin : l'.map (fun a => (a.1, a.2.inTy)) = l.map (fun a => (a.1, a.2.inTy)) := by
    clear hM hk
    induction h with
    | nil => rfl
    | cons ha _ ih => rw [List.map_cons, List.map_cons, ih, ha.1, ha.2.inTy]
  have hout : l'.map (fun a => a.2.outTy) = l.map (fun a => a.2.outTy) := by
    clear hM hk hin
    induction h with
    | nil => rfl
    | cons ha _ ih => rw [List.map_cons, List.map_cons, ih, ha.2.outTy]
  have hbr : ∀ l : List (K × EMod (List F) (ETensor F B) (List Dim)), (∀ a ∈ l, branchType (fun r => (rep r).size) level labels inT a.1 = some a.2.inTy) ↔
      ∀ q ∈ l.map (fun a => (a.1, a.2.inTy)), branchType (fun r => (rep r).size) level labels inT q.1 = some q.2 := by
    intro l
    rw [List.forall_mem_map]
  unfold multiMod at hM
  split_ifs at hM with hc
  obtain ⟨hlev, hlen, hlab, hty⟩ := hc
  obtain ⟨outT, ho, rfl⟩ := Option.map_eq_some_iff.1 hM
  have hfm : l'.flatMap (fun a => a.2.outTy) = l.flatMap (fun a => a.2.outTy) := by
    rw [List.flatMap_def, List.flatMap_def, hout]
  refine ⟨⟨inT, outT, multiForward (fun r => (rep r).size) inT level labels l' junk', multiShape (fun r => (rep r).size) inT⟩, ?_, rfl, rfl, rfl, ?_⟩
  · rw [multiMod, if_pos ⟨hlev, hlen, by rw [hk]; exact hlab, by rw [hbr, hin, ← hbr]; exact hty⟩, hfm, ho]
    rfl
  · rintro ⟨n', x⟩ hn hx hxt
    obtain rfl : n' = n := hn
    obtain rfl : x.ty = inT := hxt
    obtain ⟨ys, e1, e2, e3, e4, e3', e4', e5⟩ := branches_step hS hlev x hx hlen l l'
      (fun a ha => ⟨(hlab a.1).1 (List.mem_map_of_mem ha), hty a ha⟩) h
    have hout' : outT = ys.flatMap GTensor.ty := by
      unfold mkType at ho
      split_ifs at ho
      rw [← Option.some.inj ho, List.flatMap_def, List.flatMap_def, e2]
    have hne : ys ≠ [] := by
      rintro rfl
      rw [hout'] at ho
      unfold mkType at ho
      split_ifs at ho with hh
      have := Option.some.inj ho
      simp [this] at hh
    have hsh := mergeDims_types (fun r => (rep r).size) (Fintype.card B) m ys hne
    have hmg := fun (j : (c n : ℕ) → List (Pix B n → ℝ)) (hj : JunkOk j) =>
      mergeGT_eq (fun r => (rep r).size) ys hne e1 (j (typeSize (fun r => (rep r).size) (ys.flatMap GTensor.ty)) m) (hj _ _)
    obtain ⟨d1, d2⟩ := directsumGT_eq (fun r => (rep r).size) ys hne e1
    refine ⟨⟨m, _⟩, rfl, d2, hout'.symm, ?_, ?_, False.elim, ?_⟩
    · simp only [multiForward]
      rw [if_pos trivial, e3, Option.bind_some, hsh, Option.bind_some, alloc_dims, Option.bind_some, e4, Option.bind_some, hmg junk hj, d1]
      rfl
    · simp only [multiForward]
      rw [if_pos trivial, e3', Option.bind_some, hsh, Option.bind_some, alloc_dims, Option.bind_some, e4', Option.bind_some, hmg junk' hj', d1]
      rfl
    · intro g hg hq
      obtain ⟨τ, hτ, -⟩ := hS.grid g hg hq
      obtain ⟨j1, j2⟩ := e5 g hg hq τ hτ
      rw [act_eq rep hτ, act_eq rep hτ]
      simp only [multiForward]
      rw [if_pos (show (GTensor.transform _ _ _ x).ty = x.ty from rfl), j1, Option.bind_some, hsh, Option.bind_some, alloc_dims, Option.bind_some, j2,
        Option.bind_some, merge_transform (fun r => (rep r).size) (fun r => (rep r).mat g) (Pix.move τ) ys hne e1 _ (junk' _ _) (hj' _ _) rfl, hmg junk' hj', d1]
      rfl

/-! ### The constructors -/

theorem seqMod_some (sz : F → ℕ) (l : List (K × EMod (List F) (ETensor F B) (List Dim))) (hne : l ≠ []) (hnd : (l.map Prod.fst).Nodup)
    (hf : Fits (l.map Prod.snd)) : ∃ M, seqMod sz l = some M ∧ M.inTy = (l.head hne).2.inTy ∧ M.outTy = (l.getLast hne).2.outTy := by
  obtain ⟨st, hst⟩ := Option.isSome_iff_exists.1 ((c41_built l hnd).1 hf)
  obtain ⟨-, -, h2, h3⟩ := (c41_built l hnd).2 st hst
  rw [List.head?_eq_some_head hne] at h2
  rw [List.getLast?_eq_some_getLast hne] at h3
  refine ⟨⟨(l.head hne).2.inTy, (l.getLast hne).2.outTy, seqForward (fun x => x.x.ty) st, seqShape (seqShapeOk sz) st⟩, ?_, rfl, rfl⟩
  rw [seqMod, hst, Option.bind_some, h2, Option.map_some, Option.bind_some, h3, Option.map_some, Option.map_some]

theorem multiMod_some (sz : F → ℕ) (inT : List F) (level : ℕ) (labels : List K) (l : List (K × EMod (List F) (ETensor F B) (List Dim)))
    (junk : (c n : ℕ) → List (Pix B n → ℝ)) (h1 : level < 3) (h2 : inT.length = labels.length) (h3 : ∀ k, k ∈ l.map Prod.fst ↔ k ∈ labels)
    (h4 : ∀ m ∈ l, branchType sz level labels inT m.1 = some m.2.inTy) (h5 : (l.flatMap fun m => m.2.outTy) ≠ []) :
    ∃ M, multiMod sz inT level labels l junk = some M ∧ M.inTy = inT ∧ M.outTy = l.flatMap fun m => m.2.outTy := by
  refine ⟨⟨inT, l.flatMap fun m => m.2.outTy, multiForward sz inT level labels l junk, multiShape sz inT⟩, ?_, rfl, rfl⟩
  rw [multiMod, if_pos ⟨h1, h2, h3, h4⟩, mkType, if_neg h5, Option.map_some]

end E2
