import Verif.Model.Sequential
import Verif.Props.Pooling
import Verif.Props.Reorder

/-!
Composition of modules (C41).
-/

set_option linter.unusedSectionVars false

namespace E2

open Mat

variable {T X S K : Type}

/-! ### Specification -/

/-- Consecutive modules fit: the output type of each one is the input type of the next one. -/
def Fits (ms : List (EMod T X S)) : Prop := ms.IsChain fun a b => a.outTy = b.inTy

/-- The composition of the modules, from the first to the last. -/
def compose : List (EMod T X S) → X → Option X
  | [], x => some x
  | m :: ms, x => (m.fwd x).bind (compose ms)

/-- A module which does what its types say: it accepts the tensors of its input type, and only these, and returns tensors of its output type. -/
structure WellTyped (ty : X → T) (m : EMod T X S) : Prop where
  accepts : ∀ x, (m.fwd x).isSome ↔ ty x = m.inTy
  returns : ∀ x y, m.fwd x = some y → ty y = m.outTy

/-- A module commutes with a transformation of the tensors (`a` on the inputs, `b` on the outputs). -/
def Commutes (ty : X → T) (a : X → X) (m : EMod T X S) : Prop := ∀ x, ty x = m.inTy → m.fwd (a x) = (m.fwd x).map a

/-! ### The constructor -/

theorem dictSet_new {V : Type} [DecidableEq K] (d : List (K × V)) (k : K) (v : V) (h : k ∉ d.map Prod.fst) : dictSet d k v = d ++ [(k, v)] := by
  induction d with
  | nil => rfl
  | cons p d ih =>
    obtain ⟨k', v'⟩ := p
    simp only [List.map_cons, List.mem_cons, not_or] at h
    rw [dictSet, if_neg (fun e => h.1 e.symm), ih h.2]
    rfl

theorem addModules_spec [DecidableEq K] [DecidableEq T] (l pre : List (K × EMod T X S)) (st : SeqState K T X S)
    (hnd : ((pre ++ l).map Prod.fst).Nodup) (hm : st.mods = pre) (hi : st.inTy = (pre.head?).map fun p => p.2.inTy)
    (ho : st.outTy = (pre.getLast?).map fun p => p.2.outTy) (hf : Fits (pre.map Prod.snd)) :
    (∀ st', addModules st l = some st' → st'.mods = pre ++ l ∧ st'.inTy = ((pre ++ l).head?).map (fun p => p.2.inTy) ∧
      st'.outTy = ((pre ++ l).getLast?).map (fun p => p.2.outTy) ∧ Fits ((pre ++ l).map Prod.snd)) ∧
    (Fits ((pre ++ l).map Prod.snd) → (addModules st l).isSome) := by
  induction l generalizing pre st with
  | nil =>
    rw [addModules]
    refine ⟨?_, fun _ => rfl⟩
    rintro st' h
    obtain rfl := Option.some.inj h
    simp only [List.append_nil]
    exact ⟨hm, hi, ho, hf⟩
  | cons p l ih =>
    obtain ⟨k, m⟩ := p
    have hk : k ∉ st.mods.map Prod.fst := by
      rw [hm]
      rw [List.map_append, List.map_cons, List.nodup_append] at hnd
      intro h
      exact hnd.2.2 k h k List.mem_cons_self rfl
    have happ : pre ++ (k, m) :: l = (pre ++ [(k, m)]) ++ l := by simp
    have hchain : Fits ((pre ++ [(k, m)]).map Prod.snd) ↔ Fits (pre.map Prod.snd) ∧ ∀ q ∈ pre.getLast?, q.2.outTy = m.inTy := by
      rw [Fits, List.map_append, List.isChain_append]
      simp [Fits]
      exact fun _ => ⟨fun h a b => h b a, fun h a b => h b a⟩
    rw [hm] at hk
    rw [addModules, addModule, hm, dictSet_new pre k m hk]
    rw [happ] at hnd ⊢
    by_cases h0 : pre = []
    · subst h0
      simp only [List.head?_nil, List.getLast?_nil, Option.map_none] at hi ho
      rw [if_pos List.length_nil, if_pos ⟨hi, ho⟩, Option.bind_some]
      exact ih _ _ hnd rfl (by simp) (by simp) (by simp [Fits])
    · have hlen : pre.length ≠ 0 := by simpa using h0
      rw [if_neg hlen]
      by_cases hc : some m.inTy = st.outTy
      · rw [if_pos hc, Option.bind_some]
        refine ih _ _ hnd rfl ?_ (by simp) ?_
        · rw [hi, List.head?_append_of_ne_nil _ h0]
        · rw [hchain]
          refine ⟨hf, fun q hq => ?_⟩
          rw [ho, Option.mem_def.1 hq] at hc
          exact (Option.some.inj hc).symm
      · rw [if_neg hc, Option.bind_none]
        refine ⟨fun st' h => by simp at h, fun h => absurd ?_ hc⟩
        have h1 : Fits ((pre ++ [(k, m)]).map Prod.snd) := by
          rw [Fits, List.map_append] at h
          exact (List.isChain_append.1 h).1
        have h2 := (hchain.1 h1).2
        rw [ho]
        obtain ⟨q, hq⟩ := Option.isSome_iff_exists.1 (show pre.getLast?.isSome by simpa using h0)
        rw [hq, Option.map_some, h2 q hq]

/-- **C41, construction**: a `SequentialModule` is built exactly when consecutive modules fit; then its modules are the given ones in the given order and
its types are those of the first and of the last one. -/
theorem c41_built [DecidableEq K] [DecidableEq T] (l : List (K × EMod T X S)) (hnd : (l.map Prod.fst).Nodup) :
    (Fits (l.map Prod.snd) → (seqNew l).isSome) ∧
    ∀ st, seqNew l = some st → Fits (l.map Prod.snd) ∧ st.mods = l ∧ st.inTy = (l.head?).map (fun p => p.2.inTy) ∧
      st.outTy = (l.getLast?).map (fun p => p.2.outTy) := by
  have h := addModules_spec l [] ⟨none, none, []⟩ (by simpa using hnd) rfl rfl rfl (by simp [Fits])
  refine ⟨fun hf => h.2 (by simpa using hf), fun st hst => ?_⟩
  obtain ⟨h1, h2, h3, h4⟩ := h.1 st hst
  exact ⟨by simpa using h4, by simpa using h1, by simpa using h2, by simpa using h3⟩

/-- The same for the constructor with the modules as arguments, whatever injective naming. -/
theorem c41_built_args [DecidableEq K] [DecidableEq T] (str : ℕ → K) (hstr : Function.Injective str) (ms : List (EMod T X S)) :
    ((seqNewArgs str ms).isSome ↔ Fits ms) ∧
    ∀ st, seqNewArgs str ms = some st → st.mods.map Prod.snd = ms ∧ st.inTy = ms.head?.map EMod.inTy ∧ st.outTy = ms.getLast?.map EMod.outTy := by
  have hs : (ms.zipIdx.map fun p => (str p.2, p.1)).map Prod.snd = ms := by
    rw [List.map_map]
    exact List.zipIdx_map_fst 0 ms
  have hf : (ms.zipIdx.map fun p => (str p.2, p.1)).map Prod.fst = (List.range ms.length).map str := by
    rw [List.map_map, List.range_eq_range', ← List.zipIdx_map_snd 0 ms, List.map_map]
    rfl
  have h := c41_built (ms.zipIdx.map fun p => (str p.2, p.1)) (by rw [hf]; exact List.nodup_range.map hstr)
  rw [hs] at h
  refine ⟨⟨fun hi => ?_, h.1⟩, fun st hst => ?_⟩
  · obtain ⟨st, hst⟩ := Option.isSome_iff_exists.1 hi
    exact (h.2 st hst).1
  · obtain ⟨h1, h2, h3, h4⟩ := h.2 st hst
    refine ⟨by rw [h2, hs], ?_, ?_⟩
    · rw [h3]
      conv_rhs => rw [← hs]
      simp only [List.head?_map, Option.map_map]; rfl
    · rw [h4]
      conv_rhs => rw [← hs]
      simp only [List.getLast?_map, Option.map_map]; rfl

/-! ### The forward pass -/

theorem runMods_eq (l : List (K × EMod T X S)) : runMods l = compose (l.map Prod.snd) := by
  induction l with
  | nil => rfl
  | cons p l ih =>
    obtain ⟨k, m⟩ := p
    funext x
    rw [runMods, List.map_cons, compose, ih]

theorem compose_typed (ty : X → T) (m : EMod T X S) (ms : List (EMod T X S)) (hw : ∀ a ∈ m :: ms, WellTyped ty a) (hf : Fits (m :: ms)) (x : X)
    (hx : ty x = m.inTy) : ∃ y, compose (m :: ms) x = some y ∧ ty y = ((m :: ms).getLast (by simp)).outTy := by
  induction ms generalizing m x with
  | nil =>
    obtain ⟨y, hy⟩ := Option.isSome_iff_exists.1 (((hw m (by simp)).accepts x).2 hx)
    refine ⟨y, by rw [compose, hy]; rfl, (hw m (by simp)).returns x y hy⟩
  | cons m' ms ih =>
    obtain ⟨y, hy⟩ := Option.isSome_iff_exists.1 (((hw m (by simp)).accepts x).2 hx)
    rw [Fits, List.isChain_cons_cons] at hf
    obtain ⟨z, h1, h2⟩ := ih m' (fun a ha => hw a (List.mem_cons_of_mem _ ha)) hf.2 y (by rw [(hw m (by simp)).returns x y hy, hf.1])
    exact ⟨z, by rw [compose, hy]; exact h1, by rw [List.getLast_cons (by simp)]; exact h2⟩

/-- **C41, forward**: a sequence of well typed modules accepts the tensors of its input type, and only these, never fails on them, and computes the
composition; it is a well typed module itself, so sequences can be nested. -/
theorem c41_forward [DecidableEq K] [DecidableEq T] (ty : X → T) (l : List (K × EMod T X S)) (hne : l ≠ []) (hnd : (l.map Prod.fst).Nodup)
    (hw : ∀ p ∈ l, WellTyped ty p.2) (st : SeqState K T X S) (hst : seqNew l = some st) :
    (∀ x, some (ty x) = st.inTy → seqForward ty st x = compose (l.map Prod.snd) x) ∧
    ∃ i o, st.inTy = some i ∧ st.outTy = some o ∧ ∀ sh, WellTyped ty (⟨i, o, seqForward ty st, sh⟩ : EMod T X S) := by
  obtain ⟨hf, h1, h2, h3⟩ := (c41_built l hnd).2 st hst
  obtain ⟨⟨k, m⟩, l, rfl⟩ := List.exists_cons_of_ne_nil hne
  have hwt : ∀ a ∈ m :: l.map Prod.snd, WellTyped ty a := by
    intro a ha
    have : a ∈ ((k, m) :: l).map Prod.snd := by simpa using ha
    obtain ⟨p, hp, rfl⟩ := List.mem_map.1 this
    exact hw p hp
  have ho : st.outTy = some ((m :: l.map Prod.snd).getLast (by simp)).outTy := by
    have e : (((k, m) :: l).getLast?).map (fun p => p.2.outTy) = ((((k, m) :: l).map Prod.snd).getLast?).map EMod.outTy := by
      rw [List.getLast?_map, Option.map_map]; rfl
    rw [h3, e, List.getLast?_eq_some_getLast (by simp)]
    rfl
  have key : ∀ x, some (ty x) = st.inTy → ∃ y, compose (m :: l.map Prod.snd) x = some y ∧ some (ty y) = st.outTy := by
    intro x hx
    rw [h2] at hx
    obtain ⟨y, hy1, hy2⟩ := compose_typed ty m _ hwt hf x (Option.some.inj hx)
    exact ⟨y, hy1, by rw [hy2, ho]⟩
  have hfw : ∀ x, some (ty x) = st.inTy → seqForward ty st x = compose (m :: l.map Prod.snd) x := by
    intro x hx
    obtain ⟨y, hy1, hy2⟩ := key x hx
    rw [seqForward, if_pos hx, h1, runMods_eq]
    change (compose (m :: l.map Prod.snd) x).bind _ = _
    rw [hy1, Option.bind_some, if_pos hy2]
  refine ⟨hfw, m.inTy, _, h2, ho, fun sh => ⟨fun x => ?_, fun x y h => ?_⟩⟩
  · constructor
    · intro h
      by_contra hc
      have hc' : ¬ some (ty x) = st.inTy := by rw [h2]; intro e; exact hc (Option.some.inj e)
      simp only [seqForward, if_neg hc', Option.isSome_none, Bool.false_eq_true] at h
    · intro h
      have hx : some (ty x) = st.inTy := by rw [h2]; exact congrArg some h
      obtain ⟨y, hy, -⟩ := key x hx
      change (seqForward ty st x).isSome
      rw [hfw x hx, hy]; rfl
  · have h : seqForward ty st x = some y := h
    by_cases hx : some (ty x) = st.inTy
    · obtain ⟨z, hz1, hz2⟩ := key x hx
      rw [hfw x hx, hz1] at h
      obtain rfl := Option.some.inj h
      rw [ho] at hz2
      exact Option.some.inj hz2
    · rw [seqForward, if_neg hx] at h
      simp at h

theorem compose_commutes (ty : X → T) (a : X → X) (ha : ∀ x, ty (a x) = ty x) (m : EMod T X S) (ms : List (EMod T X S))
    (hw : ∀ b ∈ m :: ms, WellTyped ty b) (hc : ∀ b ∈ m :: ms, Commutes ty a b) (hf : Fits (m :: ms)) (x : X) (hx : ty x = m.inTy) :
    compose (m :: ms) (a x) = (compose (m :: ms) x).map a := by
  induction ms generalizing m x with
  | nil =>
    rw [compose, compose, hc m (by simp) x hx]
    cases m.fwd x <;> rfl
  | cons m' ms ih =>
    rw [compose, compose, hc m (by simp) x hx]
    obtain ⟨y, hy⟩ := Option.isSome_iff_exists.1 (((hw m (by simp)).accepts x).2 hx)
    rw [hy]
    rw [Fits, List.isChain_cons_cons] at hf
    simp only [Option.map_some, Option.bind_some]
    exact ih m' (fun b hb => hw b (List.mem_cons_of_mem _ hb)) (fun b hb => hc b (List.mem_cons_of_mem _ hb)) hf.2 y
      (by rw [(hw m (by simp)).returns x y hy, hf.1])

/-- **C41, equivariance**: if every module commutes with a transformation, so does the sequence.  The transformation keeps the types; it stands for the
action of any element of the group on tensors of any size. -/
theorem c41_equivariant [DecidableEq K] [DecidableEq T] (ty : X → T) (l : List (K × EMod T X S)) (hne : l ≠ []) (hnd : (l.map Prod.fst).Nodup)
    (hw : ∀ p ∈ l, WellTyped ty p.2) (st : SeqState K T X S) (hst : seqNew l = some st) (a : X → X) (ha : ∀ x, ty (a x) = ty x)
    (hc : ∀ p ∈ l, Commutes ty a p.2) (x : X) (hx : some (ty x) = st.inTy) :
    ∃ y, seqForward ty st x = some y ∧ seqForward ty st (a x) = some (a y) := by
  obtain ⟨h1, i, o, hi, -, h2⟩ := c41_forward ty l hne hnd hw st hst
  obtain ⟨y, hy⟩ := Option.isSome_iff_exists.1 (((h2 fun _ => none).accepts x).2 (Option.some.inj (hx.trans hi)))
  have hy : seqForward ty st x = some y := hy
  refine ⟨y, hy, ?_⟩
  rw [h1 (a x) (by rw [ha, hx])]
  rw [h1 x hx] at hy
  obtain ⟨hf, -, h4, -⟩ := (c41_built l hnd).2 st hst
  obtain ⟨⟨k, m⟩, l, rfl⟩ := List.exists_cons_of_ne_nil hne
  rw [h4] at hx
  have hm : ∀ b ∈ m :: l.map Prod.snd, ∃ p ∈ (k, m) :: l, p.2 = b := by
    intro b hb
    have : b ∈ ((k, m) :: l).map Prod.snd := by simpa using hb
    obtain ⟨p, hp, rfl⟩ := List.mem_map.1 this
    exact ⟨p, hp, rfl⟩
  have := compose_commutes ty a ha m (l.map Prod.snd) (fun b hb => by obtain ⟨p, hp, rfl⟩ := hm b hb; exact hw p hp)
    (fun b hb => by obtain ⟨p, hp, rfl⟩ := hm b hb; exact hc p hp) hf x (Option.some.inj hx)
  rw [List.map_cons] at hy ⊢
  rw [this, hy]
  rfl

/-- **C41, shapes**: when the declared shape of every module is the one of what it returns, so is the one of the sequence. -/
theorem c41_shape [DecidableEq K] [DecidableEq T] (ty : X → T) (sh : X → S) (okShape : Option T → S → Bool) (l : List (K × EMod T X S))
    (hnd : (l.map Prod.fst).Nodup) (st : SeqState K T X S) (hst : seqNew l = some st) (hs : ∀ p ∈ l, ∀ x y, p.2.fwd x = some y → p.2.shape (sh x) = some (sh y))
    (x y : X) (h : seqForward ty st x = some y) (hok : okShape st.inTy (sh x) = true) : seqShape okShape st (sh x) = some (sh y) := by
  obtain ⟨-, h1, -, -⟩ := (c41_built l hnd).2 st hst
  rw [seqShape, if_pos hok, h1]
  have hr : runMods l x = some y := by
    rw [seqForward, h1] at h
    split_ifs at h with hx
    cases hr : runMods l x with
    | none => rw [hr] at h; simp at h
    | some z =>
      rw [hr, Option.bind_some] at h
      split_ifs at h
      exact h
  clear h hok hst hnd h1 st
  induction l generalizing x with
  | nil =>
    obtain rfl := Option.some.inj hr
    rfl
  | cons p l ih =>
    obtain ⟨k, m⟩ := p
    rw [runMods] at hr
    cases hm : m.fwd x with
    | none => rw [hm] at hr; simp at hr
    | some z =>
      rw [hm, Option.bind_some] at hr
      rw [List.foldlM_cons, hs (k, m) (by simp) x z hm]
      exact ih (fun p hp => hs p (List.mem_cons_of_mem _ hp)) z hr

/-- `add_module` called later with a name already in use replaces a module without checking its place: the result is not a composition of modules which
fit.  Here the types are numbers, `0 → 1 → 2` becomes `2 → 3` followed by `1 → 2`. -/
theorem c41_reused_name : ∃ (st st' : SeqState ℕ ℕ Unit Unit) (m : EMod ℕ Unit Unit), seqNew [(0, ⟨0, 1, some, some⟩), (1, ⟨1, 2, some, some⟩)] = some st ∧
    addModule st 0 m = some st' ∧ st'.inTy = some 0 ∧ st'.outTy = some 3 ∧ ¬ Fits (st'.mods.map Prod.snd) := by
  refine ⟨⟨some 0, some 2, [(0, ⟨0, 1, some, some⟩), (1, ⟨1, 2, some, some⟩)]⟩, ⟨some 0, some 3, [(0, ⟨2, 3, some, some⟩), (1, ⟨1, 2, some, some⟩)]⟩,
    ⟨2, 3, some, some⟩, rfl, rfl, rfl, rfl, ?_⟩
  simp [Fits]

/-! ### Modules side by side -/

section Multiple

variable {L R P Q : Type}

/-- The same operation on each channel. -/
def GTensor.mapData {V W : Type} (f : V → W) (x : GTensor R V) : GTensor R W := ⟨x.ty, x.data.map f⟩

theorem GTensor.select_mapData {V W : Type} {sz : R → ℕ} (f : V → W) (x : GTensor R V) (fs : List ℕ) :
    (x.mapData f).select sz fs = (x.select sz fs).map (GTensor.mapData f) := by
  have hf : (x.mapData f).fields sz = (x.fields sz).map (List.map f) := chunks_map _ _ _
  have hg : ∀ (l : List (List V)) (fs : List ℕ), (fs.mapM fun i => (l.map (List.map f))[i]?) = (fs.mapM fun i => l[i]?).map (List.map (List.map f)) := by
    intro l fs
    induction fs with
    | nil => rfl
    | cons i fs ih =>
      rw [List.mapM_cons, List.mapM_cons, ih, List.getElem?_map]
      cases l[i]? with
      | none => rfl
      | some a =>
        cases fs.mapM fun i => l[i]? <;> rfl
  rw [GTensor.select, GTensor.select]
  by_cases h : fs = []
  · rw [if_pos h, if_pos h]; rfl
  · rw [if_neg h, if_neg h, hf, hg]
    change (fs.mapM fun i => x.ty[i]?).bind _ = _
    cases fs.mapM fun i => x.ty[i]? with
    | none => rfl
    | some t =>
      simp only [Option.bind_some]
      cases fs.mapM fun i => (x.fields sz)[i]? with
      | none => rfl
      | some l => simp [GTensor.mapData, List.map_flatten]

theorem GTensor.select_transform {sz : R → ℕ} (ρ : R → Mat) (π : P → P) {x : GTensor R (P → ℝ)} (hx : x.WF sz) (fs : List ℕ) :
    (x.transform sz ρ π).select sz fs = (x.select sz fs).map (GTensor.transform sz ρ π) := by
  have h : x.transform sz ρ π = (x.act sz ρ).mapData fun v => v ∘ π := rfl
  rw [h, GTensor.select_mapData, GTensor.select_act sz ρ hx, Option.map_map]
  rfl

/-- Branching commutes with the transformations. -/
theorem branch_transform [LinearOrder L] (sz : R → ℕ) (ρ : R → Mat) (π : P → P) (level : ℕ) (hlev : level < 3) (x : GTensor R (P → ℝ)) (hx : x.WF sz)
    (hsz : ∀ r ∈ x.ty, 0 < sz r) (labels : List L) (hl : labels.length = x.ty.length) (l : L) :
    branch sz level labels (x.transform sz ρ π) l = (branch sz level labels x l).map (GTensor.transform sz ρ π) := by
  obtain ⟨fs, h1, h2, h3⟩ := branch_eq sz level hlev hx hsz labels hl l
  rw [h3 x hx rfl, h3 (x.transform sz ρ π) (transform_wf ρ π hx) rfl, GTensor.select_transform ρ π hx]

/-- So does merging. -/
theorem merge_transform (sz : R → ℕ) (ρ : R → Mat) (π : P → P) (ys : List (GTensor R (P → ℝ))) (hne : ys ≠ []) (hw : ∀ y ∈ ys, y.WF sz)
    (out out' : List (P → ℝ)) (ho : out.length = typeSize sz (ys.flatMap GTensor.ty)) (ho' : out'.length = out.length) :
    mergeGT sz out (ys.map (GTensor.transform sz ρ π)) = (mergeGT sz out' ys).map (GTensor.transform sz ρ π) := by
  have h := c31_merge_act sz ρ ys hne hw out out' ho ho'
  have hty : (ys.map (GTensor.transform sz ρ π)).flatMap GTensor.ty = ys.flatMap GTensor.ty := by
    rw [List.flatMap_map]; rfl
  have htya : (ys.map (GTensor.act sz ρ)).flatMap GTensor.ty = ys.flatMap GTensor.ty := by
    rw [List.flatMap_map]; rfl
  have hwt : ∀ y ∈ ys.map (GTensor.transform sz ρ π), y.WF sz := by
    intro y hy
    obtain ⟨z, hz, rfl⟩ := List.mem_map.1 hy
    exact transform_wf ρ π (hw z hz)
  have hwa : ∀ y ∈ ys.map (GTensor.act sz ρ), y.WF sz := by
    intro y hy
    obtain ⟨z, hz, rfl⟩ := List.mem_map.1 hy
    exact GTensor.act_wf ρ (hw z hz)
  rw [mergeGT_eq sz _ (by simpa using hne) hwa out (by rw [ho, htya]), (directsumGT_eq sz _ (by simpa using hne) hwa).1,
    mergeGT_eq sz ys hne hw out' (by rw [ho', ho]), (directsumGT_eq sz ys hne hw).1] at h
  rw [mergeGT_eq sz _ (by simpa using hne) hwt out (by rw [ho, hty]), (directsumGT_eq sz _ (by simpa using hne) hwt).1,
    mergeGT_eq sz ys hne hw out' (by rw [ho', ho]), (directsumGT_eq sz ys hne hw).1]
  simp only [Option.map_some, Option.some.injEq] at h ⊢
  have h2 := congrArg (GTensor.mapData fun v : P → ℝ => v ∘ π) h
  refine Eq.trans ?_ h2
  simp only [GTensor.mapData, List.flatMap_map, List.map_flatMap]
  rfl

/-- **C41 for `MultipleModule`**: when every module commutes with a transformation on the tensors it accepts (any number of arguments), the module which
splits its input by labels, applies them and stacks the results commutes with it.  The results do not depend on the uninitialised memory. -/
theorem c41_multiple [LinearOrder L] [DecidableEq R] (sz : R → ℕ) (inType : List R) (level : ℕ) (hlev : level < 3) (hsz : ∀ r ∈ inType, 0 < sz r)
    (labels : List L) (hl : labels.length = inType.length) (mods : List (LabelledMod L R (P → ℝ) (Q → ℝ))) (hne : mods ≠ []) (outTy : LabelledMod L R (P → ℝ) (Q → ℝ) → List R)
    (ρ : R → Mat) (π : P → P) (π' : Q → Q)
    (hw : ∀ m ∈ mods, ∀ xs y, m.fwd xs = some y → y.WF sz ∧ y.ty = outTy m)
    (hc : ∀ m ∈ mods, ∀ xs : List (GTensor R (P → ℝ)), m.fwd (xs.map (GTensor.transform sz ρ π)) = (m.fwd xs).map (GTensor.transform sz ρ π'))
    (junk junk' : List (Q → ℝ)) (hj : junk.length = typeSize sz (mods.flatMap outTy)) (hj' : junk'.length = junk.length)
    (x : GTensor R (P → ℝ)) (hx : x.WF sz) (hxt : x.ty = inType) :
    multiple sz inType level labels mods junk (x.transform sz ρ π) = (multiple sz inType level labels mods junk' x).map (GTensor.transform sz ρ π') := by
  subst hxt
  have hbr : ∀ ls : List L, (ls.mapM fun l => branch sz level labels (x.transform sz ρ π) l)
      = (ls.mapM fun l => branch sz level labels x l).map (List.map (GTensor.transform sz ρ π)) := by
    intro ls
    induction ls with
    | nil => rfl
    | cons l ls ih =>
      rw [List.mapM_cons, List.mapM_cons, ih, branch_transform sz ρ π level hlev x hx hsz labels hl]
      cases branch sz level labels x l with
      | none => rfl
      | some a => cases ls.mapM fun l => branch sz level labels x l <;> rfl
  have hms : ∀ ms : List (LabelledMod L R (P → ℝ) (Q → ℝ)), (∀ m ∈ ms, m ∈ mods) →
      (ms.mapM fun (m : LabelledMod L R (P → ℝ) (Q → ℝ)) => (m.labels.mapM fun l => branch sz level labels (x.transform sz ρ π) l).bind m.fwd)
        = (ms.mapM fun (m : LabelledMod L R (P → ℝ) (Q → ℝ)) => (m.labels.mapM fun l => branch sz level labels x l).bind m.fwd).map (List.map (GTensor.transform sz ρ π')) ∧
      ∀ ys, (ms.mapM fun (m : LabelledMod L R (P → ℝ) (Q → ℝ)) => (m.labels.mapM fun l => branch sz level labels x l).bind m.fwd) = some ys →
        ys.map GTensor.ty = ms.map outTy ∧ ∀ y ∈ ys, y.WF sz := by
    intro ms
    induction ms with
    | nil =>
      intro _
      refine ⟨rfl, fun ys h => ?_⟩
      obtain rfl : [] = ys := Option.some.inj h
      simp
    | cons m ms ih =>
      intro hm
      obtain ⟨ih1, ih2⟩ := ih fun a ha => hm a (List.mem_cons_of_mem _ ha)
      have h1 : ((m.labels.mapM fun l => branch sz level labels (x.transform sz ρ π) l).bind m.fwd)
          = ((m.labels.mapM fun l => branch sz level labels x l).bind m.fwd).map (GTensor.transform sz ρ π') := by
        rw [hbr]
        cases m.labels.mapM fun l => branch sz level labels x l with
        | none => rfl
        | some xs => exact hc m (hm m List.mem_cons_self) xs
      rw [List.mapM_cons, List.mapM_cons, ih1, h1]
      have hcase : ∀ y, ((m.labels.mapM fun l => branch sz level labels x l).bind m.fwd) = some y → y.WF sz ∧ y.ty = outTy m := by
        intro y hy
        obtain ⟨xs, -, hy⟩ := Option.bind_eq_some_iff.1 hy
        exact hw m (hm m List.mem_cons_self) xs y hy
      cases hy : (m.labels.mapM fun l => branch sz level labels x l).bind m.fwd with
      | none => exact ⟨rfl, fun ys h => by simp at h⟩
      | some y =>
        cases hys : ms.mapM fun (m : LabelledMod L R (P → ℝ) (Q → ℝ)) => (m.labels.mapM fun l => branch sz level labels x l).bind m.fwd with
        | none => exact ⟨rfl, fun ys h => by simp at h⟩
        | some ys =>
          refine ⟨rfl, fun zs h => ?_⟩
          obtain rfl : y :: ys = zs := Option.some.inj h
          obtain ⟨a1, a2⟩ := ih2 ys hys
          obtain ⟨b1, b2⟩ := hcase y hy
          refine ⟨by rw [List.map_cons, List.map_cons, a1, b2], ?_⟩
          intro z hz
          rcases List.mem_cons.1 hz with rfl | hz
          · exact b1
          · exact a2 z hz
  obtain ⟨h1, h2⟩ := hms mods fun _ h => h
  rw [multiple, multiple, if_pos rfl, if_pos (by rfl), h1]
  cases hys : mods.mapM fun (m : LabelledMod L R (P → ℝ) (Q → ℝ)) => (m.labels.mapM fun l => branch sz level labels x l).bind m.fwd with
  | none => rfl
  | some ys =>
    obtain ⟨a1, a2⟩ := h2 ys hys
    simp only [Option.map_some, Option.bind_some]
    refine merge_transform sz ρ π' ys ?_ a2 junk junk' ?_ hj'
    · rintro rfl
      simp at a1
      exact hne a1
    · rw [hj, List.flatMap_def, List.flatMap_def, a1]

end Multiple

/-! ### The hypotheses are met -/

/-- A pointwise nonlinearity followed by a mask, on fields which are permuted: modules of the library with their own theorems (C33, C39). -/
example {B R : Type} [DecidableEq R] (sz : R → ℕ) (t : List R) (n : ℕ) (f : ℝ → ℝ) (margin : ℝ) (ρ : R → Mat) (hρ : ∀ r ∈ t, IsPerm (sz r) (ρ r)) (τ : GSym)
    (x : GTensor R (Pix B n → ℝ)) (hx : x.WF sz) (hxt : x.ty = t) :
    ∃ (st : SeqState ℕ (List R) {x : GTensor R (Pix B n → ℝ) // x.WF sz} Unit) (y z : {x : GTensor R (Pix B n → ℝ) // x.WF sz}),
      y.1 = x ∧ st.mods.length = 2 ∧ seqForward (fun x => x.1.ty) st y = some z ∧ ∃ y' z', y'.1 = x.transform sz ρ (Pix.move τ) ∧ z'.1 = z.1.transform sz ρ (Pix.move τ) ∧
        seqForward (fun x => x.1.ty) st y' = some z' := by
  -- modules on well formed tensors
  let lift : (GTensor R (Pix B n → ℝ) → Option (GTensor R (Pix B n → ℝ))) → {x : GTensor R (Pix B n → ℝ) // x.WF sz} → Option {x : GTensor R (Pix B n → ℝ) // x.WF sz} :=
    fun F x => (F x.1).bind fun y => open Classical in if h : y.WF sz then some ⟨y, h⟩ else none
  let m1 : EMod (List R) {x : GTensor R (Pix B n → ℝ) // x.WF sz} Unit := ⟨t, t, lift (channelwise sz t fun v q => f (v q)), some⟩
  let m2 : EMod (List R) {x : GTensor R (Pix B n → ℝ) // x.WF sz} Unit := ⟨t, t, lift (maskModule sz t n margin), some⟩
  have hgen : ∀ F : (Pix B n → ℝ) → Pix B n → ℝ, WellTyped (fun x => x.1.ty) (⟨t, t, lift (channelwise sz t F), some⟩ : EMod (List R) {x : GTensor R (Pix B n → ℝ) // x.WF sz} Unit) := by
    intro F
    have hval : ∀ x : {x : GTensor R (Pix B n → ℝ) // x.WF sz}, x.1.ty = t → ∃ h : (⟨t, x.1.data.map F⟩ : GTensor R (Pix B n → ℝ)).WF sz,
        lift (channelwise sz t F) x = some ⟨_, h⟩ := by
      rintro ⟨x, hx⟩ rfl
      have hl : (x.data.map F).length = typeSize sz x.ty := by rw [List.length_map]; exact hx.2
      refine ⟨⟨hx.1, hl⟩, ?_⟩
      simp only [lift, channelwise, if_true]
      rw [mkGT, if_pos hl, Option.bind_some, dif_pos ⟨hx.1, hl⟩]
    refine ⟨fun x => ⟨fun h => ?_, fun h => ?_⟩, fun x y h => ?_⟩
    · by_contra hc
      simp [lift, channelwise, hc] at h
    · obtain ⟨h1, h2⟩ := hval x h
      change (lift (channelwise sz t F) x).isSome
      rw [h2]; rfl
    · by_cases hc : x.1.ty = t
      · obtain ⟨h1, h2⟩ := hval x hc
        rw [show lift (channelwise sz t F) x = some y from h] at h2
        rw [Option.some.inj h2]
      · simp [lift, channelwise, hc] at h
  have hfit : seqNew [(0, m1), (1, m2)] = some ⟨some t, some t, [(0, m1), (1, m2)]⟩ := by
    simp [seqNew, addModules, addModule, dictSet, m1, m2]
  let a : {x : GTensor R (Pix B n → ℝ) // x.WF sz} → {x : GTensor R (Pix B n → ℝ) // x.WF sz} := fun x => ⟨x.1.transform sz ρ (Pix.move τ), transform_wf ρ _ x.2⟩
  have hcom : ∀ F, (∀ x : GTensor R (Pix B n → ℝ), x.WF sz → x.ty = t → ∃ y, channelwise sz t F x = some y ∧ y.WF sz ∧ y.ty = t ∧
      channelwise sz t F (x.transform sz ρ (Pix.move τ)) = some (y.transform sz ρ (Pix.move τ))) →
      Commutes (fun x => x.1.ty) a (⟨t, t, lift (channelwise sz t F), some⟩ : EMod (List R) {x : GTensor R (Pix B n → ℝ) // x.WF sz} Unit) := by
    intro F hF x hx
    obtain ⟨y, h1, h2, h3, h4⟩ := hF x.1 x.2 hx
    change lift (channelwise sz t F) (a x) = (lift (channelwise sz t F) x).map a
    simp only [lift, a]
    rw [h1, h4, Option.bind_some, Option.bind_some, dif_pos h2, dif_pos (transform_wf ρ _ h2)]
    rfl
  obtain ⟨z, h1, h2⟩ := c41_equivariant (fun x => x.1.ty) [(0, m1), (1, m2)] (by simp) (by simp) (by
      intro p hp
      simp only [List.mem_cons, List.not_mem_nil, or_false] at hp
      rcases hp with rfl | rfl
      · exact hgen _
      · exact hgen _) _ hfit a (fun x => rfl) (by
      intro p hp
      simp only [List.mem_cons, List.not_mem_nil, or_false] at hp
      rcases hp with rfl | rfl
      · exact hcom _ fun x hx hxt => channelwise_equivariant sz t _ ρ _ _ (fun r hr fld hl => map_move_perm (hρ r hr) _ _ _ (fun v => rfl) fld hl) x hx hxt
      · exact hcom _ fun x hx hxt => c39_mask sz t n margin ρ τ x hx hxt) ⟨x, hx⟩ (by simp [hxt])
  exact ⟨_, ⟨x, hx⟩, z, rfl, rfl, h1, a ⟨x, hx⟩, a z, rfl, rfl, h2⟩

end E2
