import Verif.Model.Factory
import Mathlib.Order.Bounds.Basic
import Mathlib.Data.List.Induction
import Mathlib.Algebra.Order.Ring.Int

/-!
The group factories (C43): for all histories of calls of factories, constructors, `irrep` and `subgroup`.
-/

namespace E2.Factory

/-! ### Auxiliary facts -/

theorem mem_addKey {l : List (ℤ × ℤ)} {a b : ℤ × ℤ} : b ∈ addKey l a ↔ b ∈ l ∨ b = a := by
  rw [addKey]
  split_ifs with h
  · exact ⟨Or.inl, fun hb => hb.elim id fun e => e ▸ h⟩
  · simp

theorem mem_foldl_addKey (ks l : List (ℤ × ℤ)) (b : ℤ × ℤ) : b ∈ ks.foldl addKey l ↔ b ∈ l ∨ b ∈ ks := by
  induction ks generalizing l with
  | nil => simp
  | cons k ks ih => rw [List.foldl_cons, ih, mem_addKey, List.mem_cons, or_assoc]

theorem mem_irange (n k : ℤ) : k ∈ irange n ↔ 0 ≤ k ∧ k < n := by
  rw [irange, List.mem_map]
  constructor
  · rintro ⟨i, hi, rfl⟩
    rw [List.mem_range] at hi
    change 0 ≤ (i : ℤ) ∧ (i : ℤ) < n
    omega
  · rintro ⟨h1, h2⟩
    exact ⟨k.toNat, List.mem_range.2 (by omega), Int.toNat_of_nonneg h1⟩

/-- The irreps an object must have: those of its order, or those up to its maximum frequency. -/
def IsIrrepKey : Kind → ℤ → ℤ × ℤ → Prop
  | .cyclic, n, (j, k) => j = 0 ∧ 0 ≤ k ∧ 2 * k ≤ n
  | .dihedral, n, (j, k) => (j = 0 ∧ (k = 0 ∨ 2 * k = n)) ∨ (j = 1 ∧ 0 ≤ k ∧ 2 * k ≤ n)
  | .so2, f, (j, k) => j = 0 ∧ 0 ≤ k ∧ k ≤ f
  | .o2, f, (j, k) => (j = 0 ∧ k = 0) ∨ (j = 1 ∧ 0 ≤ k ∧ k ≤ f)

theorem mem_builtKeys {k : Kind} {p : ℤ} {key : ℤ × ℤ} (h : IsIrrepKey k p key) : key ∈ builtKeys k p := by
  obtain ⟨j, m⟩ := key
  cases k with
  | cyclic =>
    obtain ⟨rfl, h1, h2⟩ := h
    exact List.mem_map.2 ⟨m, (mem_irange _ _).2 ⟨h1, by omega⟩, rfl⟩
  | dihedral =>
    rw [builtKeys]
    rcases h with ⟨rfl, rfl | h2⟩ | ⟨rfl, h1, h2⟩
    · simp
    · have : p % 2 = 0 := by omega
      rw [if_pos this]
      have : p / 2 = m := by omega
      simp [this]
    · simp only [List.cons_append, List.mem_cons, List.mem_append, List.mem_map]
      exact Or.inr (Or.inl ⟨m, (mem_irange _ _).2 ⟨h1, by omega⟩, rfl⟩)
  | so2 =>
    obtain ⟨rfl, h1, h2⟩ := h
    exact List.mem_cons_of_mem _ (List.mem_map.2 ⟨m, (mem_irange _ _).2 ⟨h1, by omega⟩, rfl⟩)
  | o2 =>
    rcases h with ⟨rfl, rfl⟩ | ⟨rfl, h1, h2⟩
    · exact List.mem_cons_self
    · exact List.mem_cons_of_mem _ (List.mem_map.2 ⟨m, (mem_irange _ _).2 ⟨h1, by omega⟩, rfl⟩)

/-- The object has all its irreps, also among its representations. -/
def Complete (o : Obj) : Prop := ∀ key, IsIrrepKey o.kind o.param key → key ∈ o.irreps ∧ key ∈ o.reprs

theorem complete_build (o : Obj) : Complete (build o) := by
  intro key h
  have h1 : key ∈ (build o).irreps := by
    rw [build, mem_foldl_addKey]
    exact Or.inr (mem_builtKeys h)
  refine ⟨h1, ?_⟩
  rw [build, mem_foldl_addKey]
  exact Or.inr h1

/-- What a later state keeps of an object. -/
structure Older (o o' : Obj) : Prop where
  kind : o'.kind = o.kind
  param : o.param ≤ o'.param
  irreps : o.irreps ⊆ o'.irreps
  reprs : o.reprs ⊆ o'.reprs
  complete : Complete o → Complete o'

theorem Older.refl (o : Obj) : Older o o := ⟨rfl, le_refl _, fun _ h => h, fun _ h => h, id⟩

theorem Older.trans {a b c : Obj} (h : Older a b) (h' : Older b c) : Older a c :=
  ⟨h'.kind.trans h.kind, h.param.trans h'.param, fun _ x => h'.irreps (h.irreps x), fun _ x => h'.reprs (h.reprs x), fun x => h'.complete (h.complete x)⟩

theorem older_build {o : Obj} {f : ℤ} (h : o.param < f) : Older o (build { o with param := f }) := by
  refine ⟨rfl, h.le, fun x hx => ?_, fun x hx => ?_, fun _ => complete_build _⟩
  · rw [build, mem_foldl_addKey]
    exact Or.inl hx
  · rw [build, mem_foldl_addKey]
    exact Or.inl hx

/-- The update made by `grow`. -/
def growObj (f : ℤ) (o : Obj) : Obj := if o.param < f then build { o with param := f } else o

theorem older_grow (f : ℤ) (o : Obj) : Older o (growObj f o) := by
  rw [growObj]
  split_ifs with h
  · exact older_build h
  · exact Older.refl o

theorem grow_param (f : ℤ) (o : Obj) : (growObj f o).param = max o.param f := by
  rw [growObj]
  split_ifs with h
  · exact (max_eq_right h.le).symm
  · exact (max_eq_left (not_lt.1 h)).symm

/-- The update made by `irrep`. -/
def irrepObj (j k : ℤ) (o : Obj) : Obj :=
  if (o.kind = .so2 ∧ j = 0 ∧ 0 ≤ k) ∨ (o.kind = .o2 ∧ (j = 0 ∧ k = 0 ∨ j = 1 ∧ 0 ≤ k)) then { o with irreps := addKey o.irreps (j, k) } else o

theorem older_irrep (j k : ℤ) (o : Obj) : Older o (irrepObj j k o) ∧ (irrepObj j k o).param = o.param := by
  rw [irrepObj]
  split_ifs with h
  · exact ⟨⟨rfl, le_refl _, fun x hx => mem_addKey.2 (Or.inl hx), fun _ h => h, fun hc key hk => ⟨mem_addKey.2 (Or.inl (hc key hk).1), (hc key hk).2⟩⟩, rfl⟩
  · exact ⟨Older.refl o, rfl⟩

theorem older_sub (b : ℕ) (o : Obj) : Older o { o with sub := some b } := ⟨rfl, le_refl _, fun _ h => h, fun _ h => h, id⟩

/-- What one operation does to the object at an address. -/
def StepAt (s : Sys) (op : Op) (a : ℕ) (o o' : Obj) : Prop :=
  Older o o' ∧ (o'.param = o.param ∨ (∃ F, op = .so2Group F ∧ s.so2 = some a ∧ o'.param = max o.param F) ∨
    (∃ F, op = .o2Group F ∧ s.o2 = some a ∧ o'.param = max o.param F))

theorem StepAt.same (s : Sys) (op : Op) (a : ℕ) (o : Obj) : StepAt s op a o o := ⟨Older.refl o, Or.inl rfl⟩

theorem get_append {l : List Obj} {a : ℕ} {o : Obj} (h : l[a]? = some o) (x : Obj) : (l ++ [x])[a]? = some o := by
  rw [List.getElem?_append_left (List.getElem?_eq_some_iff.1 h).1, h]

theorem get_modify {l : List Obj} {a : ℕ} {o : Obj} (h : l[a]? = some o) (i : ℕ) (f : Obj → Obj) :
    (l.modify i f)[a]? = some (if i = a then f o else o) := by
  rw [List.getElem?_modify, h]
  by_cases hi : i = a <;> simp [hi]

theorem step_at (s : Sys) (op : Op) (a : ℕ) (o : Obj) (h : s.heap[a]? = some o) : ∃ o', (step s op).1.heap[a]? = some o' ∧ StepAt s op a o o' := by
  cases op with
  | cyclicGroup N =>
    simp only [step, new]
    cases s.cyc N with
    | some b => exact ⟨o, h, .same ..⟩
    | none =>
      by_cases hk : okParam .cyclic N <;> simp only [hk, if_true]
      · exact ⟨o, get_append h _, .same ..⟩
      · exact ⟨o, h, .same ..⟩
  | dihedralGroup N =>
    simp only [step, new]
    cases s.dih N with
    | some b => exact ⟨o, h, .same ..⟩
    | none =>
      by_cases hk : okParam .dihedral N <;> simp only [hk, if_true]
      · exact ⟨o, get_append h _, .same ..⟩
      · exact ⟨o, h, .same ..⟩
  | so2Group F =>
    simp only [step, new]
    cases hs : s.so2 with
    | some b =>
      refine ⟨_, get_modify h b (growObj F), ?_⟩
      split_ifs with hb
      · exact ⟨older_grow F o, Or.inr (Or.inl ⟨F, rfl, by rw [hs, hb], grow_param F o⟩)⟩
      · exact .same ..
    | none =>
      by_cases hk : okParam .so2 F <;> simp only [hk, if_true]
      · exact ⟨o, get_append h _, .same ..⟩
      · exact ⟨o, h, .same ..⟩
  | o2Group F =>
    simp only [step, new]
    cases hs : s.o2 with
    | some b =>
      refine ⟨_, get_modify h b (growObj F), ?_⟩
      split_ifs with hb
      · exact ⟨older_grow F o, Or.inr (Or.inr ⟨F, rfl, by rw [hs, hb], grow_param F o⟩)⟩
      · exact .same ..
    | none =>
      by_cases hk : okParam .o2 F <;> simp only [hk, if_true]
      · exact ⟨o, get_append h _, .same ..⟩
      · exact ⟨o, h, .same ..⟩
  | construct k p =>
    simp only [step, new]
    by_cases hk : okParam k p <;> simp only [hk, if_true]
    · exact ⟨o, get_append h _, .same ..⟩
    · exact ⟨o, h, .same ..⟩
  | irrep b j k =>
    refine ⟨_, get_modify h b (irrepObj j k), ?_⟩
    split_ifs
    · exact ⟨(older_irrep j k o).1, Or.inl (older_irrep j k o).2⟩
    · exact .same ..
  | subgroup b =>
    simp only [step, new]
    cases s.heap[b]? with
    | none => exact ⟨o, h, .same ..⟩
    | some x =>
      by_cases hk : x.kind = .o2
      · simp only [hk, if_true]
        cases x.sub with
        | some b => exact ⟨o, h, .same ..⟩
        | none =>
          by_cases hp : okParam .so2 x.param <;> simp only [hp, if_true]
          · refine ⟨_, get_modify (get_append h _) b (fun o => { o with sub := some s.heap.length }), ?_⟩
            split_ifs
            · exact ⟨older_sub _ o, Or.inl rfl⟩
            · exact .same ..
          · exact ⟨o, h, .same ..⟩
      · simp only [hk, if_false]
        exact ⟨o, h, .same ..⟩

/-- What one operation does to the four caches. -/
structure CacheStep (s : Sys) (op : Op) (s' : Sys) : Prop where
  cyc : s'.cyc = s.cyc ∨ ∃ N, op = .cyclicGroup N ∧ s.cyc N = none ∧ 0 < N ∧ (s'.cyc = fun M => if M = N then some s.heap.length else s.cyc M) ∧
    s'.heap[s.heap.length]? = some (build ⟨.cyclic, N, [], [], none⟩)
  dih : s'.dih = s.dih ∨ ∃ N, op = .dihedralGroup N ∧ s.dih N = none ∧ 0 < N ∧ (s'.dih = fun M => if M = N then some s.heap.length else s.dih M) ∧
    s'.heap[s.heap.length]? = some (build ⟨.dihedral, N, [], [], none⟩)
  so2 : (s'.so2 = s.so2 ∧ ∀ F, op = .so2Group F → s.so2 = none → F < 0) ∨ ∃ F, op = .so2Group F ∧ s.so2 = none ∧ 0 ≤ F ∧ s'.so2 = some s.heap.length ∧
    s'.heap[s.heap.length]? = some (build ⟨.so2, F, [], [], none⟩)
  o2 : (s'.o2 = s.o2 ∧ ∀ F, op = .o2Group F → s.o2 = none → F < 0) ∨ ∃ F, op = .o2Group F ∧ s.o2 = none ∧ 0 ≤ F ∧ s'.o2 = some s.heap.length ∧
    s'.heap[s.heap.length]? = some (build ⟨.o2, F, [], [], none⟩)

theorem get_last (l : List Obj) (x : Obj) : (l ++ [x])[l.length]? = some x := by simp

theorem cache_step (s : Sys) (op : Op) : CacheStep s op (step s op).1 := by
  have triv : ∀ s', (∀ F, op ≠ .so2Group F) → (∀ F, op ≠ .o2Group F) → s'.cyc = s.cyc → s'.dih = s.dih → s'.so2 = s.so2 → s'.o2 = s.o2 → CacheStep s op s' :=
    fun s' n1 n2 h1 h2 h3 h4 => ⟨Or.inl h1, Or.inl h2, Or.inl ⟨h3, fun F e => absurd e (n1 F)⟩, Or.inl ⟨h4, fun F e => absurd e (n2 F)⟩⟩
  cases op with
  | cyclicGroup N =>
    simp only [step, new]
    cases hN : s.cyc N with
    | some b => exact triv _ nofun nofun rfl rfl rfl rfl
    | none =>
      by_cases hk : okParam .cyclic N
      · simp only [hk, if_true]
        exact ⟨Or.inr ⟨N, rfl, hN, by simpa [okParam] using hk, rfl, get_last _ _⟩, Or.inl rfl, Or.inl ⟨rfl, nofun⟩, Or.inl ⟨rfl, nofun⟩⟩
      · simp only [hk]
        exact triv _ nofun nofun rfl rfl rfl rfl
  | dihedralGroup N =>
    simp only [step, new]
    cases hN : s.dih N with
    | some b => exact triv _ nofun nofun rfl rfl rfl rfl
    | none =>
      by_cases hk : okParam .dihedral N
      · simp only [hk, if_true]
        exact ⟨Or.inl rfl, Or.inr ⟨N, rfl, hN, by simpa [okParam] using hk, rfl, get_last _ _⟩, Or.inl ⟨rfl, nofun⟩, Or.inl ⟨rfl, nofun⟩⟩
      · simp only [hk]
        exact triv _ nofun nofun rfl rfl rfl rfl
  | so2Group F =>
    simp only [step, new]
    cases hs : s.so2 with
    | some b => exact ⟨Or.inl rfl, Or.inl rfl, Or.inl ⟨rfl, fun _ _ e => by rw [hs] at e; cases e⟩, Or.inl ⟨rfl, nofun⟩⟩
    | none =>
      by_cases hk : okParam .so2 F
      · simp only [hk, if_true]
        exact ⟨Or.inl rfl, Or.inl rfl, Or.inr ⟨F, rfl, hs, by simpa [okParam] using hk, rfl, get_last _ _⟩, Or.inl ⟨rfl, nofun⟩⟩
      · simp only [hk]
        exact ⟨Or.inl rfl, Or.inl rfl, Or.inl ⟨rfl, fun G e _ => by cases e; simpa [okParam] using hk⟩, Or.inl ⟨rfl, nofun⟩⟩
  | o2Group F =>
    simp only [step, new]
    cases hs : s.o2 with
    | some b => exact ⟨Or.inl rfl, Or.inl rfl, Or.inl ⟨rfl, nofun⟩, Or.inl ⟨rfl, fun _ _ e => by rw [hs] at e; cases e⟩⟩
    | none =>
      by_cases hk : okParam .o2 F
      · simp only [hk, if_true]
        exact ⟨Or.inl rfl, Or.inl rfl, Or.inl ⟨rfl, nofun⟩, Or.inr ⟨F, rfl, hs, by simpa [okParam] using hk, rfl, get_last _ _⟩⟩
      · simp only [hk]
        exact ⟨Or.inl rfl, Or.inl rfl, Or.inl ⟨rfl, nofun⟩, Or.inl ⟨rfl, fun G e _ => by cases e; simpa [okParam] using hk⟩⟩
  | construct k p =>
    simp only [step, new]
    by_cases hk : okParam k p <;> simp only [hk, if_true] <;> exact triv _ nofun nofun rfl rfl rfl rfl
  | irrep b j k => exact triv _ nofun nofun rfl rfl rfl rfl
  | subgroup b =>
    simp only [step, new]
    cases s.heap[b]? with
    | none => exact triv _ nofun nofun rfl rfl rfl rfl
    | some x =>
      by_cases hk : x.kind = .o2
      · simp only [hk, if_true]
        cases x.sub with
        | some b => exact triv _ nofun nofun rfl rfl rfl rfl
        | none => by_cases hp : okParam .so2 x.param <;> simp only [hp, if_true] <;> exact triv _ nofun nofun rfl rfl rfl rfl
      · simp only [hk, if_false]
        exact triv _ nofun nofun rfl rfl rfl rfl

theorem after_append (h h' : List Op) : after (h ++ h') = h'.foldl (fun s o => (step s o).1) (after h) := by rw [after, after, List.foldl_append]

theorem after_snoc (h : List Op) (o : Op) : after (h ++ [o]) = (step (after h) o).1 := by rw [after_append]; rfl

/-! ### The invariant -/

/-- What the caches hold after the history `h`. -/
structure Inv (h : List Op) (s : Sys) : Prop where
  cyc : ∀ N a, s.cyc N = some a → ∃ o, s.heap[a]? = some o ∧ o.kind = .cyclic ∧ o.param = N ∧ Complete o
  dih : ∀ N a, s.dih N = some a → ∃ o, s.heap[a]? = some o ∧ o.kind = .dihedral ∧ o.param = N ∧ Complete o
  so2 : ∀ a, s.so2 = some a → ∃ o, s.heap[a]? = some o ∧ o.kind = .so2 ∧ IsGreatest {F | .so2Group F ∈ h ∧ 0 ≤ F} o.param ∧ Complete o
  so2_none : s.so2 = none → ∀ F, .so2Group F ∈ h → F < 0
  o2 : ∀ a, s.o2 = some a → ∃ o, s.heap[a]? = some o ∧ o.kind = .o2 ∧ IsGreatest {F | .o2Group F ∈ h ∧ 0 ≤ F} o.param ∧ Complete o
  o2_none : s.o2 = none → ∀ F, .o2Group F ∈ h → F < 0

/-- Objects of the other kinds keep their parameter. -/
theorem fixed_param {h : List Op} {s : Sys} (inv : Inv h s) (op : Op) {a : ℕ} {o : Obj} (ho : s.heap[a]? = some o) (h1 : o.kind ≠ .so2) (h2 : o.kind ≠ .o2) :
    ∃ o', (step s op).1.heap[a]? = some o' ∧ Older o o' ∧ o'.param = o.param := by
  obtain ⟨o', e, l, p⟩ := step_at s op a o ho
  refine ⟨o', e, l, ?_⟩
  rcases p with p | ⟨F, -, c, -⟩ | ⟨F, -, c, -⟩
  · exact p
  · obtain ⟨x, hx, hk, -⟩ := inv.so2 a c
    rw [ho] at hx
    cases hx
    exact absurd hk h1
  · obtain ⟨x, hx, hk, -⟩ := inv.o2 a c
    rw [ho] at hx
    cases hx
    exact absurd hk h2

theorem isGreatest_snoc {P Q : ℤ → Prop} {m F : ℤ} (h : IsGreatest {x | P x ∧ 0 ≤ x} m) (hQ : ∀ x, Q x ↔ P x ∨ x = F) : IsGreatest {x | Q x ∧ 0 ≤ x} (max m F) := by
  obtain ⟨⟨h1, h2⟩, h3⟩ := h
  constructor
  · refine ⟨(hQ _).2 ?_, le_max_of_le_left h2⟩
    rcases le_total m F with e | e
    · exact Or.inr (max_eq_right e)
    · rw [max_eq_left e]
      exact Or.inl h1
  · rintro x ⟨hx, hx0⟩
    rcases (hQ x).1 hx with hp | rfl
    · exact le_max_of_le_left (h3 ⟨hp, hx0⟩)
    · exact le_max_right _ _

theorem inv_step {h : List Op} {s : Sys} (inv : Inv h s) (op : Op) : Inv (h ++ [op]) (step s op).1 := by
  have cs := cache_step s op
  have new_ok : ∀ k p, Complete (build ⟨k, p, [], [], none⟩) := fun k p => complete_build _
  have keepC : ∀ N a, s.cyc N = some a → ∃ o, (step s op).1.heap[a]? = some o ∧ o.kind = .cyclic ∧ o.param = N ∧ Complete o := by
    intro N a ha
    obtain ⟨o, h1, h2, h3, h4⟩ := inv.cyc N a ha
    obtain ⟨o', e1, e2, e3⟩ := fixed_param inv op h1 (by rw [h2]; nofun) (by rw [h2]; nofun)
    exact ⟨o', e1, e2.kind.trans h2, e3.trans h3, e2.complete h4⟩
  have keepD : ∀ N a, s.dih N = some a → ∃ o, (step s op).1.heap[a]? = some o ∧ o.kind = .dihedral ∧ o.param = N ∧ Complete o := by
    intro N a ha
    obtain ⟨o, h1, h2, h3, h4⟩ := inv.dih N a ha
    obtain ⟨o', e1, e2, e3⟩ := fixed_param inv op h1 (by rw [h2]; nofun) (by rw [h2]; nofun)
    exact ⟨o', e1, e2.kind.trans h2, e3.trans h3, e2.complete h4⟩
  have keepS : ∀ a, s.so2 = some a → ∃ o, (step s op).1.heap[a]? = some o ∧ o.kind = .so2 ∧ IsGreatest {F | .so2Group F ∈ h ++ [op] ∧ 0 ≤ F} o.param ∧ Complete o := by
    intro a ha
    obtain ⟨o, h1, h2, h3, h4⟩ := inv.so2 a ha
    obtain ⟨o', e1, e2, e3⟩ := step_at s op a o h1
    refine ⟨o', e1, e2.kind.trans h2, ?_, e2.complete h4⟩
    by_cases hop : ∃ F, op = .so2Group F
    · obtain ⟨F, rfl⟩ := hop
      have hp : o'.param = max o.param F := by
        have : (step s (.so2Group F)).1.heap[a]? = some (growObj F o) := by
          simp only [step, ha]
          have := get_modify h1 a (growObj F)
          rw [if_pos rfl] at this
          exact this
        rw [this] at e1
        cases e1
        exact grow_param F o
      rw [hp]
      exact isGreatest_snoc h3 fun x => by simp
    · have hset : {F | Op.so2Group F ∈ h ++ [op] ∧ 0 ≤ F} = {F | Op.so2Group F ∈ h ∧ 0 ≤ F} := by
        ext F
        have : Op.so2Group F ≠ op := fun e => hop ⟨F, e.symm⟩
        simp [this]
      rw [hset]
      rcases e3 with p | ⟨F, e, -, -⟩ | ⟨F, -, c, -⟩
      · rw [p]
        exact h3
      · exact absurd ⟨F, e⟩ hop
      · obtain ⟨x, hx, hk, -⟩ := inv.o2 a c
        rw [h1] at hx
        cases hx
        rw [h2] at hk
        cases hk
  have keepO : ∀ a, s.o2 = some a → ∃ o, (step s op).1.heap[a]? = some o ∧ o.kind = .o2 ∧ IsGreatest {F | .o2Group F ∈ h ++ [op] ∧ 0 ≤ F} o.param ∧ Complete o := by
    intro a ha
    obtain ⟨o, h1, h2, h3, h4⟩ := inv.o2 a ha
    obtain ⟨o', e1, e2, e3⟩ := step_at s op a o h1
    refine ⟨o', e1, e2.kind.trans h2, ?_, e2.complete h4⟩
    by_cases hop : ∃ F, op = .o2Group F
    · obtain ⟨F, rfl⟩ := hop
      have hp : o'.param = max o.param F := by
        have : (step s (.o2Group F)).1.heap[a]? = some (growObj F o) := by
          simp only [step, ha]
          have := get_modify h1 a (growObj F)
          rw [if_pos rfl] at this
          exact this
        rw [this] at e1
        cases e1
        exact grow_param F o
      rw [hp]
      exact isGreatest_snoc h3 fun x => by simp
    · have hset : {F | Op.o2Group F ∈ h ++ [op] ∧ 0 ≤ F} = {F | Op.o2Group F ∈ h ∧ 0 ≤ F} := by
        ext F
        have : Op.o2Group F ≠ op := fun e => hop ⟨F, e.symm⟩
        simp [this]
      rw [hset]
      rcases e3 with p | ⟨F, -, c, -⟩ | ⟨F, e, -, -⟩
      · rw [p]
        exact h3
      · obtain ⟨x, hx, hk, -⟩ := inv.so2 a c
        rw [h1] at hx
        cases hx
        rw [h2] at hk
        cases hk
      · exact absurd ⟨F, e⟩ hop
  refine ⟨?_, ?_, ?_, ?_, ?_, ?_⟩
  · intro N a ha
    rcases cs.cyc with e | ⟨M, -, -, -, e, g⟩
    · exact keepC N a (by rw [← e]; exact ha)
    · rw [e] at ha
      dsimp only at ha
      by_cases hM : N = M
      · rw [if_pos hM] at ha
        cases ha
        exact ⟨_, g, rfl, hM.symm, new_ok _ _⟩
      · rw [if_neg hM] at ha
        exact keepC N a ha
  · intro N a ha
    rcases cs.dih with e | ⟨M, -, -, -, e, g⟩
    · exact keepD N a (by rw [← e]; exact ha)
    · rw [e] at ha
      dsimp only at ha
      by_cases hM : N = M
      · rw [if_pos hM] at ha
        cases ha
        exact ⟨_, g, rfl, hM.symm, new_ok _ _⟩
      · rw [if_neg hM] at ha
        exact keepD N a ha
  · intro a ha
    rcases cs.so2 with ⟨e, -⟩ | ⟨F, rfl, hn, hF, e, g⟩
    · exact keepS a (by rw [← e]; exact ha)
    · rw [e] at ha
      cases ha
      refine ⟨_, g, rfl, ⟨⟨List.mem_append_right _ (List.mem_singleton.2 rfl), hF⟩, ?_⟩, new_ok _ _⟩
      rintro x ⟨hx, hx0⟩
      rcases List.mem_append.1 hx with hx | hx
      · exact absurd hx0 (not_le.2 (inv.so2_none hn x hx))
      · simp only [List.mem_singleton, Op.so2Group.injEq] at hx
        exact hx.le
  · intro hn F hF
    rcases cs.so2 with ⟨e, e'⟩ | ⟨G, -, -, -, e, -⟩
    · rw [e] at hn
      rcases List.mem_append.1 hF with hF | hF
      · exact inv.so2_none hn F hF
      · exact e' F (List.mem_singleton.1 hF).symm hn
    · rw [e] at hn
      cases hn
  · intro a ha
    rcases cs.o2 with ⟨e, -⟩ | ⟨F, rfl, hn, hF, e, g⟩
    · exact keepO a (by rw [← e]; exact ha)
    · rw [e] at ha
      cases ha
      refine ⟨_, g, rfl, ⟨⟨List.mem_append_right _ (List.mem_singleton.2 rfl), hF⟩, ?_⟩, new_ok _ _⟩
      rintro x ⟨hx, hx0⟩
      rcases List.mem_append.1 hx with hx | hx
      · exact absurd hx0 (not_le.2 (inv.o2_none hn x hx))
      · simp only [List.mem_singleton, Op.o2Group.injEq] at hx
        exact hx.le
  · intro hn F hF
    rcases cs.o2 with ⟨e, e'⟩ | ⟨G, -, -, -, e, -⟩
    · rw [e] at hn
      rcases List.mem_append.1 hF with hF | hF
      · exact inv.o2_none hn F hF
      · exact e' F (List.mem_singleton.1 hF).symm hn
    · rw [e] at hn
      cases hn

theorem inv_after (h : List Op) : Inv h (after h) := by
  induction h using List.reverseRecOn with
  | nil => exact ⟨nofun, nofun, nofun, nofun, nofun, nofun⟩
  | append_singleton h op ih =>
    rw [after_snoc]
    exact inv_step ih op

/-- The caches never forget. -/
theorem caches_after (h h' : List Op) :
    (∀ N a, (after h).cyc N = some a → (after (h ++ h')).cyc N = some a) ∧ (∀ N a, (after h).dih N = some a → (after (h ++ h')).dih N = some a) ∧
    (∀ a, (after h).so2 = some a → (after (h ++ h')).so2 = some a) ∧ (∀ a, (after h).o2 = some a → (after (h ++ h')).o2 = some a) := by
  induction h' using List.reverseRecOn with
  | nil => simp
  | append_singleton h' op ih =>
    rw [← List.append_assoc, after_snoc]
    have cs := cache_step (after (h ++ h')) op
    refine ⟨fun N a ha => ?_, fun N a ha => ?_, fun a ha => ?_, fun a ha => ?_⟩
    · have := ih.1 N a ha
      rcases cs.cyc with e | ⟨M, -, hn, -, e, -⟩
      · rw [e, this]
      · have : N ≠ M := fun x => by rw [x, hn] at this; cases this
        rw [e]
        simp [this, ih.1 N a ha]
    · have := ih.2.1 N a ha
      rcases cs.dih with e | ⟨M, -, hn, -, e, -⟩
      · rw [e, this]
      · have : N ≠ M := fun x => by rw [x, hn] at this; cases this
        rw [e]
        simp [this, ih.2.1 N a ha]
    · have := ih.2.2.1 a ha
      rcases cs.so2 with ⟨e, -⟩ | ⟨M, -, hn, -⟩
      · rw [e, this]
      · rw [hn] at this
        cases this
    · have := ih.2.2.2 a ha
      rcases cs.o2 with ⟨e, -⟩ | ⟨M, -, hn, -⟩
      · rw [e, this]
      · rw [hn] at this
        cases this

/-- Objects stay where they are and only grow. -/
theorem objects_after (h h' : List Op) (a : ℕ) (o : Obj) (ho : (after h).heap[a]? = some o) : ∃ o', (after (h ++ h')).heap[a]? = some o' ∧ Older o o' := by
  induction h' using List.reverseRecOn with
  | nil => exact ⟨o, by rwa [List.append_nil], Older.refl o⟩
  | append_singleton h' op ih =>
    obtain ⟨o1, h1, l1⟩ := ih
    obtain ⟨o2, h2, l2, -⟩ := step_at _ op a o1 h1
    rw [← List.append_assoc, after_snoc]
    exact ⟨o2, h2, l1.trans l2⟩

theorem after_cons (h : List Op) (op : Op) (h' : List Op) : after (h ++ op :: h') = after ((h ++ [op]) ++ h') := by rw [List.append_assoc]; rfl

/-- What a factory returns is what its cache holds afterwards. -/
theorem returns_cyc (h : List Op) (N : ℤ) : returns h (.cyclicGroup N) = (after (h ++ [.cyclicGroup N])).cyc N := by
  rw [after_snoc, returns]
  simp only [step, new]
  cases hN : (after h).cyc N with
  | some a => exact hN.symm
  | none => by_cases hk : okParam .cyclic N <;> simp [hk, hN]

theorem returns_dih (h : List Op) (N : ℤ) : returns h (.dihedralGroup N) = (after (h ++ [.dihedralGroup N])).dih N := by
  rw [after_snoc, returns]
  simp only [step, new]
  cases hN : (after h).dih N with
  | some a => exact hN.symm
  | none => by_cases hk : okParam .dihedral N <;> simp [hk, hN]

theorem returns_so2 (h : List Op) (F : ℤ) : returns h (.so2Group F) = (after (h ++ [.so2Group F])).so2 := by
  rw [after_snoc, returns]
  simp only [step, new]
  cases hN : (after h).so2 with
  | some a => simp [grow, hN]
  | none => by_cases hk : okParam .so2 F <;> simp [hk, hN]

theorem returns_o2 (h : List Op) (F : ℤ) : returns h (.o2Group F) = (after (h ++ [.o2Group F])).o2 := by
  rw [after_snoc, returns]
  simp only [step, new]
  cases hN : (after h).o2 with
  | some a => simp [grow, hN]
  | none => by_cases hk : okParam .o2 F <;> simp [hk, hN]

/-! ### The theorems -/

/-- **C43, `cyclic_group`**: over any history, two calls with the same order return the same object. -/
theorem c43_cyclic_same (h h' : List Op) (N : ℤ) (a : ℕ) (ha : returns h (.cyclicGroup N) = some a) :
    returns (h ++ .cyclicGroup N :: h') (.cyclicGroup N) = some a := by
  rw [returns_cyc] at ha
  have := (caches_after _ h').1 N a ha
  rw [← after_cons] at this
  rw [returns]
  simp only [step, this]

/-- The call succeeds exactly for positive orders, and the object returned is a cyclic group of that order with all its irreps (then and at any later time). -/
theorem c43_cyclic_object (h h' : List Op) (N : ℤ) :
    (0 < N ↔ ∃ a, returns h (.cyclicGroup N) = some a) ∧
    ∀ a, returns h (.cyclicGroup N) = some a → ∃ o, (after (h ++ .cyclicGroup N :: h')).heap[a]? = some o ∧ o.kind = .cyclic ∧ o.param = N ∧ Complete o := by
  have key : ∀ a, returns h (.cyclicGroup N) = some a → ∃ o, (after (h ++ .cyclicGroup N :: h')).heap[a]? = some o ∧ o.kind = .cyclic ∧ o.param = N ∧ Complete o := by
    intro a ha
    rw [returns_cyc] at ha
    rw [after_cons]
    exact (inv_after _).cyc N a ((caches_after _ h').1 N a ha)
  refine ⟨⟨fun hN => ?_, ?_⟩, key⟩
  · rw [returns]
    simp only [step, new]
    cases (after h).cyc N with
    | some a => exact ⟨a, rfl⟩
    | none => simp [okParam, hN]
  · rintro ⟨a, ha⟩
    by_contra hN
    have none_all : ∀ g : List Op, (after g).cyc N = none := by
      intro g
      induction g using List.reverseRecOn with
      | nil => rfl
      | append_singleton g op ih =>
        rw [after_snoc]
        rcases (cache_step (after g) op).cyc with e | ⟨M, -, -, hM, e, -⟩
        · rw [e, ih]
        · rw [e]
          have : N ≠ M := fun x => hN (x ▸ hM)
          simp [this, ih]
    rw [returns_cyc, none_all] at ha
    cases ha

/-- Different orders, different objects. -/
theorem c43_cyclic_distinct (h h' : List Op) (N M : ℤ) (a : ℕ) (ha : returns h (.cyclicGroup N) = some a)
    (hb : returns (h ++ .cyclicGroup N :: h') (.cyclicGroup M) = some a) : N = M := by
  obtain ⟨o, h1, -, h2, -⟩ := (c43_cyclic_object h (h' ++ [.cyclicGroup M]) N).2 a ha
  obtain ⟨o', h1', -, h2', -⟩ := (c43_cyclic_object (h ++ .cyclicGroup N :: h') [] M).2 a hb
  rw [List.append_assoc, List.cons_append, h1] at h1'
  cases h1'
  exact h2.symm.trans h2'

/-- **C43, `dihedral_group`**. -/
theorem c43_dihedral_same (h h' : List Op) (N : ℤ) (a : ℕ) (ha : returns h (.dihedralGroup N) = some a) :
    returns (h ++ .dihedralGroup N :: h') (.dihedralGroup N) = some a := by
  rw [returns_dih] at ha
  have := (caches_after _ h').2.1 N a ha
  rw [← after_cons] at this
  rw [returns]
  simp only [step, this]

theorem c43_dihedral_object (h h' : List Op) (N : ℤ) :
    (0 < N ↔ ∃ a, returns h (.dihedralGroup N) = some a) ∧
    ∀ a, returns h (.dihedralGroup N) = some a → ∃ o, (after (h ++ .dihedralGroup N :: h')).heap[a]? = some o ∧ o.kind = .dihedral ∧ o.param = N ∧ Complete o := by
  have key : ∀ a, returns h (.dihedralGroup N) = some a →
      ∃ o, (after (h ++ .dihedralGroup N :: h')).heap[a]? = some o ∧ o.kind = .dihedral ∧ o.param = N ∧ Complete o := by
    intro a ha
    rw [returns_dih] at ha
    rw [after_cons]
    exact (inv_after _).dih N a ((caches_after _ h').2.1 N a ha)
  refine ⟨⟨fun hN => ?_, ?_⟩, key⟩
  · rw [returns]
    simp only [step, new]
    cases (after h).dih N with
    | some a => exact ⟨a, rfl⟩
    | none => simp [okParam, hN]
  · rintro ⟨a, ha⟩
    by_contra hN
    have none_all : ∀ g : List Op, (after g).dih N = none := by
      intro g
      induction g using List.reverseRecOn with
      | nil => rfl
      | append_singleton g op ih =>
        rw [after_snoc]
        rcases (cache_step (after g) op).dih with e | ⟨M, -, -, hM, e, -⟩
        · rw [e, ih]
        · rw [e]
          have : N ≠ M := fun x => hN (x ▸ hM)
          simp [this, ih]
    rw [returns_dih, none_all] at ha
    cases ha

/-- **C43, `so2_group`**: all calls return one object, whatever the arguments. -/
theorem c43_so2_same (h h' : List Op) (F G : ℤ) (a : ℕ) (ha : returns h (.so2Group F) = some a) :
    returns (h ++ .so2Group F :: h') (.so2Group G) = some a := by
  rw [returns_so2] at ha
  have := (caches_after _ h').2.2.1 a ha
  rw [← after_cons] at this
  rw [returns]
  simp only [step, this]

/-- At any time after the call, the maximum frequency of the object is the largest one requested so far, and all irreps up to it exist. -/
theorem c43_so2_object (h h' : List Op) (F : ℤ) (a : ℕ) (ha : returns h (.so2Group F) = some a) :
    ∃ o, (after (h ++ .so2Group F :: h')).heap[a]? = some o ∧ o.kind = .so2 ∧ IsGreatest {G | .so2Group G ∈ h ++ .so2Group F :: h' ∧ 0 ≤ G} o.param ∧
      ∀ k, 0 ≤ k → k ≤ o.param → (0, k) ∈ o.irreps ∧ (0, k) ∈ o.reprs := by
  rw [returns_so2] at ha
  obtain ⟨o, h1, h2, h3, h4⟩ := (inv_after _).so2 a ((caches_after _ h').2.2.1 a ha)
  rw [← after_cons] at h1
  rw [List.append_assoc] at h3
  refine ⟨o, h1, h2, h3, fun k hk hk' => h4 (0, k) ?_⟩
  rw [h2]
  exact ⟨rfl, hk, hk'⟩

/-- The call succeeds exactly when some frequency requested so far, or the present one, is not negative. -/
theorem c43_so2_succeeds (h : List Op) (F : ℤ) : (∃ a, returns h (.so2Group F) = some a) ↔ ∃ G, .so2Group G ∈ h ++ [.so2Group F] ∧ 0 ≤ G := by
  constructor
  · rintro ⟨a, ha⟩
    obtain ⟨o, -, -, h3, -⟩ := c43_so2_object h [] F a ha
    exact ⟨o.param, h3.1⟩
  · rintro ⟨G, hG, h0⟩
    rw [returns_so2]
    cases hn : (after (h ++ [Op.so2Group F])).so2 with
    | some a => exact ⟨a, rfl⟩
    | none => exact absurd h0 (not_le.2 ((inv_after _).so2_none hn G hG))

/-- The maximum frequency of any object never decreases, and its irreps and representations stay. -/
theorem c43_monotone (h h' : List Op) (a : ℕ) (o : Obj) (ho : (after h).heap[a]? = some o) :
    ∃ o', (after (h ++ h')).heap[a]? = some o' ∧ o'.kind = o.kind ∧ o.param ≤ o'.param ∧ o.irreps ⊆ o'.irreps ∧ o.reprs ⊆ o'.reprs := by
  obtain ⟨o', h1, l⟩ := objects_after h h' a o ho
  exact ⟨o', h1, l.kind, l.param, l.irreps, l.reprs⟩

/-- **C43, `o2_group`**: all calls return one object. -/
theorem c43_o2_same (h h' : List Op) (F G : ℤ) (a : ℕ) (ha : returns h (.o2Group F) = some a) :
    returns (h ++ .o2Group F :: h') (.o2Group G) = some a := by
  rw [returns_o2] at ha
  have := (caches_after _ h').2.2.2 a ha
  rw [← after_cons] at this
  rw [returns]
  simp only [step, this]

theorem c43_o2_object (h h' : List Op) (F : ℤ) (a : ℕ) (ha : returns h (.o2Group F) = some a) :
    ∃ o, (after (h ++ .o2Group F :: h')).heap[a]? = some o ∧ o.kind = .o2 ∧ IsGreatest {G | .o2Group G ∈ h ++ .o2Group F :: h' ∧ 0 ≤ G} o.param ∧
      ((0, 0) ∈ o.irreps ∧ (0, 0) ∈ o.reprs) ∧ ∀ k, 0 ≤ k → k ≤ o.param → (1, k) ∈ o.irreps ∧ (1, k) ∈ o.reprs := by
  rw [returns_o2] at ha
  obtain ⟨o, h1, h2, h3, h4⟩ := (inv_after _).o2 a ((caches_after _ h').2.2.2 a ha)
  rw [← after_cons] at h1
  rw [List.append_assoc] at h3
  refine ⟨o, h1, h2, h3, h4 (0, 0) ?_, fun k hk hk' => h4 (1, k) ?_⟩
  · rw [h2]
    exact Or.inl ⟨rfl, rfl⟩
  · rw [h2]
    exact Or.inr ⟨rfl, hk, hk'⟩

theorem c43_o2_succeeds (h : List Op) (F : ℤ) : (∃ a, returns h (.o2Group F) = some a) ↔ ∃ G, .o2Group G ∈ h ++ [.o2Group F] ∧ 0 ≤ G := by
  constructor
  · rintro ⟨a, ha⟩
    obtain ⟨o, -, -, h3, -⟩ := c43_o2_object h [] F a ha
    exact ⟨o.param, h3.1⟩
  · rintro ⟨G, hG, h0⟩
    rw [returns_o2]
    cases hn : (after (h ++ [Op.o2Group F])).o2 with
    | some a => exact ⟨a, rfl⟩
    | none => exact absurd h0 (not_le.2 ((inv_after _).o2_none hn G hG))

/-! ### What does not hold -/

/-- The subgroup SO(2) of the O(2) object is memoised with the maximum frequency of that moment: after `o2_group(3)`, taking the subgroup,
and `o2_group(5)`, the subgroup still has maximum frequency 3, and it is not the object returned by `so2_group`. -/
theorem c43_subgroup_stale :
    returns [.o2Group 3, .subgroup 0, .o2Group 5] (.subgroup 0) = some 1 ∧
    ((after [.o2Group 3, .subgroup 0, .o2Group 5]).heap[1]?.map Obj.param = some 3) ∧
    ((after [.o2Group 3, .subgroup 0, .o2Group 5]).heap[0]?.map Obj.param = some 5) ∧
    returns [.o2Group 3, .subgroup 0, .o2Group 5] (.so2Group 5) = some 2 := by decide

/-- An irrep built by the method `irrep` above the maximum frequency is missing among the representations. -/
theorem c43_irrep_above : ((after [.so2Group 2, .irrep 0 0 4]).heap[0]?.map fun o => (decide ((0, 4) ∈ o.irreps), decide ((0, 4) ∈ o.reprs))) = some (true, false) := by
  decide

/-! ### The hypotheses are met -/

example : returns [.cyclicGroup 3, .so2Group 1, .construct .cyclic 4, .dihedralGroup 4] (.cyclicGroup 4) = some 4 := by decide

example : returns [.cyclicGroup 3, .so2Group 1, .irrep 1 0 7, .o2Group 2] (.so2Group 4) = some 1 := by decide

example : returns [] (.so2Group (-1)) = none := by decide

end E2.Factory
