import Verif.Lemmas.Program
import Verif.Props.Network

/-!
Programs on geometric tensors (C71): residual connections, arithmetic, operations in place and views commute with the elements of the group which permute the
pixels.
-/

set_option linter.unusedSectionVars false

namespace E2

open Finset Mat

variable {El F A I B K : Type} [LinearOrder F] [DecidableEq I] [Fintype B] [DecidableEq K]

/-! ### Specification -/

/-- The modules called by a statement are used as they should be: on a tensor of their input type, with images of a size for which `Layer.Ok` holds. -/
def Stmt.Ok (Sp : Space El) (rep : F → Repr El) (built : (F → F → List (A × (ℝ × ℝ → Mat))) → (A → I) → Prop) (s : Mem F B K) : Stmt F A I K → Prop
  | .call _ l _ u => ∃ x m, s.read (fun r => (rep r).size) u = some x ∧ x.x.ty = l.inTy ∧ l.Ok Sp rep built x.n m
  | _ => True

/-- The program runs to its end from the state `s`, and its modules are used as they should be. -/
def ProgOk (Sp : Space El) (rep : F → Repr El) (built : (F → F → List (A × (ℝ × ℝ → Mat))) → (A → I) → Prop)
    (junk : ℕ → (c n : ℕ) → List (Pix B n → ℝ)) : List (Stmt F A I K) → Mem F B K → Prop
  | [], _ => True
  | st :: p, s => st.Ok Sp rep built s ∧ ∃ s', st.run rep (junk p.length) s = some s' ∧ ProgOk Sp rep built junk p s'

/-- What is known about the memory without the values: the sizes of the images in every block, and the tensors of the variables. -/
structure Ctx (F K : Type) where
  sizes : List ℕ
  env : K → Option (Ref F)

def Ctx.bindVar (Γ : Ctx F K) (v : K) (r : Ref F) : Ctx F K := ⟨Γ.sizes, Function.update Γ.env v (some r)⟩

def Ctx.alloc (Γ : Ctx F K) (v : K) (n : ℕ) (t : List F) : Ctx F K := ⟨Γ.sizes ++ [n], Function.update Γ.env v (some ⟨Γ.sizes.length, 0, t⟩)⟩

def Ctx.bindVars (Γ : Ctx F K) : List (K × Ref F) → Ctx F K
  | [] => Γ
  | (v, r) :: l => (Γ.bindVar v r).bindVars l

/-- The variable holds the tensor `r`, with images of `n × n` pixels. -/
def Ctx.Has (Γ : Ctx F K) (v : K) (r : Ref F) (n : ℕ) : Prop := Γ.env v = some r ∧ Γ.sizes[r.addr]? = some n

/-- A statement is correct in `Γ` and leads to `Δ`, judged by types and sizes only.  A module is called on a tensor of its input type of an admissible size.  The
operands of `+` and `-` have the same type and sizes which are equal or 1; in place, the size of the first is not changed and the operands overlap completely or
not at all.  `split` has as many variables as pieces.  The tensors of a direct sum have the same size. -/
def Stmt.Types (Sp : Space El) (rep : F → Repr El) (built : (F → F → List (A × (ℝ × ℝ → Mat))) → (A → I) → Prop) (Γ : Ctx F K) :
    Stmt F A I K → Ctx F K → Prop
  | .assign v u, Δ => ∃ r, Γ.env u = some r ∧ Δ = Γ.bindVar v r
  | .call v l inplace u, Δ => ∃ r n m, Γ.Has u r n ∧ r.ty = l.inTy ∧ l.Ok Sp rep built n m ∧
      Δ = if l.returnsInput || (inplace && l.canInplace) then Γ.bindVar v r else Γ.alloc v m l.outTy
  | .add v a b, Δ => ∃ ra rb n m, Γ.Has a ra n ∧ Γ.Has b rb m ∧ ra.ty = rb.ty ∧ (n = m ∨ n = 1 ∨ m = 1) ∧ Δ = Γ.alloc v (if n = 1 then m else n) ra.ty
  | .sub v a b, Δ => ∃ ra rb n m, Γ.Has a ra n ∧ Γ.Has b rb m ∧ ra.ty = rb.ty ∧ (n = m ∨ n = 1 ∨ m = 1) ∧ Δ = Γ.alloc v (if n = 1 then m else n) ra.ty
  | .mul v a _, Δ => ∃ r n, Γ.Has a r n ∧ Δ = Γ.alloc v n r.ty
  | .iadd a b, Δ => ∃ ra rb n m, Γ.Has a ra n ∧ Γ.Has b rb m ∧ ra.ty = rb.ty ∧ (m = n ∨ m = 1) ∧ ra.separate (fun r => (rep r).size) rb ∧ Δ = Γ
  | .isub a b, Δ => ∃ ra rb n m, Γ.Has a ra n ∧ Γ.Has b rb m ∧ ra.ty = rb.ty ∧ (m = n ∨ m = 1) ∧ ra.separate (fun r => (rep r).size) rb ∧ Δ = Γ
  | .imul a _, Δ => ∃ r, Γ.env a = some r ∧ Δ = Γ
  | .split vs u breaks, Δ => ∃ r ys, Γ.env u = some r ∧
      (splitGT (fun r => (rep r).size) (⟨r.ty, List.range' r.off (typeSize (fun r => (rep r).size) r.ty)⟩ : GTensor F ℕ) breaks).1 = some ys ∧
      vs.length = ys.length ∧ Δ = Γ.bindVars (vs.zip (ys.map fun y => ⟨r.addr, y.data.head?.getD 0, y.ty⟩))
  | .directsum v us, Δ => ∃ n rs, us ≠ [] ∧ List.Forall₂ (fun u r => Γ.Has u r n) us rs ∧ Δ = Γ.alloc v n (rs.flatMap Ref.ty)

/-- A program is correct in `Γ` and leads to `Δ`. -/
def ProgTypes (Sp : Space El) (rep : F → Repr El) (built : (F → F → List (A × (ℝ × ℝ → Mat))) → (A → I) → Prop) :
    List (Stmt F A I K) → Ctx F K → Ctx F K → Prop
  | [], Γ, Δ => Δ = Γ
  | st :: p, Γ, Δ => ∃ Γ', st.Types Sp rep built Γ Γ' ∧ ProgTypes Sp rep built p Γ' Δ

/-- The start of a program: variables, sizes and types of the inputs. -/
def Ctx.init (xs : List (K × ℕ × List F)) : Ctx F K := xs.foldl (fun Γ x => Γ.alloc x.1 x.2.1 x.2.2) ⟨[], fun _ => none⟩

/-! ### Proof -/

section

variable {Sp : Space El} {rep : F → Repr El} {built : (F → F → List (A × (ℝ × ℝ → Mat))) → (A → I) → Prop}

theorem read_act {sz : F → ℕ} {ρ : F → Mat} {τ : GSym} {H : List (List F)} {s : Mem F B K} (hs : Typed sz H s) (v : K) :
    (actM sz ρ τ H s).read sz v = (s.read sz v).map (trE sz ρ τ) ∧ ∀ x, s.read sz v = some x → x.x.WF sz := by
  unfold Mem.read
  have : (actM sz ρ τ H s).env = s.env := rfl
  rw [this]
  cases h : s.env v with
  | none => simp
  | some r =>
    obtain ⟨x, h1, h2, -, -, h5⟩ := deref_act (ρ := ρ) (τ := τ) hs (hs.ref v r h)
    dsimp only
    rw [h1, h5]
    exact ⟨rfl, fun y hy => Option.some.inj hy ▸ h2⟩

theorem reads_act {sz : F → ℕ} {ρ : F → Mat} {τ : GSym} {H : List (List F)} {s : Mem F B K} (hs : Typed sz H s) (us : List K) :
    us.mapM ((actM sz ρ τ H s).read sz) = (us.mapM (s.read sz)).map (List.map (trE sz ρ τ)) ∧
      ∀ xs, us.mapM (s.read sz) = some xs → ∀ x ∈ xs, x.x.WF sz := by
  induction us with
  | nil => simp
  | cons u us ih =>
    obtain ⟨h1, h2⟩ := read_act (ρ := ρ) (τ := τ) hs u
    obtain ⟨h3, h4⟩ := ih
    rw [List.mapM_cons, List.mapM_cons, h1, h3]
    cases hu : s.read sz u with
    | none => simp
    | some x =>
      cases hus : us.mapM (s.read sz) with
      | none => simp
      | some xs =>
        simp only [Option.map_some, Option.bind_eq_bind, Option.bind_some, Option.pure_def, List.map_cons, Option.some.injEq, true_and]
        rintro _ rfl y hy
        rcases List.mem_cons.1 hy with rfl | hy
        · exact h2 _ hu
        · exact h4 _ hus _ hy

theorem inplace_act (k : ℝ) {sz : F → ℕ} {ρ : F → Mat} {τ : GSym} {H : List (List F)} {s s1 : Mem F B K} (hs : Typed sz H s) (a b : K)
    (h : s.inplace sz (fun u v => u + k * v) a b = some s1) :
    Typed sz H s1 ∧ (actM sz ρ τ H s).inplace sz (fun u v => u + k * v) a b = some (actM sz ρ τ H s1) := by
  unfold Mem.inplace at h ⊢
  have : (actM sz ρ τ H s).env = s.env := rfl
  rw [this]
  cases ha : s.env a with
  | none => simp [ha] at h
  | some ra =>
    cases hb : s.env b with
    | none => simp [ha, hb] at h
    | some rb =>
      obtain ⟨x, x1, x2, x3, ⟨p, hp, hpn⟩, x5⟩ := deref_act (ρ := ρ) (τ := τ) hs (hs.ref a ra ha)
      obtain ⟨y, y1, y2, -, -, y5⟩ := deref_act (ρ := ρ) (τ := τ) hs (hs.ref b rb hb)
      rw [ha, hb] at h
      dsimp only at h ⊢
      rw [x1, y1] at h
      rw [x5, y5]
      dsimp only at h ⊢
      split_ifs at h with hsep
      rw [if_pos hsep]
      cases hd : inE (fun u v => u + k * v) x y with
      | none => simp [hd] at h
      | some d =>
        obtain ⟨l1, l2⟩ := inE_act (ρ := ρ) (τ := τ) k x2 y2 hd
        rw [hd, Option.bind_some] at h
        have hl : d.length = typeSize sz ra.ty := by rw [l1, x3]
        obtain ⟨s2, w1, -, w3, w4⟩ := write_act (ρ := ρ) (τ := τ) hs (hs.ref a ra ha) (y := ⟨x.n, d⟩) hl hp hpn.symm
        rw [w1] at h
        obtain rfl := Option.some.inj h
        refine ⟨w3, ?_⟩
        rw [x3] at l2
        refine (congrArg (fun o => Option.bind o fun d => (actM sz ρ τ H s).write ra ⟨x.n, d⟩) l2).trans ?_
        exact w4

/-- One statement. -/
theorem stmt_act (hS : NetSpace Sp rep built) {H : List (List F)} {s s1 : Mem F B K} (hs : Typed (fun r => (rep r).size) H s) (st : Stmt F A I K)
    (hok : st.Ok Sp rep built s) {junk junk' : (c n : ℕ) → List (Pix B n → ℝ)} (hj : JunkOk junk) (hj' : JunkOk junk') (h : st.run rep junk s = some s1)
    {g : El} (hg : Sp.G.isEl g) (hq : Sp.grid g) {τ : GSym} (hτ : ∀ n x i j, i < n → j < n → Sp.base n g x i j = x (τ.ap n (i, j)).1 (τ.ap n (i, j)).2) :
    ∃ H1, Typed (fun r => (rep r).size) H1 s1 ∧
      st.run rep junk' (actM (fun r => (rep r).size) (fun r => (rep r).mat g) τ H s) = some (actM (fun r => (rep r).size) (fun r => (rep r).mat g) τ H1 s1) := by
  have henv : (actM (fun r => (rep r).size) (fun r => (rep r).mat g) τ H s).env = s.env := rfl
  have hadd : (fun u v : ℝ => u + v) = fun u v => u + 1 * v := by funext u v; ring
  have hsub : (fun u v : ℝ => u - v) = fun u v => u + (-1) * v := by funext u v; ring
  have hbin : ∀ (k : ℝ) (v a b : K), (match s.read (fun r => (rep r).size) a, s.read (fun r => (rep r).size) b with
      | some x, some y => (binE (fun r => (rep r).size) (fun u v => u + k * v) x y).map (s.alloc v)
      | _, _ => none) = some s1 → ∃ H1, Typed (fun r => (rep r).size) H1 s1 ∧
      (match (actM (fun r => (rep r).size) (fun r => (rep r).mat g) τ H s).read (fun r => (rep r).size) a,
          (actM (fun r => (rep r).size) (fun r => (rep r).mat g) τ H s).read (fun r => (rep r).size) b with
      | some x, some y => (binE (fun r => (rep r).size) (fun u v => u + k * v) x y).map ((actM (fun r => (rep r).size) (fun r => (rep r).mat g) τ H s).alloc v)
      | _, _ => none) = some (actM (fun r => (rep r).size) (fun r => (rep r).mat g) τ H1 s1) := by
    intro k v a b h
    obtain ⟨a1, a2⟩ := read_act (ρ := fun r => (rep r).mat g) (τ := τ) hs a
    obtain ⟨b1, b2⟩ := read_act (ρ := fun r => (rep r).mat g) (τ := τ) hs b
    rw [a1, b1]
    cases ha : s.read (fun r => (rep r).size) a with
    | none => simp [ha] at h
    | some x =>
      cases hb : s.read (fun r => (rep r).size) b with
      | none => simp [ha, hb] at h
      | some y =>
        rw [ha, hb] at h
        dsimp only [Option.map_some] at h ⊢
        cases hz : binE (fun r => (rep r).size) (fun u v => u + k * v) x y with
        | none => simp [hz] at h
        | some z =>
          rw [hz] at h
          obtain ⟨z1, z2⟩ := binE_act (ρ := fun r => (rep r).mat g) (τ := τ) k (a2 x ha) (b2 y hb) hz
          obtain rfl := Option.some.inj h
          obtain ⟨t1, t2⟩ := alloc_act (ρ := fun r => (rep r).mat g) (τ := τ) hs v z1
          exact ⟨_, t1, by rw [z2, t2]; rfl⟩
  cases st with
  | assign v u =>
    simp only [Stmt.run] at h ⊢
    rw [henv]
    cases hu : s.env u with
    | none => simp [hu] at h
    | some r =>
      rw [hu] at h
      obtain rfl := Option.some.inj h
      obtain ⟨t1, t2⟩ := bindVar_act (ρ := fun r => (rep r).mat g) (τ := τ) hs v (hs.ref u r hu)
      exact ⟨H, t1, by rw [t2]; rfl⟩
  | call v l inplace u =>
    obtain ⟨x, m, hx, hxt, hl⟩ := hok
    simp only [Stmt.run] at h ⊢
    rw [henv]
    unfold Mem.read at hx
    cases hu : s.env u with
    | none => simp [hu] at hx
    | some r =>
      have hr := hs.ref u r hu
      obtain ⟨x', x1, x2, x3, ⟨p, hp, hpn⟩, x5⟩ := deref_act (ρ := fun r => (rep r).mat g) (τ := τ) hs hr
      rw [hu] at hx h
      dsimp only at hx h ⊢
      rw [x1] at hx h
      obtain rfl := Option.some.inj hx
      dsimp only at h
      rw [x5]
      dsimp only
      obtain ⟨y, y1, y2, y3, y4, y5⟩ := layer_step hS l hl x'.x x2 hxt
      have e1 : l.forward rep junk x' = some y := y4 junk hj
      have e2 : l.forward rep junk' (trE (fun r => (rep r).size) (fun r => (rep r).mat g) τ x')
          = some (trE (fun r => (rep r).size) (fun r => (rep r).mat g) τ y) := by
        have := y5 g hg hq junk' hj'
        rw [act_eq rep hτ, act_eq rep hτ] at this
        exact this
      rw [e1] at h
      rw [e2]
      dsimp only at h ⊢
      by_cases c1 : l.returnsInput = true
      · rw [if_pos c1] at h ⊢
        obtain rfl := Option.some.inj h
        obtain ⟨t1, t2⟩ := bindVar_act (ρ := fun r => (rep r).mat g) (τ := τ) hs v hr
        exact ⟨H, t1, by rw [t2]⟩
      · rw [if_neg c1] at h ⊢
        by_cases c2 : (inplace && l.canInplace) = true
        · rw [if_pos c2] at h ⊢
          have hcl : l.canInplace = true := (Bool.and_eq_true_iff.1 c2).2
          have hmn : m = x'.n ∧ l.outTy = l.inTy := by
            cases l <;> simp only [Layer.canInplace, Bool.false_eq_true] at hcl
            exact ⟨hl.1, rfl⟩
          have hty : y.x.ty = r.ty := by rw [y3, hmn.2, ← hxt, x3]
          obtain ⟨s2, w1, -, w3, w4⟩ := write_act (ρ := fun r => (rep r).mat g) (τ := τ) hs hr (y := y.plain) (by rw [← hty]; exact y2.2) hp
            (by rw [hpn, ← hmn.1]; exact y1)
          rw [w1] at h
          obtain rfl := Option.some.inj h
          obtain ⟨t1, t2⟩ := bindVar_act (ρ := fun r => (rep r).mat g) (τ := τ) w3 v (r := ⟨r.addr, r.off, y.x.ty⟩) (by rw [hty]; exact hr)
          refine ⟨H, t1, ?_⟩
          rw [t2]
          rw [← hty] at w4
          refine (congrArg (fun o => Option.map (fun s' : Mem F B K => s'.bindVar v ⟨r.addr, r.off, y.x.ty⟩) o) w4).trans rfl
        · rw [if_neg c2] at h ⊢
          obtain rfl := Option.some.inj h
          obtain ⟨t1, t2⟩ := alloc_act (ρ := fun r => (rep r).mat g) (τ := τ) hs v y2
          exact ⟨_, t1, by rw [t2]⟩
  | add v a b =>
    simp only [Stmt.run] at h ⊢
    rw [hadd] at h ⊢
    exact hbin 1 v a b h
  | sub v a b =>
    simp only [Stmt.run] at h ⊢
    rw [hsub] at h ⊢
    exact hbin (-1) v a b h
  | mul v a c =>
    simp only [Stmt.run] at h ⊢
    obtain ⟨a1, a2⟩ := read_act (ρ := fun r => (rep r).mat g) (τ := τ) hs a
    rw [a1]
    cases ha : s.read (fun r => (rep r).size) a with
    | none => simp [ha] at h
    | some x =>
      rw [ha] at h
      dsimp only [Option.map_some] at h ⊢
      cases hz : mulE (fun r => (rep r).size) c x with
      | none => simp [hz] at h
      | some z =>
        rw [hz] at h
        obtain ⟨z1, z2⟩ := mulE_act (ρ := fun r => (rep r).mat g) (τ := τ) c (a2 x ha) hz
        obtain rfl := Option.some.inj h
        obtain ⟨t1, t2⟩ := alloc_act (ρ := fun r => (rep r).mat g) (τ := τ) hs v z1
        exact ⟨_, t1, by rw [z2, t2]; rfl⟩
  | iadd a b =>
    simp only [Stmt.run] at h ⊢
    rw [hadd] at h ⊢
    exact ⟨H, inplace_act 1 hs a b h⟩
  | isub a b =>
    simp only [Stmt.run] at h ⊢
    rw [hsub] at h ⊢
    exact ⟨H, inplace_act (-1) hs a b h⟩
  | imul a c =>
    simp only [Stmt.run] at h ⊢
    rw [henv]
    cases hu : s.env a with
    | none => simp [hu] at h
    | some r =>
      have hr := hs.ref a r hu
      obtain ⟨x, x1, x2, x3, ⟨p, hp, hpn⟩, x5⟩ := deref_act (ρ := fun r => (rep r).mat g) (τ := τ) hs hr
      rw [hu] at h
      dsimp only at h ⊢
      rw [x1] at h
      rw [x5]
      dsimp only at h ⊢
      obtain ⟨s2, w1, -, w3, w4⟩ := write_act (ρ := fun r => (rep r).mat g) (τ := τ) hs hr (y := ⟨x.n, x.x.data.map fun f q => f q * c⟩)
        (by rw [← x3]; simpa using x2.2) hp hpn.symm
      rw [w1] at h
      obtain rfl := Option.some.inj h
      refine ⟨H, w3, ?_⟩
      rw [← w4, ← x3, trD_scale _ _ x2.2]
      rfl
  | split vs u breaks =>
    simp only [Stmt.run] at h ⊢
    rw [henv]
    cases hu : s.env u with
    | none => simp [hu] at h
    | some r =>
      rw [hu] at h
      dsimp only at h ⊢
      cases hy : (splitGT (fun r => (rep r).size) (⟨r.ty, List.range' r.off (typeSize (fun r => (rep r).size) r.ty)⟩ : GTensor F ℕ) breaks).1 with
      | none => simp [hy] at h
      | some ys =>
        rw [hy] at h
        dsimp only at h ⊢
        split_ifs at h with hlen
        rw [if_pos hlen]
        obtain rfl := Option.some.inj h
        obtain ⟨t1, t2⟩ := bindVars_act (ρ := fun r => (rep r).mat g) (τ := τ) (vs.zip (ys.map fun y => (⟨r.addr, y.data.head?.getD 0, y.ty⟩ : Ref F)))
          (fun p hp => by
            obtain ⟨y, hy', e⟩ := List.mem_map.1 (List.of_mem_zip hp).2
            rw [← e]
            exact split_refs hS.pos (hs.ref u r hu) breaks ys hy y hy') hs
        exact ⟨H, t1, by rw [t2]⟩
  | directsum v us =>
    simp only [Stmt.run] at h ⊢
    obtain ⟨r1, r2⟩ := reads_act (ρ := fun r => (rep r).mat g) (τ := τ) hs us
    rw [r1]
    cases hxs : us.mapM (s.read fun r => (rep r).size) with
    | none => simp [hxs] at h
    | some xs =>
      rw [hxs] at h
      cases hz : directsumE (fun r => (rep r).size) xs with
      | none => simp [hz] at h
      | some z =>
        obtain ⟨z1, z2⟩ := directsumE_act (ρ := fun r => (rep r).mat g) (τ := τ) (r2 xs hxs) hz
        rw [Option.bind_some, hz] at h
        obtain rfl := Option.some.inj h
        obtain ⟨t1, t2⟩ := alloc_act (ρ := fun r => (rep r).mat g) (τ := τ) hs v z1
        exact ⟨_, t1, by rw [Option.map_some, Option.bind_some, z2, t2]; rfl⟩

theorem prog_act (hS : NetSpace Sp rep built) (prog : List (Stmt F A I K)) {junk junk' : ℕ → (c n : ℕ) → List (Pix B n → ℝ)} (hj : ∀ k, JunkOk (junk k))
    (hj' : ∀ k, JunkOk (junk' k)) {H : List (List F)} {s : Mem F B K} (hs : Typed (fun r => (rep r).size) H s) (hok : ProgOk Sp rep built junk prog s)
    {g : El} (hg : Sp.G.isEl g) (hq : Sp.grid g) {τ : GSym} (hτ : ∀ n x i j, i < n → j < n → Sp.base n g x i j = x (τ.ap n (i, j)).1 (τ.ap n (i, j)).2) :
    ∃ s1 H1, runProg rep junk prog s = some s1 ∧ Typed (fun r => (rep r).size) H1 s1 ∧
      runProg rep junk' prog (actM (fun r => (rep r).size) (fun r => (rep r).mat g) τ H s)
        = some (actM (fun r => (rep r).size) (fun r => (rep r).mat g) τ H1 s1) := by
  induction prog generalizing H s with
  | nil => exact ⟨s, H, rfl, hs, rfl⟩
  | cons st p ih =>
    obtain ⟨h1, s', h2, h3⟩ := hok
    obtain ⟨H', t1, t2⟩ := stmt_act hS hs st h1 (hj _) (hj' _) h2 hg hq hτ
    obtain ⟨s1, H1, e1, e2, e3⟩ := ih t1 h3
    refine ⟨s1, H1, ?_, e2, ?_⟩
    · rw [runProg, h2]
      exact e1
    · rw [runProg, t2]
      exact e3

theorem init_act {sz : F → ℕ} {ρ : F → Mat} {τ : GSym} (xs : List (K × ETensor F B)) (hx : ∀ x ∈ xs, x.2.x.WF sz) :
    ∃ H, Typed sz H (Mem.init xs) ∧ actM sz ρ τ H (Mem.init xs) = Mem.init (xs.map fun x => (x.1, trE sz ρ τ x.2)) := by
  have key : ∀ (s : Mem F B K) (H : List (List F)), Typed sz H s →
      ∃ H', Typed sz H' (xs.foldl (fun s x => s.alloc x.1 x.2) s) ∧ actM sz ρ τ H' (xs.foldl (fun s x => s.alloc x.1 x.2) s)
        = (xs.map fun x => (x.1, trE sz ρ τ x.2)).foldl (fun s x => s.alloc x.1 x.2) (actM sz ρ τ H s) := by
    clear * - hx
    induction xs with
    | nil => exact fun s H hs => ⟨H, hs, rfl⟩
    | cons x xs ih =>
      intro s H hs
      obtain ⟨t1, t2⟩ := alloc_act (ρ := ρ) (τ := τ) hs x.1 (hx x (by simp))
      obtain ⟨H', e1, e2⟩ := ih (fun y hy => hx y (by simp [hy])) _ _ t1
      exact ⟨H', e1, by rw [List.foldl_cons, e2, t2]; rfl⟩
  obtain ⟨H, h1, h2⟩ := key ⟨[], fun _ => none⟩ [] ⟨rfl, by simp, by simp⟩
  exact ⟨H, h1, h2⟩

/-- **C71**: a program on geometric tensors, with calls of modules (in place or not), assignments, sums, differences, multiples, their versions in place, pieces
of tensors which share their memory, and direct sums, is started on some input tensors, runs to its end, and uses its modules as it should.  Then for every
element of the group which permutes the pixels, the program started on the transformed inputs runs to its end, whatever the contents of new memory, and at the
end the variables hold the transformed tensors. -/
theorem c71_program (hS : NetSpace Sp rep built) (prog : List (Stmt F A I K)) (xs : List (K × ETensor F B)) (hx : ∀ x ∈ xs, x.2.x.WF fun r => (rep r).size)
    (junk : ℕ → (c n : ℕ) → List (Pix B n → ℝ)) (hj : ∀ k, JunkOk (junk k)) (hok : ProgOk Sp rep built junk prog (Mem.init xs)) :
    ∃ s, runProg rep junk prog (Mem.init xs) = some s ∧
      ∀ g, Sp.G.isEl g → Sp.grid g → ∀ junk' : ℕ → (c n : ℕ) → List (Pix B n → ℝ), (∀ k, JunkOk (junk' k)) →
        ∃ s', runProg rep junk' prog (Mem.init (xs.map fun x => (x.1, x.2.act Sp rep g))) = some s' ∧
          ∀ v, s'.read (fun r => (rep r).size) v = (s.read (fun r => (rep r).size) v).map (ETensor.act Sp rep g) := by
  have main : ∀ g, Sp.G.isEl g → Sp.grid g → ∃ s, runProg rep junk prog (Mem.init xs) = some s ∧
      ∀ junk' : ℕ → (c n : ℕ) → List (Pix B n → ℝ), (∀ k, JunkOk (junk' k)) →
        ∃ s', runProg rep junk' prog (Mem.init (xs.map fun x => (x.1, x.2.act Sp rep g))) = some s' ∧
          ∀ v, s'.read (fun r => (rep r).size) v = (s.read (fun r => (rep r).size) v).map (ETensor.act Sp rep g) := by
    intro g hg hq
    obtain ⟨τ, hτ, -⟩ := hS.grid g hg hq
    have hact : (ETensor.act Sp rep g : ETensor F B → ETensor F B) = trE (fun r => (rep r).size) (fun r => (rep r).mat g) τ := funext fun x => act_eq rep hτ x
    rw [hact]
    obtain ⟨H, h1, h2⟩ := init_act (ρ := fun r => (rep r).mat g) (τ := τ) xs hx
    obtain ⟨s1, H1, e1, e2, e3⟩ := prog_act hS prog hj hj h1 hok hg hq hτ
    refine ⟨s1, e1, fun junk' hj' => ?_⟩
    obtain ⟨s2, H2, f1, f2, f3⟩ := prog_act hS prog hj hj' h1 hok hg hq hτ
    obtain rfl : s1 = s2 := Option.some.inj (e1.symm.trans f1)
    rw [h2] at f3
    exact ⟨_, f3, fun v => (read_act f2 v).1⟩
  obtain ⟨H, h1, -⟩ := init_act (ρ := fun r => (rep r).mat Sp.G.one) (τ := ⟨false, false, false⟩) xs hx
  have hend : ∃ s, runProg rep junk prog (Mem.init xs) = some s := by
    have : ∀ (p : List (Stmt F A I K)) (s : Mem F B K), ProgOk Sp rep built junk p s → ∃ s1, runProg rep junk p s = some s1 := by
      intro p
      induction p with
      | nil => exact fun s _ => ⟨s, rfl⟩
      | cons st p ih =>
        rintro s ⟨-, s', h2, h3⟩
        obtain ⟨s1, e⟩ := ih s' h3
        exact ⟨s1, by rw [runProg, h2]; exact e⟩
    exact this prog _ hok
  obtain ⟨s, hs⟩ := hend
  refine ⟨s, hs, fun g hg hq => ?_⟩
  obtain ⟨s', h3, h4⟩ := main g hg hq
  obtain rfl : s = s' := Option.some.inj (hs.symm.trans h3)
  exact h4


/-! ### Programs which are correct by their types and sizes -/

/-- The memory is as described. -/
structure Agree (sz : F → ℕ) (Γ : Ctx F K) (s : Mem F B K) : Prop where
  typed : ∃ H, Typed sz H s
  sizes : Γ.sizes = s.heap.map PTensor.n
  env : Γ.env = s.env

section agree

variable {sz : F → ℕ} {Γ Δ : Ctx F K} {s : Mem F B K}

theorem Agree.has (h : Agree sz Γ s) {v : K} {r : Ref F} {n : ℕ} (hv : Γ.Has v r n) :
    ∃ x, s.env v = some r ∧ s.deref sz r = some x ∧ s.read sz v = some x ∧ x.x.WF sz ∧ x.x.ty = r.ty ∧ x.n = n := by
  obtain ⟨H, hs⟩ := h.typed
  have he : s.env v = some r := by rw [← h.env]; exact hv.1
  obtain ⟨x, h1, h2, h3, ⟨p, hp, hpn⟩, -⟩ := deref_act (ρ := fun _ => Mat.one) (τ := ⟨false, false, false⟩) hs (hs.ref v r he)
  refine ⟨x, he, h1, ?_, h2, h3, ?_⟩
  · rw [Mem.read, he]
    exact h1
  · have := hv.2
    rw [h.sizes, List.getElem?_map, hp] at this
    rw [← hpn]
    simpa using this

theorem Agree.ofEnv (h : Agree sz Γ s) {v : K} {r : Ref F} (hv : Γ.env v = some r) : ∃ n, Γ.Has v r n := by
  obtain ⟨H, hs⟩ := h.typed
  have he : s.env v = some r := by rw [← h.env]; exact hv
  obtain ⟨x, -, -, -, ⟨p, hp, -⟩, -⟩ := deref_act (ρ := fun _ => Mat.one) (τ := ⟨false, false, false⟩) hs (hs.ref v r he)
  exact ⟨p.n, hv, by rw [h.sizes, List.getElem?_map, hp]; rfl⟩

theorem Agree.bindVar (h : Agree sz Γ s) (v : K) {r : Ref F} (hr : ∃ u, s.env u = some r) : Agree sz (Γ.bindVar v r) (s.bindVar v r) := by
  obtain ⟨H, hs⟩ := h.typed
  obtain ⟨u, hu⟩ := hr
  exact ⟨⟨H, (bindVar_act (ρ := fun _ => Mat.one) (τ := ⟨false, false, false⟩) hs v (hs.ref u r hu)).1⟩, h.sizes, by simp [Ctx.bindVar, Mem.bindVar, h.env]⟩

theorem Agree.alloc (h : Agree sz Γ s) (v : K) {y : ETensor F B} (hy : y.x.WF sz) : Agree sz (Γ.alloc v y.n y.x.ty) (s.alloc v y) := by
  obtain ⟨H, hs⟩ := h.typed
  exact ⟨⟨_, (alloc_act (ρ := fun _ => Mat.one) (τ := ⟨false, false, false⟩) hs v hy).1⟩, by simp [Ctx.alloc, Mem.alloc, h.sizes, ETensor.plain],
    by simp [Ctx.alloc, Mem.alloc, h.env, h.sizes]⟩

theorem Agree.write (h : Agree sz Γ s) {u : K} {r : Ref F} {n : ℕ} (hu : Γ.Has u r n) {d : List (Pix B n → ℝ)} (hd : d.length = typeSize sz r.ty) :
    ∃ s1, s.write r ⟨n, d⟩ = some s1 ∧ s1.env = s.env ∧ Agree sz Γ s1 := by
  obtain ⟨H, hs⟩ := h.typed
  have he : s.env u = some r := by rw [← h.env]; exact hu.1
  have h2 := hu.2
  rw [h.sizes, List.getElem?_map] at h2
  cases hp : s.heap[r.addr]? with
  | none => simp [hp] at h2
  | some p =>
    obtain rfl : p.n = n := by simpa [hp] using h2
    obtain ⟨s1, w1, w2, w3, -⟩ := write_act (ρ := fun _ => Mat.one) (τ := ⟨false, false, false⟩) hs (hs.ref u r he) (y := ⟨p.n, d⟩) hd hp rfl
    refine ⟨s1, w1, w2, ⟨H, w3⟩, ?_, by rw [w2, h.env]⟩
    rw [Mem.write, hp] at w1
    dsimp only at w1
    rw [dif_pos rfl] at w1
    obtain rfl := Option.some.inj w1
    rw [h.sizes]
    apply List.ext_getElem?
    intro i
    rw [List.getElem?_map, List.getElem?_map, List.getElem?_set]
    split_ifs with hi hl
    · subst hi
      rw [hp]
      rfl
    · rw [← hi, hp] 
      simp at hl
      rw [List.getElem?_eq_none hl] at hp
      exact absurd hp (by simp)
    · rfl

theorem expand_some (n : ℕ) (p : PTensor B) (h : p.n = n ∨ p.n = 1) : ∃ u, expand n p = some u ∧ u.length = p.chans.length := by
  obtain ⟨m, d⟩ := p
  unfold expand
  by_cases h1 : m = n
  · subst h1
    exact ⟨d, dif_pos rfl, rfl⟩
  · obtain rfl : m = 1 := h.resolve_left h1
    exact ⟨_, by rw [dif_neg h1]; exact dif_pos rfl, by simp⟩

theorem binE_some (op : ℝ → ℝ → ℝ) {x y : ETensor F B} (hx : x.x.WF sz) (hy : y.x.WF sz) (ht : x.x.ty = y.x.ty) (hn : x.n = y.n ∨ x.n = 1 ∨ y.n = 1) :
    ∃ z, binE sz op x y = some z ∧ z.x.WF sz ∧ z.x.ty = x.x.ty ∧ z.n = if x.n = 1 then y.n else x.n := by
  obtain ⟨u, hu, lu⟩ := expand_some (if x.n = 1 then y.n else x.n) x.plain (by simp only [ETensor.plain]; split_ifs <;> omega)
  obtain ⟨v, hv, lv⟩ := expand_some (if x.n = 1 then y.n else x.n) y.plain (by simp only [ETensor.plain]; split_ifs <;> omega)
  have lu : u.length = typeSize sz x.x.ty := lu.trans hx.2
  have lv : v.length = typeSize sz x.x.ty := by rw [ht]; exact lv.trans hy.2
  refine ⟨⟨_, x.x.ty, List.zipWith (fun f h q => op (f q) (h q)) u v⟩, ?_, ⟨hx.1, by simp [lu, lv]⟩, rfl, rfl⟩
  have e : mkGT sz (List.zipWith (fun f h q => op (f q) (h q)) u v) x.x.ty = some ⟨x.x.ty, List.zipWith (fun f h q => op (f q) (h q)) u v⟩ :=
    if_pos (by simp [lu, lv])
  rw [binE, if_pos ht, binN, hu, hv]
  dsimp only
  rw [mkE, e]
  rfl

theorem Agree.bin (h : Agree sz Γ s) (op : ℝ → ℝ → ℝ) {v a b : K} {ra rb : Ref F} {n m : ℕ} (ha : Γ.Has a ra n) (hb : Γ.Has b rb m) (ht : ra.ty = rb.ty)
    (hn : n = m ∨ n = 1 ∨ m = 1) :
    ∃ s1, (match s.read sz a, s.read sz b with
      | some x, some y => (binE sz op x y).map (s.alloc v)
      | _, _ => none) = some s1 ∧ Agree sz (Γ.alloc v (if n = 1 then m else n) ra.ty) s1 := by
  obtain ⟨x, -, -, x1, x2, x3, rfl⟩ := h.has ha
  obtain ⟨y, -, -, y1, y2, y3, rfl⟩ := h.has hb
  obtain ⟨z, z1, z2, z3, z4⟩ := binE_some op x2 y2 (by rw [x3, y3, ht]) hn
  refine ⟨s.alloc v z, by rw [x1, y1]; dsimp only; rw [z1]; rfl, ?_⟩
  rw [← z4, ← x3, ← z3]
  exact h.alloc v z2

theorem Agree.inplace (h : Agree sz Γ s) (op : ℝ → ℝ → ℝ) {a b : K} {ra rb : Ref F} {n m : ℕ} (ha : Γ.Has a ra n) (hb : Γ.Has b rb m) (ht : ra.ty = rb.ty)
    (hn : m = n ∨ m = 1) (hsep : ra.separate sz rb) : ∃ s1, s.inplace sz op a b = some s1 ∧ Agree sz Γ s1 := by
  obtain ⟨x, x0, xd, x1, x2, x3, rfl⟩ := h.has ha
  obtain ⟨y, y0, yd, y1, y2, y3, rfl⟩ := h.has hb
  obtain ⟨v, hv, lv⟩ := expand_some x.n y.plain hn
  have lv : v.length = typeSize sz ra.ty := by rw [ht, ← y3]; exact lv.trans y2.2
  have lx : x.x.data.length = typeSize sz ra.ty := by rw [← x3]; exact x2.2
  obtain ⟨s1, w1, -, w3⟩ := h.write ha (d := List.zipWith (fun f h q => op (f q) (h q)) x.x.data v) (by simp [lv, lx])
  refine ⟨s1, ?_, w3⟩
  rw [Mem.inplace, x0, y0]
  dsimp only
  rw [xd, yd]
  dsimp only
  rw [if_pos hsep, inE, if_pos (by rw [x3, y3, ht]), hv]
  exact w1

theorem Agree.bindVars (h : Agree sz Γ s) (l : List (K × Ref F)) (hl : ∀ H, Typed sz H s → ∀ p ∈ l, RefOk sz H p.2) :
    Agree sz (Γ.bindVars l) (s.bindVars l) := by
  obtain ⟨H, hs⟩ := h.typed
  refine ⟨⟨H, (bindVars_act (ρ := fun _ => Mat.one) (τ := ⟨false, false, false⟩) l (hl H hs) hs).1⟩, ?_, ?_⟩
  · have e1 : ∀ Γ : Ctx F K, (Γ.bindVars l).sizes = Γ.sizes := by
      clear * -
      induction l with
      | nil => exact fun _ => rfl
      | cons p l ih => exact fun Γ => ih _
    have e2 : ∀ s : Mem F B K, (s.bindVars l).heap = s.heap := by
      clear * -
      induction l with
      | nil => exact fun _ => rfl
      | cons p l ih => exact fun Γ => ih _
    rw [e1, e2, h.sizes]
  · have : ∀ (Γ : Ctx F K) (s : Mem F B K), Γ.env = s.env → (Γ.bindVars l).env = (s.bindVars l).env := by
      clear * -
      induction l with
      | nil => exact fun _ _ h => h
      | cons p l ih => exact fun Γ s h => ih _ _ (by simp [Ctx.bindVar, Mem.bindVar, h])
    exact this _ _ h.env

theorem reads_some (h : Agree sz Γ s) {n : ℕ} {us : List K} {rs : List (Ref F)} (hus : List.Forall₂ (fun u r => Γ.Has u r n) us rs) :
    ∃ xs ys, us.mapM (s.read sz) = some xs ∧ xs.mapM (ETensor.sized n) = some ys ∧ (∀ y ∈ ys, y.WF sz) ∧ ys.flatMap GTensor.ty = rs.flatMap Ref.ty ∧
      (∀ x ∈ xs, x.n = n) ∧ ys.length = us.length ∧ xs.length = us.length := by
  induction hus with
  | nil => exact ⟨[], [], rfl, rfl, by simp, rfl, by simp, rfl, rfl⟩
  | cons hu _ ih =>
    obtain ⟨xs, ys, h1, h2, h3, h4, h5, h6, h7⟩ := ih
    obtain ⟨⟨k, x⟩, -, -, x1, x2, x3, x4⟩ := h.has hu
    obtain rfl : k = n := x4
    refine ⟨⟨k, x⟩ :: xs, x :: ys, ?_, ?_, ?_, ?_, ?_, by simp [h6], by simp [h7]⟩
    · rw [List.mapM_cons, x1, h1]
      rfl
    · rw [List.mapM_cons, h2]
      have : ETensor.sized k (⟨k, x⟩ : ETensor F B) = some x := dif_pos rfl
      rw [this]
      rfl
    · intro y hy
      rcases List.mem_cons.1 hy with rfl | hy
      · exact x2
      · exact h3 y hy
    · rw [List.flatMap_cons, List.flatMap_cons, h4, ← x3]
    · intro y hy
      rcases List.mem_cons.1 hy with rfl | hy
      · rfl
      · exact h5 y hy

theorem Agree.directsum (h : Agree sz Γ s) (v : K) {n : ℕ} {us : List K} {rs : List (Ref F)} (hne : us ≠ [])
    (hus : List.Forall₂ (fun u r => Γ.Has u r n) us rs) :
    ∃ s1, ((us.mapM (s.read sz)).bind (directsumE sz)).map (s.alloc v) = some s1 ∧ Agree sz (Γ.alloc v n (rs.flatMap Ref.ty)) s1 := by
  obtain ⟨xs, ys, h1, h2, h3, h4, h5, h6, h7⟩ := reads_some h hus
  have hys : ys ≠ [] := by
    rintro rfl
    exact hne (List.length_eq_zero_iff.1 h6.symm)
  obtain ⟨e1, e2⟩ := directsumGT_eq sz ys hys h3
  cases xs with
  | nil => exact absurd (List.length_eq_zero_iff.1 h7.symm) hne
  | cons x xs =>
    obtain rfl : x.n = n := h5 x (by simp)
    refine ⟨s.alloc v ⟨x.n, ys.flatMap GTensor.ty, ys.flatMap GTensor.data⟩, ?_, ?_⟩
    · rw [h1, Option.bind_some, directsumE, h2, Option.bind_some, e1]
      rfl
    · rw [← h4]
      exact h.alloc v (y := ⟨x.n, ys.flatMap GTensor.ty, ys.flatMap GTensor.data⟩) e2

end agree

/-- A correct statement runs. -/
theorem stmt_types (hS : NetSpace Sp rep built) {Γ Δ : Ctx F K} {s : Mem F B K} (h : Agree (fun r => (rep r).size) Γ s) (st : Stmt F A I K)
    (ht : st.Types Sp rep built Γ Δ) {junk : (c n : ℕ) → List (Pix B n → ℝ)} (hj : JunkOk junk) :
    st.Ok Sp rep built s ∧ ∃ s1, st.run rep junk s = some s1 ∧ Agree (fun r => (rep r).size) Δ s1 := by
  cases st with
  | assign v u =>
    obtain ⟨r, hr, rfl⟩ := ht
    have he : s.env u = some r := by rw [← h.env]; exact hr
    exact ⟨trivial, _, by rw [Stmt.run, he]; rfl, h.bindVar v ⟨u, he⟩⟩
  | call v l inplace u =>
    obtain ⟨r, n, m, hr, hty, hl, rfl⟩ := ht
    obtain ⟨x, x0, xd, x1, x2, x3, rfl⟩ := h.has hr
    refine ⟨⟨x, m, x1, x3.trans hty, hl⟩, ?_⟩
    obtain ⟨y, y1, y2, y3, y4, -⟩ := layer_step hS l hl x.x x2 (x3.trans hty)
    have e1 : l.forward rep junk x = some y := y4 junk hj
    simp only [Stmt.run, x0, xd, e1]
    by_cases c1 : l.returnsInput = true
    · rw [if_pos c1, if_pos (by simp [c1])]
      exact ⟨_, rfl, h.bindVar v ⟨u, x0⟩⟩
    · rw [if_neg c1]
      by_cases c2 : (inplace && l.canInplace) = true
      · rw [if_pos c2, if_pos (by rw [c2]; simp)]
        have hcl : l.canInplace = true := (Bool.and_eq_true_iff.1 c2).2
        have hmn : m = x.n ∧ l.outTy = l.inTy := by
          cases l <;> simp only [Layer.canInplace, Bool.false_eq_true] at hcl
          exact ⟨hl.1, rfl⟩
        have hyt : y.x.ty = r.ty := by rw [y3, hmn.2, hty]
        have hn : y.n = x.n := y1.trans hmn.1
        obtain ⟨s1, w1, w2, w3⟩ := h.write (d := y.x.data) (n := y.n) (by rw [hn]; exact hr) (by rw [← hyt]; exact y2.2)
        refine ⟨s1.bindVar v r, ?_, w3.bindVar v ⟨u, by rw [w2]; exact x0⟩⟩
        change Option.map _ (s.write r ⟨y.n, y.x.data⟩) = _
        rw [w1, hyt]
        rfl
      · rw [if_neg c2, if_neg (by simpa [c1] using c2)]
        refine ⟨_, rfl, ?_⟩
        rw [← y3, ← y1]
        exact h.alloc v y2
  | add v a b =>
    obtain ⟨ra, rb, n, m, ha, hb, h1, h2, rfl⟩ := ht
    exact ⟨trivial, h.bin (· + ·) ha hb h1 h2⟩
  | sub v a b =>
    obtain ⟨ra, rb, n, m, ha, hb, h1, h2, rfl⟩ := ht
    exact ⟨trivial, h.bin (· - ·) ha hb h1 h2⟩
  | mul v a c =>
    obtain ⟨r, n, ha, rfl⟩ := ht
    obtain ⟨x, x0, xd, x1, x2, x3, rfl⟩ := h.has ha
    refine ⟨trivial, ?_⟩
    have hw : (⟨x.n, x.x.ty, x.x.data.map fun f q => f q * c⟩ : ETensor F B).x.WF fun r => (rep r).size := ⟨x2.1, by simpa using x2.2⟩
    refine ⟨s.alloc v ⟨x.n, x.x.ty, x.x.data.map fun f q => f q * c⟩, ?_, ?_⟩
    · simp only [Stmt.run, x1, mulE]
      rw [mkE, mkGT, if_pos (by simpa using x2.2)]
      rfl
    · rw [← x3]
      exact h.alloc v hw
  | iadd a b =>
    obtain ⟨ra, rb, n, m, ha, hb, h1, h2, h3, rfl⟩ := ht
    exact ⟨trivial, h.inplace (· + ·) ha hb h1 h2 h3⟩
  | isub a b =>
    obtain ⟨ra, rb, n, m, ha, hb, h1, h2, h3, rfl⟩ := ht
    exact ⟨trivial, h.inplace (· - ·) ha hb h1 h2 h3⟩
  | imul a c =>
    obtain ⟨r, ha, rfl⟩ := ht
    obtain ⟨n, hr⟩ := h.ofEnv ha
    obtain ⟨x, x0, xd, x1, x2, x3, rfl⟩ := h.has hr
    refine ⟨trivial, ?_⟩
    obtain ⟨s1, w1, -, w3⟩ := h.write hr (d := x.x.data.map fun f q => f q * c) (by rw [← x3]; simpa using x2.2)
    exact ⟨s1, by simp only [Stmt.run, x0, xd]; exact w1, w3⟩
  | split vs u breaks =>
    obtain ⟨r, ys, hr, hy, hlen, rfl⟩ := ht
    have he : s.env u = some r := by rw [← h.env]; exact hr
    refine ⟨trivial, s.bindVars (vs.zip (ys.map fun y => (⟨r.addr, y.data.head?.getD 0, y.ty⟩ : Ref F))), ?_, ?_⟩
    · simp only [Stmt.run, he, hy]
      rw [if_pos hlen]
    refine h.bindVars _ fun H hs p hp => ?_
    obtain ⟨y, hy', e⟩ := List.mem_map.1 (List.of_mem_zip hp).2
    rw [← e]
    exact split_refs hS.pos (hs.ref u r he) breaks ys hy y hy'
  | directsum v us =>
    obtain ⟨n, rs, hne, hus, rfl⟩ := ht
    exact ⟨trivial, h.directsum v hne hus⟩

theorem prog_types (hS : NetSpace Sp rep built) (prog : List (Stmt F A I K)) {junk : ℕ → (c n : ℕ) → List (Pix B n → ℝ)} (hj : ∀ k, JunkOk (junk k))
    {Γ Δ : Ctx F K} {s : Mem F B K} (h : Agree (fun r => (rep r).size) Γ s) (ht : ProgTypes Sp rep built prog Γ Δ) :
    ProgOk Sp rep built junk prog s ∧ ∃ s1, runProg rep junk prog s = some s1 ∧ Agree (fun r => (rep r).size) Δ s1 := by
  induction prog generalizing Γ s with
  | nil =>
    obtain rfl := ht
    exact ⟨trivial, s, rfl, h⟩
  | cons st p ih =>
    obtain ⟨Γ', h1, h2⟩ := ht
    obtain ⟨e1, s', e2, e3⟩ := stmt_types hS h st h1 (hj p.length)
    obtain ⟨f1, s1, f2, f3⟩ := ih e3 h2
    exact ⟨⟨e1, s', e2, f1⟩, s1, by rw [runProg, e2]; exact f2, f3⟩

theorem init_types {sz : F → ℕ} (xs : List (K × ETensor F B)) (hx : ∀ x ∈ xs, x.2.x.WF sz) :
    Agree sz (Ctx.init (xs.map fun x => (x.1, x.2.n, x.2.x.ty))) (Mem.init xs) := by
  have key : ∀ (Γ : Ctx F K) (s : Mem F B K), Agree sz Γ s →
      Agree sz ((xs.map fun x => (x.1, x.2.n, x.2.x.ty)).foldl (fun Γ x => Γ.alloc x.1 x.2.1 x.2.2) Γ) (xs.foldl (fun s x => s.alloc x.1 x.2) s) := by
    induction xs with
    | nil => exact fun _ _ h => h
    | cons x xs ih => exact fun Γ s h => ih (fun y hy => hx y (by simp [hy])) _ _ (h.alloc x.1 (hx x (by simp)))
  exact key _ _ ⟨⟨[], rfl, by simp, by simp⟩, rfl, rfl⟩

/-- **C71, by types and sizes**: a program which is correct for the types and the sizes of its inputs runs to its end on all inputs of these types and sizes,
every variable holds at the end a tensor of the expected type and size, and for every element of the group which permutes the pixels the program started on the
transformed inputs ends with the transformed tensors in all variables, whatever the contents of new memory. -/
theorem c71_types (hS : NetSpace Sp rep built) (prog : List (Stmt F A I K)) (ins : List (K × ℕ × List F)) (Δ : Ctx F K)
    (ht : ProgTypes Sp rep built prog (Ctx.init ins) Δ) (xs : List (K × ETensor F B)) (hx : ∀ x ∈ xs, x.2.x.WF fun r => (rep r).size)
    (hin : xs.map (fun x => (x.1, x.2.n, x.2.x.ty)) = ins) (junk : ℕ → (c n : ℕ) → List (Pix B n → ℝ)) (hj : ∀ k, JunkOk (junk k)) :
    ∃ s, runProg rep junk prog (Mem.init xs) = some s ∧
      (∀ v r n, Δ.Has v r n → ∃ y, s.read (fun r => (rep r).size) v = some y ∧ y.n = n ∧ y.x.ty = r.ty) ∧
      ∀ g, Sp.G.isEl g → Sp.grid g → ∀ junk' : ℕ → (c n : ℕ) → List (Pix B n → ℝ), (∀ k, JunkOk (junk' k)) →
        ∃ s', runProg rep junk' prog (Mem.init (xs.map fun x => (x.1, x.2.act Sp rep g))) = some s' ∧
          ∀ v, s'.read (fun r => (rep r).size) v = (s.read (fun r => (rep r).size) v).map (ETensor.act Sp rep g) := by
  subst hin
  obtain ⟨h1, s1, h2, h3⟩ := prog_types hS prog hj (init_types xs hx) ht
  obtain ⟨s, e1, e2⟩ := c71_program hS prog xs hx junk hj h1
  obtain rfl : s1 = s := Option.some.inj (h2.symm.trans e1)
  refine ⟨s1, e1, fun v r n hv => ?_, e2⟩
  obtain ⟨y, -, -, y1, -, y3, y4⟩ := h3.has hv
  exact ⟨y, y1, y4, y3⟩

end

/-! ### Operations in place and shared memory -/

/-- Two tensors have no channel in common. -/
def Ref.Disjoint (sz : F → ℕ) (a b : Ref F) : Prop := a.addr ≠ b.addr ∨ a.off + typeSize sz a.ty ≤ b.off ∨ b.off + typeSize sz b.ty ≤ a.off

/-- The first tensor is a piece of the second. -/
def Ref.Within (sz : F → ℕ) (a b : Ref F) : Prop := a.addr = b.addr ∧ b.off ≤ a.off ∧ a.off + typeSize sz a.ty ≤ b.off + typeSize sz b.ty

/-- The states before and after the value `z` is written in the memory of the tensor `r`: the variables of this tensor have the value `z`, the variables of its
pieces have the channels of `z` at their places, and the variables of tensors without a common channel keep their values. -/
def Overwritten (sz : F → ℕ) (r : Ref F) (z : ETensor F B) (s s1 : Mem F B K) : Prop :=
  (∀ v, s.env v = some r → s1.read sz v = some z) ∧
  (∀ v a, s.env v = some a → a.Within sz r →
    s1.read sz v = (mkGT sz ((z.x.data.drop (a.off - r.off)).take (typeSize sz a.ty)) a.ty).map fun x => ⟨z.n, x⟩) ∧
  ∀ v a, s.env v = some a → a.Disjoint sz r → s1.read sz v = s.read sz v

theorem deref_some {sz : F → ℕ} {s : Mem F B K} {r : Ref F} {x : ETensor F B} (h : s.deref sz r = some x) :
    ∃ p, s.heap[r.addr]? = some p ∧ p.n = x.n ∧ x.x.ty = r.ty ∧ x.x.data.length = typeSize sz r.ty ∧ (typeSize sz r.ty = 0 ∨ r.off + typeSize sz r.ty ≤ p.chans.length) := by
  unfold Mem.deref at h
  cases hp : s.heap[r.addr]? with
  | none => simp [hp] at h
  | some p =>
    rw [hp] at h
    dsimp only at h
    unfold mkGT at h
    split_ifs at h with hl
    · obtain rfl := Option.some.inj h
      refine ⟨p, rfl, rfl, rfl, hl, ?_⟩
      simp at hl
      omega
    · simp at h

theorem write_over {sz : F → ℕ} {s s1 : Mem F B K} {r : Ref F} {x : ETensor F B} (hx : s.deref sz r = some x) {d : List (Pix B x.n → ℝ)}
    (hd : d.length = typeSize sz r.ty) (h : s.write r ⟨x.n, d⟩ = some s1) : s1.env = s.env ∧ Overwritten sz r ⟨x.n, r.ty, d⟩ s s1 := by
  obtain ⟨p, hp, hpn, hty, hxl, hlen⟩ := deref_some hx
  obtain ⟨n, t, e⟩ := x
  obtain ⟨n', c⟩ := p
  obtain rfl : n' = n := hpn
  rw [Mem.write, hp] at h
  dsimp only at h d hd hlen
  rw [dif_pos rfl] at h
  obtain rfl := Option.some.inj h
  have hb : r.addr < s.heap.length := (List.getElem?_eq_some_iff.1 hp).1
  have hw : ∀ v a, s.env v = some a → a.Within sz r →
      (⟨s.heap.set r.addr ⟨n', c.take r.off ++ d ++ c.drop (r.off + d.length)⟩, s.env⟩ : Mem F B K).read sz v
        = (mkGT sz ((d.drop (a.off - r.off)).take (typeSize sz a.ty)) a.ty).map fun x => ⟨n', x⟩ := by
    intro v a hv ⟨h1, h2, h3⟩
    simp only [Mem.read, hv, Mem.deref]
    rw [h1, List.getElem?_set_self hb]
    dsimp only
    refine congrArg (fun l => Option.map (fun x => (⟨n', x⟩ : ETensor F B)) (mkGT sz l a.ty)) ?_
    by_cases h0 : typeSize sz a.ty = 0
    · rw [h0, List.take_zero, List.take_zero]
    · have hle : r.off + typeSize sz r.ty ≤ c.length := hlen.resolve_left (by omega)
      have e1 : (c.take r.off).length = r.off := by rw [List.length_take]; omega
      rw [List.append_assoc, List.drop_append, List.drop_eq_nil_of_le (by omega), List.nil_append, e1, List.drop_append_of_le_length (by omega),
        List.take_append_of_le_length (by rw [List.length_drop]; omega)]
  refine ⟨rfl, fun v hv => ?_, hw, fun v a hv hdis => ?_⟩
  · refine (hw v r hv ⟨rfl, le_refl _, le_refl _⟩).trans ?_
    rw [Nat.sub_self, List.drop_zero, List.take_of_length_le (by omega), mkGT, if_pos hd]
    rfl
  · simp only [Mem.read, hv, Mem.deref]
    by_cases ha : r.addr = a.addr
    · rw [← ha, List.getElem?_set_self hb, hp]
      dsimp only
      refine congrArg (fun l => Option.map (fun x => (⟨n', x⟩ : ETensor F B)) (mkGT sz l a.ty)) ?_
      by_cases h0 : typeSize sz r.ty = 0
      · rw [List.eq_nil_of_length_eq_zero (hd.trans h0), List.append_nil, List.length_nil, Nat.add_zero, List.take_append_drop]
      · have hle : r.off + typeSize sz r.ty ≤ c.length := hlen.resolve_left (by omega)
        have e1 : (c.take r.off).length = r.off := by rw [List.length_take]; omega
        apply List.ext_getElem?
        intro i
        rw [List.getElem?_take, List.getElem?_take]
        split_ifs with hi
        · rw [List.getElem?_drop, List.getElem?_drop]
          rcases hdis with h | h | h
          · exact absurd ha.symm h
          · rw [List.append_assoc, List.getElem?_append_left (by omega), List.getElem?_take, if_pos (by omega)]
          · rw [List.getElem?_append_right (by rw [List.length_append]; omega), List.length_append, e1, List.getElem?_drop]
            congr 1
            omega
        · rfl
    · rw [List.getElem?_set_ne ha]

theorem expand_self (x : ETensor F B) : expand x.n x.plain = some x.x.data := dif_pos rfl

/-- `+=` and `-=` write what `+` and `-` return. -/
theorem inplace_over {sz : F → ℕ} (op : ℝ → ℝ → ℝ) {s s1 : Mem F B K} {a b : K} {ra : Ref F} (ha : s.env a = some ra) (h : s.inplace sz op a b = some s1) :
    ∃ x y z, s.read sz a = some x ∧ s.read sz b = some y ∧ binE sz op x y = some z ∧ s1.env = s.env ∧ Overwritten sz ra z s s1 := by
  unfold Mem.inplace at h
  rw [ha] at h
  cases hb : s.env b with
  | none => simp [hb] at h
  | some rb =>
    rw [hb] at h
    dsimp only at h
    cases hx : s.deref sz ra with
    | none => simp [hx] at h
    | some x =>
      cases hy : s.deref sz rb with
      | none => simp [hx, hy] at h
      | some y =>
        rw [hx, hy] at h
        dsimp only at h
        split_ifs at h with hsep
        unfold inE at h
        split_ifs at h with ht
        · cases hv : expand x.n y.plain with
          | none => simp [hv] at h
          | some v =>
            rw [hv, Option.map_some, Option.bind_some] at h
            obtain ⟨-, -, -, x3, x4, -⟩ := deref_some hx
            obtain ⟨-, -, -, y3, y4, -⟩ := deref_some hy
            have hyn : y.n = x.n ∨ y.n = 1 := by
              unfold expand at hv
              split_ifs at hv with h1 h2
              · exact .inl h1
              · exact .inr h2
            have hvl : v.length = typeSize sz ra.ty := by
              obtain ⟨u, hu, lu⟩ := expand_some x.n y.plain hyn
              obtain rfl : u = v := Option.some.inj (hu.symm.trans hv)
              rw [lu, ← x3, ht, y3]
              exact y4
            have hd : (List.zipWith (fun f h q => op (f q) (h q)) x.x.data v).length = typeSize sz ra.ty := by simp [hvl, x4]
            obtain ⟨w1, w2⟩ := write_over hx hd h
            refine ⟨x, y, _, by rw [Mem.read, ha]; exact hx, by rw [Mem.read, hb]; exact hy, ?_, w1, w2⟩
            have hN : (if x.n = 1 then y.n else x.n) = x.n := by split_ifs <;> omega
            have e : mkGT sz (List.zipWith (fun f h q => op (f q) (h q)) x.x.data v) x.x.ty
                = some ⟨ra.ty, List.zipWith (fun f h q => op (f q) (h q)) x.x.data v⟩ := by
              rw [mkGT, if_pos (by rw [x3]; exact hd), x3]
            rw [binE, if_pos ht, hN, binN, expand_self, hv]
            dsimp only
            rw [mkE, e]
            rfl
        · simp at h

/-- **C71, overlapping memory**: addition and subtraction in place have no result when the two tensors share a part of their memory but not all of it. -/
theorem c71_overlap (rep : F → Repr El) (junk : (c n : ℕ) → List (Pix B n → ℝ)) (s : Mem F B K) (a b : K) (ra rb : Ref F) (ha : s.env a = some ra)
    (hb : s.env b = some rb) (haddr : ra.addr = rb.addr) (i : ℕ)
    (hi : ra.off ≤ i ∧ i < ra.off + typeSize (fun r => (rep r).size) ra.ty ∧ rb.off ≤ i ∧ i < rb.off + typeSize (fun r => (rep r).size) rb.ty)
    (hne : ra.off ≠ rb.off) :
    (Stmt.iadd a b : Stmt F A I K).run rep junk s = none ∧ (Stmt.isub a b : Stmt F A I K).run rep junk s = none := by
  have h : ¬ ra.separate (fun r => (rep r).size) rb := by
    rintro (h | h | h | h)
    · exact h haddr
    · exact hne h
    · omega
    · omega
  constructor <;>
  · simp only [Stmt.run, Mem.inplace, ha, hb]
    cases s.deref (fun r => (rep r).size) ra with
    | none => rfl
    | some x =>
      cases s.deref (fun r => (rep r).size) rb with
      | none => rfl
      | some y => exact if_neg h

/-- **C71, operations in place**: if `a += b`, `a -= b`, `a *= c` or a call of ReLU or ELU with `inplace` returns, then the memory of `a` holds the value of
`a + b`, `a - b`, `a * c` or of the module; all variables which hold the same tensor or pieces of it see the new values, and tensors without a common channel
are not changed. -/
theorem c71_inplace (rep : F → Repr El) (junk : (c n : ℕ) → List (Pix B n → ℝ)) (s s1 : Mem F B K) (a : K) (ra : Ref F) (ha : s.env a = some ra) :
    (∀ b, (Stmt.iadd a b : Stmt F A I K).run rep junk s = some s1 → ∃ x y z, s.read (fun r => (rep r).size) a = some x ∧
      s.read (fun r => (rep r).size) b = some y ∧ binE (fun r => (rep r).size) (· + ·) x y = some z ∧ s1.env = s.env ∧
      Overwritten (fun r => (rep r).size) ra z s s1) ∧
    (∀ b, (Stmt.isub a b : Stmt F A I K).run rep junk s = some s1 → ∃ x y z, s.read (fun r => (rep r).size) a = some x ∧
      s.read (fun r => (rep r).size) b = some y ∧ binE (fun r => (rep r).size) (· - ·) x y = some z ∧ s1.env = s.env ∧
      Overwritten (fun r => (rep r).size) ra z s s1) ∧
    (∀ c, (Stmt.imul a c : Stmt F A I K).run rep junk s = some s1 → ∃ x z, s.read (fun r => (rep r).size) a = some x ∧
      mulE (fun r => (rep r).size) c x = some z ∧ s1.env = s.env ∧ Overwritten (fun r => (rep r).size) ra z s s1) ∧
    ∀ v t f, (Stmt.call v (.pointwise t f) true a : Stmt F A I K).run rep junk s = some s1 → ∃ x z s2, s.read (fun r => (rep r).size) a = some x ∧
      (Layer.pointwise t f : Layer F A I).forward rep junk x = some z ∧ s2.env = s.env ∧ Overwritten (fun r => (rep r).size) ra z s s2 ∧ s1 = s2.bindVar v ra := by
  refine ⟨fun b h => inplace_over (· + ·) ha h, fun b h => inplace_over (· - ·) ha h, fun c h => ?_, fun v t f h => ?_⟩
  · simp only [Stmt.run, ha] at h
    cases hx : s.deref (fun r => (rep r).size) ra with
    | none => simp [hx] at h
    | some x =>
      rw [hx] at h
      dsimp only at h
      obtain ⟨-, -, -, x3, x4, -⟩ := deref_some hx
      have hd : (x.x.data.map fun f q => f q * c).length = typeSize (fun r => (rep r).size) ra.ty := by simpa using x4
      obtain ⟨w1, w2⟩ := write_over hx hd h
      refine ⟨x, _, by rw [Mem.read, ha]; exact hx, ?_, w1, w2⟩
      rw [mulE, mkE, mkGT, if_pos (by rw [x3]; exact hd), x3]
      rfl
  · simp only [Stmt.run, ha] at h
    cases hx : s.deref (fun r => (rep r).size) ra with
    | none => simp [hx] at h
    | some x =>
      rw [hx] at h
      dsimp only at h
      cases hz : (Layer.pointwise t f : Layer F A I).forward rep junk x with
      | none => simp [hz] at h
      | some z =>
        rw [hz] at h
        dsimp only at h
        rw [if_neg (by simp [Layer.returnsInput]), if_pos (by simp [Layer.canInplace])] at h
        obtain ⟨-, -, -, x3, x4, -⟩ := deref_some hx
        have hz' := hz
        simp only [Layer.forward, pointwise] at hz
        split_ifs at hz with ht
        · rw [mkGT, if_pos (by rw [← ht, x3]; simpa using x4)] at hz
          obtain rfl := Option.some.inj hz
          have hd : (x.x.data.map fun v p => f (v p)).length = typeSize (fun r => (rep r).size) ra.ty := by simpa using x4
          have ht' : t = ra.ty := ht.symm.trans x3
          cases hw : s.write ra ⟨x.n, x.x.data.map fun v p => f (v p)⟩ with
          | none => simp [ETensor.plain, hw] at h
          | some s2 =>
            obtain ⟨w1, w2⟩ := write_over hx hd hw
            simp only [ETensor.plain, hw, Option.map_some, Option.some.injEq] at h
            refine ⟨x, _, s2, by rw [Mem.read, ha]; exact hx, hz', w1, ?_, ?_⟩
            · rw [ht']
              exact w2
            · rw [← h, ht']
        · simp at hz

/-! ### A concrete program -/

variable (interp : ℝ → Img → Img)

/-- The variables of the example. -/
inductive ExVar | x | xn | out | sc | u | v | cat | d
  deriving DecidableEq

open ExVar in
/-- A residual block for `C_4`: a norm nonlinearity, a convolution with stride 2, a shortcut by another convolution, and their sum in place.  Then the input is
split into views of its two fields, the first is changed in place, and they are concatenated in the other order; the difference with a multiple is taken. -/
noncomputable def exProg (w w' : List ℝ) (f f' : ℝ → ℝ) (bias : List ℝ) :
    List (Stmt ℕ (Option (PolarAttr ((ℝ × ℝ) × ℕ) (SBasis.Attr ℤ AngElem))) (Option (ℕ × ℕ × ℝ × ℕ)) ExVar) :=
  [.call xn (.norm [0, 1] f 0 bias) false x, .call out (.conv exCfg exBasis [0, 1] [1] w []) false xn, .call sc (.conv exCfg exBasis [0, 1] [1] w' []) false x,
    .iadd out sc, .split [u, v] x none, .call u (.pointwise [0] f') true u, .directsum cat [v, u], .mul d out 2, .sub d d out]

theorem exRep_perm (g : ℤ) (hg : (Cyclic.grp 4).isEl g) : IsPerm (exRep 0).size ((exRep 0).mat g) := by
  obtain ⟨h1, h2⟩ := exRep_trivial g hg
  refine ⟨Equiv.refl _, fun i j => ?_⟩
  have hi : (i : ℕ) = 0 := by have := i.2; omega
  have hj : (j : ℕ) = 0 := by have := j.2; omega
  rw [hi, hj, h2, if_pos (Fin.ext (by simp [hi, hj]))]

open Classical ExVar in
/-- The hypotheses of `c71_types` are met: on images with `5 × 5` pixels this program is equivariant under the rotation by a right angle, for all weights,
functions and biases; `out` has `3 × 3` pixels, `cat` has the type `[1, 0]` and `5 × 5` pixels. -/
example (w w' : List ℝ) (hw : w.length = (exCfg.exp exRep [0, 1] [1] exBasis).dimension) (hw' : w'.length = (exCfg.exp exRep [0, 1] [1] exBasis).dimension)
    (f f' : ℝ → ℝ) (bias : List ℝ) (y : GTensor ℕ (Pix (Fin 7) 5 → ℝ)) (hy : y.ty = [0, 1] ∧ y.data.length = 3)
    (junk : ℕ → (c n : ℕ) → List (Pix (Fin 7) n → ℝ)) (hj : ∀ k, JunkOk (junk k)) :
    ∃ s s', runProg exRep junk (exProg w w' f f' bias) (Mem.init [(x, ⟨5, y⟩)]) = some s ∧
      runProg exRep junk (exProg w w' f f' bias) (Mem.init [(x, ETensor.act (rotSpace interp 4) exRep 1 ⟨5, y⟩)]) = some s' ∧
      (∃ z, s.read (fun r => (exRep r).size) out = some z ∧ z.n = 3 ∧ z.x.ty = [1]) ∧
      (∃ z, s.read (fun r => (exRep r).size) cat = some z ∧ z.n = 5 ∧ z.x.ty = [1, 0]) ∧
      ∀ v, s'.read (fun r => (exRep r).size) v = (s.read (fun r => (exRep r).size) v).map (ETensor.act (rotSpace interp 4) exRep 1) := by
  have hS := c62_cyclic (F := ℕ) (A := Option (PolarAttr ((ℝ × ℝ) × ℕ) (SBasis.Attr ℤ AngElem))) (I := Option (ℕ × ℕ × ℝ × ℕ)) interp 4 (by omega) exRep exRep_ok
    (fun r => by rw [exRep_size]; split_ifs <;> omega)
  have hsz : (fun r => (exRep r).size) = fun r => if r = 0 then 1 else 2 := funext exRep_size
  have hd : (exCfg.exp exRep [0, 1] [1] exBasis).nPairs = 2 := rfl
  have hconv : ∀ w : List ℝ, w.length = (exCfg.exp exRep [0, 1] [1] exBasis).dimension →
      (Layer.conv exCfg exBasis [0, 1] [1] w []).Ok (rotSpace interp 4) exRep (builtRot 4 exRep) 5 3 := fun w hw =>
    ⟨exInput, ⟨_, _, some 2, none, by simp, rfl⟩, Nat.one_pos, ⟨[0, 1], rfl, fun h => absurd (h.symm.trans hd) (by omega), hw⟩, trivial, rfl, by decide⟩
  have ht : ∃ Δ, ProgTypes (rotSpace interp 4) exRep (builtRot 4 exRep) (exProg w w' f f' bias) (Ctx.init [(x, 5, [0, 1])]) Δ ∧
      (∃ r, Δ.Has out r 3 ∧ r.ty = [1]) ∧ ∃ r, Δ.Has cat r 5 ∧ r.ty = [1, 0] := by
    refine ⟨_, ⟨_, ⟨⟨0, 0, [0, 1]⟩, 5, 5, ⟨rfl, rfl⟩, rfl, ⟨rfl, fun r _ => exRep_orth r⟩, rfl⟩, _, ⟨⟨1, 0, [0, 1]⟩, 5, 3, ⟨rfl, rfl⟩, rfl, hconv w hw, rfl⟩,
      _, ⟨⟨0, 0, [0, 1]⟩, 5, 3, ⟨rfl, rfl⟩, rfl, hconv w' hw', rfl⟩,
      _, ⟨⟨2, 0, [1]⟩, ⟨3, 0, [1]⟩, 3, 3, ⟨rfl, rfl⟩, ⟨rfl, rfl⟩, rfl, .inl rfl, .inl (by decide), rfl⟩,
      _, ⟨⟨0, 0, [0, 1]⟩, [⟨[0], [0]⟩, ⟨[1], [1, 2]⟩], rfl, by rw [hsz]; rfl, rfl, rfl⟩,
      _, ⟨⟨0, 0, [0]⟩, 5, 5, ⟨rfl, rfl⟩, rfl, ⟨rfl, fun r hr => List.mem_singleton.1 hr ▸ exRep_perm⟩, rfl⟩,
      _, ⟨5, [⟨0, 1, [1]⟩, ⟨0, 0, [0]⟩], by simp, .cons ⟨rfl, rfl⟩ (.cons ⟨rfl, rfl⟩ .nil), rfl⟩,
      _, ⟨⟨2, 0, [1]⟩, 3, ⟨rfl, rfl⟩, rfl⟩, _, ⟨⟨5, 0, [1]⟩, ⟨2, 0, [1]⟩, 3, 3, ⟨rfl, rfl⟩, ⟨rfl, rfl⟩, rfl, .inl rfl, rfl⟩, rfl⟩,
      ⟨⟨2, 0, [1]⟩, ⟨rfl, rfl⟩, rfl⟩, ⟨⟨4, 0, [1, 0]⟩, ⟨rfl, rfl⟩, rfl⟩⟩
  obtain ⟨Δ, h1, ⟨r, h2, h2'⟩, ⟨r', h3, h3'⟩⟩ := ht
  obtain ⟨s, e1, e2, e3⟩ := c71_types hS (exProg w w' f f' bias) _ Δ h1 [(x, ⟨5, y⟩)] (fun z hz => by
    obtain rfl : z = (x, ⟨5, y⟩) := by simpa using hz
    refine ⟨by simp [hy.1], ?_⟩
    change y.data.length = _
    rw [hy.1, hy.2, hsz]
    rfl) (by simp [hy.1]) junk hj
  obtain ⟨s', e4, e5⟩ := e3 1 rfl ⟨1, by norm_num; ring⟩ junk hj
  refine ⟨s, s', e1, e4, ?_, ?_, e5⟩
  · obtain ⟨z, z1, z2, z3⟩ := e2 out r 3 h2
    exact ⟨z, z1, z2, z3.trans h2'⟩
  · obtain ⟨z, z1, z2, z3⟩ := e2 cat r' 5 h3
    exact ⟨z, z1, z2, z3.trans h3'⟩

/-- The memory is shared: after `y = identity(x)` and `y *= 2`, also `x` has been doubled. -/
example (t : ETensor ℕ (Fin 1)) (ht : t.x.WF fun r => (exRep r).size) (junk : (c n : ℕ) → List (Pix (Fin 1) n → ℝ)) :
    ∃ s1 s2 z, (Stmt.call 1 (.identity t.x.ty) false 0 : Stmt ℕ ℕ ℕ ℕ).run exRep junk (Mem.init [(0, t)]) = some s1 ∧
      (Stmt.imul 1 2 : Stmt ℕ ℕ ℕ ℕ).run exRep junk s1 = some s2 ∧ mulE (fun r => (exRep r).size) 2 t = some z ∧
      s2.read (fun r => (exRep r).size) 0 = some z ∧ s2.read (fun r => (exRep r).size) 1 = some z := by
  have h := init_types (K := ℕ) (sz := fun r => (exRep r).size) [(0, t)] (by simpa using ht)
  have h0 : Ctx.Has (Ctx.init [((0 : ℕ), t.n, t.x.ty)]) 0 ⟨0, 0, t.x.ty⟩ t.n := ⟨rfl, rfl⟩
  obtain ⟨x, x0, xd, x1, x2, x3, x4⟩ := h.has h0
  have hx : x = t := by
    rw [Mem.deref] at xd
    simp only [Mem.init, List.foldl_cons, List.foldl_nil, Mem.alloc, List.nil_append, List.getElem?_cons_zero, ETensor.plain, List.drop_zero] at xd
    rw [List.take_of_length_le (le_of_eq ht.2), mkGT, if_pos ht.2] at xd
    exact (Option.some.inj xd).symm
  subst hx
  have h1 := h.bindVar 1 ⟨0, x0⟩
  have hid : (Layer.identity x.x.ty : Layer ℕ ℕ ℕ).forward exRep junk x = some x := by simp [Layer.forward]
  have hr1 : (Stmt.call 1 (.identity x.x.ty) false 0 : Stmt ℕ ℕ ℕ ℕ).run exRep junk (Mem.init [(0, x)]) = some ((Mem.init [(0, x)]).bindVar 1 ⟨0, 0, x.x.ty⟩) := by
    simp only [Stmt.run, x0, xd, hid, Layer.returnsInput, if_true]
  have h2 : Ctx.Has ((Ctx.init [((0 : ℕ), x.n, x.x.ty)]).bindVar 1 ⟨0, 0, x.x.ty⟩) 1 ⟨0, 0, x.x.ty⟩ x.n := ⟨rfl, rfl⟩
  obtain ⟨y, y0, yd, y1, y2, y3, y4⟩ := h1.has h2
  obtain rfl : y = x := Option.some.inj (yd.symm.trans xd)
  obtain ⟨s2, w1, -, -⟩ := h1.write h2 (d := y.x.data.map fun f q => f q * 2) (by simpa using y2.2)
  have hr2 : (Stmt.imul 1 2 : Stmt ℕ ℕ ℕ ℕ).run exRep junk ((Mem.init [(0, y)]).bindVar 1 ⟨0, 0, y.x.ty⟩) = some s2 := by
    simp only [Stmt.run, y0, yd]
    exact w1
  obtain ⟨x', z, hx', hz, -, ho, -⟩ := (c71_inplace (A := ℕ) (I := ℕ) exRep junk _ s2 1 _ y0).2.2.1 2 hr2
  obtain rfl : x' = y := Option.some.inj (hx'.symm.trans y1)
  exact ⟨_, s2, z, hr1, hr2, hz, ho 0 rfl, ho 1 rfl⟩

/-- `c71_overlap`: two views of one tensor, shifted by one field. -/
example (junk : (c n : ℕ) → List (Pix (Fin 2) n → ℝ)) (rep : ℕ → Repr ℤ) (hr : ∀ r, (rep r).size = 2) (d : List (Pix (Fin 2) 3 → ℝ)) :
    (Stmt.iadd "a" "b" : Stmt ℕ Unit Unit String).run rep junk
      ⟨[⟨3, d⟩], fun k => if k = "a" then some ⟨0, 0, [7, 7]⟩ else if k = "b" then some ⟨0, 2, [7, 7]⟩ else none⟩ = none :=
  (c71_overlap rep junk _ "a" "b" ⟨0, 0, [7, 7]⟩ ⟨0, 2, [7, 7]⟩ rfl rfl rfl 2 (by simp [typeSize, hr]) (by simp)).1

end E2
