import Verif.Model.Program
import Verif.Props.Network
import Verif.Props.Tensor

/-!
Lemmas for C71: the action on blocks of memory.
-/

set_option linter.unusedSectionVars false

namespace E2

open Finset Mat

variable {El F A I B K R P : Type}

theorem bdiag_append (l l' : List (ℕ × Mat)) (i j : ℕ) :
    bdiag (l ++ l') i j = if i < total l then (if j < total l then bdiag l i j else 0)
      else if j < total l then 0 else bdiag l' (i - total l) (j - total l) := by
  induction l generalizing i j with
  | nil => simp [total]
  | cons p l ih =>
    obtain ⟨n, A⟩ := p
    have ht : total ((n, A) :: l) = n + total l := by simp [total]
    rw [List.cons_append, ht]
    simp only [bdiag]
    by_cases hi : i < n
    · by_cases hj : j < n
      · simp only [hi, hj, if_true, show i < n + total l by omega, show j < n + total l by omega]
      · simp only [hi, hj, if_true, if_false, show i < n + total l by omega, ite_self]
    · by_cases hj : j < n
      · simp only [hi, hj, if_true, if_false, show j < n + total l by omega, ite_self]
      · simp only [hi, hj, if_false, ih, Nat.sub_sub, show (i - n < total l) = (i < n + total l) from propext (by omega),
          show (j - n < total l) = (j < n + total l) from propext (by omega)]

/-- The channels of a transformed tensor. -/
noncomputable def trD (sz : R → ℕ) (ρ : R → Mat) (π : P → P) (t : List R) (d : List (P → ℝ)) : List (P → ℝ) :=
  (GTensor.transform sz ρ π ⟨t, d⟩).data

section trD

variable {sz : R → ℕ} {ρ : R → Mat} {π : P → P}

theorem trD_length (t : List R) (d : List (P → ℝ)) : (trD sz ρ π t d).length = typeSize sz t := by
  simp [trD, GTensor.transform, GTensor.act, chAct_length]

theorem trD_get (t : List R) (d : List (P → ℝ)) {c : ℕ} (hc : c < typeSize sz t) :
    (trD sz ρ π t d)[c]? = some fun q => ∑ j ∈ range (typeSize sz t), bdiag (t.map fun r => (sz r, ρ r)) c j * (d[j]?.getD 0) (π q) := by
  rw [trD, GTensor.transform, GTensor.act, List.getElem?_map, chAct_get _ _ _ hc, Option.map_some]
  congr 1
  funext q
  simp [Finset.sum_apply, smul_eq_mul]

theorem trD_append (a b : List R) {da : List (P → ℝ)} (db : List (P → ℝ)) (hda : da.length = typeSize sz a) :
    trD sz ρ π (a ++ b) (da ++ db) = trD sz ρ π a da ++ trD sz ρ π b db := by
  have hs : typeSize sz (a ++ b) = typeSize sz a + typeSize sz b := by simp [typeSize]
  have ht : total (a.map fun r => (sz r, ρ r)) = typeSize sz a := by simp [total, typeSize, Function.comp_def]
  apply List.ext_getElem?
  intro c
  by_cases hc : c < typeSize sz (a ++ b)
  · rw [trD_get _ _ hc]
    by_cases h1 : c < typeSize sz a
    · rw [List.getElem?_append_left (by rw [trD_length]; exact h1), trD_get _ _ h1]
      congr 1
      funext q
      rw [hs, Finset.sum_range_add]
      have z : ∑ j ∈ range (typeSize sz b), bdiag ((a ++ b).map fun r => (sz r, ρ r)) c (typeSize sz a + j)
          * ((da ++ db)[typeSize sz a + j]?.getD 0) (π q) = 0 := by
        refine Finset.sum_eq_zero fun j _ => ?_
        rw [List.map_append, bdiag_append, ht, if_pos h1, if_neg (by omega), zero_mul]
      rw [z, add_zero]
      refine Finset.sum_congr rfl fun j hj => ?_
      have hj := Finset.mem_range.1 hj
      rw [List.map_append, bdiag_append, ht, if_pos h1, if_pos hj, List.getElem?_append_left (by omega)]
    · have h2 : c - typeSize sz a < typeSize sz b := by omega
      rw [List.getElem?_append_right (by rw [trD_length]; omega), trD_length, trD_get _ _ h2]
      congr 1
      funext q
      rw [hs, Finset.sum_range_add]
      have z : ∑ j ∈ range (typeSize sz a), bdiag ((a ++ b).map fun r => (sz r, ρ r)) c j * ((da ++ db)[j]?.getD 0) (π q) = 0 := by
        refine Finset.sum_eq_zero fun j hj => ?_
        have hj := Finset.mem_range.1 hj
        rw [List.map_append, bdiag_append, ht, if_neg h1, if_pos hj, zero_mul]
      rw [z, zero_add]
      refine Finset.sum_congr rfl fun j hj => ?_
      rw [List.map_append, bdiag_append, ht, if_neg h1, if_neg (by omega), Nat.add_sub_cancel_left, List.getElem?_append_right (by omega), hda,
        Nat.add_sub_cancel_left]
  · rw [List.getElem?_eq_none (by rw [trD_length]; omega), List.getElem?_eq_none (by rw [List.length_append, trD_length, trD_length]; omega)]

/-- A piece of the transformed channels. -/
theorem trD_piece (a t b : List R) {d : List (P → ℝ)} (hd : d.length = typeSize sz (a ++ t ++ b)) :
    ((trD sz ρ π (a ++ t ++ b) d).drop (typeSize sz a)).take (typeSize sz t)
      = trD sz ρ π t ((d.drop (typeSize sz a)).take (typeSize sz t)) := by
  have hs : typeSize sz (a ++ t ++ b) = typeSize sz a + typeSize sz t + typeSize sz b := by simp [typeSize, Nat.add_assoc]
  rw [hs] at hd
  obtain ⟨d1, d2, d3, rfl, h1, h2⟩ : ∃ d1 d2 d3, d = d1 ++ d2 ++ d3 ∧ d1.length = typeSize sz a ∧ d2.length = typeSize sz t := by
    refine ⟨d.take (typeSize sz a), (d.drop (typeSize sz a)).take (typeSize sz t), (d.drop (typeSize sz a)).drop (typeSize sz t), ?_, ?_, ?_⟩
    · simp [List.append_assoc]
    · simp; omega
    · simp; omega
  rw [trD_append _ _ _ (by simp [typeSize] at h1 h2 ⊢; omega), trD_append _ _ _ h1]
  rw [List.append_assoc, List.drop_left' (trD_length _ _), List.take_left' (trD_length _ _), List.append_assoc, List.drop_left' h1, List.take_left' h2]

/-- Writing new channels for a piece. -/
theorem trD_write (a t b : List R) {d y : List (P → ℝ)} (hd : d.length = typeSize sz (a ++ t ++ b)) (hy : y.length = typeSize sz t) :
    trD sz ρ π (a ++ t ++ b) (d.take (typeSize sz a) ++ y ++ d.drop (typeSize sz a + typeSize sz t))
      = (trD sz ρ π (a ++ t ++ b) d).take (typeSize sz a) ++ trD sz ρ π t y ++ (trD sz ρ π (a ++ t ++ b) d).drop (typeSize sz a + typeSize sz t) := by
  have hs : typeSize sz (a ++ t ++ b) = typeSize sz a + typeSize sz t + typeSize sz b := by simp [typeSize, Nat.add_assoc]
  rw [hs] at hd
  obtain ⟨d1, d2, d3, rfl, h1, h2⟩ : ∃ d1 d2 d3, d = d1 ++ d2 ++ d3 ∧ d1.length = typeSize sz a ∧ d2.length = typeSize sz t := by
    refine ⟨d.take (typeSize sz a), (d.drop (typeSize sz a)).take (typeSize sz t), (d.drop (typeSize sz a)).drop (typeSize sz t), ?_, ?_, ?_⟩
    · simp [List.append_assoc]
    · simp; omega
    · simp; omega
  have e12 : (d1 ++ d2).length = typeSize sz (a ++ t) := by simp [typeSize] at h1 h2 ⊢; omega
  have e12' : (d1 ++ y).length = typeSize sz (a ++ t) := by simp [typeSize] at h1 hy ⊢; omega
  have f1 : (d1 ++ d2 ++ d3).take (typeSize sz a) = d1 := by rw [List.append_assoc]; exact List.take_left' h1
  have f2 : (d1 ++ d2 ++ d3).drop (typeSize sz a + typeSize sz t) = d3 := List.drop_left' (by simp [h1, h2])
  rw [f1, f2, trD_append _ _ _ e12', trD_append _ _ _ h1, trD_append _ _ _ e12, trD_append _ _ _ h1]
  congr 1
  · congr 1
    rw [List.append_assoc]
    exact (List.take_left' (trD_length _ _)).symm
  · exact (List.drop_left' (by simp [trD_length])).symm

/-- Linear combinations of the channels of two tensors. -/
theorem trD_combine (t : List R) (k : ℝ) {u v : List (P → ℝ)} (hu : u.length = typeSize sz t) (hv : v.length = typeSize sz t) :
    trD sz ρ π t (List.zipWith (fun f h q => f q + k * h q) u v)
      = List.zipWith (fun f h q => f q + k * h q) (trD sz ρ π t u) (trD sz ρ π t v) := by
  apply List.ext_getElem?
  intro c
  by_cases hc : c < typeSize sz t
  · rw [trD_get _ _ hc, List.getElem?_zipWith, trD_get _ _ hc, trD_get _ _ hc]
    simp only [Option.some.injEq]
    funext q
    rw [Finset.mul_sum, ← Finset.sum_add_distrib]
    refine Finset.sum_congr rfl fun j hj => ?_
    have hj := Finset.mem_range.1 hj
    rw [List.getElem?_zipWith, List.getElem?_eq_getElem (by omega : j < u.length), List.getElem?_eq_getElem (by omega : j < v.length)]
    simp only [Option.getD_some]
    ring
  · rw [List.getElem?_eq_none (by rw [trD_length]; omega), List.getElem?_eq_none (by simp [trD_length]; omega)]

/-- Multiples of the channels of a tensor. -/
theorem trD_scale (t : List R) (k : ℝ) {u : List (P → ℝ)} (hu : u.length = typeSize sz t) :
    trD sz ρ π t (u.map fun f q => f q * k) = (trD sz ρ π t u).map fun f q => f q * k := by
  apply List.ext_getElem?
  intro c
  by_cases hc : c < typeSize sz t
  · rw [trD_get _ _ hc, List.getElem?_map, trD_get _ _ hc]
    simp only [Option.map_some, Option.some.injEq]
    funext q
    rw [Finset.sum_mul]
    refine Finset.sum_congr rfl fun j hj => ?_
    have hj := Finset.mem_range.1 hj
    rw [List.getElem?_map, List.getElem?_eq_getElem (by omega : j < u.length)]
    simp only [Option.map_some, Option.getD_some]
    ring
  · rw [List.getElem?_eq_none (by rw [trD_length]; omega), List.getElem?_eq_none (by simp [trD_length]; omega)]

/-- Concatenation of several tensors. -/
theorem trD_flatMap (ys : List (GTensor R (P → ℝ))) (hy : ∀ y ∈ ys, y.data.length = typeSize sz y.ty) :
    trD sz ρ π (ys.flatMap GTensor.ty) (ys.flatMap GTensor.data) = ys.flatMap fun y => trD sz ρ π y.ty y.data := by
  induction ys with
  | nil =>
    apply List.eq_nil_of_length_eq_zero
    simp [trD_length, typeSize]
  | cons y ys ih =>
    rw [List.flatMap_cons, List.flatMap_cons, List.flatMap_cons, trD_append _ _ _ (hy y (by simp)), ih fun z hz => hy z (by simp [hz])]

end trD

/-! ### Broadcasting -/

/-- Broadcasting commutes with the action. -/
theorem expand_act (sz : R → ℕ) (ρ : R → Mat) (τ : GSym) (t : List R) {n : ℕ} {p : PTensor B} {u : List (Pix B n → ℝ)}
    (hp : p.chans.length = typeSize sz t) (h : expand n p = some u) :
    u.length = typeSize sz t ∧ expand n ⟨p.n, trD sz ρ (Pix.move τ) t p.chans⟩ = some (trD sz ρ (Pix.move τ) t u) := by
  obtain ⟨m, d⟩ := p
  unfold expand at h ⊢
  dsimp only at h hp ⊢
  by_cases h1 : m = n
  · subst h1
    rw [dif_pos rfl] at h ⊢
    obtain rfl := Option.some.inj h
    exact ⟨hp, rfl⟩
  · rw [dif_neg h1] at h ⊢
    by_cases h2 : m = 1
    · subst h2
      rw [dif_pos rfl] at h ⊢
      obtain rfl := Option.some.inj h
      refine ⟨by simpa using hp, congrArg some ?_⟩
      apply List.ext_getElem?
      intro c
      by_cases hc : c < typeSize sz t
      · rw [List.getElem?_map, trD_get _ _ hc, trD_get _ _ hc]
        simp only [Option.map_some, Option.some.injEq]
        funext q
        refine Finset.sum_congr rfl fun j hj => ?_
        have hj := Finset.mem_range.1 hj
        rw [List.getElem?_map, List.getElem?_eq_getElem (by omega : j < d.length)]
        simp only [Option.map_some, Option.getD_some]
        congr 1
        refine congrArg d[j] ?_
        exact Prod.ext rfl (Prod.ext (Subsingleton.elim (α := Fin 1) _ _) (Subsingleton.elim (α := Fin 1) _ _))
      · rw [List.getElem?_eq_none (by simp [trD_length]; omega), List.getElem?_eq_none (by simp [trD_length]; omega)]
    · rw [dif_neg h2] at h
      exact absurd h (by simp)

/-! ### Memory -/

/-- The tensor with these channels is a piece of its block of memory, made of consecutive fields of the type `H[r.addr]` of the block. -/
def RefOk (sz : F → ℕ) (H : List (List F)) (r : Ref F) : Prop :=
  r.ty ≠ [] ∧ ∃ a b, H[r.addr]? = some (a ++ r.ty ++ b) ∧ r.off = typeSize sz a

/-- The blocks of memory have the types `H`. -/
structure Typed (sz : F → ℕ) (H : List (List F)) (s : Mem F B K) : Prop where
  len : H.length = s.heap.length
  blk : ∀ (i : ℕ) (t : List F) (p : PTensor B), H[i]? = some t → s.heap[i]? = some p → p.chans.length = typeSize sz t
  ref : ∀ v r, s.env v = some r → RefOk sz H r

/-- The action on all blocks of memory of the given types. -/
noncomputable def actM (sz : F → ℕ) (ρ : F → Mat) (τ : GSym) (H : List (List F)) (s : Mem F B K) : Mem F B K :=
  ⟨List.zipWith (fun t p => ⟨p.n, trD sz ρ (Pix.move τ) t p.chans⟩) H s.heap, s.env⟩

/-- The action on a tensor. -/
noncomputable def trE (sz : F → ℕ) (ρ : F → Mat) (τ : GSym) (x : ETensor F B) : ETensor F B := ⟨x.n, x.x.transform sz ρ (Pix.move τ)⟩

section mem

variable {sz : F → ℕ} {ρ : F → Mat} {τ : GSym} {H : List (List F)} {s : Mem F B K}

theorem typeSize_three (sz : F → ℕ) (a t b : List F) : typeSize sz (a ++ t ++ b) = typeSize sz a + typeSize sz t + typeSize sz b := by
  simp [typeSize, Nat.add_assoc]

theorem actM_get (hs : Typed sz H s) {i : ℕ} {t : List F} {p : PTensor B} (h1 : H[i]? = some t) (h2 : s.heap[i]? = some p) :
    (actM sz ρ τ H s).heap[i]? = some ⟨p.n, trD sz ρ (Pix.move τ) t p.chans⟩ := by
  simp [actM, List.getElem?_zipWith, h1, h2]

theorem deref_act (hs : Typed sz H s) {r : Ref F} (hr : RefOk sz H r) :
    ∃ x, s.deref sz r = some x ∧ x.x.WF sz ∧ x.x.ty = r.ty ∧ (∃ p, s.heap[r.addr]? = some p ∧ p.n = x.n) ∧
      (actM sz ρ τ H s).deref sz r = some (trE sz ρ τ x) := by
  obtain ⟨hne, a, b, hH, ho⟩ := hr
  obtain ⟨p, hp⟩ : ∃ p, s.heap[r.addr]? = some p := by
    obtain ⟨h, -⟩ := List.getElem?_eq_some_iff.1 hH
    exact ⟨_, List.getElem?_eq_getElem (by rw [← hs.len]; exact h)⟩
  have hl := hs.blk _ _ _ hH hp
  have hl' : ((p.chans.drop r.off).take (typeSize sz r.ty)).length = typeSize sz r.ty := by
    rw [typeSize_three] at hl
    simp
    omega
  refine ⟨⟨p.n, r.ty, (p.chans.drop r.off).take (typeSize sz r.ty)⟩, ?_, ⟨hne, hl'⟩, rfl, ⟨p, hp, rfl⟩, ?_⟩
  · rw [Mem.deref, hp]
    dsimp only
    rw [mkGT, if_pos hl']
    rfl
  · rw [Mem.deref, actM_get hs hH hp]
    dsimp only
    rw [ho, trD_piece a r.ty b hl, mkGT, if_pos (trD_length _ _), ← ho]
    rfl

theorem alloc_act [DecidableEq K] (hs : Typed sz H s) (v : K) {y : ETensor F B} (hy : y.x.WF sz) :
    Typed sz (H ++ [y.x.ty]) (s.alloc v y) ∧ actM sz ρ τ (H ++ [y.x.ty]) (s.alloc v y) = (actM sz ρ τ H s).alloc v (trE sz ρ τ y) := by
  refine ⟨⟨by simp [Mem.alloc, hs.len], fun i t p h1 h2 => ?_, fun w r hw => ?_⟩, ?_⟩
  · by_cases hi : i < H.length
    · rw [List.getElem?_append_left hi] at h1
      rw [Mem.alloc, List.getElem?_append_left (by rw [← hs.len]; exact hi)] at h2
      exact hs.blk i t p h1 h2
    · obtain ⟨h, -⟩ := List.getElem?_eq_some_iff.1 h1
      have hi' : i = H.length := by simp at h; omega
      subst hi'
      rw [List.getElem?_append_right (by omega)] at h1
      rw [Mem.alloc, List.getElem?_append_right (by rw [hs.len])] at h2
      simp at h1
      rw [hs.len] at h2
      simp at h2
      rw [← h1, ← h2]
      exact hy.2
  · simp only [Mem.alloc, Function.update_apply] at hw
    split_ifs at hw with h
    · cases hw
      exact ⟨hy.1, [], [], by simp [← hs.len], rfl⟩
    · obtain ⟨h1, a, b, h2, h3⟩ := hs.ref w r hw
      exact ⟨h1, a, b, by rw [List.getElem?_append_left (List.getElem?_eq_some_iff.1 h2).1]; exact h2, h3⟩
  · simp only [actM, Mem.alloc]
    rw [List.zipWith_append hs.len]
    simp [hs.len, trE, trD, ETensor.plain, GTensor.transform]

theorem bindVar_act [DecidableEq K] (hs : Typed sz H s) (v : K) {r : Ref F} (hr : RefOk sz H r) :
    Typed sz H (s.bindVar v r) ∧ actM sz ρ τ H (s.bindVar v r) = (actM sz ρ τ H s).bindVar v r := by
  refine ⟨⟨hs.len, hs.blk, fun w r' hw => ?_⟩, rfl⟩
  simp only [Mem.bindVar, Function.update_apply] at hw
  split_ifs at hw with h
  · cases hw
    exact hr
  · exact hs.ref w r' hw

theorem bindVars_act [DecidableEq K] (l : List (K × Ref F)) (hl : ∀ p ∈ l, RefOk sz H p.2) (hs : Typed sz H s) :
    Typed sz H (s.bindVars l) ∧ actM sz ρ τ H (s.bindVars l) = (actM sz ρ τ H s).bindVars l := by
  induction l generalizing s with
  | nil => exact ⟨hs, rfl⟩
  | cons p l ih =>
    obtain ⟨v, r⟩ := p
    obtain ⟨h1, h2⟩ := bindVar_act (ρ := ρ) (τ := τ) hs v (hl (v, r) (by simp))
    obtain ⟨h3, h4⟩ := ih (fun q hq => hl q (by simp [hq])) h1
    exact ⟨h3, by rw [Mem.bindVars, h4, h2]; rfl⟩

theorem write_act [DecidableEq K] (hs : Typed sz H s) {r : Ref F} (hr : RefOk sz H r) {y : PTensor B} (hy : y.chans.length = typeSize sz r.ty) {p : PTensor B}
    (hp : s.heap[r.addr]? = some p) (hn : y.n = p.n) :
    ∃ s1, s.write r y = some s1 ∧ s1.env = s.env ∧ Typed sz H s1 ∧
      (actM sz ρ τ H s).write r ⟨y.n, trD sz ρ (Pix.move τ) r.ty y.chans⟩ = some (actM sz ρ τ H s1) := by
  obtain ⟨hne, a, b, hH, ho⟩ := hr
  obtain ⟨n, d⟩ := y
  obtain ⟨n', e⟩ := p
  obtain rfl : n = n' := hn
  have hl : e.length = typeSize sz (a ++ r.ty ++ b) := hs.blk _ _ _ hH hp
  have hd : d.length = typeSize sz r.ty := hy
  refine ⟨⟨s.heap.set r.addr ⟨n, e.take r.off ++ d ++ e.drop (r.off + d.length)⟩, s.env⟩, ?_, rfl, ⟨by simp [hs.len], fun i t q h1 h2 => ?_, hs.ref⟩, ?_⟩
  · rw [Mem.write, hp]
    dsimp only
    rw [dif_pos rfl]
  · dsimp only at h2
    rw [List.getElem?_set] at h2
    split_ifs at h2 with h3 h4
    · subst h3
      rw [hH] at h1
      obtain rfl := Option.some.inj h1
      obtain rfl := Option.some.inj h2
      rw [typeSize_three] at hl ⊢
      simp
      omega
    · exact hs.blk i t q h1 h2
  · rw [Mem.write, actM_get hs hH hp]
    dsimp only
    rw [dif_pos rfl]
    refine congrArg some ?_
    simp only [actM, Mem.mk.injEq, and_true]
    apply List.ext_getElem?
    intro i
    rw [List.getElem?_set]
    by_cases hi : r.addr = i
    · subst hi
      have h4 : r.addr < s.heap.length := (List.getElem?_eq_some_iff.1 hp).1
      rw [if_pos rfl, if_pos (by rw [List.length_zipWith, hs.len]; omega), List.getElem?_zipWith, hH, List.getElem?_set_self h4]
      simp only [Option.some.injEq]
      congr 1
      rw [ho, hd, trD_length, trD_write a r.ty b hl hd]
    · rw [if_neg hi, List.getElem?_zipWith, List.getElem?_zipWith, List.getElem?_set_ne hi]

theorem binN_act (k : ℝ) (N : ℕ) {t : List F} (ht : t ≠ []) {p q : PTensor B} {z : ETensor F B} (hp : p.chans.length = typeSize sz t)
    (hq : q.chans.length = typeSize sz t)
    (h : binN sz (fun u v => u + k * v) N t p q = some z) :
    z.x.WF sz ∧ binN sz (fun u v => u + k * v) N t (⟨p.n, trD sz ρ (Pix.move τ) t p.chans⟩ : PTensor B) ⟨q.n, trD sz ρ (Pix.move τ) t q.chans⟩
      = some (trE sz ρ τ z) := by
  unfold binN at h ⊢
  cases hu : expand N p with
  | none => simp [hu] at h
  | some u =>
    cases hv : expand N q with
    | none => simp [hu, hv] at h
    | some v =>
      obtain ⟨lu, eu⟩ := expand_act sz ρ τ t hp hu
      obtain ⟨lv, ev⟩ := expand_act sz ρ τ t hq hv
      rw [hu, hv] at h
      dsimp only at h
      rw [mkE, mkGT, if_pos (by simp [lu, lv])] at h
      obtain rfl := Option.some.inj h
      refine ⟨⟨ht, by simp [lu, lv]⟩, ?_⟩
      rw [eu, ev]
      dsimp only
      rw [mkE, mkGT, if_pos (by simp [trD_length])]
      simp only [Option.map_some, Option.some.injEq, trE]
      have := trD_combine (sz := sz) (ρ := ρ) (π := (Pix.move τ : Pix B N → Pix B N)) t k lu lv
      rw [← this]
      rfl

/-- The sum or difference of two tensors. -/
theorem binE_act [DecidableEq F] (k : ℝ) {x y z : ETensor F B} (hx : x.x.WF sz) (hy : y.x.WF sz) (h : binE sz (fun u v => u + k * v) x y = some z) :
    z.x.WF sz ∧ binE sz (fun u v => u + k * v) (trE sz ρ τ x) (trE sz ρ τ y) = some (trE sz ρ τ z) := by
  obtain ⟨n, tx, dx⟩ := x
  obtain ⟨m, ty, dy⟩ := y
  unfold binE at h ⊢
  by_cases ht : tx = ty
  · subst ht
    rw [if_pos rfl] at h
    rw [if_pos (by rfl)]
    exact binN_act (p := ⟨n, dx⟩) (q := ⟨m, dy⟩) (t := tx) k (if n = 1 then m else n) hx.1 hx.2 hy.2 h
  · rw [if_neg ht] at h
    exact absurd h (by simp)

theorem inE_act [DecidableEq F] (k : ℝ) {x y : ETensor F B} {d : List (Pix B x.n → ℝ)} (hx : x.x.WF sz) (hy : y.x.WF sz)
    (h : inE (fun u v => u + k * v) x y = some d) :
    d.length = typeSize sz x.x.ty ∧ inE (fun u v => u + k * v) (trE sz ρ τ x) (trE sz ρ τ y) = some (trD sz ρ (Pix.move τ) x.x.ty d) := by
  obtain ⟨n, tx, dx⟩ := x
  obtain ⟨m, ty, dy⟩ := y
  unfold inE at h ⊢
  by_cases ht : tx = ty
  · subst ht
    rw [if_pos rfl] at h
    rw [if_pos (by rfl)]
    dsimp only [ETensor.plain] at h ⊢
    cases hv : expand n ⟨m, dy⟩ with
    | none => simp [hv] at h
    | some v =>
      obtain ⟨lv, ev⟩ := expand_act sz ρ τ tx hy.2 hv
      rw [hv] at h
      obtain rfl := Option.some.inj h
      have hx2 : dx.length = typeSize sz tx := hx.2
      refine ⟨by simp [lv, hx2], ?_⟩
      have e := trD_combine (sz := sz) (ρ := ρ) (π := (Pix.move τ : Pix B n → Pix B n)) tx k hx2 lv
      rw [e]
      exact congrArg (Option.map _) ev
  · rw [if_neg ht] at h
    exact absurd h (by simp)

theorem mulE_act (c : ℝ) {x z : ETensor F B} (hx : x.x.WF sz) (h : mulE sz c x = some z) :
    z.x.WF sz ∧ mulE sz c (trE sz ρ τ x) = some (trE sz ρ τ z) := by
  obtain ⟨n, t, d⟩ := x
  have hd : d.length = typeSize sz t := hx.2
  rw [mulE, mkE, mkGT, if_pos (by simpa using hd)] at h
  obtain rfl := Option.some.inj h
  refine ⟨⟨hx.1, by simpa using hd⟩, ?_⟩
  have e := trD_scale (sz := sz) (ρ := ρ) (π := (Pix.move τ : Pix B n → Pix B n)) t c hd
  rw [mulE, mkE, mkGT, if_pos (by simp [trE, GTensor.transform, GTensor.act, chAct_length])]
  exact congrArg (fun l => some (⟨n, t, l⟩ : ETensor F B)) e.symm

theorem sized_act {n : ℕ} {x : ETensor F B} {y : GTensor F (Pix B n → ℝ)} (h : x.sized n = some y) (hx : x.x.WF sz) :
    y.WF sz ∧ (trE sz ρ τ x).sized n = some (y.transform sz ρ (Pix.move τ)) := by
  obtain ⟨m, x⟩ := x
  unfold ETensor.sized at h ⊢
  by_cases hm : m = n
  · subst hm
    rw [dif_pos rfl] at h
    obtain rfl := Option.some.inj h
    exact ⟨hx, dif_pos (c := (trE sz ρ τ ⟨m, x⟩).n = m) rfl⟩
  · rw [dif_neg hm] at h
    exact absurd h (by simp)

theorem sizedAll_act {n : ℕ} (xs : List (ETensor F B)) (ys : List (GTensor F (Pix B n → ℝ))) (h : xs.mapM (ETensor.sized n) = some ys)
    (hx : ∀ x ∈ xs, x.x.WF sz) :
    (∀ y ∈ ys, y.WF sz) ∧ (xs.map (trE sz ρ τ)).mapM (ETensor.sized n) = some (ys.map fun y => y.transform sz ρ (Pix.move τ)) := by
  induction xs generalizing ys with
  | nil =>
    obtain rfl : ys = [] := by simpa using h.symm
    exact ⟨by simp, rfl⟩
  | cons x xs ih =>
    rw [List.mapM_cons] at h
    cases hy : x.sized n with
    | none => simp [hy] at h
    | some y =>
      cases hz : xs.mapM (ETensor.sized n) with
      | none => simp [hy, hz] at h
      | some zs =>
        simp only [hy, hz, Option.bind_eq_bind, Option.bind_some, Option.pure_def, Option.some.injEq] at h
        subst h
        obtain ⟨h1, h2⟩ := sized_act (ρ := ρ) (τ := τ) hy (hx x (by simp))
        obtain ⟨h3, h4⟩ := ih zs hz fun z hz => hx z (by simp [hz])
        refine ⟨by simpa using ⟨h1, h3⟩, ?_⟩
        rw [List.map_cons, List.mapM_cons, h2, h4]
        rfl

theorem directsumE_act {xs : List (ETensor F B)} {z : ETensor F B} (hx : ∀ x ∈ xs, x.x.WF sz) (h : directsumE sz xs = some z) :
    z.x.WF sz ∧ directsumE sz (xs.map (trE sz ρ τ)) = some (trE sz ρ τ z) := by
  cases xs with
  | nil => simp [directsumE] at h
  | cons x xs =>
    rw [directsumE] at h
    cases hy : (x :: xs).mapM (ETensor.sized x.n) with
    | none => simp [hy] at h
    | some ys =>
      obtain ⟨h1, h2⟩ := sizedAll_act (ρ := ρ) (τ := τ) _ ys hy hx
      have hne : ys ≠ [] := by
        rintro rfl
        rw [List.mapM_cons] at hy
        cases ha : x.sized x.n with
        | none => simp [ha] at hy
        | some a =>
          cases hb : xs.mapM (ETensor.sized x.n) with
          | none => simp [ha, hb] at hy
          | some b => simp [ha, hb] at hy
      obtain ⟨e1, e2⟩ := directsumGT_eq sz ys hne h1
      rw [hy, Option.bind_some, e1] at h
      obtain rfl := Option.some.inj h
      refine ⟨e2, ?_⟩
      rw [List.map_cons, directsumE, ← List.map_cons]
      have e0 : (trE sz ρ τ x).n = x.n := rfl
      have hw : ∀ y ∈ ys.map fun y => y.transform sz ρ (Pix.move τ), y.WF sz := by
        intro y hy'
        obtain ⟨y', hy'', rfl⟩ := List.mem_map.1 hy'
        exact transform_wf _ _ (h1 y' hy'')
      have h3 := (directsumGT_eq sz _ (by simpa using hne) hw).1
      refine (congrArg (fun o => Option.bind o fun ys => (directsumGT sz ys).map fun y => (⟨x.n, y⟩ : ETensor F B)) h2).trans ?_
      rw [Option.bind_some, h3]
      have e3 := trD_flatMap (sz := sz) (ρ := ρ) (π := (Pix.move τ : Pix B x.n → Pix B x.n)) ys fun y hy => (h1 y hy).2
      have e4 : (ys.map fun y => y.transform sz ρ (Pix.move τ)).flatMap GTensor.ty = ys.flatMap GTensor.ty := by
        rw [List.flatMap_map]
        rfl
      have e5 : (ys.map fun y => y.transform sz ρ (Pix.move τ)).flatMap GTensor.data
          = (GTensor.transform sz ρ (Pix.move τ) ⟨ys.flatMap GTensor.ty, ys.flatMap GTensor.data⟩).data := by
        refine Eq.trans ?_ e3.symm
        rw [List.flatMap_map]
        rfl
      rw [e4, e5]
      rfl

theorem splitLoop_wf {V : Type} (sz : F → ℕ) (x : GTensor F V) (last : ℕ) (bs : List ℤ) (ys : List (GTensor F V)) (h : splitLoop sz x last bs = some ys) :
    ∀ y ∈ ys, y.WF sz := by
  induction bs generalizing last ys with
  | nil =>
    obtain rfl : ys = [] := by simpa [splitLoop] using h.symm
    simp
  | cons b bs ih =>
    rw [splitLoop] at h
    split_ifs at h with hb
    simp only [Option.bind_eq_bind, Option.bind_eq_some_iff] at h
    obtain ⟨t, ht, p, hp, q, hq, y, hy, zs, hz, he⟩ := h
    cases he
    obtain ⟨h1, rfl⟩ := mkType_eq_some.1 ht
    obtain ⟨h2, rfl⟩ := mkGT_eq_some.1 hy
    intro y' hy'
    rcases List.mem_cons.1 hy' with rfl | h
    · exact ⟨h1, h2⟩
    · exact ih _ _ hz y' h

/-- The pieces of a tensor are views. -/
theorem split_refs (hpos : ∀ f, 0 < sz f) {r : Ref F} (hr : RefOk sz H r) (breaks : Option (List ℤ)) (ys : List (GTensor F ℕ))
    (h : (splitGT sz (⟨r.ty, List.range' r.off (typeSize sz r.ty)⟩ : GTensor F ℕ) breaks).1 = some ys) :
    ∀ y ∈ ys, RefOk sz H ⟨r.addr, y.data.head?.getD 0, y.ty⟩ := by
  obtain ⟨hne, a, b, hH, ho⟩ := hr
  have hwf : (⟨r.ty, List.range' r.off (typeSize sz r.ty)⟩ : GTensor F ℕ).WF sz := ⟨hne, by simp⟩
  have hy : ∀ y ∈ ys, y.WF sz := by
    unfold splitGT at h
    cases breaks with
    | none => exact splitLoop_wf sz _ _ _ _ h
    | some bs => exact splitLoop_wf sz _ _ _ _ h
  have hd := c29_split_directsum_partial sz _ hwf breaks ys h
  have hys : ys ≠ [] := by
    rintro rfl
    simp [directsumGT] at hd
  rw [(directsumGT_eq sz ys hys hy).1] at hd
  have e1 : ys.flatMap GTensor.ty = r.ty := congrArg GTensor.ty (Option.some.inj hd)
  have e2 : ys.flatMap GTensor.data = List.range' r.off (typeSize sz r.ty) := congrArg GTensor.data (Option.some.inj hd)
  intro y hmem
  obtain ⟨l1, l2, rfl⟩ := List.append_of_mem hmem
  simp only [List.flatMap_append, List.flatMap_cons] at e1 e2
  have hl1 : (l1.flatMap GTensor.data).length = typeSize sz (l1.flatMap GTensor.ty) := by
    clear e1 e2 hd hys h hmem
    induction l1 with
    | nil => rfl
    | cons z l1 ih =>
      have := ih fun w hw => hy w (by simp at hw ⊢; tauto)
      rw [List.flatMap_cons, List.flatMap_cons, List.length_append, this, (hy z (by simp)).2]
      simp [typeSize]
  have hyp : 0 < y.data.length := by
    rw [(hy y hmem).2]
    obtain ⟨f, t, hft⟩ := List.exists_cons_of_ne_nil (hy y hmem).1
    rw [hft]
    have := hpos f
    simp only [typeSize, List.map_cons, List.sum_cons]
    omega
  refine ⟨(hy y hmem).1, a ++ l1.flatMap GTensor.ty, l2.flatMap GTensor.ty ++ b, ?_, ?_⟩
  · dsimp only
    rw [hH, ← e1]
    simp [List.append_assoc]
  · dsimp only
    have e3 : (List.range' r.off (typeSize sz r.ty))[(l1.flatMap GTensor.data).length]? = y.data[0]? := by
      rw [← e2, List.getElem?_append_right (le_refl _), Nat.sub_self, List.getElem?_append_left hyp]
    have hlen : (l1.flatMap GTensor.data).length < typeSize sz r.ty := by
      have := congrArg List.length e2
      simp only [List.length_append, List.length_range'] at this
      omega
    rw [List.getElem?_range' hlen] at e3
    rw [List.head?_eq_getElem?, ← e3, Option.getD_some, ho, hl1]
    simp [typeSize]

end mem

end E2
