import Verif.Model.RepNames
import Mathlib.Tactic.Ring
import Mathlib.Tactic.Linarith

/-!
# Names of representations: lemmas about strings
-/

namespace E2

namespace Str

/-- The number of brackets which are open after reading `l`. -/
def depth (l : List Char) : ℤ := l.count '[' - l.count ']'

/-- The brackets of `l` match. -/
def Bal (l : List Char) : Prop := depth l = 0 ∧ ∀ p, p <+: l → 0 ≤ depth p

theorem depth_append (a b : List Char) : depth (a ++ b) = depth a + depth b := by
  simp only [depth, List.count_append]; push_cast; ring

theorem depth_close : depth [']'] = -1 := by decide

theorem depth_open : depth ['['] = 1 := by decide

theorem Bal.append {a b : List Char} (ha : Bal a) (hb : Bal b) : Bal (a ++ b) := by
  refine ⟨by rw [depth_append, ha.1, hb.1]; rfl, fun p hp => ?_⟩
  obtain ⟨t, ht⟩ := hp
  rcases List.append_eq_append_iff.1 ht with ⟨s, rfl, -⟩ | ⟨s, rfl, hs⟩
  · exact ha.2 p ⟨s, rfl⟩
  · rw [depth_append, ha.1]
    have := hb.2 s ⟨t, hs.symm⟩
    omega

theorem Bal.plain {a : List Char} (h1 : '[' ∉ a) (h2 : ']' ∉ a) : Bal a := by
  have : ∀ p, p <+: a → depth p = 0 := by
    intro p hp
    rw [depth, List.count_eq_zero.2 fun h => h1 (hp.subset h), List.count_eq_zero.2 fun h => h2 (hp.subset h)]
    rfl
  exact ⟨this a ⟨[], by simp⟩, fun p hp => (this p hp).ge⟩

theorem Bal.wrap {a : List Char} (ha : Bal a) : Bal ('[' :: a ++ [']']) := by
  refine ⟨?_, fun p hp => ?_⟩
  · rw [show '[' :: a ++ [']'] = ['['] ++ a ++ [']'] by simp, depth_append, depth_append, ha.1, depth_open, depth_close]
    rfl
  · cases p with
    | nil => exact le_rfl
    | cons c p =>
      obtain ⟨t, ht⟩ := hp
      simp only [List.cons_append, List.cons.injEq] at ht
      obtain ⟨rfl, ht⟩ := ht
      have hd : depth ('[' :: p) = 1 + depth p := by
        rw [show '[' :: p = ['['] ++ p from rfl, depth_append, depth_open]
      rw [hd]
      rcases List.append_eq_append_iff.1 ht with ⟨s, rfl, -⟩ | ⟨s, rfl, hs⟩
      · have := ha.2 p ⟨s, rfl⟩
        omega
      · rw [depth_append, ha.1]
        cases s with
        | nil => decide
        | cons d s =>
          simp only [List.cons_append, List.cons.injEq] at hs
          obtain ⟨rfl, hs⟩ := hs
          have : s = [] := (List.append_eq_nil_iff.1 hs.symm).1
          subst this
          decide

theorem Bal.cancel {a b r s : List Char} (ha : Bal a) (hb : Bal b) (h : a ++ ']' :: r = b ++ ']' :: s) : a = b ∧ r = s := by
  have key : ∀ {a b r s : List Char}, Bal a → Bal b → (∃ t, b = a ++ t ∧ ']' :: r = t ++ ']' :: s) → a = b ∧ r = s := by
    rintro a b r s ha hb ⟨t, rfl, ht⟩
    cases t with
    | nil =>
      simp only [List.nil_append, List.cons.injEq, true_and] at ht
      exact ⟨by simp, ht⟩
    | cons c t =>
      simp only [List.cons_append, List.cons.injEq] at ht
      obtain ⟨rfl, -⟩ := ht
      have := hb.2 (a ++ [']']) ⟨t, by simp⟩
      rw [depth_append, ha.1, depth_close] at this
      omega
  rcases List.append_eq_append_iff.1 h with h | ⟨t, h1, h2⟩
  · exact key ha hb h
  · obtain ⟨e1, e2⟩ := key hb ha ⟨t, h1, h2⟩
    exact ⟨e1.symm, e2.symm⟩

theorem cancel {c : Char} {a b r s : List Char} (ha : c ∉ a) (hb : c ∉ b) (h : a ++ c :: r = b ++ c :: s) : a = b ∧ r = s := by
  have key : ∀ {a b r s : List Char}, c ∉ b → (∃ t, b = a ++ t ∧ c :: r = t ++ c :: s) → a = b ∧ r = s := by
    rintro a b r s hb ⟨t, rfl, ht⟩
    cases t with
    | nil =>
      simp only [List.nil_append, List.cons.injEq, true_and] at ht
      exact ⟨by simp, ht⟩
    | cons d t =>
      simp only [List.cons_append, List.cons.injEq] at ht
      obtain ⟨rfl, -⟩ := ht
      exact absurd (by simp) hb
  rcases List.append_eq_append_iff.1 h with h | ⟨t, h1, h2⟩
  · exact key hb h
  · obtain ⟨e1, e2⟩ := key ha ⟨t, h1, h2⟩
    exact ⟨e1.symm, e2.symm⟩

/-- The digits of a number. -/
def dig (n : ℕ) : List Char := Nat.toDigits 10 n

theorem toString_toList (n : ℕ) : (toString n).toList = dig n := by
  rw [Nat.toString_eq_repr, Nat.toList_repr]
  rfl

theorem dig_inj {m n : ℕ} (h : dig m = dig n) : m = n := by
  have := congrArg (fun l => Nat.ofDigitChars 10 l 0) h
  simpa [dig, Nat.ofDigitChars_ten_toDigits] using this

theorem mem_dig {n : ℕ} {c : Char} (hc : c.isDigit = false) : c ∉ dig n := fun h => by
  have := Nat.isDigit_of_mem_toDigits (by norm_num) le_rfl h
  rw [hc] at this
  exact absurd this (by decide)

theorem dig_append {m n : ℕ} {c : Char} {r s : List Char} (hc : c.isDigit = false) (h : dig m ++ c :: r = dig n ++ c :: s) : m = n ∧ r = s := by
  obtain ⟨h1, h2⟩ := cancel (mem_dig hc) (mem_dig hc) h
  exact ⟨dig_inj h1, h2⟩

end Str

open Str

theorem LibGroup.name_toList (g : LibGroup) : g.name.toList = match g with
    | .cyc N => 'C' :: dig N
    | .dih N => 'D' :: dig N
    | .so2 => ['S', 'O', '(', '2', ')']
    | .o2 => ['O', '(', '2', ')'] := by
  cases g with
  | cyc N => simp [LibGroup.name, dig]
  | dih N => simp [LibGroup.name, dig]
  | so2 => rfl
  | o2 => rfl

theorem LibGroup.name_plain (g : LibGroup) {c : Char} (hc : c ∈ [':', '[', ']']) : c ∉ g.name.toList := by
  rw [LibGroup.name_toList]
  simp only [List.mem_cons, List.not_mem_nil, or_false] at hc
  rcases hc with rfl | rfl | rfl <;> cases g <;> simp <;> exact mem_dig (by decide)

theorem LibGroup.name_inj {g h : LibGroup} (e : g.name = h.name) : g = h := by
  have e := congrArg String.toList e
  rw [name_toList, name_toList] at e
  cases g <;> cases h <;> simp at e
  · rw [dig_inj e]
  · rw [dig_inj e]
  · rfl
  · rfl

/-- The characters of the identifiers. -/
theorem SubId.name_toList (i : SubId) : i.name.toList = match i with
    | .order M => dig M
    | .pair none M => "(None, ".toList ++ dig M ++ [')']
    | .pair (some a) M => '(' :: dig a ++ [',', ' '] ++ dig M ++ [')']
    | .angle _ _ => "(None, -1)".toList := by
  cases i with
  | order M => simp [SubId.name, dig]
  | pair a M => cases a <;> simp [SubId.name, dig]
  | angle _ _ => rfl

theorem SubId.name_plain (i : SubId) {c : Char} (hc : c ∈ ['[', ']']) : c ∉ i.name.toList := by
  rw [SubId.name_toList]
  simp only [List.mem_cons, List.not_mem_nil, or_false] at hc
  have h1 : ∀ n, '[' ∉ dig n := fun n => mem_dig (by decide)
  have h2 : ∀ n, ']' ∉ dig n := fun n => mem_dig (by decide)
  rcases hc with rfl | rfl <;> cases i with
    | order M => simp [h1, h2]
    | pair a M => cases a <;> simp [h1, h2]
    | angle _ _ => simp

theorem irrepName_toList (g : LibGroup) (j k : ℕ) : (irrepName g j k).toList = "irrep_".toList ++ match g with
    | .cyc _ => dig k
    | .so2 => dig k
    | .dih _ => dig j ++ ',' :: dig k
    | .o2 => dig j ++ ',' :: dig k := by
  cases g <;> simp [irrepName, dig]

theorem irrepName_plain (g : LibGroup) (j k : ℕ) {c : Char} (hc : c ∈ ['[', ']']) : c ∉ (irrepName g j k).toList := by
  rw [irrepName_toList]
  simp only [List.mem_cons, List.not_mem_nil, or_false] at hc
  have h1 : ∀ n, '[' ∉ dig n := fun n => mem_dig (by decide)
  have h2 : ∀ n, ']' ∉ dig n := fun n => mem_dig (by decide)
  rcases hc with rfl | rfl <;> cases g <;> simp [h1, h2]

/-- An irrep of a group is identified by its name. -/
theorem irrepName_inj {g : LibGroup} {j k j' k' : ℕ} (h : IrrepOk g j k) (h' : IrrepOk g j' k') (e : irrepName g j k = irrepName g j' k') : j = j' ∧ k = k' := by
  have e := congrArg String.toList e
  rw [irrepName_toList, irrepName_toList, List.append_cancel_left_eq] at e
  cases g with
  | cyc N => exact ⟨h.1.trans h'.1.symm, dig_inj e⟩
  | so2 => exact ⟨Eq.trans h (Eq.symm h'), dig_inj e⟩
  | dih N =>
    obtain ⟨e1, e2⟩ := dig_append (by decide) e
    exact ⟨e1, dig_inj e2⟩
  | o2 =>
    obtain ⟨e1, e2⟩ := dig_append (by decide) e
    exact ⟨e1, dig_inj e2⟩

/-- A subgroup of a finite group is identified by the name of its identifier. -/
theorem SubId.name_inj_cyc {N : ℕ} {i i' : SubId} {h h' : LibGroup} (hi : (LibGroup.cyc N).sub i = some h) (hi' : (LibGroup.cyc N).sub i' = some h') (e : i.name = i'.name) : i = i' := by
  have e := congrArg String.toList e
  rw [name_toList, name_toList] at e
  cases i <;> cases i' <;> simp [LibGroup.sub] at hi hi' e ⊢
  exact dig_inj e

theorem SubId.name_inj_dih {N : ℕ} {i i' : SubId} {h h' : LibGroup} (hi : (LibGroup.dih N).sub i = some h) (hi' : (LibGroup.dih N).sub i' = some h') (e : i.name = i'.name) : i = i' := by
  have e := congrArg String.toList e
  rw [name_toList, name_toList] at e
  have hN : ∀ n r s, dig n ++ ',' :: r ≠ 'N' :: s := by
    intro n r s h
    cases hd : dig n with
    | nil => rw [hd] at h; simp at h
    | cons c t =>
      rw [hd] at h
      simp only [List.cons_append, List.cons.injEq] at h
      exact mem_dig (n := n) (c := 'N') (by decide) (by rw [hd, h.1]; simp)
  cases i with
  | order M => simp [LibGroup.sub] at hi
  | angle a M => simp [LibGroup.sub] at hi
  | pair a M =>
    cases i' with
    | order M => simp [LibGroup.sub] at hi'
    | angle a M => simp [LibGroup.sub] at hi'
    | pair a' M' =>
      cases a with
      | none =>
        cases a' with
        | none =>
          simp only [List.append_cancel_right_eq, List.append_cancel_left_eq] at e
          rw [dig_inj e]
        | some b =>
          simp at e
          exact absurd e.symm (hN _ _ _)
      | some a =>
        cases a' with
        | none =>
          simp at e
          exact absurd e (hN _ _ _)
        | some b =>
          simp only [List.append_cancel_right_eq, List.cons_append, List.cons.injEq, true_and, List.append_assoc, List.nil_append] at e
          obtain ⟨e1, e2⟩ := dig_append (by decide) e
          simp only [List.cons.injEq, true_and, List.append_cancel_right_eq] at e2
          rw [e1, dig_inj e2]

namespace RExp

/-- The constructor, from the first two characters of the name. -/
def tagOf : List Char → ℕ
  | 'i' :: 'r' :: _ => 0
  | 'i' :: 'n' :: _ => 3
  | 'r' :: _ => 1
  | 'q' :: _ => 2
  | 'C' :: _ => 4
  | 'D' :: _ => 4
  | 'S' :: _ => 4
  | 'O' :: _ => 4
  | _ => 5

/-- The constructor. -/
def tag : RExp → ℕ
  | irrep _ _ _ => 0
  | regular _ => 1
  | quotient _ _ => 2
  | induced _ _ _ _ _ => 3
  | restrict _ _ _ => 4
  | sum _ => 5

theorem directsumName_toList (n : String) (l : List String) :
    (directsumName (n :: l)).toList = '[' :: (n.toList ++ ']' :: if l = [] then [] else '_' :: (directsumName l).toList) := by
  unfold directsumName
  cases l with
  | nil => simp
  | cons m l => simp

theorem tagOf_name (e : RExp) : tagOf e.name.toList = e.tag := by
  cases e with
  | irrep g j k => rw [name, irrepName_toList]; rfl
  | regular g => rw [name]; rfl
  | quotient g i => rw [name, String.toList_append, String.toList_append]; rfl
  | induced g i h j k => simp only [name, String.toList_append]; rfl
  | restrict g i r =>
    rw [name, String.toList_append, String.toList_append, LibGroup.name_toList]
    cases g <;> rfl
  | sum rs =>
    rw [name]
    cases rs with
    | nil => rfl
    | cons r rs => rw [List.map_cons, directsumName_toList]; rfl

theorem directsumName_bal (l : List String) (h : ∀ n ∈ l, Bal n.toList) : Bal (directsumName l).toList := by
  induction l with
  | nil => exact Bal.plain (by decide) (by decide)
  | cons n l ih =>
    rw [directsumName_toList]
    have h1 : Bal ('[' :: n.toList ++ [']']) := (h n (by simp)).wrap
    by_cases e : l = []
    · rw [if_pos e]
      exact h1
    · rw [if_neg e, show ∀ q : List Char, '[' :: (n.toList ++ ']' :: '_' :: q) = ('[' :: n.toList ++ [']']) ++ (['_'] ++ q) by intro q; simp]
      exact h1.append ((Bal.plain (by decide) (by decide)).append (ih fun m hm => h m (by simp [hm])))

/-- The brackets of every name match. -/
theorem name_bal (e : RExp) : Bal e.name.toList := by
  match e with
  | irrep g j k => rw [name]; exact Bal.plain (irrepName_plain g j k (by simp)) (irrepName_plain g j k (by simp))
  | regular g => rw [name]; exact Bal.plain (by decide) (by decide)
  | quotient g i =>
    have h : Bal i.name.toList := Bal.plain (i.name_plain (by simp)) (i.name_plain (by simp))
    rw [name, show ("quotient[" ++ i.name ++ "]").toList = "quotient".toList ++ ('[' :: i.name.toList ++ [']']) by simp]
    exact (Bal.plain (by decide) (by decide)).append h.wrap
  | induced g i h j k =>
    have h1 : Bal i.name.toList := Bal.plain (i.name_plain (by simp)) (i.name_plain (by simp))
    have h2 : Bal (irrepName h j k).toList := Bal.plain (irrepName_plain h j k (by simp)) (irrepName_plain h j k (by simp))
    rw [name, show ("induced[" ++ i.name ++ "][" ++ irrepName h j k ++ "]").toList =
      "induced".toList ++ (('[' :: i.name.toList ++ [']']) ++ ('[' :: (irrepName h j k).toList ++ [']'])) by simp]
    exact (Bal.plain (by decide) (by decide)).append (h1.wrap.append h2.wrap)
  | restrict g i r =>
    rw [name, String.toList_append, String.toList_append]
    exact ((Bal.plain (g.name_plain (by simp)) (g.name_plain (by simp))).append (Bal.plain (by decide) (by decide))).append (name_bal r)
  | sum rs =>
    rw [name]
    refine directsumName_bal _ fun n hn => ?_
    obtain ⟨r, hr, rfl⟩ := List.mem_map.1 hn
    exact name_bal r

/-- The names of the summands can be read from the name of a direct sum. -/
theorem directsumName_inj (l l' : List String) (hl : ∀ n ∈ l, Bal n.toList) (hl' : ∀ n ∈ l', Bal n.toList) (h : directsumName l = directsumName l') : l = l' := by
  induction l generalizing l' with
  | nil =>
    cases l' with
    | nil => rfl
    | cons n l' =>
      have := congrArg String.toList h
      rw [directsumName_toList] at this
      simp [directsumName] at this
  | cons n l ih =>
    cases l' with
    | nil =>
      have := congrArg String.toList h
      rw [directsumName_toList] at this
      simp [directsumName] at this
    | cons n' l' =>
      have h1 := congrArg String.toList h
      rw [directsumName_toList, directsumName_toList] at h1
      obtain ⟨h2, h3⟩ := (hl n (by simp)).cancel (hl' n' (by simp)) (List.cons.inj h1).2
      obtain rfl := String.toList_inj.1 h2
      congr 1
      by_cases e : l = [] <;> by_cases e' : l' = []
      · rw [e, e']
      · rw [if_pos e, if_neg e'] at h3
        cases h3
      · rw [if_neg e, if_pos e'] at h3
        cases h3
      · rw [if_neg e, if_neg e'] at h3
        exact ih l' (fun m hm => hl m (by simp [hm])) (fun m hm => hl' m (by simp [hm])) (String.toList_inj.1 (List.cons.inj h3).2)

end RExp
end E2
