import Verif.Props.Nonlin
import Mathlib.Tactic.IntervalCases

/-!
The default of the argument `gates` of `GatedNonLinearity1` (C34): the fields of the first half are the gates.
-/

namespace E2

variable {R : Type}

/-- **C34**: by default there are gates exactly for an even number of fields, one entry for each field, and a field is a gate exactly when it is in
the first half. -/
theorem c34_default_gates (t : List R) (gates : List Bool) :
    defaultGates t = some gates ↔ t.length % 2 = 0 ∧ gates.length = t.length ∧ ∀ i, i < t.length → (gates[i]? = some true ↔ 2 * i < t.length) := by
  unfold defaultGates
  by_cases h : t.length % 2 = 0
  · rw [if_pos h]
    simp only [h, true_and, Option.some.injEq]
    obtain ⟨k, hk⟩ : ∃ k, t.length = 2 * k := ⟨t.length / 2, by omega⟩
    rw [hk, Nat.mul_div_cancel_left k (by norm_num)]
    constructor
    · rintro rfl
      refine ⟨by simp; omega, fun i hi => ?_⟩
      by_cases hik : i < k
      · rw [List.getElem?_append_left (by simpa using hik), List.getElem?_replicate, if_pos hik]
        simp only [true_iff]
        omega
      · rw [List.getElem?_append_right (by simpa using hik), List.length_replicate, List.getElem?_replicate, if_pos (by omega)]
        simp only [Option.some.injEq, Bool.false_eq_true, false_iff]
        omega
    · rintro ⟨hl, hi⟩
      apply List.ext_getElem?
      intro i
      by_cases hik : i < k
      · rw [List.getElem?_append_left (by simpa using hik), List.getElem?_replicate, if_pos hik]
        exact ((hi i (by omega)).2 (by omega)).symm
      · rw [List.getElem?_append_right (by simpa using hik), List.length_replicate, List.getElem?_replicate]
        by_cases hik2 : i < 2 * k
        · rw [if_pos (by omega)]
          have hlt : i < gates.length := by omega
          have := mt (hi i hik2).1 (by omega)
          rw [List.getElem?_eq_getElem hlt] at this ⊢
          simpa using this
        · rw [if_neg (by omega), List.getElem?_eq_none (by omega)]
  · rw [if_neg h]
    simp [h]

/-- **C34**: with the default gates the constructor accepts exactly the types with scalars in the first half and representations that support gates
in the second one. -/
theorem c34_default_accepts (trivial supports : R → Bool) (t : List R) (gates : List Bool) (hd : defaultGates t = some gates) :
    gated1Check trivial supports t gates = true ↔
      ∀ i r, t[i]? = some r → if 2 * i < t.length then trivial r = true else supports r = true := by
  obtain ⟨he, hl, hi⟩ := (c34_default_gates t gates).1 hd
  have hc : gates.count true = gates.count false := by
    unfold defaultGates at hd
    rw [if_pos he] at hd
    rw [← Option.some.inj hd]
    simp [List.count_append, List.count_replicate]
  unfold gated1Check
  simp only [hl, hc, beq_self_eq_true, Bool.true_and, Bool.and_true, List.all_eq_true]
  constructor
  · intro h i r hr
    have hit : i < t.length := (List.getElem?_eq_some_iff.1 hr).1
    obtain ⟨b, hb⟩ : ∃ b, gates[i]? = some b := ⟨_, List.getElem?_eq_getElem (by omega)⟩
    have hz : (gates.zip t)[i]? = some (b, r) := by rw [List.getElem?_zip_eq_some]; exact ⟨hb, hr⟩
    have := h _ (List.mem_of_getElem? hz)
    have hbi := hi i hit
    rw [hb] at hbi
    by_cases h2 : 2 * i < t.length
    · rw [if_pos h2]
      obtain rfl : b = true := by simpa using hbi.2 h2
      simpa using this
    · rw [if_neg h2]
      have hbf : b = false := by
        cases b
        · rfl
        · exact absurd (hbi.1 rfl) h2
      subst hbf
      simpa using this
  · rintro h ⟨b, r⟩ hm
    obtain ⟨i, hz⟩ := List.getElem?_of_mem hm
    rw [List.getElem?_zip_eq_some] at hz
    have hit : i < t.length := (List.getElem?_eq_some_iff.1 hz.2).1
    have hbi := hi i hit
    have := h i r hz.2
    rw [hz.1] at hbi
    by_cases h2 : 2 * i < t.length
    · rw [if_pos h2] at this
      obtain rfl : b = true := by simpa using hbi.2 h2
      simpa using this
    · rw [if_neg h2] at this
      have hbf : b = false := by
        cases b
        · rfl
        · exact absurd (hbi.1 rfl) h2
      subst hbf
      simpa using this

/-- Two scalars and two vectors: the scalars are the gates, and the type is accepted; in the other order it is not. -/
example : defaultGates [1, 1, 2, 2] = some [true, true, false, false] ∧ gated1Check (· == 1) (fun _ => true) [1, 1, 2, 2] [true, true, false, false] = true ∧
    gated1Check (· == 1) (fun _ => true) [2, 2, 1, 1] [true, true, false, false] = false := by
  have hd : defaultGates [1, 1, 2, 2] = some [true, true, false, false] := by
    rw [c34_default_gates]
    refine ⟨rfl, rfl, fun i hi => ?_⟩
    simp only [List.length_cons, List.length_nil] at hi ⊢
    interval_cases i <;> simp
  refine ⟨hd, (c34_default_accepts _ _ _ _ hd).2 fun i r hr => ?_, by decide⟩
  have hi : i < 4 := (List.getElem?_eq_some_iff.1 hr).1
  interval_cases i <;> simp at hr <;> subst hr <;> simp

end E2
