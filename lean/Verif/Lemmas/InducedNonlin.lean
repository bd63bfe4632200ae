import Verif.Model.InducedNonlin
import Verif.Lemmas.Gated
import Verif.Props.Invariant

/-!
# Lemmas for the nonlinearities of induced representations
-/

set_option linter.unusedSectionVars false

namespace E2

open Mat

variable {P R L V W : Type}

theorem eachField_append (s : ℕ) (hs : 0 < s) (φ : ℕ → List V → List W) (N a b : ℕ) (g1 g2 : List V) (h1 : g1.length = a * s)
    (h2 : g2.length = b * s) : eachField s φ N (g1 ++ g2) = eachField s φ N g1 ++ eachField s φ (N + a) g2 := by
  rw [eachField, eachField, eachField, viewFields_eq s (a + b) hs _ (by rw [List.length_append, h1, h2, add_mul]), viewFields_eq s a hs _ h1,
    viewFields_eq s b hs _ h2, List.replicate_add, chunks_append _ _ _ _ (by rw [List.sum_replicate, smul_eq_mul, h1]), List.mapIdx_append,
    List.flatten_append, chunks_length, List.length_replicate]
  congr 3
  funext i
  rw [← add_assoc, add_right_comm]

theorem eachField_one (s : ℕ) (hs : 0 < s) (φ : ℕ → List V → List W) (N : ℕ) (g : List V) (h : g.length = s) : eachField s φ N g = φ N g := by
  rw [eachField, viewFields_eq s 1 hs _ (by omega)]
  simp only [List.replicate_one, chunks]
  rw [List.take_of_length_le (by omega)]
  simp

/-- Fields of `q` subfields treated one after the other. -/
theorem eachField_sub (s q : ℕ) (hs : 0 < s) (hq : 0 < q) (φ : ℕ → List V → List W) (n next : ℕ) (g : List V) (h : g.length = n * (q * s)) :
    eachField s φ (next * q) g = eachField (q * s) (fun k fld => eachField s φ (k * q) fld) next g := by
  have hqs : 0 < q * s := Nat.mul_pos hq hs
  induction n generalizing next g with
  | zero =>
    have : g = [] := List.length_eq_zero_iff.1 (by simpa using h)
    subst this
    simp [eachField, viewFields, chunks]
  | succ n ih =>
    have hl : (g.take (q * s)).length = q * s := by rw [List.length_take, h, Nat.succ_mul]; omega
    have hd : (g.drop (q * s)).length = n * (q * s) := by rw [List.length_drop, h, Nat.succ_mul]; omega
    have e1 := eachField_append s hs φ (next * q) q (n * q) (g.take (q * s)) (g.drop (q * s)) hl (by rw [hd, _root_.mul_assoc])
    have e2 := eachField_append (q * s) hqs (fun k fld => eachField s φ (k * q) fld) next 1 n (g.take (q * s)) (g.drop (q * s)) (by omega) hd
    rw [List.take_append_drop] at e1 e2
    rw [e1, e2, eachField_one _ hqs _ _ _ hl, ← ih (next + 1) _ hd, add_mul, one_mul]

theorem eachField_get (s : ℕ) (hs : 0 < s) (φ : ℕ → List V → List W) (hφ : ∀ k fld, fld.length = s → (φ k fld).length = s) (n N : ℕ) (g : List V)
    (h : g.length = n * s) : (eachField s φ N g).length = n * s ∧
      ∀ i < n * s, (eachField s φ N g)[i]? = (φ (N + i / s) ((g.drop (i / s * s)).take s))[i % s]? := by
  induction n generalizing N g with
  | zero =>
    have : g = [] := List.length_eq_zero_iff.1 (by simpa using h)
    subst this
    exact ⟨by simp [eachField, viewFields, chunks], fun i hi => by omega⟩
  | succ n ih =>
    have hl : (g.take s).length = s := by rw [List.length_take, h, Nat.succ_mul]; omega
    have hd : (g.drop s).length = n * s := by rw [List.length_drop, h, Nat.succ_mul]; omega
    have e1 := eachField_append s hs φ N 1 n (g.take s) (g.drop s) (by omega) hd
    rw [List.take_append_drop, eachField_one _ hs _ _ _ hl] at e1
    obtain ⟨i1, i2⟩ := ih (N + 1) _ hd
    have hfl := hφ N _ hl
    rw [e1]
    refine ⟨by rw [List.length_append, i1, hfl, Nat.succ_mul]; omega, fun i hi => ?_⟩
    by_cases his : i < s
    · rw [List.getElem?_append_left (by omega), Nat.div_eq_of_lt his, Nat.mod_eq_of_lt his, zero_mul, List.drop_zero, add_zero]
    · rw [List.getElem?_append_right (by omega), hfl, i2 (i - s) (by rw [Nat.succ_mul] at hi; omega)]
      obtain ⟨j, rfl⟩ : ∃ j, i = j + s := ⟨i - s, by omega⟩
      rw [Nat.add_sub_cancel, Nat.add_div_right _ hs, Nat.add_mod_right, List.drop_drop, Nat.succ_mul, add_comm s,
        show N + 1 + j / s = N + (j / s + 1) by omega]

theorem fieldLoop_congr (x : List V) (contig : L → Bool) (inIdx outIdx : L → List ℕ) (nf : L → ℕ) (f f' : L → ℕ → List V → List W)
    (order : List L) (h : ∀ l ∈ order, ∀ next g, readGroup x (contig l) (inIdx l) = some g → f l next g = f' l next g) (next : ℕ)
    (out : List W) : fieldLoop x contig inIdx outIdx nf f order next out = fieldLoop x contig inIdx outIdx nf f' order next out := by
  induction order generalizing next out with
  | nil => rfl
  | cons l order ih =>
    rw [fieldLoop, fieldLoop]
    cases hr : readGroup x (contig l) (inIdx l) with
    | none => rfl
    | some g =>
      dsimp only
      rw [h l (by simp) next g hr]
      cases writeGroup out (contig l) (outIdx l) (f' l next g) with
      | none => rfl
      | some o => exact ih (fun l hl => h l (by simp [hl])) _ _

theorem readGroup_length {x : List V} {si : List ℕ} (hx : x.length = si.sum) {b : Bool} {fs : List ℕ} {s : ℕ}
    (hs : ∀ c ∈ fs, si[c]? = some s) (hf : FlagOk b (chanIdx si fs)) {g : List V} (h : readGroup x b (chanIdx si fs) = some g) :
    g.length = fs.length * s := by
  have hlt : ∀ c ∈ fs, c < si.length := fun c hc => (List.getElem?_eq_some_iff.1 (hs c hc)).1
  rw [readGroup_ok hf (fun i hi => by rw [hx]; exact chanIdx_lt _ _ hlt i hi)] at h
  obtain ⟨y, h1, -, h3⟩ := chunks_gather si x hx fs hlt
  rw [h1] at h
  cases h
  rw [h3, List.map_congr_left (g := fun _ => s) (fun c hc => by rw [hs c hc]; rfl), List.map_const', List.sum_replicate, smul_eq_mul]

theorem mem_sortedPairs (ids : List (ℕ × ℕ)) (l : ℕ × ℕ) : l ∈ sortedPairs ids ↔ l ∈ ids := by
  rw [sortedPairs, List.mem_mergeSort, List.mem_dedup]

theorem sortedPairs_nodup (ids : List (ℕ × ℕ)) : (sortedPairs ids).Nodup :=
  ((List.mergeSort_perm _ _).nodup_iff).2 (List.nodup_dedup _)

section
variable {K : Type} [DecidableEq K]

/-- The label of a field, which is a gate or gated. -/
def keyLab (key : R → K) (p : Bool × R) : Option K := if p.1 then none else some (key p.2)

theorem posOf_keyLab_none (key : R → K) (z : List (Bool × R)) : posOf (z.map (keyLab key)) none = posOf (z.map Prod.fst) true := by
  unfold posOf
  simp only [List.length_map]
  apply List.filter_congr
  intro i _
  rw [List.getElem?_map, List.getElem?_map]
  rcases z[i]? with _ | ⟨b, r⟩
  · simp
  · cases b <;> simp [keyLab]

theorem posOf_keyLab_some (key : R → K) (z : List (Bool × R)) (s : K) :
    posOf (z.map (keyLab key)) (some s) =
      (posOf (((z.filter fun p => !p.1).map Prod.snd).map fun r => some (key r)) (some s)).map
        fun i => (posOf (z.map Prod.fst) false)[i]?.getD 0 := by
  induction z using List.reverseRecOn with
  | nil => rfl
  | append_singleton z q ih =>
    obtain ⟨b, r⟩ := q
    rw [List.map_append, List.map_singleton, posOf_snoc, ih, List.filter_append, List.map_append, List.map_singleton, posOf_snoc]
    cases b with
    | true => simp [keyLab]
    | false =>
      have hl := posOf_false_length z
      simp only [keyLab, Bool.not_false, List.filter_cons_of_pos, List.filter_nil, List.map_append, List.map_cons, List.map_nil, posOf_snoc,
        Bool.false_eq_true, if_false, if_true, List.length_map, Option.some.injEq]
      congr 1
      · apply List.map_congr_left
        intro i hi
        have := posOf_lt hi
        rw [List.length_map, List.length_map, ← hl] at this
        rw [List.getElem?_append_left this]
      · by_cases h : key r = s
        · simp [h, ← hl]
        · simp [h]

end

end E2
