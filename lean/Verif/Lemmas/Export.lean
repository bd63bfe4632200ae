import Verif.Model.Export
import Verif.Props.BatchNorm
import Verif.Props.Invariant
import Verif.Lemmas.Tensor

/-!
Lemmas about the exports.
-/

set_option linter.unusedSectionVars false

namespace E2

variable {B R P : Type}

theorem mapIdx_const_flatten {V W : Type} (l : List V) (f : ℕ → List W) : (l.mapIdx fun k _ => f k).flatten = (List.range l.length).flatMap f := by
  rw [List.flatMap_def]
  congr 1
  apply List.ext_getElem (by simp)
  intro i h1 h2
  simp

/-- The loop of the export writes the same values as a loop over the fields of any tensor. -/
theorem expandFields_eq {V : Type} (x : List V) (contig : ℕ → Bool) (idx : ℕ → List ℕ) (nf : ℕ → ℕ) (vals : ℕ → ℝ) (order : List ℕ)
    (hs : ∀ s ∈ order, 0 < s) (hf : ∀ s ∈ order, FlagOk (contig s) (idx s)) (hlt : ∀ s ∈ order, ∀ i ∈ idx s, i < x.length) (next : ℕ)
    (out y : List ℝ) (h : expandFields contig idx nf vals order next out = some y) :
    fieldLoop x contig idx idx nf (fun s => eachField s fun k _ => List.replicate s (vals k)) order next out = some y := by
  induction order generalizing next out with
  | nil => exact h
  | cons s ss ih =>
    rw [expandFields] at h
    split_ifs at h with hc
    split at h
    · simp at h
    · rename_i out' hw
      have hok := readGroup_ok (x := x) (hf s List.mem_cons_self) (hlt s List.mem_cons_self)
      have hlen : ((List.range (nf s)).flatMap fun k => List.replicate s (vals (next + k))).length = (idx s).length := by
        rw [writeGroup] at hw
        by_contra hl
        rw [if_neg hl] at hw
        simp at hw
      have hn : nf s * s = (idx s).length := by
        rw [← hlen, List.length_flatMap]
        simp
      have hg : ∃ g, readGroup x (contig s) (idx s) = some g ∧ g.length = (idx s).length := by
        obtain ⟨g, hg⟩ := gather_isSome x (idx s) (hlt s List.mem_cons_self)
        exact ⟨g, hok.trans hg, gather_length hg⟩
      obtain ⟨g, hg, hgl⟩ := hg
      rw [fieldLoop, hg]
      dsimp only
      have he : eachField s (fun k (_ : List V) => List.replicate s (vals k)) next g
          = (List.range (nf s)).flatMap fun k => List.replicate s (vals (next + k)) := by
        rw [eachField, mapIdx_const_flatten, viewFields, chunks_length, List.length_replicate, hgl, ← hn,
          Nat.mul_div_cancel _ (hs s List.mem_cons_self)]
      rw [he, hc, hw]
      exact ih (fun s hs' => hs s (List.mem_cons_of_mem _ hs')) (fun s hs' => hf s (List.mem_cons_of_mem _ hs'))
        (fun s hs' => hlt s (List.mem_cons_of_mem _ hs')) _ _ h

/-- A buffer of the exported module: the channels of a field all carry the value of the field. -/
theorem exportBuffer_spec [DecidableEq R] (sz : R → ℕ) (t : List R) (hpos : ∀ r ∈ t, 0 < sz r) (vals : ℕ → ℝ) (init : ℝ) (y : List ℝ)
    (h : exportBuffer sz t vals init = some y) :
    y.length = typeSize sz t ∧ ∀ j c : ℕ, (fieldOrder (t.map sz) (firstKeys (t.map sz)))[j]? = some c →
      ∃ s, (t.map sz)[c]? = some s ∧ (chunks (t.map sz) y)[c]? = some (List.replicate s (vals j)) := by
  have hmem : ∀ s ∈ firstKeys (t.map sz), s ∈ t.map sz := fun s hs => (mem_firstKeys _ _).1 hs
  have hs : ∀ s ∈ firstKeys (t.map sz), 0 < s := by
    intro s hs
    obtain ⟨r, hr, rfl⟩ := List.mem_map.1 (hmem s hs)
    exact hpos r hr
  have hf : ∀ s ∈ firstKeys (t.map sz), FlagOk (((indexesFromLabels sz t (t.map sz) s).map fun e => e.1).getD false)
      (labelChannels (t.map sz) (t.map sz) s) := fun s hs => inner_flagOk sz t hpos (hmem s hs)
  have hx : (List.replicate (t.map sz).sum ()).length = (t.map sz).sum := List.length_replicate
  have hlt : ∀ s ∈ firstKeys (t.map sz), ∀ i ∈ labelChannels (t.map sz) (t.map sz) s, i < (List.replicate (t.map sz).sum ()).length := by
    intro s _ i hi
    rw [show labelChannels (t.map sz) (t.map sz) s = _ from (labelIdx_eq (t.map sz) (t.map sz) rfl s).1] at hi
    rw [hx]
    exact chanIdx_lt _ _ (fun c hc => posOf_lt hc) i hi
  have h1 := expandFields_eq (List.replicate (t.map sz).sum ()) _ _ _ vals _ hs hf hlt 0 _ y h
  obtain ⟨y', g1, g2, g3⟩ := fieldLoop_spec (List.replicate (t.map sz).sum ()) (t.map sz) (t.map sz) (t.map sz) hx rfl rfl
    (fun s => ((indexesFromLabels sz t (t.map sz) s).map fun e => e.1).getD false) id id (fun s k _ => List.replicate s (vals k))
    (firstKeys (t.map sz)) (firstKeys_nodup _) hs (fun c l h => h) (fun c l h => h) hf hf (fun l _ k fld _ => List.length_replicate)
    (List.replicate (typeSize sz t) init) List.length_replicate
  have : y' = y := Option.some.inj (g1.symm.trans h1)
  subst this
  refine ⟨g2, fun j c hjc => ?_⟩
  obtain ⟨s, k1, k2⟩ := g3 j c hjc
  refine ⟨s, k1, ?_⟩
  have hc : c < (t.map sz).length := (List.getElem?_eq_some_iff.1 k1).1
  rw [k2, chunks_get _ _ hc]
  rfl

end E2
