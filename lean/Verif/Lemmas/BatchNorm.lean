import Verif.Model.BatchNorm
import Verif.Lemmas.Invariant
import Verif.Lemmas.Nonlin
import Verif.Props.NonlinSpec

/-! Lemmas on the loops of the batch normalisations. -/

namespace E2

open Mat

variable {P R L S V : Type}

theorem updLoop_spec [DecidableEq L] (x : List V) (labels : List L) (sizes : List ℕ) (hx : x.length = sizes.sum) (hl : labels.length = sizes.length)
    (contig : L → Bool) (s : L → ℕ) (upd : L → ℕ → List V → S → S) (order : List L) (hs : ∀ l ∈ order, 0 < s l)
    (hsi : ∀ (c : ℕ) l, labels[c]? = some l → sizes[c]? = some (s l)) (hf : ∀ l ∈ order, FlagOk (contig l) (labelChannels labels sizes l))
    (next : ℕ) (st : ℕ → S) :
    ∃ st', updLoop x contig (labelChannels labels sizes) (labelCount labels) s upd order next st = some st' ∧
      (∀ j c : ℕ, (fieldOrder labels order)[j]? = some c → ∃ l fld, labels[c]? = some l ∧ (chunks sizes x)[c]? = some fld ∧
        st' (next + j) = upd l (next + j) fld (st (next + j))) ∧
      ∀ k, k < next ∨ next + (fieldOrder labels order).length ≤ k → st' k = st k := by
  induction order generalizing next st with
  | nil => exact ⟨st, rfl, by simp [fieldOrder], fun _ _ => rfl⟩
  | cons l ls ih =>
    have e1 : labelChannels labels sizes l = chanIdx sizes (posOf labels l) := (labelIdx_eq labels sizes hl l).1
    have hlt : ∀ c ∈ posOf labels l, c < sizes.length := fun c hc => hl ▸ posOf_lt hc
    obtain ⟨g, hg1, hg2, hg3⟩ := chunks_gather sizes x hx (posOf labels l) hlt
    have hsz : (posOf labels l).map (fun c => sizes[c]?.getD 0) = List.replicate (posOf labels l).length (s l) := by
      rw [List.eq_replicate_iff]
      refine ⟨by simp, fun b hb => ?_⟩
      obtain ⟨c, hc, rfl⟩ := List.mem_map.1 hb
      rw [hsi c l (mem_posOf.1 hc)]; rfl
    rw [hsz] at hg2 hg3
    have hgl : g.length = (posOf labels l).length * s l := by rw [hg3]; simp
    have hread : readGroup x (contig l) (labelChannels labels sizes l) = some g := by
      rw [readGroup_ok (hf l (by simp)) fun i hi => by rw [e1] at hi; rw [hx]; exact chanIdx_lt sizes _ hlt i hi, e1, hg1]
    have hv := viewFields_eq (s l) _ (hs l (by simp)) g hgl
    have hcnt : labelCount labels l = (posOf labels l).length := (posOf_length_eq labels l).symm
    have hord : fieldOrder labels (l :: ls) = posOf labels l ++ fieldOrder labels ls := by rw [fieldOrder, List.flatMap_cons, ← fieldOrder]
    have hvl : (viewFields (s l) g).length = (posOf labels l).length := by rw [hv, chunks_length]; simp
    obtain ⟨st', h1, h2, h3⟩ := ih (fun m hm => hs m (by simp [hm])) (fun m hm => hf m (by simp [hm])) (next + labelCount labels l)
      (fun j => if next ≤ j then
          match (viewFields (s l) g)[j - next]? with
          | none => st j
          | some fld => upd l j fld (st j)
        else st j)
    refine ⟨st', ?_, ?_, ?_⟩
    · rw [updLoop, hread]
      exact h1
    · intro j c hjc
      rw [hord] at hjc
      by_cases hj : j < (posOf labels l).length
      · rw [List.getElem?_append_left hj] at hjc
        have hcl := mem_posOf.1 (List.mem_of_getElem? hjc)
        have hk := congrArg (·[j]?) ((gather_some_iff _ _ _).1 hg2)
        simp only [List.getElem?_map, hjc, Option.map_some] at hk
        have hj' : j < (viewFields (s l) g).length := by omega
        rw [← hv, List.getElem?_eq_getElem hj'] at hk
        simp only [Option.map_some, Option.some.injEq] at hk
        refine ⟨l, _, hcl, hk, ?_⟩
        rw [h3 _ (Or.inl (by omega)), if_pos (by omega)]
        have e : (viewFields (s l) g)[next + j - next]? = some (viewFields (s l) g)[j] := by
          rw [show next + j - next = j by omega]; exact List.getElem?_eq_getElem hj'
        rw [e]
      · rw [List.getElem?_append_right (by omega)] at hjc
        obtain ⟨m, fld, g1, g2, g3⟩ := h2 _ _ hjc
        refine ⟨m, fld, g1, g2, ?_⟩
        have e : next + labelCount labels l + (j - (posOf labels l).length) = next + j := by omega
        rw [e] at g3
        rw [g3, if_pos (by omega)]
        have e' : (viewFields (s l) g)[next + j - next]? = none := by
          rw [List.getElem?_eq_none_iff]; omega
        rw [e']
    · intro k hk
      rw [hord, List.length_append] at hk
      rw [h3 k (by omega)]
      rcases hk with hk | hk
      · rw [if_neg (by omega)]
      · rw [if_pos (by omega)]
        have e' : (viewFields (s l) g)[k - next]? = none := by
          rw [List.getElem?_eq_none_iff]; omega
        rw [e']

/-- What `forward` does, field by field. -/
theorem bnForward_spec [DecidableEq L] (M : Normaliser P L S) (labels : List L) (sizes : List ℕ) (contig : L → Bool) (order : List L)
    (x out : List (P → ℝ)) (hx : x.length = sizes.sum) (ho : out.length = sizes.sum) (hl : labels.length = sizes.length)
    (hn : order.Nodup) (hs : ∀ l ∈ order, 0 < M.size l) (hsi : ∀ (c : ℕ) l, labels[c]? = some l → sizes[c]? = some (M.size l))
    (hf : ∀ l ∈ order, FlagOk (contig l) (labelChannels labels sizes l))
    (ha : ∀ b l k fld st, l ∈ order → fld.length = M.size l → (M.apply b l k fld st).length = M.size l) (training : Bool) (st : NormState S) :
    ∃ st' y, bnForward M labels sizes contig order training st x out = some (st', y) ∧ y.length = sizes.sum ∧
      st'.batches = (if training then st.batches + 1 else st.batches) ∧
      (∀ j c : ℕ, (fieldOrder labels order)[j]? = some c → ∃ l fld, labels[c]? = some l ∧ (chunks sizes x)[c]? = some fld ∧
        st'.stats j = (if training then M.update l j (st.batches + 1) fld (st.stats j) else st.stats j) ∧
        (chunks sizes y)[c]? = some (M.apply training l j fld (st'.stats j))) ∧
      ∀ k, (fieldOrder labels order).length ≤ k → st'.stats k = st.stats k := by
  have hu : ∃ stats, (if training then updLoop x contig (labelChannels labels sizes) (labelCount labels) M.size
      (fun l k => M.update l k (if training then st.batches + 1 else st.batches)) order 0 st.stats else some st.stats) = some stats ∧
      (∀ j c : ℕ, (fieldOrder labels order)[j]? = some c → ∃ l fld, labels[c]? = some l ∧ (chunks sizes x)[c]? = some fld ∧
        stats j = (if training then M.update l j (st.batches + 1) fld (st.stats j) else st.stats j)) ∧
      ∀ k, (fieldOrder labels order).length ≤ k → stats k = st.stats k := by
    cases training with
    | false =>
      refine ⟨st.stats, rfl, fun j c hjc => ?_, fun _ _ => rfl⟩
      obtain ⟨l, -, hc⟩ := List.mem_flatMap.1 (List.mem_of_getElem? hjc)
      have : c < (chunks sizes x).length := by rw [chunks_length, ← hl]; exact posOf_lt hc
      exact ⟨l, _, mem_posOf.1 hc, List.getElem?_eq_getElem this, rfl⟩
    | true =>
      obtain ⟨st', h1, h2, h3⟩ := updLoop_spec x labels sizes hx hl contig M.size (fun l k => M.update l k (st.batches + 1)) order hs hsi hf 0 st.stats
      refine ⟨st', h1, fun j c hjc => ?_, fun k hk => h3 k (Or.inr (by omega))⟩
      obtain ⟨l, fld, g1, g2, g3⟩ := h2 j c hjc
      rw [Nat.zero_add] at g3
      exact ⟨l, fld, g1, g2, g3⟩
  obtain ⟨stats, u1, u2, u3⟩ := hu
  obtain ⟨y, h1, h2, h3⟩ := fieldLoop_spec x labels sizes sizes hx hl hl contig M.size M.size (fun l k fld => M.apply training l k fld (stats k)) order hn hs
    hsi hsi hf hf (fun l hl k fld hfld => ha training l k fld _ hl hfld) out ho
  refine ⟨⟨if training then st.batches + 1 else st.batches, stats⟩, y, ?_, h2, rfl, ?_, u3⟩
  · unfold bnForward
    dsimp only
    rw [u1]
    dsimp only
    rw [h1]
  · intro j c hjc
    obtain ⟨l, fld, g1, g2, g3⟩ := u2 j c hjc
    refine ⟨l, fld, g1, g2, g3, ?_⟩
    obtain ⟨l', k1, k2⟩ := h3 j c hjc
    rw [g1] at k1
    rw [k2, g2, Option.some.inj k1]
    rfl

end E2
