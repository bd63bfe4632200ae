import Verif.Model.Invariant
import Verif.Lemmas.Nonlin

/-! Lemmas on the loops of the invariant maps. -/

namespace E2

open Mat

variable {P R L V W : Type}

theorem mem_firstKeys [DecidableEq L] (l : List L) (a : L) : a ∈ firstKeys l ↔ a ∈ l := by
  induction l with
  | nil => simp [firstKeys]
  | cons b l ih =>
    rw [firstKeys, List.mem_cons, List.mem_filter, ih, List.mem_cons]
    by_cases h : a = b <;> simp [h]

theorem firstKeys_nodup [DecidableEq L] (l : List L) : (firstKeys l).Nodup := by
  induction l with
  | nil => simp [firstKeys]
  | cons b l ih =>
    rw [firstKeys, List.nodup_cons]
    exact ⟨by simp, ih.filter _⟩

theorem chunks_ones (y : List V) : chunks (List.replicate y.length 1) y = y.map fun v => [v] := by
  have : y = (y.map fun v => [v]).flatten := by
    induction y with
    | nil => rfl
    | cons a y ih => rw [List.map_cons, List.flatten_cons, ← ih]; rfl
  conv_lhs => rw [this]
  refine chunks_of_flatten' _ ?_
  rw [List.map_map, ← this]
  simp [Function.comp_def]

theorem chanIdx_ones (n : ℕ) (fs : List ℕ) (h : ∀ c ∈ fs, c < n) : chanIdx (List.replicate n 1) fs = fs := by
  induction fs with
  | nil => rfl
  | cons c fs ih =>
    have hc : c < n := h c (by simp)
    rw [chanIdx, List.flatMap_cons, ← chanIdx, ih fun c hc => h c (by simp [hc])]
    have : offset (List.replicate n 1) c = c := by simp [offset, List.take_replicate]; omega
    rw [this]
    simp [hc]

/-- The loop with one output channel for each field. -/
theorem poolLoop_spec [DecidableEq L] (x : List V) (labels : List L) (sizes : List ℕ) (hx : x.length = sizes.sum) (hl : labels.length = sizes.length)
    (contig : L → Bool) (s : L → ℕ) (f : L → List V → W) (hs : ∀ l ∈ labels, 0 < s l)
    (hsi : ∀ (c : ℕ) l, labels[c]? = some l → sizes[c]? = some (s l))
    (hf : ∀ l ∈ labels, FlagOk (contig l) (chanIdx sizes (posOf labels l)) ∧ FlagOk (contig l) (posOf labels l)) (out : List W)
    (hout : out.length = labels.length) :
    ∃ y, fieldLoop x contig (fun l => chanIdx sizes (posOf labels l)) (posOf labels) (labelCount labels)
        (fun l => eachField (s l) fun _ fld => [f l fld]) (firstKeys labels) 0 out = some y ∧ y.length = labels.length ∧
      ∀ (c : ℕ) l, labels[c]? = some l → y[c]? = ((chunks sizes x)[c]?).map (f l) := by
  have hso : ∀ l, chanIdx (List.replicate labels.length 1) (posOf labels l) = posOf labels l := fun l =>
    chanIdx_ones _ _ fun c hc => posOf_lt hc
  have e1 : ∀ l, labelChannels labels sizes l = chanIdx sizes (posOf labels l) := fun l => (labelIdx_eq labels sizes hl l).1
  have e2 : ∀ l, labelChannels labels (List.replicate labels.length 1) l = posOf labels l := fun l => by
    rw [← hso l]; exact (labelIdx_eq labels (List.replicate labels.length 1) (by simp) l).1
  obtain ⟨y, h1, h2, h3⟩ := fieldLoop_spec x labels sizes (List.replicate labels.length 1) hx hl (by simp) contig s (fun _ => 1)
    (fun l _ fld => [f l fld]) (firstKeys labels) (firstKeys_nodup labels) (fun l hl => hs l ((mem_firstKeys _ _).1 hl)) hsi
    (fun c l h => by
      have := (List.getElem?_eq_some_iff.1 h).1
      rw [List.getElem?_replicate, if_pos this])
    (fun l hl => by rw [e1]; exact (hf l ((mem_firstKeys _ _).1 hl)).1) (fun l hl => by rw [e2]; exact (hf l ((mem_firstKeys _ _).1 hl)).2)
    (fun _ _ _ _ _ => rfl) out (by simpa using hout)
  rw [funext e1, funext e2] at h1
  have hy : y.length = labels.length := by simpa using h2
  refine ⟨y, h1, hy, fun c l hc => ?_⟩
  have hcl : c < labels.length := (List.getElem?_eq_some_iff.1 hc).1
  have hperm := fieldOrder_perm labels (firstKeys labels) (firstKeys_nodup labels) (fun l hl => (mem_firstKeys _ _).2 hl)
  obtain ⟨j, hj⟩ := List.mem_iff_getElem?.1 (hperm.mem_iff.2 (List.mem_range.2 hcl))
  obtain ⟨l', hl', h4⟩ := h3 j c hj
  rw [hc] at hl'
  obtain rfl := Option.some.inj hl'
  rw [← hy, chunks_ones, List.getElem?_map] at h4
  cases hyc : y[c]? with
  | none => rw [hyc] at h4; cases hk : (chunks sizes x)[c]? with
    | none => rfl
    | some k => rw [hk] at h4; simp at h4
  | some v => rw [hyc] at h4; cases hk : (chunks sizes x)[c]? with
    | none => rw [hk] at h4; simp at h4
    | some k => rw [hk] at h4; simpa using h4

/-- Consecutive channels belong to consecutive fields. -/
theorem posOf_consecutive [DecidableEq L] (labels : List L) (sizes : List ℕ) (hl : labels.length = sizes.length) (hpos : ∀ s ∈ sizes, 0 < s) (l : L)
    (hne : posOf labels l ≠ []) {a n : ℕ} (h : chanIdx sizes (posOf labels l) = List.range' a n) : ∃ b m, posOf labels l = List.range' b (m + 1) := by
  have hp := posOf_pairwise labels l
  obtain ⟨b, ps, hb⟩ := List.exists_cons_of_ne_nil hne
  have hlt : ∀ c ∈ posOf labels l, c < sizes.length := fun c hc => hl ▸ posOf_lt hc
  have hmem : ∀ c, c < sizes.length → (∃ k, offset sizes c ≤ k ∧ k < offset sizes (c + 1) ∧ k ∈ chanIdx sizes (posOf labels l)) → c ∈ posOf labels l := by
    rintro c hc ⟨k, h1, h2, h3⟩
    rw [chanIdx, List.mem_flatMap] at h3
    obtain ⟨q, hq, hk⟩ := h3
    rw [List.getElem?_eq_getElem (hlt q hq), Option.getD_some, List.mem_range'_1] at hk
    have e := offset_succ sizes (hlt q hq)
    have : q = c := by
      rcases lt_trichotomy q c with h | h | h
      · have := offset_mono sizes (show q + 1 ≤ c by omega); omega
      · exact h
      · have := offset_mono sizes (show c + 1 ≤ q by omega); omega
    exact this ▸ hq
  have hin : ∀ c ∈ posOf labels l, offset sizes c ∈ List.range' a n := by
    intro c hc
    rw [← h, chanIdx, List.mem_flatMap]
    refine ⟨c, hc, ?_⟩
    rw [List.getElem?_eq_getElem (hlt c hc), Option.getD_some, List.mem_range'_1]
    have := hpos _ (List.getElem_mem (hlt c hc))
    omega
  -- closed under going down to `b`
  have hclosed : ∀ c d, c ∈ posOf labels l → b ≤ d → d ≤ c → d ∈ posOf labels l := by
    intro c d hc h1 h2
    have hd : d < sizes.length := lt_of_le_of_lt h2 (hlt c hc)
    have hbm : b ∈ posOf labels l := by rw [hb]; simp
    have o1 := hin b hbm
    have o2 := hin c hc
    rw [List.mem_range'_1] at o1 o2
    have m1 := offset_mono sizes h1
    have m2 := offset_mono sizes h2
    have e := offset_succ sizes hd
    have := hpos _ (List.getElem_mem hd)
    exact hmem d hd ⟨offset sizes d, le_rfl, by omega, by rw [h, List.mem_range'_1]; omega⟩
  have hlast := List.getLast_mem hne
  set e := (posOf labels l).getLast hne with he
  have hle : ∀ c ∈ posOf labels l, b ≤ c ∧ c ≤ e := by
    intro c hc
    constructor
    · rw [hb] at hc hp
      rcases List.mem_cons.1 hc with rfl | hc'
      · exact le_rfl
      · exact (List.rel_of_pairwise_cons hp hc').le
    · obtain ⟨i, hi, rfl⟩ := List.getElem_of_mem hc
      rw [he, List.getLast_eq_getElem]
      rcases Nat.lt_or_ge i ((posOf labels l).length - 1) with h | h
      · exact (List.pairwise_iff_getElem.1 hp i _ hi (by omega) h).le
      · have : i = (posOf labels l).length - 1 := by omega
        simp only [this, le_refl]
  refine ⟨b, e - b, ?_⟩
  have hbe := (hle e hlast).1
  refine List.Perm.eq_of_pairwise (le := (· < ·)) (fun a b _ _ h1 h2 => absurd h1 (lt_asymm h2)) hp ?_ ?_
  · exact List.pairwise_lt_range'
  · rw [List.perm_ext_iff_of_nodup (posOf_nodup _ _) List.nodup_range']
    intro d
    rw [List.mem_range'_1]
    constructor
    · intro hd; have := hle d hd; omega
    · intro hd; exact hclosed e d hlast (by omega) (by omega)

theorem flagOk_indexes (sz : R → ℕ) (t : List R) (hpos : ∀ r ∈ t, 0 < sz r) [DecidableEq L] (labels : List L) (hl : labels.length = t.length) {l : L}
    (hm : l ∈ labels) :
    ∃ b, indexesFromLabels sz t labels l = some (b, posOf labels l, chanIdx (t.map sz) (posOf labels l)) ∧
      FlagOk b (chanIdx (t.map sz) (posOf labels l)) ∧ FlagOk b (posOf labels l) := by
  have hl' : labels.length = (t.map sz).length := by simpa using hl
  have hpos' : ∀ s ∈ t.map sz, 0 < s := by
    intro s hs
    obtain ⟨r, hr, rfl⟩ := List.mem_map.1 hs
    exact hpos r hr
  obtain ⟨c, hc⟩ := List.mem_iff_getElem?.1 hm
  have hcm := mem_posOf.2 hc
  have hne : posOf labels l ≠ [] := List.ne_nil_of_mem hcm
  have hidx : chanIdx (t.map sz) (posOf labels l) ≠ [] := by
    have hcl : c < (t.map sz).length := hl' ▸ posOf_lt hcm
    refine List.ne_nil_of_mem (a := offset (t.map sz) c) ?_
    rw [chanIdx, List.mem_flatMap]
    refine ⟨c, hcm, ?_⟩
    rw [List.getElem?_eq_getElem hcl, Option.getD_some, List.mem_range'_1]
    have := hpos' _ (List.getElem_mem hcl)
    omega
  obtain ⟨b, hb, hb2⟩ := checkConsecutive_iff _ hidx (chanIdx_pairwise (t.map sz) _ (fun c hc => hl' ▸ posOf_lt hc) (posOf_pairwise labels l))
  refine ⟨b, ?_, ?_, ?_⟩
  · rw [indexesFromLabels, if_pos hl, if_pos hm]
    simp only [(labelIdx_eq labels (t.map sz) hl' l).1, (labelIdx_eq labels (t.map sz) hl' l).2, hb, Option.map_some]
  · intro e
    obtain ⟨a, ha⟩ := hb2.1 e
    obtain ⟨n, hn⟩ : ∃ n, (chanIdx (t.map sz) (posOf labels l)).length = n + 1 :=
      Nat.exists_eq_succ_of_ne_zero fun h => hidx (List.length_eq_zero_iff.1 h)
    exact ⟨a, n, by rw [← hn]; exact ha⟩
  · intro e
    obtain ⟨a, ha⟩ := hb2.1 e
    obtain ⟨b', m, h⟩ := posOf_consecutive labels (t.map sz) hl' hpos' l hne ha
    exact ⟨b', m, h⟩

/-- The values of the maps which group the fields by size. -/
theorem poolBySize_spec [DecidableEq R] (sz : R → ℕ) (t : List R) (ht : t ≠ []) (triv : R) (htriv : sz triv = 1) (f : List (P → ℝ) → P → ℝ)
    (hpos : ∀ r ∈ t, 0 < sz r) (junk : List (P → ℝ)) (hj : junk.length = t.length) (x : GTensor R (P → ℝ)) (hx : x.WF sz) (hxt : x.ty = t) :
    ∃ d, poolBySize sz t triv f junk x = some ⟨List.replicate t.length triv, d⟩ ∧ d.length = t.length ∧
      ∀ c : ℕ, c < t.length → d[c]? = ((x.fields sz)[c]?).map f := by
  subst hxt
  have hkey := fun s (hs : s ∈ x.ty.map sz) => flagOk_indexes sz x.ty hpos (x.ty.map sz) (by simp) hs
  have hin : ∀ s, ((indexesFromLabels sz x.ty (x.ty.map sz) s).map fun e => e.2.2).getD [] = chanIdx (x.ty.map sz) (posOf (x.ty.map sz) s) ∧
      ((indexesFromLabels sz x.ty (x.ty.map sz) s).map fun e => e.2.1).getD [] = posOf (x.ty.map sz) s := by
    intro s
    by_cases hs : s ∈ x.ty.map sz
    · obtain ⟨b, hb, -⟩ := hkey s hs
      rw [hb]; exact ⟨rfl, rfl⟩
    · have hnil : posOf (x.ty.map sz) s = [] := by
        rw [List.eq_nil_iff_forall_not_mem]
        intro c hc
        exact hs (List.mem_of_getElem? (mem_posOf.1 hc))
      rw [indexesFromLabels, if_pos (by simp), if_neg hs, hnil]
      exact ⟨rfl, rfl⟩
  obtain ⟨y, h1, h2, h3⟩ := poolLoop_spec x.data (x.ty.map sz) (x.ty.map sz) hx.2 rfl
    (fun s => ((indexesFromLabels sz x.ty (x.ty.map sz) s).map fun e => e.1).getD false) id (fun _ => f)
    (fun s hs => by obtain ⟨r, hr, rfl⟩ := List.mem_map.1 hs; exact hpos r hr) (fun c l h => h)
    (fun s hs => by obtain ⟨b, hb, hb2⟩ := hkey s hs; simp only [hb]; exact hb2) junk (by simpa using hj)
  refine ⟨y, ?_, by simpa using h2, ?_⟩
  · rw [poolBySize, if_pos rfl]
    simp only [funext fun s => (hin s).1, funext fun s => (hin s).2]
    rw [show (fun s => eachField s fun (_ : ℕ) (fld : List (P → ℝ)) => [f fld]) = (fun s : ℕ => eachField (id s) fun _ fld => [f fld]) from rfl, h1]
    dsimp only
    rw [mkGT, if_pos]
    rw [typeSize, List.map_replicate, htriv, List.sum_replicate, smul_eq_mul, mul_one]
    simpa using h2
  · intro c hc
    rw [h3 c ((x.ty.map sz)[c]'(by simpa using hc)) (List.getElem?_eq_getElem _)]
    rfl

end E2
