import Verif.Model.Init
import Mathlib.LinearAlgebra.Matrix.NonsingularInverse
import Mathlib.Data.Matrix.Mul
import Mathlib.LinearAlgebra.UnitaryGroup
import Mathlib.Data.List.GetD
import Mathlib.Algebra.BigOperators.Field

/-!
# C60: the delta-orthonormal initialisation
-/

set_option linter.unusedSectionVars false

namespace E2

open Finset Matrix

variable {Nm : Type} [DecidableEq Nm]

/-! ## Dictionaries and assignments -/

theorem keysOf_concat {α : Type} [DecidableEq α] (l : List α) (a : α) : keysOf (l ++ [a]) = if a ∈ keysOf l then keysOf l else keysOf l ++ [a] := by
  rw [keysOf, List.foldl_append]; rfl

theorem mem_keysOf {α : Type} [DecidableEq α] (l : List α) (x : α) : x ∈ keysOf l ↔ x ∈ l := by
  induction l using List.reverseRecOn with
  | nil => simp [keysOf]
  | append_singleton l a ih =>
    rw [keysOf_concat]
    split_ifs with h
    · rw [List.mem_append, List.mem_singleton, ← ih]
      exact ⟨Or.inl, fun h' => h'.elim id fun e => e ▸ h⟩
    · simp [ih]

theorem nodup_keysOf {α : Type} [DecidableEq α] (l : List α) : (keysOf l).Nodup := by
  induction l using List.reverseRecOn with
  | nil => simp [keysOf]
  | append_singleton l a ih =>
    rw [keysOf_concat]
    split_ifs with h
    · exact ih
    · exact List.Nodup.append ih (by simp) (by simpa using h)

/-- Writing a list of values one after the other. -/
def writeAll (ws : List (ℕ × ℝ)) (t : ℕ → ℝ) : ℕ → ℝ := ws.foldl (fun t w => Function.update t w.1 w.2) t

theorem writeAll_append (a b : List (ℕ × ℝ)) (t : ℕ → ℝ) : writeAll (a ++ b) t = writeAll b (writeAll a t) := List.foldl_append ..

theorem writeAll_other (ws : List (ℕ × ℝ)) (t : ℕ → ℝ) (k : ℕ) (h : ∀ w ∈ ws, w.1 ≠ k) : writeAll ws t k = t k := by
  induction ws generalizing t with
  | nil => rfl
  | cons w ws ih =>
    have := ih (Function.update t w.1 w.2) fun x hx => h x (by simp [hx])
    rw [writeAll, List.foldl_cons, ← writeAll, this, Function.update_of_ne (h w (by simp)).symm]

theorem writeAll_value (ws : List (ℕ × ℝ)) (t : ℕ → ℝ) (k : ℕ) (v : ℝ) (hm : (k, v) ∈ ws) (h : ∀ w ∈ ws, w.1 = k → w.2 = v) : writeAll ws t k = v := by
  induction ws using List.reverseRecOn with
  | nil => simp at hm
  | append_singleton ws w ih =>
    rw [writeAll_append]
    change Function.update (writeAll ws t) w.1 w.2 k = v
    by_cases hk : k = w.1
    · rw [hk, Function.update_self]
      exact h w (by simp) hk.symm
    · rw [Function.update_of_ne hk]
      refine ih ?_ fun x hx => h x (by simp [hx])
      rcases List.mem_append.1 hm with hm | hm
      · exact hm
      · rw [List.mem_singleton] at hm
        exact absurd (by rw [← hm]) hk

theorem foldl_writes {α : Type} (l : List α) (g : α → List (ℕ × ℝ)) (F : (ℕ → ℝ) → α → ℕ → ℝ) (hF : ∀ t a, F t a = writeAll (g a) t) (t : ℕ → ℝ) :
    l.foldl F t = writeAll (l.flatMap g) t := by
  induction l generalizing t with
  | nil => rfl
  | cons a l ih => rw [List.foldl_cons, ih, List.flatMap_cons, writeAll_append, hF]

/-- The assignments for an irrep as a list. -/
noncomputable def deltaWrites (ent : List (Nm × (ℕ × ℕ) × ℕ)) (d : DeltaDraw) (irr : Nm) : List (ℕ × ℝ) :=
  let keys := deltaKeys ent irr
  let ins := keysOf (keys.map Prod.fst)
  let outs := keysOf (keys.map Prod.snd)
  let s := (deltaList ent irr (keys.headD (0, 0))).length
  ins.zipIdx.flatMap fun ip => outs.zipIdx.flatMap fun op =>
    (deltaList ent irr (ip.1, op.1)).zipIdx.map fun p => (p.1, deltaRow d s op.2 p.2 * deltaW d ins.length outs.length op.2 ip.2)

theorem deltaIrrep_eq (ent : List (Nm × (ℕ × ℕ) × ℕ)) (d : DeltaDraw) (irr : Nm) (t : ℕ → ℝ) :
    deltaIrrep ent d irr t = writeAll (deltaWrites ent d irr) t := by
  unfold deltaIrrep deltaWrites
  refine foldl_writes _ _ _ (fun t ip => ?_) t
  refine foldl_writes _ _ _ (fun t op => ?_) t
  rw [writeAll, List.foldl_map]

/-! ## Specification -/

/-- The parameter at index `k` is in the centre of the filter (radius or order 0) and connects the irrep `irr` at the input position `ip` to the same irrep at the output position `op`. -/
def IsCentral (infos : List (WInfo Nm)) (irr : Nm) (ip op k : ℕ) : Prop :=
  ∃ a, infos[k]? = some a ∧ a.inIrr = irr ∧ a.outIrr = irr ∧ a.rad = some 0 ∧ a.inPos = ip ∧ a.outPos = op

open Classical in
/-- These indices in increasing order. -/
noncomputable def centralIdx (infos : List (WInfo Nm)) (irr : Nm) (ip op : ℕ) : List ℕ :=
  (List.range infos.length).filter fun k => decide (IsCentral infos irr ip op k)

open Classical in
/-- The input positions of the irrep `irr` in the centre. -/
noncomputable def centralIns (infos : List (WInfo Nm)) (irr : Nm) : Finset ℕ :=
  ((infos.filter fun a => decide (a.inIrr = irr ∧ a.outIrr = irr ∧ a.rad = some 0)).map WInfo.inPos).toFinset

open Classical in
/-- The output positions of the irrep `irr` in the centre. -/
noncomputable def centralOuts (infos : List (WInfo Nm)) (irr : Nm) : Finset ℕ :=
  ((infos.filter fun a => decide (a.inIrr = irr ∧ a.outIrr = irr ∧ a.rad = some 0)).map WInfo.outPos).toFinset

/-- Matrices like the identity alone, or the identity and the quarter turn: a basis of the maps commuting with an irrep, with the relations of orthonormal vectors. -/
def Clifford (s d : ℕ) (B : ℕ → Matrix (Fin d) (Fin d) ℝ) : Prop :=
  ∀ p < s, ∀ q < s, (B p)ᵀ * B q + (B q)ᵀ * B p = if p = q then 2 else 0

/-- The linear map in the centre from the input at `ip` to the output at `op`: the basis elements weighted by the tensor `t`. -/
noncomputable def centralMap (infos : List (WInfo Nm)) (irr : Nm) (t : ℕ → ℝ) {d : ℕ} (B : ℕ → Matrix (Fin d) (Fin d) ℝ) (op ip : ℕ) :
    Matrix (Fin d) (Fin d) ℝ :=
  ∑ p ∈ range (centralIdx infos irr ip op).length, t ((centralIdx infos irr ip op).getD p 0) • B p

/-! ## The dictionary `counts` -/

theorem mem_deltaEntries (infos : List (WInfo Nm)) (irr : Nm) (ip op k : ℕ) :
    (irr, (ip, op), k) ∈ deltaEntries infos ↔ IsCentral infos irr ip op k := by
  simp only [deltaEntries, List.mem_map, List.mem_filter, Prod.mk.injEq, IsCentral, central, decide_eq_true_eq]
  constructor
  · rintro ⟨q, ⟨h1, h2, h3⟩, h4, ⟨h5, h6⟩, rfl⟩
    exact ⟨q.1, List.mem_zipIdx_iff_getElem?.1 h1, h4, by rw [← h2, h4], h3, h5, h6⟩
  · rintro ⟨a, h1, h2, h3, h4, h5, h6⟩
    exact ⟨(a, k), ⟨List.mem_zipIdx_iff_getElem?.2 h1, by rw [h2, h3], h4⟩, h2, ⟨h5, h6⟩, rfl⟩

theorem deltaList_eq (infos : List (WInfo Nm)) (irr : Nm) (ip op : ℕ) : deltaList (deltaEntries infos) irr (ip, op) = centralIdx infos irr ip op := by
  classical
  have key : ∀ (l : List (WInfo Nm)) (n : ℕ) (P : WInfo Nm → Bool),
      ((l.zipIdx n).filter fun q => P q.1).map Prod.snd = ((List.range' n l.length).filter fun k => (l[k - n]?).any P) := by
    intro l
    induction l with
    | nil => intros; rfl
    | cons a l ih =>
      intro n P
      rw [List.zipIdx_cons, List.length_cons, List.range'_succ]
      have hrest : ((List.range' (n + 1) l.length).filter fun k => ((a :: l)[k - n]?).any P) = ((List.range' (n + 1) l.length).filter fun k => (l[k - (n + 1)]?).any P) := by
        refine List.filter_congr fun k hk => ?_
        obtain ⟨h1, -⟩ := List.mem_range'_1.1 hk
        have : k - n = (k - (n + 1)) + 1 := by omega
        rw [this, List.getElem?_cons_succ]
      by_cases hP : P a
      · rw [List.filter_cons_of_pos (by simpa using hP), List.filter_cons_of_pos (by simpa using hP), List.map_cons, ih, hrest]
      · rw [List.filter_cons_of_neg (by simpa using hP), List.filter_cons_of_neg (by simpa using hP), ih, hrest]
  have h1 : deltaList (deltaEntries infos) irr (ip, op)
      = ((infos.zipIdx).filter fun q => decide (q.1.inIrr = irr ∧ q.1.outIrr = irr ∧ q.1.rad = some 0 ∧ q.1.inPos = ip ∧ q.1.outPos = op)).map Prod.snd := by
    rw [deltaList, deltaEntries, List.filter_map, List.map_map, List.filter_filter]
    congr 1
    refine List.filter_congr fun q _ => ?_
    simp only [Function.comp_apply, central, Prod.mk.injEq, ← Bool.decide_and, decide_eq_decide]
    constructor
    · rintro ⟨⟨h1, h2, h3⟩, h4, h5⟩
      exact ⟨h1, by rw [← h4, h1], h5, h2, h3⟩
    · rintro ⟨h1, h2, h3, h4, h5⟩
      exact ⟨⟨h1, h4, h5⟩, by rw [h1, h2], h3⟩
  rw [h1, key infos 0 (fun a => decide (a.inIrr = irr ∧ a.outIrr = irr ∧ a.rad = some 0 ∧ a.inPos = ip ∧ a.outPos = op)), centralIdx, List.range_eq_range']
  refine List.filter_congr fun k _ => ?_
  rw [Nat.sub_zero]
  cases hk : infos[k]? with
  | none => simp [IsCentral, hk]
  | some a => simp [IsCentral, hk]

theorem mem_deltaKeys (infos : List (WInfo Nm)) (irr : Nm) (ip op : ℕ) :
    (ip, op) ∈ deltaKeys (deltaEntries infos) irr ↔ ∃ k, IsCentral infos irr ip op k := by
  rw [deltaKeys, mem_keysOf]
  simp only [List.mem_map, List.mem_filter, decide_eq_true_eq]
  constructor
  · rintro ⟨⟨i, pq, k⟩, ⟨h1, rfl⟩, h2⟩
    simp only at h2
    subst h2
    exact ⟨k, (mem_deltaEntries infos i ip op k).1 h1⟩
  · rintro ⟨k, hk⟩
    exact ⟨(irr, (ip, op), k), ⟨(mem_deltaEntries infos irr ip op k).2 hk, rfl⟩, rfl⟩

theorem mem_centralIdx (infos : List (WInfo Nm)) (irr : Nm) (ip op k : ℕ) : k ∈ centralIdx infos irr ip op ↔ IsCentral infos irr ip op k := by
  classical
  rw [centralIdx, List.mem_filter, decide_eq_true_eq, List.mem_range]
  refine ⟨fun h => h.2, fun h => ⟨?_, h⟩⟩
  obtain ⟨a, ha, -⟩ := h
  exact (List.getElem?_eq_some_iff.1 ha).1

/-- **C60, outside the centre.** All the weights of the delta-orthonormal initialisation are zero, except for those in the centre which connect equal irreps. -/
theorem c60_delta_zero (len dim : ℕ) (infos : List (WInfo Nm)) (draw : Nm → DeltaDraw) (t : ℕ → ℝ) (h : deltaInit len dim infos draw = some t)
    (k : ℕ) (hk : ∀ irr ip op, ¬ IsCentral infos irr ip op k) : t k = 0 := by
  unfold deltaInit at h
  split_ifs at h with h1 h2
  dsimp only at h
  split_ifs at h with h3
  rw [Option.some.injEq] at h
  rw [← h, foldl_writes _ (fun irr => deltaWrites (deltaEntries infos) (draw irr) irr) _ (fun t irr => deltaIrrep_eq ..), writeAll_other]
  intro w hw hwk
  simp only [deltaWrites, List.mem_flatMap, List.mem_map] at hw
  obtain ⟨irr, -, ip, -, op, -, p, hp, rfl⟩ := hw
  rw [deltaList_eq] at hp
  have := (mem_centralIdx infos irr ip.1 op.1 p.1).1 (List.mem_of_getElem? (List.mem_zipIdx_iff_getElem?.1 hp))
  simp only at hwk
  exact hk irr ip.1 op.1 (hwk ▸ this)

theorem IsCentral.unique {infos : List (WInfo Nm)} {irr irr' : Nm} {ip ip' op op' k : ℕ} (h : IsCentral infos irr ip op k) (h' : IsCentral infos irr' ip' op' k) :
    irr' = irr ∧ ip' = ip ∧ op' = op := by
  obtain ⟨a, h1, h2, -, -, h3, h4⟩ := h
  obtain ⟨b, g1, g2, -, -, g3, g4⟩ := h'
  rw [h1, Option.some.injEq] at g1
  subst g1
  exact ⟨g2 ▸ h2, g3 ▸ h3, g4 ▸ h4⟩

theorem nodup_centralIdx (infos : List (WInfo Nm)) (irr : Nm) (ip op : ℕ) : (centralIdx infos irr ip op).Nodup := List.nodup_range.filter _

/-- The value of a weight in the centre. -/
theorem deltaInit_value (len dim : ℕ) (infos : List (WInfo Nm)) (draw : Nm → DeltaDraw) (t : ℕ → ℝ) (h : deltaInit len dim infos draw = some t)
    (irr : Nm) (ip op k p : ℕ) (hp : (centralIdx infos irr ip op)[p]? = some k) :
    let keys := deltaKeys (deltaEntries infos) irr
    let ins := keysOf (keys.map Prod.fst)
    let outs := keysOf (keys.map Prod.snd)
    let s := (deltaList (deltaEntries infos) irr (keys.headD (0, 0))).length
    deltaOk (deltaEntries infos) irr = true ∧ t k = deltaRow (draw irr) s (outs.idxOf op) p * deltaW (draw irr) ins.length outs.length (outs.idxOf op) (ins.idxOf ip) := by
  intro keys ins outs s
  have hc : IsCentral infos irr ip op k := (mem_centralIdx ..).1 (List.mem_of_getElem? hp)
  have hirr : irr ∈ keysOf ((deltaEntries infos).map Prod.fst) := by
    rw [mem_keysOf]
    exact List.mem_map.2 ⟨_, (mem_deltaEntries infos irr ip op k).2 hc, rfl⟩
  have hkey : (ip, op) ∈ keys := (mem_deltaKeys ..).2 ⟨k, hc⟩
  have hin : ip ∈ ins := (mem_keysOf ..).2 (List.mem_map.2 ⟨_, hkey, rfl⟩)
  have hout : op ∈ outs := (mem_keysOf ..).2 (List.mem_map.2 ⟨_, hkey, rfl⟩)
  unfold deltaInit at h
  split_ifs at h with h1 h2
  dsimp only at h
  split_ifs at h with h3
  rw [Option.some.injEq] at h
  refine ⟨List.all_eq_true.1 h3 irr hirr, ?_⟩
  rw [← h, foldl_writes _ (fun irr => deltaWrites (deltaEntries infos) (draw irr) irr) _ (fun t irr => deltaIrrep_eq ..)]
  refine writeAll_value _ _ _ _ ?_ ?_
  · refine List.mem_flatMap.2 ⟨irr, hirr, ?_⟩
    simp only [deltaWrites, List.mem_flatMap, List.mem_map]
    refine ⟨(ip, ins.idxOf ip), List.mem_zipIdx_iff_getElem?.2 (List.getElem?_idxOf hin), (op, outs.idxOf op), List.mem_zipIdx_iff_getElem?.2 (List.getElem?_idxOf hout),
      (k, p), List.mem_zipIdx_iff_getElem?.2 (by rw [deltaList_eq]; exact hp), rfl⟩
  · intro w hw hwk
    obtain ⟨irr', -, hw⟩ := List.mem_flatMap.1 hw
    simp only [deltaWrites, List.mem_flatMap, List.mem_map] at hw
    obtain ⟨ip', hi, op', ho, p', hp', rfl⟩ := hw
    simp only at hwk
    rw [deltaList_eq] at hp'
    have hp'' := List.mem_zipIdx_iff_getElem?.1 hp'
    have hc' := (mem_centralIdx infos irr' ip'.1 op'.1 p'.1).1 (List.mem_of_getElem? hp'')
    rw [hwk] at hc' hp''
    obtain ⟨rfl, hii, hoo⟩ := hc.unique hc'
    rw [hii, hoo] at hp''
    have e1 : p'.2 = p := by
      have hlt := (List.getElem?_eq_some_iff.1 hp'').1
      exact (List.getElem?_inj hlt (nodup_centralIdx ..)).1 (hp''.trans hp.symm)
    have e2 : ip'.2 = ins.idxOf ip := by
      have hx := List.mem_zipIdx_iff_getElem?.1 hi
      rw [hii] at hx
      exact (List.getElem?_inj (List.getElem?_eq_some_iff.1 hx).1 (nodup_keysOf _)).1 (hx.trans (List.getElem?_idxOf hin).symm)
    have e3 : op'.2 = outs.idxOf op := by
      have hx := List.mem_zipIdx_iff_getElem?.1 ho
      rw [hoo] at hx
      exact (List.getElem?_inj (List.getElem?_eq_some_iff.1 hx).1 (nodup_keysOf _)).1 (hx.trans (List.getElem?_idxOf hout).symm)
    simp only [e1, e2, e3]
    rfl

theorem mem_centralIns (infos : List (WInfo Nm)) (irr : Nm) (ip : ℕ) :
    ip ∈ centralIns infos irr ↔ ip ∈ keysOf ((deltaKeys (deltaEntries infos) irr).map Prod.fst) := by
  classical
  rw [mem_keysOf, List.mem_map, centralIns, List.mem_toFinset, List.mem_map]
  constructor
  · rintro ⟨a, ha, rfl⟩
    obtain ⟨h1, h2⟩ := List.mem_filter.1 ha
    obtain ⟨h2, h3, h4⟩ := of_decide_eq_true h2
    obtain ⟨k, hk⟩ := List.mem_iff_getElem?.1 h1
    exact ⟨(a.inPos, a.outPos), (mem_deltaKeys ..).2 ⟨k, a, hk, h2, h3, h4, rfl, rfl⟩, rfl⟩
  · rintro ⟨⟨i, o⟩, hio, rfl⟩
    obtain ⟨k, a, hk, h2, h3, h4, h5, -⟩ := (mem_deltaKeys ..).1 hio
    exact ⟨a, List.mem_filter.2 ⟨List.mem_of_getElem? hk, decide_eq_true ⟨h2, h3, h4⟩⟩, h5⟩

theorem mem_centralOuts (infos : List (WInfo Nm)) (irr : Nm) (op : ℕ) :
    op ∈ centralOuts infos irr ↔ op ∈ keysOf ((deltaKeys (deltaEntries infos) irr).map Prod.snd) := by
  classical
  rw [mem_keysOf, List.mem_map, centralOuts, List.mem_toFinset, List.mem_map]
  constructor
  · rintro ⟨a, ha, rfl⟩
    obtain ⟨h1, h2⟩ := List.mem_filter.1 ha
    obtain ⟨h2, h3, h4⟩ := of_decide_eq_true h2
    obtain ⟨k, hk⟩ := List.mem_iff_getElem?.1 h1
    exact ⟨(a.inPos, a.outPos), (mem_deltaKeys ..).2 ⟨k, a, hk, h2, h3, h4, rfl, rfl⟩, rfl⟩
  · rintro ⟨⟨i, o⟩, hio, rfl⟩
    obtain ⟨k, a, hk, h2, h3, h4, -, h5⟩ := (mem_deltaKeys ..).1 hio
    exact ⟨a, List.mem_filter.2 ⟨List.mem_of_getElem? hk, decide_eq_true ⟨h2, h3, h4⟩⟩, h5⟩

theorem centralIns_eq (infos : List (WInfo Nm)) (irr : Nm) : centralIns infos irr = (keysOf ((deltaKeys (deltaEntries infos) irr).map Prod.fst)).toFinset := by
  ext ip; rw [mem_centralIns, List.mem_toFinset]

theorem centralOuts_eq (infos : List (WInfo Nm)) (irr : Nm) : centralOuts infos irr = (keysOf ((deltaKeys (deltaEntries infos) irr).map Prod.snd)).toFinset := by
  ext ip; rw [mem_centralOuts, List.mem_toFinset]

/-- A sum over the elements of a list without repetition, through their positions. -/
theorem sum_idxOf {M : Type} [AddCommMonoid M] (l : List ℕ) (hl : l.Nodup) (f : ℕ → M) : ∑ x ∈ l.toFinset, f (l.idxOf x) = ∑ i ∈ range l.length, f i := by
  refine Finset.sum_nbij (fun x => l.idxOf x) ?_ ?_ ?_ fun _ _ => rfl
  · intro x hx
    exact mem_range.2 (List.idxOf_lt_length_of_mem (List.mem_toFinset.1 hx))
  · intro x hx y hy hxy
    exact (List.idxOf_inj (List.mem_toFinset.1 hx)).1 hxy
  · intro i hi
    have hi : i < l.length := mem_range.1 hi
    exact ⟨l[i], by simp, by simp [hl.idxOf_getElem]⟩

/-- The assertions: the positions form a rectangle and all the lists have the same length. -/
theorem deltaOk_spec (infos : List (WInfo Nm)) (irr : Nm) (h : deltaOk (deltaEntries infos) irr = true) :
    let s := (deltaList (deltaEntries infos) irr ((deltaKeys (deltaEntries infos) irr).headD (0, 0))).length
    ∀ ip ∈ centralIns infos irr, ∀ op ∈ centralOuts infos irr, (centralIdx infos irr ip op).length = s ∧ 0 < s := by
  intro s ip hip op hop
  rw [mem_centralIns] at hip
  rw [mem_centralOuts] at hop
  unfold deltaOk at h
  simp only [Bool.and_eq_true, decide_eq_true_eq] at h
  obtain ⟨⟨⟨⟨h1, h2⟩, h3⟩, h4⟩, h5⟩ := h
  set keys := deltaKeys (deltaEntries infos) irr with hkeys
  set ins := keysOf (keys.map Prod.fst) with hins
  set outs := keysOf (keys.map Prod.snd) with houts
  have hcount : (keys.countP fun k => decide (k.1 = ip)) = outs.length := by
    rw [← h4]
    exact of_decide_eq_true (List.all_eq_true.1 h2 _ (List.mem_map.2 ⟨ip, hip, rfl⟩))
  have hnd : keys.Nodup := nodup_keysOf _
  have hmem : (ip, op) ∈ keys := by
    by_contra hno
    have hsub : ((keys.filter fun k => decide (k.1 = ip)).map Prod.snd) ⊆ outs.erase op := by
      intro x hx
      obtain ⟨⟨a, b⟩, hk, rfl⟩ := List.mem_map.1 hx
      obtain ⟨hk1, hk2⟩ := List.mem_filter.1 hk
      have hk2 : a = ip := of_decide_eq_true hk2
      subst hk2
      refine (List.mem_erase_of_ne ?_).2 ((mem_keysOf ..).2 (List.mem_map.2 ⟨_, hk1, rfl⟩))
      rintro rfl
      exact hno hk1
    have hndm : ((keys.filter fun k => decide (k.1 = ip)).map Prod.snd).Nodup := by
      refine List.Nodup.map_on ?_ (hnd.filter _)
      intro x hx y hy hxy
      have hx := of_decide_eq_true (List.mem_filter.1 hx).2
      have hy := of_decide_eq_true (List.mem_filter.1 hy).2
      exact Prod.ext (hx.trans hy.symm) hxy
    have hle := (List.subperm_of_subset hndm hsub).length_le
    rw [List.length_map, ← List.countP_eq_length_filter, hcount, List.length_erase_of_mem hop] at hle
    have : 0 < outs.length := List.length_pos_of_mem hop
    omega
  have hs : (centralIdx infos irr ip op).length = s := by
    have := of_decide_eq_true (List.all_eq_true.1 h1 _ (List.mem_map.2 ⟨(ip, op), hmem, rfl⟩))
    rw [deltaList_eq] at this
    rw [this]
    cases hk : keys with
    | nil => rw [hk] at hmem; simp at hmem
    | cons a l => simp [s, ← hkeys, hk]
  refine ⟨hs, ?_⟩
  obtain ⟨k, hk⟩ := (mem_deltaKeys ..).1 hmem
  rw [← hs]
  exact List.length_pos_of_mem ((mem_centralIdx ..).2 hk)

/-- Combinations of such matrices with coefficients of norm one are isometries. -/
theorem Clifford.isometry {s d : ℕ} {B : ℕ → Matrix (Fin d) (Fin d) ℝ} (hB : Clifford s d B) (c : ℕ → ℝ) :
    (∑ p ∈ range s, c p • B p)ᵀ * (∑ p ∈ range s, c p • B p) = (∑ p ∈ range s, c p ^ 2) • (1 : Matrix (Fin d) (Fin d) ℝ) := by
  have h1 : (∑ p ∈ range s, c p • B p)ᵀ * (∑ p ∈ range s, c p • B p) = ∑ p ∈ range s, ∑ q ∈ range s, (c p * c q) • ((B p)ᵀ * B q) := by
    rw [Matrix.transpose_sum, Finset.sum_mul]
    refine sum_congr rfl fun p _ => ?_
    rw [Finset.mul_sum]
    refine sum_congr rfl fun q _ => ?_
    rw [Matrix.transpose_smul, Matrix.smul_mul, Matrix.mul_smul, smul_smul]
  have h2 : ∑ p ∈ range s, ∑ q ∈ range s, (c p * c q) • ((B p)ᵀ * B q) = ∑ p ∈ range s, ∑ q ∈ range s, (c p * c q) • ((B q)ᵀ * B p) := by
    rw [Finset.sum_comm]
    exact sum_congr rfl fun p _ => sum_congr rfl fun q _ => by rw [_root_.mul_comm]
  have h3 : (2 : ℝ) • (∑ p ∈ range s, ∑ q ∈ range s, (c p * c q) • ((B p)ᵀ * B q)) = (2 : ℝ) • ((∑ p ∈ range s, c p ^ 2) • (1 : Matrix (Fin d) (Fin d) ℝ)) := by
    rw [two_smul]
    nth_rewrite 2 [h2]
    rw [← sum_add_distrib, Finset.sum_smul, Finset.smul_sum]
    refine sum_congr rfl fun p hp => ?_
    rw [← sum_add_distrib, Finset.sum_eq_single p]
    · rw [← smul_add, hB p (mem_range.1 hp) p (mem_range.1 hp), if_pos rfl]
      have e2 : (2 : Matrix (Fin d) (Fin d) ℝ) = (2 : ℝ) • 1 := by rw [two_smul, one_add_one_eq_two]
      rw [e2, smul_smul, smul_smul]
      congr 1
      ring
    · intro q hq hqp
      rw [← smul_add, hB p (mem_range.1 hp) q (mem_range.1 hq), if_neg hqp.symm, smul_zero]
    · exact fun h => absurd hp h
  rw [h1]
  exact smul_right_injective _ (two_ne_zero (α := ℝ)) h3

theorem deltaRow_norm (d : DeltaDraw) (s o : ℕ) (h : ∃ p < s, d.gauss o p ≠ 0) : ∑ p ∈ range s, deltaRow d s o p ^ 2 = 1 := by
  obtain ⟨p, hp, hne⟩ := h
  have hpos : 0 < ∑ q ∈ range s, (d.gauss o q * 5) ^ 2 := by
    refine Finset.sum_pos' (fun q _ => sq_nonneg _) ⟨p, mem_range.2 hp, ?_⟩
    positivity
  have e : ∀ p, deltaRow d s o p ^ 2 = (d.gauss o p * 5) ^ 2 / ∑ q ∈ range s, (d.gauss o q * 5) ^ 2 := fun p => by
    rw [deltaRow, div_pow, Real.sq_sqrt hpos.le]
  simp only [e]
  rw [← Finset.sum_div, div_self hpos.ne']

/-- The orthogonality of the columns of `W`, if there are not more of them than rows. -/
theorem deltaW_cols (d : DeltaDraw) (i o : ℕ) (hO : Mat.toM (max i o) d.ortho ∈ Matrix.orthogonalGroup (Fin (max i o)) ℝ) (hbit : 0 ≤ d.bit ∧ d.bit < 1) (hio : i ≤ o)
    (a b : ℕ) (ha : a < i) (hb : b < i) : ∑ k ∈ range o, deltaW d i o k a * deltaW d i o k b = if a = b then 1 else 0 := by
  unfold deltaW
  split_ifs with h1 hab hab
  all_goals
    have hmax : max i o = o := max_eq_right hio
    rw [hmax] at hO
  · have := congrFun (congrFun ((Matrix.mem_orthogonalGroup_iff' _ _).1 hO) ⟨a, by omega⟩) ⟨b, by omega⟩
    rw [Matrix.mul_apply, Matrix.one_apply, if_pos (by simp [hab])] at this
    rw [← this, Finset.sum_range]
    rfl
  · have := congrFun (congrFun ((Matrix.mem_orthogonalGroup_iff' _ _).1 hO) ⟨a, by omega⟩) ⟨b, by omega⟩
    rw [Matrix.mul_apply, Matrix.one_apply, if_neg (by simp [hab])] at this
    rw [← this, Finset.sum_range]
    rfl
  · have ho : o = 1 := by omega
    have hb0 : d.bit = 0 := by omega
    subst ho
    simp [hb0]
  · omega

/-- The orthogonality of the rows of `W`, if there are not more of them than columns. -/
theorem deltaW_rows (d : DeltaDraw) (i o : ℕ) (hO : Mat.toM (max i o) d.ortho ∈ Matrix.orthogonalGroup (Fin (max i o)) ℝ) (hbit : 0 ≤ d.bit ∧ d.bit < 1) (hio : o ≤ i)
    (a b : ℕ) (ha : a < o) (hb : b < o) : ∑ k ∈ range i, deltaW d i o a k * deltaW d i o b k = if a = b then 1 else 0 := by
  unfold deltaW
  split_ifs with h1 hab hab
  all_goals
    have hmax : max i o = i := max_eq_left hio
    rw [hmax] at hO
  · have := congrFun (congrFun ((Matrix.mem_orthogonalGroup_iff _ _).1 hO) ⟨a, by omega⟩) ⟨b, by omega⟩
    rw [Matrix.mul_apply, Matrix.one_apply, if_pos (by simp [hab])] at this
    rw [← this, Finset.sum_range]
    rfl
  · have := congrFun (congrFun ((Matrix.mem_orthogonalGroup_iff _ _).1 hO) ⟨a, by omega⟩) ⟨b, by omega⟩
    rw [Matrix.mul_apply, Matrix.one_apply, if_neg (by simp [hab])] at this
    rw [← this, Finset.sum_range]
    rfl
  · have ho : i = 1 := by omega
    have hb0 : d.bit = 0 := by omega
    subst ho
    simp [hb0]
  · omega

/-- **C60, in the centre.** If the delta-orthonormal initialisation succeeds, then for every irrep all the pairs of an input and an output position have the same number
`s` of weights in the centre of the filter, and whenever the `s` basis elements satisfy the relations of orthonormal multiples of isometries, the linear map in the centre
from all the inputs to all the outputs of this irrep has orthonormal columns if there are at least as many outputs as inputs, and orthonormal rows if there are at most
as many.  The draws are only asked to be an orthogonal matrix, a number below one and non-zero vectors. -/
theorem c60_delta (len dim : ℕ) (infos : List (WInfo Nm)) (draw : Nm → DeltaDraw) (t : ℕ → ℝ) (h : deltaInit len dim infos draw = some t)
    (irr : Nm) (hne : (centralIns infos irr).Nonempty)
    (hO : Mat.toM (max (centralIns infos irr).card (centralOuts infos irr).card) (draw irr).ortho
      ∈ Matrix.orthogonalGroup (Fin (max (centralIns infos irr).card (centralOuts infos irr).card)) ℝ)
    (hbit : 0 ≤ (draw irr).bit ∧ (draw irr).bit < 1) (hgauss : ∀ o < (centralOuts infos irr).card, (draw irr).gauss o 0 ≠ 0) :
    ∃ s, 0 < s ∧ (∀ ip ∈ centralIns infos irr, ∀ op ∈ centralOuts infos irr, (centralIdx infos irr ip op).length = s) ∧
      ∀ (d : ℕ) (B : ℕ → Matrix (Fin d) (Fin d) ℝ), Clifford s d B →
        ((centralIns infos irr).card ≤ (centralOuts infos irr).card → ∀ ip ∈ centralIns infos irr, ∀ ip' ∈ centralIns infos irr,
          ∑ op ∈ centralOuts infos irr, (centralMap infos irr t B op ip)ᵀ * centralMap infos irr t B op ip' = if ip = ip' then 1 else 0) ∧
        ((centralOuts infos irr).card ≤ (centralIns infos irr).card → ∀ op ∈ centralOuts infos irr, ∀ op' ∈ centralOuts infos irr,
          ∑ ip ∈ centralIns infos irr, centralMap infos irr t B op ip * (centralMap infos irr t B op' ip)ᵀ = if op = op' then 1 else 0) := by
  set keys := deltaKeys (deltaEntries infos) irr with hkeys
  set ins := keysOf (keys.map Prod.fst) with hins
  set outs := keysOf (keys.map Prod.snd) with houts
  set s := (deltaList (deltaEntries infos) irr (keys.headD (0, 0))).length with hs
  have hI : centralIns infos irr = ins.toFinset := centralIns_eq ..
  have hU : centralOuts infos irr = outs.toFinset := centralOuts_eq ..
  have nI : ins.Nodup := nodup_keysOf _
  have nU : outs.Nodup := nodup_keysOf _
  have cI : (centralIns infos irr).card = ins.length := by rw [hI, List.toFinset_card_of_nodup nI]
  have cU : (centralOuts infos irr).card = outs.length := by rw [hU, List.toFinset_card_of_nodup nU]
  rw [cI, cU] at hO
  rw [cU] at hgauss
  rw [cI, cU]
  -- the assertions hold
  have hok : deltaOk (deltaEntries infos) irr = true := by
    obtain ⟨ip, hip⟩ := hne
    obtain ⟨⟨i, o⟩, hio, rfl⟩ := List.mem_map.1 ((mem_keysOf ..).1 ((mem_centralIns ..).1 hip))
    obtain ⟨k, hk⟩ := (mem_deltaKeys ..).1 hio
    obtain ⟨p, hp⟩ := List.mem_iff_getElem?.1 ((mem_centralIdx infos irr i o k).2 hk)
    exact (deltaInit_value len dim infos draw t h irr i o k p hp).1
  have hlen := deltaOk_spec infos irr hok
  have hs0 : 0 < s := by
    obtain ⟨ip, hip⟩ := hne
    obtain ⟨⟨i, o⟩, hio, rfl⟩ := List.mem_map.1 ((mem_keysOf ..).1 ((mem_centralIns ..).1 hip))
    exact (hlen i hip o ((mem_centralOuts ..).2 ((mem_keysOf ..).2 (List.mem_map.2 ⟨_, hio, rfl⟩)))).2
  refine ⟨s, hs0, fun ip hip op hop => (hlen ip hip op hop).1, ?_⟩
  intro d B hB
  -- the maps of the single outputs
  set M : ℕ → Matrix (Fin d) (Fin d) ℝ := fun o => ∑ p ∈ range s, deltaRow (draw irr) s o p • B p with hM
  have hmap : ∀ ip ∈ centralIns infos irr, ∀ op ∈ centralOuts infos irr,
      centralMap infos irr t B op ip = deltaW (draw irr) ins.length outs.length (outs.idxOf op) (ins.idxOf ip) • M (outs.idxOf op) := by
    intro ip hip op hop
    have hl := (hlen ip hip op hop).1
    rw [centralMap, hl, hM, Finset.smul_sum]
    refine sum_congr rfl fun p hp => ?_
    have hp' : p < (centralIdx infos irr ip op).length := by rw [hl]; exact mem_range.1 hp
    have hv := (deltaInit_value len dim infos draw t h irr ip op _ p (List.getElem?_eq_getElem hp')).2
    rw [List.getD_eq_getElem _ _ hp', hv, smul_smul, _root_.mul_comm]
  have hMM : ∀ op ∈ centralOuts infos irr, (M (outs.idxOf op))ᵀ * M (outs.idxOf op) = 1 := by
    intro op hop
    have hlt : outs.idxOf op < outs.length := List.idxOf_lt_length_of_mem (by rw [hU] at hop; exact List.mem_toFinset.1 hop)
    rw [hM]
    have := hB.isometry (deltaRow (draw irr) s (outs.idxOf op))
    rw [deltaRow_norm _ _ _ ⟨0, hs0, hgauss _ hlt⟩, one_smul] at this
    exact this
  have hidxI : ∀ ip ∈ centralIns infos irr, ins.idxOf ip < ins.length := fun ip hip => List.idxOf_lt_length_of_mem (by rw [hI] at hip; exact List.mem_toFinset.1 hip)
  have hidxU : ∀ op ∈ centralOuts infos irr, outs.idxOf op < outs.length := fun op hop => List.idxOf_lt_length_of_mem (by rw [hU] at hop; exact List.mem_toFinset.1 hop)
  constructor
  · intro hle ip hip ip' hip'
    have h1 : ∑ op ∈ centralOuts infos irr, (centralMap infos irr t B op ip)ᵀ * centralMap infos irr t B op ip'
        = ∑ op ∈ outs.toFinset, (deltaW (draw irr) ins.length outs.length (outs.idxOf op) (ins.idxOf ip)
          * deltaW (draw irr) ins.length outs.length (outs.idxOf op) (ins.idxOf ip')) • (1 : Matrix (Fin d) (Fin d) ℝ) := by
      rw [hU]
      refine sum_congr rfl fun op hop => ?_
      rw [← hU] at hop
      rw [hmap ip hip op hop, hmap ip' hip' op hop, Matrix.transpose_smul, Matrix.smul_mul, Matrix.mul_smul, hMM op hop, smul_smul]
    rw [h1, ← Finset.sum_smul, sum_idxOf outs nU (fun o => deltaW (draw irr) ins.length outs.length o (ins.idxOf ip) * deltaW (draw irr) ins.length outs.length o (ins.idxOf ip')),
      deltaW_cols _ _ _ hO hbit hle _ _ (hidxI ip hip) (hidxI ip' hip')]
    by_cases e : ip = ip'
    · rw [if_pos (by rw [e]), if_pos e, one_smul]
    · rw [if_neg e, if_neg, zero_smul]
      intro he
      exact e ((List.idxOf_inj (by rw [hI] at hip; exact List.mem_toFinset.1 hip)).1 he)
  · intro hle op hop op' hop'
    have h1 : ∑ ip ∈ centralIns infos irr, centralMap infos irr t B op ip * (centralMap infos irr t B op' ip)ᵀ
        = ∑ ip ∈ ins.toFinset, (deltaW (draw irr) ins.length outs.length (outs.idxOf op) (ins.idxOf ip)
          * deltaW (draw irr) ins.length outs.length (outs.idxOf op') (ins.idxOf ip)) • (M (outs.idxOf op) * (M (outs.idxOf op'))ᵀ) := by
      rw [hI]
      refine sum_congr rfl fun ip hip => ?_
      rw [← hI] at hip
      rw [hmap ip hip op hop, hmap ip hip op' hop', Matrix.transpose_smul, Matrix.smul_mul, Matrix.mul_smul, smul_smul]
    rw [h1, ← Finset.sum_smul, sum_idxOf ins nI (fun i => deltaW (draw irr) ins.length outs.length (outs.idxOf op) i * deltaW (draw irr) ins.length outs.length (outs.idxOf op') i),
      deltaW_rows _ _ _ hO hbit hle _ _ (hidxU op hop) (hidxU op' hop')]
    by_cases e : op = op'
    · subst e
      rw [if_pos rfl, if_pos rfl, one_smul]
      exact mul_eq_one_comm.1 (hMM op hop)
    · rw [if_neg e, if_neg, zero_smul]
      intro he
      exact e ((List.idxOf_inj (by rw [hU] at hop; exact List.mem_toFinset.1 hop)).1 he)

/-! ## A case -/

/-- Two inputs and one output of the irrep `1`, with two weights in the centre for each pair; two weights outside and one to another irrep. -/
def deltaInfos : List (WInfo ℕ) :=
  [⟨1, 1, 0, 0, some 0⟩, ⟨1, 1, 0, 0, some 0⟩, ⟨1, 1, 0, 0, some 1⟩, ⟨1, 1, 2, 0, some 0⟩, ⟨1, 1, 2, 0, some 1⟩, ⟨1, 1, 2, 0, some 0⟩, ⟨0, 1, 4, 0, some 0⟩]

/-- A rotation and a vector. -/
noncomputable def deltaDraw : DeltaDraw := ⟨m2 (3 / 5) (-(4 / 5)) (4 / 5) (3 / 5), 0, fun _ p => p + 1⟩

/-- The identity and the quarter turn, the maps commuting with the rotations of the plane. -/
def turnBasis : ℕ → Matrix (Fin 2) (Fin 2) ℝ := fun p => if p = 0 then 1 else !![0, -1; 1, 0]

theorem turnBasis_clifford : Clifford 2 2 turnBasis := by
  intro p hp q hq
  have h1 : p = 0 ∨ p = 1 := by omega
  have h2 : q = 0 ∨ q = 1 := by omega
  rcases h1 with rfl | rfl <;> rcases h2 with rfl | rfl <;> ext i j <;> fin_cases i <;> fin_cases j <;>
    simp [turnBasis, Matrix.mul_apply, Matrix.one_apply, Fin.sum_univ_two, Matrix.ofNat_apply] <;> norm_num

example : (∃ t, deltaInit 7 7 deltaInfos (fun _ => deltaDraw) = some t) ∧ centralIns deltaInfos 1 = {0, 2} ∧ centralOuts deltaInfos 1 = {0} ∧
    Mat.toM (max (centralIns deltaInfos 1).card (centralOuts deltaInfos 1).card) deltaDraw.ortho
      ∈ Matrix.orthogonalGroup (Fin (max (centralIns deltaInfos 1).card (centralOuts deltaInfos 1).card)) ℝ ∧
    centralIdx deltaInfos 1 2 0 = [3, 5] ∧ (∀ irr ip op, ¬ IsCentral deltaInfos irr ip op 4) := by
  have hI : centralIns deltaInfos 1 = {0, 2} := by ext x; simp [centralIns, deltaInfos]
  have hU : centralOuts deltaInfos 1 = {0} := by ext x; simp [centralOuts, deltaInfos]
  have hE : deltaEntries deltaInfos = [(1, (0, 0), 0), (1, (0, 0), 1), (1, (2, 0), 3), (1, (2, 0), 5)] := by
    simp [deltaEntries, deltaInfos, central, List.zipIdx]
  refine ⟨?_, hI, hU, ?_, ?_, ?_⟩
  · have h2 : (deltaInfos.any fun a => a.rad.isNone) = false := by simp [deltaInfos]
    have h3 : ((keysOf ((deltaEntries deltaInfos).map Prod.fst)).all fun irr => deltaOk (deltaEntries deltaInfos) irr) = true := by
      rw [hE]; decide
    exact ⟨_, by unfold deltaInit; rw [if_neg (by simp), if_neg (by simp [h2])]; dsimp only; rw [if_pos h3]⟩
  · have hc : max (centralIns deltaInfos 1).card (centralOuts deltaInfos 1).card = 2 := by rw [hI, hU]; decide
    rw [hc, Matrix.mem_orthogonalGroup_iff]
    ext i j
    fin_cases i <;> fin_cases j <;> simp [Mat.toM, deltaDraw, m2, Matrix.mul_apply, Fin.sum_univ_two] <;> norm_num
  · rw [← deltaList_eq, hE]; decide
  · rintro irr ip op ⟨a, ha, -, -, h4, -, -⟩
    have : a = ⟨1, 1, 2, 0, some 1⟩ := by simpa [deltaInfos, eq_comm] using ha
    rw [this] at h4
    simp at h4

end E2
