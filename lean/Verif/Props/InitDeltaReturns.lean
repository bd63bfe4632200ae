import Verif.Props.InitDelta

/-!
When the delta-orthonormal initialisation raises (C60).  `IsCentral`, `centralIns`, `centralOuts` and `centralIdx` are in `Props/InitDelta.lean`.
-/

namespace E2

variable {Nm : Type} [DecidableEq Nm]

theorem sameContent_of {l : List ℕ} {c : ℕ} (h : ∀ x ∈ l, x = c) : sameContent l = true ∧ (l ≠ [] → l.headD 0 = c) := by
  cases l with
  | nil => exact ⟨rfl, fun h => absurd rfl h⟩
  | cons a l =>
    have ha : a = c := h a (by simp)
    refine ⟨List.all_eq_true.2 fun x hx => decide_eq_true ?_, fun _ => ha⟩
    rw [h x hx]
    exact ha.symm

theorem deltaOk_of (infos : List (WInfo Nm)) (irr : Nm) (hne : deltaKeys (deltaEntries infos) irr ≠ []) (s : ℕ)
    (h : ∀ ip ∈ centralIns infos irr, ∀ op ∈ centralOuts infos irr, (centralIdx infos irr ip op).length = s) : deltaOk (deltaEntries infos) irr = true := by
  have hfst : ∀ ip, ip ∈ keysOf ((deltaKeys (deltaEntries infos) irr).map Prod.fst) ↔ ip ∈ centralIns infos irr := fun ip => (mem_centralIns ..).symm
  have hsnd : ∀ op, op ∈ keysOf ((deltaKeys (deltaEntries infos) irr).map Prod.snd) ↔ op ∈ centralOuts infos irr := fun op => (mem_centralOuts ..).symm
  have hsub : ∀ k ∈ deltaKeys (deltaEntries infos) irr, k.1 ∈ centralIns infos irr ∧ k.2 ∈ centralOuts infos irr := fun k hk =>
    ⟨(hfst _).1 ((mem_keysOf ..).2 (List.mem_map.2 ⟨k, hk, rfl⟩)), (hsnd _).1 ((mem_keysOf ..).2 (List.mem_map.2 ⟨k, hk, rfl⟩))⟩
  have hnd : (deltaKeys (deltaEntries infos) irr).Nodup := nodup_keysOf _
  have hs : 0 < s := by
    obtain ⟨k, hk⟩ := List.exists_mem_of_ne_nil _ hne
    obtain ⟨j, hj⟩ := (mem_deltaKeys infos irr k.1 k.2).1 hk
    rw [← h _ (hsub k hk).1 _ (hsub k hk).2]
    exact List.length_pos_of_mem ((mem_centralIdx ..).2 hj)
  have hall : ∀ ip ∈ centralIns infos irr, ∀ op ∈ centralOuts infos irr, (ip, op) ∈ deltaKeys (deltaEntries infos) irr := by
    intro ip hip op hop
    obtain ⟨j, hj⟩ := List.exists_mem_of_ne_nil (centralIdx infos irr ip op) fun e => by
      have := h ip hip op hop
      rw [e] at this
      exact hs.ne this
    exact (mem_deltaKeys ..).2 ⟨j, (mem_centralIdx ..).1 hj⟩
  unfold deltaOk
  simp only [Bool.and_eq_true, decide_eq_true_eq]
  set keys := deltaKeys (deltaEntries infos) irr with hkeys
  have hne1 : keysOf (keys.map Prod.fst) ≠ [] := by
    obtain ⟨k, hk⟩ := List.exists_mem_of_ne_nil _ hne
    exact List.ne_nil_of_mem ((hfst _).2 (hsub k hk).1)
  have hne2 : keysOf (keys.map Prod.snd) ≠ [] := by
    obtain ⟨k, hk⟩ := List.exists_mem_of_ne_nil _ hne
    exact List.ne_nil_of_mem ((hsnd _).2 (hsub k hk).2)
  have c1 : ∀ x ∈ (keysOf (keys.map Prod.fst)).map fun ip => keys.countP fun k => decide (k.1 = ip), x = (keysOf (keys.map Prod.snd)).length := by
    intro x hx
    obtain ⟨ip, hip, rfl⟩ := List.mem_map.1 hx
    rw [List.countP_eq_length_filter, ← List.length_map Prod.snd]
    refine List.Perm.length_eq ((List.perm_ext_iff_of_nodup ?_ (nodup_keysOf _)).2 fun op => ?_)
    · refine List.Nodup.map_on ?_ (hnd.filter _)
      intro x hx y hy hxy
      exact Prod.ext ((of_decide_eq_true (List.mem_filter.1 hx).2).trans (of_decide_eq_true (List.mem_filter.1 hy).2).symm) hxy
    · rw [hsnd, List.mem_map]
      constructor
      · rintro ⟨k, hk, rfl⟩
        exact (hsub k (List.mem_filter.1 hk).1).2
      · exact fun hop => ⟨(ip, op), List.mem_filter.2 ⟨hall ip ((hfst ip).1 hip) op hop, by simp⟩, rfl⟩
  have c2 : ∀ x ∈ (keysOf (keys.map Prod.snd)).map fun op => keys.countP fun k => decide (k.2 = op), x = (keysOf (keys.map Prod.fst)).length := by
    intro x hx
    obtain ⟨op, hop, rfl⟩ := List.mem_map.1 hx
    rw [List.countP_eq_length_filter, ← List.length_map Prod.fst]
    refine List.Perm.length_eq ((List.perm_ext_iff_of_nodup ?_ (nodup_keysOf _)).2 fun ip => ?_)
    · refine List.Nodup.map_on ?_ (hnd.filter _)
      intro x hx y hy hxy
      exact Prod.ext hxy ((of_decide_eq_true (List.mem_filter.1 hx).2).trans (of_decide_eq_true (List.mem_filter.1 hy).2).symm)
    · rw [hfst, List.mem_map]
      constructor
      · rintro ⟨k, hk, rfl⟩
        exact (hsub k (List.mem_filter.1 hk).1).1
      · exact fun hip => ⟨(ip, op), List.mem_filter.2 ⟨hall ip hip op ((hsnd op).1 hop), by simp⟩, rfl⟩
  have c0 : ∀ x ∈ keys.map fun k => (deltaList (deltaEntries infos) irr k).length, x = s := by
    intro x hx
    obtain ⟨k, hk, rfl⟩ := List.mem_map.1 hx
    rw [show k = (k.1, k.2) from rfl, deltaList_eq]
    exact h _ (hsub k hk).1 _ (hsub k hk).2
  exact ⟨⟨⟨⟨(sameContent_of c0).1, (sameContent_of c1).1⟩, (sameContent_of c2).1⟩, (sameContent_of c1).2 (by simpa using hne1)⟩, (sameContent_of c2).2 (by simpa using hne2)⟩

/-- **C60, when `deltaorthonormal_init` returns**: the tensor has one entry for each weight, every basis element has a radius or an order, and for every irrep the
weights in the centre form a full table: all pairs of an input and an output position have the same number of weights. -/
theorem c60_delta_returns (len dim : ℕ) (infos : List (WInfo Nm)) (draw : Nm → DeltaDraw) :
    (deltaInit len dim infos draw).isSome ↔ len = dim ∧ (∀ a ∈ infos, a.rad ≠ none) ∧
      ∀ irr, ∃ s, ∀ ip ∈ centralIns infos irr, ∀ op ∈ centralOuts infos irr, (centralIdx infos irr ip op).length = s := by
  have hany : (infos.any fun a => a.rad.isNone) = true ↔ ¬ ∀ a ∈ infos, a.rad ≠ none := by
    simp [List.any_eq_true]
  unfold deltaInit
  by_cases h1 : len = dim
  swap
  · rw [if_pos h1]
    simp [h1]
  rw [if_neg (not_not.2 h1)]
  by_cases h2 : ∀ a ∈ infos, a.rad ≠ none
  swap
  · rw [if_pos (hany.2 h2)]
    simp [h2]
  rw [if_neg (fun h => hany.1 h h2)]
  have key : ((keysOf ((deltaEntries infos).map Prod.fst)).all fun irr => deltaOk (deltaEntries infos) irr) = true ↔
      ∀ irr, ∃ s, ∀ ip ∈ centralIns infos irr, ∀ op ∈ centralOuts infos irr, (centralIdx infos irr ip op).length = s := by
    rw [List.all_eq_true]
    constructor
    · intro h irr
      by_cases hi : irr ∈ keysOf ((deltaEntries infos).map Prod.fst)
      · exact ⟨_, fun ip hip op hop => (deltaOk_spec infos irr (h irr hi) ip hip op hop).1⟩
      · refine ⟨0, fun ip hip => ?_⟩
        rw [mem_centralIns, mem_keysOf, List.mem_map] at hip
        obtain ⟨k, hk, -⟩ := hip
        obtain ⟨j, hj⟩ := (mem_deltaKeys infos irr k.1 k.2).1 hk
        exact absurd ((mem_keysOf ..).2 (List.mem_map.2 ⟨_, (mem_deltaEntries infos irr k.1 k.2 j).2 hj, rfl⟩)) hi
    · intro h irr hi
      obtain ⟨s, hs⟩ := h irr
      obtain ⟨e, he, rfl⟩ := List.mem_map.1 ((mem_keysOf ..).1 hi)
      refine deltaOk_of infos e.1 (List.ne_nil_of_mem (a := e.2.1) ?_) s hs
      rw [deltaKeys, mem_keysOf]
      exact List.mem_map.2 ⟨e, List.mem_filter.2 ⟨he, by simp⟩, rfl⟩
  by_cases h3 : ∀ irr, ∃ s, ∀ ip ∈ centralIns infos irr, ∀ op ∈ centralOuts infos irr, (centralIdx infos irr ip op).length = s
  · dsimp only
    rw [if_pos (key.2 h3)]
    simp only [Option.isSome_some, true_iff]
    exact ⟨h1, h2, h3⟩
  · dsimp only
    rw [if_neg (fun h => h3 (key.1 h))]
    simp [h3]

/-- A basis element without a radius makes the initialisation raise. -/
example (draw : ℕ → DeltaDraw) : deltaInit 2 2 [⟨1, 1, 0, 0, some 0⟩, ⟨1, 1, 0, 0, none⟩] draw = none := by
  have := (c60_delta_returns 2 2 [⟨1, 1, 0, 0, some 0⟩, ⟨1, 1, 0, 0, none⟩] draw).not.2 fun h => h.2.1 ⟨1, 1, 0, 0, none⟩ (by simp) rfl
  simpa using this

/-- With one weight for each of two input positions it returns. -/
example (draw : ℕ → DeltaDraw) : (deltaInit 2 2 [⟨1, 1, 0, 0, some 0⟩, ⟨1, 1, 2, 0, some 0⟩] draw).isSome := by
  refine (c60_delta_returns 2 2 _ draw).2 ⟨rfl, by simp, fun irr => ⟨1, fun ip hip op hop => ?_⟩⟩
  have hi : ip = 0 ∨ ip = 2 := by
    have := hip
    simp only [centralIns, List.mem_toFinset, List.mem_map, List.mem_filter] at this
    obtain ⟨a, ⟨ha, -⟩, rfl⟩ := this
    rcases List.mem_cons.1 ha with rfl | ha
    · exact .inl rfl
    · obtain rfl := List.mem_singleton.1 ha
      exact .inr rfl
  have ho : op = 0 := by
    simp only [centralOuts, List.mem_toFinset, List.mem_map, List.mem_filter] at hop
    obtain ⟨a, ⟨ha, -⟩, rfl⟩ := hop
    rcases List.mem_cons.1 ha with rfl | ha
    · rfl
    · obtain rfl := List.mem_singleton.1 ha
      rfl
  have hirr : irr = 1 := by
    simp only [centralIns, List.mem_toFinset, List.mem_map, List.mem_filter, decide_eq_true_eq] at hip
    obtain ⟨a, ⟨ha, h, -⟩, -⟩ := hip
    rcases List.mem_cons.1 ha with rfl | ha
    · exact h.symm
    · obtain rfl := List.mem_singleton.1 ha
      exact h.symm
  subst ho hirr
  rw [← deltaList_eq]
  have hE : deltaEntries ([⟨1, 1, 0, 0, some 0⟩, ⟨1, 1, 2, 0, some 0⟩] : List (WInfo ℕ)) = [(1, (0, 0), 0), (1, (2, 0), 1)] := by
    simp [deltaEntries, central, List.zipIdx]
  rw [hE]
  rcases hi with rfl | rfl <;> decide

end E2
