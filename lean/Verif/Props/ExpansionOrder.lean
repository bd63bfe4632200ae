import Verif.Props.Expansion

/-!
The layout of the weights of an expansion (C24): the pairs of representations are in the order of their names, so that the ranges of the weights do not depend on the
order in which Python goes through its sets.
-/

namespace E2

variable {F A I : Type} [LinearOrder F] [DecidableEq I]

theorem pairLe_iff (a b : F × F) : pairLe a b = true ↔ a.1 < b.1 ∨ a.1 = b.1 ∧ a.2 ≤ b.2 := by
  simp [pairLe]

theorem pairLe_trans (a b c : F × F) (h : pairLe a b = true) (h' : pairLe b c = true) : pairLe a c = true := by
  rw [pairLe_iff] at *
  rcases h with h | ⟨h, g⟩ <;> rcases h' with h' | ⟨h', g'⟩
  · exact .inl (h.trans h')
  · exact .inl (h'.symm ▸ h)
  · exact .inl (h ▸ h')
  · exact .inr ⟨h.trans h', g.trans g'⟩

theorem pairLe_total (a b : F × F) : (pairLe a b || pairLe b a) = true := by
  rw [Bool.or_eq_true, pairLe_iff, pairLe_iff]
  rcases lt_trichotomy a.1 b.1 with h | h | h
  · exact .inl (.inl h)
  · exact (le_total a.2 b.2).imp (fun g => .inr ⟨h, g⟩) fun g => .inr ⟨h.symm, g⟩
  · exact .inr (.inl h)

theorem pairLe_antisymm (a b : F × F) (h : pairLe a b = true) (h' : pairLe b a = true) : a = b := by
  rw [pairLe_iff] at *
  rcases h with h | ⟨h, g⟩ <;> rcases h' with h' | ⟨h', g'⟩
  · exact absurd h' h.asymm
  · exact absurd h'.symm h.ne
  · exact absurd h.symm h'.ne
  · exact Prod.ext h (le_antisymm g g')

/-- **C24, order of the pairs**: the pairs come by the name of the input representation and then by the name of the output representation, each once. -/
theorem c24_sorted (E : Exp F A I) : E.pairs.Pairwise fun a b => a.1 < b.1 ∨ a.1 = b.1 ∧ a.2 < b.2 := by
  have h1 : E.pairs.Pairwise fun a b => pairLe a b = true := List.pairwise_mergeSort pairLe_trans pairLe_total _
  refine (h1.and E.pairs_nodup).imp fun {a b} h => ?_
  rcases (pairLe_iff a b).1 h.1 with g | ⟨g, g'⟩
  · exact .inl g
  · exact .inr ⟨g, lt_of_le_of_ne g' fun e => h.2 (Prod.ext g e)⟩

/-- **C24, layout of the weights**: whatever the order in which the loops of the constructor go through the sets of representations (`ins` and `outs`), the pairs, the
ranges of their weights and the identifiers of the weights are the same. -/
theorem c24_layout (E : Exp F A I) (ins outs : List F) (hi : ins.Nodup ∧ ∀ n, n ∈ ins ↔ n ∈ E.inT) (ho : outs.Nodup ∧ ∀ n, n ∈ outs ↔ n ∈ E.outT) :
    ∃ ps, ps = (ins.flatMap fun i => outs.filterMap fun o => (E.gen i o).map fun _ => (i, o)).mergeSort pairLe ∧
      ps = E.pairs ∧ E.rangesLoop ps 0 = E.ranges ∧ ps.flatMap E.basisIds = E.basisToIds := by
  have p1 : ins.Perm E.inT.dedup := (List.perm_ext_iff_of_nodup hi.1 (List.nodup_dedup _)).2 fun n => by rw [hi.2, List.mem_dedup]
  have p2 : outs.Perm E.outT.dedup := (List.perm_ext_iff_of_nodup ho.1 (List.nodup_dedup _)).2 fun n => by rw [ho.2, List.mem_dedup]
  have p3 : (ins.flatMap fun i => outs.filterMap fun o => (E.gen i o).map fun _ => (i, o)).Perm E.pairsRaw :=
    (List.Perm.flatMap_left _ fun i _ => p2.filterMap _).trans (p1.flatMap_right _)
  have e : (ins.flatMap fun i => outs.filterMap fun o => (E.gen i o).map fun _ => (i, o)).mergeSort pairLe = E.pairs :=
    List.Perm.eq_of_pairwise (le := fun a b => pairLe a b = true) (fun a b _ _ => pairLe_antisymm a b) (List.pairwise_mergeSort pairLe_trans pairLe_total _)
      (List.pairwise_mergeSort pairLe_trans pairLe_total _) (((List.mergeSort_perm _ _).trans p3).trans (List.mergeSort_perm _ _).symm)
  exact ⟨_, rfl, e, by rw [e]; rfl, by rw [e]; rfl⟩

/-- Two input and two output representations, gone through backwards; one pair has no basis. -/
example (e : Elem ℕ) (ident : ℕ → ℕ) : ∃ E : Exp ℕ ℕ ℕ, E.inT = [3, 1, 3] ∧ E.outT = [2, 0] ∧ E.pairs = [(1, 0), (1, 2), (3, 2)] ∧
    ∃ ps, ps = (([1, 3] : List ℕ).flatMap fun i => ([0, 2] : List ℕ).filterMap fun o => (E.gen i o).map fun _ => (i, o)).mergeSort pairLe ∧ ps = E.pairs := by
  let E : Exp ℕ ℕ ℕ := ⟨fun _ => 1, fun _ => 1, [3, 1, 3], [2, 0], fun i o => if i = 3 ∧ o = 0 then none else some [e], ident, id, id⟩
  obtain ⟨ps, h1, h2, -⟩ := c24_layout E [1, 3] [0, 2] ⟨by simp, by intro n; simp [E]; omega⟩ ⟨by simp, by intro n; simp [E]; omega⟩
  refine ⟨E, rfl, rfl, ?_, ps, h1, h2⟩
  rw [← h2, h1]
  simp [E, pairLe, List.mergeSort, List.MergeSort.Internal.splitInTwo]

end E2
