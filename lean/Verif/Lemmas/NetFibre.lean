import Verif.Props.Sequential
import Verif.Props.Pointwise
import Verif.Lemmas.TagsGood

/-!
`ConcatenatedNonLinearity` and `ReshuffleModule` as modules of a network.
-/

namespace E2

open Mat

variable {P R V : Type}

theorem IsSignedPerm.concatOk {n : ℕ} {M : Mat} (h : IsSignedPerm n M) : ConcatOk n M := by
  obtain ⟨σ, ε, h1, h2⟩ := h
  exact concatOk_signed σ ε h1 h2

theorem IsSignedPerm.nonzero {n : ℕ} {M : Mat} (h : IsSignedPerm n M) : ∀ i < n, ∃ j < n, M i j ≠ 0 := by
  intro i hi
  obtain ⟨e, ε, h1, h2, h3⟩ := h.row i hi
  refine ⟨e, h1, ?_⟩
  rw [h3 e h1, if_pos rfl]
  rcases h2 with rfl | rfl <;> norm_num

theorem concatenated_step [DecidableEq R] (sz : R → ℕ) (out : R → R) (t : List R) (hsz : ∀ r ∈ t, sz (out r) = 2 * sz r) (f : ℝ → ℝ) (ρ : R → Mat)
    (hs : ∀ r ∈ t, IsSignedPerm (sz r) (ρ r)) (hρ : ∀ r ∈ t, MEq (2 * sz r) (2 * sz r) (ρ (out r)) (concatMat (ρ r))) (π : P → P)
    (x : GTensor R (P → ℝ)) (hx : x.WF sz) (hxt : x.ty = t) :
    ∃ y, concatenated sz out t f x = some y ∧ y.WF sz ∧ y.ty = t.map out ∧ concatenated sz out t f (x.transform sz ρ π) = some (y.transform sz ρ π) := by
  obtain ⟨y, h1, h2, h3⟩ := c33_concatenated sz sz out t hsz f ρ ρ (fun r hr => (hs r hr).concatOk) (fun r hr => (hs r hr).nonzero) hρ π x hx hxt
  refine ⟨y, h1, ?_, h2, h3⟩
  have e := h1
  rw [concatenated, if_pos hxt] at e
  obtain ⟨e1, rfl⟩ := mkGT_eq_some.1 e
  exact ⟨by simpa [← hxt] using hx.1, e1⟩

theorem reshuffle_all {sz : R → ℕ} {perm : List ℕ} {x : GTensor R V} {y : GTensor R V} (h : reshuffle sz perm x = some y) : ∀ i, i ∈ perm ↔ i < x.ty.length := by
  unfold reshuffle at h
  split_ifs at h with h1
  exact fun i => ⟨h1.1 i, fun hi => h1.2 i (by simpa using hi)⟩

theorem filterMap_of_map_some {A B : Type} {f : A → Option B} {l : List A} {l' : List B} (h : l.map f = l'.map some) : l.filterMap f = l' := by
  have := congrArg (List.filterMap id) h
  simpa [List.filterMap_map] using this

/-- What `ReshuffleModule` returns is a tensor of its output type. -/
theorem reshuffle_typed {sz : R → ℕ} {perm : List ℕ} {x y : GTensor R V} (hx : x.WF sz) (h : reshuffle sz perm x = some y) :
    y.WF sz ∧ y.ty = perm.filterMap fun c => x.ty[c]? := by
  have hm := reshuffle_all h
  rw [reshuffle_eq sz hx perm hm] at h
  obtain ⟨_, h1, h2, h3⟩ := (GTensor.select_eq_some hx).1 h
  exact ⟨h3, (filterMap_of_map_some ((gather_some_iff _ _ _).1 h1)).symm⟩

theorem reshuffle_step (sz : R → ℕ) (ρ : R → Mat) (π : P → P) (perm : List ℕ) (x : GTensor R (P → ℝ)) (hx : x.WF sz) (hp : perm.Perm (List.range x.ty.length)) :
    ∃ y, reshuffle sz perm x = some y ∧ y.WF sz ∧ y.ty = perm.filterMap (fun c => x.ty[c]?) ∧ reshuffle sz perm (x.transform sz ρ π) = some (y.transform sz ρ π) := by
  obtain ⟨y, h1, -⟩ := c31_reshuffle sz x hx perm hp
  obtain ⟨h2, h3⟩ := reshuffle_typed hx h1
  refine ⟨y, h1, h2, h3, ?_⟩
  have hm := reshuffle_all h1
  rw [reshuffle_eq sz (transform_wf ρ π hx) perm hm, GTensor.select_transform ρ π hx, ← reshuffle_eq sz hx perm hm, h1]
  rfl

end E2
