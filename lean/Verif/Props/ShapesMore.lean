import Verif.Model.ShapesMore
import Verif.Lemmas.NetTree
import Verif.Props.Shapes
import Verif.Props.Nonlin
import Verif.Props.InducedGated

/-!
Declared and computed shapes (C40) of modules whose forward pass is modelled on channels: the declared shape is that of the tensor which `forward` returns.
-/

namespace E2

variable {R L : Type} {b h w : ℕ}

/-- A position of a tensor: the number of the image, the row and the column. -/
abbrev Pos (b h w : ℕ) := Fin b × Fin h × Fin w

/-- The shape of the tensor of numbers inside of a geometric tensor. -/
def GTensor.shape (x : GTensor R (Pos b h w → ℝ)) : Shape := ⟨b, x.data.length, h, w⟩

/-- Every declared shape of a module that accepts the number of channels is a shape with the same batch and image. -/
theorem declKeep_dims (i o : ℕ) (sh : Shape) (hc : sh.c = i) : declKeep i o sh = some (Shape.dims ⟨sh.b, o, sh.h, sh.w⟩) := by
  rw [declKeep, if_pos hc, Shape.dims]

/-- **C40**: the gated nonlinearity with two inputs declares the shape of its output. -/
theorem c40_gated2 [DecidableEq R] (sz : R → ℕ) (trivial supports : R → Bool) (gateType inType : List R) (σ : ℝ → ℝ) (bias : List ℝ)
    (junk : List (Pos b h w → ℝ)) (g x y : GTensor R (Pos b h w → ℝ)) (hg : g.WF sz) (hx : x.WF sz)
    (hy : gated2 sz trivial supports gateType inType σ bias junk g x = some y) :
    declGated2 sz gateType inType [g.shape, x.shape] = some y.shape.dims := by
  unfold gated2 at hy
  split_ifs at hy with h1 h2
  dsimp only at hy
  split at hy
  · exact absurd hy (by simp)
  · obtain ⟨hl, rfl⟩ := mkGT_eq_some.1 hy
    have e1 : g.shape.c = typeSize sz gateType := by rw [← h2.1]; exact hg.2
    have e2 : x.shape.c = typeSize sz inType := by rw [← h2.2]; exact hx.2
    simp only [declGated2]
    rw [if_pos e1, if_pos e2, if_pos (show g.shape.b = x.shape.b from rfl),
      if_pos (show g.shape.h = x.shape.h ∧ g.shape.w = x.shape.w from ⟨rfl, rfl⟩), ← hl]
    rfl

/-- **C40**: and it declares nothing for inputs of different batches or images. -/
theorem c40_gated2_refuses (sz : R → ℕ) (gateType inType : List R) (sg sh : Shape) (hne : sg.b ≠ sh.b ∨ sg.h ≠ sh.h ∨ sg.w ≠ sh.w) :
    declGated2 sz gateType inType [sg, sh] = none := by
  simp only [declGated2]
  split_ifs with h1 h2 h3 h4
  · omega
  all_goals rfl

/-- **C40**: the gated nonlinearity of induced fields declares the shape of its output. -/
theorem c40_induced_gated [DecidableEq R] (sz : R → ℕ) (gate : R → Bool) (subs : R → List ℕ) (inType : List R) (gates : List Bool) (drop : Bool)
    (σ : ℝ → ℝ) (bias : List ℝ) (junk : List (Pos b h w → ℝ)) (x y : GTensor R (Pos b h w → ℝ)) (hx : x.WF sz)
    (hy : inducedGated sz gate subs inType gates drop σ bias junk x = some y) :
    declInducedGated sz inType gates drop x.shape = some y.shape.dims := by
  unfold inducedGated at hy
  by_cases h1 : inducedGatedCheck sz gate subs inType gates = true
  swap
  · rw [if_neg h1] at hy; exact absurd hy (by simp)
  by_cases h2 : x.ty = inType
  swap
  · rw [if_pos h1, if_neg h2] at hy; exact absurd hy (by simp)
  rw [if_pos h1, if_pos h2] at hy
  dsimp only at hy
  have e : x.shape.c = typeSize sz inType := by rw [← h2]; exact hx.2
  repeat' split at hy
  all_goals first
    | exact absurd hy (by simp)
    | obtain ⟨hl, rfl⟩ := mkGT_eq_some.1 hy
      rw [declInducedGated, declKeep_dims _ _ _ e, ← hl]
      rfl

/-- **C40**: the vector field nonlinearity declares the shape of its output. -/
theorem c40_vector_field (N outSize : ℕ) (argmax : List ℝ → ℕ) (n : ℕ) (x y : List (Pos b h w → ℝ)) (hx : x.length = n * N)
    (hy : vectorField N outSize argmax n x = some y) :
    declVectorField N outSize n ⟨b, x.length, h, w⟩ = some (Shape.dims ⟨b, y.length, h, w⟩) := by
  unfold vectorField at hy
  dsimp only at hy
  split at hy
  swap
  · exact absurd hy (by simp)
  obtain rfl := Option.some.inj hy
  rw [declVectorField, declKeep_dims _ _ _ hx, List.length_map, List.length_range]

/-- The length of the data of a branch. -/
theorem branch_wf [LinearOrder R] [LinearOrder L] (sz : R → ℕ) (level : ℕ) (labels : List L) {V : Type} (x y : GTensor R V) (l : L)
    (h : branch sz level labels x l = some y) : y.data.length = typeSize sz y.ty := by
  have hsub : ∀ (labels : List L) (x : GTensor R V), branchSub sz labels x l = some y → y.data.length = typeSize sz y.ty := by
    intro labels x h
    unfold branchSub at h
    simp only [Option.bind_eq_bind] at h
    obtain ⟨t, ht, h⟩ := Option.bind_eq_some_iff.1 h
    obtain ⟨c, -, h⟩ := Option.bind_eq_some_iff.1 h
    obtain ⟨z, -, h⟩ := Option.bind_eq_some_iff.1 h
    obtain ⟨hl, rfl⟩ := mkGT_eq_some.1 h
    exact hl
  unfold branch at h
  split_ifs at h with h1 h2
  · simp only [Option.bind_eq_bind] at h
    obtain ⟨z, -, h⟩ := Option.bind_eq_some_iff.1 h
    obtain ⟨c, -, h⟩ := Option.bind_eq_some_iff.1 h
    exact hsub _ _ h
  · exact hsub _ _ h

/-- **C40**: the branching module declares, for every label, the shape of that branch. -/
theorem c40_branch [LinearOrder R] [LinearOrder L] (sz : R → ℕ) (level : ℕ) (labels : List L) (x y : GTensor R (Pos b h w → ℝ)) (l : L) (hx : x.WF sz)
    (hy : branch sz level labels x l = some y) : declBranch sz level labels x.ty l x.shape = some y.shape.dims := by
  rw [declBranch, if_pos (show x.shape.c = typeSize sz x.ty from hx.2), branch_ty sz level labels x y l hy, Option.map_some,
    ← branch_wf sz level labels x y l hy]
  rfl

/-- **C40**: the pointwise dropout declares the shape of its output, in both modes. -/
theorem c40_dropout [DecidableEq R] (sz : R → ℕ) (inType : List R) (mask : ℕ → Pos b h w → ℝ) (x y : GTensor R (Pos b h w → ℝ)) (hx : x.WF sz)
    (hy : pointwiseDropout sz inType mask x = some y) : declDropout sz inType x.shape = some y.shape.dims := by
  unfold pointwiseDropout at hy
  split_ifs at hy with h1
  obtain ⟨hl, rfl⟩ := mkGT_eq_some.1 hy
  rw [declDropout, if_pos (show x.shape.c = typeSize sz inType by rw [← h1]; exact hx.2)]
  simp [GTensor.shape, Shape.dims]

/-! ### Concrete cases -/

/-- The dropout of a scalar and a vector, two images with `3 × 4` points. -/
example (v : Pos 2 3 4 → ℝ) (mask : ℕ → Pos 2 3 4 → ℝ) : ∃ y, pointwiseDropout (R := ℕ) (fun s => s) [1, 2] mask ⟨[1, 2], [v, v, v]⟩ = some y ∧
    declDropout (fun s => s) [1, 2] ⟨2, 3, 3, 4⟩ = some y.shape.dims := by
  refine ⟨⟨[1, 2], _⟩, rfl, ?_⟩
  exact c40_dropout (fun s => s) [1, 2] mask ⟨[1, 2], [v, v, v]⟩ _ ⟨by simp, rfl⟩ rfl

/-- The branches with the labels `0` and `1` of a scalar, a vector and a scalar. -/
example (v : Pos 2 3 4 → ℝ) : ∃ y, branch (R := ℕ) (fun s => s) 0 [1, 0, 1] ⟨[1, 2, 1], [v, v, v, v]⟩ 1 = some y ∧ y.ty = [1, 1] ∧
    declBranch (fun s => s) 0 [1, 0, 1] [1, 2, 1] 1 ⟨2, 4, 3, 4⟩ = some y.shape.dims := by
  refine ⟨⟨[1, 1], [v, v]⟩, rfl, rfl, ?_⟩
  exact c40_branch (fun s => s) 0 [1, 0, 1] ⟨[1, 2, 1], [v, v, v, v]⟩ _ 1 ⟨by simp, rfl⟩ rfl

/-- Two vectors with two scalar gates. -/
example (v : Pos 2 3 4 → ℝ) : ∃ y, gated2 (R := ℕ) (fun s => s) (· == 1) (fun _ => true) [1, 1] [2, 2] (fun t => t) [0, 0] [v, v, v, v]
    ⟨[1, 1], [v, v]⟩ ⟨[2, 2], [v, v, v, v]⟩ = some y ∧ declGated2 (R := ℕ) (fun s => s) [1, 1] [2, 2] [⟨2, 2, 3, 4⟩, ⟨2, 4, 3, 4⟩] = some y.shape.dims := by
  obtain ⟨ord, -, hall⟩ := c34_gated2_scalars (P := Pos 2 3 4) (R := ℕ) (fun s => s) (· == 1) (fun _ => true) (fun r hr => by simpa using hr)
    [1, 1] [2, 2] (by simp) (by simp) rfl (fun t => t) [0, 0] rfl
  have hg : GTensor.WF (R := ℕ) (fun s => s) ⟨[1, 1], [v, v]⟩ := ⟨by simp, rfl⟩
  have hx : GTensor.WF (R := ℕ) (fun s => s) ⟨[2, 2], [v, v, v, v]⟩ := ⟨by simp, rfl⟩
  obtain ⟨y, hy, -⟩ := hall [v, v, v, v] ⟨[1, 1], [v, v]⟩ ⟨[2, 2], [v, v, v, v]⟩ rfl hg rfl hx rfl
  exact ⟨y, hy, c40_gated2 _ _ _ _ _ _ _ _ _ _ _ hg hx hy⟩

/-- A gate of two channels and a field of two subfields of size two; the gate is dropped. -/
example (v : Pos 2 3 4 → ℝ) : ∃ y, inducedGated (fun c : Bool => if c then 2 else 4) (fun c => c) (fun c => if c then [1] else [2]) [true, false]
    [true, false] true (fun t => t) [0] [v, v, v, v] ⟨[true, false], [v, v, v, v, v, v]⟩ = some y ∧
    declInducedGated (fun c : Bool => if c then 2 else 4) [true, false] [true, false] true ⟨2, 6, 3, 4⟩ = some y.shape.dims := by
  obtain ⟨ord, -, hall⟩ := c55_gated_scalars (P := Pos 2 3 4) (fun c : Bool => if c then 2 else 4) (fun c => c) (fun c => if c then [1] else [2])
    [true, false] (by simp) (by simp) [true, false] true (by decide) (fun t => t) [0]
  have hx : GTensor.WF (fun c : Bool => if c then 2 else 4) ⟨[true, false], [v, v, v, v, v, v]⟩ := ⟨by simp, rfl⟩
  obtain ⟨y, hy, -⟩ := hall [v, v, v, v] _ rfl hx rfl
  exact ⟨y, hy, c40_induced_gated _ _ _ _ _ _ _ _ _ _ _ hx hy⟩

/-- Two regular fields of `C_4`. -/
example (v : Pos 2 3 4 → ℝ) : ∃ y, vectorField 4 2 (fun _ => 0) 2 (List.replicate 8 v) = some y ∧
    declVectorField 4 2 2 ⟨2, 8, 3, 4⟩ = some (Shape.dims ⟨2, y.length, 3, 4⟩) := by
  obtain ⟨y, hy⟩ : ∃ y, vectorField 4 2 (fun _ => 0) 2 (List.replicate 8 v) = some y := by
    unfold vectorField
    have e : (viewFields 4 (List.replicate 8 v)).length = 2 := by simp [viewFields, chunks]
    exact ⟨_, if_pos ⟨Or.inl e, Or.inl e⟩⟩
  exact ⟨y, hy, c40_vector_field 4 2 (fun _ => 0) 2 _ _ rfl hy⟩

/-- Different images. -/
example : declGated2 (R := ℕ) (fun s => s) [1] [2] [⟨2, 1, 5, 5⟩, ⟨2, 2, 5, 4⟩] = none :=
  c40_gated2_refuses _ _ _ _ _ (Or.inr (Or.inr (by decide)))

end E2
