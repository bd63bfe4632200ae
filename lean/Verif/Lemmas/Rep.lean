import Verif.Model.Utils

/-!
# Helper lemmas on representations
-/

namespace E2

open Finset Mat

namespace Mat

theorem toM_tr (n : ℕ) (A : Mat) : toM n (tr A) = (toM n A).transpose := rfl

theorem IsInv.toM_left {n : ℕ} {A B : Mat} (h : IsInv n A B) : toM n A * toM n B = 1 := by
  rw [← toM_mul, ← toM_one]; exact (MEq_iff_toM _ _ _).1 h.1

theorem IsInv.toM_right {n : ℕ} {A B : Mat} (h : IsInv n A B) : toM n B * toM n A = 1 := h.symm.toM_left

end Mat

theorem IsRep.congr {El : Type} {G : Grp El} {n : ℕ} {ρ σ : El → Mat} (h : IsRep G n ρ)
    (hm : ∀ a b, G.isEl a → G.isEl b → G.isEl (G.op a b)) (h1 : G.isEl G.one)
    (e : ∀ g, G.isEl g → MEq n n (σ g) (ρ g)) : IsRep G n σ where
  one := (e _ h1).trans h.one
  mul a b ha hb := (e _ (hm a b ha hb)).trans ((h.mul a b ha hb).trans
    (MEq.mul (e a ha).symm (e b hb).symm))

/-- Conjugating a representation. -/
theorem IsRep.conj {El : Type} {G : Grp El} {n : ℕ} {ρ : El → Mat} (h : IsRep G n ρ) {C D : Mat}
    (hC : IsInv n C D) : IsRep G n (fun g => Mat.mul n (Mat.mul n C (ρ g)) D) where
  one := by
    have h1 := (MEq_iff_toM _ _ _).1 h.one
    rw [MEq_iff_toM, toM_mul, toM_mul, h1, toM_one, mul_one, hC.toM_left]
  mul a b ha hb := by
    have h1 := (MEq_iff_toM _ _ _).1 (h.mul a b ha hb)
    rw [toM_mul] at h1
    rw [MEq_iff_toM]
    simp only [toM_mul]
    rw [h1]
    calc toM n C * (toM n (ρ a) * toM n (ρ b)) * toM n D
        = toM n C * toM n (ρ a) * (1 * toM n (ρ b)) * toM n D := by simp only [one_mul, _root_.mul_assoc]
      _ = _ := by rw [← hC.toM_right]; simp only [_root_.mul_assoc]

namespace Repr

variable {El El' : Type}

theorem size_mk' (l : List (Irrep El)) (C : Mat) : (mk' l C).size = (l.map Irrep.size).sum := rfl

theorem wf_mk' {l : List (Irrep El)} {C D : Mat} (h : IsInv (l.map Irrep.size).sum C D) : (mk' l C).WF :=
  isInv_inv h

theorem blocks_isRep (G : Grp El) (l : List (Irrep El)) (h : ∀ i ∈ l, IsRep G i.size i.mat) :
    IsRep G (l.map Irrep.size).sum (blocks l) where
  one := by
    unfold blocks
    rw [bdiag_congr Irrep.size (fun i => i.mat G.one) (fun _ => Mat.one) l fun i hi => (h i hi).one]
    exact bdiag_one _ _
  mul a b ha hb := by
    unfold blocks
    rw [bdiag_mul, bdiag_congr Irrep.size (fun i => i.mat (G.op a b))
      (fun i => Mat.mul i.size (i.mat a) (i.mat b)) l fun i hi => (h i hi).mul a b ha hb]
    exact MEq.refl _

/-- A well formed representation whose irreps are representations is a representation. -/
theorem mat_isRep (G : Grp El) (r : Repr El) (hr : r.WF) (h : ∀ i ∈ r.irreps, IsRep G i.size i.mat) :
    IsRep G r.size r.mat := (blocks_isRep G r.irreps h).conj hr

/-- What `_restrict_irrep` has to provide for one irrep. -/
structure RestrictsTo (isEl : El' → Prop) (parent : El' → El) (n : ℕ) (ρ : El → Mat)
    (ok : Irrep El' → Prop) (p : Mat × List (Irrep El')) : Prop where
  size : (p.2.map Irrep.size).sum = n
  inv : ∃ D, IsInv n p.1 D
  comm : ∀ h, isEl h → MEq n n (Mat.mul n (ρ (parent h)) p.1) (Mat.mul n p.1 (blocks p.2 h))
  irr : ∀ i ∈ p.2, ok i

theorem restrictAll_spec {isEl : El' → Prop} {parent : El' → El} {ok : Irrep El' → Prop}
    {restr : Irrep El → Option (Mat × List (Irrep El'))} (l : List (Irrep El))
    (h : ∀ i ∈ l, ∃ p, restr i = some p ∧ RestrictsTo isEl parent i.size i.mat ok p) :
    ∃ xs : List (Irrep El × Mat × Mat × List (Irrep El')),
      restrictAll restr l = some (xs.map fun x => (x.1.size, x.2.1, x.2.2.2)) ∧
      xs.map Prod.fst = l ∧
      ∀ x ∈ xs, IsInv x.1.size x.2.1 x.2.2.1 ∧
        RestrictsTo isEl parent x.1.size x.1.mat ok (x.2.1, x.2.2.2) := by
  induction l with
  | nil => exact ⟨[], rfl, rfl, by simp⟩
  | cons i l ih =>
    obtain ⟨xs, h1, h2, h3⟩ := ih fun j hj => h j (by simp [hj])
    obtain ⟨p, hp, hr⟩ := h i (by simp)
    obtain ⟨D, hD⟩ := hr.inv
    refine ⟨(i, p.1, D, p.2) :: xs, ?_, by simp [h2], ?_⟩
    · simp [restrictAll, hp, h1]
    · intro x hx
      rcases List.mem_cons.1 hx with rfl | hx
      · exact ⟨hD, hr⟩
      · exact h3 x hx

theorem sum_size_flatMap {α : Type} (l : List α) (f : α → List (Irrep El)) :
    ((l.flatMap f).map Irrep.size).sum = (l.map fun x => ((f x).map Irrep.size).sum).sum := by
  induction l with
  | nil => rfl
  | cons a l ih => simp [ih]

theorem blocks_flatMap {α : Type} (l : List α) (f : α → List (Irrep El)) (g : El) :
    blocks (l.flatMap f) g = bdiag (l.map fun x => (((f x).map Irrep.size).sum, blocks (f x) g)) := by
  have := bdiag_flatten (l.map fun x => (f x).map fun i => (i.size, i.mat g))
  rw [List.map_map] at this
  unfold blocks
  rw [List.flatMap_def, List.map_flatten, List.map_map]
  rw [Function.comp_def] at this ⊢
  rw [← this]
  congr 1
  refine List.map_congr_left fun x _ => ?_
  simp [total, List.map_map, Function.comp_def]

/-- Lifting the restriction of irreps to all representations. -/
theorem restrict_lift {isEl : El' → Prop} {parent : El' → El} {ok : Irrep El' → Prop}
    {restr : Irrep El → Option (Mat × List (Irrep El'))} (r : Repr El) (hr : r.WF)
    (h : ∀ i ∈ r.irreps, ∃ p, restr i = some p ∧ RestrictsTo isEl parent i.size i.mat ok p) :
    ∃ r', r.restrict restr = some r' ∧ r'.WF ∧ r'.size = r.size ∧ (∀ i ∈ r'.irreps, ok i) ∧
      ∀ h, isEl h → MEq r.size r.size (r'.mat h) (r.mat (parent h)) := by
  obtain ⟨xs, h1, h2, h3⟩ := restrictAll_spec r.irreps h
  set B : Mat := bdiag (xs.map fun x => (x.1.size, x.2.1)) with hB
  set D : Mat := bdiag (xs.map fun x => (x.1.size, x.2.2.1)) with hD
  have hsz : r.size = (xs.map fun x => x.1.size).sum := by
    rw [Repr.size, ← h2, List.map_map]; rfl
  have hBD : IsInv r.size B D := by
    refine isInv_of_left ?_
    rw [hsz, hB, hD, bdiag_mul (fun x : Irrep El × Mat × Mat × List (Irrep El') => x.1.size)
      (fun x => x.2.1) (fun x => x.2.2.1),
      bdiag_congr _ _ (fun _ => Mat.one) xs fun x hx => (h3 x hx).1.1]
    exact bdiag_one _ _
  let irr' : List (Irrep El') := xs.flatMap fun x => x.2.2.2
  have hsz' : (irr'.map Irrep.size).sum = r.size := by
    rw [sum_size_flatMap, hsz]
    congr 1
    exact List.map_congr_left fun x hx => (h3 x hx).2.size
  have hres : r.restrict restr = some (mk' irr' (Mat.mul r.size r.cob B)) := by
    simp only [restrict, h1]
    congr 2
    · rw [List.flatMap_map]
    · rw [hB, List.map_map]; rfl
  have hinv : IsInv r.size (Mat.mul r.size r.cob B) (Mat.mul r.size D r.cobInv) := IsInv.mul hr hBD
  have hwf : (mk' irr' (Mat.mul r.size r.cob B)).WF := by
    refine wf_mk' (D := Mat.mul r.size D r.cobInv) ?_
    rw [hsz']; exact hinv
  refine ⟨_, hres, hwf, by rw [size_mk', hsz'], ?_, ?_⟩
  · intro i hi
    obtain ⟨x, hx, hi⟩ := List.mem_flatMap.1 hi
    exact (h3 x hx).2.irr i hi
  · intro g hg
    -- the blocks are intertwined
    have hcomm : Mat.mul r.size (blocks r.irreps (parent g)) B = Mat.mul r.size B (blocks irr' g) := by
      have hb1 : blocks r.irreps (parent g) = bdiag (xs.map fun x => (x.1.size, x.1.mat (parent g))) := by
        rw [blocks, ← h2, List.map_map]; rfl
      have hb2 : blocks irr' g = bdiag (xs.map fun x => (x.1.size, blocks x.2.2.2 g)) := by
        rw [blocks_flatMap]
        congr 1
        refine List.map_congr_left fun x hx => ?_
        rw [(h3 x hx).2.size]
      rw [hb1, hb2, hB, hsz]
      rw [bdiag_mul (fun x : Irrep El × Mat × Mat × List (Irrep El') => x.1.size) (fun x => x.1.mat (parent g))
        (fun x => x.2.1), bdiag_mul (fun x : Irrep El × Mat × Mat × List (Irrep El') => x.1.size)
        (fun x => x.2.1) (fun x => blocks x.2.2.2 g)]
      exact bdiag_congr _ _ _ _ fun x hx => (h3 x hx).2.comm g hg
    have hwf' : IsInv r.size (Mat.mul r.size r.cob B) (mk' irr' (Mat.mul r.size r.cob B)).cobInv := by
      have := hwf
      unfold WF at this
      rwa [size_mk', hsz'] at this
    have hu := (MEq_iff_toM _ _ _).1 (hwf'.unique hinv)
    have hsz2 : (mk' irr' (Mat.mul r.size r.cob B)).size = r.size := by rw [size_mk', hsz']
    have hc := (MEq_iff_toM _ _ _).1 (MEq.of_eq hcomm : MEq r.size r.size _ _)
    rw [MEq_iff_toM]
    simp only [mat, hsz2, toM_mul] at hc ⊢
    rw [hu]
    show toM r.size (Mat.mul r.size r.cob B) * toM r.size (blocks irr' g) * _ = _
    simp only [toM_mul]
    rw [_root_.mul_assoc (toM _ r.cob), ← hc]
    have := hBD.toM_left
    calc _ = toM r.size r.cob * toM r.size (blocks r.irreps (parent g)) * (toM r.size B * toM r.size D)
          * toM r.size r.cobInv := by simp only [_root_.mul_assoc]
      _ = _ := by rw [this, mul_one]

end Repr
end E2
