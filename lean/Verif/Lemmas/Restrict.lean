import Verif.Lemmas.Psi
import Verif.Lemmas.Rep
import Verif.Props.Irreps

/-!
# Helper lemmas on the restriction of single irreps
-/

namespace E2

open Finset Mat Real

namespace Repr

variable {El El' : Type}

theorem blocks_single2 (i : Irrep El) (hi : i.size = 2) (g : El) : MEq 2 2 (blocks [i] g) (i.mat g) := by
  intro a ha b hb
  simp [blocks, bdiag, hi, ha, hb]

theorem blocks_single1 (i : Irrep El) (hi : i.size = 1) (g : El) : MEq 1 1 (blocks [i] g) (i.mat g) := by
  intro a ha b hb
  simp only [blocks, List.map_cons, List.map_nil, bdiag, hi, ha, hb, if_true]

theorem blocks_pair1 (i j : Irrep El) (hi : i.size = 1) (hj : j.size = 1) (g : El) :
    MEq 2 2 (blocks [i, j] g) (m2 (i.mat g 0 0) 0 0 (j.mat g 0 0)) := by
  refine MEq_m2 ?_ ?_ ?_ ?_ <;> simp [blocks, bdiag, hi, hj, m2]

theorem RestrictsTo.of_eq {isEl : El' → Prop} {parent : El' → El} {n : ℕ} {ρ : El → Mat}
    {El'' : Type} {parent' : El' → El''} {ρ' : El'' → Mat}
    {ok : Irrep El' → Prop} {p : Mat × List (Irrep El')} (h : RestrictsTo isEl parent n ρ ok p)
    (e : ∀ x, isEl x → MEq n n (ρ' (parent' x)) (ρ (parent x))) : RestrictsTo isEl parent' n ρ' ok p where
  size := h.size
  inv := h.inv
  comm x hx := (MEq.mul (e x hx) (MEq.refl _)).trans (h.comm x hx)
  irr := h.irr

/-- If the blocks already are the given matrices, the identity is the change of basis. -/
theorem RestrictsTo.ident {isEl : El' → Prop} {parent : El' → El} {n : ℕ} {ρ : El → Mat}
    {ok : Irrep El' → Prop} {L : List (Irrep El')} (hs : (L.map Irrep.size).sum = n)
    (hok : ∀ i ∈ L, ok i) (h : ∀ x, isEl x → MEq n n (ρ (parent x)) (blocks L x)) :
    RestrictsTo isEl parent n ρ ok (Mat.one, L) where
  size := hs
  inv := ⟨Mat.one, IsInv.one n⟩
  comm x hx := (MEq_mul_one n n _).trans ((h x hx).trans (MEq_one_mul n n _).symm)
  irr := hok

/-- A further change of basis. -/
theorem RestrictsTo.comp {isEl : El' → Prop} {El'' : Type} {parent : El' → El} {parent' : El' → El''}
    {n : ℕ} {ρ : El → Mat} {ρ' : El'' → Mat}
    {ok : Irrep El' → Prop} {p : Mat × List (Irrep El')} (h : RestrictsTo isEl parent n ρ ok p)
    {Q : Mat} (hQ : ∃ D, IsInv n Q D)
    (e : ∀ x, isEl x → MEq n n (Mat.mul n (ρ' (parent' x)) Q) (Mat.mul n Q (ρ (parent x)))) :
    RestrictsTo isEl parent' n ρ' ok (Mat.mul n Q p.1, p.2) where
  size := h.size
  inv := by
    obtain ⟨D, hD⟩ := h.inv
    obtain ⟨E, hE⟩ := hQ
    exact ⟨_, hE.mul hD⟩
  comm x hx := by
    have h1 := h.comm x hx
    have h2 := e x hx
    rw [MEq_iff_toM] at *
    simp only [toM_mul] at *
    rw [← _root_.mul_assoc, h2, _root_.mul_assoc, h1, _root_.mul_assoc]
  irr := h.irr

end Repr

open _root_.E2.Repr

theorem chi_inv : IsInv 2 (m2 1 0 0 (-1)) (m2 1 0 0 (-1)) := by
  refine isInv_of_left ?_
  rw [m2_mul]
  exact (MEq.of_eq (by congr 1 <;> norm_num)).trans m2_one

theorem psi_inv (θ k : ℝ) : IsInv 2 (psi θ k 0) (psi (-θ) k 0) := by
  refine isInv_of_left ?_
  rw [psi_mul, add_neg_cancel]
  exact psi_one k

namespace Cyclic

/-- An irrep of `C_M`. -/
def IsIrrep (M : ℕ) (i : Irrep ℤ) : Prop := ∃ k, irrep M k = some i

theorem irrep_some {M f : ℕ} (hf : 2 * f ≤ M) : ∃ r, irrep M f = some r := by
  unfold irrep
  rw [order_eq, if_neg (by omega)]
  split_ifs <;> exact ⟨_, rfl⟩

theorem irrep_mat1 {M f : ℕ} {r : Irrep ℤ} (h : irrep M f = some r) (h0 : f = 0 ∨ 2 * f = M) :
    ∀ e, r.mat e = m1 (cos (f * e * (2 * π / M))) := by
  unfold irrep at h
  rw [order_eq] at h
  split_ifs at h with h1 h2 h3
  · cases h; intro e; simp [h2]
  · cases h; intro e; rfl
  · omega

theorem irrep_mat2 {M f : ℕ} {r : Irrep ℤ} (h : irrep M f = some r) (h0 : ¬ (f = 0 ∨ 2 * f = M)) :
    ∀ e, r.mat e = psi (e * (2 * π / M)) f 0 := by
  unfold irrep at h
  rw [order_eq] at h
  split_ifs at h with h1 h2 h3
  · omega
  · omega
  · cases h; intro e; rfl

theorem sin_half {M f : ℕ} (hM : 0 < M) (h0 : f = 0 ∨ 2 * f = M) (e : ℤ) : sin (f * (e * (2 * π / M))) = 0 := by
  rcases h0 with rfl | h0
  · simp
  · have hM' : (M : ℝ) ≠ 0 := by positivity
    have : (f : ℝ) * (e * (2 * π / M)) = e * π := by
      have h2 : (M : ℝ) = 2 * f := by exact_mod_cast h0.symm
      have : (f : ℝ) ≠ 0 := by
        intro hf; rw [hf] at h2; simp at h2; omega
      rw [h2]; field_simp
    rw [this, Real.sin_int_mul_pi]

/-- The rotation matrix of a frequency up to `M/2` as blocks of irreps. -/
theorem blocks2 {M f : ℕ} (hM : 0 < M) {r : Irrep ℤ} (h : irrep M f = some r) (e : ℤ) :
    ((if r.size < 2 then [r, r] else [r]).map Irrep.size).sum = 2 ∧
    MEq 2 2 (psi (e * (2 * π / M)) f 0) (blocks (if r.size < 2 then [r, r] else [r]) e) := by
  have hs := irrep_size h
  by_cases h0 : f = 0 ∨ 2 * f = M
  · rw [if_pos h0] at hs
    rw [hs, if_pos (by norm_num)]
    refine ⟨by simp [hs], MEq.symm ((blocks_pair1 r r hs hs e).trans ?_)⟩
    have hm := irrep_mat1 h h0 e
    rw [hm]
    have hz := sin_half hM h0 e
    refine MEq.of_eq ?_
    simp only [psi, m1, add_zero, hz, neg_zero]
    simp only [and_self, if_true, _root_.mul_assoc]
  · rw [if_neg h0] at hs
    rw [hs, if_neg (by norm_num)]
    refine ⟨by simp [hs], MEq.symm ((blocks_single2 r hs e).trans ?_)⟩
    rw [irrep_mat2 h h0 e]
    exact MEq.refl _

/-- Frequencies may be reduced modulo the order. -/
theorem psi_mod {M : ℕ} (hM : 0 < M) (k : ℕ) (e : ℤ) :
    psi (e * (2 * π / M)) k 0 = psi (e * (2 * π / M)) ((k % M : ℕ) : ℝ) 0 := by
  refine psi_congr (((k / M : ℕ) : ℤ) * e) ?_
  have hM' : (M : ℝ) ≠ 0 := by positivity
  have hk : (k : ℝ) = M * ((k / M : ℕ) : ℝ) + ((k % M : ℕ) : ℝ) := by exact_mod_cast (Nat.div_add_mod k M).symm
  rw [hk, Int.cast_mul, Int.cast_natCast]; field_simp; ring

theorem cos_mod {M : ℕ} (hM : 0 < M) (k : ℕ) (e : ℤ) :
    cos (k * e * (2 * π / M)) = cos (((k % M : ℕ) : ℝ) * e * (2 * π / M)) := by
  have h := congrFun (congrFun (psi_mod hM k e) 0) 0
  simpa [psi, m2, _root_.mul_assoc] using h

/-- The reduction of a 2-dimensional rotation. -/
theorem reduce2 {M : ℕ} (hM : 0 < M) (k : ℕ) :
    ∃ p r, reduceFreq M (k % M) 2 (m2 1 0 0 (-1)) = some p ∧ irrep M p.1 = some r ∧
      RestrictsTo (fun _ : ℤ => True) id 2 (fun e : ℤ => psi (e * (2 * π / M)) k 0) (IsIrrep M)
        (p.2, if r.size < 2 then [r, r] else [r]) := by
  have hlt := Nat.mod_lt k hM
  unfold reduceFreq
  by_cases h : M < 2 * (k % M)
  · rw [if_pos h, if_pos rfl]
    obtain ⟨r, hr⟩ := irrep_some (M := M) (f := M - k % M) (by omega)
    refine ⟨_, r, rfl, hr, ⟨(blocks2 hM hr 0).1, ⟨_, chi_inv⟩, ?_, ?_⟩⟩
    · intro e _
      refine MEq.trans ?_ (MEq.mul (MEq.refl _) (blocks2 hM hr e).2)
      simp only [id]
      rw [psi_mod hM, psi, psi, m2_mul, m2_mul]
      have hc : ((M - k % M : ℕ) : ℝ) * (e * (2 * π / M)) + 0 = -(((k % M : ℕ) : ℝ) * (e * (2 * π / M)) + 0) + e * (2 * π) := by
        have hM' : (M : ℝ) ≠ 0 := by positivity
        rw [Nat.cast_sub hlt.le]; field_simp; ring
      rw [hc, cos_add_int, sin_add_int, cos_neg, sin_neg]
      refine MEq.of_eq ?_
      congr 1 <;> ring
    · intro i hi
      refine ⟨M - k % M, ?_⟩
      split_ifs at hi <;> simp at hi <;> rw [hi, hr]
  · rw [if_neg h]
    obtain ⟨r, hr⟩ := irrep_some (M := M) (f := k % M) (by omega)
    refine ⟨_, r, rfl, hr, RestrictsTo.ident (blocks2 hM hr 0).1 ?_ ?_⟩
    · intro i hi
      refine ⟨k % M, ?_⟩
      split_ifs at hi <;> simp at hi <;> rw [hi, hr]
    · intro e _
      simp only [id]
      rw [psi_mod hM]
      exact (blocks2 hM hr e).2

/-- The reduction of a 1-dimensional irrep. -/
theorem reduce1 {M : ℕ} (hM : 0 < M) (k : ℕ) (hk : k % M = 0 ∨ 2 * (k % M) = M) (Q : Mat) :
    ∃ r, reduceFreq M (k % M) 1 Q = some (k % M, Mat.one) ∧ irrep M (k % M) = some r ∧
      RestrictsTo (fun _ : ℤ => True) id 1 (fun e : ℤ => m1 (cos (k * e * (2 * π / M)))) (IsIrrep M)
        (Mat.one, if r.size < 1 then [r, r] else [r]) := by
  unfold reduceFreq
  obtain ⟨r, hr⟩ := irrep_some (M := M) (f := k % M) (by omega)
  have hs := irrep_size hr
  rw [if_pos hk] at hs
  refine ⟨r, by rw [if_neg (by omega)], hr, ?_⟩
  rw [if_neg (by omega)]
  refine RestrictsTo.ident (by simp [hs]) ?_ ?_
  · intro i hi; simp at hi; exact ⟨_, by rw [hi, hr]⟩
  · intro e _
    refine MEq.symm ((blocks_single1 r hs e).trans ?_)
    rw [irrep_mat1 hr hk, id, ← cos_mod hM k]
    exact MEq.refl _

end Cyclic

namespace Dihedral

/-- An irrep of `D_M`. -/
def IsIrrep (M : ℕ) (i : Irrep (ℤ × ℤ)) : Prop := ∃ j k, irrep M j k = some i

theorem irrep_some {M f : ℕ} (hf : 2 * f ≤ M) : ∃ r, irrep M 1 f = some r :=
  Option.isSome_iff_exists.1 ((irrep_isSome M 1 f).2 ⟨by omega, Or.inr rfl⟩)

theorem irrep_some0 {M f : ℕ} (hf : f = 0 ∨ 2 * f = M) : ∃ r, irrep M 0 f = some r :=
  Option.isSome_iff_exists.1 ((irrep_isSome M 0 f).2 ⟨by omega, Or.inl ⟨rfl, hf⟩⟩)

theorem irrep_mat1 {M j f : ℕ} {r : Irrep (ℤ × ℤ)} (h : irrep M j f = some r) (h0 : f = 0 ∨ 2 * f = M) :
    ∀ e, r.mat e = m1 (cos (f * e.2 * (2 * π / M)) * (if j = 1 ∧ e.1 ≠ 0 then -1 else 1)) := by
  unfold irrep at h
  split_ifs at h with h1 h2 h3 h4 h5 h6 h7
  · cases h; intro e; simp [h4, h3]
  · cases h; intro e; simp [h3]
  · cases h; intro e
    have : j = 1 := by omega
    simp [h6, this]
  · cases h; intro e
    have : j = 1 := by omega
    simp [this]
  · omega

theorem irrep_mat2 {M j f : ℕ} {r : Irrep (ℤ × ℤ)} (h : irrep M j f = some r) (h0 : ¬ (f = 0 ∨ 2 * f = M)) :
    j = 1 ∧ ∀ e, r.mat e = psichi (e.2 * (2 * π / M)) e.1 f 0 := by
  unfold irrep at h
  split_ifs at h with h1 h2 h3 h4 h5 h6 h7
  · omega
  · omega
  · omega
  · omega
  · cases h; exact ⟨by omega, fun e => rfl⟩

/-- The list chosen by `_restrict_irrep` for a 2-dimensional irrep, and its blocks. -/
theorem blocks2 {M f : ℕ} (hM : 0 < M) {r : Irrep (ℤ × ℤ)} (h : irrep M 1 f = some r) :
    ∃ L, (if r.size < 2 then (irrep M 0 f).map (fun r0 => [r0, r]) else some [r]) = some L ∧
      (∀ i ∈ L, IsIrrep M i) ∧ (L.map Irrep.size).sum = 2 ∧
      ∀ e, MEq 2 2 (psichi (e.2 * (2 * π / M)) e.1 f 0) (blocks L e) := by
  have hs := irrep_size h
  by_cases h0 : f = 0 ∨ 2 * f = M
  · rw [if_pos h0] at hs
    rw [hs, if_pos (by norm_num)]
    obtain ⟨r0, hr0⟩ := irrep_some0 h0
    have hs0 := irrep_size hr0
    rw [if_pos h0] at hs0
    refine ⟨[r0, r], by rw [hr0]; rfl, ?_, by simp [hs, hs0], ?_⟩
    · intro i hi
      simp at hi
      rcases hi with rfl | rfl
      · exact ⟨_, _, hr0⟩
      · exact ⟨_, _, h⟩
    · intro e
      refine MEq.symm ((blocks_pair1 r0 r hs0 hs e).trans ?_)
      rw [irrep_mat1 h h0, irrep_mat1 hr0 h0]
      have hz := Cyclic.sin_half hM h0 e.2
      refine MEq.of_eq ?_
      simp only [psichi, m1, add_zero, hz, neg_zero, mul_zero]
      simp only [and_self, if_true, _root_.mul_assoc, true_and]
      congr 1
      · norm_num
      · ring
  · rw [if_neg h0] at hs
    rw [hs, if_neg (by norm_num)]
    refine ⟨[r], rfl, ?_, by simp [hs], ?_⟩
    · intro i hi; simp at hi; exact ⟨_, _, by rw [hi, h]⟩
    · intro e
      refine MEq.symm ((blocks_single2 r hs e).trans ?_)
      rw [(irrep_mat2 h h0).2 e]
      exact MEq.refl _

theorem psichi_mod {M : ℕ} (hM : 0 < M) (k : ℕ) (e s : ℤ) :
    psichi (e * (2 * π / M)) s k 0 = psichi (e * (2 * π / M)) s ((k % M : ℕ) : ℝ) 0 := by
  refine psichi_congr _ (((k / M : ℕ) : ℤ) * e) ?_
  have hM' : (M : ℝ) ≠ 0 := by positivity
  have hk : (k : ℝ) = M * ((k / M : ℕ) : ℝ) + ((k % M : ℕ) : ℝ) := by exact_mod_cast (Nat.div_add_mod k M).symm
  rw [hk, Int.cast_mul, Int.cast_natCast]; field_simp; ring

/-- The reduction of a 2-dimensional irrep with reflections. -/
theorem reduce2 {M : ℕ} (hM : 0 < M) (k : ℕ) :
    ∃ p r L, Cyclic.reduceFreq M (k % M) 2 (m2 1 0 0 (-1)) = some p ∧ irrep M 1 p.1 = some r ∧
      (if r.size < 2 then (irrep M 0 p.1).map (fun r0 => [r0, r]) else some [r]) = some L ∧
      RestrictsTo (fun _ : ℤ × ℤ => True) id 2 (fun e : ℤ × ℤ => psichi (e.2 * (2 * π / M)) e.1 k 0) (IsIrrep M)
        (p.2, L) := by
  have hlt := Nat.mod_lt k hM
  unfold Cyclic.reduceFreq
  by_cases h : M < 2 * (k % M)
  · rw [if_pos h, if_pos rfl]
    obtain ⟨r, hr⟩ := irrep_some (M := M) (f := M - k % M) (by omega)
    obtain ⟨L, hL, hok, hsz, hbl⟩ := blocks2 hM hr
    refine ⟨_, r, L, rfl, hr, hL, ⟨hsz, ⟨_, chi_inv⟩, ?_, hok⟩⟩
    intro e _
    refine MEq.trans ?_ (MEq.mul (MEq.refl _) (hbl e))
    simp only [id]
    rw [psichi_mod hM, psichi, psichi, m2_mul, m2_mul]
    have hc : ((M - k % M : ℕ) : ℝ) * (e.2 * (2 * π / M)) + 0 = -(((k % M : ℕ) : ℝ) * (e.2 * (2 * π / M)) + 0) + e.2 * (2 * π) := by
      have hM' : (M : ℝ) ≠ 0 := by positivity
      rw [Nat.cast_sub hlt.le]; field_simp; ring
    rw [hc, cos_add_int, sin_add_int, cos_neg, sin_neg]
    refine MEq.of_eq ?_
    congr 1 <;> ring
  · rw [if_neg h]
    obtain ⟨r, hr⟩ := irrep_some (M := M) (f := k % M) (by omega)
    obtain ⟨L, hL, hok, hsz, hbl⟩ := blocks2 hM hr
    refine ⟨_, r, L, rfl, hr, hL, RestrictsTo.ident hsz hok ?_⟩
    intro e _
    simp only [id]
    rw [psichi_mod hM]
    exact hbl e

/-- Conjugating with half the rotation moves the reflection axis. -/
theorem psichi_axis {s : ℤ} (hs : s = 0 ∨ s = 1) (θ a k : ℝ) :
    Mat.mul 2 (psichi (θ + s * a) s k 0) (psi (0.5 * a) k 0)
      = Mat.mul 2 (psi (0.5 * a) k 0) (psichi θ s k 0) := by
  rcases hs with rfl | rfl
  · simp only [psichi_zero, psi_mul]
    congr 1; push_cast; ring
  · rw [psichi_one, psichi_one, psi, m2_mul, m2_mul]
    have e1 : k * (θ + ((1 : ℤ) : ℝ) * a) + 0 = (k * (0.5 * a) + 0) + ((k * (0.5 * a) + 0) + (k * θ + 0)) := by
      push_cast; ring
    rw [e1]
    generalize k * (0.5 * a) + 0 = A
    generalize k * θ + 0 = B
    have hp := sin_sq_add_cos_sq A
    rw [cos_add, sin_add A (A + B), cos_add A B, sin_add A B]
    generalize cos A = c at *
    generalize sin A = d at *
    generalize cos B = x at *
    generalize sin B = y at *
    congr 1
    · linear_combination (c * x - d * y) * hp
    · linear_combination (c * y + d * x) * hp
    · linear_combination (c * y + d * x) * hp
    · linear_combination (-c * x + d * y) * hp

end Dihedral
end E2
