import Verif.Props.Network

/-!
A network with a `ReshuffleModule` and a concatenated nonlinearity.
-/

namespace E2

open Mat

/-- The trivial representation of `C_2`. -/
noncomputable def triv2 : Irrep ℤ := { size := 1, socs := 1, mat := fun _ => m1 1, freq := 0, flip := 0 }

/-- The sign representation of `C_2`. -/
noncomputable def sign2 : Irrep ℤ :=
  { size := 1, socs := 1, freq := 1, flip := 0, mat := fun e => m1 (Real.cos ((1 : ℕ) * e * (2 * Real.pi / (Cyclic.order 2)))) }

theorem triv2_irrep : Cyclic.irrep 2 0 = some triv2 := by
  simp [Cyclic.irrep, triv2]

theorem sign2_irrep : Cyclic.irrep 2 1 = some sign2 := by
  simp [Cyclic.irrep, sign2, Cyclic.order_eq]

/-- Representations 0 and 1 are the trivial one and the sign, 2 is a sum of two trivial ones, the others are the regular one. -/
noncomputable def catRep (r : ℕ) : Repr ℤ :=
  if r = 0 then ⟨[triv2], Mat.one, Mat.one⟩
  else if r = 1 then ⟨[sign2], Mat.one, Mat.one⟩
  else if r = 2 then ⟨[triv2, triv2], Mat.one, Mat.one⟩
  else ⟨[triv2, sign2], fun i j => if i = 1 ∧ j = 1 then -1 else 1, fun i j => if i = 1 ∧ j = 1 then -1 / 2 else 1 / 2⟩

theorem catRep_size (r : ℕ) : (catRep r).size = if r < 2 then 1 else 2 := by
  unfold catRep
  split_ifs <;> first | omega | rfl

theorem sign2_mat (g : ℤ) (hg : (Cyclic.grp 2).isEl g) : sign2.mat g 0 0 = if g = 0 then 1 else -1 := by
  have h : g = 0 ∨ g = 1 := by
    have := hg
    simp [Cyclic.grp, Cyclic.isElement, Cyclic.order_eq] at this
    omega
  rcases h with rfl | rfl
  · simp [sign2, m1]
  · have e : ((1 : ℕ) : ℝ) * ((1 : ℤ) : ℝ) * (2 * Real.pi / ((Cyclic.order 2 : ℕ) : ℝ)) = Real.pi := by
      rw [Cyclic.order_eq]
      push_cast
      ring
    simp only [sign2, m1]
    rw [e]
    simp

theorem catRep_ok (r : ℕ) : (catRep r).WF ∧ ∀ i ∈ (catRep r).irreps, ∃ k, Cyclic.irrep 2 k = some i := by
  unfold catRep
  split_ifs
  · exact ⟨⟨MEq_one_mul _ _ _, MEq_one_mul _ _ _⟩, fun i hi => ⟨0, by simp at hi; rw [hi]; exact triv2_irrep⟩⟩
  · exact ⟨⟨MEq_one_mul _ _ _, MEq_one_mul _ _ _⟩, fun i hi => ⟨1, by simp at hi; rw [hi]; exact sign2_irrep⟩⟩
  · exact ⟨⟨MEq_one_mul _ _ _, MEq_one_mul _ _ _⟩, fun i hi => ⟨0, by simp at hi; rw [hi]; exact triv2_irrep⟩⟩
  · refine ⟨?_, fun i hi => ?_⟩
    · have hs : (⟨[triv2, sign2], fun i j => if i = 1 ∧ j = 1 then -1 else 1, fun i j => if i = 1 ∧ j = 1 then -1 / 2 else 1 / 2⟩ : Repr ℤ).size = 2 := rfl
      unfold Repr.WF
      rw [hs]
      constructor <;> intro a ha b hb <;> interval_cases a <;> interval_cases b <;> simp [Mat.mul, Finset.sum_range_succ, Mat.one] <;> norm_num
    · simp only [List.mem_cons, List.not_mem_nil, or_false] at hi
      rcases hi with rfl | rfl
      · exact ⟨0, triv2_irrep⟩
      · exact ⟨1, sign2_irrep⟩

theorem catRep_mat (r : ℕ) (g : ℤ) (hg : (Cyclic.grp 2).isEl g) :
    (r = 0 → (catRep r).mat g 0 0 = 1) ∧ (r = 1 → (catRep r).mat g 0 0 = if g = 0 then 1 else -1) ∧
      (r = 2 → MEq 2 2 ((catRep r).mat g) Mat.one) ∧ (2 < r → MEq 2 2 ((catRep r).mat g) (concatMat (m1 (if g = 0 then 1 else -1)))) := by
  have ht : triv2.mat g 0 0 = 1 := rfl
  have hs := sign2_mat g hg
  have s1 : triv2.size = 1 := rfl
  have s2 : sign2.size = 1 := rfl
  refine ⟨?_, ?_, ?_, ?_⟩
  · rintro rfl
    simp [catRep, Repr.mat, Repr.size, Repr.blocks, bdiag, Mat.mul, Mat.one, s1, ht]
  · rintro rfl
    simp [catRep, Repr.mat, Repr.size, Repr.blocks, bdiag, Mat.mul, Mat.one, s2, hs]
  · rintro rfl a ha b hb
    interval_cases a <;> interval_cases b <;>
      simp [catRep, Repr.mat, Repr.size, Repr.blocks, bdiag, Mat.mul, Mat.one, Finset.sum_range_succ, s1, ht]
  · intro hr a ha b hb
    have e : catRep r = ⟨[triv2, sign2], fun i j => if i = 1 ∧ j = 1 then -1 else 1, fun i j => if i = 1 ∧ j = 1 then -1 / 2 else 1 / 2⟩ := by
      unfold catRep
      rw [if_neg (by omega), if_neg (by omega), if_neg (by omega)]
    rw [e]
    have h10 : (1 : ℝ) ≠ -1 := by norm_num
    by_cases hg0 : g = 0
    · rw [if_pos hg0] at hs ⊢
      interval_cases a <;> interval_cases b <;>
        simp [Repr.mat, Repr.size, Repr.blocks, bdiag, Mat.mul, Finset.sum_range_succ, s1, s2, ht, hs, concatMat, m1] <;> norm_num
    · rw [if_neg hg0] at hs ⊢
      interval_cases a <;> interval_cases b <;>
        simp [Repr.mat, Repr.size, Repr.blocks, bdiag, Mat.mul, Finset.sum_range_succ, s1, s2, ht, hs, concatMat, m1] <;> norm_num

theorem signed_one {M : Mat} (h : M 0 0 = 1 ∨ M 0 0 = -1) : IsSignedPerm 1 M :=
  ⟨1, fun _ => M 0 0, fun _ => h, fun i j => by
    obtain rfl : i = 0 := Subsingleton.elim _ _
    obtain rfl : j = 0 := Subsingleton.elim _ _
    simp⟩

/-- The fields are exchanged, doubled by the concatenated nonlinearity, pooled over the group, and averaged. -/
noncomputable def catNet (f : ℝ → ℝ) : List (ℕ × Layer ℕ Unit Unit) :=
  [(0, .reshuffle [0, 1] [1, 0]), (1, .concatenated [1, 0] (· + 2) f), (2, .groupPool [3, 2] 0), (3, .avgPool [0, 0] 5 1 0 false)]

theorem concatMat_m1_one : MEq 2 2 Mat.one (concatMat (m1 1)) := by
  intro a ha b hb
  interval_cases a <;> interval_cases b <;> simp [concatMat, m1, Mat.one]

theorem concatMat_size_one {M : Mat} : MEq 2 2 (concatMat M) (concatMat (m1 (M 0 0))) := by
  intro a ha b hb
  have h1 : a / 2 = 0 := by omega
  have h2 : b / 2 = 0 := by omega
  unfold concatMat
  rw [h1, h2]
  rfl

theorem catNet_ok (interp : ℝ → Img → Img) (f : ℝ → ℝ) :
    NetOk (rotSpace interp 2) catRep (builtRot 2 catRep) ((catNet f).map Prod.snd) 5 1 := by
  have e : ∀ r < 2, ∀ g, (Cyclic.grp 2).isEl g → IsSignedPerm 1 ((catRep r).mat g) := by
    intro r hr g hg
    refine signed_one ?_
    obtain ⟨h0, h1, -⟩ := catRep_mat r g hg
    interval_cases r
    · exact .inl (h0 rfl)
    · rw [h1 rfl]
      split_ifs <;> simp
  have k : ∀ r < 2, ∀ g, (Cyclic.grp 2).isEl g → MEq 2 2 ((catRep (r + 2)).mat g) (concatMat ((catRep r).mat g)) := by
    intro r hr g hg
    refine MEq.trans ?_ concatMat_size_one.symm
    obtain ⟨h0, h1, -⟩ := catRep_mat r g hg
    obtain ⟨-, -, h2, h3⟩ := catRep_mat (r + 2) g hg
    interval_cases r
    · rw [h0 rfl]
      exact (h2 rfl).trans concatMat_m1_one
    · rw [h1 rfl]
      exact h3 (by omega)
  have s : ∀ r < 2, (catRep r).size = 1 ∧ (catRep (r + 2)).size = 2 := fun r hr => ⟨by rw [catRep_size, if_pos hr], by rw [catRep_size, if_neg (by omega)]⟩
  refine ⟨5, ⟨rfl, List.Perm.swap 0 1 []⟩, 5, ⟨rfl, fun r hr => ?_⟩, 5, ⟨rfl, ⟨(s 0 (by omega)).1, fun g hg => (catRep_mat 0 g hg).1 rfl⟩, fun r hr g hg => ?_⟩,
    1, ⟨rfl, rfl⟩, rfl⟩
  · have hr : r < 2 := by simp at hr; omega
    refine ⟨by rw [(s r hr).1, (s r hr).2], fun g hg => ?_⟩
    rw [(s r hr).1]
    exact ⟨e r hr g hg, k r hr g hg⟩
  · obtain ⟨r', rfl⟩ : ∃ r', r = r' + 2 := ⟨r - 2, by simp at hr; omega⟩
    have hr' : r' < 2 := by simp at hr; omega
    rw [(s r' hr').2]
    exact isPerm_iff_sPerm.2 ((isPerm_iff_sPerm.1 (e r' hr' g hg).concatMat).congr (k r' hr' g hg).symm)

/-- `c62_invariant` for this network: rotations by a half turn do not change its output, for every function. -/
example (interp : ℝ → Img → Img) (f : ℝ → ℝ) (x : GTensor ℕ (Pix (Fin 7) 5 → ℝ)) (hx : x.ty = [0, 1] ∧ x.data.length = 2)
    (junk : ℕ → (c n : ℕ) → List (Pix (Fin 7) n → ℝ)) (hj : ∀ k, JunkOk (junk k)) :
    ∃ y, netForward catRep junk (catNet f) ⟨5, x⟩ = some y ∧ netForward catRep junk (catNet f) (ETensor.act (rotSpace interp 2) catRep 1 ⟨5, x⟩) = some y := by
  have hS := c62_cyclic (F := ℕ) (A := Unit) (I := Unit) interp 2 (by omega) catRep catRep_ok (fun r => by rw [catRep_size]; split_ifs <;> omega)
  refine c62_invariant hS (catNet f) (by simp [catNet]) (by simp [catNet]) (by simp [catNet, Layer.inTy, Layer.outTy]) (catNet_ok interp f)
    (fun r hr => ?_) ⟨5, x⟩ rfl ⟨by simp [hx.1], ?_⟩ hx.1 1 rfl ⟨2, by norm_num; ring⟩ junk junk hj hj
  · obtain rfl : r = 0 := by simpa [catNet, Layer.outTy] using hr
    exact ⟨by rw [catRep_size, if_pos (by omega)], fun g hg => (catRep_mat 0 g hg).1 rfl⟩
  · change x.data.length = _
    rw [hx.1, hx.2]
    simp [typeSize, catRep_size]

end E2
