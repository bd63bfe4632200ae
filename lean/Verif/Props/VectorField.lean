import Verif.Props.PointwiseGroups
import Mathlib.Data.Finset.Max

/-!
The vector field nonlinearity (C35): it commutes with the rotations of `C_N`, `N ≥ 3`, at every position where the largest entry of each field is
taken once or is not positive.  At ties it does not, whatever index is returned, and for `C_2` it fails for more than one field.
-/

namespace E2

open Mat

variable {P : Type}

/-- The values of a field at a position do not leave the direction of the largest entry open: the largest entry is taken at one index
only, or no entry is positive. -/
def Decided (v : List ℝ) : Prop :=
  (∃ i, ∃ hi : i < v.length, ∀ j (hj : j < v.length), j ≠ i → v[j] < v[i]) ∨ ∀ i (hi : i < v.length), v[i] ≤ 0

theorem cos_sin_mod {N : ℕ} (hN : 0 < N) {a b : ℤ} (h : a % N = b % N) :
    Real.cos (a * (2 * Real.pi / N)) = Real.cos (b * (2 * Real.pi / N)) ∧ Real.sin (a * (2 * Real.pi / N)) = Real.sin (b * (2 * Real.pi / N)) := by
  have key : ∀ c : ℤ, Real.cos (c * (2 * Real.pi / N)) = Real.cos (((c % N : ℤ) : ℝ) * (2 * Real.pi / N)) ∧
      Real.sin (c * (2 * Real.pi / N)) = Real.sin (((c % N : ℤ) : ℝ) * (2 * Real.pi / N)) := by
    intro c
    obtain ⟨n, hn⟩ := emod_angle N hN 1 c
    rw [Int.cast_one, one_mul, one_mul] at hn
    rw [hn, Real.cos_add_int_mul_two_pi, Real.sin_add_int_mul_two_pi]
    exact ⟨rfl, rfl⟩
  rw [(key a).1, (key b).1, (key a).2, (key b).2, h]
  exact ⟨rfl, rfl⟩

/-- At one position: a rotation of the entries by `g` rotates the vector by `g` times the base angle. -/
theorem vectorFieldAt_rotate {N : ℕ} (hN : 0 < N) {argmax : List ℝ → ℕ} (ha : IsArgmax argmax) {v w : List ℝ} (hv : v.length = N) (hw : w.length = N)
    (g : ℤ) (h : ∀ i (_ : i < N) j (_ : j < N), (i : ℤ) = (g + j) % N → w[i] = v[j]) (hd : Decided v) :
    vectorFieldAt N argmax w =
      (Real.cos (g * (2 * Real.pi / N)) * (vectorFieldAt N argmax v).1 - Real.sin (g * (2 * Real.pi / N)) * (vectorFieldAt N argmax v).2,
       Real.sin (g * (2 * Real.pi / N)) * (vectorFieldAt N argmax v).1 + Real.cos (g * (2 * Real.pi / N)) * (vectorFieldAt N argmax v).2) := by
  have hNz : (N : ℤ) ≠ 0 := by exact_mod_cast hN.ne'
  have hNp : (0 : ℤ) < N := by exact_mod_cast hN
  obtain ⟨av, hav⟩ := ha v (by intro e; simp [e] at hv; omega)
  obtain ⟨aw, haw⟩ := ha w (by intro e; simp [e] at hw; omega)
  -- the index in `v` from which the entry at `k` of `w` comes
  have back : ∀ k, k < N → ∃ j, j < N ∧ (k : ℤ) = (g + j) % N := by
    intro k hk
    refine ⟨((k - g) % N).toNat, ?_, ?_⟩
    · have := Int.emod_lt_of_pos (k - g) hNp
      have := Int.emod_nonneg (k - g) hNz
      omega
    · rw [Int.toNat_of_nonneg (Int.emod_nonneg _ hNz), Int.add_emod_emod, add_sub_cancel, Int.emod_eq_of_lt (by omega) (by omega)]
  obtain ⟨j, hj, ej⟩ := back (argmax w) (by omega)
  have hwj := h _ (by omega) j hj ej
  have hmax : ∀ i (hi : i < v.length), v[i] ≤ v[j] := by
    intro i hi
    have hlt := Int.emod_lt_of_pos (g + i) hNp
    have hnn := Int.emod_nonneg (g + i) hNz
    have := haw ((g + i) % N).toNat (by omega)
    rw [h ((g + i) % N).toNat (by omega) i (by omega) (by omega), hwj] at this
    exact this
  have hval : w[argmax w] = v[argmax v] := by
    rw [hwj]; exact le_antisymm (hav j (by omega)) (hmax _ av)
  simp only [vectorFieldAt, List.getElem?_eq_getElem av, List.getElem?_eq_getElem aw, Option.getD_some, hval]
  rcases hd with ⟨i, hi, hu⟩ | hneg
  · have e1 : argmax v = i := by
      by_contra hne
      exact absurd (hav i hi) (not_le.2 (hu _ av hne))
    have e2 : j = i := by
      by_contra hne
      exact absurd (hmax i hi) (not_le.2 (hu _ (by omega) hne))
    have e3 : (argmax w : ℤ) = (g + argmax v) % N := by rw [ej, e1, e2]
    obtain ⟨hc, hs⟩ := cos_sin_mod hN (a := argmax w) (b := g + argmax v) (by rw [e3, Int.emod_emod])
    push_cast at hc hs
    rw [hc, hs, add_mul, Real.cos_add, Real.sin_add]
    exact Prod.ext (by ring) (by ring)
  · rw [max_eq_right (hneg _ av)]
    simp

/-- The channels of the output, field by field. -/
theorem range_two_map {A B : Type} (fs : List A) (d : A) (g h : A → B) :
    (List.range (fs.length * 2)).map (fun k => if k % 2 = 0 then g (fs[k / 2]?.getD d) else h (fs[k / 2]?.getD d))
      = (fs.map fun a => [g a, h a]).flatten := by
  induction fs with
  | nil => rfl
  | cons a fs ih =>
    rw [List.length_cons, show (fs.length + 1) * 2 = fs.length * 2 + 1 + 1 by ring, List.range_succ_eq_map, List.range_succ_eq_map,
      List.map_cons, List.map_cons, List.map_cons, List.map_cons, List.flatten_cons, ← ih]
    simp [Function.comp_def, show ∀ k : ℕ, (k + 1 + 1) % 2 = k % 2 by omega, show ∀ k : ℕ, (k + 1 + 1) / 2 = k / 2 + 1 by omega]

/-- The field computed from a field. -/
noncomputable def vectorFieldOf (N : ℕ) (argmax : List ℝ → ℕ) (fld : List (P → ℝ)) : List (P → ℝ) :=
  [fun p => (vectorFieldAt N argmax (fieldAt fld p)).1, fun p => (vectorFieldAt N argmax (fieldAt fld p)).2]

theorem vectorField_eq {N : ℕ} (hN : 0 < N) (argmax : List ℝ → ℕ) (n : ℕ) (x : List (P → ℝ)) (hx : x.length = n * N) :
    vectorField N 2 argmax n x = some ((chunks (List.replicate n N) x).map (vectorFieldOf N argmax)).flatten := by
  have hl : (chunks (List.replicate n N) x).length = n := by rw [chunks_length, List.length_replicate]
  rw [vectorField, viewFields_eq N n hN x hx]
  rw [hl, if_pos (by omega)]
  congr 1
  have := range_two_map (chunks (List.replicate n N) x) [] (fun fld => fun p : P => (vectorFieldAt N argmax (fieldAt fld p)).1)
    (fun fld => fun p : P => (vectorFieldAt N argmax (fieldAt fld p)).2)
  refine Eq.trans ?_ this
  rw [hl]
  apply List.map_congr_left
  intro k hk
  rw [List.mem_range] at hk
  have e : (if n = 1 then 0 else k / 2) = k / 2 := by split <;> omega
  rw [e]
  funext p
  split <;> rfl

/-- C35 (partial: only inputs whose fields are `Decided` at every position, and `N ≥ 3`): for every element `g` of `C_N`, with the
matrices of the regular representation on the input and those of the irrep of frequency 1 on the output, and every map of the positions. -/
theorem c35_vectorfield_partial (N : ℕ) (hN : 3 ≤ N) {r : Repr ℤ} (hr : IsRegularRep (Cyclic.grp N) (Cyclic.elements N) r) {ρ₁ : Irrep ℤ}
    (hρ : Cyclic.irrep N 1 = some ρ₁) {argmax : List ℝ → ℕ} (ha : IsArgmax argmax) (g : ℤ) (hg : (Cyclic.grp N).isEl g) (π : P → P) (n : ℕ) (hn : 0 < n)
    (x : List (P → ℝ)) (hx : x.length = n * N)
    (hd : ∀ fld ∈ chunks (List.replicate n N) x, ∀ p, Decided (fieldAt fld p)) :
    ∃ y, ρ₁.size = 2 ∧ y.length = n * ρ₁.size ∧ vectorField N ρ₁.size argmax n x = some y ∧
      vectorField N ρ₁.size argmax n ((⟨List.replicate n (), x⟩ : GTensor Unit (P → ℝ)).transform (fun _ => N) (fun _ => r.mat g) π).data
        = some ((⟨List.replicate n (), y⟩ : GTensor Unit (P → ℝ)).transform (fun _ => ρ₁.size) (fun _ => ρ₁.mat g) π).data := by
  have hs : ρ₁ = { size := 2, socs := 2, freq := 1, flip := 0, mat := fun e => psi (e * (2 * Real.pi / N)) 1 0 } := by
    rw [Cyclic.irrep, if_neg (by rw [Cyclic.order_eq]; omega), if_neg (by omega), if_neg (by rw [Cyclic.order_eq]; omega)] at hρ
    have := (Option.some.inj hρ).symm
    simpa only [Cyclic.order_eq, Nat.cast_one] using this
  subst hs
  have hN0 : 0 < N := by omega
  set T : GTensor Unit (P → ℝ) := ⟨List.replicate n (), x⟩ with hT
  have hTty : T.ty = List.replicate n () := rfl
  have hsz : ∀ s : ℕ, (T.ty.map fun _ => s) = List.replicate n s := fun s => by rw [hTty, List.map_replicate]
  have hTwf : T.WF (fun _ => N) := ⟨by simp [hTty]; omega, by rw [typeSize, hsz, List.sum_replicate]; exact hx⟩
  have hT'wf := transform_wf (fun _ => r.mat g) π hTwf
  have hchunk : T.fields (fun _ => N) = chunks (List.replicate n N) x := by rw [GTensor.fields, hsz]
  have hchunk' : (T.transform (fun _ => N) (fun _ => r.mat g) π).fields (fun _ => N)
      = chunks (List.replicate n N) (T.transform (fun _ => N) (fun _ => r.mat g) π).data := by
    rw [GTensor.fields]
    exact congrArg (fun l => chunks l _) (hsz N)
  have hl : ∀ fs : List (List (P → ℝ)), fs.length = n → (fs.map (vectorFieldOf N argmax)).map List.length = List.replicate n 2 := by
    intro fs hfs
    rw [List.map_map, List.eq_replicate_iff]
    refine ⟨by simpa using hfs, ?_⟩
    intro b hb
    obtain ⟨a, -, rfl⟩ := List.mem_map.1 hb
    rfl
  have hl' : ∀ fs : List (List (P → ℝ)), fs.length = n → (fs.map (vectorFieldOf N argmax)).flatten.length = n * 2 := by
    intro fs hfs
    rw [List.length_flatten, hl fs hfs, List.sum_replicate, smul_eq_mul]
  have hc : (chunks (List.replicate n N) x).length = n := by rw [chunks_length, List.length_replicate]
  have hc' : (chunks (List.replicate n N) (T.transform (fun _ => N) (fun _ => r.mat g) π).data).length = n := by rw [chunks_length, List.length_replicate]
  refine ⟨((chunks (List.replicate n N) x).map (vectorFieldOf N argmax)).flatten, rfl, hl' _ hc, vectorField_eq hN0 argmax n x hx, ?_⟩
  rw [vectorField_eq hN0 argmax n _ (by
    have := hT'wf.2
    rw [typeSize] at this
    rw [this]
    exact (congrArg List.sum (hsz N)).trans (by rw [List.sum_replicate, smul_eq_mul]))]
  congr 1
  have key := transform_of_fields (sz := fun _ : Unit => 2) (ρ := fun _ => psi (g * (2 * Real.pi / N)) 1 0) (π := π)
    (y := ⟨List.replicate n (), ((chunks (List.replicate n N) x).map (vectorFieldOf N argmax)).flatten⟩)
    (y' := ⟨List.replicate n (), ((chunks (List.replicate n N) (T.transform (fun _ => N) (fun _ => r.mat g) π).data).map (vectorFieldOf N argmax)).flatten⟩)
    ⟨by simp; omega, by rw [hl' _ hc, typeSize, List.map_replicate, List.sum_replicate, smul_eq_mul]⟩
    ⟨by simp; omega, by rw [hl' _ hc', typeSize, List.map_replicate, List.sum_replicate, smul_eq_mul]⟩ rfl ?_
  · exact congrArg GTensor.data key
  · intro c u hu
    rw [GTensor.fields, GTensor.fields]
    dsimp only
    rw [List.map_replicate, chunks_of_flatten' _ (hl _ hc), chunks_of_flatten' _ (hl _ hc'), List.getElem?_map, List.getElem?_map, ← hchunk', ← hchunk,
      transform_fields_get (fun _ => N) _ π T hu]
    obtain ⟨fld, hf⟩ := field_exists (sz := fun _ => N) (x := T) hu
    have hfl := field_length hTwf hu hf
    rw [hf]
    simp only [Option.map_some]
    congr 1
    have hdf := hd fld (hchunk ▸ List.mem_of_getElem? hf)
    have hat : ∀ p, vectorFieldAt N argmax (fieldAt (moveField N (r.mat g) π fld) p) = _ := fun p =>
      vectorFieldAt_rotate hN0 ha (v := fieldAt fld (π p)) (by simpa [fieldAt] using hfl)
        (by simp [fieldAt, moveField_length]) g (by
          intro i hi j hj hij
          have h1 := moveField_get N (r.mat g) π fld hi p
          have h2 : ∑ j' ∈ Finset.range N, r.mat g i j' * fld[j']?.getD 0 (π p) = fld[j]?.getD 0 (π p) := by
            rw [Finset.sum_eq_single j]
            · rw [hr.mat g hg i (by simpa [Cyclic.elements] using hi) j (by simpa [Cyclic.elements] using hj), if_pos, one_mul]
              simp [Cyclic.elements, Cyclic.grp, Cyclic.combine, Cyclic.order]
              exact hij
            · intro k hk hkj
              rw [Finset.mem_range] at hk
              rw [hr.mat g hg i (by simpa [Cyclic.elements] using hi) k (by simpa [Cyclic.elements] using hk), if_neg, zero_mul]
              simp only [Cyclic.grp, Cyclic.combine, Cyclic.order_eq]
              simp only [Cyclic.elements, List.getElem_map, List.getElem_range]
              intro e
              have e2 : (g + j) % (N : ℤ) = (g + k) % N := by rw [← hij]; exact e
              have : (j : ℤ) % N = k % N := Int.ModEq.add_left_cancel' g e2
              rw [Int.emod_eq_of_lt (by omega) (by omega), Int.emod_eq_of_lt (by omega) (by omega)] at this
              omega
            · intro h; exact absurd (Finset.mem_range.2 hj) h
          rw [h2] at h1
          have l1 : i < (moveField N (r.mat g) π fld).length := by rw [moveField_length]; exact hi
          have l2 : j < fld.length := by rw [hfl]; exact hj
          rw [List.getElem?_eq_getElem l1, List.getElem?_eq_getElem l2] at h1
          simpa [fieldAt] using h1) (hdf (π p))
    apply List.ext_getElem (by rw [moveField_length]; rfl)
    intro i h1 h2
    funext p
    have hi : i < 2 := by simpa [vectorFieldOf] using h1
    have := moveField_get 2 (psi (g * (2 * Real.pi / N)) 1 0) π (vectorFieldOf N argmax fld) hi p
    rw [List.getElem?_eq_getElem h2, Option.getD_some] at this
    rw [this, Finset.sum_range_succ, Finset.sum_range_one]
    have h3 := hat p
    interval_cases i
    · change (vectorFieldAt N argmax (fieldAt (moveField N (r.mat g) π fld) p)).1 = _
      rw [h3]
      simp [vectorFieldOf, psi, m2]
      ring
    · change (vectorFieldAt N argmax (fieldAt (moveField N (r.mat g) π fld) p)).2 = _
      rw [h3]
      simp [vectorFieldOf, psi, m2]

/-- Without the condition on ties the claim is false, whatever the choice of the index: at a position where all the entries are equal to 1 the
field is unchanged by the generator of the group, and the vector computed from it is not. -/
theorem c35_ties_false (N : ℕ) (hN : 3 ≤ N) {argmax : List ℝ → ℕ} (ha : IsArgmax argmax) :
    let v := List.replicate N (1 : ℝ)
    let u := vectorFieldAt N argmax v
    (Real.cos (2 * Real.pi / N) * u.1 - Real.sin (2 * Real.pi / N) * u.2, Real.sin (2 * Real.pi / N) * u.1 + Real.cos (2 * Real.pi / N) * u.2) ≠ u := by
  intro v u h
  obtain ⟨hl, -⟩ := ha v (by simp [v]; omega)
  have hm : u = (Real.cos (argmax v * (2 * Real.pi / N)), Real.sin (argmax v * (2 * Real.pi / N))) := by
    simp only [u, vectorFieldAt, List.getElem?_eq_getElem hl, Option.getD_some]
    simp [v]
  have h1 := congrArg Prod.fst h
  have h2 := congrArg Prod.snd h
  have hsq := Real.cos_sq_add_sin_sq (argmax v * (2 * Real.pi / N))
  rw [hm] at h1 h2
  dsimp only at h1 h2
  have hlt : Real.cos (2 * Real.pi / N) < 1 := by
    have hN' : (3 : ℝ) ≤ N := by exact_mod_cast hN
    have hpi := Real.pi_pos
    rw [← Real.cos_zero]
    refine Real.cos_lt_cos_of_nonneg_of_le_pi le_rfl ?_ (by positivity)
    rw [div_le_iff₀ (by linarith)]
    nlinarith
  have : Real.cos (2 * Real.pi / N) = 1 := by
    linear_combination Real.cos (argmax v * (2 * Real.pi / N)) * h1 + Real.sin (argmax v * (2 * Real.pi / N)) * h2
      - (Real.cos (2 * Real.pi / N) - 1) * hsq
  linarith

/-- With the smallest index returned for ties, every tie of a positive largest entry is treated wrongly by some rotation: the entries rotated by `g`
give a vector different from the rotated vector. -/
theorem c35_every_tie_false (N : ℕ) (hN : 0 < N) {argmax : List ℝ → ℕ} (ha : IsArgmax argmax)
    (hfirst : ∀ v : List ℝ, (∀ i (hi : i < v.length), v[i] ≤ v[0]?.getD 0) → argmax v = 0) (v : List ℝ) (hv : v.length = N) (b : ℕ) (hb : b < N)
    (hbm : ∀ i (hi : i < v.length), v[i] ≤ v[b]) (hpos : 0 < v[b]) (hab : argmax v ≠ b) :
    ∃ (g : ℤ) (w : List ℝ), w.length = N ∧ (∀ i (_ : i < N) j (_ : j < N), (i : ℤ) = (g + j) % N → w[i]? = v[j]?) ∧
      vectorFieldAt N argmax w ≠
        (Real.cos (g * (2 * Real.pi / N)) * (vectorFieldAt N argmax v).1 - Real.sin (g * (2 * Real.pi / N)) * (vectorFieldAt N argmax v).2,
         Real.sin (g * (2 * Real.pi / N)) * (vectorFieldAt N argmax v).1 + Real.cos (g * (2 * Real.pi / N)) * (vectorFieldAt N argmax v).2) := by
  have hNz : (N : ℤ) ≠ 0 := by exact_mod_cast hN.ne'
  have hNp : (0 : ℤ) < N := by exact_mod_cast hN
  have hidx : ∀ i : ℕ, ((i + b : ℤ) % N).toNat < v.length := by
    intro i
    have := Int.emod_lt_of_pos (i + b : ℤ) hNp
    have := Int.emod_nonneg (i + b : ℤ) hNz
    omega
  set w : List ℝ := List.ofFn fun i : Fin N => v[((i + b : ℤ) % N).toNat]'(hidx i) with hw
  have hwl : w.length = N := by simp [hw]
  refine ⟨-b, w, hwl, ?_, ?_⟩
  · intro i hi j hj hij
    rw [List.getElem?_eq_getElem (by omega), List.getElem?_eq_getElem (by omega)]
    have hji : ((i + b : ℤ) % N).toNat = j := by
      rw [hij, Int.emod_add_emod, show (-b + j + b : ℤ) = j by ring, Int.emod_eq_of_lt (by omega) (by omega)]
      simp
    simp only [hw, List.getElem_ofFn, hji]
  · obtain ⟨av, hav⟩ := ha v (by intro e; simp [e] at hv; omega)
    have hw0 : w[0]? = some v[b] := by
      rw [List.getElem?_eq_getElem (by omega)]
      have : ((b : ℤ) % N).toNat = b := by rw [Int.emod_eq_of_lt (by omega) (by omega)]; simp
      simp [hw, List.getElem_ofFn, this]
    have haw : argmax w = 0 := by
      refine hfirst w ?_
      intro i hi
      rw [hw0]
      simp only [hw, List.getElem_ofFn, Option.getD_some]
      exact hbm _ _
    have hval : v[argmax v] = v[b] := le_antisymm (hbm _ av) (hav b (by omega))
    intro e
    simp only [vectorFieldAt, haw, hw0, List.getElem?_eq_getElem av, hval, Option.getD_some, max_eq_left hpos.le] at e
    have e1 := congrArg Prod.fst e
    dsimp only at e1
    have h3 : Real.cos ((argmax v - b : ℤ) * (2 * Real.pi / N)) = 1 := by
      push_cast
      rw [show ((argmax v : ℝ) - b) * (2 * Real.pi / N) = -b * (2 * Real.pi / N) + argmax v * (2 * Real.pi / N) by ring, Real.cos_add]
      push_cast at e1
      have : v[b] * 1 = v[b] * (Real.cos (-b * (2 * Real.pi / N)) * Real.cos (argmax v * (2 * Real.pi / N))
          - Real.sin (-b * (2 * Real.pi / N)) * Real.sin (argmax v * (2 * Real.pi / N))) := by
        have e2 := e1
        simp only [zero_mul, Real.cos_zero] at e2
        linear_combination e2
      exact (mul_left_cancel₀ hpos.ne' this).symm
    rw [Real.cos_eq_one_iff] at h3
    obtain ⟨k, hk⟩ := h3
    have hNr : (N : ℝ) ≠ 0 := by positivity
    have hpi := Real.pi_ne_zero
    have hk' : (k : ℝ) * N = ((argmax v - b : ℤ) : ℝ) := by
      field_simp at hk
      linarith
    have hk2 : k * N = (argmax v : ℤ) - b := by exact_mod_cast hk'
    have : k = 0 := by
      rcases lt_trichotomy k 0 with h | h | h
      · nlinarith
      · exact h
      · nlinarith
    rw [this] at hk2
    omega

/-- For `C_2` the irrep of frequency 1 has one channel, and the assignment of the cosines and sines fails for every input of more than one
field. -/
theorem c35_c2_error {ρ₁ : Irrep ℤ} (hρ : Cyclic.irrep 2 1 = some ρ₁) (argmax : List ℝ → ℕ) (n : ℕ) (hn : 2 ≤ n) (x : List (P → ℝ))
    (hx : x.length = n * 2) : vectorField 2 ρ₁.size argmax n x = none := by
  have hs : ρ₁.size = 1 := by
    rw [Cyclic.irrep, if_neg (by rw [Cyclic.order_eq]; omega), if_neg (by omega), if_pos (by rw [Cyclic.order_eq]; omega)] at hρ
    rw [← Option.some.inj hρ]
  rw [vectorField, hs, viewFields_eq 2 n (by norm_num) x hx, chunks_length, List.length_replicate, if_neg (by omega)]

/-- An index of the largest entry exists, so there are functions `argmax`. -/
theorem exists_argmax : ∃ argmax : List ℝ → ℕ, IsArgmax argmax := by
  classical
  have h : ∀ v : List ℝ, v ≠ [] → ∃ k, ∃ h : k < v.length, ∀ i (hi : i < v.length), v[i] ≤ v[k] := by
    intro v hv
    have hne : (Finset.univ : Finset (Fin v.length)).Nonempty := ⟨⟨0, List.length_pos_iff.2 hv⟩, Finset.mem_univ _⟩
    obtain ⟨k, -, hk⟩ := Finset.exists_max_image Finset.univ (fun i : Fin v.length => v[i]) hne
    exact ⟨k, k.2, fun i hi => hk ⟨i, hi⟩ (Finset.mem_univ _)⟩
  refine ⟨fun v => if hv : v ≠ [] then (h v hv).choose else 0, fun v hv => ?_⟩
  simp only [dif_pos hv]
  exact (h v hv).choose_spec

/-- A field of `C_4` with one largest entry, and one without positive entries, at one position. -/
example : Decided [0, 3, 1, 2] ∧ Decided [-1, -1, 0, -2] := by
  constructor
  · refine Or.inl ⟨1, by simp, ?_⟩
    intro j hj hne
    simp only [List.length_cons, List.length_nil] at hj
    interval_cases j <;> simp at hne ⊢ <;> norm_num
  · refine Or.inr ?_
    intro j hj
    simp only [List.length_cons, List.length_nil] at hj
    interval_cases j <;> norm_num

end E2
