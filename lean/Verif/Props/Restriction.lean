import Verif.Lemmas.Restrict
import Verif.Props.SubgroupsCont

/-!
# C08, C09: restriction of representations
-/

namespace E2

open Finset Mat Real

open _root_.E2.Repr

/-- From the restriction of irreps to the restriction of representations. -/
theorem isRestriction_of {A B : Type} {H : Grp A} {parent : A → B} {isIrrep : Irrep A → Prop}
    {restr : Irrep B → Option (Mat × List (Irrep A))} (hrep : ∀ i, isIrrep i → IsRep H i.size i.mat)
    (r : Repr B) (hr : r.WF)
    (h : ∀ i ∈ r.irreps, ∃ p, restr i = some p ∧ RestrictsTo H.isEl parent i.size i.mat isIrrep p) :
    ∃ r', r.restrict restr = some r' ∧ IsRestriction H parent isIrrep r r' := by
  obtain ⟨r', h1, h2, h3, h4, h5⟩ := restrict_lift r hr h
  exact ⟨r', h1, h2, h3, h4, mat_isRep H r' h2 fun i hi => hrep i (h4 i hi), h5⟩

theorem Cyclic.IsIrrep.isRep {N : ℕ} (hN : 0 < N) (i : Irrep ℤ) (h : Cyclic.IsIrrep N i) :
    IsRep (Cyclic.grp N) i.size i.mat := by
  obtain ⟨k, hk⟩ := h
  exact (Cyclic.irrep_isOrthRep hN hk).toIsRep

theorem Dihedral.IsIrrep.isRep {N : ℕ} (hN : 0 < N) (i : Irrep (ℤ × ℤ)) (h : Dihedral.IsIrrep N i) :
    IsRep (Dihedral.grp N) i.size i.mat := by
  obtain ⟨j, k, hk⟩ := h
  exact (Dihedral.irrep_isOrthRep hN hk).toIsRep

theorem Repr.RestrictsTo.weaken {El El' : Type} {isEl isEl' : El' → Prop} {parent : El' → El} {n : ℕ} {ρ : El → Mat}
    {ok : Irrep El' → Prop} {p : Mat × List (Irrep El')} (h : RestrictsTo isEl parent n ρ ok p)
    (hw : ∀ x, isEl' x → isEl x) : RestrictsTo isEl' parent n ρ ok p :=
  ⟨h.size, h.inv, fun x hx => h.comm x (hw x hx), h.irr⟩

/-- The frequency `N/2` modulo a divisor of `N` is `0` or half the divisor. -/
theorem half_mod {M r k : ℕ} (hM : 0 < M) (hk : 2 * k = M * r) : k % M = 0 ∨ 2 * (k % M) = M := by
  rcases Nat.even_or_odd' r with ⟨c, rfl | rfl⟩
  · left
    have : k = M * c := by nlinarith
    rw [this]; simp
  · right
    have h2 : M % 2 = 0 := by
      have : (2 * k) % 2 = 0 := by omega
      rw [hk, Nat.mul_mod] at this
      have h3 : (2 * c + 1) % 2 = 1 := by omega
      rw [h3] at this; omega
    obtain ⟨m, rfl⟩ : ∃ m, M = 2 * m := ⟨M / 2, by omega⟩
    have : k = m + 2 * m * c := by nlinarith
    rw [this, Nat.add_mul_mod_self_left, Nat.mod_eq_of_lt (by omega)]

theorem cyclic_irrep_restricts {N M : ℕ} (hN : 0 < N) {S : Cyclic.Sub} (hS : Cyclic.subgroup N M = some S)
    (i : Irrep ℤ) (hi : Cyclic.IsIrrep N i) :
    ∃ p, Cyclic.restrictIrrep N i M = some p ∧
      RestrictsTo (Cyclic.grp M).isEl S.parent i.size i.mat (Cyclic.IsIrrep M) p := by
  have hs : 0 < M ∧ M ∣ N := (c06_cyclic_subgroup N hN M).1.1 (by rw [hS]; rfl)
  obtain ⟨hM, r, rfl⟩ := hs
  obtain ⟨k, hk⟩ := hi
  have hr : 0 < r := Nat.pos_of_mul_pos_left hN
  have hpar : ∀ h, S.parent h = h * r := by
    intro h
    rw [Cyclic.subgroup, Cyclic.order_eq, if_neg (by simp; omega)] at hS
    cases hS
    simp [hM]
  have hang : ∀ h : ℤ, ((S.parent h : ℤ) : ℝ) * (2 * π / ((M * r : ℕ) : ℝ)) = h * (2 * π / M) := by
    intro h
    have : (r : ℝ) ≠ 0 := by positivity
    have : (M : ℝ) ≠ 0 := by positivity
    rw [hpar]; push_cast; field_simp
  have hf := ((c04_cyclic_irreps (M * r) hN k).1 (by
    by_contra hc; rw [(c04_cyclic_irreps (M * r) hN k).2 hc] at hk; cases hk))
  obtain ⟨i', hi', _, _, hsz, hfr⟩ := hf
  rw [hk] at hi'
  cases hi'
  rw [Cyclic.restrictIrrep, hS]
  simp only [hfr]
  by_cases h0 : k = 0 ∨ 2 * k = M * r
  · rw [if_pos h0] at hsz
    have hm : k % M = 0 ∨ 2 * (k % M) = M := by
      rcases h0 with rfl | h0
      · simp
      · exact half_mod hM h0
    obtain ⟨r', h1, h2, h3⟩ := Cyclic.reduce1 hM k hm (m2 1 0 0 (-1))
    simp only [hsz, h1, h2]
    refine ⟨_, rfl, RestrictsTo.weaken (isEl := fun _ => True) (h3.of_eq ?_) fun _ _ => trivial⟩
    intro h _
    rw [Cyclic.irrep_mat1 hk h0, _root_.mul_assoc, hang, id, _root_.mul_assoc]
    exact MEq.refl _
  · rw [if_neg h0] at hsz
    obtain ⟨p, r', h1, h2, h3⟩ := Cyclic.reduce2 hM k
    simp only [hsz, h1, h2]
    refine ⟨_, rfl, RestrictsTo.weaken (isEl := fun _ => True) (h3.of_eq ?_) fun _ _ => trivial⟩
    intro h _
    rw [Cyclic.irrep_mat2 hk h0, hang, id]
    exact MEq.refl _

/-- **C08.** Restricting any representation of `C_N` (any list of irreps, any invertible change of
basis) to an accepted subgroup `C_M` succeeds and gives a representation of `C_M`, decomposed in
irreps of `C_M`, whose matrix at `h` is the original matrix at the image of `h`. -/
theorem c08_cyclic_restriction (N : ℕ) (hN : 0 < N) (M : ℕ) (S : Cyclic.Sub)
    (hS : Cyclic.subgroup N M = some S) (r : Repr ℤ) (hr : r.WF) (hi : ∀ i ∈ r.irreps, Cyclic.IsIrrep N i) :
    ∃ r', r.restrict (fun i => Cyclic.restrictIrrep N i M) = some r' ∧
      IsRestriction (Cyclic.grp M) S.parent (Cyclic.IsIrrep M) r r' :=
  have hM : 0 < M := ((c06_cyclic_subgroup N hN M).1.1 (by rw [hS]; rfl)).1
  isRestriction_of (Cyclic.IsIrrep.isRep hM) r hr fun i hi' => cyclic_irrep_restricts hN hS i (hi i hi')

/-- A concrete case: the irreps `1` and `3` of `C_6` and a change of basis that is not the identity,
restricted to `C_3` (where frequency 3 becomes trivial). -/
example : ∃ (i j : Irrep ℤ) (S : Cyclic.Sub), Cyclic.irrep 6 1 = some i ∧ Cyclic.irrep 6 3 = some j ∧
    Cyclic.subgroup 6 3 = some S ∧
    (⟨[i, j], fun a b => if a + b = 2 then 1 else 0, fun a b => if a + b = 2 then 1 else 0⟩ : Repr ℤ).WF := by
  obtain ⟨i, hi⟩ := Cyclic.irrep_some (M := 6) (f := 1) (by norm_num)
  obtain ⟨j, hj⟩ := Cyclic.irrep_some (M := 6) (f := 3) (by norm_num)
  have h1 := Cyclic.irrep_size hi
  have h2 := Cyclic.irrep_size hj
  norm_num at h1 h2
  refine ⟨i, j, _, hi, hj, rfl, isInv_of_left ?_⟩
  have : (⟨[i, j], fun a b => if a + b = 2 then 1 else 0, fun a b => if a + b = 2 then 1 else 0⟩ : Repr ℤ).size = 3 := by
    simp [Repr.size, h1, h2]
  rw [this]
  intro a ha b hb
  interval_cases a <;> interval_cases b <;> simp [Mat.mul, Mat.one]

/-! ## Dihedral groups -/

theorem sign_shift {j : ℕ} (hj : j = 0 ∨ j = 1) (a : ℕ) :
    (-1 : ℝ) ^ a * (if j = 1 then -1 else 1) = if (j + a) % 2 = 1 then -1 else 1 := by
  rcases Nat.even_or_odd a with h | h
  · rw [h.neg_one_pow]
    rw [Nat.even_iff] at h
    have : (j + a) % 2 = 1 ↔ j = 1 := by omega
    simp [this]
  · rw [h.neg_one_pow]
    rw [Nat.odd_iff] at h
    have : (j + a) % 2 = 1 ↔ ¬ j = 1 := by omega
    simp only [this]
    split_ifs <;> norm_num

/-- The two irreps of `C_2`. -/
theorem c2_irrep {j : ℕ} (hj : j = 0 ∨ j = 1) : ∃ r, Cyclic.irrep 2 j = some r ∧ r.size = 1 ∧
    ∀ e : ℤ, (e = 0 ∨ e = 1) → r.mat e = m1 (if j = 1 ∧ e ≠ 0 then -1 else 1) := by
  obtain ⟨r, hr⟩ := Cyclic.irrep_some (M := 2) (f := j) (by omega)
  have h0 : j = 0 ∨ 2 * j = 2 := by omega
  refine ⟨r, hr, by rw [Cyclic.irrep_size hr, if_pos h0], ?_⟩
  intro e he
  rw [Cyclic.irrep_mat1 hr h0]
  rcases hj with rfl | rfl <;> rcases he with rfl | rfl <;> simp

theorem Dihedral.flip_cases {N j k : ℕ} {i : Irrep (ℤ × ℤ)} (h : Dihedral.irrep N j k = some i) : j = 0 ∨ j = 1 := by
  have := (Dihedral.irrep_isSome N j k).1 (by rw [h]; rfl)
  omega

/-- The blocks `1 ⊕ sign` of a flip group. -/
theorem c2_blocks {r0 r1 : Irrep ℤ} (h0 : Cyclic.irrep 2 0 = some r0) (h1 : Cyclic.irrep 2 1 = some r1)
    (k : ℝ) {e : ℤ} (he : e = 0 ∨ e = 1) : MEq 2 2 (psichi 0 e k 0) (blocks [r0, r1] e) := by
  obtain ⟨r0', h0', hs0, hm0⟩ := c2_irrep (Or.inl rfl)
  obtain ⟨r1', h1', hs1, hm1⟩ := c2_irrep (Or.inr rfl)
  rw [h0] at h0'; cases h0'
  rw [h1] at h1'; cases h1'
  refine MEq.symm ((blocks_pair1 r0 r1 hs0 hs1 e).trans ?_)
  rw [hm0 e he, hm1 e he]
  refine MEq.of_eq ?_
  rcases he with rfl | rfl <;> simp [psichi, m1]

theorem half_angle {N k : ℕ} (hN : 0 < N) (hk : 2 * k = N) (x : ℝ) : (k : ℝ) * x * (2 * π / N) = x * π := by
  have h2 : (N : ℝ) = 2 * k := by exact_mod_cast hk.symm
  have hk' : (k : ℝ) ≠ 0 := by
    intro h; rw [h] at h2; simp at h2; omega
  rw [h2]; field_simp

theorem dihedral_flip_restricts {N : ℕ} (hN : 0 < N) {a m : ℕ} {p : ℤ → ℤ × ℤ} {c : ℤ × ℤ → Option ℤ}
    (hS : Dihedral.subgroup N (some a) 1 = some (.cyc m p c))
    (i : Irrep (ℤ × ℤ)) (hi : Dihedral.IsIrrep N i) :
    ∃ q, Dihedral.restrictFlip N i a = some q ∧
      RestrictsTo (Cyclic.grp 2).isEl p i.size i.mat (Cyclic.IsIrrep 2) q := by
  have hp : ∀ e, p e = (e, (a : ℤ) * e) := by
    intro e
    rw [Dihedral.subgroup, if_neg (by norm_num), if_neg (by simp [Nat.mod_one])] at hS
    simp only at hS
    split_ifs at hS
    cases hS; rfl
  have hel : ∀ e, (Cyclic.grp 2).isEl e → e = 0 ∨ e = 1 := by
    intro e he; rw [Cyclic.isEl_iff] at he; push_cast at he; omega
  obtain ⟨j, k, hk⟩ := hi
  obtain ⟨hfr, hfl⟩ := Dihedral.irrep_freq hk
  have hsz := Dihedral.irrep_size hk
  have hj := Dihedral.flip_cases hk
  rw [Dihedral.restrictFlip, hS]
  simp only [hfr, hfl]
  obtain ⟨r0, h0, hs0, hm0⟩ := c2_irrep (Or.inl rfl : 0 = 0 ∨ 0 = 1)
  by_cases h1d : k = 0 ∨ 2 * k = N
  · rw [if_pos h1d] at hsz
    have hj' : (if 2 * k = N then (j + a) % 2 else j) = 0 ∨ (if 2 * k = N then (j + a) % 2 else j) = 1 := by
      split_ifs <;> omega
    obtain ⟨r1, h1, hs1, hm1⟩ := c2_irrep hj'
    simp only [h0, h1, hsz]
    rw [if_neg (by norm_num)]
    refine ⟨_, rfl, RestrictsTo.ident (by simp [hs1]) ?_ ?_⟩
    · intro x hx; simp at hx; exact ⟨_, by rw [hx, h1]⟩
    · intro e he
      have he := hel e he
      refine MEq.symm ((blocks_single1 r1 hs1 e).trans ?_)
      rw [hm1 e he, hp, Dihedral.irrep_mat1 hk h1d]
      refine MEq.of_eq (congrArg m1 ?_)
      simp only
      by_cases h2k : 2 * k = N
      · rw [half_angle hN h2k]
        simp only [h2k, if_true]
        rcases he with rfl | rfl
        · simp
        · have := sign_shift hj a
          simp only [ne_eq, one_ne_zero, not_false_eq_true, and_true]
          rw [← this]
          push_cast
          rw [mul_one, Real.cos_nat_mul_pi]
      · have hk0 : k = 0 := by omega
        have h0N : ¬ 0 = N := by omega
        simp [hk0, h0N]
  · rw [if_neg h1d] at hsz
    have h2k : ¬ 2 * k = N := by omega
    obtain ⟨hj1, hmat⟩ := Dihedral.irrep_mat2 hk h1d
    obtain ⟨r1, h1, hs1, hm1⟩ := c2_irrep (Or.inr rfl : 1 = 0 ∨ 1 = 1)
    simp only [if_neg h2k, hj1, h0, h1, hsz]
    rw [if_pos (by norm_num)]
    have key := RestrictsTo.comp (isEl := (Cyclic.grp 2).isEl) (parent := fun e : ℤ => e) (n := 2)
      (ρ := fun e => psichi 0 e k 0) (ρ' := i.mat) (parent' := p) (ok := Cyclic.IsIrrep 2)
      (p := (Mat.one, [r0, r1])) (Q := psi ((0.5 * a) * 2 * π / N) k 0)
      (RestrictsTo.ident (by simp [hs0, hs1])
        (by intro x hx; simp at hx; rcases hx with rfl | rfl; exacts [⟨_, h0⟩, ⟨_, h1⟩])
        (fun e he => c2_blocks h0 h1 k (hel e he))) ⟨_, psi_inv _ _⟩
      (by
        intro e he
        rw [hp, hmat]
        have := Dihedral.psichi_axis (hel e he) 0 (a * (2 * π / N)) k
        refine MEq.of_eq ?_
        rw [show (0.5 * (a : ℝ)) * 2 * π / N = 0.5 * (a * (2 * π / N)) by ring]
        rw [← this]
        congr 2
        push_cast; ring)
    refine ⟨_, rfl, ⟨key.size, ⟨_, psi_inv _ _⟩, ?_, key.irr⟩⟩
    intro e he
    refine (MEq.mul (MEq.refl _) (MEq_mul_one 2 2 _).symm).trans ((key.comm e he).trans (MEq.mul (MEq_mul_one 2 2 _) (MEq.refl _)))

theorem dihedral_cyc_restricts {N M : ℕ} (hN : 0 < N) {m : ℕ} {p : ℤ → ℤ × ℤ} {c : ℤ × ℤ → Option ℤ}
    (hS : Dihedral.subgroup N none M = some (.cyc m p c))
    (i : Irrep (ℤ × ℤ)) (hi : Dihedral.IsIrrep N i) :
    ∃ q, Dihedral.restrictCyc N i M = some q ∧
      RestrictsTo (Cyclic.grp M).isEl p i.size i.mat (Cyclic.IsIrrep M) q := by
  have hs := (c06_dihedral_subgroup N hN none M).1.1 (by rw [hS]; rfl)
  obtain ⟨hM, ⟨r, rfl⟩, _⟩ := hs
  have hr : 0 < r := Nat.pos_of_mul_pos_left hN
  have hp : ∀ e, p e = (0, e * (r : ℤ)) := by
    intro e
    rw [Dihedral.subgroup, if_neg (by simp; omega), if_neg (by simp), Nat.mul_div_cancel_left _ hM] at hS
    cases hS; rfl
  have hang : ∀ h : ℤ, (((h * (r : ℤ) : ℤ)) : ℝ) * (2 * π / ((M * r : ℕ) : ℝ)) = h * (2 * π / M) := by
    intro h
    have : (r : ℝ) ≠ 0 := by positivity
    have : (M : ℝ) ≠ 0 := by positivity
    push_cast; field_simp
  obtain ⟨j, k, hk⟩ := hi
  obtain ⟨hfr, hfl⟩ := Dihedral.irrep_freq hk
  have hsz := Dihedral.irrep_size hk
  rw [Dihedral.restrictCyc, hS]
  simp only [hfr, chi_one]
  by_cases h0 : k = 0 ∨ 2 * k = M * r
  · rw [if_pos h0] at hsz
    have hm : k % M = 0 ∨ 2 * (k % M) = M := by
      rcases h0 with rfl | h0
      · simp
      · exact half_mod hM h0
    obtain ⟨r', h1, h2, h3⟩ := Cyclic.reduce1 hM k hm (m2 1 0 0 (-1))
    simp only [hsz, h1, h2]
    refine ⟨_, rfl, RestrictsTo.weaken (isEl := fun _ => True) (h3.of_eq ?_) fun _ _ => trivial⟩
    intro h _
    rw [Dihedral.irrep_mat1 hk h0, hp, _root_.mul_assoc, hang, id, _root_.mul_assoc]
    exact MEq.of_eq (by simp)
  · rw [if_neg h0] at hsz
    obtain ⟨p', r', h1, h2, h3⟩ := Cyclic.reduce2 hM k
    simp only [hsz, h1, h2]
    refine ⟨_, rfl, RestrictsTo.weaken (isEl := fun _ => True) (h3.of_eq ?_) fun _ _ => trivial⟩
    intro h _
    rw [(Dihedral.irrep_mat2 hk h0).2, hp, hang, id, psichi_zero]
    exact MEq.refl _

theorem dihedral_dih_restricts {N M : ℕ} (hN : 0 < N) (hM1 : 1 < M) {a m : ℕ} {p : ℤ × ℤ → ℤ × ℤ}
    {c : ℤ × ℤ → Option (ℤ × ℤ)} (hS : Dihedral.subgroup N (some a) M = some (.dih m p c))
    (i : Irrep (ℤ × ℤ)) (hi : Dihedral.IsIrrep N i) :
    ∃ q, Dihedral.restrictDih N i a M = some q ∧
      RestrictsTo (Dihedral.grp M).isEl p i.size i.mat (Dihedral.IsIrrep M) q := by
  have hs := (c06_dihedral_subgroup N hN (some a) M).1.1 (by rw [hS]; rfl)
  obtain ⟨hM, ⟨r, rfl⟩, ha⟩ := hs
  have hr : 0 < r := Nat.pos_of_mul_pos_left hN
  have ha : a < r := by simpa [hM] using ha a rfl
  have hp : ∀ e, p e = (e.1, e.2 * (r : ℤ) + e.1 * (a : ℤ)) := by
    intro e
    rw [Dihedral.subgroup, if_neg (by simp; omega), if_neg (by simp), Nat.mul_div_cancel_left _ hM] at hS
    simp only at hS
    rw [if_neg (by omega), if_neg (by omega)] at hS
    cases hS; rfl
  have hr' : (r : ℝ) ≠ 0 := by positivity
  have hM' : (M : ℝ) ≠ 0 := by positivity
  have hang : ∀ e : ℤ × ℤ, (((e.2 * (r : ℤ) + e.1 * (a : ℤ) : ℤ)) : ℝ) * (2 * π / ((M * r : ℕ) : ℝ))
      = e.2 * (2 * π / M) + e.1 * (a * (2 * π / ((M * r : ℕ) : ℝ))) := by
    intro e
    push_cast; field_simp
  obtain ⟨j, k, hk⟩ := hi
  obtain ⟨hfr, hfl⟩ := Dihedral.irrep_freq hk
  have hsz := Dihedral.irrep_size hk
  have hj := Dihedral.flip_cases hk
  rw [Dihedral.restrictDih, hS]
  simp only [hfr, hfl, chi_one]
  by_cases h0 : k = 0 ∨ 2 * k = M * r
  · rw [if_pos h0] at hsz
    have hm : k % M = 0 ∨ 2 * (k % M) = M := by
      rcases h0 with rfl | h0
      · simp
      · exact half_mod hM h0
    have hred : Cyclic.reduceFreq M (k % M) i.size (m2 1 0 0 (-1)) = some (k % M, Mat.one) := by
      rw [Cyclic.reduceFreq, if_neg (by omega)]
    set j' := if 2 * k = M * r then (j + a) % 2 else j with hj'
    have hj'' : j' = 0 ∨ j' = 1 := by rw [hj']; split_ifs <;> omega
    have hex : ∃ r', Dihedral.irrep M j' (k % M) = some r' := by
      refine Option.isSome_iff_exists.1 ((Dihedral.irrep_isSome M j' (k % M)).2 ⟨by omega, ?_⟩)
      rcases hj'' with h | h
      · exact Or.inl ⟨h, hm⟩
      · exact Or.inr h
    obtain ⟨r', hr1⟩ := hex
    have hs1 := Dihedral.irrep_size hr1
    rw [if_pos hm] at hs1
    simp only [hred, hr1]
    rw [hsz, hs1, if_neg (by norm_num), if_neg (by norm_num)]
    refine ⟨_, rfl, RestrictsTo.ident (by simp [hs1]) ?_ ?_⟩
    · intro x hx; simp at hx; exact ⟨_, _, by rw [hx, hr1]⟩
    · intro e he
      have he1 := ((Dihedral.isEl_iff M e).1 he).1
      refine MEq.symm ((blocks_single1 r' hs1 e).trans ?_)
      rw [Dihedral.irrep_mat1 hr1 hm, Dihedral.irrep_mat1 hk h0, hp, ← Cyclic.cos_mod hM k]
      refine MEq.of_eq (congrArg m1 ?_)
      rw [_root_.mul_assoc (k : ℝ) (((e.1, e.2 * (r : ℤ) + e.1 * (a : ℤ)) : ℤ × ℤ).2 : ℝ), hang]
      simp only
      by_cases h2k : 2 * k = M * r
      · have hpi : (k : ℝ) * (a * (2 * π / ((M * r : ℕ) : ℝ))) = a * π := by
          have := half_angle hN h2k (a : ℝ)
          rw [← this]; ring
        simp only [h2k, if_true] at hj'
        rcases he1 with h | h
        · simp [h, _root_.mul_assoc]
        · have := sign_shift hj a
          simp only [h, ne_eq, one_ne_zero, not_false_eq_true, and_true, hj', Int.cast_one, one_mul]
          rw [← this, mul_add, hpi, Real.cos_add_nat_mul_pi, _root_.mul_assoc (k : ℝ)]
          ring
      · have hk0 : k = 0 := by omega
        simp only [h2k, if_false] at hj'
        simp [hk0, hj']
  · rw [if_neg h0] at hsz
    have h2k : ¬ 2 * k = M * r := by omega
    obtain ⟨hj1, hmat⟩ := Dihedral.irrep_mat2 hk h0
    obtain ⟨p', r', L, h1, h2, h3, h4⟩ := Dihedral.reduce2 hM k
    simp only [if_neg h2k, hj1, hsz, h1, h2, if_true]
    refine ⟨(Mat.mul 2 (psi ((0.5 * a) * 2 * π / ((M * r : ℕ) : ℝ)) k 0) p'.2, L), ?_, ?_⟩
    · by_cases hlt : r'.size < 2
      · rw [if_pos hlt] at h3 ⊢
        cases h5 : Dihedral.irrep M 0 p'.1 with
        | none => rw [h5] at h3; cases h3
        | some r0 => rw [h5] at h3; cases h3; rfl
      · rw [if_neg hlt] at h3 ⊢
        cases h3; rfl
    · refine RestrictsTo.comp (h4.weaken (isEl' := (Dihedral.grp M).isEl) fun _ _ => trivial) ⟨_, psi_inv _ _⟩ ?_
      intro e he
      rw [hp, hmat, hang]
      have := Dihedral.psichi_axis ((Dihedral.isEl_iff M e).1 he).1 (e.2 * (2 * π / M)) (a * (2 * π / ((M * r : ℕ) : ℝ))) k
      refine MEq.of_eq ?_
      rw [show (0.5 * (a : ℝ)) * 2 * π / ((M * r : ℕ) : ℝ) = 0.5 * (a * (2 * π / ((M * r : ℕ) : ℝ))) by ring]
      exact this

/-- **C09, D_N to C_M.** -/
theorem c09_dihedral_to_cyclic (N : ℕ) (hN : 0 < N) (M m : ℕ) (p : ℤ → ℤ × ℤ) (c : ℤ × ℤ → Option ℤ)
    (hS : Dihedral.subgroup N none M = some (.cyc m p c))
    (r : Repr (ℤ × ℤ)) (hr : r.WF) (hi : ∀ i ∈ r.irreps, Dihedral.IsIrrep N i) :
    ∃ r', r.restrict (fun i => Dihedral.restrictCyc N i M) = some r' ∧
      IsRestriction (Cyclic.grp M) p (Cyclic.IsIrrep M) r r' :=
  have hM : 0 < M := ((c06_dihedral_subgroup N hN none M).1.1 (by rw [hS]; rfl)).1
  isRestriction_of (Cyclic.IsIrrep.isRep hM) r hr fun i hi' => dihedral_cyc_restricts hN hS i (hi i hi')

/-- **C09, D_N to the flip group about any axis.** -/
theorem c09_dihedral_to_flip (N : ℕ) (hN : 0 < N) (axis m : ℕ) (p : ℤ → ℤ × ℤ) (c : ℤ × ℤ → Option ℤ)
    (hS : Dihedral.subgroup N (some axis) 1 = some (.cyc m p c))
    (r : Repr (ℤ × ℤ)) (hr : r.WF) (hi : ∀ i ∈ r.irreps, Dihedral.IsIrrep N i) :
    ∃ r', r.restrict (fun i => Dihedral.restrictFlip N i axis) = some r' ∧
      IsRestriction (Cyclic.grp 2) p (Cyclic.IsIrrep 2) r r' :=
  isRestriction_of (Cyclic.IsIrrep.isRep (by norm_num)) r hr
    fun i hi' => dihedral_flip_restricts hN hS i (hi i hi')

/-- **C09, D_N to D_M about any axis.** -/
theorem c09_dihedral_to_dihedral (N : ℕ) (hN : 0 < N) (axis M : ℕ) (hM : 1 < M) (m : ℕ)
    (p : ℤ × ℤ → ℤ × ℤ) (c : ℤ × ℤ → Option (ℤ × ℤ))
    (hS : Dihedral.subgroup N (some axis) M = some (.dih m p c))
    (r : Repr (ℤ × ℤ)) (hr : r.WF) (hi : ∀ i ∈ r.irreps, Dihedral.IsIrrep N i) :
    ∃ r', r.restrict (fun i => Dihedral.restrictDih N i axis M) = some r' ∧
      IsRestriction (Dihedral.grp M) p (Dihedral.IsIrrep M) r r' :=
  isRestriction_of (Dihedral.IsIrrep.isRep (by omega)) r hr
    fun i hi' => dihedral_dih_restricts hN hM hS i (hi i hi')

/-- The hypotheses are met by `D_6` restricted to `D_3` about axis 1, with the irreps `(1,3)` and `(1,2)`. -/
example : ∃ i j p c, Dihedral.irrep 6 1 3 = some i ∧ Dihedral.irrep 6 1 2 = some j ∧
    Dihedral.subgroup 6 (some 1) 3 = some (.dih 3 p c) ∧ (⟨[i, j], Mat.one, Mat.one⟩ : Repr (ℤ × ℤ)).WF ∧
    (⟨[i, j], Mat.one, Mat.one⟩ : Repr (ℤ × ℤ)).size = 3 := by
  obtain ⟨i, hi⟩ := Dihedral.irrep_some (M := 6) (f := 3) (by norm_num)
  obtain ⟨j, hj⟩ := Dihedral.irrep_some (M := 6) (f := 2) (by norm_num)
  have h1 := Dihedral.irrep_size hi
  have h2 := Dihedral.irrep_size hj
  norm_num at h1 h2
  exact ⟨i, j, _, _, hi, hj, rfl, IsInv.one _, by simp [Repr.size, h1, h2]⟩

end E2
