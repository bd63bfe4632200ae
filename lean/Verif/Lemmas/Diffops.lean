import Verif.Model.Diffops
import Verif.Props.DiffopPoly
import Verif.Props.KernelSpec
import Verif.Lemmas.Steerable

/-!
# Helper lemmas on the bases of differential operators
-/

set_option linter.unusedSimpArgs false

namespace E2

open Finset Mat Real

/-! ### The lists of elements are those of the kernel bases -/

/-- The element of the kernel basis with the same frequency. -/
noncomputable def DElem.ang (e : DElem) : AngElem := ⟨e.mu, e.invert * π / 2, e.s, e.t⟩

theorem dLoop_ang (k N : ℤ) (maxOff maxFreq : Option ℕ) (nonneg : Bool) (keep keep' : ℤ → Prop) [DecidablePred keep] [DecidablePred keep']
    (h : ∀ mu, keep mu ↔ keep' mu) (invert : ℕ) (gamma : ℝ) (hg : gamma = invert * π / 2) (s : ℤ) :
    (dLoop k N maxOff maxFreq nonneg keep invert s).map (List.map DElem.ang) = offsetLoop k N maxOff maxFreq nonneg keep' gamma s := by
  unfold dLoop offsetLoop
  cases offsets k N maxOff maxFreq nonneg with
  | none => rfl
  | some ts =>
    dsimp only
    by_cases hc : (ts.all fun t => freqOk maxOff maxFreq t (k + t * N)) = true
    · rw [if_pos hc, if_pos hc, Option.map_some, List.map_map]
      congr 1
      simp only [h, hg]
      rfl
    · rw [if_neg hc, if_neg hc]; rfl

theorem concatOpt_map {α β : Type} (f : α → β) (l : List (Option (List α))) :
    (concatOpt l).map (List.map f) = concatOpt (l.map (Option.map (List.map f))) := by
  induction l with
  | nil => rfl
  | cons a l ih =>
    cases a with
    | none => rfl
    | some a =>
      simp only [concatOpt, List.map_cons, Option.map_some]
      rw [← ih]
      cases concatOpt l with
      | none => rfl
      | some r => simp

theorem inv_gamma {v : ℕ} : ((v : ℝ) * π / 2 = 0) ↔ v = 0 := by
  have := Real.pi_ne_zero
  constructor
  · intro h
    have h1 : (v : ℝ) * π = 0 := by linarith
    rcases mul_eq_zero.1 h1 with h | h
    · exact_mod_cast h
    · exact absurd h this
  · rintro rfl; simp

theorem gamma0 : (0 : ℝ) = ((0 : ℕ) : ℝ) * π / 2 := by simp
theorem gamma1 : π / 2 = ((1 : ℕ) : ℝ) * π / 2 := by simp

theorem dFlips_ang (ρi ρo : Irrep ℤ) (maxFreq maxOff : Option ℕ) :
    (dFlips ρi ρo maxFreq maxOff).map (List.map DElem.ang) = flipsBasis ρi ρo maxFreq maxOff := by
  unfold dFlips flipsBasis
  dsimp only
  by_cases h : maxFreq = none ∧ maxOff = none
  · rw [if_pos h, if_pos h]; rfl
  · rw [if_neg h, if_neg h]
    exact dLoop_ang _ _ _ _ _ _ _ (fun mu => by rw [inv_gamma]) _ _ rfl _

theorem dRot_ang (N : ℕ) (ρi ρo : Irrep ℤ) (maxFreq maxOff : Option ℕ) :
    (dRot N ρi ρo maxFreq maxOff).map (List.map DElem.ang) = rotBasis N ρi ρo maxFreq maxOff := by
  unfold dRot rotBasis
  dsimp only
  have hpi : ¬ (π / 2 = 0) := by have := Real.pi_pos; positivity
  have two : ∀ k : ℤ, (concatOpt ([0, 1].map fun invert => dLoop k N maxOff maxFreq false (fun _ => True) invert 0)).map (List.map DElem.ang) =
      concatOpt ([(0 : ℝ), π / 2].map fun gamma => offsetLoop k N maxOff maxFreq false (fun _ => True) gamma 0) := by
    intro k
    rw [concatOpt_map]
    simp only [List.map_cons, List.map_nil]
    rw [dLoop_ang _ _ _ _ _ _ (fun _ => True) (fun _ => Iff.rfl) 0 0 gamma0, dLoop_ang _ _ _ _ _ _ (fun _ => True) (fun _ => Iff.rfl) 1 (π / 2) gamma1]
  by_cases h0 : maxFreq = none ∧ maxOff = none
  · rw [if_pos h0, if_pos h0, Option.map_none]
  rw [if_neg h0, if_neg h0]
  by_cases h1 : ρi.size = 2 ∧ ρo.size = 2
  · rw [if_pos h1, if_pos h1, concatOpt_map]
    simp only [List.flatMap_cons, List.flatMap_nil, List.map_cons, List.map_nil, List.append_nil, List.cons_append, List.nil_append]
    rw [dLoop_ang _ _ _ _ _ _ (fun _ => True) (fun _ => Iff.rfl) 0 0 gamma0, dLoop_ang _ _ _ _ _ _ (fun _ => True) (fun _ => Iff.rfl) 0 0 gamma0,
      dLoop_ang _ _ _ _ _ _ (fun _ => True) (fun _ => Iff.rfl) 1 (π / 2) gamma1, dLoop_ang _ _ _ _ _ _ (fun _ => True) (fun _ => Iff.rfl) 1 (π / 2) gamma1]
  rw [if_neg h1, if_neg h1]
  by_cases h2 : ρi.size = 2 ∧ ρo.size = 1
  · rw [if_pos h2, if_pos h2]
    split_ifs
    · exact two _
    · rw [Option.map_none]
  rw [if_neg h2, if_neg h2]
  by_cases h3 : ρi.size = 1 ∧ ρo.size = 2
  · rw [if_pos h3, if_pos h3]
    split_ifs
    · exact two _
    · rw [Option.map_none]
  rw [if_neg h3, if_neg h3]
  by_cases h4 : ρi.size = 1 ∧ ρo.size = 1
  · rw [if_pos h4, if_pos h4]
    split_ifs
    · rw [Option.map_none]
    · rw [concatOpt_map]
      simp only [List.map_cons, List.map_nil]
      rw [dLoop_ang _ _ _ _ _ _ (fun mu => 0 < mu ∨ True) (fun _ => by simp) 0 0 gamma0,
        dLoop_ang _ _ _ _ _ _ (fun mu => 0 < mu ∨ π / 2 = 0) (fun _ => by simp [hpi]) 1 (π / 2) gamma1]
  rw [if_neg h4, if_neg h4, Option.map_none]

theorem dCont_ang (ρi ρo : Irrep ℝ) : (dCont ρi ρo).map (List.map DElem.ang) = contBasis ρi ρo := by
  unfold dCont contBasis
  dsimp only
  have hpi : ¬ (π / 2 = 0) := by have := Real.pi_pos; positivity
  split_ifs <;> first
    | rfl
    | simp [DElem.ang]; done
    | (rename_i h
       simp [DElem.ang, h.1, h.2, hpi])

theorem dFlipRot_ang (N : ℕ) (ρi ρo : Irrep (ℤ × ℤ)) (maxFreq maxOff : Option ℕ) :
    (dFlipRot N ρi ρo maxFreq maxOff).map (List.map DElem.ang) = flipRotBasis N ρi ρo maxFreq maxOff := by
  unfold dFlipRot flipRotBasis
  dsimp only
  split_ifs
  all_goals first
    | (simp only [Option.map_none]; done)
    | exact dLoop_ang _ _ _ _ _ _ _ (fun _ => Iff.rfl) _ _ rfl _
    | exact dLoop_ang _ _ _ _ _ _ _ (fun mu => by rw [inv_gamma]) _ _ rfl _
    | (rw [concatOpt_map]
       simp only [List.map_cons, List.map_nil]
       rw [dLoop_ang _ _ _ _ _ _ (fun _ => True) (fun _ => Iff.rfl) 0 0 gamma0, dLoop_ang _ _ _ _ _ _ (fun _ => True) (fun _ => Iff.rfl) 0 0 gamma0])

theorem dFlipCont_ang (ρi ρo : Irrep (ℤ × ℝ)) : (dFlipCont ρi ρo).map (List.map DElem.ang) = flipContBasis ρi ρo := by
  unfold dFlipCont flipContBasis
  dsimp only
  by_cases h1 : ρi.size = 2 ∧ ρo.size = 2
  · rw [if_pos h1, if_pos h1]
    split_ifs <;> simp [DElem.ang]
  rw [if_neg h1, if_neg h1]
  by_cases h2 : ρi.size = 2 ∧ ρo.size = 1
  · rw [if_pos h2, if_pos h2]
    split_ifs <;> simp [DElem.ang]
  rw [if_neg h2, if_neg h2]
  by_cases h3 : ρi.size = 1 ∧ ρo.size = 2
  · rw [if_pos h3, if_pos h3]
    split_ifs <;> simp [DElem.ang]
  rw [if_neg h3, if_neg h3]
  by_cases h4 : ρi.size = 1 ∧ ρo.size = 1
  · rw [if_pos h4, if_pos h4]
    by_cases h5 : ¬ ((ρi.freq : ℤ) = 0 ∧ (ρo.freq : ℤ) = 0)
    · rw [if_pos h5, if_pos h5]; rfl
    · rw [if_neg h5, if_neg h5]
      simp only [inv_gamma]
      split_ifs <;> simp [DElem.ang]
  rw [if_neg h4, if_neg h4]; rfl

/-! ### The range of `invert` and `s` -/

/-- `invert` and `s` are 0 or 1. -/
def DElem.Ok (e : DElem) : Prop := e.invert ≤ 1 ∧ (e.s = 0 ∨ e.s = 1)

theorem dLoop_ok {k N : ℤ} {maxOff maxFreq : Option ℕ} {nonneg : Bool} {keep : ℤ → Prop} [DecidablePred keep] {invert : ℕ} {s : ℤ} {l : List DElem}
    (h : dLoop k N maxOff maxFreq nonneg keep invert s = some l) (hi : invert ≤ 1) (hs : s = 0 ∨ s = 1) : ∀ e ∈ l, e.Ok := by
  unfold dLoop at h
  cases ho : offsets k N maxOff maxFreq nonneg with
  | none => rw [ho] at h; cases h
  | some ts =>
    rw [ho] at h
    dsimp only at h
    split_ifs at h
    cases h
    intro e he
    rw [List.mem_map] at he
    obtain ⟨t, -, rfl⟩ := he
    exact ⟨hi, hs⟩

theorem concatOpt_ok {α : Type} {L : List (Option (List α))} {l : List α} {P : α → Prop} (h : concatOpt L = some l)
    (hP : ∀ l', some l' ∈ L → ∀ e ∈ l', P e) : ∀ e ∈ l, P e := by
  induction L generalizing l with
  | nil => cases h; simp
  | cons a L ih =>
    cases a with
    | none => cases h
    | some a =>
      rw [concatOpt] at h
      cases hc : concatOpt L with
      | none => rw [hc] at h; cases h
      | some r =>
        rw [hc] at h
        cases h
        intro e he
        rcases List.mem_append.1 he with he | he
        · exact hP a (by simp) e he
        · exact ih hc (fun l' hl' => hP l' (by simp [hl'])) e he

theorem dFlips_ok {ρi ρo : Irrep ℤ} {maxFreq maxOff : Option ℕ} {l : List DElem} (h : dFlips ρi ρo maxFreq maxOff = some l) : ∀ e ∈ l, e.Ok := by
  unfold dFlips at h
  dsimp only at h
  split_ifs at h
  exact dLoop_ok h (by omega) (Or.inl rfl)

theorem dRot_ok {N : ℕ} {ρi ρo : Irrep ℤ} {maxFreq maxOff : Option ℕ} {l : List DElem} (h : dRot N ρi ρo maxFreq maxOff = some l) : ∀ e ∈ l, e.Ok := by
  unfold dRot at h
  dsimp only at h
  split_ifs at h
  · refine concatOpt_ok h fun l' hl' => ?_
    simp only [List.flatMap_cons, List.flatMap_nil, List.map_cons, List.map_nil, List.append_nil, List.cons_append, List.nil_append,
      List.mem_cons, List.not_mem_nil, or_false] at hl'
    rcases hl' with hl' | hl' | hl' | hl' <;> exact dLoop_ok hl'.symm (by omega) (by simp)
  all_goals
    refine concatOpt_ok h fun l' hl' => ?_
    simp only [List.map_cons, List.map_nil, List.mem_cons, List.not_mem_nil, or_false] at hl'
    rcases hl' with hl' | hl' <;> exact dLoop_ok hl'.symm (by omega) (by simp)

theorem dCont_ok {ρi ρo : Irrep ℝ} {l : List DElem} (h : dCont ρi ρo = some l) : ∀ e ∈ l, e.Ok := by
  unfold dCont at h
  dsimp only at h
  split_ifs at h <;> cases h <;> intro e he <;> simp at he
  · rcases he with rfl | rfl | rfl | rfl <;> simp [DElem.Ok]
  · rcases he with rfl | rfl <;> simp [DElem.Ok]
  · rcases he with rfl | rfl <;> simp [DElem.Ok]
  · subst he; simp [DElem.Ok]

theorem dFlipRot_ok {N : ℕ} {ρi ρo : Irrep (ℤ × ℤ)} {maxFreq maxOff : Option ℕ} {l : List DElem} (hi : ρi.flip ≤ 1) (ho : ρo.flip ≤ 1)
    (h : dFlipRot N ρi ρo maxFreq maxOff = some l) : ∀ e ∈ l, e.Ok := by
  unfold dFlipRot at h
  dsimp only at h
  split_ifs at h
  · refine concatOpt_ok h fun l' hl' => ?_
    simp only [List.map_cons, List.map_nil, List.mem_cons, List.not_mem_nil, or_false] at hl'
    rcases hl' with hl' | hl' <;> exact dLoop_ok hl'.symm (by omega) (by simp)
  · exact dLoop_ok h ho (Or.inl rfl)
  · exact dLoop_ok h hi (Or.inl rfl)
  · exact dLoop_ok h (by omega) (Or.inl rfl)

theorem dFlipCont_ok {ρi ρo : Irrep (ℤ × ℝ)} {l : List DElem} (hi : ρi.flip ≤ 1) (ho : ρo.flip ≤ 1)
    (h : dFlipCont ρi ρo = some l) : ∀ e ∈ l, e.Ok := by
  unfold dFlipCont at h
  dsimp only at h
  split_ifs at h with h1 h2 h3 h4 h5 h6 h7 h8 h9 <;> cases h <;> intro e he <;> simp at he
  · rcases he with rfl | rfl <;> simp [DElem.Ok]
  · subst he; exact ⟨ho, Or.inl rfl⟩
  · subst he; exact ⟨hi, Or.inl rfl⟩
  · subst he; exact ⟨by dsimp only; omega, Or.inl rfl⟩

/-! ### Values of the polynomials -/

theorem HPoly.smul_eval (r : ℝ) (c : HPoly) (p : ℝ × ℝ) : (HPoly.smul r c).eval p = r * c.eval p := by
  simp only [HPoly.eval, HPoly.smul, Finset.mul_sum, _root_.mul_assoc]

theorem DArr.fill_eval {d : ℕ} {f : ℕ → ℕ → HPoly} {i j : ℕ} (h : (f i j).deg = d) (p : ℝ × ℝ) : (DArr.fill d f).eval p i j = (f i j).eval p := by
  subst h; rfl

theorem DArr.transform_eval (D : DArr) (A : Mat) (x y : ℝ) (i j : ℕ) :
    (D.transform A).eval (x, y) i j = D.eval (A 0 0 * x + A 1 0 * y, A 0 1 * x + A 1 1 * y) i j := by
  unfold DArr.transform
  rw [DArr.fill_eval (by rfl), (HPoly.c46_transform _ _ _ _).2]
  rfl

/-- The polynomials are homogeneous. -/
theorem DArr.eval_scale (D : DArr) (c : ℝ) (p : ℝ × ℝ) (i j : ℕ) : D.eval (c * p.1, c * p.2) i j = c ^ D.deg * D.eval p i j := by
  simp only [DArr.eval, HPoly.eval, DArr.entry, Finset.mul_sum]
  refine Finset.sum_congr rfl fun k hk => ?_
  rw [Finset.mem_range] at hk
  have : c ^ D.deg = c ^ (D.deg - k) * c ^ k := by rw [← pow_add]; congr 1; omega
  rw [this, mul_pow, mul_pow]
  ring

theorem cos_quarter (x : ℝ) : cos (x + ((1 : ℕ) : ℝ) * π / 2) = -sin x := by
  rw [show x + ((1 : ℕ) : ℝ) * π / 2 = x + π / 2 by simp, Real.cos_add_pi_div_two]

theorem sin_quarter (x : ℝ) : sin (x + ((1 : ℕ) : ℝ) * π / 2) = cos x := by
  rw [show x + ((1 : ℕ) : ℝ) * π / 2 = x + π / 2 by simp, Real.sin_add_pi_div_two]

theorem chebyt_deg (mu : ℤ) (v : ℕ) : (chebyt mu v).deg = mu.natAbs := by unfold chebyt; split_ifs <;> rfl
theorem chebyu_deg (mu : ℤ) (v : ℕ) : (chebyu mu v).deg = mu.natAbs := by unfold chebyu; split_ifs <;> rfl
theorem hcheby_deg (u : Prop) [Decidable u] (mu : ℤ) : (hcheby u mu).deg = mu.natAbs := by unfold hcheby; split_ifs <;> rfl

theorem chebyt_eval {mu : ℤ} {v : ℕ} (hv : v ≤ 1) (r φ : ℝ) :
    (chebyt mu v).eval (r * cos φ, r * sin φ) = r ^ mu.natAbs * cos (mu * φ + v * π / 2) := by
  obtain ⟨-, -, h1, h2⟩ := HPoly.c46_cheby mu r φ
  rcases Nat.le_one_iff_eq_zero_or_eq_one.1 hv with rfl | rfl
  · simp [chebyt, HPoly.smul_eval, h1]
  · rw [cos_quarter]
    simp [chebyt, HPoly.smul_eval, h2]

theorem chebyu_eval {mu : ℤ} {v : ℕ} (hv : v ≤ 1) (r φ : ℝ) :
    (chebyu mu v).eval (r * cos φ, r * sin φ) = r ^ mu.natAbs * sin (mu * φ + v * π / 2) := by
  obtain ⟨-, -, h1, h2⟩ := HPoly.c46_cheby mu r φ
  rcases Nat.le_one_iff_eq_zero_or_eq_one.1 hv with rfl | rfl
  · simp [chebyu, HPoly.smul_eval, h2]
  · rw [sin_quarter]
    simp [chebyu, HPoly.smul_eval, h1]

theorem hchebyc_eval {mu : ℤ} {v : ℕ} (hv : v ≤ 1) (r φ : ℝ) :
    (HPoly.smul ((-1) ^ v) (hcheby (v ≠ 0) mu)).eval (r * cos φ, r * sin φ) = r ^ mu.natAbs * cos (mu * φ + v * π / 2) := by
  obtain ⟨-, -, h1, h2⟩ := HPoly.c46_cheby mu r φ
  rcases Nat.le_one_iff_eq_zero_or_eq_one.1 hv with rfl | rfl
  · simp [hcheby, HPoly.smul_eval, h1]
  · rw [cos_quarter]
    simp [hcheby, HPoly.smul_eval, h2]

theorem hchebys_eval {mu : ℤ} {v : ℕ} (hv : v ≤ 1) (r φ : ℝ) :
    (hcheby (v = 0) mu).eval (r * cos φ, r * sin φ) = r ^ mu.natAbs * sin (mu * φ + v * π / 2) := by
  obtain ⟨-, -, h1, h2⟩ := HPoly.c46_cheby mu r φ
  rcases Nat.le_one_iff_eq_zero_or_eq_one.1 hv with rfl | rfl
  · simp [hcheby, h2]
  · rw [sin_quarter]
    simp [hcheby, h1]

theorem sgn_eq {s : ℤ} (hs : s = 0 ∨ s = 1) : sgn s = if s ≠ 0 then -1 else 1 := by
  rcases hs with rfl | rfl <;> simp [sgn]

theorem dCoef_deg (so si : ℕ) (e : DElem) : (dCoef so si e).deg = e.mu.natAbs := by
  unfold dCoef; split_ifs <;> rfl

end E2
