import Mathlib.Data.List.Sort
import Verif.Model.BandLimit
import Verif.Props.Offsets
import Verif.Lemmas.FiniteDiff

/-!
# C52: the band limit

The maximum frequency computed from the rings excludes no element which the band-limiting filter would keep: building the basis with any larger maximum
frequency and filtering gives the same list of elements, in the same order.
-/

namespace E2

open Real

/-- Only the elements of frequency at most `F`. -/
def upTo (F : ℕ) (l : List AngElem) : List AngElem := l.filter fun e => decide (|e.mu| ≤ (F : ℤ))

theorem pairwise_pyRange (a b : ℤ) : (pyRange a b).Pairwise (· < ·) := by
  unfold pyRange
  refine List.Pairwise.map _ (R := (· < ·)) (fun i j h => ?_) List.pairwise_lt_range
  omega

theorem offsets_sorted {k N : ℤ} (hN : 0 < N) {maxOff : Option ℕ} {F : ℕ} {nonneg : Bool} {l : List ℤ}
    (h : offsets k N maxOff (some F) nonneg = some l) : l.Pairwise (· < ·) := by
  unfold offsets at h
  rw [if_neg (by omega), if_neg (by simp)] at h
  simp only [Option.some.injEq] at h
  rw [← h]
  exact pairwise_pyRange _ _

theorem offsets_mem {k N : ℤ} (hN : 0 < N) {maxOff : Option ℕ} {F : ℕ} {nonneg : Bool} {l : List ℤ}
    (h : offsets k N maxOff (some F) nonneg = some l) (t : ℤ) :
    t ∈ l ↔ |k + t * N| ≤ F ∧ (nonneg = true → 0 ≤ k + t * N) ∧ ∀ O, maxOff = some O → |t| ≤ (O : ℤ) := by
  obtain ⟨l', h1, -, h3⟩ := c14_offsets k N hN maxOff F nonneg
  obtain rfl : l' = l := by rw [h] at h1; exact (Option.some.inj h1).symm
  have hm : t ∈ l' ↔ k + t * N ∈ l'.map fun t => k + t * N := by
    rw [List.mem_map]
    constructor
    · exact fun ht => ⟨t, ht, rfl⟩
    · rintro ⟨t', ht', e⟩
      have : t' = t := Int.eq_of_mul_eq_mul_right hN.ne' (add_left_cancel e)
      exact this ▸ ht'
  rw [hm, h3, add_sub_cancel_left, Int.mul_ediv_cancel _ hN.ne']
  constructor
  · exact fun h => h.2
  · exact fun h => ⟨Int.ModEq.symm ((Int.modEq_iff_dvd).2 ⟨t, by ring⟩), h⟩

/-- Raising the maximum frequency only adds offsets of larger frequencies. -/
theorem offsets_upTo {k N : ℤ} (hN : 0 < N) (maxOff : Option ℕ) {F F' : ℕ} (hF : F ≤ F') (nonneg : Bool) :
    offsets k N maxOff (some F) nonneg =
      (offsets k N maxOff (some F') nonneg).map fun l => l.filter fun t => decide (|k + t * N| ≤ (F : ℤ)) := by
  obtain ⟨l, h1, -, -⟩ := c14_offsets k N hN maxOff F nonneg
  obtain ⟨l', h1', -, -⟩ := c14_offsets k N hN maxOff F' nonneg
  rw [h1, h1', Option.map_some, Option.some.injEq]
  refine List.Pairwise.eq_of_mem_iff (offsets_sorted hN h1) ((offsets_sorted hN h1').filter _) fun {t} => ?_
  rw [List.mem_filter, offsets_mem hN h1, offsets_mem hN h1', decide_eq_true_eq]
  have : (F : ℤ) ≤ F' := by exact_mod_cast hF
  constructor
  · rintro ⟨a, b⟩; exact ⟨⟨a.trans this, b⟩, a⟩
  · rintro ⟨⟨-, b⟩, a⟩; exact ⟨a, b⟩

theorem freqOk_all {k N : ℤ} (hN : 0 < N) {maxOff : Option ℕ} {F : ℕ} {nonneg : Bool} {l : List ℤ}
    (h : offsets k N maxOff (some F) nonneg = some l) : (l.all fun t => freqOk maxOff (some F) t (k + t * N)) = true := by
  rw [List.all_eq_true]
  intro t ht
  obtain ⟨h2, -, h4⟩ := (offsets_mem hN h t).1 ht
  cases maxOff with
  | none => simp [freqOk, h2]
  | some O => simp [freqOk, h2, h4 O rfl]

theorem offsetLoop_upTo {k N : ℤ} (hN : 0 < N) (maxOff : Option ℕ) {F F' : ℕ} (hF : F ≤ F') (nonneg : Bool) (keep : ℤ → Prop) [DecidablePred keep]
    (gamma : ℝ) (s : ℤ) :
    offsetLoop k N maxOff (some F) nonneg keep gamma s = (offsetLoop k N maxOff (some F') nonneg keep gamma s).map (upTo F) := by
  obtain ⟨l', h1', -, -⟩ := c14_offsets k N hN maxOff F' nonneg
  have h1 := offsets_upTo (k := k) hN maxOff hF nonneg
  rw [h1', Option.map_some] at h1
  unfold offsetLoop
  rw [h1, h1']
  dsimp only
  rw [if_pos (freqOk_all hN h1), if_pos (freqOk_all hN h1'), Option.map_some, upTo, List.filter_map]
  congr 2
  rw [List.filter_filter, List.filter_filter]
  refine List.filter_congr fun t _ => ?_
  simp only [Function.comp_apply]
  exact Bool.and_comm _ _

theorem concatOpt_upTo (F : ℕ) (ls : List (Option (List AngElem))) :
    concatOpt (ls.map fun o => o.map (upTo F)) = (concatOpt ls).map (upTo F) := by
  induction ls with
  | nil => rfl
  | cons a ls ih =>
    cases a with
    | none => rfl
    | some a =>
      rw [List.map_cons, Option.map_some]
      simp only [concatOpt]
      rw [ih]
      cases concatOpt ls with
      | none => rfl
      | some r => simp [upTo]

theorem flips_upTo (ρi ρo : Irrep ℤ) (maxOff : Option ℕ) {F F' : ℕ} (hF : F ≤ F') :
    flipsBasis ρi ρo (some F) maxOff = (flipsBasis ρi ρo (some F') maxOff).map (upTo F) := by
  unfold flipsBasis
  dsimp only
  have hno : ∀ G : ℕ, ¬ (some G = none ∧ maxOff = none) := fun G h => by simp at h
  rw [if_neg (hno F), if_neg (hno F')]
  exact offsetLoop_upTo one_pos _ hF _ _ _ _

theorem rot_upTo (N : ℕ) (hN : 0 < N) (ρi ρo : Irrep ℤ) (maxOff : Option ℕ) {F F' : ℕ} (hF : F ≤ F') :
    rotBasis N ρi ρo (some F) maxOff = (rotBasis N ρi ρo (some F') maxOff).map (upTo F) := by
  have hN' : (0 : ℤ) < N := by exact_mod_cast hN
  unfold rotBasis
  dsimp only
  have hno : ∀ G : ℕ, ¬ (some G = none ∧ maxOff = none) := fun G h => by simp at h
  rw [if_neg (hno F), if_neg (hno F')]
  split_ifs <;> first | rfl | skip
  all_goals
    rw [← concatOpt_upTo]
    congr 1
    simp only [List.flatMap_cons, List.flatMap_nil, List.map_cons, List.map_nil, List.cons_append, List.nil_append, List.append_nil]
    simp only [← offsetLoop_upTo hN' maxOff hF]

theorem flipRot_upTo (N : ℕ) (hN : 0 < N) (ρi ρo : Irrep (ℤ × ℤ)) (maxOff : Option ℕ) {F F' : ℕ} (hF : F ≤ F') :
    flipRotBasis N ρi ρo (some F) maxOff = (flipRotBasis N ρi ρo (some F') maxOff).map (upTo F) := by
  have hN' : (0 : ℤ) < N := by exact_mod_cast hN
  unfold flipRotBasis
  dsimp only
  have hno : ∀ G : ℕ, ¬ (some G = none ∧ maxOff = none) := fun G h => by simp at h
  rw [if_neg (hno F), if_neg (hno F')]
  split_ifs <;> first | rfl | exact offsetLoop_upTo hN' _ hF _ _ _ _ | skip
  all_goals
    rw [← concatOpt_upTo]
    congr 1
    simp only [List.map_cons, List.map_nil]
    simp only [← offsetLoop_upTo hN' maxOff hF]

/-! ### The filter -/

theorem foldl_max_ge (l : List ℝ) (x : ℝ) : x ≤ l.foldl max x ∧ ∀ y ∈ l, y ≤ l.foldl max x := by
  induction l generalizing x with
  | nil => simp
  | cons a l ih =>
    obtain ⟨h1, h2⟩ := ih (max x a)
    refine ⟨(le_max_left x a).trans h1, fun y hy => ?_⟩
    rcases List.mem_cons.1 hy with rfl | hy
    · exact (le_max_right x y).trans h1
    · exact h2 y hy

theorem listMax_ge {l : List ℝ} {m : ℝ} (h : listMax l = some m) : ∀ y ∈ l, y ≤ m := by
  cases l with
  | nil => simp [listMax] at h
  | cons x l =>
    simp only [listMax, Option.some.injEq] at h
    rw [← h]
    intro y hy
    rcases List.mem_cons.1 hy with rfl | hy
    · exact (foldl_max_ge l y).1
    · exact (foldl_max_ge l x).2 y hy

/-- The maximum frequency bounds the frequencies the filter keeps. -/
theorem maximumFrequency_ge {fco : ℝ → ℝ} {rings : List ℝ} {F : ℤ} (h : maximumFrequency fco rings = some F) {r : ℝ} (hr : r ∈ rings) {mu : ℤ}
    (hk : |(mu : ℝ)| ≤ fco r) : |mu| ≤ F := by
  obtain ⟨m, hm, rfl⟩ := Option.map_eq_some_iff.1 h
  have h1 : fco r ≤ m := listMax_ge hm _ (List.mem_map.2 ⟨r, hr, rfl⟩)
  have h2 : ((|mu| : ℤ) : ℝ) ≤ m := by rw [Int.cast_abs]; exact hk.trans h1
  have h0 : 0 ≤ m := le_trans (by exact_mod_cast abs_nonneg mu) h2
  rw [pyInt, if_pos h0]
  exact Int.le_floor.2 h2

theorem bandKept_upTo {fco : ℝ → ℝ} {rings : List ℝ} {F : ℕ} (h : maximumFrequency fco rings = some (F : ℤ)) (l : List AngElem) :
    bandKept fco rings (upTo F l) = bandKept fco rings l := by
  unfold bandKept
  rw [List.filter_flatMap, List.filter_flatMap]
  refine List.flatMap_congr fun r hr => ?_
  rw [List.filter_map, List.filter_map, upTo, List.filter_filter]
  congr 1
  refine List.filter_congr fun e _ => ?_
  simp only [Function.comp_apply, blFilter, Option.getD_some]
  by_cases hk : |(e.mu : ℝ)| ≤ fco r
  · have := maximumFrequency_ge h hr hk
    simp [hk, this]
  · simp [hk]

/-- The elements which the filter keeps from the basis built by `build F` for one pair of irreps are those kept from the basis with a larger maximum. -/
def BandComplete (build : Option ℕ → Option (List AngElem)) : Prop :=
  ∀ (fco : ℝ → ℝ) (rings : List ℝ) (F F' : ℕ), maximumFrequency fco rings = some (F : ℤ) → F ≤ F' →
    (build (some F)).map (bandKept fco rings) = (build (some F')).map (bandKept fco rings)

theorem bandComplete_of {build : Option ℕ → Option (List AngElem)} (h : ∀ F F', F ≤ F' → build (some F) = (build (some F')).map (upTo F)) :
    BandComplete build := by
  intro fco rings F F' hF hle
  rw [h F F' hle, Option.map_map]
  congr 1
  exact funext fun l => bandKept_upTo hF l

/-- **C52 for `C_N`**: all irreps, cutoffs, rings and larger maxima, with or without a maximum offset. -/
theorem c52_cyclic (N : ℕ) (hN : 0 < N) (ρi ρo : Irrep ℤ) (maxOff : Option ℕ) : BandComplete fun F => rotBasis N ρi ρo F maxOff :=
  bandComplete_of fun _ _ h => rot_upTo N hN ρi ρo maxOff h

/-- **C52 for the reflections**. -/
theorem c52_flip (ρi ρo : Irrep ℤ) (maxOff : Option ℕ) : BandComplete fun F => flipsBasis ρi ρo F maxOff :=
  bandComplete_of fun _ _ h => flips_upTo ρi ρo maxOff h

/-- **C52 for `D_N`**. -/
theorem c52_dihedral (N : ℕ) (hN : 0 < N) (ρi ρo : Irrep (ℤ × ℤ)) (maxOff : Option ℕ) : BandComplete fun F => flipRotBasis N ρi ρo F maxOff :=
  bandComplete_of fun _ _ h => flipRot_upTo N hN ρi ρo maxOff h

/-- **C52, cutoffs which are negative on all the rings**: the maximum frequency is not a natural number only then, and no element passes the filter. -/
theorem c52_negative {fco : ℝ → ℝ} {rings : List ℝ} {F : ℤ} (h : maximumFrequency fco rings = some F) (hF : F < 0) (l : List AngElem) :
    bandKept fco rings l = [] := by
  unfold bandKept
  rw [List.filter_eq_nil_iff]
  rintro ⟨r, e⟩ hx
  obtain ⟨r', hr, hx⟩ := List.mem_flatMap.1 hx
  obtain ⟨e', -, he⟩ := List.mem_map.1 hx
  obtain ⟨rfl, rfl⟩ := Prod.mk.inj he
  simp only [blFilter, Option.getD_some, decide_eq_true_eq]
  intro hk
  have := maximumFrequency_ge h hr hk
  have := abs_nonneg e'.mu
  omega

/-- What is not kept is above the cutoff at its radius: the filter removes nothing else. -/
theorem c52_kept_iff (fco : ℝ → ℝ) (rings : List ℝ) (l : List AngElem) (r : ℝ) (e : AngElem) :
    (r, e) ∈ bandKept fco rings l ↔ r ∈ rings ∧ e ∈ l ∧ |(e.mu : ℝ)| ≤ fco r := by
  unfold bandKept
  rw [List.mem_filter, List.mem_flatMap]
  simp only [List.mem_map, Prod.mk.injEq, blFilter, Option.getD_some, decide_eq_true_eq]
  constructor
  · rintro ⟨⟨r', hr, e', he, rfl, rfl⟩, h⟩; exact ⟨hr, he, h⟩
  · rintro ⟨h1, h2, h3⟩; exact ⟨⟨r, h1, e, h2, rfl, rfl⟩, h3⟩

/-- `bandlimiting_filter` called with a number fails on every element (its caller in the library always gives a callable). -/
theorem c52_float_wrong (c : ℝ) (freq : ℤ) (radius : ℝ) : blFilter (.inl c) freq radius = none := rfl

/-! ### The default parameters are accepted -/

theorem foldr_max_ge (l : List ℝ) (y : ℝ) (hy : y ∈ l) : y ≤ l.foldr max 0 := by
  induction l with
  | nil => simp at hy
  | cons a l ih =>
    rw [List.foldr_cons]
    rcases List.mem_cons.1 hy with rfl | hy
    · exact le_max_left _ _
    · exact (ih hy).trans (le_max_right _ _)

/-- The distance of the corner of the grid is at least that of the last ring. -/
theorem gridMaxRadius_ge (k d : ℕ) (hk : 0 < k) : (((k - 1) / 2 : ℕ) : ℝ) * d ≤ gridMaxRadius k d := by
  refine le_trans ?_ (foldr_max_ge _ _ (List.mem_map.2 ⟨0, List.mem_range.2 (Nat.mul_pos hk hk), rfl⟩))
  rw [gridCoords_axis]
  have h0 : axisPt k d (0 % k) = -((d : ℝ) * ((k : ℝ) - 1) / 2) := by
    rw [Nat.zero_mod]; unfold axisPt; push_cast; ring
  have h0' : axisPt k d (0 / k) = -((d : ℝ) * ((k : ℝ) - 1) / 2) := by
    rw [Nat.zero_div]; unfold axisPt; push_cast; ring
  simp only [h0, h0']
  refine Real.le_sqrt_of_sq_le ?_
  have h1 : (((k - 1) / 2 : ℕ) : ℝ) ≤ ((k : ℝ) - 1) / 2 := by
    have := Nat.cast_div_le (α := ℝ) (m := k - 1) (n := 2)
    rw [Nat.cast_sub hk] at this
    simpa using this
  have hd : (0 : ℝ) ≤ d := Nat.cast_nonneg d
  have hp : (0 : ℝ) ≤ (((k - 1) / 2 : ℕ) : ℝ) := Nat.cast_nonneg _
  have h2 : (((k - 1) / 2 : ℕ) : ℝ) * d ≤ (d : ℝ) * ((k : ℝ) - 1) / 2 := by nlinarith
  have h3 : (0 : ℝ) ≤ (((k - 1) / 2 : ℕ) : ℝ) * d := mul_nonneg hp hd
  nlinarith

/-- **C52, the defaults**: for every kernel size, dilation and cutoff the default rings pass the assertion of `compute_basis_params`, and the
default widths are positive and as many as the rings, as `build_kernel_basis` requires. -/
theorem c52_defaults (k d : ℕ) (hk : 0 < k) (fco : Cutoff) : ∃ rings sigma F,
    computeBasisParams k d fco none none = some (rings, sigma, cutoffFun k fco, F) ∧ rings.length = (k + 1) / 2 ∧ sigma.length = rings.length ∧
      (∀ s ∈ sigma, 0 < s) ∧ maximumFrequency (cutoffFun k fco) rings = some F := by
  set rs := basisRings k d none with hrs
  have hlen : rs.length = (k + 1) / 2 := by simp [hrs, basisRings, linspace0]
  have hbound : ∀ r ∈ rs, r ≤ gridMaxRadius k d ∧ 0 ≤ r := by
    intro r hr
    simp only [hrs, basisRings, linspace0, List.mem_map, List.mem_range] at hr
    obtain ⟨_, ⟨i, hi, rfl⟩, rfl⟩ := hr
    have hd : (0 : ℝ) ≤ d := Nat.cast_nonneg d
    have hb : (0 : ℝ) ≤ (((k - 1) / 2 : ℕ) : ℝ) := Nat.cast_nonneg _
    split_ifs with h1
    · rw [zero_mul]
      exact ⟨le_trans (mul_nonneg hb hd) (gridMaxRadius_ge k d hk), le_refl _⟩
    · have hn : (0 : ℝ) < ((((k + 1) / 2 - 1 : ℕ)) : ℝ) := by exact_mod_cast (by omega : 0 < (k + 1) / 2 - 1)
      have hi' : (i : ℝ) ≤ (((k + 1) / 2 - 1 : ℕ) : ℝ) := by exact_mod_cast (by omega : i ≤ (k + 1) / 2 - 1)
      have hq : (i : ℝ) * (((k - 1) / 2 : ℕ) : ℝ) / (((k + 1) / 2 - 1 : ℕ) : ℝ) ≤ (((k - 1) / 2 : ℕ) : ℝ) := by
        rw [div_le_iff₀ hn, _root_.mul_comm]
        exact mul_le_mul_of_nonneg_left hi' hb
      refine ⟨le_trans (mul_le_mul_of_nonneg_right hq hd) (gridMaxRadius_ge k d hk), ?_⟩
      exact mul_nonneg (div_nonneg (mul_nonneg (Nat.cast_nonneg i) hb) hn.le) hd
  have hmax : ∃ F, maximumFrequency (cutoffFun k fco) rs = some F := by
    unfold maximumFrequency
    cases hr : rs with
    | nil => rw [hr] at hlen; simp at hlen; omega
    | cons x l => exact ⟨_, rfl⟩
  obtain ⟨F, hF⟩ := hmax
  refine ⟨rs, basisSigma rs none, F, ?_, hlen, by simp [basisSigma], ?_, hF⟩
  · unfold computeBasisParams
    dsimp only
    rw [if_pos hbound, ← hrs, hF]
    rfl
  · intro s hs
    simp only [basisSigma, List.mem_map] at hs
    obtain ⟨i, -, rfl⟩ := hs
    split_ifs <;> norm_num

/-- A kernel of size 5 of `C_4` with the table of the default cutoff: the hypotheses of `c52_cyclic`. -/
example : maximumFrequency (manualFco1 2) [0, 1, 2] = some ((2 : ℕ) : ℤ) := by
  have h : (1 : ℝ) ≠ 2 := by norm_num
  have h2 : mod2 ((1 : ℝ) + 1) = 0 := by
    have : ((1 : ℝ) + 1) / 2 = 1 := by norm_num
    rw [mod2, this, Int.floor_one]; norm_num
  have e1 : manualFco1 2 0 = 0 := by simp [manualFco1]
  have e2 : manualFco1 2 1 = 2 := by simp [manualFco1, h, h2]
  have e3 : manualFco1 2 2 = 2 := by rw [manualFco1, if_neg (by norm_num), if_pos rfl]; norm_num
  have : max (max (0 : ℝ) 2) 2 = 2 := by norm_num
  simp [maximumFrequency, listMax, e1, e2, e3, this, pyInt]

end E2
