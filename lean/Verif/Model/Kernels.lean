import Verif.Model.Continuous
import Mathlib.Analysis.SpecialFunctions.Complex.Arg
import Mathlib.Algebra.Order.Floor.Ring
import Mathlib.Data.Rat.Floor

/-!
# Angular kernel bases: model of `e2cnn/kernels/utils.py`, `irreps_basis.py` and of the polar coordinates in `basis.py`
-/

namespace E2

open Finset Mat Real

/-- `range(a, b)`. -/
def pyRange (a b : ℤ) : List ℤ := (List.range (b - a).toNat).map fun i : ℕ => a + (i : ℤ)

/-- `offset_iterator(base_frequency, N, maximum_offset, maximum_frequency, non_negative)` (kernels/utils.py:14-48), as the list of
the yielded values; `none` is the failed assertion of line 20.  The divisions are exact; `N = 0`, for which
the code divides by zero, is not used by any caller. -/
def offsets (k N : ℤ) (maxOff maxFreq : Option ℕ) (nonneg : Bool) : Option (List ℤ) :=
  if N < 0 then
    match maxFreq with
    | some F => if |k| ≤ (F : ℤ) then some [0] else some []
    | none => some []
  else
    if maxFreq = none ∧ maxOff = none then none
    else
      let lo : ℚ := match maxFreq with
        | some F => (((if nonneg then 0 else -(F : ℤ)) - k : ℤ) : ℚ) / N
        | none => -10000
      let hi : ℚ := match maxFreq with
        | some F => (((F : ℤ) - k : ℤ) : ℚ) / N
        | none => 10000
      let lo : ℚ := match maxOff with
        | some O => max lo (-(O : ℚ))
        | none => lo
      let hi : ℚ := match maxOff with
        | some O => min hi (O : ℚ)
        | none => hi
      some (pyRange ⌈lo⌉ (⌊hi⌋ + 1))

/-- One angular basis element: the entries of the arrays `mu`, `gamma`, `s` and of the list `ts`.  `s` is `0` where the code has
no such array. -/
structure AngElem where
  mu : ℤ
  gamma : ℝ
  s : ℤ
  t : ℤ

/-- The assertions on the offset and on the frequency (for instance kernels/irreps_basis.py:248-252). -/
def freqOk (maxOff maxFreq : Option ℕ) (t mu : ℤ) : Bool :=
  (match maxOff with | some O => decide (|t| ≤ (O : ℤ)) | none => true) &&
  (match maxFreq with | some F => decide (|mu| ≤ (F : ℤ)) | none => true)

/-- The loops over the offsets (for instance kernels/irreps_basis.py:242-257) for one `gamma` and one `s`; `none` for a
failed assertion.  `keep` is the condition under which the element is appended. -/
noncomputable def offsetLoop (k N : ℤ) (maxOff maxFreq : Option ℕ) (nonneg : Bool) (keep : ℤ → Prop) [DecidablePred keep]
    (gamma : ℝ) (s : ℤ) : Option (List AngElem) :=
  match offsets k N maxOff maxFreq nonneg with
  | none => none
  | some ts =>
    if ts.all fun t => freqOk maxOff maxFreq t (k + t * N) then
      some ((ts.filter fun t => decide (keep (k + t * N))).map fun t => ⟨k + t * N, gamma, s, t⟩)
    else none

/-- Concatenation of the lists produced by nested loops; `none` if one of them fails. -/
def concatOpt {α : Type} : List (Option (List α)) → Option (List α)
  | [] => some []
  | none :: _ => none
  | some l :: ls => match concatOpt ls with
    | none => none
    | some r => some (l ++ r)

/-- `R2FlipsSolution` (kernels/irreps_basis.py:38-113): the group is `C_2`, whose irreps have size 1.  `none` for a failed assertion. -/
noncomputable def flipsBasis (ρi ρo : Irrep ℤ) (maxFreq maxOff : Option ℕ) : Option (List AngElem) :=
  let gamma : ℝ := (((ρi.freq + ρo.freq) % 2 : ℕ) : ℝ) * π / 2
  if maxFreq = none ∧ maxOff = none then none
  else offsetLoop 0 1 maxOff maxFreq true (fun mu => 0 < mu ∨ gamma = 0) gamma 0

/-- `R2DiscreteRotationsSolution` (kernels/irreps_basis.py:188-359), for an order `N`. -/
noncomputable def rotBasis (N : ℕ) (ρi ρo : Irrep ℤ) (maxFreq maxOff : Option ℕ) : Option (List AngElem) :=
  let n : ℤ := ρi.freq
  let m : ℤ := ρo.freq
  if maxFreq = none ∧ maxOff = none then none
  else if ρi.size = 2 ∧ ρo.size = 2 then
    concatOpt ([(0 : ℝ), π / 2].flatMap fun gamma => [(0 : ℤ), 1].map fun s =>
      offsetLoop (m - n * (if s = 0 then 1 else -1)) N maxOff maxFreq false (fun _ => True) gamma s)
  else if ρi.size = 2 ∧ ρo.size = 1 then
    if ¬ (m = 0 ∨ (m = (N / 2 : ℕ) ∧ N % 2 = 0)) then none
    else concatOpt ([(0 : ℝ), π / 2].map fun gamma => offsetLoop (n + m) N maxOff maxFreq false (fun _ => True) gamma 0)
  else if ρi.size = 1 ∧ ρo.size = 2 then
    if ¬ (n = 0 ∨ (n = (N / 2 : ℕ) ∧ N % 2 = 0)) then none
    else concatOpt ([(0 : ℝ), π / 2].map fun gamma => offsetLoop (n + m) N maxOff maxFreq false (fun _ => True) gamma 0)
  else if ρi.size = 1 ∧ ρo.size = 1 then
    if ¬ (n = 0 ∨ (n = (N / 2 : ℕ) ∧ N % 2 = 0)) ∨ ¬ (m = 0 ∨ (m = (N / 2 : ℕ) ∧ N % 2 = 0)) then none
    else concatOpt ([(0 : ℝ), π / 2].map fun gamma =>
      offsetLoop (m - n) N maxOff maxFreq true (fun mu => 0 < mu ∨ gamma = 0) gamma 0)
  else none

/-- `R2ContinuousRotationsSolution` (kernels/irreps_basis.py:450-549); the offset is not stored (`t = 0`). -/
noncomputable def contBasis (ρi ρo : Irrep ℝ) : Option (List AngElem) :=
  let n : ℤ := ρi.freq
  let m : ℤ := ρo.freq
  if ρi.size = 2 ∧ ρo.size = 2 then
    some ([(0 : ℝ), π / 2].flatMap fun gamma => [(0 : ℤ), 1].map fun s => ⟨m - n * (if s = 0 then 1 else -1), gamma, s, 0⟩)
  else if ρi.size = 2 ∧ ρo.size = 1 then
    if ¬ m = 0 then none else some ([(0 : ℝ), π / 2].map fun gamma => ⟨n + m, gamma, 0, 0⟩)
  else if ρi.size = 1 ∧ ρo.size = 2 then
    if ¬ n = 0 then none else some ([(0 : ℝ), π / 2].map fun gamma => ⟨n + m, gamma, 0, 0⟩)
  else if ρi.size = 1 ∧ ρo.size = 1 then
    if ¬ (n = 0 ∧ m = 0) then none
    else some (([(0 : ℝ), π / 2].filter fun gamma => decide (0 < m - n ∨ gamma = 0)).map fun gamma => ⟨m - n, gamma, 0, 0⟩)
  else none

/-- `R2FlipsDiscreteRotationsSolution` (kernels/irreps_basis.py:639-804), for a rotation order `N`. -/
noncomputable def flipRotBasis (N : ℕ) (ρi ρo : Irrep (ℤ × ℤ)) (maxFreq maxOff : Option ℕ) : Option (List AngElem) :=
  let n : ℤ := ρi.freq
  let m : ℤ := ρo.freq
  if maxFreq = none ∧ maxOff = none then none
  else if ρi.size = 2 ∧ ρo.size = 2 then
    if ¬ (0 < m ∧ 0 < n ∧ ρi.flip = 1 ∧ ρo.flip = 1) then none
    else concatOpt ([(0 : ℤ), 1].map fun s =>
      offsetLoop (m - n * (if s = 0 then 1 else -1)) N maxOff maxFreq false (fun _ => True) 0 s)
  else if ρi.size = 2 ∧ ρo.size = 1 then
    if ¬ ((m = 0 ∨ (m = (N / 2 : ℕ) ∧ N % 2 = 0)) ∧ ρi.flip = 1) then none
    else offsetLoop (n + m) N maxOff maxFreq false (fun _ => True) (ρo.flip * π / 2) 0
  else if ρi.size = 1 ∧ ρo.size = 2 then
    if ¬ ((n = 0 ∨ (n = (N / 2 : ℕ) ∧ N % 2 = 0)) ∧ ρo.flip = 1) then none
    else offsetLoop (n + m) N maxOff maxFreq false (fun _ => True) (ρi.flip * π / 2) 0
  else if ρi.size = 1 ∧ ρo.size = 1 then
    if ¬ (n = 0 ∨ (n = (N / 2 : ℕ) ∧ N % 2 = 0)) ∨ ¬ (m = 0 ∨ (m = (N / 2 : ℕ) ∧ N % 2 = 0)) then none
    else
      let gamma : ℝ := (((ρi.flip + ρo.flip) % 2 : ℕ) : ℝ) * π / 2
      offsetLoop (m - n) N maxOff maxFreq true (fun mu => 0 < mu ∨ gamma = 0) gamma 0
  else none

/-- `R2FlipsContinuousRotationsSolution` (kernels/irreps_basis.py:897-988). -/
noncomputable def flipContBasis (ρi ρo : Irrep (ℤ × ℝ)) : Option (List AngElem) :=
  let n : ℤ := ρi.freq
  let m : ℤ := ρo.freq
  if ρi.size = 2 ∧ ρo.size = 2 then
    if ¬ (0 < m ∧ 0 < n ∧ ρi.flip = 1 ∧ ρo.flip = 1) then none
    else some ([(0 : ℤ), 1].map fun s => ⟨m - n * (if s = 0 then 1 else -1), 0, s, 0⟩)
  else if ρi.size = 2 ∧ ρo.size = 1 then
    if ¬ (m = 0 ∧ ρi.flip = 1) then none else some [⟨n + m, ρo.flip * π / 2, 0, 0⟩]
  else if ρi.size = 1 ∧ ρo.size = 2 then
    if ¬ (n = 0 ∧ ρo.flip = 1) then none else some [⟨n + m, ρi.flip * π / 2, 0, 0⟩]
  else if ρi.size = 1 ∧ ρo.size = 1 then
    if ¬ (n = 0 ∧ m = 0) then none
    else
      let gamma : ℝ := (((ρi.flip + ρo.flip) % 2 : ℕ) : ℝ) * π / 2
      some (if 0 < m - n ∨ gamma = 0 then [⟨m - n, gamma, 0, 0⟩] else [])
  else none

/-- The values of a basis element at an angle (for instance kernels/irreps_basis.py:391-410), by the shape `(so, si)`.
`kernels.utils.psichi` (kernels/utils.py:96-122) agrees with `group.utils.psichi` for `s` in `{0, 1}`.  For
any other shape the code raises a `ValueError`; no irrep has another size. -/
noncomputable def angMat (so si : ℕ) (e : AngElem) (φ : ℝ) : Mat :=
  if so = 2 ∧ si = 2 then psichi φ e.s e.mu e.gamma
  else if so = 1 ∧ si = 2 then fun i j => if i = 0 ∧ j = 0 then cos (e.mu * φ + e.gamma)
    else if i = 0 ∧ j = 1 then sin (e.mu * φ + e.gamma) else 0
  else if so = 2 ∧ si = 1 then fun i j => if i = 0 ∧ j = 0 then cos (e.mu * φ + e.gamma)
    else if i = 1 ∧ j = 0 then sin (e.mu * φ + e.gamma) else 0
  else if so = 1 ∧ si = 1 then m1 (cos (e.mu * φ + e.gamma))
  else fun _ _ => 0

/-- `sample` of the irrep bases (kernels/irreps_basis.py:115-163, 361-420, 551-610, 806-867, 990-1051) at one point.  The angle `nan`, used for
the origin, is `none`: it is replaced by the angle 0 and the elements of non-zero frequency are set to 0.  `axis` is 0 for the classes
without an axis. -/
noncomputable def angSample (axis : ℝ) (so si : ℕ) (e : AngElem) (angle : Option ℝ) : Mat :=
  if angle = none ∧ e.mu ≠ 0 then fun _ _ => 0 else angMat so si e (angle.getD 0 - axis)

/-- The radius of a point (kernels/basis.py:279). -/
noncomputable def radius (p : ℝ × ℝ) : ℝ := √(p.1 ^ 2 + p.2 ^ 2)

open Classical in
/-- The angle of a point (kernels/basis.py:280-282); `none` is `nan`, set at points closer than `1e-9` to the origin. `np.arctan2(y, x)` is the
argument of `x + i y`. -/
noncomputable def angle (p : ℝ × ℝ) : Option ℝ :=
  if radius p < 1e-9 then none else some (Complex.arg ⟨p.1, p.2⟩)

/-- One element of `GaussianRadialProfile` (kernels/basis.py:211-213). -/
noncomputable def gaussian (ring sigma r : ℝ) : ℝ := exp (-0.5 * (ring - r) ^ 2 / sigma ^ 2)

/-- One element of `PolarBasis.sample` (kernels/basis.py:275-300) at one point: the product of a radial element, of shape `(1, 1)`, and an angular
element. -/
noncomputable def polar (radial : ℝ → ℝ) (angular : Option ℝ → Mat) (p : ℝ × ℝ) : Mat :=
  fun i j => radial (radius p) * angular (angle p) i j

end E2
