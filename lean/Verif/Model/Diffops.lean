import Verif.Model.Steerable
import Verif.Model.DiffopPoly

/-!
# Bases of equivariant partial differential operators: model of `e2cnn/diffops/irreps_basis.py`, `steerable_basis.py` and `basis.py`

An operator of order `n` with values in matrices is an array of shape `(rows, columns, n + 1)`.  The rounding of entries below `1e-8` to zero
(diffops/basis.py:77) is not modelled: numbers are exact.
-/

namespace E2

open Finset Mat Real

/-- An array of shape `(rows, columns, deg + 1)`; the rows and columns are kept apart. -/
structure DArr where
  deg : ℕ
  co : ℕ → ℕ → ℕ → ℝ

namespace DArr

/-- The polynomial in one entry, `element[i, j]`. -/
def entry (D : DArr) (i j : ℕ) : HPoly := ⟨D.deg, D.co i j⟩

/-- The matrix of the values of all the polynomials at a point (`eval_polys`, diffops/utils.py:377-397). -/
noncomputable def eval (D : DArr) (p : ℝ × ℝ) : Mat := fun i j => (D.entry i j).eval p

/-- `np.empty(shape + (deg + 1,))` filled with arrays of `deg + 1` coefficients. -/
def fill (deg : ℕ) (f : ℕ → ℕ → HPoly) : DArr := ⟨deg, fun i j => (f i j).co⟩

/-- `transform_polynomial` on the last axis of an array (diffops/utils.py:230-256). -/
def transform (D : DArr) (A : Mat) : DArr := fill D.deg fun i j => (D.entry i j).transform A

end DArr

/-- One element of an irrep basis: the entries of the lists `mu`, `invert`, `s` and `ts`.  `s` is `0` where the code has no such list. -/
structure DElem where
  mu : ℤ
  invert : ℕ
  s : ℤ
  t : ℤ

/-- The loops over the offsets (for instance diffops/irreps_basis.py:195-209) for one `invert` and one `s`; `none` for a failed assertion. -/
def dLoop (k N : ℤ) (maxOff maxFreq : Option ℕ) (nonneg : Bool) (keep : ℤ → Prop) [DecidablePred keep]
    (invert : ℕ) (s : ℤ) : Option (List DElem) :=
  match offsets k N maxOff maxFreq nonneg with
  | none => none
  | some ts =>
    if ts.all fun t => freqOk maxOff maxFreq t (k + t * N) then
      some ((ts.filter fun t => decide (keep (k + t * N))).map fun t => ⟨k + t * N, invert, s, t⟩)
    else none

/-- `R2FlipsSolution` (diffops/irreps_basis.py:29-89). -/
def dFlips (ρi ρo : Irrep ℤ) (maxFreq maxOff : Option ℕ) : Option (List DElem) :=
  let invert := (ρi.freq + ρo.freq) % 2
  if maxFreq = none ∧ maxOff = none then none
  else dLoop 0 1 maxOff maxFreq true (fun mu => 0 < mu ∨ invert = 0) invert 0

/-- `R2DiscreteRotationsSolution` (diffops/irreps_basis.py:148-285), for an order `N`. -/
def dRot (N : ℕ) (ρi ρo : Irrep ℤ) (maxFreq maxOff : Option ℕ) : Option (List DElem) :=
  let n : ℤ := ρi.freq
  let m : ℤ := ρo.freq
  if maxFreq = none ∧ maxOff = none then none
  else if ρi.size = 2 ∧ ρo.size = 2 then
    concatOpt ([0, 1].flatMap fun invert => [(0 : ℤ), 1].map fun s =>
      dLoop (m - n * (if s = 0 then 1 else -1)) N maxOff maxFreq false (fun _ => True) invert s)
  else if ρi.size = 2 ∧ ρo.size = 1 then
    if ¬ (m = 0 ∨ (m = (N / 2 : ℕ) ∧ N % 2 = 0)) then none
    else concatOpt ([0, 1].map fun invert => dLoop (n + m) N maxOff maxFreq false (fun _ => True) invert 0)
  else if ρi.size = 1 ∧ ρo.size = 2 then
    if ¬ (n = 0 ∨ (n = (N / 2 : ℕ) ∧ N % 2 = 0)) then none
    else concatOpt ([0, 1].map fun invert => dLoop (n + m) N maxOff maxFreq false (fun _ => True) invert 0)
  else if ρi.size = 1 ∧ ρo.size = 1 then
    if ¬ (n = 0 ∨ (n = (N / 2 : ℕ) ∧ N % 2 = 0)) ∨ ¬ (m = 0 ∨ (m = (N / 2 : ℕ) ∧ N % 2 = 0)) then none
    else concatOpt ([0, 1].map fun invert =>
      dLoop (m - n) N maxOff maxFreq true (fun mu => 0 < mu ∨ invert = 0) invert 0)
  else none

/-- `R2ContinuousRotationsSolution` (diffops/irreps_basis.py:603-669); the offset is not stored (`t = 0`). -/
def dCont (ρi ρo : Irrep ℝ) : Option (List DElem) :=
  let n : ℤ := ρi.freq
  let m : ℤ := ρo.freq
  if ρi.size = 2 ∧ ρo.size = 2 then
    some ([0, 1].flatMap fun invert => [(0 : ℤ), 1].map fun s => ⟨m - n * (if s = 0 then 1 else -1), invert, s, 0⟩)
  else if ρi.size = 2 ∧ ρo.size = 1 then
    if ¬ m = 0 then none else some ([0, 1].map fun invert => ⟨n + m, invert, 0, 0⟩)
  else if ρi.size = 1 ∧ ρo.size = 2 then
    if ¬ n = 0 then none else some ([0, 1].map fun invert => ⟨n + m, invert, 0, 0⟩)
  else if ρi.size = 1 ∧ ρo.size = 1 then
    if ¬ (n = 0 ∧ m = 0) then none else some [⟨0, 0, 0, 0⟩]
  else none

/-- `R2FlipsDiscreteRotationsSolution` (diffops/irreps_basis.py:375-514), for a rotation order `N`. -/
def dFlipRot (N : ℕ) (ρi ρo : Irrep (ℤ × ℤ)) (maxFreq maxOff : Option ℕ) : Option (List DElem) :=
  let n : ℤ := ρi.freq
  let m : ℤ := ρo.freq
  if maxFreq = none ∧ maxOff = none then none
  else if ρi.size = 2 ∧ ρo.size = 2 then
    if ¬ (0 < m ∧ 0 < n ∧ ρi.flip = 1 ∧ ρo.flip = 1) then none
    else concatOpt ([(0 : ℤ), 1].map fun s =>
      dLoop (m - n * (if s = 0 then 1 else -1)) N maxOff maxFreq false (fun _ => True) 0 s)
  else if ρi.size = 2 ∧ ρo.size = 1 then
    if ¬ ((m = 0 ∨ (m = (N / 2 : ℕ) ∧ N % 2 = 0)) ∧ ρi.flip = 1) then none
    else dLoop (n + m) N maxOff maxFreq false (fun _ => True) ρo.flip 0
  else if ρi.size = 1 ∧ ρo.size = 2 then
    if ¬ ((n = 0 ∨ (n = (N / 2 : ℕ) ∧ N % 2 = 0)) ∧ ρo.flip = 1) then none
    else dLoop (n + m) N maxOff maxFreq false (fun _ => True) ρi.flip 0
  else if ρi.size = 1 ∧ ρo.size = 1 then
    if ¬ (n = 0 ∨ (n = (N / 2 : ℕ) ∧ N % 2 = 0)) ∨ ¬ (m = 0 ∨ (m = (N / 2 : ℕ) ∧ N % 2 = 0)) then none
    else
      let invert := (ρi.flip + ρo.flip) % 2
      dLoop (m - n) N maxOff maxFreq true (fun mu => 0 < mu ∨ invert = 0) invert 0
  else none

/-- `R2FlipsContinuousRotationsSolution` (diffops/irreps_basis.py:752-821). -/
def dFlipCont (ρi ρo : Irrep (ℤ × ℝ)) : Option (List DElem) :=
  let n : ℤ := ρi.freq
  let m : ℤ := ρo.freq
  if ρi.size = 2 ∧ ρo.size = 2 then
    if ¬ (0 < m ∧ 0 < n ∧ ρi.flip = 1 ∧ ρo.flip = 1) then none
    else some ([(0 : ℤ), 1].map fun s => ⟨m - n * (if s = 0 then 1 else -1), 0, s, 0⟩)
  else if ρi.size = 2 ∧ ρo.size = 1 then
    if ¬ (m = 0 ∧ ρi.flip = 1) then none else some [⟨n + m, ρo.flip, 0, 0⟩]
  else if ρi.size = 1 ∧ ρo.size = 2 then
    if ¬ (n = 0 ∧ ρo.flip = 1) then none else some [⟨n + m, ρi.flip, 0, 0⟩]
  else if ρi.size = 1 ∧ ρo.size = 1 then
    if ¬ (n = 0 ∧ m = 0) then none
    else
      let invert := (ρi.flip + ρo.flip) % 2
      some (if 0 < m - n ∨ invert = 0 then [⟨m - n, invert, 0, 0⟩] else [])
  else none

/-- `homogenized_cheby(mu, "u" if flag else "t")` (for instance diffops/irreps_basis.py:311). -/
def hcheby (u : Prop) [Decidable u] (mu : ℤ) : HPoly := if u then HPoly.chebyU mu else HPoly.chebyT mu

/-- `cheby("t", mu, invert)` (diffops/irreps_basis.py:902-909). -/
def chebyt (mu : ℤ) (invert : ℕ) : HPoly :=
  HPoly.smul (if invert ≠ 0 then -1 else 1) (if invert ≠ 0 then HPoly.chebyU mu else HPoly.chebyT mu)

/-- `cheby("u", mu, invert)` (diffops/irreps_basis.py:902-909). -/
def chebyu (mu : ℤ) (invert : ℕ) : HPoly :=
  HPoly.smul 1 (if invert ≠ 0 then HPoly.chebyT mu else HPoly.chebyU mu)

/-- The power `(-1) ** s` of an integer exponent in `{0, 1}`. -/
def sgn (s : ℤ) : ℝ := (-1) ^ s.natAbs

/-- The coefficients of one element, by the shape `(so, si)` (diffops/irreps_basis.py:96-104, 292-331, 521-556, 828-865).  For any other shape the code raises
a `ValueError`; no irrep has another size. -/
def dCoef (so si : ℕ) (e : DElem) : DArr :=
  if so = 2 ∧ si = 2 then DArr.fill e.mu.natAbs fun i j =>
    if i = 0 ∧ j = 0 then chebyt e.mu e.invert
    else if i = 0 ∧ j = 1 then HPoly.smul (-sgn e.s) (chebyu e.mu e.invert)
    else if i = 1 ∧ j = 0 then chebyu e.mu e.invert
    else HPoly.smul (sgn e.s) (chebyt e.mu e.invert)
  else if so = 1 ∧ si = 2 then DArr.fill e.mu.natAbs fun _ j =>
    if j = 0 then HPoly.smul ((-1) ^ e.invert) (hcheby (e.invert ≠ 0) e.mu) else hcheby (e.invert = 0) e.mu
  else if so = 2 ∧ si = 1 then DArr.fill e.mu.natAbs fun i _ =>
    if i = 0 then HPoly.smul ((-1) ^ e.invert) (hcheby (e.invert ≠ 0) e.mu) else hcheby (e.invert = 0) e.mu
  else DArr.fill e.mu.natAbs fun _ _ => hcheby (e.invert ≠ 0) e.mu

/-- The coefficients of one element of `R2ContinuousRotationsSolution` (diffops/irreps_basis.py:676-712), which are written with `cheby` and, for two trivial irreps,
as the constant 1. -/
def dCoefCont (so si : ℕ) (e : DElem) : DArr :=
  if so = 2 ∧ si = 2 then dCoef 2 2 e
  else if so = 1 ∧ si = 2 then DArr.fill e.mu.natAbs fun _ j => if j = 0 then chebyt e.mu e.invert else chebyu e.mu e.invert
  else if so = 2 ∧ si = 1 then DArr.fill e.mu.natAbs fun i _ => if i = 0 then chebyt e.mu e.invert else chebyu e.mu e.invert
  else ⟨0, fun _ _ _ => 1⟩

open Classical in
/-- The change of axis (diffops/irreps_basis.py:106-111, 558-563, 867-872): `so2.irrep(1)(axis)` is `psi(axis)`. -/
noncomputable def dAxis (axis : ℝ) (D : DArr) : DArr := if axis ≠ 0 then D.transform ((SO2.irrep 1).mat axis) else D

variable {El : Type}

/-- The coefficients of an element of a basis for a pair of irreps, with the axis (0 for the classes without an axis). -/
noncomputable def dSamp (axis : ℝ) (i o : Irrep El) (e : DElem) : DArr := dAxis axis (dCoef o.size i.size e)

/-- An array of zeros of shape `self.shape + (element.shape[2],)` with `element` written in `[r0:r0+rs, c0:c0+cs, :]` (diffops/steerable_basis.py:157-162). -/
def DArr.place (r0 rs c0 cs : ℕ) (D : DArr) : DArr := ⟨D.deg, fun i j k =>
  if (r0 ≤ i ∧ i < r0 + rs) ∧ (c0 ≤ j ∧ j < c0 + cs) then D.co (i - r0) (j - c0) k else 0⟩

namespace SBasis

/-- The loop over the output irreps in `_direct_sum_coefficients` (diffops/steerable_basis.py:152-165). -/
def dLoopOut (cf : Irrep El → Irrep El → DElem → DArr) (bases : Irrep El → Irrep El → List DElem) (i : Irrep El) (inPos : ℕ) :
    List (Irrep El) → ℕ → List DArr
  | [], _ => []
  | o :: os, outPos => (bases i o).map (fun e => (cf i o e).place outPos o.size inPos i.size) ++ dLoopOut cf bases i inPos os (outPos + o.size)

/-- The loop over the input irreps in `_direct_sum_coefficients` (diffops/steerable_basis.py:151-166). -/
def dLoopIn (cf : Irrep El → Irrep El → DElem → DArr) (bases : Irrep El → Irrep El → List DElem) (outs : List (Irrep El)) :
    List (Irrep El) → ℕ → List DArr
  | [], _ => []
  | i :: is, inPos => dLoopOut cf bases i inPos outs 0 ++ dLoopIn cf bases outs is (inPos + i.size)

/-- `_change_of_basis` on one element (diffops/steerable_basis.py:170-183). -/
def dChange (S : SBasis El DElem) (D : DArr) : DArr :=
  match S.Ainv, S.B with
  | some A, some B => ⟨D.deg, fun n j b => ∑ o ∈ range S.outSize, ∑ i ∈ range S.inSize, B n o * D.co o i b * A i j⟩
  | some A, none => ⟨D.deg, fun o j b => ∑ i ∈ range S.inSize, D.co o i b * A i j⟩
  | none, some B => ⟨D.deg, fun n i b => ∑ o ∈ range S.outSize, B n o * D.co o i b⟩
  | none, none => D

/-- The coefficients of `SteerableDiffopBasis` (diffops/steerable_basis.py:71-145).  The first part of the constructor is that of `SteerableKernelBasis`
(`steerable`).  An empty list stands for the `EmptyBasisException` of the base class (diffops/basis.py:66-67). -/
def dCoefs (cf : Irrep El → Irrep El → DElem → DArr) (S : SBasis El DElem) : List DArr :=
  (dLoopIn cf S.bases S.outs S.ins 0).map S.dChange

end SBasis

/-- `LaplaceProfile` (diffops/basis.py:184-186): the coefficients are of shape `(1, 1, 2k + 1)`. -/
def laplaceProfile (maxPower : ℕ) : List HPoly := (List.range (maxPower + 1)).map HPoly.laplacian

/-- The coefficients of `TensorBasis` (diffops/basis.py:237-247); the factors of `laplaceProfile` have one row and one column. -/
def tensorCoefs (as : List DArr) (bs : List HPoly) : List DArr :=
  as.flatMap fun a => bs.map fun b => DArr.fill (a.deg + 1 + (b.deg + 1) - 2) fun i k => (a.entry i k).mul b

/-- The attribute `"order"` of an element (diffops/basis.py:252-268 and diffops/irreps_basis.py:119, 340, 572, 720, 880; diffops/basis.py:194): the sum of the orders of the two
factors, for `idx1, idx2 = divmod(idx, basis2.dim)`. -/
def tensorOrder (S : SBasis El DElem) (maxPower idx : ℕ) : Option ℕ :=
  if idx < S.dim * (maxPower + 1) then
    (S.getItem (idx / (maxPower + 1))).map fun a => a.elem.mu.natAbs + 2 * (idx % (maxPower + 1))
  else none

/-- `TensorBasis(irreps_basis, in_repr, out_repr, max_power)` (diffops/basis.py:208-250); `none` for a failed assertion. -/
noncomputable def tensorBasis (irrepsBasis : Irrep El → Irrep El → Option (List DElem)) (cf : Irrep El → Irrep El → DElem → DArr) (rin rout : Repr El)
    (maxPower : ℕ) : Option (List DArr) :=
  (steerable irrepsBasis rin rout).map fun S => tensorCoefs (S.dCoefs cf) (laplaceProfile maxPower)

end E2
