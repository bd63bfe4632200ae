import Verif.Examples.Common
import Verif.Props.ConvBuilds
import Verif.Props.TransposedInit
import Verif.Props.Rect
import Verif.Props.Stride
import Verif.Props.PlaneConv

/-!
# Convolutions which meet the hypotheses of the theorems about them

For each space of the library `R2Conv` is built between a type of two fields (one trivial, one of two irreps in an exchanged basis) and a type of one field, for
every odd kernel size, and the theorems about built layers apply to it (C66, C75, C85, C92, C93, C94).
-/

namespace E2

open Mat

theorem tr_swapMat : tr swapMat = swapMat := by
  funext i j
  rcases i with _ | _ | i <;> rcases j with _ | _ | j <;> simp [tr, swapMat, eq_comm]

theorem tr_one : tr (Mat.one : Mat) = Mat.one := by
  funext i j
  simp [tr, Mat.one, eq_comm]

theorem exCyc_orth (N n : ℕ) : (exCyc N n).OrthCob := by
  obtain ⟨i, hi, si⟩ := cyc0 N
  obtain ⟨j, hj, sj⟩ := cyc1 N
  unfold exCyc
  split_ifs
  · show IsInv _ Mat.one (tr Mat.one)
    rw [tr_one]
    exact IsInv.one _
  · show IsInv _ swapMat (tr swapMat)
    rw [tr_swapMat]
    exact swapMat_isInv (by simp [Repr.size, hi, hj, si]; omega)

theorem exSO_orth (n : ℕ) : (exSO n).OrthCob := by
  unfold exSO
  split_ifs
  · show IsInv _ Mat.one (tr Mat.one)
    rw [tr_one]
    exact IsInv.one _
  · show IsInv _ swapMat (tr swapMat)
    rw [tr_swapMat]
    exact swapMat_isInv (by simp [Repr.size, SO2.irrep])

theorem exDih_orth (N n : ℕ) : (exDih N n).OrthCob := by
  obtain ⟨i, hi, si⟩ := dih0 N
  obtain ⟨j, hj, sj⟩ := dih1 N
  unfold exDih
  split_ifs
  · show IsInv _ Mat.one (tr Mat.one)
    rw [tr_one]
    exact IsInv.one _
  · show IsInv _ swapMat (tr swapMat)
    rw [tr_swapMat]
    exact swapMat_isInv (by simp [Repr.size, hi, hj, si]; omega)

theorem exO2_orth (n : ℕ) : (exO2 n).OrthCob := by
  obtain ⟨i, hi, si⟩ := o20
  obtain ⟨j, hj, sj⟩ := o21
  unfold exO2
  split_ifs
  · show IsInv _ Mat.one (tr Mat.one)
    rw [tr_one]
    exact IsInv.one _
  · show IsInv _ swapMat (tr swapMat)
    rw [tr_swapMat]
    exact swapMat_isInv (by simp [Repr.size, hi, hj, si, sj])

theorem exCyc_plane (N n : ℕ) : (exCyc N n).Plane fun i => ∃ k, Cyclic.irrep N k = some i :=
  ⟨exCyc_pos N n, (exCyc_ok N n).1, exCyc_orth N n, (exCyc_ok N n).2⟩

theorem exSO_plane (n : ℕ) : (exSO n).Plane fun i => ∃ k, SO2.irrep k = i :=
  ⟨exSO_pos n, (exSO_ok n).1, exSO_orth n, fun i hi => ((exSO_ok n).2 i hi).imp fun _ h => h.symm⟩

theorem exDih_plane (N n : ℕ) : (exDih N n).Plane fun i => ∃ j k, Dihedral.irrep N j k = some i :=
  ⟨exDih_pos N n, (exDih_ok N n).1, exDih_orth N n, (exDih_ok N n).2⟩

theorem exO2_plane (n : ℕ) : (exO2 n).Plane fun i => ∃ j k, O2.irrep j k = some i :=
  ⟨exO2_pos n, (exO2_ok n).1, exO2_orth n, (exO2_ok n).2⟩

theorem exCyc_share (N : ℕ) : ∃ ψ ∈ (exCyc N 0).irreps, ψ ∈ (exCyc N 1).irreps := by
  obtain ⟨i, hi, -⟩ := cyc0 N
  exact ⟨i, by simp [exCyc, hi], by simp [exCyc, hi]⟩

theorem exSO_share : ∃ ψ ∈ (exSO 0).irreps, ψ ∈ (exSO 1).irreps := ⟨SO2.irrep 0, by simp [exSO], by simp [exSO]⟩

theorem exDih_share (N : ℕ) : ∃ ψ ∈ (exDih N 0).irreps, ψ ∈ (exDih N 1).irreps := by
  obtain ⟨i, hi, -⟩ := dih0 N
  exact ⟨i, by simp [exDih, hi], by simp [exDih, hi]⟩

theorem exO2_share : ∃ ψ ∈ (exO2 0).irreps, ψ ∈ (exO2 1).irreps := by
  obtain ⟨i, hi, -⟩ := o20
  exact ⟨i, by simp [exO2, hi], by simp [exO2, hi]⟩

theorem ex_convGroups : convGroups 1 [0, 1] [1] = some [0, 1] := by decide

/-- The arguments `R2Conv(in_type, out_type, kernel_size=k, stride=s)`. -/
noncomputable def stepArgs (El : Type) (k s : ℕ) : ConvArgs El := { plainArgs El k with stride := s }

theorem stepArgs_default {El : Type} (m s : ℕ) : (stepArgs El (2 * m + 1) s).Default m := ⟨rfl, one_pos, rfl, rfl, rfl, rfl, cutoff_ok _ _⟩

theorem ex_convSize (m q : ℕ) {s : ℕ} (hs : 0 < s) : convSize (2 * m + 1 + s * q) 0 (2 * m + 1) s 1 = some (q + 1) := by
  unfold convSize
  rw [if_pos (by omega)]
  have : 2 * m + 1 + s * q + 2 * 0 - 1 * (2 * m + 1 - 1) - 1 = s * q := by omega
  rw [this, Nat.mul_div_cancel_left _ hs]

theorem ex_dvd (m q s : ℕ) : s ∣ 2 * m + 1 + s * q + 2 * 0 - 1 * (2 * m + 1 - 1) - 1 := by
  have : 2 * m + 1 + s * q + 2 * 0 - 1 * (2 * m + 1 - 1) - 1 = s * q := by omega
  rw [this]
  exact dvd_mul_right _ _

theorem ex_convTSize (m n s : ℕ) (hn : 0 < n) : ∃ k, convTSize n 0 0 (2 * m + 1) s 1 = some k ∧ 0 < k := by
  unfold convTSize
  rw [if_pos (by omega)]
  exact ⟨_, rfl, by omega⟩

/-- `R2Conv` for the rotations `C_N` (C75, `c75_conv`): it can be built for every odd kernel size and every stride. -/
theorem exConv_cyclic (N : ℕ) (hN : 0 < N) (m s : ℕ) :
    ∃ M : ConvModule ℤ ℕ, r2convInit (rot2dGen N) (stepArgs ℤ (2 * m + 1) s) (exCyc N) [0, 1] [1] = some M ∧ M.dim ≠ 0 :=
  c75_conv (.rot hN) (stepArgs ℤ (2 * m + 1) s) m (stepArgs_default m s) (exCyc N) [0, 1] [1] [0, 1] ex_convGroups (fun n _ => exCyc_plane N n)
    (fun n _ => exCyc_plane N n) ⟨0, by simp, 1, by simp, exCyc_share N⟩

/-- `c75_one_by_one` for the rotations `C_N`: there is a 1 × 1 convolution. -/
example (N : ℕ) (hN : 0 < N) :=
  (c75_one_by_one (.rot hN) (stepArgs ℤ 1 1) (stepArgs_default 0 1) (exCyc N) [0, 1] [1] [0, 1] ex_convGroups (fun n _ => exCyc_plane N n)
    fun n _ => exCyc_plane N n).2 ⟨0, by simp, 1, by simp, exCyc_share N⟩

/-- `R2ConvTransposed` for the rotations `C_N` (C85, `c85_same_module_partial`). -/
theorem exConvT_cyclic (N : ℕ) (hN : 0 < N) (m s : ℕ) :
    ∃ M : ConvModule ℤ ℕ, r2convTInit (rot2dGen N) (stepArgs ℤ (2 * m + 1) s) (exCyc N) [0, 1] [1] = some M ∧ M.dim ≠ 0 :=
  let ⟨M, h, hd⟩ := exConv_cyclic N hN m s
  ⟨M, c85_same_module_partial (rot2dGen N) (stepArgs ℤ (2 * m + 1) s) (exCyc N) [0, 1] [1] le_rfl (fun _ => rfl) M h, hd⟩

/-- `R2Conv` for all rotations (C75, `c75_conv`): it can be built for every odd kernel size and every stride. -/
theorem exConv_so2 (m s : ℕ) :
    ∃ M : ConvModule ℝ ℕ, r2convInit so2Gen (stepArgs ℝ (2 * m + 1) s) exSO [0, 1] [1] = some M ∧ M.dim ≠ 0 :=
  c75_conv .so2 (stepArgs ℝ (2 * m + 1) s) m (stepArgs_default m s) exSO [0, 1] [1] [0, 1] ex_convGroups (fun n _ => exSO_plane n)
    (fun n _ => exSO_plane n) ⟨0, by simp, 1, by simp, exSO_share⟩

/-- `c75_one_by_one` for all rotations: there is a 1 × 1 convolution. -/
example :=
  (c75_one_by_one .so2 (stepArgs ℝ 1 1) (stepArgs_default 0 1) exSO [0, 1] [1] [0, 1] ex_convGroups (fun n _ => exSO_plane n)
    fun n _ => exSO_plane n).2 ⟨0, by simp, 1, by simp, exSO_share⟩

/-- `R2ConvTransposed` for all rotations (C85, `c85_same_module_partial`). -/
theorem exConvT_so2 (m s : ℕ) :
    ∃ M : ConvModule ℝ ℕ, r2convTInit so2Gen (stepArgs ℝ (2 * m + 1) s) exSO [0, 1] [1] = some M ∧ M.dim ≠ 0 :=
  let ⟨M, h, hd⟩ := exConv_so2  m s
  ⟨M, c85_same_module_partial so2Gen (stepArgs ℝ (2 * m + 1) s) exSO [0, 1] [1] le_rfl (fun _ => rfl) M h, hd⟩

/-- `R2Conv` for the reflections at an axis (C75, `c75_conv`): it can be built for every odd kernel size and every stride. -/
theorem exConv_flip (axis : ℝ) (m s : ℕ) :
    ∃ M : ConvModule ℤ ℕ, r2convInit (flip2dGen axis) (stepArgs ℤ (2 * m + 1) s) (exCyc 2) [0, 1] [1] = some M ∧ M.dim ≠ 0 :=
  c75_conv (.flip axis) (stepArgs ℤ (2 * m + 1) s) m (stepArgs_default m s) (exCyc 2) [0, 1] [1] [0, 1] ex_convGroups (fun n _ => exCyc_plane 2 n)
    (fun n _ => exCyc_plane 2 n) ⟨0, by simp, 1, by simp, exCyc_share 2⟩

/-- `c75_one_by_one` for the reflections at an axis: there is a 1 × 1 convolution. -/
example (axis : ℝ) :=
  (c75_one_by_one (.flip axis) (stepArgs ℤ 1 1) (stepArgs_default 0 1) (exCyc 2) [0, 1] [1] [0, 1] ex_convGroups (fun n _ => exCyc_plane 2 n)
    fun n _ => exCyc_plane 2 n).2 ⟨0, by simp, 1, by simp, exCyc_share 2⟩

/-- `R2ConvTransposed` for the reflections at an axis (C85, `c85_same_module_partial`). -/
theorem exConvT_flip (axis : ℝ) (m s : ℕ) :
    ∃ M : ConvModule ℤ ℕ, r2convTInit (flip2dGen axis) (stepArgs ℤ (2 * m + 1) s) (exCyc 2) [0, 1] [1] = some M ∧ M.dim ≠ 0 :=
  let ⟨M, h, hd⟩ := exConv_flip axis m s
  ⟨M, c85_same_module_partial (flip2dGen axis) (stepArgs ℤ (2 * m + 1) s) (exCyc 2) [0, 1] [1] le_rfl (fun _ => rfl) M h, hd⟩

/-- `R2Conv` for the rotations and reflections `D_N` (C75, `c75_conv`): it can be built for every odd kernel size and every stride. -/
theorem exConv_dihedral (N : ℕ) (hN : 0 < N) (axis : ℝ) (m s : ℕ) :
    ∃ M : ConvModule (ℤ × ℤ) ℕ, r2convInit (flipRot2dGen N axis) (stepArgs (ℤ × ℤ) (2 * m + 1) s) (exDih N) [0, 1] [1] = some M ∧ M.dim ≠ 0 :=
  c75_conv (.flipRot hN axis) (stepArgs (ℤ × ℤ) (2 * m + 1) s) m (stepArgs_default m s) (exDih N) [0, 1] [1] [0, 1] ex_convGroups (fun n _ => exDih_plane N n)
    (fun n _ => exDih_plane N n) ⟨0, by simp, 1, by simp, exDih_share N⟩

/-- `c75_one_by_one` for the rotations and reflections `D_N`: there is a 1 × 1 convolution. -/
example (N : ℕ) (hN : 0 < N) (axis : ℝ) :=
  (c75_one_by_one (.flipRot hN axis) (stepArgs (ℤ × ℤ) 1 1) (stepArgs_default 0 1) (exDih N) [0, 1] [1] [0, 1] ex_convGroups (fun n _ => exDih_plane N n)
    fun n _ => exDih_plane N n).2 ⟨0, by simp, 1, by simp, exDih_share N⟩

/-- `R2ConvTransposed` for the rotations and reflections `D_N` (C85, `c85_same_module_partial`). -/
theorem exConvT_dihedral (N : ℕ) (hN : 0 < N) (axis : ℝ) (m s : ℕ) :
    ∃ M : ConvModule (ℤ × ℤ) ℕ, r2convTInit (flipRot2dGen N axis) (stepArgs (ℤ × ℤ) (2 * m + 1) s) (exDih N) [0, 1] [1] = some M ∧ M.dim ≠ 0 :=
  let ⟨M, h, hd⟩ := exConv_dihedral N hN axis m s
  ⟨M, c85_same_module_partial (flipRot2dGen N axis) (stepArgs (ℤ × ℤ) (2 * m + 1) s) (exDih N) [0, 1] [1] le_rfl (fun _ => rfl) M h, hd⟩

/-- `R2Conv` for all rotations and reflections (C75, `c75_conv`): it can be built for every odd kernel size and every stride. -/
theorem exConv_o2 (axis : ℝ) (m s : ℕ) :
    ∃ M : ConvModule (ℤ × ℝ) ℕ, r2convInit (o2Gen axis) (stepArgs (ℤ × ℝ) (2 * m + 1) s) exO2 [0, 1] [1] = some M ∧ M.dim ≠ 0 :=
  c75_conv (.o2 axis) (stepArgs (ℤ × ℝ) (2 * m + 1) s) m (stepArgs_default m s) exO2 [0, 1] [1] [0, 1] ex_convGroups (fun n _ => exO2_plane n)
    (fun n _ => exO2_plane n) ⟨0, by simp, 1, by simp, exO2_share⟩

/-- `c75_one_by_one` for all rotations and reflections: there is a 1 × 1 convolution. -/
example (axis : ℝ) :=
  (c75_one_by_one (.o2 axis) (stepArgs (ℤ × ℝ) 1 1) (stepArgs_default 0 1) exO2 [0, 1] [1] [0, 1] ex_convGroups (fun n _ => exO2_plane n)
    fun n _ => exO2_plane n).2 ⟨0, by simp, 1, by simp, exO2_share⟩

/-- `R2ConvTransposed` for all rotations and reflections (C85, `c85_same_module_partial`). -/
theorem exConvT_o2 (axis : ℝ) (m s : ℕ) :
    ∃ M : ConvModule (ℤ × ℝ) ℕ, r2convTInit (o2Gen axis) (stepArgs (ℤ × ℝ) (2 * m + 1) s) exO2 [0, 1] [1] = some M ∧ M.dim ≠ 0 :=
  let ⟨M, h, hd⟩ := exConv_o2 axis m s
  ⟨M, c85_same_module_partial (o2Gen axis) (stepArgs (ℤ × ℝ) (2 * m + 1) s) exO2 [0, 1] [1] le_rfl (fun _ => rfl) M h, hd⟩

/-- `R2Conv` for no symmetry (C75, `c75_conv`): it can be built for every odd kernel size and every stride. -/
theorem exConv_trivial (m s : ℕ) :
    ∃ M : ConvModule ℤ ℕ, r2convInit trivialGen (stepArgs ℤ (2 * m + 1) s) (exCyc 1) [0, 1] [1] = some M ∧ M.dim ≠ 0 :=
  c75_conv .trivial (stepArgs ℤ (2 * m + 1) s) m (stepArgs_default m s) (exCyc 1) [0, 1] [1] [0, 1] ex_convGroups (fun n _ => exCyc_plane 1 n)
    (fun n _ => exCyc_plane 1 n) ⟨0, by simp, 1, by simp, exCyc_share 1⟩

/-- `c75_one_by_one` for no symmetry: there is a 1 × 1 convolution. -/
example :=
  (c75_one_by_one .trivial (stepArgs ℤ 1 1) (stepArgs_default 0 1) (exCyc 1) [0, 1] [1] [0, 1] ex_convGroups (fun n _ => exCyc_plane 1 n)
    fun n _ => exCyc_plane 1 n).2 ⟨0, by simp, 1, by simp, exCyc_share 1⟩

/-- `R2ConvTransposed` for no symmetry (C85, `c85_same_module_partial`). -/
theorem exConvT_trivial (m s : ℕ) :
    ∃ M : ConvModule ℤ ℕ, r2convTInit trivialGen (stepArgs ℤ (2 * m + 1) s) (exCyc 1) [0, 1] [1] = some M ∧ M.dim ≠ 0 :=
  let ⟨M, h, hd⟩ := exConv_trivial  m s
  ⟨M, c85_same_module_partial trivialGen (stepArgs ℤ (2 * m + 1) s) (exCyc 1) [0, 1] [1] le_rfl (fun _ => rfl) M h, hd⟩

/-! ### C66 -/

/-- `c66_cyclic` for the layers of `exConv_cyclic` and images of `2 m + 1 + s q` pixels a side. -/
example (interp : ℝ → Img → Img) (N : ℕ) (hN : 0 < N) (m s q : ℕ) (hs : 0 < s) (M : ConvModule ℤ ℕ) (hM : r2convInit (rot2dGen N) (stepArgs ℤ (2 * m + 1) s) (exCyc N) [0, 1] [1] = some M)
    (w b : List ℝ) (hw : w.length = M.dim) :=
  c66_cyclic interp [0, 1] [1] (by simp) N hN (exCyc N) (fun n _ => exCyc_pos N n) (fun n _ => exCyc_ok N n) (stepArgs ℤ (2 * m + 1) s) M hM (by simp [stepArgs, plainArgs]) one_pos one_pos
    w b (2 * m + 1 + s * q) (q + 1) hw trivial (ex_convSize m q hs) (ex_dvd m q s)

/-- `c66_so2` for the layers of `exConv_so2` and images of `2 m + 1 + s q` pixels a side. -/
example (interp : ℝ → Img → Img) (m s q : ℕ) (hs : 0 < s) (M : ConvModule ℝ ℕ) (hM : r2convInit so2Gen (stepArgs ℝ (2 * m + 1) s) exSO [0, 1] [1] = some M)
    (w b : List ℝ) (hw : w.length = M.dim) :=
  c66_so2 interp [0, 1] [1] (by simp) exSO (fun n _ => exSO_pos n) (fun n _ => exSO_ok n) (stepArgs ℝ (2 * m + 1) s) M hM (by simp [stepArgs, plainArgs]) one_pos one_pos
    w b (2 * m + 1 + s * q) (q + 1) hw trivial (ex_convSize m q hs) (ex_dvd m q s)

/-- `c66_flip` for the layers of `exConv_flip` and images of `2 m + 1 + s q` pixels a side. -/
example (interp : ℝ → Img → Img) (axis : ℝ) (m s q : ℕ) (hs : 0 < s) (M : ConvModule ℤ ℕ) (hM : r2convInit (flip2dGen axis) (stepArgs ℤ (2 * m + 1) s) (exCyc 2) [0, 1] [1] = some M)
    (w b : List ℝ) (hw : w.length = M.dim) :=
  c66_flip interp [0, 1] [1] (by simp) axis (exCyc 2) (fun n _ => exCyc_pos 2 n) (fun n _ => exCyc_ok 2 n) (stepArgs ℤ (2 * m + 1) s) M hM (by simp [stepArgs, plainArgs]) one_pos one_pos
    w b (2 * m + 1 + s * q) (q + 1) hw trivial (ex_convSize m q hs) (ex_dvd m q s)

/-- `c66_dihedral` for the layers of `exConv_dihedral` and images of `2 m + 1 + s q` pixels a side. -/
example (interp : ℝ → Img → Img) (N : ℕ) (hN : 0 < N) (axis : ℝ) (m s q : ℕ) (hs : 0 < s) (M : ConvModule (ℤ × ℤ) ℕ) (hM : r2convInit (flipRot2dGen N axis) (stepArgs (ℤ × ℤ) (2 * m + 1) s) (exDih N) [0, 1] [1] = some M)
    (w b : List ℝ) (hw : w.length = M.dim) :=
  c66_dihedral interp [0, 1] [1] (by simp) N hN axis (exDih N) (fun n _ => exDih_pos N n) (fun n _ => exDih_ok N n) (stepArgs (ℤ × ℤ) (2 * m + 1) s) M hM (by simp [stepArgs, plainArgs]) one_pos one_pos
    w b (2 * m + 1 + s * q) (q + 1) hw trivial (ex_convSize m q hs) (ex_dvd m q s)

/-- `c66_o2` for the layers of `exConv_o2` and images of `2 m + 1 + s q` pixels a side. -/
example (interp : ℝ → Img → Img) (axis : ℝ) (m s q : ℕ) (hs : 0 < s) (M : ConvModule (ℤ × ℝ) ℕ) (hM : r2convInit (o2Gen axis) (stepArgs (ℤ × ℝ) (2 * m + 1) s) exO2 [0, 1] [1] = some M)
    (w b : List ℝ) (hw : w.length = M.dim) :=
  c66_o2 interp [0, 1] [1] (by simp) axis exO2 (fun n _ => exO2_pos n) (fun n _ => exO2_ok n) (stepArgs (ℤ × ℝ) (2 * m + 1) s) M hM (by simp [stepArgs, plainArgs]) one_pos one_pos
    w b (2 * m + 1 + s * q) (q + 1) hw trivial (ex_convSize m q hs) (ex_dvd m q s)

/-- `c66_trivial` for the layers of `exConv_trivial` and images of `2 m + 1 + s q` pixels a side. -/
example (m s q : ℕ) (hs : 0 < s) (M : ConvModule ℤ ℕ) (hM : r2convInit trivialGen (stepArgs ℤ (2 * m + 1) s) (exCyc 1) [0, 1] [1] = some M)
    (w b : List ℝ) (hw : w.length = M.dim) :=
  c66_trivial [0, 1] [1] (by simp) (exCyc 1) (fun n _ => exCyc_pos 1 n) (fun n _ => exCyc_ok 1 n) (stepArgs ℤ (2 * m + 1) s) M hM (by simp [stepArgs, plainArgs]) one_pos one_pos
    w b (2 * m + 1 + s * q) (q + 1) hw trivial (ex_convSize m q hs) (ex_dvd m q s)

/-! ### C85 -/

/-- `c85_cyclic_partial` for the layers of `exConvT_cyclic`. -/
example (interp : ℝ → Img → Img) (N : ℕ) (hN : 0 < N) (m s n k : ℕ) (M : ConvModule ℤ ℕ) (hM : r2convTInit (rot2dGen N) (stepArgs ℤ (2 * m + 1) s) (exCyc N) [0, 1] [1] = some M)
    (hd : M.dim ≠ 0) (w b : List ℝ) (hw : w.length = M.dim) (hk : convTSize n 0 0 (2 * m + 1) s 1 = some k ∧ 0 < k) :=
  c85_cyclic_partial interp [0, 1] [1] (by simp) N hN (exCyc N) (fun n _ => exCyc_pos N n) (fun n _ => exCyc_ok N n) (stepArgs ℤ (2 * m + 1) s) M hM (by simp [stepArgs, plainArgs]) one_pos hd
    w b n k hw hk.1 hk.2

/-- `c85_so2_partial` for the layers of `exConvT_so2`. -/
example (interp : ℝ → Img → Img) (m s n k : ℕ) (M : ConvModule ℝ ℕ) (hM : r2convTInit so2Gen (stepArgs ℝ (2 * m + 1) s) exSO [0, 1] [1] = some M)
    (hd : M.dim ≠ 0) (w b : List ℝ) (hw : w.length = M.dim) (hk : convTSize n 0 0 (2 * m + 1) s 1 = some k ∧ 0 < k) :=
  c85_so2_partial interp [0, 1] [1] (by simp) exSO (fun n _ => exSO_pos n) (fun n _ => exSO_ok n) (stepArgs ℝ (2 * m + 1) s) M hM (by simp [stepArgs, plainArgs]) one_pos hd
    w b n k hw hk.1 hk.2

/-- `c85_flip_partial` for the layers of `exConvT_flip`. -/
example (interp : ℝ → Img → Img) (axis : ℝ) (m s n k : ℕ) (M : ConvModule ℤ ℕ) (hM : r2convTInit (flip2dGen axis) (stepArgs ℤ (2 * m + 1) s) (exCyc 2) [0, 1] [1] = some M)
    (hd : M.dim ≠ 0) (w b : List ℝ) (hw : w.length = M.dim) (hk : convTSize n 0 0 (2 * m + 1) s 1 = some k ∧ 0 < k) :=
  c85_flip_partial interp [0, 1] [1] (by simp) axis (exCyc 2) (fun n _ => exCyc_pos 2 n) (fun n _ => exCyc_ok 2 n) (stepArgs ℤ (2 * m + 1) s) M hM (by simp [stepArgs, plainArgs]) one_pos hd
    w b n k hw hk.1 hk.2

/-- `c85_dihedral_partial` for the layers of `exConvT_dihedral`. -/
example (interp : ℝ → Img → Img) (N : ℕ) (hN : 0 < N) (axis : ℝ) (m s n k : ℕ) (M : ConvModule (ℤ × ℤ) ℕ) (hM : r2convTInit (flipRot2dGen N axis) (stepArgs (ℤ × ℤ) (2 * m + 1) s) (exDih N) [0, 1] [1] = some M)
    (hd : M.dim ≠ 0) (w b : List ℝ) (hw : w.length = M.dim) (hk : convTSize n 0 0 (2 * m + 1) s 1 = some k ∧ 0 < k) :=
  c85_dihedral_partial interp [0, 1] [1] (by simp) N hN axis (exDih N) (fun n _ => exDih_pos N n) (fun n _ => exDih_ok N n) (stepArgs (ℤ × ℤ) (2 * m + 1) s) M hM (by simp [stepArgs, plainArgs]) one_pos hd
    w b n k hw hk.1 hk.2

/-- `c85_o2_partial` for the layers of `exConvT_o2`. -/
example (interp : ℝ → Img → Img) (axis : ℝ) (m s n k : ℕ) (M : ConvModule (ℤ × ℝ) ℕ) (hM : r2convTInit (o2Gen axis) (stepArgs (ℤ × ℝ) (2 * m + 1) s) exO2 [0, 1] [1] = some M)
    (hd : M.dim ≠ 0) (w b : List ℝ) (hw : w.length = M.dim) (hk : convTSize n 0 0 (2 * m + 1) s 1 = some k ∧ 0 < k) :=
  c85_o2_partial interp [0, 1] [1] (by simp) axis exO2 (fun n _ => exO2_pos n) (fun n _ => exO2_ok n) (stepArgs (ℤ × ℝ) (2 * m + 1) s) M hM (by simp [stepArgs, plainArgs]) one_pos hd
    w b n k hw hk.1 hk.2

/-- `c85_trivial_partial` for the layers of `exConvT_trivial`. -/
example (m s n k : ℕ) (M : ConvModule ℤ ℕ) (hM : r2convTInit trivialGen (stepArgs ℤ (2 * m + 1) s) (exCyc 1) [0, 1] [1] = some M)
    (hd : M.dim ≠ 0) (w b : List ℝ) (hw : w.length = M.dim) (hk : convTSize n 0 0 (2 * m + 1) s 1 = some k ∧ 0 < k) :=
  c85_trivial_partial [0, 1] [1] (by simp) (exCyc 1) (fun n _ => exCyc_pos 1 n) (fun n _ => exCyc_ok 1 n) (stepArgs ℤ (2 * m + 1) s) M hM (by simp [stepArgs, plainArgs]) one_pos hd
    w b n k hw hk.1 hk.2

/-! ### C92 -/

/-- `c92_cyclic` for the layers of `exConv_cyclic`. -/
example (interp : ℝ → Img → Img) (N : ℕ) (hN : 0 < N) (m s : ℕ) (M : ConvModule ℤ ℕ) (hM : r2convInit (rot2dGen N) (stepArgs ℤ (2 * m + 1) s) (exCyc N) [0, 1] [1] = some M)
    (w : List ℝ) (hw : w.length = M.dim) :=
  c92_cyclic interp [0, 1] [1] (by simp) N hN (exCyc N) (fun n _ => exCyc_pos N n) (fun n _ => exCyc_ok N n) (stepArgs ℤ (2 * m + 1) s) M hM (by simp [stepArgs, plainArgs]) one_pos one_pos
    w hw _ _ rfl rfl

/-- `c92_so2` for the layers of `exConv_so2`. -/
example (interp : ℝ → Img → Img) (m s : ℕ) (M : ConvModule ℝ ℕ) (hM : r2convInit so2Gen (stepArgs ℝ (2 * m + 1) s) exSO [0, 1] [1] = some M)
    (w : List ℝ) (hw : w.length = M.dim) :=
  c92_so2 interp [0, 1] [1] (by simp) exSO (fun n _ => exSO_pos n) (fun n _ => exSO_ok n) (stepArgs ℝ (2 * m + 1) s) M hM (by simp [stepArgs, plainArgs]) one_pos one_pos
    w hw _ _ rfl rfl

/-- `c92_flip` for the layers of `exConv_flip`. -/
example (interp : ℝ → Img → Img) (axis : ℝ) (m s : ℕ) (M : ConvModule ℤ ℕ) (hM : r2convInit (flip2dGen axis) (stepArgs ℤ (2 * m + 1) s) (exCyc 2) [0, 1] [1] = some M)
    (w : List ℝ) (hw : w.length = M.dim) :=
  c92_flip interp [0, 1] [1] (by simp) axis (exCyc 2) (fun n _ => exCyc_pos 2 n) (fun n _ => exCyc_ok 2 n) (stepArgs ℤ (2 * m + 1) s) M hM (by simp [stepArgs, plainArgs]) one_pos one_pos
    w hw _ _ rfl rfl

/-- `c92_dihedral` for the layers of `exConv_dihedral`. -/
example (interp : ℝ → Img → Img) (N : ℕ) (hN : 0 < N) (axis : ℝ) (m s : ℕ) (M : ConvModule (ℤ × ℤ) ℕ) (hM : r2convInit (flipRot2dGen N axis) (stepArgs (ℤ × ℤ) (2 * m + 1) s) (exDih N) [0, 1] [1] = some M)
    (w : List ℝ) (hw : w.length = M.dim) :=
  c92_dihedral interp [0, 1] [1] (by simp) N hN axis (exDih N) (fun n _ => exDih_pos N n) (fun n _ => exDih_ok N n) (stepArgs (ℤ × ℤ) (2 * m + 1) s) M hM (by simp [stepArgs, plainArgs]) one_pos one_pos
    w hw _ _ rfl rfl

/-- `c92_o2` for the layers of `exConv_o2`. -/
example (interp : ℝ → Img → Img) (axis : ℝ) (m s : ℕ) (M : ConvModule (ℤ × ℝ) ℕ) (hM : r2convInit (o2Gen axis) (stepArgs (ℤ × ℝ) (2 * m + 1) s) exO2 [0, 1] [1] = some M)
    (w : List ℝ) (hw : w.length = M.dim) :=
  c92_o2 interp [0, 1] [1] (by simp) axis exO2 (fun n _ => exO2_pos n) (fun n _ => exO2_ok n) (stepArgs (ℤ × ℝ) (2 * m + 1) s) M hM (by simp [stepArgs, plainArgs]) one_pos one_pos
    w hw _ _ rfl rfl

/-- `c92_trivial` for the layers of `exConv_trivial`. -/
example (m s : ℕ) (M : ConvModule ℤ ℕ) (hM : r2convInit trivialGen (stepArgs ℤ (2 * m + 1) s) (exCyc 1) [0, 1] [1] = some M)
    (w : List ℝ) (hw : w.length = M.dim) :=
  c92_trivial [0, 1] [1] (by simp) (exCyc 1) (fun n _ => exCyc_pos 1 n) (fun n _ => exCyc_ok 1 n) (stepArgs ℤ (2 * m + 1) s) M hM (by simp [stepArgs, plainArgs]) one_pos one_pos
    w hw _ _ rfl rfl

/-! ### C93 -/

/-- `c93_cyclic` for the layers of `exConv_cyclic` and images of `2 m + 1 + s q` pixels a side. -/
example (interp : ℝ → Img → Img) (N : ℕ) (hN : 0 < N) (m s q : ℕ) (hs : 0 < s) (M : ConvModule ℤ ℕ) (hM : r2convInit (rot2dGen N) (stepArgs ℤ (2 * m + 1) s) (exCyc N) [0, 1] [1] = some M)
    (w b : List ℝ) (hw : w.length = M.dim) :=
  c93_cyclic interp [0, 1] [1] (by simp) N hN (exCyc N) (fun n _ => exCyc_pos N n) (fun n _ => exCyc_ok N n) (stepArgs ℤ (2 * m + 1) s) M hM (by simp [stepArgs, plainArgs]) one_pos one_pos hs rfl
    w b (2 * m + 1 + s * q) (q + 1) hw (ex_convSize m q hs) ⟨0, by omega, by simp [stepArgs, plainArgs], by simp [stepArgs, plainArgs]; omega⟩ _ _ rfl rfl

/-- `c93_so2` for the layers of `exConv_so2` and images of `2 m + 1 + s q` pixels a side. -/
example (interp : ℝ → Img → Img) (m s q : ℕ) (hs : 0 < s) (M : ConvModule ℝ ℕ) (hM : r2convInit so2Gen (stepArgs ℝ (2 * m + 1) s) exSO [0, 1] [1] = some M)
    (w b : List ℝ) (hw : w.length = M.dim) :=
  c93_so2 interp [0, 1] [1] (by simp) exSO (fun n _ => exSO_pos n) (fun n _ => exSO_ok n) (stepArgs ℝ (2 * m + 1) s) M hM (by simp [stepArgs, plainArgs]) one_pos one_pos hs rfl
    w b (2 * m + 1 + s * q) (q + 1) hw (ex_convSize m q hs) ⟨0, by omega, by simp [stepArgs, plainArgs], by simp [stepArgs, plainArgs]; omega⟩ _ _ rfl rfl

/-- `c93_flip` for the layers of `exConv_flip` and images of `2 m + 1 + s q` pixels a side. -/
example (interp : ℝ → Img → Img) (axis : ℝ) (m s q : ℕ) (hs : 0 < s) (M : ConvModule ℤ ℕ) (hM : r2convInit (flip2dGen axis) (stepArgs ℤ (2 * m + 1) s) (exCyc 2) [0, 1] [1] = some M)
    (w b : List ℝ) (hw : w.length = M.dim) :=
  c93_flip interp [0, 1] [1] (by simp) axis (exCyc 2) (fun n _ => exCyc_pos 2 n) (fun n _ => exCyc_ok 2 n) (stepArgs ℤ (2 * m + 1) s) M hM (by simp [stepArgs, plainArgs]) one_pos one_pos hs rfl
    w b (2 * m + 1 + s * q) (q + 1) hw (ex_convSize m q hs) ⟨0, by omega, by simp [stepArgs, plainArgs], by simp [stepArgs, plainArgs]; omega⟩ _ _ rfl rfl

/-- `c93_dihedral` for the layers of `exConv_dihedral` and images of `2 m + 1 + s q` pixels a side. -/
example (interp : ℝ → Img → Img) (N : ℕ) (hN : 0 < N) (axis : ℝ) (m s q : ℕ) (hs : 0 < s) (M : ConvModule (ℤ × ℤ) ℕ) (hM : r2convInit (flipRot2dGen N axis) (stepArgs (ℤ × ℤ) (2 * m + 1) s) (exDih N) [0, 1] [1] = some M)
    (w b : List ℝ) (hw : w.length = M.dim) :=
  c93_dihedral interp [0, 1] [1] (by simp) N hN axis (exDih N) (fun n _ => exDih_pos N n) (fun n _ => exDih_ok N n) (stepArgs (ℤ × ℤ) (2 * m + 1) s) M hM (by simp [stepArgs, plainArgs]) one_pos one_pos hs rfl
    w b (2 * m + 1 + s * q) (q + 1) hw (ex_convSize m q hs) ⟨0, by omega, by simp [stepArgs, plainArgs], by simp [stepArgs, plainArgs]; omega⟩ _ _ rfl rfl

/-- `c93_o2` for the layers of `exConv_o2` and images of `2 m + 1 + s q` pixels a side. -/
example (interp : ℝ → Img → Img) (axis : ℝ) (m s q : ℕ) (hs : 0 < s) (M : ConvModule (ℤ × ℝ) ℕ) (hM : r2convInit (o2Gen axis) (stepArgs (ℤ × ℝ) (2 * m + 1) s) exO2 [0, 1] [1] = some M)
    (w b : List ℝ) (hw : w.length = M.dim) :=
  c93_o2 interp [0, 1] [1] (by simp) axis exO2 (fun n _ => exO2_pos n) (fun n _ => exO2_ok n) (stepArgs (ℤ × ℝ) (2 * m + 1) s) M hM (by simp [stepArgs, plainArgs]) one_pos one_pos hs rfl
    w b (2 * m + 1 + s * q) (q + 1) hw (ex_convSize m q hs) ⟨0, by omega, by simp [stepArgs, plainArgs], by simp [stepArgs, plainArgs]; omega⟩ _ _ rfl rfl

/-! ### C94 -/

/-- `c94_cyclic` for the layers of `exConv_cyclic` and images of `2 m + 1 + s q` rows and `2 m + 1 + s q'` columns. -/
example (interp : ℝ → Img → Img) (N : ℕ) (hN : 0 < N) (m s q q' : ℕ) (hs : 0 < s) (M : ConvModule ℤ ℕ) (hM : r2convInit (rot2dGen N) (stepArgs ℤ (2 * m + 1) s) (exCyc N) [0, 1] [1] = some M)
    (w b : List ℝ) (hw : w.length = M.dim) :=
  c94_cyclic interp [0, 1] [1] (by simp) N hN (exCyc N) (fun n _ => exCyc_pos N n) (fun n _ => exCyc_ok N n) (stepArgs ℤ (2 * m + 1) s) M hM (by simp [stepArgs, plainArgs]) one_pos one_pos
    (.int 0) w b (2 * m + 1 + s * q) (2 * m + 1 + s * q') (q + 1) (q' + 1) hw trivial trivial (ex_convSize m q hs) (ex_convSize m q' hs) (ex_dvd m q s)
    (ex_dvd m q' s)

/-- `c94_so2` for the layers of `exConv_so2` and images of `2 m + 1 + s q` rows and `2 m + 1 + s q'` columns. -/
example (interp : ℝ → Img → Img) (m s q q' : ℕ) (hs : 0 < s) (M : ConvModule ℝ ℕ) (hM : r2convInit so2Gen (stepArgs ℝ (2 * m + 1) s) exSO [0, 1] [1] = some M)
    (w b : List ℝ) (hw : w.length = M.dim) :=
  c94_so2 interp [0, 1] [1] (by simp) exSO (fun n _ => exSO_pos n) (fun n _ => exSO_ok n) (stepArgs ℝ (2 * m + 1) s) M hM (by simp [stepArgs, plainArgs]) one_pos one_pos
    (.int 0) w b (2 * m + 1 + s * q) (2 * m + 1 + s * q') (q + 1) (q' + 1) hw trivial trivial (ex_convSize m q hs) (ex_convSize m q' hs) (ex_dvd m q s)
    (ex_dvd m q' s)

/-- `c94_flip` for the layers of `exConv_flip` and images of `2 m + 1 + s q` rows and `2 m + 1 + s q'` columns. -/
example (interp : ℝ → Img → Img) (axis : ℝ) (m s q q' : ℕ) (hs : 0 < s) (M : ConvModule ℤ ℕ) (hM : r2convInit (flip2dGen axis) (stepArgs ℤ (2 * m + 1) s) (exCyc 2) [0, 1] [1] = some M)
    (w b : List ℝ) (hw : w.length = M.dim) :=
  c94_flip interp [0, 1] [1] (by simp) axis (exCyc 2) (fun n _ => exCyc_pos 2 n) (fun n _ => exCyc_ok 2 n) (stepArgs ℤ (2 * m + 1) s) M hM (by simp [stepArgs, plainArgs]) one_pos one_pos
    (.int 0) w b (2 * m + 1 + s * q) (2 * m + 1 + s * q') (q + 1) (q' + 1) hw trivial trivial (ex_convSize m q hs) (ex_convSize m q' hs) (ex_dvd m q s)
    (ex_dvd m q' s)

/-- `c94_dihedral` for the layers of `exConv_dihedral` and images of `2 m + 1 + s q` rows and `2 m + 1 + s q'` columns. -/
example (interp : ℝ → Img → Img) (N : ℕ) (hN : 0 < N) (axis : ℝ) (m s q q' : ℕ) (hs : 0 < s) (M : ConvModule (ℤ × ℤ) ℕ) (hM : r2convInit (flipRot2dGen N axis) (stepArgs (ℤ × ℤ) (2 * m + 1) s) (exDih N) [0, 1] [1] = some M)
    (w b : List ℝ) (hw : w.length = M.dim) :=
  c94_dihedral interp [0, 1] [1] (by simp) N hN axis (exDih N) (fun n _ => exDih_pos N n) (fun n _ => exDih_ok N n) (stepArgs (ℤ × ℤ) (2 * m + 1) s) M hM (by simp [stepArgs, plainArgs]) one_pos one_pos
    (.int 0) w b (2 * m + 1 + s * q) (2 * m + 1 + s * q') (q + 1) (q' + 1) hw trivial trivial (ex_convSize m q hs) (ex_convSize m q' hs) (ex_dvd m q s)
    (ex_dvd m q' s)

/-- `c94_o2` for the layers of `exConv_o2` and images of `2 m + 1 + s q` rows and `2 m + 1 + s q'` columns. -/
example (interp : ℝ → Img → Img) (axis : ℝ) (m s q q' : ℕ) (hs : 0 < s) (M : ConvModule (ℤ × ℝ) ℕ) (hM : r2convInit (o2Gen axis) (stepArgs (ℤ × ℝ) (2 * m + 1) s) exO2 [0, 1] [1] = some M)
    (w b : List ℝ) (hw : w.length = M.dim) :=
  c94_o2 interp [0, 1] [1] (by simp) axis exO2 (fun n _ => exO2_pos n) (fun n _ => exO2_ok n) (stepArgs (ℤ × ℝ) (2 * m + 1) s) M hM (by simp [stepArgs, plainArgs]) one_pos one_pos
    (.int 0) w b (2 * m + 1 + s * q) (2 * m + 1 + s * q') (q + 1) (q' + 1) hw trivial trivial (ex_convSize m q hs) (ex_convSize m q' hs) (ex_dvd m q s)
    (ex_dvd m q' s)

/-- `c94_trivial` for the layers of `exConv_trivial` and images of `2 m + 1 + s q` rows and `2 m + 1 + s q'` columns. -/
example (m s q q' : ℕ) (hs : 0 < s) (M : ConvModule ℤ ℕ) (hM : r2convInit trivialGen (stepArgs ℤ (2 * m + 1) s) (exCyc 1) [0, 1] [1] = some M)
    (w b : List ℝ) (hw : w.length = M.dim) :=
  c94_trivial [0, 1] [1] (by simp) (exCyc 1) (fun n _ => exCyc_pos 1 n) (fun n _ => exCyc_ok 1 n) (stepArgs ℤ (2 * m + 1) s) M hM (by simp [stepArgs, plainArgs]) one_pos one_pos
    (.int 0) w b (2 * m + 1 + s * q) (2 * m + 1 + s * q') (q + 1) (q' + 1) hw trivial trivial (ex_convSize m q hs) (ex_convSize m q' hs) (ex_dvd m q s)
    (ex_dvd m q' s)

end E2
