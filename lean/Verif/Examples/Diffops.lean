import Verif.Examples.Common
import Verif.Props.R2DiffopComplete
import Verif.Props.GaussLayers

/-!
# Differential operators which meet the hypotheses of the theorems about them

The types have a trivial field and a field of two irreps in an exchanged basis.  The weights of finite differences, of the derivatives of Gaussians and of RBF-FD
which the theorems ask for exist.
-/

namespace E2

open Mat

/-- `FDSpec` can be met. -/
example : ∃ fd, FDSpec fd := FDSpec.exists

/-- `GaussSpec` can be met. -/
example : ∃ ga, GaussSpec ga := ⟨_, fun _ _ _ _ => rfl⟩

/-! ### the rotations `C_N` -/

/-- `c68_cyclic`. -/
example (interp : ℝ → Img → Img) {fd : ℕ → List ℝ → ℕ → ℝ} (hfd : FDSpec fd) (N : ℕ) (hN : 0 < N) :=
  c68_cyclic interp [0, 1] [1] (by simp) hfd N hN (exCyc N) (fun n _ => exCyc_pos N n) fun n _ => exCyc_ok N n

/-- `c82_cyclic`. -/
example (interp : ℝ → Img → Img) {ga : ℝ → ℕ → ℕ → ℝ × ℝ → ℝ} (hga : GaussSpec ga) (std : ℝ) (N : ℕ) (hN : 0 < N) :=
  c82_cyclic interp [0, 1] [1] (by simp) hga std N hN (exCyc N) (fun n _ => exCyc_pos N n) fun n _ => exCyc_ok N n

/-- `c83_cyclic`. -/
example (interp : ℝ → Img → Img) (wm : List (ℝ × ℝ) → List (ℕ × ℕ) → List ℝ → String → ℕ → ℝ) (N : ℕ) (hN : 0 < N) :=
  c83_cyclic interp [0, 1] [1] (by simp) (wm := wm) (phi := "ga") N hN (exCyc N) (fun n _ => exCyc_pos N n) fun n _ => exCyc_ok N n

/-- `c72_layer_cyclic`. -/
example (interp : ℝ → Img → Img) (smp : Sampler) (N : ℕ) (hN : 0 < N) :=
  c72_layer_cyclic interp [0, 1] [1] (by simp) smp N hN (exCyc N) fun n _ => exCyc_ok N n

/-- `c65_cyclic`. -/
example (interp : ℝ → Img → Img) {fd : ℕ → List ℝ → ℕ → ℝ} (hfd : FDSpec fd) (c : DiffopCfg ℕ ℕ) (N : ℕ) (hN : 0 < N) :=
  c65_cyclic (fun _ _ k => k) c [0, 1] [1] interp hfd N hN (exCyc N) (fun n _ => exCyc_ok N n) none

/-! ### all rotations -/

/-- `c68_so2`. -/
example (interp : ℝ → Img → Img) {fd : ℕ → List ℝ → ℕ → ℝ} (hfd : FDSpec fd) :=
  c68_so2 interp [0, 1] [1] (by simp) hfd exSO (fun n _ => exSO_pos n) fun n _ => exSO_ok n

/-- `c82_so2`. -/
example (interp : ℝ → Img → Img) {ga : ℝ → ℕ → ℕ → ℝ × ℝ → ℝ} (hga : GaussSpec ga) (std : ℝ) :=
  c82_so2 interp [0, 1] [1] (by simp) hga std exSO (fun n _ => exSO_pos n) fun n _ => exSO_ok n

/-- `c83_so2`. -/
example (interp : ℝ → Img → Img) (wm : List (ℝ × ℝ) → List (ℕ × ℕ) → List ℝ → String → ℕ → ℝ) :=
  c83_so2 interp [0, 1] [1] (by simp) (wm := wm) (phi := "ga") exSO (fun n _ => exSO_pos n) fun n _ => exSO_ok n

/-- `c72_layer_so2`. -/
example (interp : ℝ → Img → Img) (smp : Sampler) :=
  c72_layer_so2 interp [0, 1] [1] (by simp) smp exSO fun n _ => exSO_ok n

/-- `c65_so2`. -/
example (interp : ℝ → Img → Img) {fd : ℕ → List ℝ → ℕ → ℝ} (hfd : FDSpec fd) (c : DiffopCfg ℕ ℕ) :=
  c65_so2 (fun _ _ k => k) c [0, 1] [1] interp hfd exSO (fun n _ => exSO_ok n)

/-! ### the reflections at an axis -/

/-- `c68_flip_even`. -/
example (interp : ℝ → Img → Img) {fd : ℕ → List ℝ → ℕ → ℝ} (hfd : FDSpec fd) (axis : ℝ) :=
  c68_flip_even interp [0, 1] [1] (by simp) hfd axis (exCyc 2) (fun n _ => exCyc_pos 2 n) fun n _ => exCyc_ok 2 n

/-- `c82_flip`. -/
example (interp : ℝ → Img → Img) {ga : ℝ → ℕ → ℕ → ℝ × ℝ → ℝ} (hga : GaussSpec ga) (std : ℝ) (axis : ℝ) :=
  c82_flip interp [0, 1] [1] (by simp) hga std axis (exCyc 2) (fun n _ => exCyc_pos 2 n) fun n _ => exCyc_ok 2 n

/-- `c83_flip`. -/
example (interp : ℝ → Img → Img) (wm : List (ℝ × ℝ) → List (ℕ × ℕ) → List ℝ → String → ℕ → ℝ) (axis : ℝ) :=
  c83_flip interp [0, 1] [1] (by simp) (wm := wm) (phi := "ga") axis (exCyc 2) (fun n _ => exCyc_pos 2 n) fun n _ => exCyc_ok 2 n

/-- `c72_layer_flip`. -/
example (interp : ℝ → Img → Img) (smp : Sampler) (axis : ℝ) :=
  c72_layer_flip interp [0, 1] [1] (by simp) smp axis (exCyc 2) fun n _ => exCyc_ok 2 n

/-- `c65_flip_even`, for the operators of order 2. -/
example (interp : ℝ → Img → Img) {fd : ℕ → List ℝ → ℕ → ℝ} (hfd : FDSpec fd) (c : DiffopCfg ℕ ℕ) (hc : c.angle = none) (hk : ∀ a, c.keep a = true → a.1 = 2) (axis : ℝ) :=
  c65_flip_even (fun _ _ k => k) c [0, 1] [1] interp hfd axis (exCyc 2) (fun n _ => exCyc_ok 2 n) none hc fun a ha => by rw [hk a ha]; decide

/-! ### the rotations and reflections `D_N` -/

/-- `c68_dihedral_partial`. -/
example (interp : ℝ → Img → Img) {fd : ℕ → List ℝ → ℕ → ℝ} (hfd : FDSpec fd) (N : ℕ) (hN : 0 < N) (axis : ℝ) :=
  c68_dihedral_partial interp [0, 1] [1] (by simp) hfd N hN axis (exDih N) (fun n _ => exDih_pos N n) fun n _ => exDih_ok N n

/-- `c68_dihedral_even`. -/
example (interp : ℝ → Img → Img) {fd : ℕ → List ℝ → ℕ → ℝ} (hfd : FDSpec fd) (N : ℕ) (hN : 0 < N) (axis : ℝ) :=
  c68_dihedral_even interp [0, 1] [1] (by simp) hfd N hN axis (exDih N) (fun n _ => exDih_pos N n) fun n _ => exDih_ok N n

/-- `c82_dihedral`. -/
example (interp : ℝ → Img → Img) {ga : ℝ → ℕ → ℕ → ℝ × ℝ → ℝ} (hga : GaussSpec ga) (std : ℝ) (N : ℕ) (hN : 0 < N) (axis : ℝ) :=
  c82_dihedral interp [0, 1] [1] (by simp) hga std N hN axis (exDih N) (fun n _ => exDih_pos N n) fun n _ => exDih_ok N n

/-- `c82_dihedral_offset`. -/
example (interp : ℝ → Img → Img) {ga : ℝ → ℕ → ℕ → ℝ × ℝ → ℝ} (hga : GaussSpec ga) (std : ℝ) (N : ℕ) (hN : 0 < N) (axis : ℝ) :=
  c82_dihedral_offset interp [0, 1] [1] (by simp) hga std N hN axis (exDih N) (fun n _ => exDih_pos N n) fun n _ => exDih_ok N n

/-- `c83_dihedral`. -/
example (interp : ℝ → Img → Img) (wm : List (ℝ × ℝ) → List (ℕ × ℕ) → List ℝ → String → ℕ → ℝ) (N : ℕ) (hN : 0 < N) (axis : ℝ) :=
  c83_dihedral interp [0, 1] [1] (by simp) (wm := wm) (phi := "ga") N hN axis (exDih N) (fun n _ => exDih_pos N n) fun n _ => exDih_ok N n

/-- `c83_dihedral_offset`. -/
example (interp : ℝ → Img → Img) (wm : List (ℝ × ℝ) → List (ℕ × ℕ) → List ℝ → String → ℕ → ℝ) (N : ℕ) (hN : 0 < N) (axis : ℝ) :=
  c83_dihedral_offset interp [0, 1] [1] (by simp) (wm := wm) (phi := "ga") N hN axis (exDih N) (fun n _ => exDih_pos N n) fun n _ => exDih_ok N n

/-- `c72_layer_dihedral`. -/
example (interp : ℝ → Img → Img) (smp : Sampler) (N : ℕ) (hN : 0 < N) (axis : ℝ) :=
  c72_layer_dihedral interp [0, 1] [1] (by simp) smp N hN axis (exDih N) fun n _ => exDih_ok N n

/-- `c65_dihedral_partial`. -/
example (interp : ℝ → Img → Img) {fd : ℕ → List ℝ → ℕ → ℝ} (hfd : FDSpec fd) (c : DiffopCfg ℕ ℕ) (N : ℕ) (hN : 0 < N) (axis : ℝ) :=
  c65_dihedral_partial (fun _ _ k => k) c [0, 1] [1] interp hfd N hN axis (exDih N) (fun n _ => exDih_ok N n) none

/-- `c65_dihedral_even`, for the operators of order 2. -/
example (interp : ℝ → Img → Img) {fd : ℕ → List ℝ → ℕ → ℝ} (hfd : FDSpec fd) (c : DiffopCfg ℕ ℕ) (hc : c.angle = none) (hk : ∀ a, c.keep a = true → a.1 = 2) (N : ℕ) (hN : 0 < N) (axis : ℝ) :=
  c65_dihedral_even (fun _ _ k => k) c [0, 1] [1] interp hfd N hN axis (exDih N) (fun n _ => exDih_ok N n) none hc fun a ha => by rw [hk a ha]; decide

/-! ### all rotations and reflections -/

/-- `c68_o2_partial`. -/
example (interp : ℝ → Img → Img) {fd : ℕ → List ℝ → ℕ → ℝ} (hfd : FDSpec fd) (axis : ℝ) :=
  c68_o2_partial interp [0, 1] [1] (by simp) hfd axis exO2 (fun n _ => exO2_pos n) fun n _ => exO2_ok n

/-- `c68_o2_even`. -/
example (interp : ℝ → Img → Img) {fd : ℕ → List ℝ → ℕ → ℝ} (hfd : FDSpec fd) (axis : ℝ) :=
  c68_o2_even interp [0, 1] [1] (by simp) hfd axis exO2 (fun n _ => exO2_pos n) fun n _ => exO2_ok n

/-- `c82_o2`. -/
example (interp : ℝ → Img → Img) {ga : ℝ → ℕ → ℕ → ℝ × ℝ → ℝ} (hga : GaussSpec ga) (std : ℝ) (axis : ℝ) :=
  c82_o2 interp [0, 1] [1] (by simp) hga std axis exO2 (fun n _ => exO2_pos n) fun n _ => exO2_ok n

/-- `c82_o2_offset`. -/
example (interp : ℝ → Img → Img) {ga : ℝ → ℕ → ℕ → ℝ × ℝ → ℝ} (hga : GaussSpec ga) (std : ℝ) (axis : ℝ) :=
  c82_o2_offset interp [0, 1] [1] (by simp) hga std axis exO2 (fun n _ => exO2_pos n) fun n _ => exO2_ok n

/-- `c83_o2`. -/
example (interp : ℝ → Img → Img) (wm : List (ℝ × ℝ) → List (ℕ × ℕ) → List ℝ → String → ℕ → ℝ) (axis : ℝ) :=
  c83_o2 interp [0, 1] [1] (by simp) (wm := wm) (phi := "ga") axis exO2 (fun n _ => exO2_pos n) fun n _ => exO2_ok n

/-- `c83_o2_offset`. -/
example (interp : ℝ → Img → Img) (wm : List (ℝ × ℝ) → List (ℕ × ℕ) → List ℝ → String → ℕ → ℝ) (axis : ℝ) :=
  c83_o2_offset interp [0, 1] [1] (by simp) (wm := wm) (phi := "ga") axis exO2 (fun n _ => exO2_pos n) fun n _ => exO2_ok n

/-- `c72_layer_o2`. -/
example (interp : ℝ → Img → Img) (smp : Sampler) (axis : ℝ) :=
  c72_layer_o2 interp [0, 1] [1] (by simp) smp axis exO2 fun n _ => exO2_ok n

/-- `c65_o2_partial`. -/
example (interp : ℝ → Img → Img) {fd : ℕ → List ℝ → ℕ → ℝ} (hfd : FDSpec fd) (c : DiffopCfg ℕ ℕ) (axis : ℝ) :=
  c65_o2_partial (fun _ _ k => k) c [0, 1] [1] interp hfd axis exO2 (fun n _ => exO2_ok n)

/-- `c65_o2_even`, for the operators of order 2. -/
example (interp : ℝ → Img → Img) {fd : ℕ → List ℝ → ℕ → ℝ} (hfd : FDSpec fd) (c : DiffopCfg ℕ ℕ) (hc : c.angle = none) (hk : ∀ a, c.keep a = true → a.1 = 2) (axis : ℝ) :=
  c65_o2_even (fun _ _ k => k) c [0, 1] [1] interp hfd axis exO2 (fun n _ => exO2_ok n) hc fun a ha => by rw [hk a ha]; decide

/-! ### no symmetry -/

/-- `c68_trivial`. -/
example {fd : ℕ → List ℝ → ℕ → ℝ} (hfd : FDSpec fd) :=
  c68_trivial [0, 1] [1] (by simp) hfd (exCyc 1) (fun n _ => exCyc_pos 1 n) fun n _ => exCyc_ok 1 n

/-- `c82_trivial`. -/
example {ga : ℝ → ℕ → ℕ → ℝ × ℝ → ℝ} (hga : GaussSpec ga) (std : ℝ) :=
  c82_trivial [0, 1] [1] (by simp) hga std (exCyc 1) (fun n _ => exCyc_pos 1 n) fun n _ => exCyc_ok 1 n

/-- `c83_trivial`. -/
example (wm : List (ℝ × ℝ) → List (ℕ × ℕ) → List ℝ → String → ℕ → ℝ) :=
  c83_trivial [0, 1] [1] (by simp) (wm := wm) (phi := "ga") (exCyc 1) (fun n _ => exCyc_pos 1 n) fun n _ => exCyc_ok 1 n

/-- `c72_layer_trivial`. -/
example (smp : Sampler) :=
  c72_layer_trivial [0, 1] [1] (by simp) smp (exCyc 1) fun n _ => exCyc_ok 1 n

end E2
