import Verif.Examples.Common
import Verif.Props.Decompose
import Verif.Props.Flags
import Verif.Props.Complete
import Verif.Props.BandLimit
import Verif.Props.Diffops
import Verif.Props.DirectSum
import Verif.Props.Restriction
import Verif.Props.RestrictionCont
import Verif.Props.InducedO2
import Verif.Props.OrthLib
import Verif.Props.Offsets
import Verif.Props.KernelBasis
import Verif.Props.KernelConstraint
import Verif.Props.QuotientDihedral
import Verif.Props.TypeRep
import Verif.Props.StoredFilters
import Verif.Props.GaussLayers
import Verif.Props.Cutoff

/-!
# Representations and bases which meet the hypotheses of the theorems about them

Irreps of `D_6` and `C_6` of frequencies 1 and 2 (they exist, see the first examples), and the direct sums of `Verif/Examples/Common.lean`.
-/

namespace E2

open Mat Real

/-! ### The irreps in use exist -/

example : ∃ r, Cyclic.irrep 6 2 = some r := Cyclic.irrep_some (by norm_num)
example : ∃ r, Cyclic.irrep 6 1 = some r := Cyclic.irrep_some (by norm_num)
example : ∃ r, Cyclic.irrep 2 1 = some r := Cyclic.irrep_some (by norm_num)
example : ∃ r, Dihedral.irrep 6 1 2 = some r := Dihedral.irrep_some (by norm_num)
example : ∃ r, Dihedral.irrep 6 1 1 = some r := Dihedral.irrep_some (by norm_num)
example : ∃ r, Dihedral.irrep 6 0 3 = some r := Dihedral.irrep_some0 (by norm_num)
example : ∃ r, O2.irrep 1 1 = some r := o21.imp fun _ h => h.1
example : ∃ r, O2.irrep 0 0 = some r := o20.imp fun _ h => h.1

/-! ### Kernels between irreps -/

/-- `c18_dihedral_kernel_constraint`. -/
example (axis : ℝ) (ri ro) (hi : Dihedral.irrep 6 1 1 = some ri) (ho : Dihedral.irrep 6 1 2 = some ro) :=
  c18_dihedral_kernel_constraint 6 (by norm_num) axis 1 1 1 2 ri ro hi ho (some 4) none (by simp)

/-- `c69_cyclic_complete`. -/
example (ri ro) (hi : Cyclic.irrep 6 1 = some ri) (ho : Cyclic.irrep 6 2 = some ro) := c69_cyclic_complete 6 (by norm_num) 1 2 ri ro hi ho 4

/-- `c69_flip_complete`. -/
example (axis : ℝ) (ri ro) (hi : Cyclic.irrep 2 0 = some ri) (ho : Cyclic.irrep 2 1 = some ro) := c69_flip_complete axis 0 1 ri ro hi ho 4

/-- `c69_dihedral_complete`. -/
example (axis : ℝ) (ri ro) (hi : Dihedral.irrep 6 1 1 = some ri) (ho : Dihedral.irrep 6 1 2 = some ro) :=
  c69_dihedral_complete 6 (by norm_num) axis 1 1 1 2 ri ro hi ho 4

/-- `flipRotBasis_freq`, `c19_dihedral_independent_partial`: the basis exists and has these properties. -/
example (axis : ℝ) (ri ro) (hi : Dihedral.irrep 6 1 1 = some ri) (ho : Dihedral.irrep 6 1 2 = some ro) :
    ∃ l, flipRotBasis 6 ri ro (some 4) none = some l ∧ Independent axis ro.size ri.size l ∧ ∀ e ∈ l, |e.mu| ≤ ((4 : ℕ) : ℤ) :=
  let ⟨l, hl, _⟩ := c69_dihedral_complete 6 (by norm_num) axis 1 1 1 2 ri ro hi ho 4
  ⟨l, hl, c19_dihedral_independent_partial 6 (by norm_num) axis 1 1 1 2 ri ro hi ho (some 4) none (Or.inl (by simp)) l hl, flipRotBasis_freq hl⟩

/-- `flipsBasis_freq`, `c19_flip_independent_partial`. -/
example (axis : ℝ) (ri ro) (hi : Cyclic.irrep 2 0 = some ri) (ho : Cyclic.irrep 2 1 = some ro) :
    ∃ l, flipsBasis ri ro (some 4) none = some l ∧ Independent axis ro.size ri.size l ∧ ∀ e ∈ l, |e.mu| ≤ ((4 : ℕ) : ℤ) :=
  let ⟨l, hl, _⟩ := c69_flip_complete axis 0 1 ri ro hi ho 4
  ⟨l, hl, c19_flip_independent_partial axis 0 1 ri ro hi ho 4 none l hl, flipsBasis_freq hl⟩

/-- `c19_so2_independent`. -/
example : ∃ l, contBasis (SO2.irrep 1) (SO2.irrep 3) = some l ∧ Independent 0 (SO2.irrep 3).size (SO2.irrep 1).size l :=
  ⟨_, rfl, c19_so2_independent 1 3 _ rfl⟩

/-- `c52_dihedral`. -/
example (ri ro : Irrep (ℤ × ℤ)) := c52_dihedral 6 (by norm_num) ri ro (some 2)

/-- `c14_offsets_without_frequency`. -/
example := c14_offsets_without_frequency 3 6 (by norm_num) 2 true

/-- `c63_range`. -/
example (p : Policy) := c63_range p 5 2 (by norm_num)

/-- `c47_cyclic_irreps`. -/
example (ri ro) (hi : Cyclic.irrep 6 1 = some ri) (ho : Cyclic.irrep 6 2 = some ro) := c47_cyclic_irreps 6 (by norm_num) 1 2 ri ro hi ho (some 4) none (by simp)

/-- `c47_flip_irreps`. -/
example (axis : ℝ) (ri ro) (hi : Cyclic.irrep 2 0 = some ri) (ho : Cyclic.irrep 2 1 = some ro) := c47_flip_irreps axis 0 1 ri ro hi ho (some 4) none (by simp)

/-- `c47_dihedral_irreps`. -/
example (axis : ℝ) (ri ro) (hi : Dihedral.irrep 6 1 1 = some ri) (ho : Dihedral.irrep 6 1 2 = some ro) :=
  c47_dihedral_irreps 6 (by norm_num) axis 1 1 1 2 ri ro hi ho (some 4) none (by simp)

/-- `c47_o2_irreps`. -/
example (axis : ℝ) (ri ro) (hi : O2.irrep 0 0 = some ri) (ho : O2.irrep 1 1 = some ro) := c47_o2_irreps axis 0 0 1 1 ri ro hi ho

/-- `c19_o2_independent`. -/
example (axis : ℝ) (ri ro) (hi : O2.irrep 0 0 = some ri) (ho : O2.irrep 1 1 = some ro) (l) (hl : flipContBasis ri ro = some l) :=
  c19_o2_independent axis 0 0 1 1 ri ro hi ho l hl

/-- `c47_so2_diffops`. -/
example := c47_so2_diffops (exSO 0) (exSO 1) (exSO_ok 0).1 (exSO_ok 1).1 (exSO_ok 0).2 (exSO_ok 1).2 2

/-- `c47_cyclic_diffops`. -/
example := c47_cyclic_diffops 6 (by norm_num) (exCyc 6 0) (exCyc 6 1) (exCyc_ok 6 0).1 (exCyc_ok 6 1).1 (exCyc_ok 6 0).2 (exCyc_ok 6 1).2 (some 4) none (by simp) 2

/-- `c47_flip_diffops`. -/
example (axis : ℝ) :=
  c47_flip_diffops axis (exCyc 2 0) (exCyc 2 1) (exCyc_ok 2 0).1 (exCyc_ok 2 1).1 (exCyc_ok 2 0).2 (exCyc_ok 2 1).2 (some 4) none (by simp) 2

/-- `c47_dihedral_diffops`. -/
example (axis : ℝ) :=
  c47_dihedral_diffops 6 (by norm_num) axis (exDih 6 0) (exDih 6 1) (exDih_ok 6 0).1 (exDih_ok 6 1).1 (exDih_ok 6 0).2 (exDih_ok 6 1).2 (some 4) none (by simp) 2

/-! ### Representations -/

/-- `c57_cyclic`. -/
example (r) (h : Cyclic.irrep 6 2 = some r) := c57_cyclic 6 (by norm_num) 2 r h

/-- `c57_dihedral`. -/
example (r) (h : Dihedral.irrep 6 1 2 = some r) := c57_dihedral 6 (by norm_num) 1 2 r h

/-- `c95_dihedral`. -/
example (r) (h : Dihedral.irrep 6 1 2 = some r) := c95_dihedral 6 (by norm_num) r ⟨1, 2, h⟩

/-- `c95_so2`. -/
example := c95_so2 (SO2.irrep 2) ⟨2, rfl⟩

/-- `c95_o2`. -/
example (r) (h : O2.irrep 1 1 = some r) := c95_o2 r ⟨1, 1, h⟩

/-- `c95_contains_trivial`, `c95_trivial_iff`, `c95_flags_partial` for the sum of a trivial representation and a frequency of `SO(2)`. -/
example := c95_contains_trivial SO2.grp (exSO 1) (exSO_ok 1).1 fun i hi => (c95_so2 i ((exSO_ok 1).2 i hi)).2
example := c95_trivial_iff SO2.grp (exSO 1) (exSO_ok 1).1 fun i hi => c95_so2 i ((exSO_ok 1).2 i hi)
example := c95_flags_partial SO2.grp (exSO 1) (exSO_ok 1).1 fun i hi => c95_so2 i ((exSO_ok 1).2 i hi)

/-- `c26_bias`, `c26_cyclic`, `c26_dihedral`. -/
example := c26_bias SO2.grp exSO [0, 1, 0] fun n _ => ⟨(exSO_ok n).1, fun i hi => (c95_so2 i ((exSO_ok n).2 i hi)).2⟩
example := c26_cyclic 6 (by norm_num) (exCyc 6) [0, 1, 0] fun n _ => exCyc_ok 6 n
example := c26_dihedral 6 (by norm_num) (exDih 6) [0, 1, 0] fun n _ => exDih_ok 6 n

theorem exCyc_isRep (N : ℕ) (hN : 0 < N) (n : ℕ) : IsRep (Cyclic.grp N) (exCyc N n).size (exCyc N n).mat :=
  Repr.mat_isRep _ _ (exCyc_ok N n).1 fun i hi => by
    obtain ⟨k, hk⟩ := (exCyc_ok N n).2 i hi
    exact (Cyclic.irrep_isOrthRep hN hk).toIsRep

theorem exDih_isRep (N : ℕ) (hN : 0 < N) (n : ℕ) : IsRep (Dihedral.grp N) (exDih N n).size (exDih N n).mat :=
  Repr.mat_isRep _ _ (exDih_ok N n).1 fun i hi => by
    obtain ⟨j, k, hk⟩ := (exDih_ok N n).2 i hi
    exact ((c05_dihedral_irreps N hN j k).2 i hk).1.toIsRep

/-- `c58_cyclic_decompose`. -/
example := c58_cyclic_decompose 6 (by norm_num) _ (exCyc 6 1).mat (exCyc_isRep 6 (by norm_num) 1)

/-- `c58_dihedral_decompose`. -/
example := c58_dihedral_decompose 6 (by norm_num) _ (exDih 6 1).mat (exDih_isRep 6 (by norm_num) 1)

/-- `c10_directsum`. -/
example (d : Repr ℤ) := c10_directsum [exCyc 6 0, exCyc 6 1] d (by simp [(exCyc_ok 6 0).1, (exCyc_ok 6 1).1])

/-- `c10_directsum_change_of_basis`. -/
example := c10_directsum_change_of_basis [exSO 0, exSO 1] (by simp [(exSO_ok 0).1, (exSO_ok 1).1]) swapMat swapMat
  (swapMat_isInv (by simp [exSO, Repr.size, SO2.irrep]))

/-- `c96_representation`. -/
example (d : NRep ℝ String) := c96_representation [⟨"trivial", exSO 0⟩, ⟨"sum", exSO 1⟩] d (by simp [(exSO_ok 0).1, (exSO_ok 1).1])

/-- `c09_so2_to_cyclic`. -/
example := c09_so2_to_cyclic 6 _ rfl (exSO 1) (exSO_ok 1).1 fun i hi => ((exSO_ok 1).2 i hi).imp fun _ h => h.symm

/-- `c09_o2_to_o2`. -/
example := c09_o2_to_o2 (1 / 2) _ _ (by unfold O2.subgroup; norm_num; exact ⟨rfl, rfl⟩) (exO2 1) (exO2_ok 1).1 (exO2_ok 1).2

/-- `c09_o2_to_so2`. -/
example := c09_o2_to_so2 _ _ (by unfold O2.subgroup; norm_num; exact ⟨rfl, rfl⟩) (exO2 1) (exO2_ok 1).1 (exO2_ok 1).2

/-- `c09_o2_to_flip`. -/
example (m p c) (hS : O2.subgroup (some (1 / 2)) 1 = some (.cyc m p c)) := c09_o2_to_flip (1 / 2) m p c hS (exO2 1) (exO2_ok 1).1 (exO2_ok 1).2

/-- `c09_o2_to_cyclic`. -/
example := c09_o2_to_cyclic 6 _ _ _ (by unfold O2.subgroup; norm_num; exact ⟨rfl, rfl, rfl⟩) (exO2 1) (exO2_ok 1).1 (exO2_ok 1).2

/-- `c09_dihedral_to_cyclic`. -/
example :=
  c09_dihedral_to_cyclic 6 (by norm_num) 3 _ _ _ rfl (exDih 6 1) (exDih_ok 6 1).1 (exDih_ok 6 1).2

/-- `c09_dihedral_to_flip`. -/
example :=
  c09_dihedral_to_flip 6 (by norm_num) 2 _ _ _ rfl (exDih 6 1) (exDih_ok 6 1).1 (exDih_ok 6 1).2

/-! ### Gaussians -/

/-- `c84_width_partial`, `c84_width_wrong`, `c84_sign_wrong`, `c82_angle_offset`. -/
example {ga} (hga : GaussSpec ga) := c84_width_partial hga (smoothing := 2) (by norm_num)
example {ga} (hga : GaussSpec ga) := c84_width_wrong hga (smoothing := 2) (by norm_num)
example {ga} (hga : GaussSpec ga) := c84_sign_wrong hga (smoothing := 2) (by norm_num) (k := 3) (d := 1) (by norm_num) (by norm_num)
example {ga} (hga : GaussSpec ga) (D : DArr) := c82_angle_offset hga 2 1 5 1 2 3 D

end E2
