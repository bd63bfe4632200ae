import Verif.Examples.Common
import Verif.Props.Network
import Verif.Props.SteerableComplete
import Verif.Props.DiffopComplete
import Verif.Props.PlaneConv
import Verif.Props.Names

/-!
# Bases and filters which meet the hypotheses of the theorems about them

The bases of kernels and of differential operators from a trivial field to a field of two irreps in an exchanged basis and back (C21, C70, C72, C92), the filters
of convolutions with two rings (C23, C25, C61) and the spaces of the networks (C62), for each group.
-/

namespace E2

open Mat

open Classical in
/-- The rings at 0 and 1 give distinct identifiers. -/
theorem ex_filterInput {El : Type} (axis : ℝ) (bas : Irrep El → Irrep El → Option (List AngElem)) (rep : ℕ → Repr El) (hp : ∀ n, 0 < (rep n).size) :
    FilterInput rep [0, 1] [1] (planeBasis axis ([(0, 1), (1, 1)].map fun q : ℝ × ℝ => gaussian q.1 q.2) bas (planeAttr [(0, 1), (1, 1)] bas rep) rep) planeIdent :=
  ⟨by simp, by simp, fun n _ => hp n, fun n _ => hp n, fun i _ o _ => c24_identifiers_distinct axis _ (by simp) bas rep i o⟩

/-! ### the rotations `C_N` -/

/-- `c21_cyclic_kernels`, with two rings. -/
example (N : ℕ) (hN : 0 < N) :=
  c21_cyclic_kernels N hN (exCyc N 0) (exCyc N 1) (exCyc_ok N 0).1 (exCyc_ok N 1).1 (exCyc_ok N 0).2 (exCyc_ok N 1).2 (some 3) none (by simp) [gaussian 0 1, gaussian 1 1]

/-- `c70_cyclic`. -/
example (N : ℕ) (hN : 0 < N) :=
  c70_cyclic N hN (exCyc N 0) (exCyc N 1) (exCyc_ok N 0).1 (exCyc_ok N 1).1 (exCyc_ok N 0).2 (exCyc_ok N 1).2 3

/-- `c70_cyclic`, in the other direction. -/
example (N : ℕ) (hN : 0 < N) :=
  c70_cyclic N hN (exCyc N 1) (exCyc N 0) (exCyc_ok N 1).1 (exCyc_ok N 0).1 (exCyc_ok N 1).2 (exCyc_ok N 0).2 3

/-- `c72_cyclic`, with the Laplacian and its square. -/
example (N : ℕ) (hN : 0 < N) :=
  c72_cyclic N hN (exCyc N 0) (exCyc N 1) (exCyc_ok N 0).1 (exCyc_ok N 1).1 (exCyc_ok N 0).2 (exCyc_ok N 1).2 3 2

/-- `c92_cyclic_complete`. -/
example (interp : ℝ → Img → Img) (N : ℕ) (hN : 0 < N) :=
  c92_cyclic_complete interp N hN (exCyc N 0) (exCyc N 1) (exCyc_ok N 0).1 (exCyc_ok N 1).1 (exCyc_ok N 0).2 (exCyc_ok N 1).2 3

open Classical in
/-- `c23_cyclic`, for filters with two rings. -/
example (N : ℕ) (hN : 0 < N) :=
  c23_cyclic ([(0, 1), (1, 1)].map fun q : ℝ × ℝ => gaussian q.1 q.2) (planeAttr [(0, 1), (1, 1)] (fun i o => rotBasis N i o (some 3) none) (exCyc N)) planeIdent [0, 1] [1]
    N hN (exCyc N) (fun n _ => exCyc_ok N n) (some 3) none (by simp)

open Classical in
/-- `c25_cyclic`, for filters with two rings. -/
example (interp : ℝ → Img → Img) (N : ℕ) (hN : 0 < N) :=
  c25_cyclic _ _ planeIdent [0, 1] [1] interp N hN (exCyc N) (fun n _ => exCyc_ok N n) (some 3) none (by simp)
    (ex_filterInput 0 (fun i o => rotBasis N i o (some 3) none) (exCyc N) fun n => exCyc_pos N n)

open Classical in
/-- `c61_cyclic_partial`, for filters with two rings. -/
example (interp : ℝ → Img → Img) (N : ℕ) (hN : 0 < N) :=
  c61_cyclic_partial _ _ planeIdent [0, 1] [1] interp N hN (exCyc N) (fun n _ => exCyc_ok N n) (some 3) none (by simp)
    (ex_filterInput 0 (fun i o => rotBasis N i o (some 3) none) (exCyc N) fun n => exCyc_pos N n)

open Classical in
/-- `c62_cyclic`. -/
example (interp : ℝ → Img → Img) (N : ℕ) (hN : 0 < N) :=
  c62_cyclic (A := Option (PolarAttr ((ℝ × ℝ) × ℕ) (SBasis.Attr ℤ AngElem))) (I := Option (ℕ × ℕ × ℝ × ℕ)) interp N hN (exCyc N) (fun n => exCyc_ok N n) fun n => exCyc_pos N n

/-! ### all rotations -/

/-- `c21_so2_kernels`, with two rings. -/
example :=
  c21_so2_kernels (exSO 0) (exSO 1) (exSO_ok 0).1 (exSO_ok 1).1 (exSO_ok 0).2 (exSO_ok 1).2 [gaussian 0 1, gaussian 1 1]

/-- `c70_so2`. -/
example :=
  c70_so2 (exSO 0) (exSO 1) (exSO_ok 0).1 (exSO_ok 1).1 (exSO_ok 0).2 (exSO_ok 1).2

/-- `c70_so2`, in the other direction. -/
example :=
  c70_so2 (exSO 1) (exSO 0) (exSO_ok 1).1 (exSO_ok 0).1 (exSO_ok 1).2 (exSO_ok 0).2

/-- `c72_so2`, with the Laplacian and its square. -/
example :=
  c72_so2 (exSO 0) (exSO 1) (exSO_ok 0).1 (exSO_ok 1).1 (exSO_ok 0).2 (exSO_ok 1).2 2

/-- `c92_so2_complete`. -/
example (interp : ℝ → Img → Img) :=
  c92_so2_complete interp (exSO 0) (exSO 1) (exSO_ok 0).1 (exSO_ok 1).1 (exSO_ok 0).2 (exSO_ok 1).2

open Classical in
/-- `c23_so2`, for filters with two rings. -/
example :=
  c23_so2 ([(0, 1), (1, 1)].map fun q : ℝ × ℝ => gaussian q.1 q.2) (planeAttr [(0, 1), (1, 1)] contBasis exSO) planeIdent [0, 1] [1]
    exSO (fun n _ => exSO_ok n)

open Classical in
/-- `c25_so2`, for filters with two rings. -/
example (interp : ℝ → Img → Img) :=
  c25_so2 _ _ planeIdent [0, 1] [1] interp exSO (fun n _ => exSO_ok n)
    (ex_filterInput 0 contBasis exSO fun n => exSO_pos n)

open Classical in
/-- `c61_so2_partial`, for filters with two rings. -/
example (interp : ℝ → Img → Img) :=
  c61_so2_partial _ _ planeIdent [0, 1] [1] interp exSO (fun n _ => exSO_ok n)
    (ex_filterInput 0 contBasis exSO fun n => exSO_pos n)

open Classical in
/-- `c62_so2`. -/
example (interp : ℝ → Img → Img) :=
  c62_so2 (A := Option (PolarAttr ((ℝ × ℝ) × ℕ) (SBasis.Attr ℝ AngElem))) (I := Option (ℕ × ℕ × ℝ × ℕ)) interp exSO (fun n => exSO_ok n) fun n => exSO_pos n

/-! ### the reflections at an axis -/

/-- `c21_flip_kernels`, with two rings. -/
example (axis : ℝ) :=
  c21_flip_kernels axis (exCyc 2 0) (exCyc 2 1) (exCyc_ok 2 0).1 (exCyc_ok 2 1).1 (exCyc_ok 2 0).2 (exCyc_ok 2 1).2 (some 3) none (by simp) [gaussian 0 1, gaussian 1 1]

/-- `c70_flip`. -/
example (axis : ℝ) :=
  c70_flip axis (exCyc 2 0) (exCyc 2 1) (exCyc_ok 2 0).1 (exCyc_ok 2 1).1 (exCyc_ok 2 0).2 (exCyc_ok 2 1).2 3

/-- `c70_flip`, in the other direction. -/
example (axis : ℝ) :=
  c70_flip axis (exCyc 2 1) (exCyc 2 0) (exCyc_ok 2 1).1 (exCyc_ok 2 0).1 (exCyc_ok 2 1).2 (exCyc_ok 2 0).2 3

/-- `c72_flip`, with the Laplacian and its square. -/
example (axis : ℝ) :=
  c72_flip axis (exCyc 2 0) (exCyc 2 1) (exCyc_ok 2 0).1 (exCyc_ok 2 1).1 (exCyc_ok 2 0).2 (exCyc_ok 2 1).2 3 2

/-- `c92_flip_complete`. -/
example (interp : ℝ → Img → Img) (axis : ℝ) :=
  c92_flip_complete interp axis (exCyc 2 0) (exCyc 2 1) (exCyc_ok 2 0).1 (exCyc_ok 2 1).1 (exCyc_ok 2 0).2 (exCyc_ok 2 1).2 3

open Classical in
/-- `c23_flip`, for filters with two rings. -/
example (axis : ℝ) :=
  c23_flip ([(0, 1), (1, 1)].map fun q : ℝ × ℝ => gaussian q.1 q.2) (planeAttr [(0, 1), (1, 1)] (fun i o => flipsBasis i o (some 3) none) (exCyc 2)) planeIdent [0, 1] [1]
    axis (exCyc 2) (fun n _ => exCyc_ok 2 n) (some 3) none (by simp)

open Classical in
/-- `c25_flip`, for filters with two rings. -/
example (interp : ℝ → Img → Img) (axis : ℝ) :=
  c25_flip _ _ planeIdent [0, 1] [1] interp axis (exCyc 2) (fun n _ => exCyc_ok 2 n) (some 3) none (by simp)
    (ex_filterInput axis (fun i o => flipsBasis i o (some 3) none) (exCyc 2) fun n => exCyc_pos 2 n)

open Classical in
/-- `c61_flip_partial`, for filters with two rings. -/
example (interp : ℝ → Img → Img) (axis : ℝ) :=
  c61_flip_partial _ _ planeIdent [0, 1] [1] interp axis (exCyc 2) (fun n _ => exCyc_ok 2 n) (some 3) none (by simp)
    (ex_filterInput axis (fun i o => flipsBasis i o (some 3) none) (exCyc 2) fun n => exCyc_pos 2 n)

open Classical in
/-- `c62_flip`. -/
example (interp : ℝ → Img → Img) (axis : ℝ) :=
  c62_flip (A := Option (PolarAttr ((ℝ × ℝ) × ℕ) (SBasis.Attr ℤ AngElem))) (I := Option (ℕ × ℕ × ℝ × ℕ)) interp axis (exCyc 2) (fun n => exCyc_ok 2 n) fun n => exCyc_pos 2 n

/-! ### the rotations and reflections `D_N` -/

/-- `c21_dihedral_kernels`, with two rings. -/
example (N : ℕ) (hN : 0 < N) (axis : ℝ) :=
  c21_dihedral_kernels N hN axis (exDih N 0) (exDih N 1) (exDih_ok N 0).1 (exDih_ok N 1).1 (exDih_ok N 0).2 (exDih_ok N 1).2 (some 3) none (by simp) [gaussian 0 1, gaussian 1 1]

/-- `c70_dihedral`. -/
example (N : ℕ) (hN : 0 < N) (axis : ℝ) :=
  c70_dihedral N hN axis (exDih N 0) (exDih N 1) (exDih_ok N 0).1 (exDih_ok N 1).1 (exDih_ok N 0).2 (exDih_ok N 1).2 3

/-- `c70_dihedral`, in the other direction. -/
example (N : ℕ) (hN : 0 < N) (axis : ℝ) :=
  c70_dihedral N hN axis (exDih N 1) (exDih N 0) (exDih_ok N 1).1 (exDih_ok N 0).1 (exDih_ok N 1).2 (exDih_ok N 0).2 3

/-- `c72_dihedral`, with the Laplacian and its square. -/
example (N : ℕ) (hN : 0 < N) (axis : ℝ) :=
  c72_dihedral N hN axis (exDih N 0) (exDih N 1) (exDih_ok N 0).1 (exDih_ok N 1).1 (exDih_ok N 0).2 (exDih_ok N 1).2 3 2

/-- `c92_dihedral_complete`. -/
example (interp : ℝ → Img → Img) (N : ℕ) (hN : 0 < N) (axis : ℝ) :=
  c92_dihedral_complete interp N hN axis (exDih N 0) (exDih N 1) (exDih_ok N 0).1 (exDih_ok N 1).1 (exDih_ok N 0).2 (exDih_ok N 1).2 3

open Classical in
/-- `c23_dihedral`, for filters with two rings. -/
example (N : ℕ) (hN : 0 < N) (axis : ℝ) :=
  c23_dihedral ([(0, 1), (1, 1)].map fun q : ℝ × ℝ => gaussian q.1 q.2) (planeAttr [(0, 1), (1, 1)] (fun i o => flipRotBasis N i o (some 3) none) (exDih N)) planeIdent [0, 1] [1]
    N hN axis (exDih N) (fun n _ => exDih_ok N n) (some 3) none (by simp)

open Classical in
/-- `c25_dihedral`, for filters with two rings. -/
example (interp : ℝ → Img → Img) (N : ℕ) (hN : 0 < N) (axis : ℝ) :=
  c25_dihedral _ _ planeIdent [0, 1] [1] interp N hN axis (exDih N) (fun n _ => exDih_ok N n) (some 3) none (by simp)
    (ex_filterInput axis (fun i o => flipRotBasis N i o (some 3) none) (exDih N) fun n => exDih_pos N n)

open Classical in
/-- `c61_dihedral_partial`, for filters with two rings. -/
example (interp : ℝ → Img → Img) (N : ℕ) (hN : 0 < N) (axis : ℝ) :=
  c61_dihedral_partial _ _ planeIdent [0, 1] [1] interp N hN axis (exDih N) (fun n _ => exDih_ok N n) (some 3) none (by simp)
    (ex_filterInput axis (fun i o => flipRotBasis N i o (some 3) none) (exDih N) fun n => exDih_pos N n)

open Classical in
/-- `c62_dihedral`. -/
example (interp : ℝ → Img → Img) (N : ℕ) (hN : 0 < N) (axis : ℝ) :=
  c62_dihedral (A := Option (PolarAttr ((ℝ × ℝ) × ℕ) (SBasis.Attr (ℤ × ℤ) AngElem))) (I := Option (ℕ × ℕ × ℝ × ℕ)) interp N hN axis (exDih N) (fun n => exDih_ok N n) fun n => exDih_pos N n

/-! ### all rotations and reflections -/

/-- `c21_o2_kernels`, with two rings. -/
example (axis : ℝ) :=
  c21_o2_kernels axis (exO2 0) (exO2 1) (exO2_ok 0).1 (exO2_ok 1).1 (exO2_ok 0).2 (exO2_ok 1).2 [gaussian 0 1, gaussian 1 1]

/-- `c70_o2`. -/
example (axis : ℝ) :=
  c70_o2 axis (exO2 0) (exO2 1) (exO2_ok 0).1 (exO2_ok 1).1 (exO2_ok 0).2 (exO2_ok 1).2

/-- `c70_o2`, in the other direction. -/
example (axis : ℝ) :=
  c70_o2 axis (exO2 1) (exO2 0) (exO2_ok 1).1 (exO2_ok 0).1 (exO2_ok 1).2 (exO2_ok 0).2

/-- `c72_o2`, with the Laplacian and its square. -/
example (axis : ℝ) :=
  c72_o2 axis (exO2 0) (exO2 1) (exO2_ok 0).1 (exO2_ok 1).1 (exO2_ok 0).2 (exO2_ok 1).2 2

/-- `c92_o2_complete`. -/
example (interp : ℝ → Img → Img) (axis : ℝ) :=
  c92_o2_complete interp axis (exO2 0) (exO2 1) (exO2_ok 0).1 (exO2_ok 1).1 (exO2_ok 0).2 (exO2_ok 1).2

open Classical in
/-- `c23_o2`, for filters with two rings. -/
example (axis : ℝ) :=
  c23_o2 ([(0, 1), (1, 1)].map fun q : ℝ × ℝ => gaussian q.1 q.2) (planeAttr [(0, 1), (1, 1)] flipContBasis exO2) planeIdent [0, 1] [1]
    axis exO2 (fun n _ => exO2_ok n)

open Classical in
/-- `c25_o2`, for filters with two rings. -/
example (interp : ℝ → Img → Img) (axis : ℝ) :=
  c25_o2 _ _ planeIdent [0, 1] [1] interp axis exO2 (fun n _ => exO2_ok n)
    (ex_filterInput axis flipContBasis exO2 fun n => exO2_pos n)

open Classical in
/-- `c61_o2_partial`, for filters with two rings. -/
example (interp : ℝ → Img → Img) (axis : ℝ) :=
  c61_o2_partial _ _ planeIdent [0, 1] [1] interp axis exO2 (fun n _ => exO2_ok n)
    (ex_filterInput axis flipContBasis exO2 fun n => exO2_pos n)

open Classical in
/-- `c62_o2`. -/
example (interp : ℝ → Img → Img) (axis : ℝ) :=
  c62_o2 (A := Option (PolarAttr ((ℝ × ℝ) × ℕ) (SBasis.Attr (ℤ × ℝ) AngElem))) (I := Option (ℕ × ℕ × ℝ × ℕ)) interp axis exO2 (fun n => exO2_ok n) fun n => exO2_pos n

/-- `c80_cyclic_partial`, for two fields with different names. -/
example (interp : ℝ → Img → Img) (N : ℕ) (hN : 0 < N) :=
  c80_cyclic_partial interp N hN [(⟨"trivial", exCyc N 0⟩ : NRep ℤ String)] [⟨"sum", exCyc N 1⟩, ⟨"trivial", exCyc N 0⟩] (by simp)
    (by simp) (by simp [exCyc_pos N 0, exCyc_pos N 1]) (by
      intro f hf
      simp only [List.cons_append, List.nil_append, List.mem_cons, List.not_mem_nil, or_false] at hf
      rcases hf with rfl | rfl | rfl
      · exact exCyc_ok N 0
      · exact exCyc_ok N 1
      · exact exCyc_ok N 0)

/-- `c80_so2_partial`, for two fields with different names. -/
example (interp : ℝ → Img → Img) :=
  c80_so2_partial interp [(⟨"trivial", exSO 0⟩ : NRep ℝ String)] [⟨"sum", exSO 1⟩, ⟨"trivial", exSO 0⟩] (by simp)
    (by simp) (by simp [exSO_pos 0, exSO_pos 1]) (by
      intro f hf
      simp only [List.cons_append, List.nil_append, List.mem_cons, List.not_mem_nil, or_false] at hf
      rcases hf with rfl | rfl | rfl
      · exact exSO_ok 0
      · exact exSO_ok 1
      · exact exSO_ok 0)

/-- `c80_flip_partial`, for two fields with different names. -/
example (interp : ℝ → Img → Img) (axis : ℝ) :=
  c80_flip_partial interp axis [(⟨"trivial", exCyc 2 0⟩ : NRep ℤ String)] [⟨"sum", exCyc 2 1⟩, ⟨"trivial", exCyc 2 0⟩] (by simp)
    (by simp) (by simp [exCyc_pos 2 0, exCyc_pos 2 1]) (by
      intro f hf
      simp only [List.cons_append, List.nil_append, List.mem_cons, List.not_mem_nil, or_false] at hf
      rcases hf with rfl | rfl | rfl
      · exact exCyc_ok 2 0
      · exact exCyc_ok 2 1
      · exact exCyc_ok 2 0)

/-- `c80_dihedral_partial`, for two fields with different names. -/
example (interp : ℝ → Img → Img) (N : ℕ) (hN : 0 < N) (axis : ℝ) :=
  c80_dihedral_partial interp N hN axis [(⟨"trivial", exDih N 0⟩ : NRep (ℤ × ℤ) String)] [⟨"sum", exDih N 1⟩, ⟨"trivial", exDih N 0⟩] (by simp)
    (by simp) (by simp [exDih_pos N 0, exDih_pos N 1]) (by
      intro f hf
      simp only [List.cons_append, List.nil_append, List.mem_cons, List.not_mem_nil, or_false] at hf
      rcases hf with rfl | rfl | rfl
      · exact exDih_ok N 0
      · exact exDih_ok N 1
      · exact exDih_ok N 0)

/-- `c80_o2_partial`, for two fields with different names. -/
example (interp : ℝ → Img → Img) (axis : ℝ) :=
  c80_o2_partial interp axis [(⟨"trivial", exO2 0⟩ : NRep (ℤ × ℝ) String)] [⟨"sum", exO2 1⟩, ⟨"trivial", exO2 0⟩] (by simp)
    (by simp) (by simp [exO2_pos 0, exO2_pos 1]) (by
      intro f hf
      simp only [List.cons_append, List.nil_append, List.mem_cons, List.not_mem_nil, or_false] at hf
      rcases hf with rfl | rfl | rfl
      · exact exO2_ok 0
      · exact exO2_ok 1
      · exact exO2_ok 0)

/-- `c80_trivial_partial`, for two fields with different names. -/
example :=
  c80_trivial_partial [(⟨"trivial", exCyc 1 0⟩ : NRep ℤ String)] [⟨"sum", exCyc 1 1⟩, ⟨"trivial", exCyc 1 0⟩] (by simp)
    (by simp) (by simp [exCyc_pos 1 0, exCyc_pos 1 1]) (by
      intro f hf
      simp only [List.cons_append, List.nil_append, List.mem_cons, List.not_mem_nil, or_false] at hf
      rcases hf with rfl | rfl | rfl
      · exact exCyc_ok 1 0
      · exact exCyc_ok 1 1
      · exact exCyc_ok 1 0)

end E2
