import Verif.Model.R2DiffopInit

/-!
# The other two methods of discretisation: derivatives of Gaussians and RBF-FD, and the choice of the method by `R2Diffop`

The functions of the external packages are parameters: `sympy.finite_diff_weights` (see `Model/FiniteDiff.lean`), `rbf.basis.get_rbf("ga")` and
`rbf.pde.fd.weight_matrix`.
-/

namespace E2

open Finset Mat Real

variable {El F : Type} [LinearOrder F]

/-- The functions of the external packages.
`ga eps a b p` is the entry of `_gaussian(points.T, center, eps, [a, b])` for the point `p` and the centre at the origin (diffops/utils.py:23, 274).
`wm pts diffs coeffs phi j` is the entry of `weight_matrix([[0, 0]], points.T, num_points, diffs, coeffs, phi=phi)` for the `j`-th point
(diffops/utils.py:148). -/
structure DiscExt where
  fd : ℕ → List ℝ → ℕ → ℝ
  ga : ℝ → ℕ → ℕ → ℝ × ℝ → ℝ
  wm : List (ℝ × ℝ) → List (ℕ × ℕ) → List ℝ → String → ℕ → ℝ

open Classical in
/-- `nonzero_indices` (diffops/utils.py:93-94, 263-264). -/
noncomputable def HPoly.nonzero (c : HPoly) : List ℕ := (List.range (c.deg + 1)).filter fun k => decide (c.co k ≠ 0)

/-- `diffs` (diffops/utils.py:96, 266). -/
noncomputable def HPoly.diffs (c : HPoly) : List (ℕ × ℕ) := c.nonzero.map fun k => (c.deg - k, k)

/-- `coefficients[nonzero]` (diffops/utils.py:148, 278). -/
noncomputable def HPoly.nonzeroCo (c : HPoly) : List ℝ := c.nonzero.map c.co

/-- `gaussian_derivative` (diffops/utils.py:259-279) at one point.  The zero operator has the value zero (diffops/utils.py:267-269): the sum is empty. -/
noncomputable def gaussianDerivative (ga : ℝ → ℕ → ℕ → ℝ × ℝ → ℝ) (c : HPoly) (std : ℝ) (p : ℝ × ℝ) : ℝ :=
  ((c.nonzeroCo.zip c.diffs).map fun t => t.1 * ga (1 / std ^ 2) t.2.1 t.2.2 p).sum

/-- The polynomials after the rotation by the angle offset (diffops/basis.py:119-128). -/
noncomputable def DArr.offset (off : Option ℝ) (D : DArr) : DArr :=
  match off with
  | none => D
  | some θ => D.transform (psi θ 1 0)

/-- One element of `DiffopBasis.sample_masked` (diffops/basis.py:93-150) with `method = "gauss"` (diffops/utils.py:101-108), on the grid of
`get_grid_coords(k, d)`. -/
noncomputable def gaussSample (ga : ℝ → ℕ → ℕ → ℝ × ℝ → ℝ) (std : ℝ) : Sampler := fun k d _ _ off D =>
  some fun q i j => gaussianDerivative ga ((D.offset off).entry i j) std (gridCoords k d q)

/-- `discretize_homogeneous_polynomial` with `method = "rbffd"` (diffops/utils.py:64-99, 143-162) on the grid of `get_grid_coords(k, d)`; the check for
entries which are not numbers and the warnings are not modelled. -/
noncomputable def rbfDisc (wm : List (ℝ × ℝ) → List (ℕ × ℕ) → List ℝ → String → ℕ → ℝ) (phi : String) (k d : ℕ) (c : HPoly) : ℕ → ℝ :=
  if c.diffs.isEmpty then fun _ => 0 else wm ((List.range (k * k)).map (gridCoords k d)) c.diffs c.nonzeroCo phi

/-- One element of `DiffopBasis.sample_masked` (diffops/basis.py:93-150) with `method = "rbffd"`. -/
noncomputable def rbfSample (wm : List (ℝ × ℝ) → List (ℕ × ℕ) → List ℝ → String → ℕ → ℝ) (phi : String) : Sampler := fun k d _ _ off D =>
  some fun q i j => rbfDisc wm phi k d ((D.offset off).entry i j) q

/-- The methods of discretisation with their parameters (`DiscretizationArgs`, diffops/basis.py:17-34). -/
inductive DiscMethod where
  | fd
  | gauss (smoothing : ℝ)
  | rbffd (phi : String)

/-- The choice of the method from the arguments `rbffd`, `radial_basis_function` and `smoothing` of `R2Diffop` (r2diffop.py:725-732); `none` for the
`ValueError`. -/
def discMethod (rbffd : Bool) (phi : String) (smoothing : Option ℝ) : Option DiscMethod :=
  match smoothing, rbffd with
  | some _, true => none
  | some s, false => some (.gauss s)
  | none, true => some (.rbffd phi)
  | none, false => some .fd

/-- The discretisation by a method (diffops/utils.py:101-165, diffops/basis.py:93-150). -/
noncomputable def DiscMethod.sampler (ext : DiscExt) : DiscMethod → Sampler
  | .fd => fdSample ext.fd
  | .gauss s => gaussSample ext.ga s
  | .rbffd phi => rbfSample ext.wm phi

/-- `R2Diffop.__init__` with the arguments which choose the method (r2diffop.py:56-58, 342-350). -/
noncomputable def r2diffopInitWith (ext : DiscExt) (rbffd : Bool) (phi : String) (smoothing : Option ℝ) (G : DiffopGen El) (a : DiffopArgs El)
    (rep : F → Repr El) (inT outT : List F) : Option (Sampler × DiffopModule El F) :=
  (discMethod rbffd phi smoothing).bind fun m => (r2diffopInit (m.sampler ext) G a rep inT outT).map fun M => (m.sampler ext, M)

end E2
