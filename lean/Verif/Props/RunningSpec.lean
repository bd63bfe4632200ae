import Verif.Model.BatchNorm
import Verif.Props.TensorSpec
import Mathlib.Algebra.BigOperators.Group.Finset.Basic

/-!
# Specification: moving averages of the statistics of the batches
-/

namespace E2

variable {R : Type}

/-- `s` is the moving average of the values `vs`, from the first to the last, with initial value `init`: exponential with the given momentum, or the mean of the
values when there is no momentum. -/
def MovingAverage (momentum : Option ℝ) (init : ℝ) (vs : List ℝ) (s : ℝ) : Prop :=
  match momentum with
  | some m => s = (1 - m) ^ vs.length * init + ∑ i ∈ Finset.range vs.length, m * (1 - m) ^ (vs.length - 1 - i) * vs.getD i 0
  | none => if vs = [] then s = init else s = vs.sum / vs.length

/-- The channels of field number `c` of a tensor. -/
def fieldOf {P : Type} (sz : R → ℕ) (x : GTensor R (P → ℝ)) (c : ℕ) : List (P → ℝ) := ((x.fields sz)[c]?).getD []

/-- The divisor of the unbiased estimate of a variance from `n` samples; with one sample there is no correction. -/
def bessel (n : ℕ) : ℕ := if n > 1 then n - 1 else 1

/-- The unbiased variance of a field with mean zero, per channel: the squared norms at the `n` positions count as samples. -/
noncomputable def normVariance {n : ℕ} (s : ℕ) (fld : List (Fin n → ℝ)) : ℝ := (∑ p, (fld.map fun v => v p ^ 2).sum) / (bessel n * s : ℕ)

/-- The same when the squared norms of `k` subfields with `s` channels count as samples at each position. -/
noncomputable def inducedVariance {n : ℕ} (k s : ℕ) (fld : List (Fin n → ℝ)) : ℝ := (∑ p, (fld.map fun v => v p ^ 2).sum) / (bessel (n * k) * s : ℕ)

/-- The mean of all values of a field. -/
noncomputable def valueMean {n : ℕ} (fld : List (Fin n → ℝ)) : ℝ := (∑ p, (fld.map fun v => v p).sum) / (n * fld.length : ℕ)

/-- The unbiased variance of all values of a field. -/
noncomputable def valueVariance {n : ℕ} (fld : List (Fin n → ℝ)) : ℝ :=
  (∑ p, (fld.map fun v => (v p - valueMean fld) ^ 2).sum) / (bessel (n * fld.length) : ℕ)

/-- The block of irrep number `o` of a field, in the basis of the irreps. -/
noncomputable def irrepBlock {El : Type} {n : ℕ} (r : Repr El) (fld : List (Fin n → ℝ)) (o : ℕ) : List (Fin n → ℝ) :=
  (List.range ((r.irreps[o]?.map Irrep.size).getD 0)).map fun i p =>
    ∑ j ∈ Finset.range r.size, r.cobInv (((r.irreps.take o).map Irrep.size).sum + i) j * (fld[j]?.getD 0) p

/-- A batch for a module with input type `t`: its number of positions (entries of the batch and pixels), the contents of the memory in which the output is
built, and the tensor. -/
abbrev Batch (R : Type) := (n : ℕ) × List (Fin n → ℝ) × GTensor R (Fin n → ℝ)

/-- A batch with at least one position, whose tensor has type `t`; the memory has as many channels as the tensor. -/
def Batch.Ok (sz : R → ℕ) (t : List R) (x : Batch R) : Prop :=
  0 < x.1 ∧ x.2.2.WF sz ∧ x.2.2.ty = t ∧ x.2.1.length = x.2.2.data.length

/-- The batches of the calls in training mode, in their order. -/
def trainingBatches (calls : List (Bool × Batch R)) : List (Batch R) := (calls.filter fun c => c.1).map Prod.snd

end E2
