import Verif.Model.Network
import Verif.Props.ImageSpec
import Verif.Props.NonlinSpec
import Verif.Props.Transposed
import Verif.Props.Upsample
import Verif.Props.InducedNonlin
import Verif.Props.GNorm
import Verif.Props.PoolingAdaptive
import Verif.Props.TagSpec

/-!
# Specification: the action on tensors with images, and the networks under consideration
-/

namespace E2

variable {El F A I B : Type}

/-- `GeometricTensor.transform` (nn/geometric_tensor.py:310-331, by nn/field_type.py:202-240 and gspaces/gspace.py:126-134): an element of the group acts on
every image of the batch, on the channels by the matrix of the type and on the plane by the action of the space. -/
noncomputable def ETensor.act (Sp : Space El) (rep : F → Repr El) (g : El) (x : ETensor F B) : ETensor F B :=
  ⟨x.n, x.x.ty, (List.range (typeSize (fun r => (rep r).size) x.x.ty)).map fun o q =>
    fieldAct (typeSize (fun r => (rep r).size) x.x.ty) (typeMat rep x.x.ty g) (Sp.base x.n g) (chanImg x.x.data q.1) o q.2.1 q.2.2⟩

variable [LinearOrder F] [DecidableEq I]

/-- A module is used as it should be, on images with `n × n` pixels, and returns images with `m × m` pixels.  For the convolutions: the checks of the
constructor, the number of weights, a basis for which `built` holds (the bases built by the gspace), and windows which cover the padded image exactly.  For the
other modules: the nonlinearity or pooling supports the representations of the type, and the windows cover the padded image exactly.  The concatenated
nonlinearity returns fields of the representations it builds; `ReshuffleModule` has a permutation of the fields. -/
def Layer.Ok (Sp : Space El) (rep : F → Repr El) (built : (F → F → List (A × (ℝ × ℝ → Mat))) → (A → I) → Prop) : Layer F A I → ℕ → ℕ → Prop
  | .conv c basis inT outT w _, n, m => FilterInput rep inT outT basis c.ident ∧ built basis c.ident ∧ 0 < c.groups ∧
      (∃ inG, convGroups c.groups inT outT = some inG ∧
        ((c.exp rep inG outT basis).nPairs = 1 → (c.exp rep inG outT basis).pairs ≠ []) ∧ w.length = (c.exp rep inG outT basis).dimension) ∧
      padOk c.mode n c.p ∧ convSize n c.p c.k c.s c.d = some m ∧ c.s ∣ n + 2 * c.p - c.d * (c.k - 1) - 1
  | .convT c basis inT outT w _, n, m => FilterInput rep inT outT basis c.ident ∧ built basis c.ident ∧ 0 < c.groups ∧
      (∃ outG, transGroups c.groups inT outT = some outG ∧
        ((c.exp rep inT outG basis).nPairs = 1 → (c.exp rep inT outG basis).pairs ≠ []) ∧ w.length = (c.exp rep inT outG basis).dimension) ∧
      convTSize n c.p 0 c.k c.s c.d = some m ∧ 0 < m
  | .pointwise t _, n, m => m = n ∧ ∀ r ∈ t, ∀ g, Sp.G.isEl g → IsPerm (rep r).size ((rep r).mat g)
  | .norm t _ _ _, n, m => m = n ∧ ∀ r ∈ t, ∀ g, Sp.G.isEl g → Orth (rep r).size ((rep r).mat g)
  | .inducedNorm t subs _ _ _, n, m => m = n ∧ inducedNormCheck (fun r => (rep r).size) subs t = true ∧
      ∀ r ∈ t, ∀ g, Sp.G.isEl g → IsBlockPerm ((rep r).size / subSize subs r) (subSize subs r) ((rep r).mat g)
  | .gated t trivial supports gates _ _ bias, n, m => m = n ∧ gated1Check trivial supports t gates = true ∧ bias.length = gates.count true ∧
      ∀ r, trivial r = true → (rep r).size = 1 ∧ ∀ g, Sp.G.isEl g → (rep r).mat g 0 0 = 1
  | .innerBatchNorm t _ _ _ _ _ _ _, n, m => m = n ∧ ∀ r ∈ t, ∀ g, Sp.G.isEl g → IsPerm (rep r).size ((rep r).mat g)
  | .normBatchNorm t _ _ _ _ _, n, m => m = n ∧ ∀ r ∈ t, ∀ g, Sp.G.isEl g → Orth (rep r).size ((rep r).mat g)
  | .inducedBatchNorm t _ _ _ _ _ _, n, m => m = n ∧ ∀ r ∈ t, ∀ g, Sp.G.isEl g → Orth (rep r).size ((rep r).mat g)
  | .gnormBatchNorm t order _ _ _ _ _ _, n, m => m = n ∧ order.Nodup ∧ (∀ r, r ∈ order ↔ r ∈ t) ∧ ∀ r ∈ t, ∀ g, Sp.G.isEl g → GNormOk g (rep r)
  | .maxPool t k s p d ceil, n, m => poolSize ceil n p k s d = some m ∧ Covers n p k s d m ∧
      ∀ r ∈ t, ∀ g, Sp.G.isEl g → IsPerm (rep r).size ((rep r).mat g)
  | .maxPoolAntialiased t k s p ceil fs _, n, m => (∃ n1, poolSize ceil n p k 1 1 = some n1 ∧ convSize n1 (p + (fs - 1) / 2) fs s 1 = some m ∧
      Covers n p k 1 1 n1 ∧ Covers n1 (p + (fs - 1) / 2) fs s 1 m) ∧ ∀ r ∈ t, ∀ g, Sp.G.isEl g → IsPerm (rep r).size ((rep r).mat g)
  | .avgPool _ k s p ceil, n, m => poolSize ceil n p k s 1 = some m ∧ Covers n p k s 1 m
  | .avgPoolAntialiased _ s p fs _, n, m => convSize n p fs s 1 = some m ∧ Covers n p fs s 1 m
  | .adaptiveAvgPool _ m', _, m => m = m'
  | .adaptiveMaxPool t m', _, m => m = m' ∧ ∀ r ∈ t, ∀ g, Sp.G.isEl g → IsPerm (rep r).size ((rep r).mat g)
  | .groupPool t triv, n, m => m = n ∧ ((rep triv).size = 1 ∧ ∀ g, Sp.G.isEl g → (rep triv).mat g 0 0 = 1) ∧
      ∀ r ∈ t, ∀ g, Sp.G.isEl g → IsPerm (rep r).size ((rep r).mat g)
  | .normPool t triv, n, m => m = n ∧ ((rep triv).size = 1 ∧ ∀ g, Sp.G.isEl g → (rep triv).mat g 0 0 = 1) ∧
      ∀ r ∈ t, ∀ g, Sp.G.isEl g → Orth (rep r).size ((rep r).mat g)
  | .inducedNormPool t sub triv, n, m => m = n ∧ ((rep triv).size = 1 ∧ ∀ g, Sp.G.isEl g → (rep triv).mat g 0 0 = 1) ∧
      (∀ r ∈ t, sub r ∣ (rep r).size) ∧ ∀ r ∈ t, ∀ g, Sp.G.isEl g → IsBlockPerm ((rep r).size / sub r) (sub r) ((rep r).mat g)
  | .mask _ S _, n, m => n = S ∧ m = n
  | .upsample _ c, n, m => 0 < n ∧ ∃ step, upSize c.scale c.size n = some (m, step) ∧ UpSymmetric c n m step
  | .dropout _ _ _, n, m => m = n
  | .identity _, n, m => m = n
  | .concatenated t out _, n, m => m = n ∧ ∀ r ∈ t, (rep (out r)).size = 2 * (rep r).size ∧ ∀ g, Sp.G.isEl g → IsSignedPerm (rep r).size ((rep r).mat g) ∧
      Mat.MEq (2 * (rep r).size) (2 * (rep r).size) ((rep (out r)).mat g) (concatMat ((rep r).mat g))
  | .reshuffle t perm, n, m => m = n ∧ perm.Perm (List.range t.length)

/-- Every module of a network is used as it should be, the sizes of the images going from `n` to `m`. -/
def NetOk (Sp : Space El) (rep : F → Repr El) (built : (F → F → List (A × (ℝ × ℝ → Mat))) → (A → I) → Prop) : List (Layer F A I) → ℕ → ℕ → Prop
  | [], n, m => m = n
  | l :: ls, n, m => ∃ k, l.Ok Sp rep built n k ∧ NetOk Sp rep built ls k m

end E2
