import Verif.Model.Utils

/-!
# Specifications used in the property theorems
-/

namespace E2

/-- The group axioms on the accepted elements. -/
structure Grp.Lawful {El : Type} (G : Grp El) : Prop where
  one_mem : G.isEl G.one
  op_mem : ∀ a b, G.isEl a → G.isEl b → G.isEl (G.op a b)
  inv_mem : ∀ a, G.isEl a → G.isEl (G.inv a)
  assoc : ∀ a b c, G.isEl a → G.isEl b → G.isEl c → G.op (G.op a b) c = G.op a (G.op b c)
  one_op : ∀ a, G.isEl a → G.op G.one a = a
  op_one : ∀ a, G.isEl a → G.op a G.one = a
  inv_op : ∀ a, G.isEl a → G.op (G.inv a) a = G.one
  op_inv : ∀ a, G.isEl a → G.op a (G.inv a) = G.one

/-- The group axioms up to an equivalence of elements which the operations respect. -/
structure Grp.LawfulUpTo {El : Type} (G : Grp El) (eqv : El → El → Prop) : Prop where
  equiv : Equivalence eqv
  op_congr : ∀ a a' b b', G.isEl a → G.isEl a' → eqv a a' → eqv b b' → eqv (G.op a b) (G.op a' b')
  inv_congr : ∀ a a', G.isEl a → G.isEl a' → eqv a a' → eqv (G.inv a) (G.inv a')
  one_mem : G.isEl G.one
  op_mem : ∀ a b, G.isEl a → G.isEl b → G.isEl (G.op a b)
  inv_mem : ∀ a, G.isEl a → G.isEl (G.inv a)
  assoc : ∀ a b c, G.isEl a → G.isEl b → G.isEl c → eqv (G.op (G.op a b) c) (G.op a (G.op b c))
  one_op : ∀ a, G.isEl a → eqv (G.op G.one a) a
  op_one : ∀ a, G.isEl a → eqv (G.op a G.one) a
  inv_op : ∀ a, G.isEl a → eqv (G.op (G.inv a) a) G.one
  op_inv : ∀ a, G.isEl a → eqv (G.op a (G.inv a)) G.one

/-- `f` is an injective homomorphism from `H` into `G`. -/
structure IsEmbedding {A B : Type} (H : Grp A) (G : Grp B) (f : A → B) : Prop where
  mem : ∀ a, H.isEl a → G.isEl (f a)
  one : f H.one = G.one
  op : ∀ a b, H.isEl a → H.isEl b → f (H.op a b) = G.op (f a) (f b)
  inj : ∀ a b, H.isEl a → H.isEl b → f a = f b → a = b

/-- `child` is the partial inverse of the embedding `parent`: it recovers every element of the
subgroup, and is undefined exactly outside the image. -/
structure IsPartialInverse {A B : Type} (H : Grp A) (G : Grp B) (parent : A → B) (child : B → Option A) : Prop where
  child_parent : ∀ a, H.isEl a → child (parent a) = some a
  parent_child : ∀ g a, G.isEl g → child g = some a → H.isEl a ∧ parent a = g
  none_iff : ∀ g, G.isEl g → (child g = none ↔ ¬ ∃ a, H.isEl a ∧ parent a = g)

/-- `f` is a homomorphism from `H` into `G`, injective up to the equivalences of elements. -/
structure IsEmbeddingUpTo {A B : Type} (H : Grp A) (G : Grp B) (eqH : A → A → Prop)
    (eqG : B → B → Prop) (f : A → B) : Prop where
  mem : ∀ a, H.isEl a → G.isEl (f a)
  one : eqG (f H.one) G.one
  op : ∀ a b, H.isEl a → H.isEl b → eqG (f (H.op a b)) (G.op (f a) (f b))
  inj : ∀ a b, H.isEl a → H.isEl b → (eqG (f a) (f b) ↔ eqH a b)

/-- `child` is a partial inverse of `parent` up to the equivalences of elements; the value of `child`
is required to be an element only for arguments in `dom`. -/
structure IsPartialInverseUpTo {A B : Type} (H : Grp A) (G : Grp B) (eqH : A → A → Prop)
    (eqG : B → B → Prop) (dom : B → Prop) (parent : A → B) (child : B → Option A) : Prop where
  child_parent : ∀ a, H.isEl a → ∃ a', child (parent a) = some a' ∧ eqH a' a
  parent_child : ∀ g a, G.isEl g → child g = some a → eqG (parent a) g
  child_mem : ∀ g a, G.isEl g → dom g → child g = some a → H.isEl a
  none_iff : ∀ g, G.isEl g → (child g = none ↔ ¬ ∃ a, H.isEl a ∧ eqG (parent a) g)

/-- `r'` is the restriction of `r` along the embedding `parent`: a well formed representation of the
subgroup `H`, decomposed in irreps of the subgroup, whose matrix at `h` is the matrix of `r` at `parent h`. -/
structure IsRestriction {A B : Type} (H : Grp A) (parent : A → B) (isIrrep : Irrep A → Prop)
    (r : Repr B) (r' : Repr A) : Prop where
  wf : r'.WF
  size : r'.size = r.size
  irreps : ∀ i ∈ r'.irreps, isIrrep i
  isRep : IsRep H r'.size r'.mat
  mat : ∀ h, H.isEl h → Mat.MEq r.size r.size (r'.mat h) (r.mat (parent h))

/-- The trace of an `n x n` array. -/
noncomputable def Mat.trace (n : ℕ) (A : Mat) : ℝ := ∑ i ∈ Finset.range n, A i i

end E2
