import Verif.Model.R2ConvInit
import Mathlib.Data.String.Basic

/-!
# Representations with names: `directsum` (`group/representation.py`) and the dictionaries of `BlocksBasisExpansion` (`nn/modules/r2_conv/basisexpansion_blocks.py`)

In `Model/Expansion.lean` a representation is identified with its name.  Here the two are apart: a field has a name and a representation, and the dictionaries are
indexed by the names.  A type is a list of fields, so that `typeSize` and `typeMat` of `NRep.rep` are its size and its action on the channels.
-/

namespace E2

open Mat

/-- A representation with its name (representation.py:154-169).  Two of them are equal when both are (representation.py:328-336). -/
structure NRep (El F : Type) where
  name : F
  rep : Repr El

variable {El F A I X B : Type}

/-- The default name of a direct sum (representation.py:442-443). -/
def directsumName (l : List String) : String := "_".intercalate (l.map fun n => "[" ++ n ++ "]")

/-- `directsum(reprs, change_of_basis)` without a name (representation.py:400-468). -/
noncomputable def nDirectsum (rs : List (NRep El String)) (Q : Option Mat) : NRep El String where
  name := directsumName (rs.map NRep.name)
  rep := match Q with
    | none => Repr.directsum (rs.map NRep.rep)
    | some Q => Repr.directsumCob (rs.map NRep.rep) Q

/-- Equality of representations, for the test of the groups (representation.py:328-336). -/
noncomputable instance : DecidableEq (NRep El F) := Classical.decEq _

/-- `l` lists the set `_unique_representations` of the type `t` (field_type.py:85), in any order. -/
def UniqueOf (l t : List (NRep El F)) : Prop := l.Nodup ∧ ∀ f, f ∈ l ↔ f ∈ t

variable [LinearOrder F] [DecidableEq I]

/-- The dictionary `_block_expansion_modules` (basisexpansion_blocks.py:66-85) after the two loops over the sets of representations: the expansion stored for
a pair of names is the last one written, and pairs with an empty basis write nothing. -/
def blockDict (gen : NRep El F → NRep El F → Option B) (ins outs : List (NRep El F)) (n m : F) : Option B :=
  ins.foldl (fun d i => outs.foldl (fun d o => if i.name = n ∧ o.name = m then (gen i o).or d else d) d) none

/-- `BlocksBasisExpansion.__init__` (basisexpansion_blocks.py:24-160) for types with names, the sets of representations listed by `ins` and `outs`.  `basis` is the
analytical basis of a pair of representations.  Simplification: the size and the number of irreps of a name are those of its first field; the code uses those of
each field, which are the same for the direct sums of the same representations. -/
noncomputable def namedExp (inT outT ins outs : List (NRep El F)) (S : ℕ) (points : ℕ → X) (basis : Repr El → Repr El → List (A × (X → Mat)))
    (keep : A → Bool) (shape0 : A → ℕ) (ident : A → I) (inIdx outIdx : A → ℕ) : Exp F A I where
  sz n := ((inT ++ outT).find? fun f => f.name = n).elim 0 fun f => f.rep.size
  nIrr n := ((inT ++ outT).find? fun f => f.name = n).elim 0 fun f => f.rep.irreps.length
  inT := inT.map NRep.name
  outT := outT.map NRep.name
  gen := blockDict (fun i o => singleBlock o.rep.size i.rep.size S keep shape0
    ((basis i.rep o.rep).map fun b => ⟨b.1, fun r c s => b.2 (points s) r c⟩)) ins outs
  ident := ident
  inIdx := inIdx
  outIdx := outIdx

/-- `forward` (basisexpansion_blocks.py:307-358) with the number of pairs `_n_pairs`, which counts the representations and not the names (line 90). -/
noncomputable def Exp.forwardWith (E : Exp F A I) (nPairs : ℕ) (w : List ℝ) : Option Arr3 :=
  if w.length = E.dimension then
    if nPairs = 1 then
      match E.pairs with
      | [] => none
      | p :: _ => (E.contig E.inT p.1).bind fun ci => (E.contig E.outT p.2).bind fun co =>
          if ci ∧ co then (E.expandBlock w p).map (mergeAxes (E.sz p.2) (E.sz p.1)) else none
    else E.pairs.foldlM (fun f p => E.writePair w p f) fun _ _ _ => 0
  else none

/-- An instance of `R2Conv` for types with names. -/
structure NamedConv (El F : Type) where
  cfg : ConvCfg (BasisAttr El) AttrId
  exp : Exp F (BasisAttr El) AttrId
  nPairs : ℕ

open Classical in
/-- `R2Conv.__init__` (r2convolution.py:152-279), see `r2convInit`; `none` for any exception.  The groups are compared as representations (lines 189-190), and
`ins` lists the set of the representations of one input group, which is also the one of the input type. -/
noncomputable def namedConvInit (G : KernelGen El) (a : ConvArgs El) (inT outT ins outs : List (NRep El F)) : Option (NamedConv El F) :=
  match convGroups a.groups inT outT with
  | none => none
  | some inG =>
    match computeBasisParams a.kernelSize a.dilation a.cutoff a.rings a.sigma with
    | none => none
    | some (rings, sigma, fco, maxFreq) =>
      if ∀ i ∈ ins, ∀ o ∈ outs, buildKernelBasis G sigma rings (some maxFreq) a.maximumOffset i.rep o.rep ≠ none then
        let c := a.cfg fco
        let E := namedExp inG outT ins outs (c.k * c.k) (gridCoords c.k c.d)
          (fun ri ro => (buildKernelBasis G sigma rings (some maxFreq) a.maximumOffset ri ro).getD []) c.keep c.shape0 c.ident c.inIdx c.outIdx
        if E.dimension = 0 then none else some ⟨c, E, ins.length * outs.length⟩
      else none

/-- `R2Conv.forward` in training mode (r2convolution.py:294-353), see `r2conv`. -/
noncomputable def NamedConv.forward (N : NamedConv El F) (inT outT : List (NRep El F)) (w b : List ℝ) (n : ℕ) (x : Fmap) : Option Fmap :=
  match convGroups N.cfg.groups inT outT with
  | none => none
  | some inG => (N.exp.forwardWith N.nPairs w).map fun f =>
      conv2d N.cfg.mode n N.cfg.p N.cfg.k N.cfg.s N.cfg.d (typeSize (fun f => f.rep.size) inG) (typeSize (fun f => f.rep.size) outT / N.cfg.groups)
        (reshapeFilter N.cfg.k f) (outBias NRep.rep outT b) x

/-- `transform_fibers(element)` (nn/geometric_tensor.py:333-365): the matrix `ρ` of the type, of size `c`, applied to the channels of each pixel. -/
def transformFibers (c : ℕ) (ρ : Mat) (x : Fmap) : Fmap := fun o i j => ∑ k ∈ Finset.range c, ρ o k * x k i j

end E2
