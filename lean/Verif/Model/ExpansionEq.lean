import Verif.Model.Init

/-!
# Equality of basis expansions: `BlocksBasisExpansion.__eq__` and `SingleBlockBasisExpansion.__eq__`

The cache of `generalized_he_init` is indexed by the expansions and so compares them with `==`.
-/

namespace E2

variable {F A I Nm : Type} [LinearOrder F] [DecidableEq I]

namespace Exp

/-- `_contiguous[io_pair]` (`basisexpansion_blocks.py:119`). -/
def pairContig (E : Exp F A I) (p : F × F) : Prop := E.contig E.inT p.1 = some true ∧ E.contig E.outT p.2 = some true

/-- The three numbers `[min, max + 1, max + 1 - min]` (`basisexpansion_blocks.py:124-137`). -/
def rectIdx (l : List ℕ) : List ℕ := [l.min?.getD 0, l.max?.getD 0 + 1, l.max?.getD 0 + 1 - l.min?.getD 0]

open Classical in
/-- The attribute `in_indices_{io_pair}` (`basisexpansion_blocks.py:122-146`). -/
noncomputable def inBuf (E : Exp F A I) (p : F × F) : List ℕ :=
  if E.pairContig p then rectIdx (E.indices E.inT p.1) else meshIn (E.indices E.outT p.2) (E.indices E.inT p.1)

open Classical in
/-- The attribute `out_indices_{io_pair}` (`basisexpansion_blocks.py:122-146`). -/
noncomputable def outBuf (E : Exp F A I) (p : F × F) : List ℕ :=
  if E.pairContig p then rectIdx (E.indices E.outT p.2) else meshOut (E.indices E.outT p.2) (E.indices E.inT p.1)

/-- `SingleBlockBasisExpansion.__eq__` (`basisexpansion_singleblock.py:131-139`) for filters sampled on `S` points: the analytical bases are equal, which compares the
two representations (`kernels/steerable_basis.py:275-290`, `representation.py:328-336`), here their sizes and numbers of irreps, and gives the same attributes; the kept
elements are the same (the mask) and so are the sampled bases (exactly, without the tolerance of `allclose`). -/
def blockEq (S : ℕ) (E E' : Exp F A I) (p : F × F) : Prop :=
  (E.sz p.1 = E'.sz p.1 ∧ E.sz p.2 = E'.sz p.2) ∧ (E.nIrr p.1 = E'.nIrr p.1 ∧ E.nIrr p.2 = E'.nIrr p.2) ∧
    List.Forall₂ (fun e e' => e.attr = e'.attr ∧ ∀ o i s, o < E.sz p.2 → i < E.sz p.1 → s < S → e.ker o i s = e'.ker o i s) (E.block p) (E'.block p)

/-- `_weights_ranges[io_pair]`. -/
def wRange (E : Exp F A I) (p : F × F) : Option (ℕ × ℕ) := (E.ranges.find? fun r => decide (r.1 = p)).map Prod.snd

/-- `BlocksBasisExpansion.__eq__` (`basisexpansion_blocks.py:369-400`).  Index tensors of different lengths, whose comparison raises in PyTorch, count as
different here.  The sizes of the two types are not compared, as in the code. -/
def eqv (S : ℕ) (E E' : Exp F A I) : Prop :=
  E.dimension = E'.dimension ∧ E.pairs = E'.pairs ∧
    ∀ p ∈ E.pairs, (E.pairContig p ↔ E'.pairContig p) ∧ E.wRange p = E'.wRange p ∧ E.inBuf p = E'.inBuf p ∧ E.outBuf p = E'.outBuf p ∧
      blockEq S E E' p

/-- What `init.py` reads from `get_basis_info`: `inIrr`, `outIrr`, `rad` give the entries `in_irrep`, `out_irrep` and `radius` or `order` of the attributes of an
element (`init.py:26-40`, 109-114). -/
def winfos (E : Exp F A I) (inIrr outIrr : A → Nm) (rad : A → Option ℝ) : List (WInfo Nm) :=
  E.basisInfo.map fun a => ⟨inIrr a.attr, outIrr a.attr, a.inIrrPos, a.outIrrPos, rad a.attr⟩

end Exp

end E2
