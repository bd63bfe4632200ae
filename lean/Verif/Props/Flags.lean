import Verif.Model.Flags
import Verif.Props.Bias
import Verif.Props.Irreducible
import Verif.Props.Tags
import Mathlib.LinearAlgebra.Dimension.Constructions
import Mathlib.LinearAlgebra.Matrix.ToLin

/-!
# C95: `irreducible`, `is_trivial` and `contains_trivial`

`contains_trivial` says exactly whether there is an invariant vector, and the number of trivial irreps is the dimension of the space of these.  A representation is
irreducible exactly when its list of irreps has one entry, and trivial exactly when that is the trivial irrep; the flags of the library also ask that the change of
basis is the identity, so that they may be false for such representations.
-/

set_option linter.unusedSectionVars false

namespace E2

open Finset Mat Real

variable {El : Type}

/-! ### Specification -/

/-- The matrices of shape `(n, n)` leave the subspace in itself. -/
def Leaves (G : Grp El) (n : ℕ) (ρ : El → Mat) (W : Submodule ℝ (Fin n → ℝ)) : Prop := ∀ g, G.isEl g → ∀ w ∈ W, (toM n (ρ g)).mulVec w ∈ W

/-- Irreducible: not zero, and no invariant subspace but zero and the whole space. -/
def NoSub (G : Grp El) (n : ℕ) (ρ : El → Mat) : Prop := 0 < n ∧ ∀ W, Leaves G n ρ W → W = ⊥ ∨ W = ⊤

/-- The invariant vectors. -/
def invariants (G : Grp El) (n : ℕ) (ρ : El → Mat) : Submodule ℝ (Fin n → ℝ) where
  carrier := {v | ∀ g, G.isEl g → (toM n (ρ g)).mulVec v = v}
  zero_mem' := fun g _ => Matrix.mulVec_zero _
  add_mem' := fun {a b} ha hb g hg => by rw [Matrix.mulVec_add, ha g hg, hb g hg]
  smul_mem' := fun c a ha g hg => by rw [Matrix.mulVec_smul, ha g hg]

/-- The trivial representation: one dimension, on which nothing happens. -/
def TrivialRep (G : Grp El) (n : ℕ) (ρ : El → Mat) : Prop := n = 1 ∧ ∀ g, G.isEl g → ρ g 0 0 = 1

/-! ### Conjugate representations -/

/-- `ρ'` is `ρ` in another basis. -/
def Conj (G : Grp El) (n : ℕ) (A B : Mat) (ρ ρ' : El → Mat) : Prop := IsInv n A B ∧ ∀ g, G.isEl g → toM n (ρ' g) = toM n A * toM n (ρ g) * toM n B

theorem toM_inv_of {n : ℕ} {A B : Mat} (h : IsInv n A B) : toM n A * toM n B = 1 ∧ toM n B * toM n A = 1 := by
  have h1 := (MEq_iff_toM _ _ _).1 h.1
  have h2 := (MEq_iff_toM _ _ _).1 h.2
  rw [toM_mul, toM_one] at h1 h2
  exact ⟨h1, h2⟩

theorem Conj.symm {G : Grp El} {n : ℕ} {A B : Mat} {ρ ρ' : El → Mat} (h : Conj G n A B ρ ρ') : Conj G n B A ρ' ρ := by
  obtain ⟨h1, h2⟩ := toM_inv_of h.1
  refine ⟨h.1.symm, fun g hg => ?_⟩
  rw [h.2 g hg, Matrix.mul_assoc (toM n A), ← Matrix.mul_assoc (toM n B), h2, Matrix.one_mul, Matrix.mul_assoc, h2, Matrix.mul_one]

theorem NoSub.conj {G : Grp El} {n : ℕ} {A B : Mat} {ρ ρ' : El → Mat} (hc : Conj G n A B ρ ρ') (h : NoSub G n ρ) : NoSub G n ρ' := by
  obtain ⟨h1, h2⟩ := toM_inv_of hc.1
  refine ⟨h.1, fun W hW => ?_⟩
  have key : ∀ w, w ∈ W.comap (toM n A).mulVecLin ↔ (toM n A).mulVec w ∈ W := fun w => Iff.rfl
  have := h.2 (W.comap (toM n A).mulVecLin) (by
    intro g hg w hw
    rw [key] at hw ⊢
    have := hW g hg _ hw
    rwa [hc.2 g hg, Matrix.mulVec_mulVec, Matrix.mul_assoc, h2, Matrix.mul_one, ← Matrix.mulVec_mulVec] at this)
  have back : ∀ v, v = (toM n A).mulVec ((toM n B).mulVec v) := fun v => by rw [Matrix.mulVec_mulVec, h1, Matrix.one_mulVec]
  rcases this with h0 | h0
  · left
    rw [Submodule.eq_bot_iff] at h0 ⊢
    intro v hv
    have := h0 ((toM n B).mulVec v) (by rw [key, ← back]; exact hv)
    rw [back v, this, Matrix.mulVec_zero]
  · right
    rw [Submodule.eq_top_iff'] at h0 ⊢
    intro v
    have := h0 ((toM n B).mulVec v)
    rwa [key, ← back] at this

theorem finrank_invariants_conj {G : Grp El} {n : ℕ} {A B : Mat} {ρ ρ' : El → Mat} (hc : Conj G n A B ρ ρ') :
    Module.finrank ℝ (invariants G n ρ') = Module.finrank ℝ (invariants G n ρ) := by
  obtain ⟨h1, h2⟩ := toM_inv_of hc.1
  let f : (Fin n → ℝ) ≃ₗ[ℝ] (Fin n → ℝ) := LinearEquiv.ofLinear (toM n A).mulVecLin (toM n B).mulVecLin
    (by rw [← Matrix.mulVecLin_mul, h1, Matrix.mulVecLin_one]) (by rw [← Matrix.mulVecLin_mul, h2, Matrix.mulVecLin_one])
  have e : invariants G n ρ' = (invariants G n ρ).map f.toLinearMap := by
    ext v
    rw [Submodule.mem_map_equiv]
    have hv : f.symm v = (toM n B).mulVec v := rfl
    rw [hv]
    change (∀ g, G.isEl g → (toM n (ρ' g)).mulVec v = v) ↔ ∀ g, G.isEl g → (toM n (ρ g)).mulVec ((toM n B).mulVec v) = (toM n B).mulVec v
    refine forall_congr' fun g => forall_congr' fun hg => ?_
    rw [hc.2 g hg]
    constructor
    · intro h
      conv_rhs => rw [← h]
      rw [Matrix.mulVec_mulVec, Matrix.mulVec_mulVec, Matrix.mul_assoc, ← Matrix.mul_assoc (toM n B), h2, Matrix.one_mul]
    · intro h
      rw [Matrix.mul_assoc, ← Matrix.mulVec_mulVec, ← Matrix.mulVec_mulVec, h, Matrix.mulVec_mulVec, h1, Matrix.one_mulVec]
  rw [e]
  exact LinearEquiv.finrank_map_eq f _

theorem Repr.conj_blocks (G : Grp El) {r : Repr El} (h : r.WF) : Conj G r.size r.cob r.cobInv (Repr.blocks r.irreps) r.mat :=
  ⟨h, fun g _ => by rw [Repr.mat, toM_mul, toM_mul]⟩

/-! ### Vectors and lists of entries -/

/-- The entries of a vector, zero outside. -/
def entries {n : ℕ} (v : Fin n → ℝ) : ℕ → ℝ := fun a => if h : a < n then v ⟨a, h⟩ else 0

theorem mulVec_entries {n : ℕ} (A : Mat) (v : Fin n → ℝ) (a : Fin n) : (toM n A).mulVec v a = mulVec n A (entries v) a := by
  simp only [Matrix.mulVec, dotProduct, mulVec, toM]
  rw [Finset.sum_range]
  exact sum_congr rfl fun j _ => by simp [entries]

theorem mem_invariants {G : Grp El} {n : ℕ} {ρ : El → Mat} {v : Fin n → ℝ} : v ∈ invariants G n ρ ↔ Fixed G n ρ (entries v) := by
  constructor
  · intro h g hg i hi
    have := congrFun (h g hg) ⟨i, hi⟩
    rw [mulVec_entries] at this
    rw [this]
    simp [entries, hi]
  · intro h g hg
    funext a
    rw [mulVec_entries, h g hg a a.2]
    simp [entries]

/-! ### Invariant vectors of a list of irreps -/

theorem trivPos_length (i0 : ℕ) (l : List (Irrep El)) : (trivPos i0 l).length = (l.filter isTrivial).length := by
  induction l generalizing i0 with
  | nil => rfl
  | cons i l ih =>
    rw [trivPos, List.filter_cons]
    split_ifs with h
    · rw [List.length_cons, List.length_cons, ih]
    · exact ih _

theorem trivPos_nodup {G : Grp El} (i0 : ℕ) (l : List (Irrep El)) (h : ∀ i ∈ l, TrivOk G i) : (trivPos i0 l).Nodup := by
  induction l generalizing i0 with
  | nil => exact List.nodup_nil
  | cons i l ih =>
    rw [trivPos]
    have ih' := ih (i0 + i.size) fun j hj => h j (List.mem_cons_of_mem _ hj)
    split_ifs with ht
    · refine List.nodup_cons.2 ⟨fun hm => ?_, ih'⟩
      have h1 := (trivPos_lt (fun j hj => h j (List.mem_cons_of_mem _ hj)) hm).1
      have h2 := ((h i List.mem_cons_self).triv ht).1
      omega
    · exact ih'

theorem fixed_blocks_iff {G : Grp El} {l : List (Irrep El)} (h : ∀ i ∈ l, TrivOk G i) (u : ℕ → ℝ) :
    Fixed G (l.map Irrep.size).sum (Repr.blocks l) u ↔ ∀ a < (l.map Irrep.size).sum, a ∉ trivPos 0 l → u a = 0 := by
  constructor
  · intro hu a ha hn
    have := fixed_support h u hu 0 fun q => if q = a then 1 else 0
    simp only [Nat.zero_add, ite_mul, one_mul, zero_mul, Finset.sum_ite_eq', mem_range, ha, if_true, Nat.sub_zero] at this
    rw [this]
    refine List.sum_eq_zero fun x hx => ?_
    obtain ⟨q, hq, rfl⟩ := List.mem_map.1 hx
    have hne : q ≠ a := fun e => hn (e ▸ hq)
    simp [hne]
  · intro hu g hg i hi
    rw [mulVec]
    have : ∀ j ∈ range (l.map Irrep.size).sum, Repr.blocks l g i j * u j = (if i = j then 1 else 0) * u j := by
      intro j hj
      by_cases hm : j ∈ trivPos 0 l
      · have := blocks_triv h hm g hg hi
        rw [Nat.sub_zero] at this
        rw [this]
      · rw [hu j (mem_range.1 hj) hm, mul_zero, mul_zero]
    rw [sum_congr rfl this]
    simp [hi]

/-- **C95, the multiplicity**: the number of trivial irreps of a representation is the dimension of the space of its invariant vectors. -/
theorem c95_multiplicity (G : Grp El) (r : Repr El) (hr : r.WF) (h : ∀ i ∈ r.irreps, TrivOk G i) :
    Module.finrank ℝ (invariants G r.size r.mat) = (r.irreps.filter isTrivial).length := by
  classical
  rw [finrank_invariants_conj (Repr.conj_blocks G hr)]
  let I : Set (Fin r.size) := {a | (a : ℕ) ∈ trivPos 0 r.irreps}
  have e : invariants G r.size (Repr.blocks r.irreps) = ⨅ i ∈ Iᶜ, LinearMap.ker (LinearMap.proj i : (Fin r.size → ℝ) →ₗ[ℝ] ℝ) := by
    ext v
    rw [mem_invariants, show Fixed G r.size (Repr.blocks r.irreps) (entries v) ↔ _ from fixed_blocks_iff h _]
    simp only [Submodule.mem_iInf, LinearMap.mem_ker, LinearMap.proj_apply]
    constructor
    · intro hv i hi
      have := hv i i.2 hi
      simpa [entries] using this
    · intro hv a ha hn
      have := hv ⟨a, ha⟩ hn
      have e : entries v a = v ⟨a, ha⟩ := dif_pos ha
      rw [e]
      simpa using this
  rw [e, (LinearMap.iInfKerProjEquiv ℝ (fun _ : Fin r.size => ℝ) (I := I) (J := Iᶜ) disjoint_compl_right (by simp)).finrank_eq, Module.finrank_fintype_fun_eq_card,
    ← trivPos_length 0]
  have hcard : (trivPos 0 r.irreps).toFinset.card = (trivPos 0 r.irreps).length := List.toFinset_card_of_nodup (trivPos_nodup 0 _ h)
  rw [← hcard, ← Set.toFinset_card]
  refine Finset.card_bij (fun a _ => (a : ℕ)) ?_ ?_ ?_
  · intro a ha
    simpa [I] using ha
  · intro a _ b _ hab
    exact Fin.ext hab
  · intro q hq
    have hq' := List.mem_toFinset.1 hq
    have := (trivPos_lt h hq').2
    exact ⟨⟨q, by rw [Nat.zero_add] at this; exact this⟩, by simpa [I] using hq', rfl⟩

/-- **C95, `contains_trivial`**: it is true exactly when some vector other than zero is invariant. -/
theorem c95_contains_trivial (G : Grp El) (r : Repr El) (hr : r.WF) (h : ∀ i ∈ r.irreps, TrivOk G i) :
    r.containsTrivial = true ↔ ∃ v : Fin r.size → ℝ, v ≠ 0 ∧ ∀ g, G.isEl g → (toM r.size (r.mat g)).mulVec v = v := by
  have h1 : (∃ v : Fin r.size → ℝ, v ≠ 0 ∧ ∀ g, G.isEl g → (toM r.size (r.mat g)).mulVec v = v) ↔ invariants G r.size r.mat ≠ ⊥ := by
    rw [Submodule.ne_bot_iff]
    exact ⟨fun ⟨v, h0, hv⟩ => ⟨v, hv, h0⟩, fun ⟨v, hv, h0⟩ => ⟨v, h0, hv⟩⟩
  rw [h1, ne_eq, ← Submodule.finrank_eq_zero (R := ℝ), c95_multiplicity G r hr h, List.length_eq_zero_iff, List.filter_eq_nil_iff, Repr.containsTrivial, List.any_eq_true]
  push Not
  rfl

/-! ### Irreducible representations -/

theorem isIrreducible_iff {G : Grp El} {i : Irrep El} : IsIrreducible G i ↔ NoSub G i.size i.mat := Iff.rfl

theorem blocks_single (i : Irrep El) (g : El) : MEq i.size i.size (Repr.blocks [i] g) (i.mat g) := by
  intro a ha b hb
  simp [Repr.blocks, bdiag, ha, hb]

/-- **C95, irreducible representations** are those with one irrep. -/
theorem c95_irreducible (G : Grp El) (r : Repr El) (hr : r.WF) (h : ∀ i ∈ r.irreps, IsIrreducible G i) :
    NoSub G r.size r.mat ↔ r.irreps.length = 1 := by
  have hc := Repr.conj_blocks G hr
  constructor
  · intro hn
    have hb := hn.conj hc.symm
    obtain ⟨l, cob, cobInv⟩ := r
    rcases l with _ | ⟨i, _ | ⟨j, l⟩⟩
    · exact absurd hn.1 (by simp [Repr.size])
    · rfl
    · exfalso
      have hi := (h i (by simp)).1
      have hj := (h j (by simp)).1
      set n := Repr.size ⟨i :: j :: l, cob, cobInv⟩ with hn'
      have hsz : n = i.size + (j.size + (l.map Irrep.size).sum) := by simp [hn', Repr.size]
      let W : Submodule ℝ (Fin n → ℝ) :=
        { carrier := {v | ∀ a : Fin n, i.size ≤ a → v a = 0}
          zero_mem' := fun a _ => rfl
          add_mem' := fun {u v} hu hv a ha => by rw [Pi.add_apply, hu a ha, hv a ha, add_zero]
          smul_mem' := fun c v hv a ha => by rw [Pi.smul_apply, hv a ha, smul_zero] }
      rcases hb.2 W (by
        intro g hg w hw a ha
        rw [mulVec_entries, blocks_cons]
        have ht : total ((j :: l).map fun i => (i.size, i.mat g)) = j.size + (l.map Irrep.size).sum := by
          rw [total_irreps]; simp
        have h1 := mulVec_bdiag_cons_ge i.size (i.mat g) ((j :: l).map fun i => (i.size, i.mat g)) (entries w) (a - i.size)
        rw [ht, ← hsz, show i.size + (↑a - i.size) = ↑a by omega] at h1
        rw [h1, mulVec]
        refine sum_eq_zero fun q _ => ?_
        have : entries w (i.size + q) = 0 := by
          unfold entries
          split_ifs with hlt
          · exact hw ⟨i.size + q, hlt⟩ (by simp)
          · rfl
        rw [this, mul_zero]) with h0 | h0
      · have hlt : 0 < n := by omega
        have hm : (Pi.single ⟨0, hlt⟩ 1 : Fin n → ℝ) ∈ W := by
          intro a ha
          refine Pi.single_eq_of_ne (fun e => ?_) _
          rw [e] at ha
          simp only at ha
          omega
        rw [h0, Submodule.mem_bot] at hm
        have := congrFun hm ⟨0, hlt⟩
        simp at this
      · have hlt : i.size < n := by omega
        have hm : (Pi.single ⟨i.size, hlt⟩ 1 : Fin n → ℝ) ∈ W := by rw [h0]; trivial
        have := hm ⟨i.size, hlt⟩ (le_refl _)
        simp at this
  · intro hl
    obtain ⟨i, hi⟩ := List.length_eq_one_iff.1 hl
    refine NoSub.conj hc ?_
    have hsz : r.size = i.size := by simp [Repr.size, hi]
    rw [hsz, hi]
    have := h i (by rw [hi]; simp)
    refine ⟨this.1, fun W hW => this.2 W fun g hg w hw => ?_⟩
    have h2 := hW g hg w hw
    rwa [(MEq_iff_toM _ _ _).1 (blocks_single i g)] at h2

/-- **C95, trivial representations** are those whose only irrep is the trivial one. -/
theorem c95_trivial_iff (G : Grp El) (r : Repr El) (hr : r.WF) (h : ∀ i ∈ r.irreps, IsIrreducible G i ∧ TrivOk G i) :
    TrivialRep G r.size r.mat ↔ ∃ i, r.irreps = [i] ∧ isTrivial i = true := by
  have hvec : ∀ (A : Mat) (v : Fin 1 → ℝ), (toM 1 A).mulVec v = fun a => A 0 0 * v a := by
    intro A v
    funext a
    have : a = 0 := Subsingleton.elim _ _
    subst this
    simp [Matrix.mulVec, dotProduct, toM]
  constructor
  · rintro ⟨h1, h2⟩
    have hct : r.containsTrivial = true := by
      rw [c95_contains_trivial G r hr fun i hi => (h i hi).2]
      refine ⟨fun _ => 1, ?_, ?_⟩
      · rw [h1]
        intro e
        simpa using congrFun e 0
      · intro g hg
        rw [h1, hvec, h2 g hg]
        simp
    have hpos : ∀ i ∈ r.irreps, 0 < i.size := fun i hi => (h i hi).1.1
    have hlen : r.irreps.length = 1 := by
      have hle : r.irreps.length ≤ r.size := by
        have := List.length_le_sum_of_one_le (r.irreps.map Irrep.size) (by
          intro s hs
          obtain ⟨i, hi, rfl⟩ := List.mem_map.1 hs
          exact hpos i hi)
        rwa [List.length_map] at this
      have h0 : r.irreps ≠ [] := by
        rintro h0
        simp [Repr.size, h0] at h1
      have := List.length_pos_of_ne_nil h0
      omega
    obtain ⟨i, hi⟩ := List.length_eq_one_iff.1 hlen
    exact ⟨i, hi, by simpa [Repr.containsTrivial, hi] using hct⟩
  · rintro ⟨i, hi, ht⟩
    obtain ⟨t1, t2⟩ := (h i (by rw [hi]; simp)).2.triv ht
    have hsz : r.size = 1 := by simp [Repr.size, hi, t1]
    refine ⟨hsz, fun g hg => ?_⟩
    have hb : Repr.blocks r.irreps g 0 0 = 1 := by
      rw [hi]
      simp [Repr.blocks, bdiag, t1, t2 g hg]
    have := hr.1 0 (by omega) 0 (by omega)
    rw [hsz] at this
    rw [Repr.mat, hsz]
    simp only [Mat.mul, Finset.sum_range_one, hb, mul_one]
    simpa [Mat.mul, Mat.one] using this

/-- **C95, the flags**: a representation marked irreducible, or trivial, is so; and conversely if the change of basis is the identity. -/
theorem c95_flags_partial (G : Grp El) (r : Repr El) (hr : r.WF) (h : ∀ i ∈ r.irreps, IsIrreducible G i ∧ TrivOk G i) :
    (r.Irreducible → NoSub G r.size r.mat) ∧ (r.IsTrivial → TrivialRep G r.size r.mat) ∧
    (MEq r.size r.size r.cob Mat.one → (NoSub G r.size r.mat → r.Irreducible) ∧ (TrivialRep G r.size r.mat → r.IsTrivial)) := by
  have hi := c95_irreducible G r hr fun i hi => (h i hi).1
  have ht := c95_trivial_iff G r hr h
  refine ⟨fun hf => hi.2 hf.1, fun hf => ht.2 ?_, fun hc => ⟨fun hn => ⟨hi.1 hn, hc⟩, fun hn => ?_⟩⟩
  · obtain ⟨⟨h1, -⟩, h2⟩ := hf
    obtain ⟨i, hi⟩ := List.length_eq_one_iff.1 h1
    refine ⟨i, hi, ?_⟩
    have := h2 i (by simp [hi])
    simpa [isTrivial] using this
  · obtain ⟨i, hi, hti⟩ := ht.1 hn
    refine ⟨⟨by rw [hi]; rfl, hc⟩, ?_⟩
    intro j hj
    rw [hi] at hj
    obtain rfl := Option.some.inj hj
    simpa [isTrivial] using hti

/-- The library's groups. -/
theorem c95_cyclic (N : ℕ) (hN : 0 < N) (i : Irrep ℤ) (h : ∃ k, Cyclic.irrep N k = some i) : IsIrreducible (Cyclic.grp N) i ∧ TrivOk (Cyclic.grp N) i := by
  obtain ⟨k, hk⟩ := h
  exact ⟨(c57_cyclic N hN k i hk).1, Cyclic.trivOk hN hk⟩

theorem c95_dihedral (N : ℕ) (hN : 0 < N) (i : Irrep (ℤ × ℤ)) (h : ∃ j k, Dihedral.irrep N j k = some i) :
    IsIrreducible (Dihedral.grp N) i ∧ TrivOk (Dihedral.grp N) i := by
  obtain ⟨j, k, hk⟩ := h
  exact ⟨(c57_dihedral N hN j k i hk).1, Dihedral.trivOk hN hk⟩

theorem c95_so2 (i : Irrep ℝ) (h : ∃ k, i = SO2.irrep k) : IsIrreducible SO2.grp i ∧ TrivOk SO2.grp i := by
  obtain ⟨k, rfl⟩ := h
  exact ⟨(c57_so2 k).1, SO2.trivOk k⟩

theorem c95_o2 (i : Irrep (ℤ × ℝ)) (h : ∃ j k, O2.irrep j k = some i) : IsIrreducible O2.grp i ∧ TrivOk O2.grp i := by
  obtain ⟨j, k, hk⟩ := h
  exact ⟨(c57_o2 j k i hk).1, O2.trivOk hk⟩

/-- **C95 fails for the flags**: `change_basis(trivial_representation, [[-1]])` is the trivial representation, but `is_trivial()` and `irreducible` are false. -/
theorem c95_flags_wrong : ∃ r : Repr ℝ, r.WF ∧ (∀ i ∈ r.irreps, ∃ k, i = SO2.irrep k) ∧ TrivialRep SO2.grp r.size r.mat ∧ NoSub SO2.grp r.size r.mat ∧
    r.containsTrivial = true ∧ ¬ r.IsTrivial ∧ ¬ r.Irreducible := by
  let r : Repr ℝ := ⟨[SO2.irrep 0], m1 (-1), m1 (-1)⟩
  have hs : r.size = 1 := by simp [r, Repr.size, SO2.irrep]
  have hwf : r.WF := by
    rw [Repr.WF, hs]
    constructor <;>
    · intro a ha b hb
      obtain rfl : a = 0 := by omega
      obtain rfl : b = 0 := by omega
      simp [Mat.mul, r, m1, Mat.one]
  have hir : ∀ i ∈ r.irreps, ∃ k, i = SO2.irrep k := fun i hi => ⟨0, List.mem_singleton.1 hi⟩
  have hne : ¬ r.Irreducible := by
    rintro ⟨-, h⟩
    have := h 0 (by omega) 0 (by omega)
    simp [r, m1, Mat.one] at this
    norm_num at this
  refine ⟨r, hwf, hir, ?_, ?_, rfl, fun h => hne h.1, hne⟩
  · exact (c95_trivial_iff SO2.grp r hwf fun i hi => c95_so2 i (hir i hi)).2 ⟨_, rfl, rfl⟩
  · exact (c95_irreducible SO2.grp r hwf fun i hi => (c95_so2 i (hir i hi)).1).2 rfl

/-- The regular representation of `C_4`: one invariant vector up to multiples, and not irreducible. -/
example : ∃ r, Cyclic.regular 4 = some r ∧ Module.finrank ℝ (invariants (Cyclic.grp 4) r.size r.mat) = 1 ∧ ¬ NoSub (Cyclic.grp 4) r.size r.mat := by
  obtain ⟨r, h1, h2, h3⟩ := c12_cyclic_regular 4 (by norm_num)
  have hir : ∀ i ∈ r.irreps, ∃ k, Cyclic.irrep 4 k = some i := fun i hi => by rw [h3] at hi; exact Cyclic.exists_of_mem_irreps hi
  refine ⟨r, h1, ?_, ?_⟩
  · rw [c95_multiplicity _ r h2.wf fun i hi => (c95_cyclic 4 (by norm_num) i (hir i hi)).2, h3]
    simp [Cyclic.irreps, Cyclic.order_eq, Cyclic.irrep, List.range_succ, isTrivial]
  · rw [c95_irreducible _ r h2.wf fun i hi => (c95_cyclic 4 (by norm_num) i (hir i hi)).1, h3]
    simp [Cyclic.irreps, Cyclic.order_eq, Cyclic.irrep, List.range_succ]

end E2
