import Verif.Props.R2ConvInit
import Verif.Props.SteerableComplete
import Verif.Lemmas.Nonlin
import Verif.Lemmas.DecomposeChar

/-!
# C75: `R2Conv` can be built between any two representations which share an irrep, for every odd kernel size

The basis has the identity of the common irrep at the centre of the filter.
-/

set_option linter.unusedSectionVars false

namespace E2

open Finset Mat Real

variable {El F : Type} [LinearOrder F]

/-- The space has a basis for all pairs of the irreps `P`, for all frequencies, and the identity is an element of frequency 0. -/
def KernelGen.Full (G : KernelGen El) (P : Irrep El → Prop) : Prop :=
  ∀ f : ℕ, ∃ bas, G.bas (some (f : ℤ)) none = some bas ∧ (∀ i o, P i → P o → ∃ l, bas i o = some l) ∧
    ∀ i, P i → ∃ l, bas i i = some l ∧ ∃ e ∈ l, e.mu = 0 ∧ ∀ φ, MEq i.size i.size (angMat i.size i.size e φ) Mat.one

theorem angMat_one {s : ℕ} (hs : s = 1 ∨ s = 2) {e : AngElem} (h1 : e.mu = 0) (h2 : e.gamma = 0) (h3 : e.s = 0) (φ : ℝ) : MEq s s (angMat s s e φ) Mat.one := by
  intro i hi j hj
  rcases hs with rfl | rfl
  · obtain rfl : i = 0 := by omega
    obtain rfl : j = 0 := by omega
    simp [angMat, h1, h2, m1, Mat.one]
  · have : (i = 0 ∨ i = 1) ∧ (j = 0 ∨ j = 1) := by omega
    rcases this with ⟨rfl | rfl, rfl | rfl⟩ <;> simp [angMat, psichi, h1, h2, h3, m2, Mat.one]

theorem atom_zero (s f : ℕ) : Atom s s f ⟨0, 0, 0, 0⟩ := atom_mk (by simp) (Or.inl rfl) (Or.inl rfl) (fun _ => rfl) (fun _ _ => ⟨le_refl _, fun _ => rfl⟩)

theorem checkBounds_freq (f : ℕ) : checkBounds (some (f : ℤ)) none = some (some f, none) := by simp [checkBounds]

theorem baseFreq_self (s n : ℕ) (hs : s = 1 ∨ s = 2) : baseFreq s s n n ⟨0, 0, 0, 0⟩ = 0 := by
  rcases hs with rfl | rfl <;> simp [baseFreq]

theorem flipGamma_self (s j : ℕ) (hs : s = 1 ∨ s = 2) : flipGamma s s j j = 0 := by
  rcases hs with rfl | rfl <;> simp [flipGamma]

theorem rot2dGen_full {N : ℕ} (hN : 0 < N) : (rot2dGen N).Full fun i => ∃ k, Cyclic.irrep N k = some i := by
  intro f
  refine ⟨fun i o => rotBasis N i o (some f) none, by simp [rot2dGen, checkBounds_freq], ?_, ?_⟩
  · rintro i o ⟨n, hn⟩ ⟨m, hm⟩
    obtain ⟨l, hl, -⟩ := c69_cyclic_complete N hN n m i o hn hm f
    exact ⟨l, hl⟩
  · rintro i ⟨n, hn⟩
    obtain ⟨l, hl, -⟩ := c69_cyclic_complete N hN n n i i hn hn f
    obtain ⟨t, ht⟩ := rotBasis_complete hN hn hn hl (atom_zero i.size f) (by rw [baseFreq_self _ _ (Cyclic.size12 hn)]; simp)
    exact ⟨l, hl, _, ht, rfl, angMat_one (Cyclic.size12 hn) rfl rfl rfl⟩

theorem trivialGen_full : trivialGen.Full fun i => ∃ k, Cyclic.irrep 1 k = some i := rot2dGen_full one_pos

theorem flip2dGen_full (axis : ℝ) : (flip2dGen axis).Full fun i => ∃ k, Cyclic.irrep 2 k = some i := by
  intro f
  refine ⟨fun i o => flipsBasis i o (some f) none, by simp [flip2dGen, checkBounds_freq], ?_, ?_⟩
  · rintro i o ⟨n, hn⟩ ⟨m, hm⟩
    obtain ⟨l, hl, -⟩ := c69_flip_complete axis n m i o hn hm f
    exact ⟨l, hl⟩
  · rintro i ⟨n, hn⟩
    obtain ⟨l, hl, -⟩ := c69_flip_complete axis n n i i hn hn f
    obtain ⟨t, ht⟩ := flipsBasis_complete hn hn hl (atom_zero i.size f) (by rw [flipGamma_self _ _ (Cyclic.size12 hn)])
    exact ⟨l, hl, _, ht, rfl, angMat_one (Cyclic.size12 hn) rfl rfl rfl⟩

theorem flipRot2dGen_full {N : ℕ} (hN : 0 < N) (axis : ℝ) : (flipRot2dGen N axis).Full fun i => ∃ j k, Dihedral.irrep N j k = some i := by
  intro f
  refine ⟨fun i o => flipRotBasis N i o (some f) none, by simp [flipRot2dGen, checkBounds_freq], ?_, ?_⟩
  · rintro i o ⟨j, n, hn⟩ ⟨j', m, hm⟩
    obtain ⟨l, hl, -⟩ := c69_dihedral_complete N hN axis j n j' m i o hn hm f
    exact ⟨l, hl⟩
  · rintro i ⟨j, n, hn⟩
    obtain ⟨l, hl, -⟩ := c69_dihedral_complete N hN axis j n j n i i hn hn f
    obtain ⟨t, ht⟩ := flipRotBasis_complete hN hn hn hl (atom_zero i.size f) (by rw [baseFreq_self _ _ (Dihedral.size12 hn)]; simp)
      (by rw [flipGamma_self _ _ (Dihedral.size12 hn)])
    exact ⟨l, hl, _, ht, rfl, angMat_one (Dihedral.size12 hn) rfl rfl rfl⟩

theorem so2Gen_full : so2Gen.Full fun i => ∃ k, SO2.irrep k = i := by
  have hs : ∀ k, (SO2.irrep k).size = if k = 0 then 1 else 2 := fun k => by by_cases hk : k = 0 <;> simp [SO2.irrep, hk]
  have hf : ∀ k, (SO2.irrep k).freq = k := fun k => by by_cases hk : k = 0 <;> simp [SO2.irrep, hk]
  intro f
  refine ⟨contBasis, rfl, ?_, ?_⟩
  · rintro i o ⟨n, rfl⟩ ⟨m, rfl⟩
    by_cases hn : n = 0 <;> by_cases hm : m = 0 <;> simp [contBasis, hs, hf, hn, hm]
  · rintro i ⟨n, rfl⟩
    by_cases hn : n = 0
    · refine ⟨_, by simp [contBasis, hs, hf, hn]; rfl, ⟨0, 0, 0, 0⟩, by simp [hn], rfl, angMat_one (SO2.size12 n) rfl rfl rfl⟩
    · refine ⟨_, by simp [contBasis, hs, hf, hn]; rfl, ⟨0, 0, 0, 0⟩, by simp [hn], rfl, angMat_one (SO2.size12 n) rfl rfl rfl⟩

theorem o2Gen_full (axis : ℝ) : (o2Gen axis).Full fun i => ∃ j k, O2.irrep j k = some i := by
  intro f
  refine ⟨flipContBasis, rfl, ?_, ?_⟩
  · rintro i o ⟨j, n, hn⟩ ⟨j', m, hm⟩
    obtain ⟨l, hl, -⟩ := c18_o2_kernel_constraint axis j n j' m i o hn hm
    exact ⟨l, hl⟩
  · rintro i ⟨j, n, hn⟩
    have hs := O2.size12 hn
    have hf : i.freq = n ∧ i.flip = j ∧ (i.size = 1 → n = 0) ∧ (i.size = 2 → 0 < n ∧ j = 1) := by
      unfold O2.irrep at hn
      split_ifs at hn with h1 h2 h3 h4
      · cases hn
        simp [h3]
      · cases hn
        simp [h4]
      · cases hn
        exact ⟨rfl, rfl, by simp, fun _ => by omega⟩
    obtain ⟨h1, h2, h3, h4⟩ := hf
    rcases hs with hs | hs
    · refine ⟨[⟨0, 0, 0, 0⟩], ?_, ⟨0, 0, 0, 0⟩, by simp, rfl, angMat_one (O2.size12 hn) rfl rfl rfl⟩
      have : (j + j) % 2 = 0 := by omega
      simp [flipContBasis, hs, h1, h2, h3 hs, this]
    · obtain ⟨h5, h6⟩ := h4 hs
      refine ⟨[⟨0, 0, 0, 0⟩, ⟨n + n, 0, 1, 0⟩], ?_, ⟨0, 0, 0, 0⟩, by simp, rfl, angMat_one (O2.size12 hn) rfl rfl rfl⟩
      simp [flipContBasis, hs, h1, h2, h5, h6]

/-- The change of basis is orthogonal. -/
def Repr.OrthCob (r : Repr El) : Prop := IsInv r.size r.cob (tr r.cob)

/-- Multiplying by orthogonal matrices keeps the sum of the squares. -/
theorem orth_mul_sq {n m : ℕ} {B A M : Mat} (hB : Orth n B) (hA : Orth m (tr A)) :
    ∑ i ∈ range n, ∑ j ∈ range m, (Mat.mul n B (Mat.mul m M A)) i j ^ 2 = ∑ i ∈ range n, ∑ j ∈ range m, M i j ^ 2 := by
  rw [Finset.sum_comm]
  have h1 : ∀ j, ∑ i ∈ range n, (Mat.mul n B (Mat.mul m M A)) i j ^ 2 = ∑ k ∈ range n, (Mat.mul m M A) k j ^ 2 := fun j => orth_sum_sq hB _
  rw [Finset.sum_congr rfl fun j _ => h1 j, Finset.sum_comm]
  refine Finset.sum_congr rfl fun k _ => ?_
  rw [← orth_sum_sq hA (fun l => M k l)]
  refine Finset.sum_congr rfl fun j _ => ?_
  congr 1
  exact Finset.sum_congr rfl fun l _ => mul_comm _ _

/-- The element of a steerable basis given by the identity of a common irrep has the identity at the origin, in the changed bases. -/
theorem centre_sq {axis : ℝ} {bas : Irrep El → Irrep El → Option (List AngElem)} {rin rout : Repr El} {S : SBasis El AngElem}
    (hS : steerable bas rin rout = some S) (hi : rin.WF) (hio : rin.OrthCob) (hoo : rout.OrthCob) {b : ℕ} {a : SBasis.Attr El AngElem}
    (hb : S.iter[b]? = some a) (he : a.inIrrep = a.outIrrep) (hs : 0 < a.inIrrep.size) (hmu : a.elem.mu = 0)
    (hone : ∀ φ, MEq a.inIrrep.size a.inIrrep.size (angMat a.inIrrep.size a.inIrrep.size a.elem φ) Mat.one) :
    1 ≤ ∑ o ∈ range rout.size, ∑ p ∈ range rin.size, ((S.sample (angSamp axis) none).slice b o p) ^ 2 := by
  have h1 := sample_slice bas (angSamp axis) rin rout hS none b
  rw [Finset.sum_congr rfl fun o ho => Finset.sum_congr rfl fun p hp => by rw [h1 o (Finset.mem_range.1 ho) p (Finset.mem_range.1 hp)]]
  have hci : MEq rin.size rin.size rin.cobInv (tr rin.cob) := hi.unique hio
  rw [orth_mul_sq (B := rout.cob) (A := rin.cobInv) hoo.2 ((hci.mul hci.tr).trans hio.2)]
  obtain ⟨g1, g2, -, -⟩ := SBasis.iter_get S hb
  rw [SBasis.sampleDirectSum_slice (angSamp axis) S none hb]
  obtain ⟨f1, f2, -⟩ := steerable_fields hS
  rw [f1] at g1
  rw [f2] at g2
  rw [f1, f2]
  have o1 : offset (rin.irreps.map Irrep.size) a.inIdx + a.inIrrep.size ≤ rin.size := by
    obtain ⟨hlt, hg⟩ := List.getElem?_eq_some_iff.1 g1
    have := offset_add_le (rin.irreps.map Irrep.size) (k := a.inIdx) (by simpa using hlt)
    rw [List.getElem_map, hg] at this
    exact this
  have o2 : offset (rout.irreps.map Irrep.size) a.outIdx + a.outIrrep.size ≤ rout.size := by
    obtain ⟨hlt, hg⟩ := List.getElem?_eq_some_iff.1 g2
    have := offset_add_le (rout.irreps.map Irrep.size) (k := a.outIdx) (by simpa using hlt)
    rw [List.getElem_map, hg] at this
    exact this
  rw [← he] at o2 ⊢
  set u := offset (rin.irreps.map Irrep.size) a.inIdx
  set v := offset (rout.irreps.map Irrep.size) a.outIdx
  refine le_trans ?_ (Finset.single_le_sum (fun o _ => Finset.sum_nonneg fun p _ => sq_nonneg _) (Finset.mem_range.2 (show v < rout.size by omega)))
  refine le_trans ?_ (Finset.single_le_sum (fun p _ => sq_nonneg _) (Finset.mem_range.2 (show u < rin.size by omega)))
  have h2 : Mat.place v a.inIrrep.size u a.inIrrep.size (angSamp axis a.inIrrep a.inIrrep a.elem none) v u = 1 := by
    unfold Mat.place
    rw [if_pos ⟨⟨le_refl _, by omega⟩, le_refl _, by omega⟩, Nat.sub_self, Nat.sub_self]
    unfold angSamp angSample
    rw [if_neg (by simp [hmu]), hone _ 0 hs 0 hs]
    rfl
  rw [h2]
  norm_num

/-- The basis for two representations which share an irrep has an element of frequency 0 in the ring of radius 0, which is not zero at the origin. -/
theorem polarBasis_centre {G : KernelGen El} {P : Irrep El → Prop} (hG : G.Full P) (hP : ∀ i, P i → i.size = 1 ∨ i.size = 2) {rin rout : Repr El}
    (hPi : ∀ i ∈ rin.irreps, P i) (hPo : ∀ i ∈ rout.irreps, P i) (f : ℕ) {rings sigma : List ℝ}
    (hs0 : ∀ s ∈ sigma, 0 < s) (hsl : sigma.length = rings.length) :
    ∃ l, buildKernelBasis G sigma rings (some (f : ℤ)) none rin rout = some l ∧
      (rin.WF → rin.OrthCob → rout.OrthCob → 0 ∈ rings → ∀ ψ ∈ rin.irreps, ψ ∈ rout.irreps →
        ∃ e ∈ l, e.1.angular.elem.mu = 0 ∧ e.1.radial.1.1 = 0 ∧ e.1.angular.outIrrep = ψ ∧ 1 ≤ ∑ o ∈ range rout.size, ∑ p ∈ range rin.size, (e.2 (0, 0) o p) ^ 2) := by
  classical
  obtain ⟨bas, hbas, hall, hid⟩ := hG f
  obtain ⟨S, hS⟩ : ∃ S, steerable bas rin rout = some S := by
    unfold steerable
    rw [if_pos (fun i hi o ho => by obtain ⟨l, hl⟩ := hall i o (hPi i hi) (hPo o ho); rw [hl]; simp)]
    exact ⟨_, rfl⟩
  refine ⟨_, by unfold buildKernelBasis; rw [if_pos ⟨hs0, hsl⟩, hbas]; dsimp only; rw [polarBasis, hS]; rfl, ?_⟩
  intro hwf hio hoo h0 ψ hψi hψo
  obtain ⟨k, hk⟩ := List.mem_iff_getElem?.1 h0
  have hkl : k < rings.length := (List.getElem?_eq_some_iff.1 hk).1
  obtain ⟨σ, hσ⟩ : ∃ σ, sigma[k]? = some σ := ⟨_, List.getElem?_eq_getElem (by omega)⟩
  have hz : (rings.zip sigma)[k]? = some (0, σ) := List.getElem?_zip_eq_some.2 ⟨hk, hσ⟩
  obtain ⟨l, hl, e, he, hmu, hone⟩ := hid ψ (hPi ψ hψi)
  obtain ⟨f1, f2, f3⟩ := steerable_fields hS
  obtain ⟨ii, hii⟩ := List.mem_iff_getElem?.1 hψi
  obtain ⟨oo, hoo'⟩ := List.mem_iff_getElem?.1 hψo
  obtain ⟨t, ht⟩ := List.mem_iff_getElem?.1 he
  obtain ⟨b, hb, a, ha, hkey⟩ := SBasis.exists_index S (f1 ▸ hii) (f2 ▸ hoo') (k := t) (e := e) (by rw [f3]; simp only [hl, Option.getD_some]; exact ht)
  obtain ⟨g1, g2, g3, g4⟩ := SBasis.iter_get S ha
  simp only [SBasis.Attr.key, Prod.mk.injEq] at hkey
  obtain ⟨⟨e1, e2⟩, e3⟩ := hkey
  rw [e1, f1, hii] at g1
  rw [e2, f2, hoo'] at g2
  have q1 : a.inIrrep = ψ := (Option.some.inj g1).symm
  have q2 : a.outIrrep = ψ := (Option.some.inj g2).symm
  rw [q1, q2, e3, f3] at g3
  simp only [hl, Option.getD_some, ht] at g3
  have q3 : a.elem = e := (Option.some.inj g3).symm
  obtain ⟨c1, c2⟩ := c22_plane_basis_indexing (rings.zip sigma) S G.axis
  have hlen : (rings.zip sigma).length = rings.length := by simp [hsl]
  have hlt : k * S.dim + b < (rings.zip sigma).length * S.dim := by
    rw [hlen]
    calc k * S.dim + b < k * S.dim + S.dim := by omega
      _ = (k + 1) * S.dim := by ring
      _ ≤ _ := Nat.mul_le_mul_right _ hkl
  obtain ⟨q, hq, h1, h2, h3, h4⟩ := c2 _ hlt
  have d1 : (k * S.dim + b) / S.dim = k := by
    rw [Nat.add_comm, Nat.add_mul_div_right _ _ (by omega), Nat.div_eq_of_lt hb, Nat.zero_add]
  have d2 : (k * S.dim + b) % S.dim = b := by
    rw [Nat.add_comm, Nat.add_mul_mod_self_right, Nat.mod_eq_of_lt hb]
  have hq' := hq
  unfold polarGet at hq'
  rw [if_pos hlt, d1, d2, gaussianGet, hz, SBasis.getItem_eq, ha] at hq'
  simp only [Option.map_some, Option.some.injEq] at hq'
  subst hq'
  rw [c1] at hq
  refine ⟨_, List.mem_map.2 ⟨_, List.mem_of_getElem? hq, rfl⟩, ?_, rfl, q2, ?_⟩
  · show a.elem.mu = 0
    rw [q3, hmu]
  · dsimp only
    rw [h4 (0, 0)]
    have r0 : radius (0, 0) = 0 := by simp [radius]
    have a0 : angle (0, 0) = none := by rw [angle, if_pos (by rw [r0]; norm_num)]
    rw [a0, r0]
    have g0 : gaussian 0 σ 0 = 1 := by simp [gaussian]
    simp only [g0, one_mul]
    refine centre_sq hS hwf hio hoo ha (q1.trans q2.symm) ?_ (by rw [q3, hmu]) (by rw [q1, q3]; exact hone)
    rw [q1]
    rcases hP ψ (hPi ψ hψi) with h | h <;> omega

/-- The constructor for any rings which contain the centre: the widths are positive, the frequencies are not negative at the centre. -/
theorem conv_builds {G : KernelGen El} {P : Irrep El → Prop} (hG : G.Full P) (hP : ∀ i, P i → i.size = 1 ∨ i.size = 2)
    (a : ConvArgs El) (rep : F → Repr El) (inT outT inG : List F) (hg : convGroups a.groups inT outT = some inG)
    (hin : ∀ n ∈ inG, 0 < (rep n).size ∧ ∀ i ∈ (rep n).irreps, P i) (hout : ∀ n ∈ outT, 0 < (rep n).size ∧ ∀ i ∈ (rep n).irreps, P i)
    {m : ℕ} (hk : a.kernelSize = 2 * m + 1) (hoff : a.maximumOffset = none) (hfil : a.basisFilter = none)
    {rings sigma : List ℝ} {fco : ℝ → ℝ} {mf : ℤ} (hp : computeBasisParams a.kernelSize a.dilation a.cutoff a.rings a.sigma = some (rings, sigma, fco, mf))
    (hs0 : ∀ s ∈ sigma, 0 < s) (hsl : sigma.length = rings.length) (hnd : rings.Nodup) (h0 : 0 ∈ rings) (hmf : 0 ≤ mf) (hf0 : 0 ≤ fco 0)
    {i o : F} (hi : i ∈ inG) (ho : o ∈ outT) (hwf : (rep i).WF) (hio : (rep i).OrthCob) (hoo : (rep o).OrthCob)
    (hshare : ∃ ψ ∈ (rep i).irreps, ψ ∈ (rep o).irreps) :
    ∃ M : ConvModule El F, r2convInit G a rep inT outT = some M ∧ M.dim ≠ 0 := by
  classical
  obtain ⟨f, rfl⟩ := Int.eq_ofNat_of_zero_le hmf
  have hb : ∀ i ∈ inG, ∀ o ∈ outT, ∃ l, buildKernelBasis G sigma rings (some (f : ℤ)) none (rep i) (rep o) = some l := fun i hi o ho => by
    obtain ⟨l, hl, -⟩ := polarBasis_centre hG hP (hin i hi).2 (hout o ho).2 f hs0 hsl
    exact ⟨l, hl⟩
  set basis := fun i o => (buildKernelBasis G sigma rings (some (f : ℤ)) a.maximumOffset (rep i) (rep o)).getD [] with hbasis
  have hinp : FilterInput rep inG outT basis attrId := by
    refine ⟨List.ne_nil_of_mem hi, List.ne_nil_of_mem ho, fun n hn => (hin n hn).1, fun n hn => (hout n hn).1, fun i hi o ho => ?_⟩
    obtain ⟨l, hl⟩ := hb i hi o ho
    rw [hbasis, hoff]
    simp only [hl, Option.getD_some]
    exact buildKernelBasis_ids hl hnd
  have hdim : ((a.cfg fco).exp rep inG outT basis).dimension ≠ 0 := by
    have hwf' := filterExp_wf hinp (a.kernelSize * a.kernelSize) (gridCoords a.kernelSize a.dilation) (a.cfg fco).keep
      (a.cfg fco).shape0 (a.cfg fco).inIdx (a.cfg fco).outIdx
    refine hwf'.dimension_ne_zero (i := i) (o := o) hi ho ?_
    obtain ⟨l, hl, hel⟩ := polarBasis_centre hG hP (hin i hi).2 (hout o ho).2 f hs0 hsl
    obtain ⟨ψ, hψi, hψo⟩ := hshare
    obtain ⟨e, he, hmu, hr, hψ, hn⟩ := hel hwf hio hoo h0 ψ hψi hψo
    have hbl : basis i o = l := by rw [hbasis, hoff]; simp only [hl, Option.getD_some]
    have hs := hP ψ ((hin i hi).2 ψ hψi)
    refine singleBlock_isSome (e := ⟨e.1, fun r c s => e.2 (gridCoords a.kernelSize a.dilation s) r c⟩) ?_ ?_ ?_ ?_
    · exact List.mem_map.2 ⟨e, hbl ▸ he, rfl⟩
    · simp [ConvArgs.cfg, hfil, blFilter, hmu, hr, hf0]
    · simp only [ConvArgs.cfg, hψ]
      omega
    · simp only [ConvArgs.cfg, hψ]
      have hc : m * (2 * m + 1) + m < a.kernelSize * a.kernelSize := by
        rw [hk]
        nlinarith
      have h1 : (1 : ℝ) ≤ sqNorm (rep o).size (rep i).size (a.kernelSize * a.kernelSize) fun r c s => e.2 (gridCoords a.kernelSize a.dilation s) r c := by
        refine hn.trans (Finset.sum_le_sum fun x _ => Finset.sum_le_sum fun y _ => ?_)
        refine le_trans (le_of_eq ?_) (Finset.single_le_sum (fun q _ => sq_nonneg _) (Finset.mem_range.2 hc))
        show _ = e.2 (gridCoords a.kernelSize a.dilation (m * (2 * m + 1) + m)) x y ^ 2
        rw [hk, gridCoords_centre]
      have h2 : (0 : ℝ) < ψ.size ∧ (ψ.size : ℝ) ≤ 2 := by
        rcases hs with h | h <;> rw [h] <;> norm_num
      rw [le_div_iff₀ h2.1]
      exact le_trans (by norm_num; linarith) h1
  refine ⟨⟨a.cfg fco, basis, _⟩, ?_, hdim⟩
  unfold r2convInit
  rw [hg]
  dsimp only
  rw [hp]
  dsimp only
  rw [if_pos (fun i hi o ho => by obtain ⟨l, hl⟩ := hb i hi o ho; rw [hoff, hl]; simp)]
  exact if_neg hdim

theorem maximumFrequency_nonneg {fco : ℝ → ℝ} {rings : List ℝ} {F' : ℤ} (h : maximumFrequency fco rings = some F') (h0 : 0 ∈ rings) (hf : 0 ≤ fco 0) : 0 ≤ F' := by
  obtain ⟨m, hm, rfl⟩ := Option.map_eq_some_iff.1 h
  have : fco 0 ≤ m := listMax_ge hm _ (List.mem_map.2 ⟨0, h0, rfl⟩)
  unfold pyInt
  rw [if_pos (hf.trans this)]
  exact Int.floor_nonneg.2 (hf.trans this)

/-- The default rings, widths and offsets, an odd kernel size and no filter. -/
structure ConvArgs.Default (a : ConvArgs El) (m : ℕ) : Prop where
  size : a.kernelSize = 2 * m + 1
  dil : 0 < a.dilation
  rings : a.rings = none
  sigma : a.sigma = none
  off : a.maximumOffset = none
  filter : a.basisFilter = none
  cut : 0 ≤ cutoffFun a.kernelSize a.cutoff 0

/-- The default arguments for an odd kernel size: with each of the three rules of `frequencies_cutoff` given by a number from -3 to -1, and each positive
slope. -/
theorem cutoff_ok (k : ℕ) (c : ℝ) : 0 ≤ cutoffFun k (.inl c) 0 := by
  unfold cutoffFun manualFco1 manualFco2 manualFco3
  dsimp only
  split_ifs <;> simp

theorem conv_builds_default {G : KernelGen El} {P : Irrep El → Prop} (hG : G.Full P) (hP : ∀ i, P i → i.size = 1 ∨ i.size = 2)
    (a : ConvArgs El) {m : ℕ} (ha : a.Default m) (rep : F → Repr El) (inT outT inG : List F) (hg : convGroups a.groups inT outT = some inG)
    (hin : ∀ n ∈ inG, 0 < (rep n).size ∧ ∀ i ∈ (rep n).irreps, P i) (hout : ∀ n ∈ outT, 0 < (rep n).size ∧ ∀ i ∈ (rep n).irreps, P i)
    {i o : F} (hi : i ∈ inG) (ho : o ∈ outT) (hwf : (rep i).WF) (hio : (rep i).OrthCob) (hoo : (rep o).OrthCob)
    (hshare : ∃ ψ ∈ (rep i).irreps, ψ ∈ (rep o).irreps) :
    ∃ M : ConvModule El F, r2convInit G a rep inT outT = some M ∧ M.dim ≠ 0 := by
  obtain ⟨h1, h2, h3, h4, h5, h6, h7⟩ := ha
  obtain ⟨rings, sigma, mf, hp, hlen, hsl, hs0, hmf⟩ := c52_defaults a.kernelSize a.dilation (by omega) a.cutoff
  have hr : rings = basisRings a.kernelSize a.dilation none := by
    unfold computeBasisParams at hp
    dsimp only at hp
    split_ifs at hp
    obtain ⟨F', -, h⟩ := Option.map_eq_some_iff.1 hp
    exact (Prod.ext_iff.1 h).1.symm
  have hrings0 : 0 ∈ rings := by
    refine List.mem_of_getElem? (i := 0) ?_
    rw [hr, h1, basisRings_default, List.getElem?_map, List.getElem?_range (by omega)]
    simp
  refine conv_builds hG hP a rep inT outT inG hg hin hout h1 h5 h6 (by rw [h3, h4]; exact hp) hs0 hsl ?_ hrings0 (maximumFrequency_nonneg hmf hrings0 h7) h7 hi ho hwf hio
    hoo hshare
  rw [hr]
  exact basisRings_nodup _ _ h2 _ (by simp)

/-- Only an irrep and itself have elements of frequency 0. -/
def KernelGen.Sep (G : KernelGen El) (P : Irrep El → Prop) : Prop :=
  ∀ mf mo bas, G.bas mf mo = some bas → ∀ i o, P i → P o → ∀ l, bas i o = some l → ∀ e ∈ l, e.mu = 0 → i = o

theorem polarBasis_share {G : KernelGen El} {P : Irrep El → Prop} (hG : G.Sep P) {rin rout : Repr El}
    (hPi : ∀ i ∈ rin.irreps, P i) (hPo : ∀ i ∈ rout.irreps, P i) {rings sigma : List ℝ} {mf mo : Option ℤ} {l : List (BasisAttr El × (ℝ × ℝ → Mat))}
    (hl : buildKernelBasis G sigma rings mf mo rin rout = some l) {e : BasisAttr El × (ℝ × ℝ → Mat)} (he : e ∈ l)
    (hne : ¬ MEq rout.size rin.size (e.2 (0, 0)) fun _ _ => 0) : ∃ ψ ∈ rin.irreps, ψ ∈ rout.irreps := by
  classical
  unfold buildKernelBasis at hl
  split_ifs at hl with h1
  split at hl
  · exact absurd hl (by simp)
  rename_i bas hbas
  obtain ⟨S, hS, rfl⟩ := Option.map_eq_some_iff.1 hl
  obtain ⟨a, ha, rfl⟩ := List.mem_map.1 he
  obtain ⟨c1, c2⟩ := c22_plane_basis_indexing (rings.zip sigma) S G.axis
  have hlt : a.idx < (rings.zip sigma).length * S.dim := by
    obtain ⟨k, hk⟩ := List.mem_iff_getElem?.1 ha
    rw [← c1] at hk
    have := hk
    unfold polarGet at this
    split_ifs at this with h2
    split at this
    · cases this
      exact h2
    · exact absurd this (by simp)
  obtain ⟨q, hq, h2, h3, h4, h5⟩ := c2 _ hlt
  rw [SBasis.getItem_eq] at h4
  obtain ⟨g1, g2, g3, -⟩ := SBasis.iter_get S h4
  obtain ⟨f1, f2, f3⟩ := steerable_fields hS
  rw [f1] at g1
  rw [f2] at g2
  have m1 := List.mem_of_getElem? g1
  have m2 := List.mem_of_getElem? g2
  have r0 : radius (0, 0) = 0 := by simp [radius]
  have a0 : angle (0, 0) = none := by rw [angle, if_pos (by rw [r0]; norm_num)]
  have hmu : q.angular.elem.mu = 0 := by
    by_contra hmu
    apply hne
    intro x hx y hy
    dsimp only
    rw [h5 (0, 0), a0]
    dsimp only
    rw [sample_slice bas (angSamp G.axis) rin rout hS none q.idx2 x hx y hy, SBasis.sampleDirectSum_slice (angSamp G.axis) S none h4]
    have hz : ∀ r s r' s', Mat.place r s r' s' (angSamp G.axis q.angular.inIrrep q.angular.outIrrep q.angular.elem none) = fun _ _ => 0 := by
      intro r s r' s'
      funext u v
      simp [Mat.place, angSamp, angSample, hmu]
    rw [hz]
    simp [Mat.mul]
  obtain ⟨l', hl'⟩ : ∃ l', bas q.angular.inIrrep q.angular.outIrrep = some l' := by
    rw [f3] at g3
    cases h : bas q.angular.inIrrep q.angular.outIrrep with
    | none => simp [h] at g3
    | some l' => exact ⟨l', rfl⟩
  rw [f3] at g3
  simp only [hl', Option.getD_some] at g3
  have := hG mf mo bas hbas _ _ (hPi _ m1) (hPo _ m2) l' hl' _ (List.mem_of_getElem? g3) hmu
  exact ⟨_, m1, this ▸ m2⟩

/-- A convolution with kernel size 1 needs a common irrep. -/
theorem conv_share {G : KernelGen El} {P : Irrep El → Prop} (hG : G.Sep P)
    (a : ConvArgs El) (rep : F → Repr El) (inT outT inG : List F) (hg : convGroups a.groups inT outT = some inG)
    (hin : ∀ n ∈ inG, ∀ i ∈ (rep n).irreps, P i) (hout : ∀ n ∈ outT, ∀ i ∈ (rep n).irreps, P i)
    (hk : a.kernelSize = 1) {M : ConvModule El F} (hM : r2convInit G a rep inT outT = some M) :
    ∃ i ∈ inG, ∃ o ∈ outT, ∃ ψ ∈ (rep i).irreps, ψ ∈ (rep o).irreps := by
  classical
  unfold r2convInit at hM
  rw [hg] at hM
  dsimp only at hM
  split at hM
  · exact absurd hM (by simp)
  rename_i rings sigma fco mf hp
  split_ifs at hM with h1 h2
  obtain ⟨⟨i, o⟩, hio⟩ := List.exists_mem_of_ne_nil _ (Exp.pairs_ne_nil h2)
  obtain ⟨hi, ho, hs⟩ := (Exp.mem_pairs _ _).1 hio
  obtain ⟨bl, hbl⟩ := Option.isSome_iff_exists.1 hs
  obtain ⟨hne, -, hsp⟩ := singleBlock_spec hbl
  obtain ⟨e, he⟩ := List.exists_mem_of_ne_nil _ hne
  obtain ⟨u, hu, v, hv, s, hs', hnz⟩ := singleBlock_ne_zero hbl he
  obtain ⟨b, hb, c, -, -, hval⟩ := hsp e he
  obtain ⟨q, hq, rfl⟩ := List.mem_map.1 hb
  obtain ⟨l, hl⟩ := Option.ne_none_iff_exists'.1 (h1 i hi o ho)
  simp only [hl, Option.getD_some] at hq
  refine ⟨i, hi, o, ho, polarBasis_share hG (hin i hi) (hout o ho) hl hq fun h0 => hnz ?_⟩
  rw [hval]
  have hs0 : s = 0 := by
    have : s < a.kernelSize * a.kernelSize := hs'
    rw [hk] at this
    omega
  have hgc : gridCoords a.kernelSize a.dilation s = (0, 0) := by
    rw [hs0, hk]
    simpa using gridCoords_centre 0 a.dilation
  show q.2 (gridCoords a.kernelSize a.dilation s) u v / c = 0
  rw [hgc, h0 u hu v hv, zero_div]

theorem mem_concatOpt {α : Type} {ls : List (Option (List α))} {l : List α} (h : concatOpt ls = some l) {x : α} (hx : x ∈ l) : ∃ l', some l' ∈ ls ∧ x ∈ l' := by
  induction ls generalizing l with
  | nil => simp [concatOpt] at h; subst h; simp at hx
  | cons a ls ih =>
    cases a with
    | none => simp [concatOpt] at h
    | some l1 =>
      simp only [concatOpt] at h
      split at h
      · exact absurd h (by simp)
      · rename_i r hr
        cases h
        rcases List.mem_append.1 hx with h1 | h1
        · exact ⟨l1, by simp, h1⟩
        · obtain ⟨l', h2, h3⟩ := ih hr h1
          exact ⟨l', List.mem_cons_of_mem _ h2, h3⟩

/-- A multiple of `N` strictly between two others. -/
theorem no_multiple {x t N : ℤ} (h : x + t * N = 0) (h1 : -N < x) (h2 : x < N) : x = 0 := by
  have hN : 0 < N := by omega
  have : t = 0 := by
    by_contra ht
    rcases lt_or_gt_of_ne ht with h3 | h3 <;> nlinarith
  simpa [this] using h

theorem one_iff {N n s : ℕ} (h : s = if n = 0 ∨ 2 * n = N then 1 else 2) : (s = 1 ↔ n = 0 ∨ 2 * n = N) ∧ (s = 2 ↔ ¬ (n = 0 ∨ 2 * n = N)) := by
  by_cases hn : n = 0 ∨ 2 * n = N
  · rw [if_pos hn] at h
    exact ⟨⟨fun _ => hn, fun _ => h⟩, ⟨fun h' => by omega, fun h' => absurd hn h'⟩⟩
  · rw [if_neg hn] at h
    exact ⟨⟨fun h' => by omega, fun h' => absurd h' hn⟩, ⟨fun _ => hn, fun _ => h⟩⟩

theorem rotBasis_sep {N : ℕ} {n m : ℕ} {i o : Irrep ℤ} (hn : Cyclic.irrep N n = some i) (hm : Cyclic.irrep N m = some o) {mf mo : Option ℕ}
    {l : List AngElem} (hl : rotBasis N i o mf mo = some l) {e : AngElem} (he : e ∈ l) (h0 : e.mu = 0) : n = m := by
  obtain ⟨fn, bn⟩ := Cyclic.irrep_freq' hn
  obtain ⟨fm, bm⟩ := Cyclic.irrep_freq' hm
  obtain ⟨sn1, sn2⟩ := one_iff (Cyclic.irrep_size hn)
  obtain ⟨sm1, sm2⟩ := one_iff (Cyclic.irrep_size hm)
  unfold rotBasis at hl
  simp only [fn, fm] at hl
  split_ifs at hl with h1 h2 h3 h3' h4 h4' h5 h5'
  · have q1 := sn2.1 h2.1
    have q2 := sm2.1 h2.2
    obtain ⟨l', hl', hx⟩ := mem_concatOpt hl he
    obtain ⟨γ, -, hl'⟩ := List.mem_flatMap.1 hl'
    obtain ⟨s, hs, hl'⟩ := List.mem_map.1 hl'
    obtain ⟨-, -, hmu, -⟩ := offsetLoop_mem hl' hx
    rw [h0] at hmu
    have hs : s = 0 ∨ s = 1 := by simpa using hs
    rcases hs with rfl | rfl
    · simp only [if_true, mul_one] at hmu
      have := no_multiple hmu.symm (by omega) (by omega)
      omega
    · simp only [one_ne_zero, if_false, mul_neg, mul_one, sub_neg_eq_add] at hmu
      have := no_multiple hmu.symm (by omega) (by omega)
      omega
  · have q1 := sn2.1 h3.1
    have q2 := sm1.1 h3.2
    obtain ⟨l', hl', hx⟩ := mem_concatOpt hl he
    obtain ⟨γ, -, hl'⟩ := List.mem_map.1 hl'
    obtain ⟨-, -, hmu, -⟩ := offsetLoop_mem hl' hx
    rw [h0] at hmu
    have := no_multiple hmu.symm (by omega) (by omega)
    omega
  · have q1 := sn1.1 h4.1
    have q2 := sm2.1 h4.2
    obtain ⟨l', hl', hx⟩ := mem_concatOpt hl he
    obtain ⟨γ, -, hl'⟩ := List.mem_map.1 hl'
    obtain ⟨-, -, hmu, -⟩ := offsetLoop_mem hl' hx
    rw [h0] at hmu
    have := no_multiple hmu.symm (by omega) (by omega)
    omega
  · have q1 := sn1.1 h5.1
    have q2 := sm1.1 h5.2
    obtain ⟨l', hl', hx⟩ := mem_concatOpt hl he
    obtain ⟨γ, -, hl'⟩ := List.mem_map.1 hl'
    obtain ⟨-, -, hmu, -⟩ := offsetLoop_mem hl' hx
    rw [h0] at hmu
    by_cases hN : N = 0
    · omega
    have := no_multiple hmu.symm (by omega) (by omega)
    omega

/-- A phase with the parity of a number. -/
theorem parity_zero {x : ℕ} (h : (((x % 2 : ℕ) : ℝ)) * π / 2 = 0) : x % 2 = 0 := by
  have := Real.pi_ne_zero
  have h1 : ((x % 2 : ℕ) : ℝ) = 0 := by
    rcases mul_eq_zero.1 (by linarith : ((x % 2 : ℕ) : ℝ) * π = 0) with h | h
    · exact h
    · exact absurd h this
  exact_mod_cast h1

theorem flipsBasis_sep {n m : ℕ} {i o : Irrep ℤ} (hn : Cyclic.irrep 2 n = some i) (hm : Cyclic.irrep 2 m = some o) {mf mo : Option ℕ}
    {l : List AngElem} (hl : flipsBasis i o mf mo = some l) {e : AngElem} (he : e ∈ l) (h0 : e.mu = 0) : n = m := by
  obtain ⟨fn, bn⟩ := Cyclic.irrep_freq' hn
  obtain ⟨fm, bm⟩ := Cyclic.irrep_freq' hm
  unfold flipsBasis at hl
  simp only [fn, fm] at hl
  split_ifs at hl
  obtain ⟨-, -, -, hk⟩ := offsetLoop_mem hl he
  rw [h0] at hk
  have := parity_zero (hk.resolve_left (lt_irrefl _))
  omega

theorem flipRotBasis_sep {N : ℕ} {j n j' m : ℕ} {i o : Irrep (ℤ × ℤ)} (hn : Dihedral.irrep N j n = some i) (hm : Dihedral.irrep N j' m = some o)
    {mf mo : Option ℕ} {l : List AngElem} (hl : flipRotBasis N i o mf mo = some l) {e : AngElem} (he : e ∈ l) (h0 : e.mu = 0) : j = j' ∧ n = m := by
  obtain ⟨gn, fn, bn, jn⟩ := Dihedral.irrep_freq' hn
  obtain ⟨gm, fm, bm, jm⟩ := Dihedral.irrep_freq' hm
  obtain ⟨sn1, sn2⟩ := one_iff (Dihedral.irrep_size hn)
  obtain ⟨sm1, sm2⟩ := one_iff (Dihedral.irrep_size hm)
  unfold flipRotBasis at hl
  simp only [fn, fm, gn, gm] at hl
  split_ifs at hl with h1 h2 h2' h3 h3' h4 h4' h5 h5'
  · have q1 := sn2.1 h2.1
    have q2 := sm2.1 h2.2
    obtain ⟨l', hl', hx⟩ := mem_concatOpt hl he
    obtain ⟨s, hs, hl'⟩ := List.mem_map.1 hl'
    obtain ⟨-, -, hmu, -⟩ := offsetLoop_mem hl' hx
    rw [h0] at hmu
    have hs : s = 0 ∨ s = 1 := by simpa using hs
    rcases hs with rfl | rfl
    · simp only [if_true, mul_one] at hmu
      have := no_multiple hmu.symm (by omega) (by omega)
      omega
    · simp only [one_ne_zero, if_false, mul_neg, mul_one, sub_neg_eq_add] at hmu
      have := no_multiple hmu.symm (by omega) (by omega)
      omega
  · have q1 := sn2.1 h3.1
    have q2 := sm1.1 h3.2
    obtain ⟨-, -, hmu, -⟩ := offsetLoop_mem hl he
    rw [h0] at hmu
    have := no_multiple hmu.symm (by omega) (by omega)
    omega
  · have q1 := sn1.1 h4.1
    have q2 := sm2.1 h4.2
    obtain ⟨-, -, hmu, -⟩ := offsetLoop_mem hl he
    rw [h0] at hmu
    have := no_multiple hmu.symm (by omega) (by omega)
    omega
  · have q1 := sn1.1 h5.1
    have q2 := sm1.1 h5.2
    obtain ⟨-, -, hmu, hk⟩ := offsetLoop_mem hl he
    rw [h0] at hmu hk
    have hp := parity_zero (hk.resolve_left (lt_irrefl _))
    by_cases hN : N = 0
    · omega
    have := no_multiple hmu.symm (by omega) (by omega)
    omega

theorem contBasis_sep {n m : ℕ} {l : List AngElem} (hl : contBasis (SO2.irrep n) (SO2.irrep m) = some l) {e : AngElem} (he : e ∈ l) (h0 : e.mu = 0) :
    n = m := by
  have hs : ∀ k, (SO2.irrep k).size = if k = 0 then 1 else 2 := fun k => by by_cases hk : k = 0 <;> simp [SO2.irrep, hk]
  have hf : ∀ k, (SO2.irrep k).freq = k := fun k => by by_cases hk : k = 0 <;> simp [SO2.irrep, hk]
  by_cases hn : n = 0 <;> by_cases hm : m = 0 <;> simp [contBasis, hs, hf, hn, hm] at hl
  · omega
  · subst hl
    simp at he
    rcases he with rfl | rfl <;> simp at h0 <;> omega
  · subst hl
    simp at he
    rcases he with rfl | rfl <;> simp at h0 <;> omega
  · subst hl
    simp at he
    rcases he with rfl | rfl | rfl | rfl <;> simp at h0 <;> omega

theorem flipContBasis_sep {j n j' m : ℕ} {i o : Irrep (ℤ × ℝ)} (hn : O2.irrep j n = some i) (hm : O2.irrep j' m = some o)
    {l : List AngElem} (hl : flipContBasis i o = some l) {e : AngElem} (he : e ∈ l) (h0 : e.mu = 0) : j = j' ∧ n = m := by
  have hf : ∀ {j n : ℕ} {i : Irrep (ℤ × ℝ)}, O2.irrep j n = some i → i.freq = n ∧ i.flip = j ∧ j ≤ 1 ∧ (i.size = 1 → n = 0) ∧ (i.size = 2 → 0 < n ∧ j = 1) := by
    intro j n i hn
    unfold O2.irrep at hn
    split_ifs at hn with h1 h2 h3 h4
    · cases hn
      simp [h3, h2]
    · cases hn
      refine ⟨rfl, rfl, by omega, fun _ => h4, by simp⟩
    · cases hn
      exact ⟨rfl, rfl, by omega, by simp, fun _ => by omega⟩
  obtain ⟨fn, gn, jn, n1, n2⟩ := hf hn
  obtain ⟨fm, gm, jm, m1, m2⟩ := hf hm
  unfold flipContBasis at hl
  simp only [fn, fm, gn, gm] at hl
  split_ifs at hl with h1 h1' h2 h2' h3 h3' h4 h4' h5
  · cases hl
    have q1 := n2 h1.1
    have q2 := m2 h1.2
    simp at he
    rcases he with rfl | rfl <;> simp at h0 <;> omega
  · cases hl
    have q1 := n2 h2.1
    simp at he
    subst he
    simp at h0
    omega
  · cases hl
    have q1 := m2 h3.2
    simp at he
    subst he
    simp at h0
    omega
  · cases hl
    have q1 := n1 h4.1
    have q2 := m1 h4.2
    have : (j + j') % 2 = 0 := by
      rcases h5 with h5 | h5
      · omega
      · exact parity_zero h5
    omega
  · cases hl
    simp at he

/-! ## The statements -/

/-- The bases of the spaces of the library with the irreps of their groups (gspaces/r2/*.py). -/
inductive PlaneGen : {El : Type} → KernelGen El → (Irrep El → Prop) → Prop where
  | rot {N : ℕ} (hN : 0 < N) : PlaneGen (rot2dGen N) fun i => ∃ k, Cyclic.irrep N k = some i
  | trivial : PlaneGen trivialGen fun i => ∃ k, Cyclic.irrep 1 k = some i
  | flip (axis : ℝ) : PlaneGen (flip2dGen axis) fun i => ∃ k, Cyclic.irrep 2 k = some i
  | flipRot {N : ℕ} (hN : 0 < N) (axis : ℝ) : PlaneGen (flipRot2dGen N axis) fun i => ∃ j k, Dihedral.irrep N j k = some i
  | so2 : PlaneGen so2Gen fun i => ∃ k, SO2.irrep k = i
  | o2 (axis : ℝ) : PlaneGen (o2Gen axis) fun i => ∃ j k, O2.irrep j k = some i

theorem PlaneGen.full {G : KernelGen El} {P : Irrep El → Prop} (h : PlaneGen G P) : G.Full P := by
  cases h with
  | rot hN => exact rot2dGen_full hN
  | trivial => exact trivialGen_full
  | flip axis => exact flip2dGen_full axis
  | flipRot hN axis => exact flipRot2dGen_full hN axis
  | so2 => exact so2Gen_full
  | o2 axis => exact o2Gen_full axis

theorem PlaneGen.size {G : KernelGen El} {P : Irrep El → Prop} (h : PlaneGen G P) : ∀ i, P i → i.size = 1 ∨ i.size = 2 := by
  cases h with
  | rot hN => rintro i ⟨k, hk⟩; exact Cyclic.size12 hk
  | trivial => rintro i ⟨k, hk⟩; exact Cyclic.size12 hk
  | flip axis => rintro i ⟨k, hk⟩; exact Cyclic.size12 hk
  | flipRot hN axis => rintro i ⟨j, k, hk⟩; exact Dihedral.size12 hk
  | so2 => rintro i ⟨k, rfl⟩; exact SO2.size12 k
  | o2 axis => rintro i ⟨j, k, hk⟩; exact O2.size12 hk

theorem PlaneGen.sep {G : KernelGen El} {P : Irrep El → Prop} (h : PlaneGen G P) : G.Sep P := by
  cases h with
  | rot hN =>
    rintro mf mo bas hb i o ⟨n, hn⟩ ⟨m, hm⟩ l hl e he h0
    obtain ⟨b, -, rfl⟩ := Option.map_eq_some_iff.1 hb
    have := rotBasis_sep hn hm hl he h0
    subst this
    exact Option.some.inj (hn.symm.trans hm)
  | trivial =>
    rintro mf mo bas hb i o ⟨n, hn⟩ ⟨m, hm⟩ l hl e he h0
    obtain ⟨b, -, rfl⟩ := Option.map_eq_some_iff.1 hb
    have := rotBasis_sep hn hm hl he h0
    subst this
    exact Option.some.inj (hn.symm.trans hm)
  | flip axis =>
    rintro mf mo bas hb i o ⟨n, hn⟩ ⟨m, hm⟩ l hl e he h0
    obtain ⟨b, -, rfl⟩ := Option.map_eq_some_iff.1 hb
    have := flipsBasis_sep hn hm hl he h0
    subst this
    exact Option.some.inj (hn.symm.trans hm)
  | flipRot hN axis =>
    rintro mf mo bas hb i o ⟨j, n, hn⟩ ⟨j', m, hm⟩ l hl e he h0
    obtain ⟨b, -, rfl⟩ := Option.map_eq_some_iff.1 hb
    obtain ⟨rfl, rfl⟩ := flipRotBasis_sep hn hm hl he h0
    exact Option.some.inj (hn.symm.trans hm)
  | so2 =>
    rintro mf mo bas hb i o ⟨n, rfl⟩ ⟨m, rfl⟩ l hl e he h0
    cases hb
    rw [contBasis_sep hl he h0]
  | o2 axis =>
    rintro mf mo bas hb i o ⟨j, n, hn⟩ ⟨j', m, hm⟩ l hl e he h0
    cases hb
    obtain ⟨rfl, rfl⟩ := flipContBasis_sep hn hm hl he h0
    exact Option.some.inj (hn.symm.trans hm)

/-- The representations in question: sums of irreps of the group with an orthogonal change of basis (as of the irreps and the regular, quotient and induced
representations of the library, C12, C13, C41). -/
structure Repr.Plane (P : Irrep El → Prop) (r : Repr El) : Prop where
  pos : 0 < r.size
  wf : r.WF
  orth : r.OrthCob
  irr : ∀ i ∈ r.irreps, P i

/-- **C75**: between two field types with a common irrep, `R2Conv` can be built for every odd kernel size, dilation, group and frequency cutoff, with the default
rings, widths and offsets; it has at least one weight. -/
theorem c75_conv {G : KernelGen El} {P : Irrep El → Prop} (hG : PlaneGen G P) (a : ConvArgs El) (m : ℕ) (ha : a.Default m)
    (rep : F → Repr El) (inT outT inG : List F) (hg : convGroups a.groups inT outT = some inG)
    (hin : ∀ n ∈ inG, (rep n).Plane P) (hout : ∀ n ∈ outT, (rep n).Plane P)
    (hshare : ∃ i ∈ inG, ∃ o ∈ outT, ∃ ψ ∈ (rep i).irreps, ψ ∈ (rep o).irreps) :
    ∃ M : ConvModule El F, r2convInit G a rep inT outT = some M ∧ M.dim ≠ 0 := by
  obtain ⟨i, hi, o, ho, h⟩ := hshare
  exact conv_builds_default hG.full hG.size a ha rep inT outT inG hg (fun n hn => ⟨(hin n hn).pos, (hin n hn).irr⟩)
    (fun n hn => ⟨(hout n hn).pos, (hout n hn).irr⟩) hi ho (hin i hi).wf (hin i hi).orth (hout o ho).orth h

/-- **C75, 1 × 1 convolutions** can be built exactly if the types have a common irrep. -/
theorem c75_one_by_one {G : KernelGen El} {P : Irrep El → Prop} (hG : PlaneGen G P) (a : ConvArgs El) (ha : a.Default 0)
    (rep : F → Repr El) (inT outT inG : List F) (hg : convGroups a.groups inT outT = some inG)
    (hin : ∀ n ∈ inG, (rep n).Plane P) (hout : ∀ n ∈ outT, (rep n).Plane P) :
    (∃ M : ConvModule El F, r2convInit G a rep inT outT = some M) ↔ ∃ i ∈ inG, ∃ o ∈ outT, ∃ ψ ∈ (rep i).irreps, ψ ∈ (rep o).irreps := by
  constructor
  · rintro ⟨M, hM⟩
    exact conv_share hG.sep a rep inT outT inG hg (fun n hn => (hin n hn).irr) (fun n hn => (hout n hn).irr) ha.size hM
  · intro h
    obtain ⟨M, hM, -⟩ := c75_conv hG a 0 ha rep inT outT inG hg hin hout h
    exact ⟨M, hM⟩

/-- The arguments `R2Conv(in_type, out_type, kernel_size=k)`. -/
noncomputable def plainArgs (El : Type) (k : ℕ) : ConvArgs El := ⟨k, 0, 1, 1, .zeros, 1, none, .inl (-1), none, none, none⟩

theorem plainArgs_default (m : ℕ) : (plainArgs El (2 * m + 1)).Default m := ⟨rfl, one_pos, rfl, rfl, rfl, rfl, cutoff_ok _ _⟩

/-- The hypotheses can be met: a field of the regular representation of `C_N` (in and out), for all odd kernel sizes. -/
example (N m : ℕ) (hN : 0 < N) : ∃ r, Cyclic.regular N = some r ∧ ∃ M : ConvModule ℤ ℕ, r2convInit (rot2dGen N) (plainArgs ℤ (2 * m + 1)) (fun _ => r) [0] [0] = some M := by
  obtain ⟨r, h1, h2, h3⟩ := c12_cyclic_regular N hN
  have hp : r.Plane fun i => ∃ k, Cyclic.irrep N k = some i := by
    refine ⟨?_, h2.wf, h2.orth, fun i hi => ?_⟩
    · rw [h2.size]
      show 0 < Cyclic.order N
      rw [Cyclic.order_eq]
      exact hN
    · rw [h3] at hi
      obtain ⟨k, -, hk⟩ := List.mem_filterMap.1 hi
      exact ⟨k, hk⟩
  have hne : r.irreps ≠ [] := by
    intro h0
    have := hp.pos
    simp [Repr.size, h0] at this
  obtain ⟨ψ, hψ⟩ := List.exists_mem_of_ne_nil _ hne
  obtain ⟨M, hM, -⟩ := c75_conv (PlaneGen.rot hN) (plainArgs ℤ (2 * m + 1)) m (plainArgs_default m) (fun _ : ℕ => r) [0] [0] [0] rfl (fun _ _ => hp) (fun _ _ => hp)
    ⟨0, by simp, 0, by simp, ψ, hψ, hψ⟩
  exact ⟨r, h1, M, hM⟩

/-- The representation given by one irrep. -/
theorem irrep_plane {P : Irrep El → Prop} {i : Irrep El} (hs : 0 < i.size) (hi : P i) : (⟨[i], Mat.one, Mat.one⟩ : Repr El).Plane P := by
  have h2 : tr (Mat.one : Mat) = Mat.one := by
    funext a b
    simp [tr, Mat.one, eq_comm]
  have h3 : ∀ n, IsInv n Mat.one Mat.one := fun n => ⟨MEq_one_mul _ _ _, MEq_one_mul _ _ _⟩
  refine ⟨by simpa [Repr.size] using hs, h3 _, ?_, ?_⟩
  · show IsInv _ Mat.one (tr Mat.one)
    rw [h2]
    exact h3 _
  · intro j hj
    rw [List.mem_singleton.1 hj]
    exact hi

/-- Between two different frequencies of SO(2) there is no convolution of kernel size 1. -/
example (n m : ℕ) (h : n ≠ m) : r2convInit so2Gen (plainArgs ℝ 1) (fun k : ℕ => ⟨[SO2.irrep k], Mat.one, Mat.one⟩) [n] [m] = none := by
  have hpl : ∀ k, (⟨[SO2.irrep k], Mat.one, Mat.one⟩ : Repr ℝ).Plane fun i => ∃ k, SO2.irrep k = i := fun k =>
    irrep_plane (by rcases SO2.size12 k with h | h <;> omega) ⟨k, rfl⟩
  by_contra h0
  obtain ⟨M, hM⟩ := Option.ne_none_iff_exists'.1 h0
  obtain ⟨i, hi, o, ho, ψ, h1, h2⟩ := (c75_one_by_one PlaneGen.so2 (plainArgs ℝ 1) (plainArgs_default 0) _ [n] [m] [n] rfl (fun k _ => hpl k) (fun k _ => hpl k)).1 ⟨M, hM⟩
  obtain rfl := List.mem_singleton.1 hi
  obtain rfl := List.mem_singleton.1 ho
  have e := (List.mem_singleton.1 h1).symm.trans (List.mem_singleton.1 h2)
  have hf : ∀ k, (SO2.irrep k).freq = k := fun k => by by_cases hk : k = 0 <;> simp [SO2.irrep, hk]
  have := congrArg Irrep.freq e
  rw [hf, hf] at this
  exact h this

end E2
