import Verif.Props.Tags
import Verif.Props.InducedExists

/-!
# C73: `disentangle` makes `induced_norm_k` and `induced_gated_k` false

`disentangle` copies the strings to its parts (representation.py:597).  The representation of `C_4` induced from its own irrep of frequency 1
carries `induced_norm_2`; restricted to `C_2` it is twice the sign, which `disentangle` cuts into two fields of size 1 with that string.
-/

namespace E2

open Mat

set_option linter.unusedSimpArgs false

/-- The irrep of `C_4` with frequency `k`. -/
noncomputable def c4irr : ℕ → Irrep ℤ
  | 0 => { size := 1, socs := 1, mat := fun _ => m1 1, freq := 0, flip := 0 }
  | 1 => { size := 2, socs := 2, freq := 1, flip := 0, mat := fun e => psi (e * (2 * Real.pi / 4)) 1 0 }
  | _ => { size := 1, socs := 1, freq := 2, flip := 0, mat := fun e => m1 (Real.cos (2 * e * (2 * Real.pi / 4))) }

theorem c4_irrep {k : ℕ} (hk : k < 3) : Cyclic.irrep 4 k = some (c4irr k) := by
  interval_cases k <;> simp [Cyclic.irrep, Cyclic.order, Cyclic.elements, c4irr]

theorem c4_irreps : Cyclic.irreps 4 = [c4irr 0, c4irr 1, c4irr 2] := by
  have h : Cyclic.order 4 / 2 + 1 = 3 := by simp [Cyclic.order, Cyclic.elements]
  simp only [Cyclic.irreps, h, List.range_succ, List.range_zero, List.nil_append, List.cons_append, List.filterMap_cons,
    c4_irrep (k := 0) (by omega), c4_irrep (k := 1) (by omega), c4_irrep (k := 2) (by omega), List.filterMap_nil]

/-- The data of the subgroup `C_4` of `C_4`. -/
theorem c4_sub : ∃ S, Cyclic.subData 4 4 = some S ∧ S.els = Cyclic.elements 4 ∧ (∀ k < 3, S.restr (c4irr k) = some (Mat.one, [c4irr k])) ∧
    (cosetLoop (Cyclic.grp 4) (Cyclic.elements 4) S).reps = [0] := by
  refine ⟨_, rfl, rfl, fun k hk => ?_, ?_⟩
  · have hf : (c4irr k).freq = k := by interval_cases k <;> rfl
    have hs : Cyclic.subgroup 4 4 ≠ none := by simp [Cyclic.subgroup, Cyclic.order, Cyclic.elements]
    obtain ⟨s, hs⟩ := Option.ne_none_iff_exists'.1 hs
    simp only [Cyclic.restrictIrrep, hs, Cyclic.reduceFreq, hf]
    rw [if_neg (by omega), Nat.mod_eq_of_lt (by omega)]
    simp only [c4_irrep hk]
    simp
  · rfl

theorem vLoop_cons_ne {S : SubData ℤ ℤ} {ρ irr : Irrep ℤ} {m : ℕ} {l : List (Irrep ℤ × ℕ)} {cob : Mat} {irs : List (Irrep ℤ)} {x : List (ℕ × Mat) × ℝ}
    (h : vLoop S ρ ((irr, m) :: l) = some x) (hr : S.restr irr = some (cob, irs)) (hm : m ≠ 0) : ρ.socs * (posList ρ 0 irs).length = m * irr.socs := by
  simp only [vLoop, hr] at h
  rw [if_neg hm] at h
  by_contra hc
  rw [if_pos hc] at h
  split_ifs at h

theorem vLoop_cons_zero {S : SubData ℤ ℤ} {ρ irr : Irrep ℤ} {l : List (Irrep ℤ × ℕ)} : vLoop S ρ ((irr, 0) :: l) = vLoop S ρ l := by
  simp [vLoop]

/-- `CyclicGroup(4).induced_representation(4, irrep(1))` is the irrep itself, with the identity as change of basis. -/
theorem c4_induced : ∃ r, Cyclic.inducedRepr 4 4 1 = some r ∧ r.irreps = [c4irr 1] ∧ MEq 2 2 r.cob Mat.one := by
  obtain ⟨S, hS, hels, hres, hreps⟩ := c4_sub
  obtain ⟨S', ρ, r, hS', hρ, hr, -⟩ := c13_cyclic_induced_exists 4 (by norm_num) 4 (dvd_refl _) 1 (by norm_num)
  obtain rfl : ρ = c4irr 1 := by rw [c4_irrep (by omega)] at hρ; exact (Option.some.inj hρ).symm
  refine ⟨r, hr, ?_⟩
  simp only [Cyclic.inducedRepr, hS, hρ, induced, hels, c4_irreps, List.map_cons, List.map_nil] at hr
  split_ifs at hr with h1 h2 h3
  generalize (round (inducedMult (Cyclic.grp 4) (Cyclic.elements 4) S (c4irr 1) (cosetLoop (Cyclic.grp 4) (Cyclic.elements 4) S)
    ((c4irr 1).size * ((Cyclic.elements 4).length / (Cyclic.elements 4).length)) (c4irr 0))).toNat = m0 at hr
  generalize (round (inducedMult (Cyclic.grp 4) (Cyclic.elements 4) S (c4irr 1) (cosetLoop (Cyclic.grp 4) (Cyclic.elements 4) S)
    ((c4irr 1).size * ((Cyclic.elements 4).length / (Cyclic.elements 4).length)) (c4irr 1))).toNat = m1 at hr
  generalize (round (inducedMult (Cyclic.grp 4) (Cyclic.elements 4) S (c4irr 1) (cosetLoop (Cyclic.grp 4) (Cyclic.elements 4) S)
    ((c4irr 1).size * ((Cyclic.elements 4).length / (Cyclic.elements 4).length)) (c4irr 2))).toNat = m2' at hr
  have hsz : (c4irr 1).size * ((Cyclic.elements 4).length / (Cyclic.elements 4).length) = 2 := by simp [c4irr, Cyclic.elements]
  rw [hsz] at hr
  have p0 : posList (c4irr 1) 0 [c4irr 0] = [] := by simp [posList, sameIrrep, c4irr]
  have p1 : posList (c4irr 1) 0 [c4irr 1] = [0] := by simp [posList, sameIrrep, c4irr]
  have p2 : posList (c4irr 1) 0 [c4irr 2] = [] := by simp [posList, sameIrrep, c4irr]
  have s0 : (c4irr 0).size = 1 ∧ (c4irr 0).socs = 1 := ⟨rfl, rfl⟩
  have s1 : (c4irr 1).size = 2 ∧ (c4irr 1).socs = 2 := ⟨rfl, rfl⟩
  have s2 : (c4irr 2).size = 1 ∧ (c4irr 2).socs = 1 := ⟨rfl, rfl⟩
  unfold inducedFrom at hr
  rw [ite_not] at hr
  split_ifs at hr with h4
  have h4 : m0 + 2 * m1 + m2' = 2 := by
    simp only [not_not, List.flatMap_cons, List.flatMap_nil, List.append_nil, List.map_append, List.map_replicate, List.sum_append, List.sum_replicate,
      s0, s1, s2, smul_eq_mul] at h4
    omega
  cases hv : vLoop S (c4irr 1) [(c4irr 0, m0), (c4irr 1, m1), (c4irr 2, m2')] with
  | none => rw [hv] at hr; cases hr
  | some x =>
  obtain rfl : m0 = 0 := by
    by_contra hc
    have := vLoop_cons_ne hv (hres 0 (by omega)) hc
    rw [p0, s0.2] at this
    simp at this
    omega
  rw [vLoop_cons_zero] at hv
  obtain ⟨rfl, rfl⟩ : m1 = 1 ∧ m2' = 0 := by
    rcases Nat.eq_zero_or_pos m1 with rfl | hp
    · exfalso
      rw [vLoop_cons_zero] at hv
      have := vLoop_cons_ne hv (hres 2 (by omega)) (by omega)
      rw [p2, s2.2] at this
      simp at this
      omega
    · omega
  have hv' : x = ([(2, vBlock (c4irr 1) (c4irr 1) Mat.one [0] 1 0)], 1) := by
    simp only [vLoop, hres 1 (by omega), p1, s1] at hv
    norm_num at hv
    exact hv.symm
  subst hv'
  simp only [vLoop_cons_zero, hv] at hr
  split_ifs at hr with h5 h6
  cases hr
  refine ⟨by simp, ?_⟩
  intro i hi j hj
  have hm : (c4irr 1).mat 0 = m2 1 0 0 1 := by simp [c4irr, psi]
  have hB : ∀ a < 2, ∀ b < 2, vBlock (c4irr 1) (c4irr 1) Mat.one [0] 1 0 a b = Mat.one a b := by
    intro a ha b hb
    interval_cases a <;> interval_cases b <;>
      simp [vBlock, s1, Mat.mul, Finset.sum_range_succ, Mat.one, setRows, commutingMat, m2, List.range_succ]
  simp only [tr, inducedCobInv, hreps, s1]
  interval_cases i <;> interval_cases j <;>
    simp [Mat.mul, Finset.sum_range_succ, Repr.blocks, bdiag, hm, s1, vstack, hB, Mat.one, m2]

/-- **C73, the missing part is false.** A field of size 1, built from an induced representation by a restriction and `disentangle`, carries
`induced_norm_2` and `induced_gated_2`, and has no subfields of size 2; the constructor of the nonlinearity for this string raises on it. -/
theorem c73_disentangle_wrong : ∃ (s : Repr ℤ) (tags : List Tag), Lib true (.cyc 2) s tags ∧ Tag.inducedNorm 2 ∈ tags ∧ Tag.inducedGated 2 ∈ tags ∧
    s.size = 1 ∧ ¬ TagOk (Cyclic.grp 2) s.size s.mat (.inducedNorm 2) ∧ ¬ TagOk (Cyclic.grp 2) s.size s.mat (.inducedGated 2) ∧
    inducedNormCheck (fun _ : Unit => s.size) (fun _ => inducedNormSizes tags) [()] = false := by
  obtain ⟨r, hr, hri, hrc⟩ := c4_induced
  have hL : Lib true (.cyc 4) r (inducedTags 2 (Cyclic.irrepTags 4 1)) :=
    .induced (h := .cyc 4) (ρ := c4irr 1) (show 0 < 4 by norm_num) (.cyc (c4_irrep (by omega))) (.cyc (c4_irrep (by omega)) hr)
  have hT : Cyclic.irrepTags 4 1 = [.norm, .gated] := by simp [Cyclic.irrepTags, Cyclic.order, Cyclic.elements]
  obtain ⟨S, hS⟩ : ∃ S, Cyclic.subgroup 4 2 = some S := by simp [Cyclic.subgroup, Cyclic.order, Cyclic.elements]
  obtain ⟨ε, hε, hεs⟩ : ∃ ε, Cyclic.irrep 2 1 = some ε ∧ ε.size = 1 := by simp [Cyclic.irrep, Cyclic.order, Cyclic.elements]
  have hres : Cyclic.restrictIrrep 4 (c4irr 1) 2 = some (Mat.one, [ε, ε]) := by
    simp only [Cyclic.restrictIrrep, hS, Cyclic.reduceFreq, c4irr]
    norm_num
    rw [hε]
    simp [hεs]
  have hsz : r.size = 2 := by simp [Repr.size, hri, c4irr]
  obtain ⟨r', hr', hri', hrc'⟩ : ∃ r', r.restrict (fun i => Cyclic.restrictIrrep 4 i 2) = some r' ∧ r'.irreps = [ε, ε] ∧ MEq 2 2 r'.cob Mat.one := by
    refine ⟨_, by simp only [Repr.restrict, hri, Repr.restrictAll, hres]; rfl, by simp [Repr.mk'], ?_⟩
    simp only [Repr.mk', hsz]
    refine (hrc.mul (m := 2) (B := _) (B' := Mat.one) ?_).trans (MEq_mul_one _ _ _)
    intro i hi j hj
    interval_cases i <;> interval_cases j <;> simp [bdiag, c4irr, Mat.one]
  have hsz' : r'.size = 2 := by simp [Repr.size, hri', hεs]
  have hL' := Lib.restrict hL (LibSub.cycCyc hS) hr'
  have hpos : ∀ i < 2, r'.irrepPos i = i := by
    intro i hi
    interval_cases i <;> simp [Repr.irrepPos, hri', hεs]
  have hone : ∀ i < 2, r'.irrepSize i = 1 := by
    intro i hi
    interval_cases i <;> simp [Repr.irrepSize, hri', hεs]
  have hent : ∀ u v, r'.entangled u v ↔ (u < 2 ∧ v = 2 + u) ∨ (v < 2 ∧ u = 2 + v) := by
    intro u v
    have hl : r'.irreps.length = 2 := by rw [hri']; rfl
    constructor
    · rintro ⟨i, x, c, hi, hx, hc, h0, h1⟩
      rw [hl] at hi h1
      rw [hsz'] at hx
      rw [hone i hi] at hc
      obtain rfl : c = 0 := by omega
      rw [hpos i hi, hrc' x hx _ (by omega)] at h0
      have : x = i := by
        by_contra hne
        exact h0 (by simp [Mat.one, hne])
      omega
    · have key : ∀ i < 2, r'.cob i (r'.irrepPos i + 0) ≠ 0 := by
        intro i hi
        rw [hpos i hi, hrc' i hi _ (by omega)]
        simp [Mat.one]
      rintro (⟨h, rfl⟩ | ⟨h, rfl⟩)
      · exact ⟨u, u, 0, by omega, by omega, by rw [hone u h]; omega, key u h, Or.inl ⟨rfl, by rw [hl]⟩⟩
      · exact ⟨v, v, 0, by omega, by omega, by rw [hone v h]; omega, key v h, Or.inr ⟨rfl, by rw [hl]⟩⟩
  have hlen : r'.irreps.length = 2 := by rw [hri']; rfl
  have heqv : ∀ u v, Relation.EqvGen (fun a b => a < 2 + 2 ∧ b < 2 + 2 ∧ r'.entangled a b) u v → u % 2 = v % 2 := by
    intro u v h
    induction h with
    | rel a b h => have := (hent a b).1 h.2.2; omega
    | refl a => rfl
    | symm a b _ ih => exact ih.symm
    | trans a b c _ _ ih1 ih2 => exact ih1.trans ih2
  have hc : IsComponents (r'.irreps.length + r'.size) r'.entangled 2 (fun v => v % 2) := by
    rw [hlen, hsz']
    refine ⟨fun v _ => Nat.mod_lt _ (by omega), fun b hb => ⟨b, by omega, Nat.mod_eq_of_lt hb⟩, fun u hu v hv => ⟨fun h => ?_, fun h => ?_⟩⟩
    · rcases lt_trichotomy u v with hlt | rfl | hlt
      · exact .rel _ _ ⟨hu, hv, (hent u v).2 (by omega)⟩
      · exact .refl _
      · exact .rel _ _ ⟨hu, hv, (hent u v).2 (by omega)⟩
    · exact heqv u v h
  obtain ⟨Q, reps, σ, hd, -⟩ := c11_disentangle r' (lib_good hL').wf 2 _ hc
  have hmem : Repr.mk' (r'.irrepSel (fun v => v % 2) 0) (ix (r'.rowIdx (fun v => v % 2) 0) (r'.colIdx (fun v => v % 2) 0) r'.cob) ∈ reps := by
    unfold Repr.disentangle at hd
    split_ifs at hd
    cases hd
    exact List.mem_map.2 ⟨0, by simp, rfl⟩
  have hLs := Lib.disentangle rfl hL' hc hd hmem
  set s := Repr.mk' (r'.irrepSel (fun v => v % 2) 0) (ix (r'.rowIdx (fun v => v % 2) 0) (r'.colIdx (fun v => v % 2) 0) r'.cob) with hs
  have hs1 : s.size = 1 := by
    rw [hs]
    simp [Repr.size, Repr.mk', Repr.irrepSel, Repr.irrepIdx, hri', hεs, List.range_succ]
  have htags : ∀ t ∈ inducedTags 2 (Cyclic.irrepTags 4 1), t ∈ restrictTags r' (inducedTags 2 (Cyclic.irrepTags 4 1)) := by
    intro t ht
    unfold restrictTags
    split_ifs
    · exact List.mem_cons_of_mem _ ht
    · exact ht
  have hin : Tag.inducedNorm 2 ∈ inducedTags 2 (Cyclic.irrepTags 4 1) := by simp [inducedTags, hT, Tag.isInducedNorm, Tag.isInducedGated]
  have hig : Tag.inducedGated 2 ∈ inducedTags 2 (Cyclic.irrepTags 4 1) := by simp [inducedTags, hT, Tag.isInducedNorm, Tag.isInducedGated]
  refine ⟨s, _, hLs, htags _ hin, htags _ hig, hs1, ?_, ?_, ?_⟩
  · rintro ⟨-, h, -⟩
    rw [hs1] at h
    omega
  · rintro ⟨-, h, -⟩
    rw [hs1] at h
    omega
  · have : inducedNormSizes (restrictTags r' (inducedTags 2 (Cyclic.irrepTags 4 1))) = [2] := by
      unfold restrictTags
      split_ifs <;> simp [inducedNormSizes, inducedTags, hT, Tag.isInducedNorm, Tag.isInducedGated]
    simp [inducedNormCheck, this, subSize, hs1]

end E2
