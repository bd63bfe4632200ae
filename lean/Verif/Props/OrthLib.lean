import Verif.Props.Tags
import Verif.Props.InducedExists
import Verif.Props.ConvBuilds

/-!
# C76: the changes of basis are orthogonal
-/

set_option linter.unusedSectionVars false

namespace E2

open Finset Mat Real

/-- The representations which are built by the methods of the groups and of `Representation` and by the functions of representation.py, in any order and number of
steps, where each matrix given by the caller is orthogonal (representation.py:400-468, 471-605, 608-646; group.py:211-331, 361-468; the `irrep` and
`regular_representation` of the four groups).  The representations made by `ConcatenatedNonLinearity` are left out: their change of basis is the answer of a numerical
search. -/
inductive OrthLib : (g : GName) → Repr g.El → Prop
  | irrep {g : GName} {i : Irrep g.El} {tags : List Tag} (hg : g.Ok) (h : LibIrrep g i tags) : OrthLib g i.repr
  | cycRegular {N : ℕ} {r : Repr ℤ} (hN : 0 < N) (h : Cyclic.regular N = some r) : OrthLib (.cyc N) r
  | dihRegular {N : ℕ} {r : Repr (ℤ × ℤ)} (hN : 0 < N) (h : Dihedral.regular N = some r) : OrthLib (.dih N) r
  | induced {g h : GName} {ρ : Irrep h.El} {r : Repr g.El} {tags : List Tag} (hg : g.Ok) (hρ : LibIrrep h ρ tags) (hr : LibInduced g h ρ r) : OrthLib g r
  | directsum {g : GName} {l : List (Repr g.El)} (hl : l ≠ []) (h : ∀ r ∈ l, OrthLib g r) : OrthLib g (Repr.directsum l)
  | directsumCob {g : GName} {l : List (Repr g.El)} (hl : l ≠ []) (h : ∀ r ∈ l, OrthLib g r) (Q : Mat) (hQ : Orth (l.map Repr.size).sum Q) :
      OrthLib g (Repr.directsumCob l Q)
  | changeBasis {g : GName} {r : Repr g.El} (h : OrthLib g r) (Q : Mat) (hQ : Orth r.size Q) : OrthLib g (r.changeBasis Q)
  | restrict {g h : GName} {r : Repr g.El} {p : h.El → g.El} {restr : Irrep g.El → Option (Mat × List (Irrep h.El))} {r' : Repr h.El} (hr : OrthLib g r)
      (hs : LibSub g h p restr) (h' : r.restrict restr = some r') : OrthLib h r'
  | disentangle {g : GName} {r : Repr g.El} (hr : OrthLib g r) {n : ℕ} {lab : ℕ → ℕ} (hc : IsComponents (r.irreps.length + r.size) r.entangled n lab) {Q : Mat}
      {reps : List (Repr g.El)} (hd : r.disentangle n lab = some (Q, reps)) {s : Repr g.El} (hs : s ∈ reps) : OrthLib g s

variable {El El' : Type}

theorem orth_isInv {n : ℕ} {A : Mat} (h : Orth n A) : IsInv n A (tr A) := (isInv_of_left h).symm

theorem isInv_orth {n : ℕ} {A : Mat} (h : IsInv n A (tr A)) : Orth n A := h.2

theorem orth_mul {n : ℕ} {A B : Mat} (hA : Orth n A) (hB : Orth n B) : Orth n (Mat.mul n A B) := cob_mul hA hB

/-- Of an orthogonal change of basis the transpose is the inverse. -/
theorem Repr.OrthCob.of_inv {r : Repr El} (hw : r.WF) (h : MEq r.size r.size r.cobInv (tr r.cob)) : r.OrthCob :=
  ⟨((MEq.refl _).mul h.symm).trans hw.1, (h.symm.mul (MEq.refl _)).trans hw.2⟩

theorem Repr.OrthCob.inv {r : Repr El} (hw : r.WF) (h : r.OrthCob) : MEq r.size r.size r.cobInv (tr r.cob) := IsInv.unique hw h

theorem plane_good {g : GName} {r : Repr g.El} (hg : g.Ok) (h : r.Plane g.IsIrr) : Good true g r [] :=
  ⟨hg, h.wf, h.irr, h.pos, fun t ht => absurd ht (by simp), fun hc => absurd hc (by simp)⟩

theorem orth_directsum {l : List (Repr El)} (h : ∀ r ∈ l, r.OrthCob) : Orth (l.map Repr.size).sum (bdiag (l.map fun r => (r.size, r.cob))) := by
  have := (orth_bdiag (l := l.map fun r => (r.size, r.cob))).2 (by
    intro p hp
    obtain ⟨r, hr, rfl⟩ := List.mem_map.1 hp
    exact isInv_orth (h r hr))
  have e : total (l.map fun r => (r.size, r.cob)) = (l.map Repr.size).sum := by
    unfold total
    rw [List.map_map]
    rfl
  rwa [e] at this

theorem restrictAll_orth {restr : Irrep El → Option (Mat × List (Irrep El'))} (l : List (Irrep El))
    (h : ∀ i ∈ l, ∀ p, restr i = some p → Orth i.size p.1) {xs : List (ℕ × Mat × List (Irrep El'))} (hx : Repr.restrictAll restr l = some xs) :
    (xs.map fun x => x.1) = l.map Irrep.size ∧ ∀ x ∈ xs, Orth x.1 x.2.1 := by
  induction l generalizing xs with
  | nil =>
    obtain rfl := Option.some.inj hx
    exact ⟨rfl, by simp⟩
  | cons i l ih =>
    unfold Repr.restrictAll at hx
    cases h1 : restr i with
    | none => simp [h1] at hx
    | some p =>
      cases h2 : Repr.restrictAll restr l with
      | none => simp [h1, h2] at hx
      | some q =>
        rw [h1, h2] at hx
        obtain rfl := Option.some.inj hx
        obtain ⟨e1, e2⟩ := ih (fun j hj => h j (by simp [hj])) h2
        refine ⟨by simp [e1], fun x hx => ?_⟩
        rcases List.mem_cons.1 hx with rfl | hx
        · exact h i (by simp) p h1
        · exact e2 x hx

theorem restrict_orthCob {restr : Irrep El → Option (Mat × List (Irrep El'))} {r : Repr El} {r' : Repr El'} (ho : r.OrthCob)
    (h : ∀ i ∈ r.irreps, ∀ p, restr i = some p → Orth i.size p.1) (hr : r.restrict restr = some r') (hs : r'.size = r.size) : r'.OrthCob := by
  unfold Repr.restrict at hr
  cases hx : Repr.restrictAll restr r.irreps with
  | none => simp [hx] at hr
  | some xs =>
    rw [hx] at hr
    obtain ⟨e1, e2⟩ := restrictAll_orth _ h hx
    have hb := (orth_bdiag (l := xs.map fun x => (x.1, x.2.1))).2 (by
      intro p hp
      obtain ⟨x, hx, rfl⟩ := List.mem_map.1 hp
      exact e2 x hx)
    have e : total (xs.map fun x => (x.1, x.2.1)) = r.size := by
      unfold total
      rw [List.map_map]
      exact congrArg List.sum e1
    rw [e] at hb
    have := orth_mul (isInv_orth ho) hb
    unfold Repr.OrthCob
    rw [hs]
    obtain rfl := Option.some.inj hr
    exact orth_isInv this

theorem disentangle_orthCob {r : Repr El} (hw : r.WF) (ho : r.OrthCob) {n : ℕ} {lab : ℕ → ℕ} (hc : IsComponents (r.irreps.length + r.size) r.entangled n lab) {Q : Mat}
    {reps : List (Repr El)} (hd : r.disentangle n lab = some (Q, reps)) {s : Repr El} (hs : s ∈ reps) : s.OrthCob := by
  unfold Repr.disentangle at hd
  split_ifs at hd with hok
  obtain ⟨-, rfl⟩ := Prod.ext_iff.1 (Option.some.inj hd)
  obtain ⟨b, hb, rfl⟩ := List.mem_map.1 hs
  have hA : ∀ x < r.size, ∀ c < r.size, (fun x => lab (r.irreps.length + x)) x ≠ colLab (r.irreps.map Irrep.size) lab c → r.cob x c = 0 := Repr.cob_zero hc
  have := (block_spec ho hA Mat.one b (R := r.rowIdx lab b) rfl (Repr.colIdx_eq r lab b)).1
  unfold Repr.OrthCob
  rw [Repr.size_mk', (hok b (List.mem_range.1 hb)).1]
  exact this

/-- The changes of basis of the restrictions of irreps are orthogonal, for every subgroup. -/
theorem LibSub.orth {g h : GName} {p : h.El → g.El} {restr : Irrep g.El → Option (Mat × List (Irrep h.El))} (hs : LibSub g h p restr) (hg : g.Ok) {i : Irrep g.El}
    (hi : g.IsIrr i) {q : Mat × List (Irrep h.El)} (hq : restr i = some q) : Orth i.size q.1 := by
  cases hs with
  | cycCyc h => exact Cyclic.restrict_orth hq
  | dihCyc h => exact Dihedral.restrictCyc_orth hq
  | dihFlip h =>
    obtain ⟨j, k, hk⟩ := hi
    exact Dihedral.restrictFlip_orth (by rcases Dihedral.size12 hk with h | h <;> omega) hq
  | dihDih hM h => exact Dihedral.restrictDih_orth hq
  | so2Cyc h =>
    simp only [SO2.restrictIrrep] at hq
    split at hq
    · cases hq
    · split at hq
      · cases hq
      · rename_i q' hq'
        split at hq
        · cases hq
        · cases hq
          exact Cyclic.reduceFreq_orth (f' := q'.1) cob_refl hq'
  | o2O2 h =>
    simp only [O2.restrictO2] at hq
    split_ifs at hq with h2
    · cases hq
      rw [h2]
      exact orth_mul (cob_psi _ _) (cob_one _)
    · cases hq
      exact cob_one _
  | o2SO2 h =>
    cases hq
    exact cob_one _
  | o2Flip h =>
    simp only [O2.restrictFlip] at hq
    split at hq
    · cases hq
    · split at hq
      · split_ifs at hq with h1
        · cases hq
          obtain ⟨j, k, hk⟩ := hi
          have : i.size = 2 := by rcases O2.size12 hk with h | h <;> omega
          rw [this]
          exact cob_psi _ _
        · cases hq
          exact cob_one _
      · cases hq
  | o2Cyc h =>
    simp only [O2.restrictCyc] at hq
    split at hq
    · cases hq
    · split at hq
      · cases hq
      · rename_i q' hq'
        split at hq
        · cases hq
        · cases hq
          exact Cyclic.reduceFreq_orth (f' := q'.1) cob_chi hq'
  | o2Dih hM h =>
    simp only [O2.restrictDih] at hq
    split at hq
    · cases hq
    · split at hq
      · cases hq
      · rename_i q' hq'
        have key := Cyclic.reduceFreq_orth (f' := q'.1) (C := q'.2) cob_refl hq'
        have key2 : ∀ θ : ℝ, Orth i.size (if i.size = 2 then Mat.mul 2 (psi θ i.freq 0) q'.2 else q'.2) := by
          intro θ
          split_ifs with h2
          · rw [h2] at key ⊢
            exact orth_mul (cob_psi _ _) key
          · exact key
        split at hq
        · cases hq
        · split at hq
          · split at hq
            · cases hq
            · cases hq
              exact key2 _
          · cases hq
            exact key2 _

theorem orthLib_plane {g : GName} {r : Repr g.El} (h : OrthLib g r) : g.Ok ∧ r.Plane g.IsIrr := by
  induction h with
  | irrep hg h => exact ⟨hg, irrep_plane (GName.irr_pos h.isIrr) h.isIrr⟩
  | cycRegular hN h =>
    obtain ⟨r, h1, h2, -⟩ := c12_cyclic_regular _ hN
    obtain rfl := Option.some.inj (h1.symm.trans h)
    have := good_cycRegular (cut := true) hN h
    exact ⟨hN, this.pos, this.wf, h2.orth, this.irr⟩
  | dihRegular hN h =>
    obtain ⟨r, h1, h2, -⟩ := c12_dihedral_regular _ hN
    obtain rfl := Option.some.inj (h1.symm.trans h)
    have := good_dihRegular (cut := true) hN h
    exact ⟨hN, this.pos, this.wf, h2.orth, this.irr⟩
  | induced hg hρ hr =>
    have := good_induced (cut := true) hg hρ hr
    obtain ⟨h1, -, h2, -⟩ := hr.ok hg hρ
    exact ⟨hg, this.pos, h1, .of_inv h1 h2, this.irr⟩
  | @directsum g l hl h ih =>
    have := good_directsum (cut := true) (g := g) (l := l.map fun r => (r, [])) (tags := []) (by
      intro p hp
      obtain ⟨r, hr, rfl⟩ := List.mem_map.1 hp
      exact plane_good (ih r hr).1 (ih r hr).2) (by
      cases l with
      | nil => exact absurd rfl hl
      | cons r l => rfl)
    rw [List.map_map, Function.comp_def, List.map_id'] at this
    refine ⟨this.ok, this.pos, this.wf, ?_, this.irr⟩
    unfold Repr.OrthCob
    rw [Repr.directsum_size]
    exact orth_isInv (orth_directsum fun r hr => (ih r hr).2.orth)
  | @directsumCob g l hl h Q hQ ih =>
    obtain ⟨h1, h2, h3, -⟩ := c10_directsum_change_of_basis l (fun r hr => (ih r hr).2.wf) Q (tr Q) (orth_isInv hQ)
    obtain ⟨r0, hr0⟩ := List.exists_mem_of_ne_nil l hl
    refine ⟨(ih r0 hr0).1, ?_, h1, ?_, ?_⟩
    · rw [h2]
      exact lt_of_lt_of_le (ih r0 hr0).2.pos (List.single_le_sum (by simp) _ (List.mem_map.2 ⟨r0, hr0, rfl⟩))
    · unfold Repr.OrthCob
      rw [h2]
      exact orth_isInv (orth_mul hQ (orth_directsum fun r hr => (ih r hr).2.orth))
    · intro i hi
      rw [h3, List.mem_flatten] at hi
      obtain ⟨is, his, hi⟩ := hi
      obtain ⟨p, hp, rfl⟩ := List.mem_map.1 his
      exact (ih p hp).2.irr i hi
  | @changeBasis g r h Q hQ ih =>
    obtain ⟨h1, h2, -⟩ := c10_change_basis r ih.2.wf Q (tr Q) (orth_isInv hQ)
    refine ⟨ih.1, ih.2.pos, h1, ?_, ih.2.irr⟩
    exact orth_isInv (orth_mul hQ (isInv_orth ih.2.orth))
  | restrict hr hs h' ih =>
    obtain ⟨hg, hp⟩ := ih
    have := good_restrict (plane_good hg hp) hs h'
    obtain ⟨-, -, h3⟩ := hs.ok hg
    obtain ⟨r'', h4, h5⟩ := h3 _ hp.wf hp.irr
    obtain rfl := Option.some.inj (h4.symm.trans h')
    exact ⟨this.ok, this.pos, this.wf, restrict_orthCob hp.orth (fun i hi q hq => hs.orth hg (hp.irr i hi) hq) h' h5.size, this.irr⟩
  | disentangle hr hc hd hs ih =>
    obtain ⟨hg, hp⟩ := ih
    have := good_disentangle (plane_good hg hp) hc hd hs
    exact ⟨this.ok, this.pos, this.wf, disentangle_orthCob hp.wf hp.orth hc hd hs, this.irr⟩

/-- **C76.** Whatever functions of the library a representation is built with, in any order and number of steps, its change of basis is orthogonal as long as the
caller gives only orthogonal matrices: `change_of_basis_inv` is the transpose of `change_of_basis` (on both sides), and all the matrices of the representation are
orthogonal, `ρ(g⁻¹)` is the transpose of `ρ(g)`. -/
theorem c76_orthogonal {g : GName} {r : Repr g.El} (h : OrthLib g r) :
    IsInv r.size r.cob (tr r.cob) ∧ MEq r.size r.size r.cobInv (tr r.cob) ∧ IsOrthRep g.grp r.size r.mat := by
  obtain ⟨hg, hp⟩ := orthLib_plane h
  exact ⟨hp.orth, hp.orth.inv hp.wf, Repr.isOrthRep hp.wf (hp.orth.inv hp.wf) fun i hi => GName.isOrthRep hg (hp.irr i hi)⟩

/-- **C75 for the representations of the library**: on each of the six spaces, a convolution of odd size between types of such representations can be built if an input
field and an output field have a common irrep. -/
theorem c75_library {F : Type} [LinearOrder F] {g : GName} {G : KernelGen g.El} (hG : PlaneGen G g.IsIrr) (a : ConvArgs g.El) (m : ℕ) (ha : a.Default m)
    (rep : F → Repr g.El) (inT outT inG : List F) (hg : convGroups a.groups inT outT = some inG) (hrep : ∀ n, OrthLib g (rep n))
    (hshare : ∃ i ∈ inG, ∃ o ∈ outT, ∃ ψ ∈ (rep i).irreps, ψ ∈ (rep o).irreps) :
    ∃ M : ConvModule g.El F, r2convInit G a rep inT outT = some M ∧ M.dim ≠ 0 :=
  c75_conv hG a m ha rep inT outT inG hg (fun n _ => (orthLib_plane (hrep n)).2) (fun n _ => (orthLib_plane (hrep n)).2) hshare

/-- The spaces, with the irreps of their groups. -/
example : PlaneGen (rot2dGen 8) (GName.cyc 8).IsIrr ∧ PlaneGen (flipRot2dGen 4 0) (GName.dih 4).IsIrr ∧ PlaneGen (so2Gen) GName.so2.IsIrr ∧ PlaneGen (o2Gen 0) GName.o2.IsIrr :=
  ⟨.rot (by norm_num), .flipRot (by norm_num) 0, .so2, .o2 0⟩

/-- A representation built in several steps: the regular representation of `D_4`, restricted to `C_4`, disentangled. -/
example : ∃ (r : Repr (ℤ × ℤ)) (p : ℤ → ℤ × ℤ) (r' : Repr ℤ) (n : ℕ) (lab : ℕ → ℕ) (Q : Mat) (reps : List (Repr ℤ)), Dihedral.regular 4 = some r ∧
    LibSub (.dih 4) (.cyc 4) p (fun i => Dihedral.restrictCyc 4 i 4) ∧ r.restrict (fun i => Dihedral.restrictCyc 4 i 4) = some r' ∧ r'.size = 8 ∧
    r'.disentangle n lab = some (Q, reps) ∧ (∀ s ∈ reps, OrthLib (.cyc 4) s) ∧ (Repr.directsum reps).size = 8 := by
  obtain ⟨r, h1, h2, -⟩ := c12_dihedral_regular 4 (by norm_num)
  have hl : OrthLib (.dih 4) r := .dihRegular (by norm_num) h1
  obtain ⟨hg, hp⟩ := orthLib_plane hl
  have hs : LibSub (.dih 4) (.cyc 4) _ (fun i => Dihedral.restrictCyc 4 i 4) := .dihCyc (Dihedral.sub_cyc (M := 4) (Q := 1) (by norm_num))
  obtain ⟨-, -, h3⟩ := hs.ok hg
  obtain ⟨r', h4, h5⟩ := h3 r hp.wf hp.irr
  obtain ⟨n, lab, hc⟩ := exists_components (r'.irreps.length + r'.size) r'.entangled
  obtain ⟨Q, reps, σ, h6, -, -, -, h7, -⟩ := c11_disentangle r' h5.wf n lab hc
  have h8 : r'.size = 8 := by
    rw [h5.size, h2.size]
    simp [Dihedral.elements]
  exact ⟨r, _, r', n, lab, Q, reps, h1, hs, h4, h8, h6, fun s hs' => .disentangle (.restrict hl hs h4) hc h6 hs', by rw [h7, h8]⟩

end E2
