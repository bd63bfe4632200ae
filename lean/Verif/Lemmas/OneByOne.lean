import Verif.Lemmas.ForwardBij
import Verif.Props.ConvBuilds

/-!
# The elements of the kernel bases at the origin
-/

set_option linter.unusedSectionVars false

namespace E2

open Finset Mat Real

variable {El F A : Type} [LinearOrder F]

/-! ## The phase of the elements of frequency 0 between irreps of size 1 -/

theorem flipsBasis_unit {i o : Irrep ℤ} {mf mo : Option ℕ} {l : List AngElem} (hl : flipsBasis i o mf mo = some l) {e : AngElem} (he : e ∈ l)
    (h0 : e.mu = 0) : e.gamma = 0 := by
  unfold flipsBasis at hl
  simp only at hl
  split_ifs at hl
  obtain ⟨hg, -, -, hk⟩ := offsetLoop_mem hl he
  rw [h0] at hk
  exact hg.trans (hk.resolve_left (lt_irrefl _))

theorem rotBasis_unit {N : ℕ} {i o : Irrep ℤ} (h1 : i.size = 1) (h2 : o.size = 1) {mf mo : Option ℕ} {l : List AngElem}
    (hl : rotBasis N i o mf mo = some l) {e : AngElem} (he : e ∈ l) (h0 : e.mu = 0) : e.gamma = 0 := by
  unfold rotBasis at hl
  simp only [h1, h2, OfNat.one_ne_ofNat, false_and, and_false, if_false, and_self, if_true] at hl
  split_ifs at hl
  obtain ⟨l', hl', hx⟩ := mem_concatOpt hl he
  obtain ⟨γ, -, hl'⟩ := List.mem_map.1 hl'
  obtain ⟨hg, -, -, hk⟩ := offsetLoop_mem hl' hx
  rw [h0] at hk
  exact hg.trans (hk.resolve_left (lt_irrefl _))

theorem flipRotBasis_unit {N : ℕ} {i o : Irrep (ℤ × ℤ)} (h1 : i.size = 1) (h2 : o.size = 1) {mf mo : Option ℕ} {l : List AngElem}
    (hl : flipRotBasis N i o mf mo = some l) {e : AngElem} (he : e ∈ l) (h0 : e.mu = 0) : e.gamma = 0 := by
  unfold flipRotBasis at hl
  simp only [h1, h2, OfNat.one_ne_ofNat, false_and, and_false, if_false, and_self, if_true] at hl
  split_ifs at hl
  obtain ⟨hg, -, -, hk⟩ := offsetLoop_mem hl he
  rw [h0] at hk
  exact hg.trans (hk.resolve_left (lt_irrefl _))

theorem contBasis_unit {i o : Irrep ℝ} (h1 : i.size = 1) (h2 : o.size = 1) {l : List AngElem}
    (hl : contBasis i o = some l) {e : AngElem} (he : e ∈ l) (h0 : e.mu = 0) : e.gamma = 0 := by
  unfold contBasis at hl
  simp only [h1, h2, OfNat.one_ne_ofNat, false_and, and_false, if_false, and_self, if_true] at hl
  split_ifs at hl with h3
  cases hl
  obtain ⟨γ, hγ, rfl⟩ := List.mem_map.1 he
  have := (List.mem_filter.1 hγ).2
  rw [decide_eq_true_eq] at this
  dsimp only at h0 ⊢
  exact this.resolve_left (by rw [h0]; exact lt_irrefl _)

theorem flipContBasis_unit {i o : Irrep (ℤ × ℝ)} (h1 : i.size = 1) (h2 : o.size = 1) {l : List AngElem}
    (hl : flipContBasis i o = some l) {e : AngElem} (he : e ∈ l) (h0 : e.mu = 0) : e.gamma = 0 := by
  unfold flipContBasis at hl
  simp only [h1, h2, OfNat.one_ne_ofNat, false_and, and_false, if_false, and_self, if_true] at hl
  split_ifs at hl with h3 h4
  · cases hl
    simp only [List.mem_singleton] at he
    subst he
    dsimp only at h0 ⊢
    exact h4.resolve_left (by rw [h0]; exact lt_irrefl _)
  · cases hl
    simp at he

theorem PlaneGen.unit {G : KernelGen El} {P : Irrep El → Prop} (h : PlaneGen G P) {mf mo : Option ℤ} {bas} (hb : G.bas mf mo = some bas) {i o : Irrep El}
    (hi : i.size = 1) (ho : o.size = 1) {l : List AngElem} (hl : bas i o = some l) {e : AngElem} (he : e ∈ l) (h0 : e.mu = 0) : e.gamma = 0 := by
  cases h with
  | rot hN =>
    obtain ⟨b, -, rfl⟩ := Option.map_eq_some_iff.1 hb
    exact rotBasis_unit hi ho hl he h0
  | trivial =>
    obtain ⟨b, -, rfl⟩ := Option.map_eq_some_iff.1 hb
    exact rotBasis_unit hi ho hl he h0
  | flip axis =>
    obtain ⟨b, -, rfl⟩ := Option.map_eq_some_iff.1 hb
    exact flipsBasis_unit hl he h0
  | flipRot hN axis =>
    obtain ⟨b, -, rfl⟩ := Option.map_eq_some_iff.1 hb
    exact flipRotBasis_unit hi ho hl he h0
  | so2 =>
    cases hb
    exact contBasis_unit hi ho hl he h0
  | o2 axis =>
    cases hb
    exact flipContBasis_unit hi ho hl he h0

/-- An element of frequency 0 between an irrep and itself has a first column of norm 1. -/
theorem angMat_col {s : ℕ} (hs : s = 1 ∨ s = 2) {e : AngElem} (h0 : e.mu = 0) (h1 : s = 1 → e.gamma = 0) (φ : ℝ) :
    ∑ x ∈ range s, angMat s s e φ x 0 ^ 2 = 1 := by
  rcases hs with rfl | rfl
  · simp [angMat, h0, h1 rfl, m1]
  · rw [Finset.sum_range_succ, Finset.sum_range_one]
    simp only [angMat, and_self, if_true, psichi, h0, m2, Int.cast_zero, zero_mul, zero_add]
    simp

/-- The elements of frequency 0 do not depend on the angle. -/
theorem angSample_const (axis : ℝ) (so si : ℕ) {e : AngElem} (h0 : e.mu = 0) (φ : Option ℝ) : angSample axis so si e φ = angSample axis so si e none := by
  unfold angSample angMat psichi
  simp [h0]

theorem angSample_none (axis : ℝ) (so si : ℕ) {e : AngElem} (h0 : e.mu ≠ 0) : angSample axis so si e none = fun _ _ => 0 := by
  unfold angSample
  rw [if_pos ⟨rfl, h0⟩]

/-! ## The elements kept by `SingleBlockBasisExpansion` -/

open Classical in
/-- The list of the elements kept. -/
noncomputable def picked (so si S : ℕ) (keep : A → Bool) (shape0 : A → ℕ) (basis : List (Elem A)) : List (Elem A) :=
  ((basis.filter fun e => keep e.attr).map fun e => (⟨e.attr, normalizeElem so si S (shape0 e.attr) e.ker⟩ : Elem A)).filter
    fun e => decide (sqNorm so si S e.ker > 1e-2)

theorem singleBlock_picked (so si S : ℕ) (keep : A → Bool) (shape0 : A → ℕ) (basis : List (Elem A)) :
    (singleBlock so si S keep shape0 basis = none ∧ picked so si S keep shape0 basis = []) ∨
      singleBlock so si S keep shape0 basis = some (picked so si S keep shape0 basis) := by
  unfold singleBlock picked
  dsimp only
  split_ifs with h1 h2
  · left
    rw [h1]
    exact ⟨rfl, rfl⟩
  · exact Or.inl ⟨rfl, h2⟩
  · exact Or.inr rfl

theorem blockForward_cons (e : Elem A) (l : List (Elem A)) (v : ℕ → ℝ) (o i s : ℕ) :
    blockForward (e :: l) v o i s = e.ker o i s * v 0 + blockForward l (fun k => v (k + 1)) o i s := by
  unfold blockForward
  rw [List.length_cons, Finset.sum_range_succ', add_comm]
  rfl

theorem blockForward_nil (v : ℕ → ℝ) (o i s : ℕ) : blockForward ([] : List (Elem A)) v o i s = 0 := by
  simp [blockForward]

theorem normalizeElem_zero {so si S size : ℕ} {b : Arr3} (h : ∀ o < so, ∀ i < si, ∀ s < S, b o i s = 0) : sqNorm so si S (normalizeElem so si S size b) = 0 := by
  unfold sqNorm normalizeElem
  refine Finset.sum_eq_zero fun o ho => Finset.sum_eq_zero fun i hi => Finset.sum_eq_zero fun s hs => ?_
  rw [h o (Finset.mem_range.1 ho) i (Finset.mem_range.1 hi) s (Finset.mem_range.1 hs), zero_div, zero_pow (by norm_num)]

theorem elemNorm_pos (so si S size : ℕ) (b : Arr3) : 0 < elemNorm so si S size b := by
  have key : ∀ x : ℝ, 0 < if x < 1e-6 then 1 else x := by
    intro x
    split_ifs with h
    · exact one_pos
    · exact lt_of_lt_of_le (by norm_num) (not_lt.1 h)
  exact key _

/-- An element is either zero or passes the filter with a norm above the thresholds. -/
def Clear (so si S : ℕ) (keep : A → Bool) (shape0 : A → ℕ) (e : Elem A) : Prop :=
  (∀ o < so, ∀ i < si, ∀ s < S, e.ker o i s = 0) ∨ (keep e.attr = true ∧ 0 < shape0 e.attr ∧ 1e-2 ≤ sqNorm so si S e.ker / shape0 e.attr)

theorem picked_cons_zero {so si S : ℕ} {keep : A → Bool} {shape0 : A → ℕ} {e : Elem A} (h : ∀ o < so, ∀ i < si, ∀ s < S, e.ker o i s = 0)
    (l : List (Elem A)) : picked so si S keep shape0 (e :: l) = picked so si S keep shape0 l := by
  unfold picked
  rw [List.filter_cons]
  split_ifs
  · rw [List.map_cons, List.filter_cons, if_neg]
    rw [decide_eq_true_eq]
    dsimp only
    rw [normalizeElem_zero h]
    norm_num
  · rfl

theorem picked_cons_keep {so si S : ℕ} {keep : A → Bool} {shape0 : A → ℕ} {e : Elem A} (h1 : keep e.attr = true) (h2 : 0 < shape0 e.attr)
    (h3 : 1e-2 ≤ sqNorm so si S e.ker / shape0 e.attr) (l : List (Elem A)) :
    picked so si S keep shape0 (e :: l) = ⟨e.attr, normalizeElem so si S (shape0 e.attr) e.ker⟩ :: picked so si S keep shape0 l := by
  unfold picked
  rw [List.filter_cons, if_pos h1, List.map_cons, List.filter_cons, if_pos]
  rw [decide_eq_true_eq]
  dsimp only
  rw [sqNorm_normalize_eq so si S _ h2 _ h3]
  have : (1 : ℝ) ≤ shape0 e.attr := by exact_mod_cast h2
  exact lt_of_lt_of_le (by norm_num) this

/-- A combination of the elements is a combination of those kept. -/
theorem picked_surj {so si S : ℕ} {keep : A → Bool} {shape0 : A → ℕ} (l : List (Elem A)) (hl : ∀ e ∈ l, Clear so si S keep shape0 e) (c : ℕ → ℝ) :
    ∃ v : ℕ → ℝ, ∀ o < so, ∀ i < si, ∀ s < S, blockForward l c o i s = blockForward (picked so si S keep shape0 l) v o i s := by
  induction l generalizing c with
  | nil => exact ⟨fun _ => 0, fun o _ i _ s _ => by rw [blockForward_nil]; exact (blockForward_nil _ _ _ _).symm⟩
  | cons e l ih =>
    obtain ⟨v, hv⟩ := ih (fun e' he => hl e' (List.mem_cons_of_mem _ he)) fun k => c (k + 1)
    rcases hl e (by simp) with h | ⟨h1, h2, h3⟩
    · refine ⟨v, fun o ho i hi s hs => ?_⟩
      rw [picked_cons_zero h, blockForward_cons, h o ho i hi s hs, zero_mul, zero_add, hv o ho i hi s hs]
    · refine ⟨fun k => Nat.casesOn k (c 0 * elemNorm so si S (shape0 e.attr) e.ker) v, fun o ho i hi s hs => ?_⟩
      rw [picked_cons_keep h1 h2 h3, blockForward_cons, blockForward_cons, hv o ho i hi s hs]
      congr 1
      have := (elemNorm_pos so si S (shape0 e.attr) e.ker).ne'
      show _ = normalizeElem so si S (shape0 e.attr) e.ker o i s * (c 0 * elemNorm so si S (shape0 e.attr) e.ker)
      unfold normalizeElem
      field_simp

/-- A combination of the elements kept is a combination of all elements, in which the coefficients of the elements that are not zero determine the given
coefficients. -/
theorem picked_inj {so si S : ℕ} {keep : A → Bool} {shape0 : A → ℕ} (l : List (Elem A)) (hl : ∀ e ∈ l, Clear so si S keep shape0 e) (v : ℕ → ℝ) :
    ∃ c : ℕ → ℝ, (∀ o < so, ∀ i < si, ∀ s < S, blockForward l c o i s = blockForward (picked so si S keep shape0 l) v o i s) ∧
      ((∀ k e, l[k]? = some e → ¬ (∀ o < so, ∀ i < si, ∀ s < S, e.ker o i s = 0) → c k = 0) → ∀ b < (picked so si S keep shape0 l).length, v b = 0) := by
  induction l generalizing v with
  | nil => exact ⟨fun _ => 0, fun o _ i _ s _ => by rw [blockForward_nil]; exact (blockForward_nil _ _ _ _).symm, fun _ b hb => by simp [picked] at hb⟩
  | cons e l ih =>
    have hl' : ∀ e' ∈ l, Clear so si S keep shape0 e' := fun e' he => hl e' (List.mem_cons_of_mem _ he)
    rcases hl e (by simp) with h | ⟨h1, h2, h3⟩
    · obtain ⟨c, hc, hz⟩ := ih hl' v
      refine ⟨fun k => Nat.casesOn k 0 c, fun o ho i hi s hs => ?_, fun hk b hb => ?_⟩
      · rw [picked_cons_zero h, blockForward_cons, h o ho i hi s hs, zero_mul, zero_add]
        exact hc o ho i hi s hs
      · rw [picked_cons_zero h] at hb
        exact hz (fun k e' he' => hk (k + 1) e' (by simpa using he')) b hb
    · obtain ⟨c, hc, hz⟩ := ih hl' fun k => v (k + 1)
      have hn := (elemNorm_pos so si S (shape0 e.attr) e.ker).ne'
      refine ⟨fun k => Nat.casesOn k (v 0 / elemNorm so si S (shape0 e.attr) e.ker) c, fun o ho i hi s hs => ?_, fun hk b hb => ?_⟩
      · rw [picked_cons_keep h1 h2 h3, blockForward_cons, blockForward_cons]
        refine congrArg₂ (· + ·) ?_ (hc o ho i hi s hs)
        show e.ker o i s * (v 0 / elemNorm so si S (shape0 e.attr) e.ker) = e.ker o i s / elemNorm so si S (shape0 e.attr) e.ker * v 0
        ring
      · rw [picked_cons_keep h1 h2 h3, List.length_cons] at hb
        cases b with
        | zero =>
          have := hk 0 e rfl (fun h => by
            have h0 : sqNorm so si S e.ker = 0 := by
              unfold sqNorm
              refine Finset.sum_eq_zero fun o ho => Finset.sum_eq_zero fun i hi => Finset.sum_eq_zero fun s hs => ?_
              rw [h o (Finset.mem_range.1 ho) i (Finset.mem_range.1 hi) s (Finset.mem_range.1 hs), zero_pow (by norm_num)]
            rw [h0, zero_div] at h3
            norm_num at h3)
          exact (div_eq_zero_iff.1 this).resolve_right hn
        | succ b => exact hz (fun k e' he' => hk (k + 1) e' (by simpa using he')) b (by omega)

/-! ## The groups of the spaces -/

/-- The bases of the spaces of the library with their groups, the actions on the plane and the irreps (gspaces/r2/*.py). -/
inductive PlaneGroup : {El : Type} → KernelGen El → Grp El → (El → ℝ × ℝ → ℝ × ℝ) → (Irrep El → Prop) → Prop where
  | rot {N : ℕ} (hN : 0 < N) : PlaneGroup (rot2dGen N) (Cyclic.grp N) (fun g => rot (g * (2 * π / N))) fun i => ∃ k, Cyclic.irrep N k = some i
  | trivial : PlaneGroup trivialGen (Cyclic.grp 1) (fun g => E2.rot (g * (2 * π / (1 : ℕ)))) fun i => ∃ k, Cyclic.irrep 1 k = some i
  | flip (axis : ℝ) : PlaneGroup (flip2dGen axis) (Cyclic.grp 2) (fun g p => if g = 0 then p else refl axis p) fun i => ∃ k, Cyclic.irrep 2 k = some i
  | flipRot {N : ℕ} (hN : 0 < N) (axis : ℝ) :
    PlaneGroup (flipRot2dGen N axis) (Dihedral.grp N) (fun g => planeAct axis (g.1, g.2 * (2 * π / N))) fun i => ∃ j k, Dihedral.irrep N j k = some i
  | so2 : PlaneGroup so2Gen SO2.grp E2.rot fun i => ∃ k, SO2.irrep k = i
  | o2 (axis : ℝ) : PlaneGroup (o2Gen axis) O2.grp (planeAct axis) fun i => ∃ j k, O2.irrep j k = some i

theorem PlaneGroup.gen {G : KernelGen El} {grp : Grp El} {act : El → ℝ × ℝ → ℝ × ℝ} {P : Irrep El → Prop} (h : PlaneGroup G grp act P) : PlaneGen G P := by
  cases h with
  | rot hN => exact .rot hN
  | trivial => exact .trivial
  | flip axis => exact .flip axis
  | flipRot hN axis => exact .flipRot hN axis
  | so2 => exact .so2
  | o2 axis => exact .o2 axis

theorem PlaneGroup.invOk {G : KernelGen El} {grp : Grp El} {act : El → ℝ × ℝ → ℝ × ℝ} {P : Irrep El → Prop} (h : PlaneGroup G grp act P) : grp.InvOk := by
  cases h with
  | rot hN => exact Cyclic.invOk hN
  | trivial => exact Cyclic.invOk one_pos
  | flip axis => exact Cyclic.invOk two_pos
  | flipRot hN axis => exact Dihedral.invOk hN
  | so2 => exact SO2.invOk
  | o2 axis => exact O2.invOk

theorem PlaneGroup.act_zero {G : KernelGen El} {grp : Grp El} {act : El → ℝ × ℝ → ℝ × ℝ} {P : Irrep El → Prop} (h : PlaneGroup G grp act P) (g : El) :
    act g (0, 0) = (0, 0) := by
  have h1 : ∀ α, E2.rot α (0, 0) = (0, 0) := fun α => by simp [E2.rot]
  have h2 : ∀ α, refl α (0, 0) = (0, 0) := fun α => by simp [refl]
  cases h with
  | rot hN => exact h1 _
  | trivial => exact h1 _
  | flip axis => dsimp only; split_ifs; rfl; exact h2 _
  | flipRot hN axis => unfold planeAct; dsimp only; split_ifs; exact h1 _; rw [h2]; exact h1 _
  | so2 => exact h1 _
  | o2 axis => unfold planeAct; split_ifs; exact h1 _; rw [h2]; exact h1 _

theorem PlaneGroup.isRep {G : KernelGen El} {grp : Grp El} {act : El → ℝ × ℝ → ℝ × ℝ} {P : Irrep El → Prop} (h : PlaneGroup G grp act P) {r : Repr El}
    (hw : r.WF) (hi : ∀ i ∈ r.irreps, P i) : IsRep grp r.size r.mat := by
  cases h with
  | rot hN => exact Cyclic.isRep_of hN ⟨hw, hi⟩
  | trivial => exact Cyclic.isRep_of one_pos ⟨hw, hi⟩
  | flip axis => exact Cyclic.isRep_of two_pos ⟨hw, hi⟩
  | flipRot hN axis => exact Dihedral.isRep_of hN ⟨hw, hi⟩
  | so2 => exact SO2.isRep_of ⟨hw, fun i h => by obtain ⟨k, hk⟩ := hi i h; exact ⟨k, hk.symm⟩⟩
  | o2 axis => exact O2.isRep_of ⟨hw, hi⟩

/-- The steerable basis of two representations: it is built, independent, complete, and its elements satisfy the constraint (C21, C70). -/
theorem PlaneGroup.basis {G : KernelGen El} {grp : Grp El} {act : El → ℝ × ℝ → ℝ × ℝ} {P : Irrep El → Prop} (h : PlaneGroup G grp act P) (f : ℕ)
    {rin rout : Repr El} (hin : rin.WF) (hout : rout.WF) (hi : ∀ i ∈ rin.irreps, P i) (ho : ∀ i ∈ rout.irreps, P i) :
    ∃ bas S, G.bas (some (f : ℤ)) none = some bas ∧ steerable bas rin rout = some S ∧ S.Independent G.axis rout.size rin.size ∧
      (∀ κ, KernelConstraint grp act rout.size rin.size rout.mat rin.mat κ → BandLimited rout.size rin.size f κ → S.Spans G.axis rout.size rin.size κ) ∧
      ∀ (radials : List (ℝ → ℝ)), ∀ k < radials.length * S.dim, KernelConstraint grp act rout.size rin.size rout.mat rin.mat (planeKernel G.axis radials S k) := by
  have key : ∀ (axis : ℝ) (bas : Irrep El → Irrep El → Option (List AngElem)) (Q : SBasis El AngElem → Prop) (R : List (ℝ → ℝ) → SBasis El AngElem → Prop),
      (∃ S, steerable bas rin rout = some S ∧ Q S) → (∀ radials, ∃ S, steerable bas rin rout = some S ∧ R radials S) →
      ∃ S, steerable bas rin rout = some S ∧ Q S ∧ ∀ radials, R radials S := by
    rintro axis bas Q R ⟨S, hS, hQ⟩ h2
    refine ⟨S, hS, hQ, fun radials => ?_⟩
    obtain ⟨S', hS', hR⟩ := h2 radials
    cases hS.symm.trans hS'
    exact hR
  cases h with
  | @rot N hN =>
    obtain ⟨S, h1, ⟨h2, h3⟩, h4⟩ := key 0 _ _ _ (c70_cyclic N hN rin rout hin hout hi ho f) (fun radials => by
      obtain ⟨S, h1, -, -, h2⟩ := c21_cyclic_kernels N hN rin rout hin hout hi ho (some f) none (by simp) radials
      exact ⟨S, h1, h2⟩)
    exact ⟨_, S, by simp [rot2dGen, checkBounds_freq], h1, h2, h3, h4⟩
  | trivial =>
    obtain ⟨S, h1, ⟨h2, h3⟩, h4⟩ := key 0 _ _ _ (c70_cyclic 1 one_pos rin rout hin hout hi ho f) (fun radials => by
      obtain ⟨S, h1, -, -, h2⟩ := c21_cyclic_kernels 1 one_pos rin rout hin hout hi ho (some f) none (by simp) radials
      exact ⟨S, h1, h2⟩)
    exact ⟨_, S, by simp [trivialGen, checkBounds_freq], h1, h2, h3, h4⟩
  | flip axis =>
    obtain ⟨S, h1, ⟨h2, h3⟩, h4⟩ := key axis _ _ _ (c70_flip axis rin rout hin hout hi ho f) (fun radials => by
      obtain ⟨S, h1, -, -, h2⟩ := c21_flip_kernels axis rin rout hin hout hi ho (some f) none (by simp) radials
      exact ⟨S, h1, h2⟩)
    exact ⟨_, S, by simp [flip2dGen, checkBounds_freq], h1, h2, h3, h4⟩
  | @flipRot N hN axis =>
    obtain ⟨S, h1, ⟨h2, h3⟩, h4⟩ := key axis _ _ _ (c70_dihedral N hN axis rin rout hin hout hi ho f) (fun radials => by
      obtain ⟨S, h1, -, -, h2⟩ := c21_dihedral_kernels N hN axis rin rout hin hout hi ho (some f) none (by simp) radials
      exact ⟨S, h1, h2⟩)
    exact ⟨_, S, by simp [flipRot2dGen, checkBounds_freq], h1, h2, h3, h4⟩
  | so2 =>
    have hi' : ∀ i ∈ rin.irreps, ∃ k, i = SO2.irrep k := fun i h => by obtain ⟨k, hk⟩ := hi i h; exact ⟨k, hk.symm⟩
    have ho' : ∀ i ∈ rout.irreps, ∃ k, i = SO2.irrep k := fun i h => by obtain ⟨k, hk⟩ := ho i h; exact ⟨k, hk.symm⟩
    obtain ⟨S, h1, ⟨h2, h3⟩, h4⟩ := key 0 _ _ _ (c70_so2 rin rout hin hout hi' ho') (fun radials => by
      obtain ⟨S, h1, -, -, h2⟩ := c21_so2_kernels rin rout hin hout hi' ho' radials
      exact ⟨S, h1, h2⟩)
    exact ⟨_, S, rfl, h1, h2, fun κ hκ _ => h3 κ hκ, h4⟩
  | o2 axis =>
    obtain ⟨S, h1, ⟨h2, h3⟩, h4⟩ := key axis _ _ _ (c70_o2 axis rin rout hin hout hi ho) (fun radials => by
      obtain ⟨S, h1, -, -, h2⟩ := c21_o2_kernels axis rin rout hin hout hi ho radials
      exact ⟨S, h1, h2⟩)
    exact ⟨_, S, rfl, h1, h2, fun κ hκ _ => h3 κ hκ, h4⟩

/-! ## The elements at the origin -/

/-- The matrix `M` commutes with two representations. -/
def Intertwines (G : Grp El) (n m : ℕ) (ρo ρi : El → Mat) (M : Mat) : Prop :=
  ∀ g, G.isEl g → MEq n m (Mat.mul n (ρo g) M) (Mat.mul m M (ρi g))

theorem Intertwines.constraint {G : Grp El} (hG : G.InvOk) {n m : ℕ} {ρo ρi : El → Mat} (hρ : IsRep G m ρi) {M : Mat} (hM : Intertwines G n m ρo ρi M)
    {X : Type} (act : El → X → X) : KernelConstraint G act n m ρo ρi fun _ => M := by
  intro g hg x
  refine MEq.symm (((hM g hg).mul (MEq.refl _)).trans ?_)
  rw [Mat.mul_assoc]
  exact ((MEq.refl _).mul (hρ.mul_inv hG g hg)).trans (MEq_mul_one _ _ _)

theorem Intertwines.of_constraint {G : Grp El} (hG : G.InvOk) {n m : ℕ} {ρo ρi : El → Mat} (hρ : IsRep G m ρi) {M : Mat}
    (hM : ∀ g, G.isEl g → MEq n m M (Mat.mul m (Mat.mul n (ρo g) M) (ρi (G.inv g)))) : Intertwines G n m ρo ρi M := by
  intro g hg
  refine MEq.symm (((hM g hg).mul (MEq.refl _)).trans ?_)
  rw [Mat.mul_assoc]
  exact ((MEq.refl _).mul (hρ.inv_mul hG g hg)).trans (MEq_mul_one _ _ _)

theorem slice_zero {axis : ℝ} {bas : Irrep El → Irrep El → Option (List AngElem)} {rin rout : Repr El} {S : SBasis El AngElem}
    (hS : steerable bas rin rout = some S) {b : ℕ} {a : SBasis.Attr El AngElem} (hb : S.iter[b]? = some a) (hmu : a.elem.mu ≠ 0) :
    MEq rout.size rin.size ((S.sample (angSamp axis) none).slice b) fun _ _ => 0 := by
  intro x hx y hy
  rw [sample_slice bas (angSamp axis) rin rout hS none b x hx y hy, SBasis.sampleDirectSum_slice (angSamp axis) S none hb]
  have hz : ∀ r s r' s', Mat.place r s r' s' (angSamp axis a.inIrrep a.outIrrep a.elem none) = fun _ _ => 0 := by
    intro r s r' s'
    funext u v
    simp [Mat.place, angSamp, angSample_none _ _ _ hmu]
  rw [hz]
  simp [Mat.mul]

theorem slice_const {axis : ℝ} {bas : Irrep El → Irrep El → Option (List AngElem)} {rin rout : Repr El} {S : SBasis El AngElem}
    (hS : steerable bas rin rout = some S) {b : ℕ} {a : SBasis.Attr El AngElem} (hb : S.iter[b]? = some a) (hmu : a.elem.mu = 0) (φ : Option ℝ) :
    MEq rout.size rin.size ((S.sample (angSamp axis) φ).slice b) ((S.sample (angSamp axis) none).slice b) := by
  refine (sample_slice bas (angSamp axis) rin rout hS φ b).trans (MEq.trans ?_ (sample_slice bas (angSamp axis) rin rout hS none b).symm)
  rw [SBasis.sampleDirectSum_slice (angSamp axis) S φ hb, SBasis.sampleDirectSum_slice (angSamp axis) S none hb]
  unfold angSamp
  rw [angSample_const axis _ _ hmu φ]
  exact MEq.refl _

/-- An element of frequency 0 is not small at the origin. -/
theorem slice_sq {axis : ℝ} {bas : Irrep El → Irrep El → Option (List AngElem)} {rin rout : Repr El} {S : SBasis El AngElem}
    (hS : steerable bas rin rout = some S) (hi : rin.WF) (hio : rin.OrthCob) (hoo : rout.OrthCob) {b : ℕ} {a : SBasis.Attr El AngElem}
    (hb : S.iter[b]? = some a) (he : a.inIrrep = a.outIrrep) (hs : a.inIrrep.size = 1 ∨ a.inIrrep.size = 2) (hmu : a.elem.mu = 0)
    (hγ : a.inIrrep.size = 1 → a.elem.gamma = 0) :
    1 ≤ ∑ o ∈ range rout.size, ∑ p ∈ range rin.size, ((S.sample (angSamp axis) none).slice b o p) ^ 2 := by
  have h1 := sample_slice bas (angSamp axis) rin rout hS none b
  rw [Finset.sum_congr rfl fun o ho => Finset.sum_congr rfl fun p hp => by rw [h1 o (Finset.mem_range.1 ho) p (Finset.mem_range.1 hp)]]
  have hci : MEq rin.size rin.size rin.cobInv (tr rin.cob) := hi.unique hio
  rw [orth_mul_sq (B := rout.cob) (A := rin.cobInv) hoo.2 ((hci.mul hci.tr).trans hio.2)]
  obtain ⟨g1, g2, -, -⟩ := SBasis.iter_get S hb
  rw [SBasis.sampleDirectSum_slice (angSamp axis) S none hb]
  obtain ⟨f1, f2, -⟩ := steerable_fields hS
  rw [f1] at g1
  rw [f2] at g2
  rw [f1, f2]
  have o1 : offset (rin.irreps.map Irrep.size) a.inIdx + a.inIrrep.size ≤ rin.size := by
    obtain ⟨hlt, hg⟩ := List.getElem?_eq_some_iff.1 g1
    have := offset_add_le (rin.irreps.map Irrep.size) (k := a.inIdx) (by simpa using hlt)
    rw [List.getElem_map, hg] at this
    exact this
  have o2 : offset (rout.irreps.map Irrep.size) a.outIdx + a.outIrrep.size ≤ rout.size := by
    obtain ⟨hlt, hg⟩ := List.getElem?_eq_some_iff.1 g2
    have := offset_add_le (rout.irreps.map Irrep.size) (k := a.outIdx) (by simpa using hlt)
    rw [List.getElem_map, hg] at this
    exact this
  rw [← he] at o2 ⊢
  set u := offset (rin.irreps.map Irrep.size) a.inIdx
  set v := offset (rout.irreps.map Irrep.size) a.outIdx
  set s := a.inIrrep.size with hsdef
  have hu : u < rin.size := by omega
  have hcol : ∑ x ∈ range s, angSamp axis a.inIrrep a.inIrrep a.elem none x 0 ^ 2 = 1 := by
    unfold angSamp angSample
    rw [if_neg (by simp [hmu])]
    exact angMat_col hs hmu hγ _
  rw [← hcol]
  calc ∑ x ∈ range s, angSamp axis a.inIrrep a.inIrrep a.elem none x 0 ^ 2
      = ∑ x ∈ range s, Mat.place v s u s (angSamp axis a.inIrrep a.inIrrep a.elem none) (v + x) u ^ 2 := by
        refine Finset.sum_congr rfl fun x hx => ?_
        have hx := Finset.mem_range.1 hx
        unfold Mat.place
        rw [if_pos ⟨⟨by omega, by omega⟩, le_refl _, by omega⟩, Nat.add_sub_cancel_left, Nat.sub_self]
    _ = ∑ o ∈ (range s).map (addLeftEmbedding v), Mat.place v s u s (angSamp axis a.inIrrep a.inIrrep a.elem none) o u ^ 2 := by
        rw [Finset.sum_map]; rfl
    _ ≤ ∑ o ∈ range rout.size, Mat.place v s u s (angSamp axis a.inIrrep a.inIrrep a.elem none) o u ^ 2 := by
        refine Finset.sum_le_sum_of_subset_of_nonneg (fun o ho => ?_) fun o _ _ => sq_nonneg _
        obtain ⟨x, hx, rfl⟩ := Finset.mem_map.1 ho
        have hx := Finset.mem_range.1 hx
        simp only [addLeftEmbedding_apply, Finset.mem_range]
        omega
    _ ≤ _ := by
        refine Finset.sum_le_sum fun o _ => ?_
        exact Finset.single_le_sum (f := fun p => Mat.place v s u s (angSamp axis a.inIrrep a.inIrrep a.elem none) o p ^ 2) (fun p _ => sq_nonneg _)
          (Finset.mem_range.2 hu)

/-- At the origin the elements of frequency 0 are independent. -/
theorem slice_independent {axis : ℝ} {bas : Irrep El → Irrep El → Option (List AngElem)} {rin rout : Repr El} {S : SBasis El AngElem}
    (hS : steerable bas rin rout = some S) (hI : S.Independent axis rout.size rin.size) (c : ℕ → ℝ)
    (h0 : ∀ x < rout.size, ∀ y < rin.size, ∑ k ∈ range S.dim, (S.sample (angSamp axis) none).slice k x y * c k = 0)
    {k : ℕ} {a : SBasis.Attr El AngElem} (hk : S.iter[k]? = some a) (hmu : a.elem.mu = 0) : c k = 0 := by
  classical
  have hkl : k < S.dim := by rw [← S.length_iter]; exact (List.getElem?_eq_some_iff.1 hk).1
  let w : ℕ → ℝ := fun k => match S.iter[k]? with
    | some a => if a.elem.mu = 0 then c k else 0
    | none => 0
  unfold SBasis.Independent at hI
  rw [Fintype.linearIndependent_iff] at hI
  have := hI (fun k => w k) (by
    funext φ x y
    simp only [Finset.sum_apply, Pi.smul_apply, smul_eq_mul, Pi.zero_apply]
    rw [Finset.sum_fin_eq_sum_range, ← h0 x x.2 y y.2]
    refine Finset.sum_congr rfl fun k hk => ?_
    have hk := Finset.mem_range.1 hk
    rw [dif_pos hk]
    obtain ⟨a, ha⟩ : ∃ a, S.iter[k]? = some a := ⟨_, List.getElem?_eq_getElem (by rw [S.length_iter]; exact hk)⟩
    simp only [w, ha]
    by_cases hm : a.elem.mu = 0
    · rw [if_pos hm, slice_const hS ha hm (some φ) x x.2 y y.2, _root_.mul_comm]
    · rw [if_neg hm, slice_zero hS ha hm x x.2 y y.2, zero_mul, zero_mul]) ⟨k, hkl⟩
  simpa [w, hk, hmu] using this

/-- The basis of two representations with one ring of radius 0, sampled at the origin. -/
theorem pair_centre {G : KernelGen El} {grp : Grp El} {act : El → ℝ × ℝ → ℝ × ℝ} {P : Irrep El → Prop} (hG : PlaneGroup G grp act P) (f : ℕ)
    {rin rout : Repr El} (hin : rin.Plane P) (hout : rout.Plane P) {σ : ℝ} (hσ : 0 < σ) {points : ℕ → ℝ × ℝ} (hp : points 0 = (0, 0))
    {keep : BasisAttr El → Bool} {shape0 : BasisAttr El → ℕ} (hkeep : ∀ t : BasisAttr El, t.angular.elem.mu = 0 → t.radial.1.1 = 0 → keep t = true)
    (hshape : ∀ t : BasisAttr El, shape0 t = t.angular.outIrrep.size) :
    ∃ l, buildKernelBasis G [σ] [0] (some (f : ℤ)) none rin rout = some l ∧
      (∀ b ∈ l, KernelConstraint grp act rout.size rin.size rout.mat rin.mat b.2) ∧
      ∀ L : List (Elem (BasisAttr El)), L = (l.map fun b => ⟨b.1, fun r c s => b.2 (points s) r c⟩) →
        (∀ e ∈ L, Clear rout.size rin.size 1 keep shape0 e) ∧
        (∀ M, Intertwines grp rout.size rin.size rout.mat rin.mat M → ∃ c, ∀ o < rout.size, ∀ i < rin.size, M o i = blockForward L c o i 0) ∧
        (∀ c, (∀ o < rout.size, ∀ i < rin.size, blockForward L c o i 0 = 0) → ∀ k e, L[k]? = some e →
          ¬ (∀ o < rout.size, ∀ i < rin.size, ∀ s < 1, e.ker o i s = 0) → c k = 0) := by
  classical
  obtain ⟨bas, S, hbas, hS, hI, hC, hK⟩ := hG.basis f hin.wf hout.wf hin.irr hout.irr
  obtain ⟨c1, c2⟩ := c22_plane_basis_indexing [((0 : ℝ), σ)] S G.axis
  have r0 : radius (0, 0) = 0 := by simp [radius]
  have a0 : angle (0, 0) = none := by rw [angle, if_pos (by rw [r0]; norm_num)]
  set l := (polarIter Prod.snd SBasis.Attr.idx (gaussianIter [((0 : ℝ), σ)]) S.iter).map
    fun a => (a, planeKernel G.axis ([((0 : ℝ), σ)].map fun q => gaussian q.1 q.2) S a.idx) with hl
  have hget : ∀ k, l[k]? = none ∨ ∃ b a, l[k]? = some b ∧ k < S.dim ∧ S.iter[k]? = some a ∧ b.1.angular = a ∧ b.1.radial.1.1 = 0 ∧
      b.2 = planeKernel G.axis ([((0 : ℝ), σ)].map fun q => gaussian q.1 q.2) S k ∧ b.2 (0, 0) = (S.sample (angSamp G.axis) none).slice k := by
    intro k
    rw [hl, List.getElem?_map, ← c1]
    by_cases hk : k < [((0 : ℝ), σ)].length * S.dim
    · right
      obtain ⟨q, hq, h1, h2, h3, h4⟩ := c2 k hk
      have hkd : k < S.dim := by simpa using hk
      have hq' := hq
      unfold polarGet at hq'
      rw [if_pos hk, Nat.div_eq_of_lt hkd, Nat.mod_eq_of_lt hkd] at hq'
      obtain ⟨a, ha⟩ : ∃ a, S.iter[k]? = some a := ⟨_, List.getElem?_eq_getElem (by rw [S.length_iter]; exact hkd)⟩
      simp only [gaussianGet, List.getElem?_cons_zero, Option.map_some, SBasis.getItem_eq, ha, Option.some.injEq] at hq'
      subst hq'
      rw [hq]
      refine ⟨_, a, rfl, hkd, ha, rfl, rfl, rfl, ?_⟩
      dsimp only
      rw [h4 (0, 0), a0, r0]
      have g0 : gaussian 0 σ 0 = 1 := by simp [gaussian]
      simp only [g0, one_mul]
    · left
      unfold polarGet
      rw [if_neg hk]
      rfl
  have hlen : l.length = S.dim := by
    have h1 : l.length = (polarIter Prod.snd SBasis.Attr.idx (gaussianIter [((0 : ℝ), σ)]) S.iter).length := by rw [hl, List.length_map]
    rw [h1]
    simp [polarIter, SBasis.enum, gaussianIter, S.length_iter]
  refine ⟨l, ?_, ?_, ?_⟩
  · unfold buildKernelBasis
    rw [if_pos ⟨by simpa using hσ, rfl⟩, hbas]
    dsimp only
    rw [polarBasis, hS]
    rfl
  · intro b hb
    obtain ⟨k, hk⟩ := List.mem_iff_getElem?.1 hb
    rcases hget k with h | ⟨b', a, h1, h2, -, -, -, h3, -⟩
    · rw [h] at hk
      exact absurd hk (by simp)
    · cases hk.symm.trans h1
      rw [h3]
      exact hK _ k (by simpa using h2)
  · intro L hL
    have hLget : ∀ k e, L[k]? = some e → ∃ a, k < S.dim ∧ S.iter[k]? = some a ∧ e.attr.angular = a ∧ e.attr.radial.1.1 = 0 ∧
        ∀ r c, e.ker r c 0 = (S.sample (angSamp G.axis) none).slice k r c := by
      intro k e hk
      rw [hL, List.getElem?_map, Option.map_eq_some_iff] at hk
      obtain ⟨b, hb, rfl⟩ := hk
      rcases hget k with h | ⟨b', a, h1, h2, h3, h4, h5, -, h6⟩
      · rw [h] at hb
        exact absurd hb (by simp)
      · cases hb.symm.trans h1
        refine ⟨a, h2, h3, h4, h5, fun r c => ?_⟩
        dsimp only
        rw [hp, h6]
    have hfwd : ∀ c o i, blockForward L c o i 0 = ∑ k ∈ range S.dim, (S.sample (angSamp G.axis) none).slice k o i * c k := by
      intro c o i
      unfold blockForward
      have : L.length = S.dim := by rw [hL, List.length_map, hlen]
      rw [this]
      refine Finset.sum_congr rfl fun k hk => ?_
      obtain ⟨e, he⟩ : ∃ e, L[k]? = some e := ⟨_, List.getElem?_eq_getElem (by rw [this]; exact Finset.mem_range.1 hk)⟩
      obtain ⟨a, -, -, -, -, h⟩ := hLget k e he
      simp only [he, h]
    obtain ⟨f1, f2, f3⟩ := steerable_fields hS
    refine ⟨?_, ?_, ?_⟩
    · intro e he
      obtain ⟨k, hk⟩ := List.mem_iff_getElem?.1 he
      obtain ⟨a, h1, h2, h3, h4, h5⟩ := hLget k e hk
      by_cases hmu : a.elem.mu = 0
      · right
        obtain ⟨g1, g2, g3, -⟩ := SBasis.iter_get S h2
        rw [f1] at g1
        rw [f2] at g2
        have m1 := List.mem_of_getElem? g1
        have m2 := List.mem_of_getElem? g2
        obtain ⟨l', hl'⟩ : ∃ l', bas a.inIrrep a.outIrrep = some l' := by
          rw [f3] at g3
          cases h : bas a.inIrrep a.outIrrep with
          | none => simp [h] at g3
          | some l' => exact ⟨l', rfl⟩
        rw [f3] at g3
        simp only [hl', Option.getD_some] at g3
        have hio := hG.gen.sep _ _ bas hbas _ _ (hin.irr _ m1) (hout.irr _ m2) l' hl' _ (List.mem_of_getElem? g3) hmu
        have hs := hG.gen.size _ (hin.irr _ m1)
        have hsq := slice_sq (axis := G.axis) hS hin.wf hin.orth hout.orth h2 hio hs hmu
          fun h => hG.gen.unit hbas h (hio ▸ h) hl' (List.mem_of_getElem? g3) hmu
        refine ⟨hkeep _ (by rw [h3, hmu]) h4, ?_, ?_⟩
        · rw [hshape, h3, ← hio]
          omega
        · rw [hshape, h3, ← hio]
          have hn : (1 : ℝ) ≤ sqNorm rout.size rin.size 1 e.ker := by
            unfold sqNorm
            simp only [Finset.sum_range_one, h5]
            exact hsq
          have h2 : (0 : ℝ) < a.inIrrep.size ∧ (a.inIrrep.size : ℝ) ≤ 2 := by
            rcases hs with h | h <;> rw [h] <;> norm_num
          rw [le_div_iff₀ h2.1]
          exact le_trans (by norm_num; linarith) hn
      · left
        intro o ho i hi s hs
        obtain rfl : s = 0 := by omega
        rw [h5, slice_zero hS h2 hmu o ho i hi]
    · intro M hM
      obtain ⟨c, hc⟩ := hC (fun _ => M) (hM.constraint hG.invOk (hG.isRep hin.wf hin.irr) act) (BandLimited.const _ _ _ _)
      refine ⟨fun k => c k 0, fun o ho i hi => ?_⟩
      have := hc (0, 0) (Or.inl rfl) o ho i hi
      rw [a0, r0] at this
      rw [hfwd]
      refine Eq.trans this ?_
      exact Finset.sum_congr rfl fun k _ => _root_.mul_comm _ _
    · intro c hc k e hk hne
      obtain ⟨a, h1, h2, h3, h4, h5⟩ := hLget k e hk
      refine slice_independent (axis := G.axis) hS hI c (fun x hx y hy => by rw [← hfwd]; exact hc x hx y hy) h2 ?_
      by_contra hmu
      refine hne fun o ho i hi s hs => ?_
      obtain rfl : s = 0 := by omega
      rw [h5, slice_zero hS h2 hmu o ho i hi]

end E2
