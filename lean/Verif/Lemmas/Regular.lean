import Verif.Model.Regular
import Verif.Lemmas.Rep
import Verif.Props.Spec
import Mathlib.Algebra.BigOperators.Field

namespace E2

open Finset Mat

/-- The quadratic form `vᵀ A v`. -/
noncomputable def quad (n : ℕ) (A : Mat) (v : ℕ → ℝ) : ℝ := ∑ i ∈ range n, v i * mulVec n A v i

theorem quad_congr {n : ℕ} {A B : Mat} (h : MEq n n A B) (v : ℕ → ℝ) : quad n A v = quad n B v := by
  refine Finset.sum_congr rfl fun i hi => ?_
  congr 1
  exact Finset.sum_congr rfl fun j hj => by rw [h i (mem_range.1 hi) j (mem_range.1 hj)]

theorem quad_congr_vec {n : ℕ} (A : Mat) {v w : ℕ → ℝ} (h : ∀ i < n, v i = w i) : quad n A v = quad n A w := by
  refine Finset.sum_congr rfl fun i hi => ?_
  rw [h i (mem_range.1 hi)]
  congr 1
  exact Finset.sum_congr rfl fun j hj => by rw [h j (mem_range.1 hj)]

theorem quad_bdiag_cons (s : ℕ) (A : Mat) (l : List (ℕ × Mat)) (v : ℕ → ℝ) :
    quad (s + total l) (bdiag ((s, A) :: l)) v = quad s A v + quad (total l) (bdiag l) fun i => v (s + i) := by
  rw [quad, Finset.sum_range_add]
  congr 1
  · refine Finset.sum_congr rfl fun i hi => ?_
    congr 1
    rw [mulVec, Finset.sum_range_add, Finset.sum_eq_zero (s := range (total l)), add_zero]
    · exact Finset.sum_congr rfl fun j hj => by simp [bdiag, mem_range.1 hi, mem_range.1 hj]
    · intro j _; simp [bdiag, mem_range.1 hi]
  · refine Finset.sum_congr rfl fun i hi => ?_
    congr 1
    rw [mulVec, Finset.sum_range_add, Finset.sum_eq_zero (s := range s), zero_add]
    · exact Finset.sum_congr rfl fun j hj => by simp [bdiag]
    · intro j hj; simp [bdiag, mem_range.1 hj]

theorem quad_bdiag_append (l l' : List (ℕ × Mat)) (v : ℕ → ℝ) :
    quad (total l + total l') (bdiag (l ++ l')) v
      = quad (total l) (bdiag l) v + quad (total l') (bdiag l') fun i => v (total l + i) := by
  induction l generalizing v with
  | nil => simp [total, quad]
  | cons a l ih =>
    obtain ⟨s, A⟩ := a
    rw [total_cons, add_assoc, List.cons_append, ← total_append, quad_bdiag_cons, total_append, ih, quad_bdiag_cons,
      add_assoc]
    simp only [add_assoc]

theorem quad_single (s : ℕ) (A : Mat) {j : ℕ} (hj : j < s) (c : ℝ) :
    quad s A (fun i => if i = j then c else 0) = c * c * A j j := by
  rw [quad, Finset.sum_eq_single j]
  · rw [if_pos rfl, mulVec, Finset.sum_eq_single j]
    · rw [if_pos rfl]; ring
    · intro k _ hk; rw [if_neg hk, mul_zero]
    · intro h; exact absurd (mem_range.2 hj) h
  · intro k _ hk; rw [if_neg hk, zero_mul]
  · intro h; exact absurd (mem_range.2 hj) h

/-- Copies `j0 .. j0 + m - 1` of a block, each with the multiple `c` of its own basis vector. -/
theorem quad_copies (s : ℕ) (A : Mat) (c : ℝ) (m j0 : ℕ) (h : j0 + m ≤ s) (v : ℕ → ℝ)
    (hv : ∀ k < m, ∀ x < s, v (k * s + x) = if x = j0 + k then c else 0) :
    quad (m * s) (bdiag (List.replicate m (s, A))) v = ∑ k ∈ range m, c * c * A (j0 + k) (j0 + k) := by
  induction m generalizing j0 v with
  | zero => simp [quad]
  | succ m ih =>
    have ht : total (List.replicate m (s, A)) = m * s := by simp [total]
    have e : (m + 1) * s = s + total (List.replicate m (s, A)) := by rw [ht]; ring
    rw [e, List.replicate_succ, quad_bdiag_cons, ht, ih (j0 + 1) (by omega), Finset.sum_range_succ']
    · rw [quad_congr_vec A (w := fun i => if i = j0 then c else 0), quad_single s A (by omega), add_comm]
      · congr 1
        exact Finset.sum_congr rfl fun k _ => by rw [add_assoc, add_comm 1 k]
      · intro i hi
        have := hv 0 (by omega) i hi
        simpa using this
    · intro k hk x hx
      have := hv (k + 1) (by omega) x hx
      rw [show s + (k * s + x) = (k + 1) * s + x by ring, this]
      congr 1
      rw [eq_iff_iff]
      omega

section
variable {El : Type}

theorem blocks_inv {G : Grp El} {l : List (Irrep El)} (h : ∀ i ∈ l, IsOrthRep G i.size i.mat) {a : El}
    (ha : G.isEl a) : Repr.blocks l (G.inv a) = tr (Repr.blocks l a) := by
  unfold Repr.blocks
  rw [bdiag_tr Irrep.size (fun i => i.mat a),
    bdiag_congr Irrep.size (fun i => i.mat (G.inv a)) (fun i => tr (i.mat a)) l fun i hi => (h i hi).inv a ha]

/-- The quadratic form of the direct sum on `regularVec`. -/
theorem quad_regular (ms : List (Irrep El × ℕ)) (h : ∀ p ∈ ms, p.2 ≤ p.1.size) (g : El) :
    quad ((ms.flatMap fun p => List.replicate p.2 p.1).map Irrep.size).sum
      (Repr.blocks (ms.flatMap fun p => List.replicate p.2 p.1) g) (regularVec ms)
      = (ms.map fun p => (p.1.size : ℝ) * ∑ j ∈ range p.2, p.1.mat g j j).sum := by
  induction ms with
  | nil => simp [quad]
  | cons p ms ih =>
    obtain ⟨irr, m⟩ := p
    have ih := ih fun p hp => h p (List.mem_cons_of_mem _ hp)
    have hm : m ≤ irr.size := h (irr, m) (by simp)
    rw [List.map_cons, List.sum_cons, ← ih]
    unfold Repr.blocks
    rw [List.flatMap_cons, List.map_append, List.map_append, List.sum_append, List.map_replicate, List.map_replicate]
    have t1 : total (List.replicate m (irr.size, irr.mat g)) = m * irr.size := by simp [total]
    have t2 : total ((ms.flatMap fun p => List.replicate p.2 p.1).map fun i => (i.size, i.mat g))
        = ((ms.flatMap fun p => List.replicate p.2 p.1).map Irrep.size).sum := by
      rw [total, List.map_map]; rfl
    have t3 : (List.replicate m irr.size).sum = m * irr.size := by simp
    rw [t3]
    have key := quad_bdiag_append (List.replicate m (irr.size, irr.mat g))
      ((ms.flatMap fun p => List.replicate p.2 p.1).map fun i => (i.size, i.mat g)) (regularVec ((irr, m) :: ms))
    rw [t1, t2] at key
    rw [key]
    congr 1
    · rw [quad_copies irr.size (irr.mat g) (Real.sqrt irr.size) m 0 (by omega)]
      · simp only
        rw [Finset.mul_sum]
        refine Finset.sum_congr rfl fun k _ => ?_
        rw [Real.mul_self_sqrt (Nat.cast_nonneg _), zero_add]
      · intro k hk x hx
        have hlt : k * irr.size + x < m * irr.size := by
          calc k * irr.size + x < k * irr.size + irr.size := by omega
            _ = (k + 1) * irr.size := by ring
            _ ≤ m * irr.size := Nat.mul_le_mul_right _ hk
        simp only [regularVec]
        rw [if_pos hlt, zero_add]
        have h1 : (k * irr.size + x) / irr.size = k := by
          rw [_root_.mul_comm, Nat.mul_add_div (by omega), Nat.div_eq_of_lt hx, add_zero]
        have h2 : (k * irr.size + x) % irr.size = x := by
          rw [_root_.mul_comm, Nat.mul_add_mod, Nat.mod_eq_of_lt hx]
        rw [h1, h2]
        by_cases e : k = x
        · rw [if_pos e, if_pos e.symm]
        · rw [if_neg e, if_neg (Ne.symm e)]
    · refine quad_congr_vec _ fun i _ => ?_
      simp [regularVec]

variable [DecidableEq El]

/-- The specification: the elements in the list index the axes, and `h` maps the axis of `g` to that of `h * g`. -/
structure IsRegularRep (G : Grp El) (els : List El) (r : Repr El) : Prop where
  wf : r.WF
  orth : IsInv r.size r.cob (tr r.cob)
  size : r.size = els.length
  mat : ∀ h, G.isEl h → ∀ i (hi : i < els.length) j (hj : j < els.length),
    r.mat h i j = if els[i] = G.op h els[j] then 1 else 0

theorem permCharacter_eq {G : Grp El} (hG : G.Lawful) {els : List El} (hnd : els.Nodup)
    (hmem : ∀ e, e ∈ els ↔ G.isEl e) {e : El} (he : G.isEl e) :
    permCharacter G els e = if e = G.one then (els.length : ℝ) else 0 := by
  rw [permCharacter]
  by_cases h : e = G.one
  · rw [if_pos h, Finset.sum_congr rfl (g := fun _ => (1 : ℝ))]
    · simp
    · intro i hi
      rw [mem_range] at hi
      rw [permMatrix, if_pos]
      refine ⟨els[i], List.getElem_mem hi, ?_, ?_⟩
      · rw [h, hG.one_op _ ((hmem _).1 (List.getElem_mem hi))]
        exact hnd.idxOf_getElem i hi
      · exact hnd.idxOf_getElem i hi
  · rw [if_neg h]
    refine Finset.sum_eq_zero fun i hi => ?_
    rw [permMatrix, if_neg]
    rintro ⟨g, hg, h1, h2⟩
    have hge := (hmem g).1 hg
    have hop := (hmem _).2 (hG.op_mem e g he hge)
    have : G.op e g = g := by
      have := h1.trans h2.symm
      exact (List.idxOf_inj hop).1 this
    refine h ?_
    have h3 : G.op (G.op e g) (G.inv g) = G.op g (G.inv g) := by rw [this]
    rwa [hG.assoc e g _ he hge (hG.inv_mem g hge), hG.op_inv g hge, hG.op_one e he] at h3

omit [DecidableEq El] in
theorem inv_one {G : Grp El} (hG : G.Lawful) : G.inv G.one = G.one := by
  rw [← hG.op_one _ (hG.inv_mem _ hG.one_mem), hG.inv_op _ hG.one_mem]

theorem sum_map_single (els : List El) (hnd : els.Nodup) {a : El} (ha : a ∈ els) (f : El → ℝ)
    (h : ∀ e ∈ els, e ≠ a → f e = 0) : (els.map f).sum = f a := by
  induction els with
  | nil => simp at ha
  | cons b l ih =>
    rw [List.nodup_cons] at hnd
    rw [List.map_cons, List.sum_cons]
    by_cases hb : b = a
    · subst hb
      have : (l.map f).sum = 0 := by
        refine List.sum_eq_zero ?_
        intro x hx
        rw [List.mem_map] at hx
        obtain ⟨e, he, rfl⟩ := hx
        exact h e (List.mem_cons_of_mem _ he) (by rintro rfl; exact hnd.1 he)
      rw [this, add_zero]
    · rw [h b (by simp) hb, zero_add]
      refine ih hnd.2 ?_ fun e he hne => h e (List.mem_cons_of_mem _ he) hne
      rcases List.mem_cons.1 ha with rfl | h'
      · exact absurd rfl hb
      · exact h'

theorem multiplicity_eq {G : Grp El} (hG : G.Lawful) {els : List El} (hnd : els.Nodup)
    (hmem : ∀ e, e ∈ els ↔ G.isEl e) {irr : Irrep El} (h1 : IsOrthRep G irr.size irr.mat)
    (hc : ∀ g, irr.character g = Mat.trace irr.size (irr.mat g)) {m : ℕ} (hm : m * irr.socs = irr.size)
    (hs : 0 < irr.socs) : multiplicity G els (permCharacter G els) irr = m := by
  rw [multiplicity, sum_map_single els hnd ((hmem _).2 hG.one_mem)]
  · rw [permCharacter_eq hG hnd hmem hG.one_mem, if_pos rfl, inv_one hG, hc]
    have : Mat.trace irr.size (irr.mat G.one) = irr.size := by
      rw [Mat.trace, Finset.sum_congr rfl (g := fun _ => (1 : ℝ))]
      · simp
      · intro i hi
        rw [h1.one i (mem_range.1 hi) i (mem_range.1 hi), Mat.one, if_pos rfl]
    rw [this, ← hm]
    have hl : (els.length : ℝ) ≠ 0 := by
      have := List.length_pos_of_mem ((hmem _).2 hG.one_mem)
      positivity
    have hs' : (irr.socs : ℝ) ≠ 0 := by positivity
    push_cast
    field_simp
  · intro e he hne
    rw [permCharacter_eq hG hnd hmem ((hmem _).1 he), if_neg hne, zero_mul]

theorem quad_mul {n : ℕ} (A B C : Mat) (v : ℕ → ℝ) :
    ∑ a ∈ range n, mulVec n A v a * mulVec n B (mulVec n C v) a
      = quad n (Mat.mul n (tr A) (Mat.mul n B C)) v := by
  rw [quad]
  simp only [mulVec_mul]
  set w := mulVec n B (mulVec n C v)
  simp only [mulVec, tr, Finset.sum_mul, Finset.mul_sum]
  rw [Finset.sum_comm]
  refine Finset.sum_congr rfl fun i _ => Finset.sum_congr rfl fun j _ => ?_
  ring

/-- The generic argument: it is enough that the diagonal entries satisfy the orthogonality relation. -/
theorem buildRegular_spec {G : Grp El} (hG : G.Lawful) {els : List El} (hnd : els.Nodup)
    (hmem : ∀ e, e ∈ els ↔ G.isEl e) {irreps : List (Irrep El)}
    (horth : ∀ i ∈ irreps, IsOrthRep G i.size i.mat)
    (hc : ∀ i ∈ irreps, ∀ g, i.character g = Mat.trace i.size (i.mat g))
    (m : Irrep El → ℕ) (hm : ∀ i ∈ irreps, m i * i.socs = i.size ∧ 0 < i.socs)
    (hδ : ∀ x, G.isEl x → (irreps.map fun i => i.size * ∑ j ∈ range (m i), i.mat x j j).sum
      = if x = G.one then (els.length : ℝ) else 0) :
    ∃ r, buildRegular G els irreps = some r ∧ IsRegularRep G els r ∧
      r.irreps = irreps.flatMap fun i => List.replicate (m i) i := by
  have hmult : ∀ i ∈ irreps, multiplicity G els (permCharacter G els) i = m i := fun i hi =>
    multiplicity_eq hG hnd hmem (horth i hi) (hc i hi) (hm i hi).1 (hm i hi).2
  have hms : (irreps.map fun irr => (irr, (round (multiplicity G els (permCharacter G els) irr)).toNat))
      = irreps.map fun irr => (irr, m irr) := by
    refine List.map_congr_left fun i hi => ?_
    rw [hmult i hi]; simp
  set ms := irreps.map fun irr => (irr, m irr) with hmsdef
  have hle : ∀ p ∈ ms, p.2 ≤ p.1.size := by
    intro p hp
    rw [hmsdef, List.mem_map] at hp
    obtain ⟨i, hi, rfl⟩ := hp
    simp only
    rw [← (hm i hi).1]
    exact Nat.le_mul_of_pos_right _ (hm i hi).2
  set irrs := ms.flatMap fun p => List.replicate p.2 p.1 with hirrs
  have horth' : ∀ i ∈ irrs, IsOrthRep G i.size i.mat := by
    intro i hi
    rw [hirrs, List.mem_flatMap] at hi
    obtain ⟨p, hp, hi⟩ := hi
    rw [List.mem_replicate] at hi
    rw [hmsdef, List.mem_map] at hp
    obtain ⟨i', hi', rfl⟩ := hp
    rw [hi.2]
    exact horth i' hi'
  have hquad : ∀ x, G.isEl x → quad (irrs.map Irrep.size).sum (Repr.blocks irrs x) (regularVec ms)
      = if x = G.one then (els.length : ℝ) else 0 := by
    intro x hx
    rw [hirrs, quad_regular ms hle, ← hδ x hx, hmsdef, List.map_map]
    rfl
  have hsum : (irrs.map Irrep.size).sum = els.length := by
    have h := hδ G.one hG.one_mem
    rw [if_pos rfl] at h
    have h2 : (irreps.map fun i => (i.size : ℝ) * ∑ j ∈ range (m i), i.mat G.one j j).sum
        = (irreps.map fun i => (i.size : ℝ) * m i).sum := by
      congr 1
      refine List.map_congr_left fun i hi => ?_
      congr 1
      rw [Finset.sum_congr rfl (g := fun _ => (1 : ℝ))]
      · simp
      · intro j hj
        have hj' : j < i.size := by
          rw [← (hm i hi).1]
          exact lt_of_lt_of_le (mem_range.1 hj) (Nat.le_mul_of_pos_right _ (hm i hi).2)
        rw [(horth i hi).one j hj' j hj', Mat.one, if_pos rfl]
    rw [h2] at h
    have h3 : (irrs.map Irrep.size).sum = (irreps.map fun i => i.size * m i).sum := by
      rw [hirrs, Repr.sum_size_flatMap, hmsdef, List.map_map]
      congr 1
      refine List.map_congr_left fun i _ => ?_
      simp [_root_.mul_comm]
    rw [h3]
    have h4 : ((irreps.map fun i => i.size * m i).sum : ℕ) = (irreps.map fun i => (i.size : ℝ) * m i).sum := by
      rw [← Nat.coe_castAddMonoidHom, map_list_sum, List.map_map]
      congr 1
      refine List.map_congr_left fun i _ => ?_
      simp
    have h5 : (((irreps.map fun i => i.size * m i).sum : ℕ) : ℝ) = (els.length : ℝ) := by rw [h4, h]
    exact_mod_cast h5
  set cob : Mat := fun i j =>
        match els[i]? with
        | none => 0
        | some e => mulVec els.length (Repr.blocks irrs e) (regularVec ms) j / Real.sqrt els.length with hcob
  have hbuild : buildRegular G els irreps = some ⟨irrs, cob, tr cob⟩ := by
    unfold buildRegular
    simp only [hms]
    rw [if_neg (not_not.2 fun i hi => by rw [hmult i hi]; simp), if_neg (not_not.2 hle), if_neg (not_not.2 hsum)]
    rfl
  set r : Repr El := ⟨irrs, cob, tr cob⟩ with hr
  have hsize : r.size = els.length := hsum
  have hpos : (0 : ℝ) < els.length := by
    have := List.length_pos_of_mem ((hmem _).2 hG.one_mem)
    positivity
  have hP := Repr.blocks_isRep G irrs fun i hi => (horth' i hi).toIsRep
  rw [hsum] at hP hquad
  have hcobE : ∀ i (hi : i < els.length) j, cob i j
      = mulVec els.length (Repr.blocks irrs els[i]) (regularVec ms) j / Real.sqrt els.length := by
    intro i hi j
    simp only [hcob, List.getElem?_eq_getElem hi]
  -- the matrix entries
  have hmat : ∀ h, G.isEl h → ∀ i (hi : i < els.length) j (hj : j < els.length),
      r.mat h i j = if els[i] = G.op h els[j] then 1 else 0 := by
    intro h hh i hi j hj
    have hgi := (hmem _).1 (List.getElem_mem hi)
    have hgj := (hmem _).1 (List.getElem_mem hj)
    have hinv := hG.inv_mem _ hgi
    have e1 : r.mat h i j = (∑ a ∈ range els.length, mulVec els.length (Repr.blocks irrs els[i]) (regularVec ms) a *
        mulVec els.length (Repr.blocks irrs h) (mulVec els.length (Repr.blocks irrs els[j]) (regularVec ms)) a)
        / els.length := by
      rw [Repr.mat, hsize]
      show ∑ b ∈ range els.length, (∑ a ∈ range els.length, cob i a * Repr.blocks irrs h a b) * cob j b = _
      simp only [hcobE i hi, hcobE j hj]
      rw [Finset.sum_div]
      simp only [Finset.sum_mul]
      rw [Finset.sum_comm]
      refine Finset.sum_congr rfl fun a _ => ?_
      set V := mulVec els.length (Repr.blocks irrs els[i]) (regularVec ms) a
      rw [mulVec, Finset.mul_sum, Finset.sum_div]
      refine Finset.sum_congr rfl fun b _ => ?_
      have hs := Real.mul_self_sqrt hpos.le
      have hs0 : Real.sqrt (els.length : ℝ) ≠ 0 := (Real.sqrt_pos.2 hpos).ne'
      rw [div_mul_eq_mul_div, div_mul_div_comm, hs]
      ring
    rw [e1, quad_mul, ← blocks_inv horth' hgi]
    have e2 : MEq els.length els.length
        (Mat.mul els.length (Repr.blocks irrs (G.inv els[i])) (Mat.mul els.length (Repr.blocks irrs h) (Repr.blocks irrs els[j])))
        (Repr.blocks irrs (G.op (G.inv els[i]) (G.op h els[j]))) :=
      ((hP.mul _ _ hinv (hG.op_mem _ _ hh hgj)).trans
        (MEq.mul (MEq.refl _) (hP.mul _ _ hh hgj))).symm
    rw [quad_congr e2, hquad _ (hG.op_mem _ _ hinv (hG.op_mem _ _ hh hgj))]
    have e3 : G.op (G.inv els[i]) (G.op h els[j]) = G.one ↔ els[i] = G.op h els[j] := by
      constructor
      · intro e
        have h1 : G.op els[i] (G.op (G.inv els[i]) (G.op h els[j])) = G.op els[i] G.one := by rw [e]
        rw [← hG.assoc _ _ _ hgi hinv (hG.op_mem _ _ hh hgj), hG.op_inv _ hgi, hG.one_op _ (hG.op_mem _ _ hh hgj),
          hG.op_one _ hgi] at h1
        exact h1.symm
      · intro e
        rw [← e, hG.inv_op _ hgi]
    by_cases h1 : els[i] = G.op h els[j]
    · rw [if_pos h1, if_pos (e3.2 h1), div_self hpos.ne']
    · rw [if_neg h1, if_neg fun e => h1 (e3.1 e), zero_div]
  have horthC : IsInv r.size r.cob (tr r.cob) := by
    refine isInv_of_left ?_
    rw [hsize]
    intro i hi j hj
    have h1 := hmat G.one hG.one_mem i hi j hj
    rw [hG.one_op _ ((hmem _).1 (List.getElem_mem hj))] at h1
    simp only [hnd.getElem_inj_iff] at h1
    rw [Mat.one, ← h1, Repr.mat, hsize]
    exact (MEq.mul ((MEq.mul (MEq.refl _) hP.one).trans (MEq_mul_one _ _ _)) (MEq.refl _) i hi j hj).symm
  refine ⟨r, hbuild, ⟨horthC, horthC, hsize, hmat⟩, ?_⟩
  show ms.flatMap _ = _
  rw [hmsdef, List.flatMap_map]

end
end E2
