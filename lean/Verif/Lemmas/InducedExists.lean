import Verif.Lemmas.Quotient
import Verif.Props.Decompose

/-!
# Existence of the induced representations: the induced matrices and the columns of the change of basis
-/

namespace E2

set_option linter.unusedSectionVars false

open Finset Mat

theorem sum_range_blocks (n m : ℕ) (f : ℕ → ℝ) : ∑ i ∈ range (n * m), f i = ∑ k ∈ range n, ∑ j ∈ range m, f (k * m + j) := by
  induction n with
  | zero => simp
  | succ n ih => rw [Nat.succ_mul, Finset.sum_range_add, Finset.sum_range_succ, ih]

theorem exists_blockIdx {q s x : ℕ} (hx : x < q * s) : ∃ j < q, ∃ a < s, x = j * s + a := by
  have hs : 0 < s := Nat.pos_of_ne_zero fun h => by rw [h, Nat.mul_zero] at hx; omega
  exact ⟨x / s, (Nat.div_lt_iff_lt_mul hs).2 hx, x % s, Nat.mod_lt _ hs, by rw [_root_.mul_comm]; exact (Nat.div_add_mod x s).symm⟩

theorem blockIdx_div {s a : ℕ} (j : ℕ) (ha : a < s) : (j * s + a) / s = j := by
  rw [_root_.mul_comm, Nat.mul_add_div (by omega), Nat.div_eq_of_lt ha, add_zero]

theorem blockIdx_mod {s a : ℕ} (j : ℕ) (ha : a < s) : (j * s + a) % s = a := by
  rw [_root_.mul_comm, Nat.mul_add_mod, Nat.mod_eq_of_lt ha]

theorem blockIdx_lt {q s j a : ℕ} (hj : j < q) (ha : a < s) : j * s + a < q * s := by
  calc j * s + a < j * s + s := by omega
    _ = (j + 1) * s := by ring
    _ ≤ q * s := Nat.mul_le_mul_right _ hj

section
variable {El El' : Type} [DecidableEq El] {G : Grp El} {els : List El} {H : Grp El'} {S : SubData El El'}

/-- The representation of the subgroup, extended by zero to the group. -/
noncomputable def subMat (S : SubData El El') (ρ : Irrep El') (x : El) : Mat :=
  match S.child x with
  | none => fun _ _ => 0
  | some h => ρ.mat h

theorem subMat_parent (ok : SubOk G els H S) (ρ : Irrep El') {h : El'} (hh : H.isEl h) : subMat S ρ (S.parent h) = ρ.mat h := by
  rw [subMat, ok.pinv.child_parent h hh]

theorem subMat_out (ok : SubOk G els H S) (ρ : Irrep El') {x : El} (hx : G.isEl x) (h : ¬ ∃ a, H.isEl a ∧ S.parent a = x) :
    subMat S ρ x = fun _ _ => 0 := by
  rw [subMat, (ok.pinv.none_iff x hx).2 h]

theorem op_inv_cancel (L : G.Lawful) {x y : El} (hx : G.isEl x) (hy : G.isEl y) : G.op x (G.op (G.inv x) y) = y := by
  rw [← L.assoc _ _ _ hx (L.inv_mem _ hx) hy, L.op_inv _ hx, L.one_op _ hy]

theorem inv_op_cancel (L : G.Lawful) {x y : El} (hx : G.isEl x) (hy : G.isEl y) : G.op (G.inv x) (G.op x y) = y := by
  rw [← L.assoc _ _ _ (L.inv_mem _ hx) hx hy, L.inv_op _ hx, L.one_op _ hy]

theorem op_left_cancel (L : G.Lawful) {x y z : El} (hx : G.isEl x) (hy : G.isEl y) (hz : G.isEl z) (h : G.op x y = G.op x z) : y = z := by
  rw [← inv_op_cancel L hx hy, h, inv_op_cancel L hx hz]

theorem inv_eq_of (L : G.Lawful) {x y : El} (hx : G.isEl x) (hy : G.isEl y) (h : G.op x y = G.one) : y = G.inv x :=
  op_left_cancel L hx hy (L.inv_mem _ hx) (by rw [h, L.op_inv _ hx])

theorem inv_inv' (L : G.Lawful) {x : El} (hx : G.isEl x) : G.inv (G.inv x) = x :=
  (inv_eq_of L (L.inv_mem _ hx) hx (L.inv_op _ hx)).symm

theorem inv_op' (L : G.Lawful) {x y : El} (hx : G.isEl x) (hy : G.isEl y) : G.inv (G.op x y) = G.op (G.inv y) (G.inv x) := by
  refine (inv_eq_of L (L.op_mem _ _ hx hy) (L.op_mem _ _ (L.inv_mem _ hy) (L.inv_mem _ hx)) ?_).symm
  rw [L.assoc _ _ _ hx hy (L.op_mem _ _ (L.inv_mem _ hy) (L.inv_mem _ hx)), op_inv_cancel L hy (L.inv_mem _ hx), L.op_inv _ hx]

theorem subMat_mul_right (ok : SubOk G els H S) {ρ : Irrep El'} (hρ : IsOrthRep H ρ.size ρ.mat) {x : El} (hx : G.isEl x) {h : El'} (hh : H.isEl h) :
    MEq ρ.size ρ.size (subMat S ρ (G.op x (S.parent h))) (mul ρ.size (subMat S ρ x) (ρ.mat h)) := by
  have L := ok.lawG
  have hp := ok.emb.mem h hh
  by_cases hex : ∃ a, H.isEl a ∧ S.parent a = x
  · obtain ⟨a, ha, rfl⟩ := hex
    rw [← ok.emb.op a h ha hh, subMat_parent ok ρ ha, subMat_parent ok ρ (ok.lawH.op_mem _ _ ha hh)]
    exact hρ.mul a h ha hh
  · rw [subMat_out ok ρ hx hex, subMat_out ok ρ (L.op_mem _ _ hx hp)]
    · intro i _ j _
      simp [mul]
    · rintro ⟨a, ha, e⟩
      refine hex ⟨H.op a (H.inv h), ok.lawH.op_mem _ _ ha (ok.lawH.inv_mem _ hh), ?_⟩
      rw [ok.emb.op _ _ ha (ok.lawH.inv_mem _ hh), e, L.assoc _ _ _ hx hp (ok.emb.mem _ (ok.lawH.inv_mem _ hh)),
        ← ok.emb.op _ _ hh (ok.lawH.inv_mem _ hh), ok.lawH.op_inv _ hh, ok.emb.one, L.op_one _ hx]

theorem parent_inv' (ok : SubOk G els H S) {h : El'} (hh : H.isEl h) : S.parent (H.inv h) = G.inv (S.parent h) :=
  inv_eq_of ok.lawG (ok.emb.mem _ hh) (ok.emb.mem _ (ok.lawH.inv_mem _ hh))
    (by rw [← ok.emb.op _ _ hh (ok.lawH.inv_mem _ hh), ok.lawH.op_inv _ hh, ok.emb.one])

theorem subMat_inv (ok : SubOk G els H S) {ρ : Irrep El'} (hρ : IsOrthRep H ρ.size ρ.mat) {x : El} (hx : G.isEl x) :
    MEq ρ.size ρ.size (subMat S ρ (G.inv x)) (tr (subMat S ρ x)) := by
  have L := ok.lawG
  by_cases hex : ∃ a, H.isEl a ∧ S.parent a = x
  · obtain ⟨a, ha, rfl⟩ := hex
    rw [← parent_inv' ok ha, subMat_parent ok ρ ha, subMat_parent ok ρ (ok.lawH.inv_mem _ ha)]
    exact hρ.inv a ha
  · rw [subMat_out ok ρ hx hex, subMat_out ok ρ (L.inv_mem _ hx)]
    · intro i _ j _
      rfl
    · rintro ⟨a, ha, e⟩
      exact hex ⟨H.inv a, ok.lawH.inv_mem _ ha, by rw [parent_inv' ok ha, e, inv_inv' L hx]⟩

/-- A function that is equivariant on the right under the subgroup is known from its values at the representatives. -/
theorem coset_expand (ok : SubOk G els H S) (ρ : Irrep El') {reps : List El} (T : IsTransversal G H S reps) (f : El → Mat) (d : ℕ)
    (hf : ∀ x h, G.isEl x → H.isEl h → MEq d ρ.size (f (G.op x (S.parent h))) (mul ρ.size (f x) (ρ.mat h)))
    {x : El} (hx : G.isEl x) {t a : ℕ} (ht : t < d) (ha : a < ρ.size) :
    ∑ k ∈ range reps.length, ∑ c ∈ range ρ.size, f (reps.getD k G.one) t c * subMat S ρ (G.op (G.inv (reps.getD k G.one)) x) c a = f x t a := by
  have L := ok.lawG
  obtain ⟨r, ⟨hr, h, hh, hrx⟩, huniq⟩ := T.exists_unique x hx
  obtain ⟨k, hk, rfl⟩ := List.getElem_of_mem hr
  have hre := T.mem _ hr
  have hget : ∀ l (hl : l < reps.length), reps.getD l G.one = reps[l] := fun l hl => by
    rw [List.getD_eq_getElem?_getD, List.getElem?_eq_getElem hl, Option.getD_some]
  rw [Finset.sum_eq_single k]
  · rw [hget k hk, hrx, inv_op_cancel L hre (ok.emb.mem _ hh), subMat_parent ok ρ hh, hf _ _ hre hh t ht a ha]
    rfl
  · intro l hl hlk
    have hl := mem_range.1 hl
    have hle := T.mem _ (List.getElem_mem hl)
    rw [hget l hl, subMat_out ok ρ (L.op_mem _ _ (L.inv_mem _ hle) hx)]
    · simp
    · rintro ⟨b, hb, e⟩
      have := huniq reps[l] ⟨List.getElem_mem hl, b, hb, by rw [e, op_inv_cancel L hle hx]⟩
      exact hlk ((T.nodup.getElem_inj_iff).1 this)
  · intro h
    exact absurd (mem_range.2 hk) h

/-! ## The induced matrices -/

theorem inducedMat_entry (ok : SubOk G els H S) (ρ : Irrep El') {g : El} (hg : G.isEl g) {i j : ℕ}
    (hi : i < (cosetLoop G els S).reps.length) (hj : j < (cosetLoop G els S).reps.length) {a b : ℕ} (ha : a < ρ.size) (hb : b < ρ.size) :
    inducedMat G S (cosetLoop G els S) ρ g (j * ρ.size + a) (i * ρ.size + b)
      = subMat S ρ (G.op (G.inv ((cosetLoop G els S).reps.getD j G.one)) (G.op g ((cosetLoop G els S).reps.getD i G.one))) a b := by
  rw [inducedMat_eq ok ρ hg hi hj ha hb, subMat]
  have hget : ∀ l (hl : l < (cosetLoop G els S).reps.length), (cosetLoop G els S).reps.getD l G.one = (cosetLoop G els S).reps[l] := fun l hl => by
    rw [List.getD_eq_getElem?_getD, List.getElem?_eq_getElem hl, Option.getD_some]
  rw [hget i hi, hget j hj]
  cases S.child (G.op (G.inv (cosetLoop G els S).reps[j]) (G.op g (cosetLoop G els S).reps[i])) <;> rfl

theorem rep_mem (ok : SubOk G els H S) {k : ℕ} (hk : k < (cosetLoop G els S).reps.length) : G.isEl ((cosetLoop G els S).reps.getD k G.one) := by
  rw [List.getD_eq_getElem?_getD, List.getElem?_eq_getElem hk, Option.getD_some]
  exact (cosetLoop_transversal ok).mem _ (List.getElem_mem hk)

/-- The induced matrices are an orthogonal representation. -/
theorem inducedMat_isOrthRep (ok : SubOk G els H S) {ρ : Irrep El'} (hρ : IsOrthRep H ρ.size ρ.mat) :
    IsOrthRep G ((cosetLoop G els S).reps.length * ρ.size) (inducedMat G S (cosetLoop G els S) ρ) := by
  have L := ok.lawG
  have T := cosetLoop_transversal ok
  have hmul : ∀ g g', G.isEl g → G.isEl g' → MEq ((cosetLoop G els S).reps.length * ρ.size) ((cosetLoop G els S).reps.length * ρ.size)
      (inducedMat G S (cosetLoop G els S) ρ (G.op g g'))
      (mul ((cosetLoop G els S).reps.length * ρ.size) (inducedMat G S (cosetLoop G els S) ρ g) (inducedMat G S (cosetLoop G els S) ρ g')) := by
    intro g g' hg hg' x hx y hy
    obtain ⟨j, hj, a, ha, rfl⟩ := exists_blockIdx hx
    obtain ⟨i, hi, b, hb, rfl⟩ := exists_blockIdx hy
    rw [inducedMat_entry ok ρ (L.op_mem _ _ hg hg') hi hj ha hb, mul, sum_range_blocks]
    have hri := rep_mem ok hi
    have hrj := rep_mem ok hj
    have hx' := L.op_mem _ _ hg' hri
    rw [L.assoc _ _ _ hg hg' hri]
    rw [← coset_expand ok ρ T (fun x => subMat S ρ (G.op (G.inv ((cosetLoop G els S).reps.getD j G.one)) (G.op g x))) ρ.size
      (fun x h hx hh => by
        have := subMat_mul_right ok hρ (L.op_mem _ _ (L.inv_mem _ hrj) (L.op_mem _ _ hg hx)) hh
        rw [L.assoc _ _ _ (L.inv_mem _ hrj) (L.op_mem _ _ hg hx) (ok.emb.mem _ hh), L.assoc _ _ _ hg hx (ok.emb.mem _ hh)] at this
        exact this) hx' ha hb]
    refine Finset.sum_congr rfl fun k hk => Finset.sum_congr rfl fun c hc => ?_
    rw [inducedMat_entry ok ρ hg (mem_range.1 hk) hj ha (mem_range.1 hc), inducedMat_entry ok ρ hg' hi (mem_range.1 hk) (mem_range.1 hc) hb]
  have hinv : ∀ g, G.isEl g → MEq ((cosetLoop G els S).reps.length * ρ.size) ((cosetLoop G els S).reps.length * ρ.size)
      (inducedMat G S (cosetLoop G els S) ρ (G.inv g)) (tr (inducedMat G S (cosetLoop G els S) ρ g)) := by
    intro g hg x hx y hy
    obtain ⟨j, hj, a, ha, rfl⟩ := exists_blockIdx hx
    obtain ⟨i, hi, b, hb, rfl⟩ := exists_blockIdx hy
    have hri := rep_mem ok hi
    have hrj := rep_mem ok hj
    rw [tr, inducedMat_entry ok ρ (L.inv_mem _ hg) hi hj ha hb, inducedMat_entry ok ρ hg hj hi hb ha]
    have := subMat_inv ok hρ (L.op_mem _ _ (L.inv_mem _ hri) (L.op_mem _ _ hg hrj)) a ha b hb
    rw [inv_op' L (L.inv_mem _ hri) (L.op_mem _ _ hg hrj), inv_op' L hg hrj, inv_inv' L hri,
      L.assoc _ _ _ (L.inv_mem _ hrj) (L.inv_mem _ hg) hri] at this
    exact this
  have hone : MEq ((cosetLoop G els S).reps.length * ρ.size) ((cosetLoop G els S).reps.length * ρ.size)
      (inducedMat G S (cosetLoop G els S) ρ G.one) Mat.one := by
    intro x hx y hy
    obtain ⟨j, hj, a, ha, rfl⟩ := exists_blockIdx hx
    obtain ⟨i, hi, b, hb, rfl⟩ := exists_blockIdx hy
    have hri := rep_mem ok hi
    have hrj := rep_mem ok hj
    rw [inducedMat_entry ok ρ L.one_mem hi hj ha hb, L.one_op _ hri]
    by_cases hij : i = j
    · subst hij
      rw [L.inv_op _ hri, ← ok.emb.one, subMat_parent ok ρ ok.lawH.one_mem, hρ.one a ha b hb]
      simp only [Mat.one, add_right_inj]
    · rw [subMat_out ok ρ (L.op_mem _ _ (L.inv_mem _ hrj) hri)]
      · rw [Mat.one, if_neg]
        intro e
        apply hij
        rw [← blockIdx_div i hb, ← e, blockIdx_div j ha]
      · rintro ⟨h, hh, e⟩
        have hget : ∀ l (hl : l < (cosetLoop G els S).reps.length), (cosetLoop G els S).reps.getD l G.one = (cosetLoop G els S).reps[l] := fun l hl => by
          rw [List.getD_eq_getElem?_getD, List.getElem?_eq_getElem hl, Option.getD_some]
        have e2 : (cosetLoop G els S).reps.getD i G.one = G.op ((cosetLoop G els S).reps.getD j G.one) (S.parent h) := by
          rw [e, op_inv_cancel L hrj hri]
        have hu := (T.exists_unique _ hri).unique (y₁ := (cosetLoop G els S).reps.getD i G.one) (y₂ := (cosetLoop G els S).reps.getD j G.one)
          ⟨by rw [hget i hi]; exact List.getElem_mem hi, inCoset_self ok hri⟩ ⟨by rw [hget j hj]; exact List.getElem_mem hj, h, hh, e2⟩
        rw [hget i hi, hget j hj] at hu
        exact hij ((T.nodup.getElem_inj_iff).1 hu)
  exact ⟨⟨hone, hmul⟩, hinv⟩

/-! ## The columns of the transposed change of basis -/

/-- The columns of the inverse change of basis that belong to one copy of an irrep, transposed. -/
noncomputable def colBlock (G : Grp El) (reps : List El) (s : ℕ) (c : ℝ) (irr : Irrep El) (W : Mat) : Mat := fun x j =>
  c * mul irr.size (irr.mat (reps.getD (x / s) G.one)) W j (x % s)

theorem colBlock_inter (ok : SubOk G els H S) {ρ : Irrep El'} (hρ : IsOrthRep H ρ.size ρ.mat) {irr : Irrep El} (hi : IsOrthRep G irr.size irr.mat)
    {W : Mat} (hW : ∀ h, H.isEl h → MEq irr.size ρ.size (mul irr.size (irr.mat (S.parent h)) W) (mul ρ.size W (ρ.mat h))) (c : ℝ) :
    Inter G ((cosetLoop G els S).reps.length * ρ.size) (inducedMat G S (cosetLoop G els S) ρ) irr.size irr.mat
      (colBlock G (cosetLoop G els S).reps ρ.size c irr W) := by
  have L := ok.lawG
  have T := cosetLoop_transversal ok
  intro g hg x hx t ht
  obtain ⟨j, hj, a, ha, rfl⟩ := exists_blockIdx hx
  have hrj := rep_mem ok hj
  have hgi := L.inv_mem _ hg
  have key := coset_expand ok ρ T (fun x => mul irr.size (irr.mat x) W) irr.size
    (fun x h hx hh => by
      refine ((hi.mul x _ hx (ok.emb.mem _ hh)).mul (MEq.refl W)).trans ?_
      rw [Mat.mul_assoc, Mat.mul_assoc]
      exact (MEq.refl _).mul (hW h hh)) (L.op_mem _ _ hgi hrj) ht ha
  have e1 : mul ((cosetLoop G els S).reps.length * ρ.size) (inducedMat G S (cosetLoop G els S) ρ g)
      (colBlock G (cosetLoop G els S).reps ρ.size c irr W) (j * ρ.size + a) t
      = c * mul irr.size (irr.mat (G.op (G.inv g) ((cosetLoop G els S).reps.getD j G.one))) W t a := by
    rw [← key, mul, sum_range_blocks, Finset.mul_sum]
    refine Finset.sum_congr rfl fun k hk => ?_
    rw [Finset.mul_sum]
    refine Finset.sum_congr rfl fun d hd => ?_
    have hrk := rep_mem ok (mem_range.1 hk)
    rw [inducedMat_entry ok ρ hg (mem_range.1 hk) hj ha (mem_range.1 hd), colBlock, blockIdx_div k (mem_range.1 hd), blockIdx_mod k (mem_range.1 hd)]
    have h1 := subMat_inv ok hρ (L.op_mem _ _ (L.inv_mem _ hrj) (L.op_mem _ _ hg hrk)) d (mem_range.1 hd) a ha
    rw [inv_op' L (L.inv_mem _ hrj) (L.op_mem _ _ hg hrk), inv_op' L hg hrk, inv_inv' L hrj,
      L.assoc _ _ _ (L.inv_mem _ hrk) hgi hrj] at h1
    rw [h1, tr]
    ring
  rw [e1]
  have e2 : MEq irr.size ρ.size (mul irr.size (irr.mat (G.op (G.inv g) ((cosetLoop G els S).reps.getD j G.one))) W)
      (mul irr.size (tr (irr.mat g)) (mul irr.size (irr.mat ((cosetLoop G els S).reps.getD j G.one)) W)) := by
    refine ((hi.mul _ _ hgi hrj).mul (MEq.refl W)).trans ?_
    rw [Mat.mul_assoc]
    exact (hi.inv g hg).mul (MEq.refl _)
  rw [e2 t ht a ha]
  simp only [mul, tr, colBlock, blockIdx_div j ha, blockIdx_mod j ha, Finset.mul_sum, Finset.sum_mul]
  refine Finset.sum_congr rfl fun u _ => Finset.sum_congr rfl fun v _ => ?_
  ring

/-- The inner product of two arrays. -/
noncomputable def frob (n m : ℕ) (A B : Mat) : ℝ := ∑ i ∈ range n, ∑ j ∈ range m, A i j * B i j

theorem frob_mul_orth {n m : ℕ} {Q : Mat} (hQ : MEq n n (mul n (tr Q) Q) one) (A B : Mat) : frob n m (mul n Q A) (mul n Q B) = frob n m A B := by
  have key : ∀ j, ∑ i ∈ range n, mul n Q A i j * mul n Q B i j = ∑ i ∈ range n, A i j * B i j := by
    intro j
    have h1 : ∑ i ∈ range n, mul n Q A i j * mul n Q B i j = mul n (tr A) (mul n (mul n (tr Q) Q) B) j j := by
      rw [Mat.mul_assoc, ← Mat.mul_assoc, ← tr_mul]
      rfl
    rw [h1]
    have h2 : MEq (j + 1) (j + 1) (mul n (tr A) (mul n (mul n (tr Q) Q) B)) (mul n (tr A) B) :=
      (MEq.refl _).mul ((hQ.mul (MEq.refl B)).trans (MEq_one_mul _ _ _))
    rw [h2 j (by omega) j (by omega)]
    rfl
  rw [frob, frob, Finset.sum_comm]
  simp only [key]
  rw [Finset.sum_comm]

theorem IsOrthRep.tr_mul_self (L : G.Lawful) {n : ℕ} {σ : El → Mat} (h : IsOrthRep G n σ) {g : El} (hg : G.isEl g) :
    MEq n n (mul n (tr (σ g)) (σ g)) one := by
  refine ((h.inv g hg).symm.mul (MEq.refl _)).trans ((h.mul _ _ (L.inv_mem _ hg) hg).symm.trans ?_)
  rw [L.inv_op _ hg]
  exact h.one

theorem colBlock_trace (ok : SubOk G els H S) (s : ℕ) {irr : Irrep El} (hi : IsOrthRep G irr.size irr.mat)
    (W W' : Mat) (c : ℝ) :
    ∑ t ∈ range irr.size, mul ((cosetLoop G els S).reps.length * s) (tr (colBlock G (cosetLoop G els S).reps s c irr W))
      (colBlock G (cosetLoop G els S).reps s c irr W') t t = c * c * (cosetLoop G els S).reps.length * frob irr.size s W W' := by
  have L := ok.lawG
  simp only [mul, tr]
  rw [Finset.sum_comm, sum_range_blocks]
  have : ∀ k ∈ range (cosetLoop G els S).reps.length, ∑ j ∈ range s, ∑ t ∈ range irr.size,
      colBlock G (cosetLoop G els S).reps s c irr W (k * s + j) t * colBlock G (cosetLoop G els S).reps s c irr W' (k * s + j) t
      = c * c * frob irr.size s W W' := by
    intro k hk
    have hrk := rep_mem ok (mem_range.1 hk)
    rw [← frob_mul_orth (hi.tr_mul_self L hrk) W W', frob, Finset.sum_comm, Finset.mul_sum]
    refine Finset.sum_congr rfl fun t _ => ?_
    rw [Finset.mul_sum]
    refine Finset.sum_congr rfl fun j hj => ?_
    simp only [colBlock, blockIdx_div k (mem_range.1 hj), blockIdx_mod k (mem_range.1 hj)]
    ring
  rw [Finset.sum_congr rfl this, Finset.sum_const, card_range, nsmul_eq_mul]
  ring

end
end E2
