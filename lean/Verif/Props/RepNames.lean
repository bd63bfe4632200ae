import Verif.Lemmas.RepNames
import Verif.Props.Names

/-!
# C91: do the names which the library gives identify the representations?

`RExp` are the calls which build a representation, with all their arguments; the representation is a function of them.
-/

set_option linter.unusedSectionVars false

namespace E2

open Str

namespace RExp

/-- The restrictions among the calls: the group and the identifier of the subgroup. -/
def restrictions : RExp → List (LibGroup × SubId)
  | restrict g id r => (g, id) :: r.restrictions
  | sum rs => rs.flatMap restrictions
  | _ => []

/-- Whenever both sequences of calls restrict a group to the same subgroup type (for instance from `D_8` to `D_4`), they use the same identifier. -/
def SameIds (e e' : RExp) : Prop := ∀ p ∈ e.restrictions, ∀ q ∈ e'.restrictions, p.1 = q.1 → p.1.sub p.2 = q.1.sub q.2 → p.2 = q.2

theorem names_core (n : ℕ) : ∀ (e e' : RExp), sizeOf e ≤ n → ∀ g, e.Of g → e'.Of g → e.SameIds e' → e.name = e'.name → e = e' := by
  induction n with
  | zero =>
    intro e e' hs
    cases e <;> simp at hs
  | succ n ih =>
    intro e e' hs g h h' hid hn
    have htag : e.tag = e'.tag := by rw [← tagOf_name, ← tagOf_name, hn]
    cases h with
    | irrep g j k hk =>
      cases h' with
      | irrep g j' k' hk' =>
        rw [name, name] at hn
        obtain ⟨rfl, rfl⟩ := irrepName_inj hk hk' hn
        rfl
      | _ => simp [tag] at htag
    | regularC N =>
      cases h' with
      | regularC => rfl
      | _ => simp [tag] at htag
    | regularD N =>
      cases h' with
      | regularD => rfl
      | _ => simp [tag] at htag
    | quotientC N i q hq =>
      cases h' with
      | quotientC _ i' q' hq' =>
        have hn := congrArg String.toList hn
        rw [name, name] at hn
        simp only [String.toList_append, List.append_cancel_right_eq, List.append_cancel_left_eq] at hn
        rw [SubId.name_inj_cyc hq hq' (String.toList_inj.1 hn)]
      | _ => simp [tag] at htag
    | quotientD N i q hq =>
      cases h' with
      | quotientD _ i' q' hq' =>
        have hn := congrArg String.toList hn
        rw [name, name] at hn
        simp only [String.toList_append, List.append_cancel_right_eq, List.append_cancel_left_eq] at hn
        rw [SubId.name_inj_dih hq hq' (String.toList_inj.1 hn)]
      | _ => simp [tag] at htag
    | inducedC N i q j k hq hk =>
      cases h' with
      | inducedC _ i' q' j' k' hq' hk' =>
        have hn := congrArg String.toList hn
        rw [name, name] at hn
        simp only [String.toList_append, List.append_cancel_right_eq, List.append_cancel_left_eq, List.append_assoc] at hn
        obtain ⟨h1, h2⟩ := cancel (c := ']') (i.name_plain (by simp)) (i'.name_plain (by simp)) hn
        obtain rfl := SubId.name_inj_cyc hq hq' (String.toList_inj.1 h1)
        obtain rfl := Option.some.inj (hq.symm.trans hq')
        obtain ⟨h3, -⟩ := cancel (c := ']') (irrepName_plain q j k (by simp)) (irrepName_plain q j' k' (by simp)) (List.cons.inj h2).2
        obtain ⟨rfl, rfl⟩ := irrepName_inj hk hk' (String.toList_inj.1 h3)
        rfl
      | _ => simp [tag] at htag
    | inducedD N i q j k hq hk =>
      cases h' with
      | inducedD _ i' q' j' k' hq' hk' =>
        have hn := congrArg String.toList hn
        rw [name, name] at hn
        simp only [String.toList_append, List.append_cancel_right_eq, List.append_cancel_left_eq, List.append_assoc] at hn
        obtain ⟨h1, h2⟩ := cancel (c := ']') (i.name_plain (by simp)) (i'.name_plain (by simp)) hn
        obtain rfl := SubId.name_inj_dih hq hq' (String.toList_inj.1 h1)
        obtain rfl := Option.some.inj (hq.symm.trans hq')
        obtain ⟨h3, -⟩ := cancel (c := ']') (irrepName_plain q j k (by simp)) (irrepName_plain q j' k' (by simp)) (List.cons.inj h2).2
        obtain ⟨rfl, rfl⟩ := irrepName_inj hk hk' (String.toList_inj.1 h3)
        rfl
      | _ => simp [tag] at htag
    | inducedO k =>
      cases h' with
      | inducedO k' =>
        have hn := congrArg String.toList hn
        rw [name, name] at hn
        simp only [String.toList_append, List.append_cancel_right_eq, List.append_cancel_left_eq, List.append_assoc] at hn
        obtain ⟨-, rfl⟩ := irrepName_inj (g := .so2) (j := 0) (j' := 0) rfl rfl (String.toList_inj.1 hn)
        rfl
      | _ => simp [tag] at htag
    | restrict a i _ r hr hi =>
      cases h' with
      | restrict a' i' _ r' hr' hi' =>
        have hn := congrArg String.toList hn
        rw [name, name] at hn
        simp only [String.toList_append, List.append_assoc] at hn
        obtain ⟨h1, h2⟩ := cancel (c := ':') (a.name_plain (by simp)) (a'.name_plain (by simp)) hn
        obtain rfl := LibGroup.name_inj (String.toList_inj.1 h1)
        obtain rfl : i = i' := hid (a, i) (by simp [restrictions]) (a, i') (by simp [restrictions]) rfl (hi.trans hi'.symm)
        obtain rfl := ih r r' (by simp at hs; omega) a hr hr' (fun p hp q hq => hid p (by simp [restrictions, hp]) q (by simp [restrictions, hq])) (String.toList_inj.1 h2)
        rfl
      | _ => simp [tag] at htag
    | sum g rs hne hrs =>
      cases h' with
      | sum _ rs' hne' hrs' =>
        rw [name, name] at hn
        have hm := directsumName_inj _ _ (fun n hn => by obtain ⟨r, -, rfl⟩ := List.mem_map.1 hn; exact name_bal r)
          (fun n hn => by obtain ⟨r, -, rfl⟩ := List.mem_map.1 hn; exact name_bal r) hn
        congr 1
        have hlen : rs.length = rs'.length := by simpa using congrArg List.length hm
        refine List.ext_getElem hlen fun m h1 h2 => ?_
        have hmem : rs[m] ∈ rs := List.getElem_mem h1
        have hmem' : rs'[m] ∈ rs' := List.getElem_mem h2
        refine ih _ _ ?_ g (hrs _ hmem) (hrs' _ hmem') ?_ ?_
        · have := List.sizeOf_lt_of_mem hmem
          simp at hs
          omega
        · intro p hp q hq
          refine hid p ?_ q ?_
          · rw [restrictions]; exact List.mem_flatMap.2 ⟨_, hmem, hp⟩
          · rw [restrictions]; exact List.mem_flatMap.2 ⟨_, hmem', hq⟩
        · have := congrArg (fun l => l[m]?) hm
          simpa [h1, h2] using this
      | _ => simp [tag] at htag

end RExp

/-- The subgroups of the groups of the library: cyclic groups have one for each divisor of the order, dihedral groups the rotations or the reflections along one axis, and
so on. -/
inductive LibGroup.HasSub : LibGroup → SubId → LibGroup → Prop
  | cyc (N M : ℕ) : 0 < M → M ∣ N → HasSub (.cyc N) (.order M) (.cyc M)
  | rotations (N M : ℕ) : 0 < M → M ∣ N → HasSub (.dih N) (.pair none M) (.cyc M)
  | reflection (N a : ℕ) : a < N → HasSub (.dih N) (.pair (some a) 1) (.cyc 2)
  | dih (N M a : ℕ) : 1 < M → M ∣ N → a < N / M → HasSub (.dih N) (.pair (some a) M) (.dih M)
  | so2 (M : ℕ) : 0 < M → HasSub .so2 (.order M) (.cyc M)
  | allRotations : HasSub .o2 (.angle none (-1)) .so2
  | someRotations (M : ℕ) : 0 < M → HasSub .o2 (.angle none M) (.cyc M)
  | o2 (a : ℝ) : HasSub .o2 (.angle (some a) (-1)) .o2
  | o2Reflection (a : ℝ) : 0 ≤ a → a < 2 * Real.pi → HasSub .o2 (.angle (some a) 1) (.cyc 2)
  | o2Dih (a : ℝ) (M : ℕ) : 1 < M → 0 ≤ a → a < 2 * Real.pi / M → HasSub .o2 (.angle (some a) M) (.dih M)

/-- **C91, subgroups**: the identifiers which the groups accept and the groups which they return. -/
theorem c91_subgroups (g h : LibGroup) (id : SubId) : g.sub id = some h ↔ g.HasSub id h := by
  constructor
  · intro e
    cases g <;> cases id <;> simp only [LibGroup.sub, reduceCtorEq] at e
    case cyc.order N M =>
      obtain ⟨t, ht, rfl⟩ := Option.map_eq_some_iff.1 e
      unfold Cyclic.subgroup at ht
      rw [Cyclic.order_eq] at ht
      split_ifs at ht with h1
      obtain rfl := Option.some.inj ht
      exact .cyc N M (by omega) (Nat.dvd_of_mod_eq_zero (by tauto))
    case dih.pair N axis M =>
      obtain ⟨t, ht, rfl⟩ := Option.map_eq_some_iff.1 e
      unfold Dihedral.subgroup at ht
      rw [ite_not, ite_not] at ht
      split_ifs at ht with h1 h2 h4
      · subst h4
        cases axis with
        | none =>
          obtain rfl := Option.some.inj ht
          exact .rotations N 1 (by omega) (one_dvd N)
        | some a =>
          dsimp only at ht
          rw [ite_not] at ht
          split_ifs at ht with h3
          obtain rfl := Option.some.inj ht
          exact .reflection N a (by simpa using h3)
      · have hd := Nat.dvd_of_mod_eq_zero h2
        cases axis with
        | none =>
          obtain rfl := Option.some.inj ht
          exact .rotations N M (by omega) hd
        | some a =>
          dsimp only at ht
          rw [ite_not] at ht
          split_ifs at ht with h3
          obtain rfl := Option.some.inj ht
          exact .dih N M a (by omega) hd h3
    case so2.order M =>
      obtain ⟨t, ht, rfl⟩ := Option.map_eq_some_iff.1 e
      unfold SO2.subgroup at ht
      split_ifs at ht with h1
      obtain rfl := Option.some.inj ht
      exact .so2 M (by omega)
    case o2.angle axis M =>
      obtain ⟨t, ht, rfl⟩ := Option.map_eq_some_iff.1 e
      unfold O2.subgroup at ht
      cases axis with
      | none =>
        dsimp only at ht
        split_ifs at ht with h1 h2
        · obtain rfl := Option.some.inj ht
          rw [h1]
          exact .allRotations
        · obtain rfl := Option.some.inj ht
          obtain ⟨m, rfl⟩ := Int.eq_ofNat_of_zero_le (a := M) (by omega)
          exact .someRotations m (by omega)
      | some a =>
        dsimp only at ht
        split_ifs at ht with h1 h2 h3 h4
        · obtain rfl := Option.some.inj ht
          rw [h2]
          exact .o2 a
        · obtain rfl := Option.some.inj ht
          subst h3
          push Not at h1
          have := h1.1.resolve_right (by omega)
          exact .o2Reflection a this.1 (by simpa using this.2)
        · obtain rfl := Option.some.inj ht
          obtain ⟨m, rfl⟩ := Int.eq_ofNat_of_zero_le (a := M) (by omega)
          push Not at h1
          have := h1.1.resolve_right (by omega)
          exact .o2Dih a m (by omega) this.1 (by simpa using this.2)
  · intro e
    cases e with
    | cyc N M h1 h2 => 
      simp only [LibGroup.sub, Cyclic.subgroup, Cyclic.order_eq]
      rw [if_neg (by simp [Nat.mod_eq_zero_of_dvd h2]; omega)]
      rfl
    | rotations N M h1 h2 =>
      simp only [LibGroup.sub, Dihedral.subgroup]
      rw [if_neg (by omega), if_neg (by simp [Nat.mod_eq_zero_of_dvd h2])]
      rfl
    | reflection N a h1 =>
      simp only [LibGroup.sub, Dihedral.subgroup]
      rw [if_neg (by omega), if_neg (by simp [Nat.mod_one]), if_neg (by simpa using h1), if_pos trivial]
      rfl
    | dih N M a h1 h2 h3 =>
      simp only [LibGroup.sub, Dihedral.subgroup]
      rw [if_neg (by omega), if_neg (by simp [Nat.mod_eq_zero_of_dvd h2]), if_neg (by simpa using h3), if_neg (by omega)]
      rfl
    | so2 M h1 =>
      simp only [LibGroup.sub, SO2.subgroup]
      rw [if_neg (by omega)]
      rfl
    | allRotations =>
      simp only [LibGroup.sub, O2.subgroup, if_true]
      rfl
    | someRotations M h1 =>
      simp only [LibGroup.sub, O2.subgroup]
      rw [if_neg (by omega), if_neg (by omega)]
      rfl
    | o2 a =>
      simp only [LibGroup.sub, O2.subgroup]
      rw [if_neg (by norm_num), if_pos trivial]
      rfl
    | o2Reflection a h1 h2 =>
      simp only [LibGroup.sub, O2.subgroup]
      rw [if_neg (by simp [h1, h2]), if_neg (by norm_num), if_pos trivial]
      rfl
    | o2Dih a M h1 h2 h3 =>
      simp only [LibGroup.sub, O2.subgroup]
      have hM : (M : ℤ) ≠ 0 := by omega
      rw [if_neg (by simp [h2, h3]; omega), if_neg (by omega), if_neg (by omega), if_pos (by omega)]
      rfl

/-- The identifier `(None, 2)` of `D_4` and the one of the rotations in `O(2)`. -/
example : (LibGroup.dih 4).sub (.pair none 2) = some (.cyc 2) ∧ LibGroup.o2.sub (.angle none (-1)) = some .so2 :=
  ⟨(c91_subgroups _ _ _).2 (.rotations 4 2 (by norm_num) (by norm_num)), (c91_subgroups _ _ _).2 .allRotations⟩

/-- **C91**: two representations of one group, built by irreps, regular, quotient and induced representations, restrictions and direct sums, have the same name only if
they have been built by the same calls, when all restrictions of one group to another one use one identifier.  Missing: restrictions of one group along different axes, or to a
cyclic group once by rotations and once by a reflection, for which the claim is false (`c91_axis_wrong`, `c91_names_wrong`), and names chosen by the caller. -/
theorem c91_names_partial (e e' : RExp) (g : LibGroup) (h : e.Of g) (h' : e'.Of g) (hid : e.SameIds e') (hn : e.name = e'.name) : e = e' :=
  RExp.names_core _ e e' le_rfl g h h' hid hn

/-- The restrictions of legal calls are legal. -/
theorem RExp.Of.legal {e : RExp} {g : LibGroup} (h : e.Of g) : ∀ p ∈ e.restrictions, p.1.sub p.2 ≠ none := by
  induction h with
  | restrict g i h r _ hi ih =>
    intro p hp
    rw [RExp.restrictions, List.mem_cons] at hp
    rcases hp with rfl | hp
    · simp [hi]
    · exact ih p hp
  | sum g rs _ _ ih =>
    intro p hp
    rw [RExp.restrictions] at hp
    obtain ⟨r, hr, hp⟩ := List.mem_flatMap.1 hp
    exact ih r hr p hp
  | _ => intro p hp; simp [RExp.restrictions] at hp

/-- **C91 for the groups of rotations**: if only cyclic groups and `SO(2)` are restricted, names identify the representations without any other condition. -/
theorem c91_rotations (e e' : RExp) (g : LibGroup) (h : e.Of g) (h' : e'.Of g)
    (hr : ∀ p ∈ e.restrictions ++ e'.restrictions, p.1 = .so2 ∨ ∃ N, p.1 = .cyc N) (hn : e.name = e'.name) : e = e' := by
  refine c91_names_partial e e' g h h' (fun p hp q hq hpq hs => ?_) hn
  obtain ⟨a, i⟩ := p
  obtain ⟨a', i'⟩ := q
  obtain rfl : a = a' := hpq
  have hne := h.legal _ hp
  rcases hr (a, i) (by simp [hp]) with h | ⟨N, h⟩
  · obtain rfl : a = .so2 := h
    cases i <;> cases i' <;> simp_all [LibGroup.sub]
    rename_i M M'
    unfold SO2.subgroup at hs hne
    by_cases h1 : M = 0
    · simp [h1] at hne
    · by_cases h2 : M' = 0
      · simp [h1, h2] at hs
      · simpa [h1, h2] using hs
  · obtain rfl : a = .cyc N := h
    cases i <;> cases i' <;> simp_all [LibGroup.sub]
    rename_i M M'
    unfold Cyclic.subgroup at hs hne
    by_cases h1 : M = 0 ∨ ¬ (Cyclic.order N % M = 0)
    · rw [if_pos h1] at hne
      simp at hne
    · by_cases h2 : M' = 0 ∨ ¬ (Cyclic.order N % M' = 0)
      · rw [if_neg h1, if_pos h2] at hs
        simp at hs
      · rw [if_neg h1, if_neg h2] at hs
        simpa using hs

/-! ## Restrictions along two axes -/

open Mat Real

/-- The irrep of frequency 1 of `D_{2 m}`, the action on the plane (dihedralgroup.py:360-464). -/
noncomputable def planeIrrep (m : ℕ) : Irrep (ℤ × ℤ) :=
  { size := 2, socs := 1, freq := 1, flip := 1, mat := fun e => psichi (e.2 * (2 * π / ((2 * m : ℕ) : ℝ))) e.1 1 0 }

theorem planeIrrep_eq {m : ℕ} (hm : 2 ≤ m) : Dihedral.irrep (2 * m) 1 1 = some (planeIrrep m) := by
  unfold Dihedral.irrep
  rw [if_neg (by omega), if_neg (by omega), if_neg (by omega), if_neg (by omega), if_neg (by omega)]
  simp [planeIrrep]

/-- The irrep as a representation with its name. -/
noncomputable def planeField (m : ℕ) : NRep (ℤ × ℤ) String := ⟨irrepName (.dih (2 * m)) 1 1, ⟨[planeIrrep m], Mat.one, Mat.one⟩⟩

/-- Its restriction to the reflection along the axis `a`: irreps 0 and 1 of `C_2`, rotated by `θ`. -/
noncomputable def flipRep (θ : ℝ) : Repr ℤ := Repr.mk' [c2Irrep 0, c2Irrep 1] (Mat.mul 2 Mat.one (bdiag [(2, psi θ 1 0)]))

theorem plane_restrict {m : ℕ} (hm : 2 ≤ m) (a : ℕ) (ha : a < 2 * m) :
    nRestrict (.dih (2 * m)) (fun i => Dihedral.restrictFlip (2 * m) i a) (planeField m) =
      some ⟨(LibGroup.dih (2 * m)).name ++ ":" ++ irrepName (.dih (2 * m)) 1 1, flipRep ((0.5 * a) * 2 * π / ((2 * m : ℕ) : ℝ))⟩ := by
  have hs : Dihedral.subgroup (2 * m) (some a) 1 ≠ none := by
    unfold Dihedral.subgroup
    simp [Nat.mod_one, ha]
  have h : Dihedral.restrictFlip (2 * m) (planeIrrep m) a = some (psi ((0.5 * a) * 2 * π / ((2 * m : ℕ) : ℝ)) 1 0, [c2Irrep 0, c2Irrep 1]) := by
    unfold Dihedral.restrictFlip
    obtain ⟨s, hs⟩ := Option.ne_none_iff_exists'.1 hs
    rw [hs]
    have h2 : ¬ (2 * (planeIrrep m).freq = 2 * m) := by simp [planeIrrep]; omega
    dsimp only
    rw [if_neg h2, show (planeIrrep m).flip = 1 from rfl, c2Irrep_eq 0 two_pos, c2Irrep_eq 1 one_lt_two]
    dsimp only
    rw [if_pos (by simp [planeIrrep])]
    simp [planeIrrep]
  have hall : Repr.restrictAll (fun i => Dihedral.restrictFlip (2 * m) i a) [planeIrrep m] =
      some [(2, psi ((0.5 * a) * 2 * π / ((2 * m : ℕ) : ℝ)) 1 0, [c2Irrep 0, c2Irrep 1])] := by
    rw [Repr.restrictAll, h]
    rfl
  unfold nRestrict Repr.restrict planeField
  dsimp only
  rw [hall]
  rfl

theorem flipRep_cob (θ : ℝ) : MEq 2 2 (flipRep θ).cob (psi θ 1 0) := by
  refine (MEq_one_mul _ _ _).trans fun i hi j hj => ?_
  simp [bdiag, hi, hj]

theorem flipRep_size (θ : ℝ) : (flipRep θ).size = 2 := rfl

theorem flipRep_isInv (θ : ℝ) : IsInv 2 (flipRep θ).cob (psi (-θ) 1 0) :=
  isInv_of_left (((flipRep_cob θ).mul (MEq.refl _)).trans (psi_inv θ 1).1)

theorem flipRep_wf (θ : ℝ) : (flipRep θ).WF := by
  show IsInv 2 (flipRep θ).cob (Mat.inv 2 (flipRep θ).cob)
  exact isInv_inv (flipRep_isInv θ)

theorem flipRep_cobInv (θ : ℝ) : MEq 2 2 (flipRep θ).cobInv (psi (-θ) 1 0) := (flipRep_wf θ).unique (flipRep_isInv θ)

theorem flipRep_plane (θ : ℝ) : (flipRep θ).Plane fun i => ∃ k, Cyclic.irrep 2 k = some i := by
  refine ⟨by rw [flipRep_size]; norm_num, flipRep_wf θ, ?_, ?_⟩
  · have ht : MEq 2 2 (tr (flipRep θ).cob) (psi (-θ) 1 0) := fun i hi j hj => by
      rw [tr, flipRep_cob θ j hj i hi, ← psi_tr]
      rfl
    exact isInv_of_left (((flipRep_cob θ).mul ht).trans (psi_inv θ 1).1)
  · intro i hi
    have hi : i ∈ [c2Irrep 0, c2Irrep 1] := hi
    simp only [List.mem_cons, List.not_mem_nil, or_false] at hi
    rcases hi with rfl | rfl
    · exact ⟨0, c2Irrep_eq 0 (by norm_num)⟩
    · exact ⟨1, c2Irrep_eq 1 (by norm_num)⟩

theorem flipRep_mat (θ : ℝ) (g : ℤ) : MEq 2 2 ((flipRep θ).mat g) (Mat.mul 2 (Mat.mul 2 (psi θ 1 0) (m2 1 0 0 (cos (g * π)))) (psi (-θ) 1 0)) := by
  have hb : MEq 2 2 (Repr.blocks [c2Irrep 0, c2Irrep 1] g) (m2 1 0 0 (cos (g * π))) := by
    intro i hi j hj
    interval_cases i <;> interval_cases j <;> simp [Repr.blocks, bdiag, c2Irrep, m1, m2]
  exact ((flipRep_cob θ).mul hb).mul (flipRep_cobInv θ)

theorem flipRep_mat_zero (g : ℤ) : MEq 2 2 ((flipRep 0).mat g) (m2 1 0 0 (cos (g * π))) := by
  refine (flipRep_mat 0 g).trans fun i hi j hj => ?_
  interval_cases i <;> interval_cases j <;> simp [Mat.mul, psi, m2, Finset.sum_range_succ]

theorem flipRep_mat_quarter (g : ℤ) : MEq 2 2 ((flipRep (π / 2)).mat g) (m2 (cos (g * π)) 0 0 1) := by
  refine (flipRep_mat _ g).trans fun i hi j hj => ?_
  interval_cases i <;> interval_cases j <;> simp [Mat.mul, psi, m2, Finset.sum_range_succ]

/-- **C91, the negation for the calls**: the restrictions of the irrep of frequency 1 of `D_{2 m}` to the reflection along any axis and to the rotation by 180 degrees are representations of
the group `C_2`, and they all have the same name. -/
theorem c91_names_wrong (m : ℕ) (hm : 2 ≤ m) (a b : ℕ) (ha : a < 2 * m) (hb : b < 2 * m) (hab : a ≠ b) :
    let e : SubId → RExp := fun i => .restrict (.dih (2 * m)) i (.irrep (.dih (2 * m)) 1 1)
    (e (.pair (some a) 1)).Of (.cyc 2) ∧ (e (.pair (some b) 1)).Of (.cyc 2) ∧ (e (.pair none 2)).Of (.cyc 2) ∧
    (e (.pair (some a) 1)).name = (e (.pair (some b) 1)).name ∧ (e (.pair (some a) 1)).name = (e (.pair none 2)).name ∧
    e (.pair (some a) 1) ≠ e (.pair (some b) 1) ∧ e (.pair (some a) 1) ≠ e (.pair none 2) := by
  intro e
  have hi : (RExp.irrep (.dih (2 * m)) 1 1).Of (.dih (2 * m)) := .irrep _ _ _ (by simp [IrrepOk, planeIrrep_eq hm])
  have hs : ∀ a < 2 * m, (LibGroup.dih (2 * m)).sub (.pair (some a) 1) = some (.cyc 2) := by
    intro a ha
    simp [LibGroup.sub, Dihedral.subgroup, Nat.mod_one, ha]
  have hr : (LibGroup.dih (2 * m)).sub (.pair none 2) = some (.cyc 2) := by
    simp [LibGroup.sub, Dihedral.subgroup]
  refine ⟨.restrict _ _ _ _ hi (hs a ha), .restrict _ _ _ _ hi (hs b hb), .restrict _ _ _ _ hi hr, ?_, ?_, ?_, ?_⟩
  · simp [e, RExp.name]
  · simp [e, RExp.name]
  · simpa [e] using hab
  · simp [e]

theorem flipRep_irreps (θ : ℝ) : ∀ k < 2, c2Irrep k ∈ (flipRep θ).irreps := by
  intro k hk
  show _ ∈ [c2Irrep 0, c2Irrep 1]
  interval_cases k <;> simp

theorem flip_wrong (axis : ℝ) (a b : NRep ℤ String) (hab : b.name = a.name) (ha : a.rep = flipRep 0) (hb : b.rep = flipRep (π/2)) (hne : ∀ k, a.name ≠ (c2Field k).name) :
  ∀ ins outs, UniqueOf ins [a, b] → UniqueOf outs [c2Field 0, c2Field 1] →
      ∃ N, namedConvInit (flip2dGen axis) (plainArgs ℤ 1) [a, b] [c2Field 0, c2Field 1] ins outs = some N ∧
        ∃ w : List ℝ, w.length = N.exp.dimension ∧ ∃ x y y',
          N.forward [a, b] [c2Field 0, c2Field 1] w [] 1 x = some y ∧
          N.forward [a, b] [c2Field 0, c2Field 1] w [] 1 (transformFibers 4 (typeMat NRep.rep [a, b] 1) x) = some y' ∧
          y' 0 0 0 ≠ transformFibers 2 (typeMat NRep.rep [c2Field 0, c2Field 1] 1) y 0 0 0 := by
  have p := PlaneGroup.flip axis
  refine (wrong_conv p a b hab ?_ ?_ ?_ ?_ ?_ ?_ ?_ ?_ ?_ ?_).2
  · rw [ha]
    exact flipRep_size 0
  · rw [hb]
    exact flipRep_size (π / 2)
  · exact hne 0
  · exact hne 1
  · rw [ha]
    exact flipRep_plane 0
  · rw [hb]
    exact flipRep_plane (π / 2)
  · rw [ha]
    exact flipRep_irreps 0
  · rw [hb]
    exact flipRep_irreps (π / 2)
  · rw [ha]
    exact flipRep_mat_zero
  · rw [hb]
    exact flipRep_mat_quarter

theorem planeName_ne (m : ℕ) (k : ℕ) : (LibGroup.dih (2 * m)).name ++ ":" ++ irrepName (.dih (2 * m)) 1 1 ≠ (c2Field k).name := by
  intro h
  have := congrArg String.toList h
  rw [String.toList_append, String.toList_append, LibGroup.name_toList] at this
  simp [c2Field] at this

/-- **C91, the negation for the representations**: the restrictions of the action of `D_{2 m}` on the plane to the reflections along the two coordinate axes are returned with one
name, although they are diag(1, -1) and diag(-1, 1) for the reflection.  On `Flip2dOnR2`, with any axis, the convolution of kernel size 1 from a type with both of them is
built without an error, and with some weights it does not commute with the reflection, already on images of one pixel, in whatever order the sets of representations are visited. -/
theorem c91_axis_wrong (m : ℕ) (hm : 2 ≤ m) (axis : ℝ) : ∃ a b : NRep ℤ String,
    nRestrict (.dih (2 * m)) (fun i => Dihedral.restrictFlip (2 * m) i 0) (planeField m) = some a ∧
    nRestrict (.dih (2 * m)) (fun i => Dihedral.restrictFlip (2 * m) i m) (planeField m) = some b ∧
    a.name = b.name ∧ MEq 2 2 (a.rep.mat 1) (m2 1 0 0 (-1)) ∧ MEq 2 2 (b.rep.mat 1) (m2 (-1) 0 0 1) ∧
    ∀ ins outs, UniqueOf ins [a, b] → UniqueOf outs [c2Field 0, c2Field 1] →
      ∃ N, namedConvInit (flip2dGen axis) (plainArgs ℤ 1) [a, b] [c2Field 0, c2Field 1] ins outs = some N ∧
        ∃ w : List ℝ, w.length = N.exp.dimension ∧ ∃ x y y',
          N.forward [a, b] [c2Field 0, c2Field 1] w [] 1 x = some y ∧
          N.forward [a, b] [c2Field 0, c2Field 1] w [] 1 (transformFibers 4 (typeMat NRep.rep [a, b] 1) x) = some y' ∧
          y' 0 0 0 ≠ transformFibers 2 (typeMat NRep.rep [c2Field 0, c2Field 1] 1) y 0 0 0 := by
  have hm' : (m : ℝ) ≠ 0 := by
    have : m ≠ 0 := by omega
    exact_mod_cast this
  have h0 : (0.5 * ((0 : ℕ) : ℝ)) * 2 * π / ((2 * m : ℕ) : ℝ) = 0 := by simp
  have h1 : (0.5 * (m : ℝ)) * 2 * π / ((2 * m : ℕ) : ℝ) = π / 2 := by
    push_cast
    field_simp
    ring
  have e0 := plane_restrict hm 0 (by omega)
  have e1 := plane_restrict hm m (by omega)
  rw [h0] at e0
  rw [h1] at e1
  have z := flipRep_mat_zero 1
  have q := flipRep_mat_quarter 1
  rw [show (((1 : ℤ) : ℝ)) * π = π by simp, cos_pi] at z q
  exact ⟨_, _, e0, e1, rfl, z, q, flip_wrong axis _ _ rfl rfl rfl (planeName_ne m)⟩

/-- The names of types: when they are built by the library with one identifier per restriction, the hypothesis of `c80_names_partial` holds, whatever the calls compute. -/
theorem c91_types {El : Type} (rep : RExp → Repr El) (g : LibGroup) (l : List RExp) (h : ∀ e ∈ l, e.Of g) (hid : ∀ e ∈ l, ∀ e' ∈ l, e.SameIds e') :
    ∀ f ∈ l.map (fun e => (⟨e.name, rep e⟩ : NRep El String)), ∀ q ∈ l.map (fun e => (⟨e.name, rep e⟩ : NRep El String)), f.name = q.name → f.rep = q.rep := by
  intro f hf q hq hn
  obtain ⟨e, he, rfl⟩ := List.mem_map.1 hf
  obtain ⟨e', he', rfl⟩ := List.mem_map.1 hq
  show rep e = rep e'
  rw [c91_names_partial e e' g (h e he) (h e' he') (hid e he e' he') hn]

/-- Calls which meet the hypotheses of `c91_names_partial`, with restrictions, induction and nested direct sums. -/
example : (RExp.sum [.restrict (.dih 8) (.pair (some 1) 4) (.irrep (.dih 8) 1 1), .sum [.quotient (.dih 4) (.pair none 2), .induced (.dih 4) (.pair none 4) (.cyc 4) 0 1]]).Of (.dih 4) := by
  refine .sum _ _ (by simp) fun r hr => ?_
  simp only [List.mem_cons, List.not_mem_nil, or_false] at hr
  rcases hr with rfl | rfl
  · exact .restrict _ _ _ _ (.irrep _ _ _ (by simpa [IrrepOk] using fun h => by rw [planeIrrep_eq (m := 4) (by norm_num)] at h; simp at h)) (by simp [LibGroup.sub, Dihedral.subgroup])
  · refine .sum _ _ (by simp) fun r hr => ?_
    simp only [List.mem_cons, List.not_mem_nil, or_false] at hr
    rcases hr with rfl | rfl
    · exact .quotientD 4 _ (.cyc 2) (by simp [LibGroup.sub, Dihedral.subgroup])
    · exact .inducedD 4 _ (.cyc 4) 0 1 (by simp [LibGroup.sub, Dihedral.subgroup]) ⟨rfl, by simp [Cyclic.irrep, Cyclic.order, Cyclic.elements]⟩

/-- The names of restrictions of one cyclic group through different groups differ. -/
example : (RExp.restrict (.cyc 4) (.order 2) (.restrict (.cyc 8) (.order 4) (.irrep (.cyc 8) 0 1))).name ≠ (RExp.restrict (.cyc 8) (.order 2) (.irrep (.cyc 8) 0 1)).name := by
  simp [RExp.name, LibGroup.name, irrepName]

end E2
