import Verif.Lemmas.WideResNetBuild

/-!
# C74: a wide residual network gives the same values for an image and the image moved by the group which it has left
-/

set_option linter.unusedSectionVars false

namespace E2

open Finset Mat Real

variable {B : Type} [Fintype B]

/-- The space with `K` rotations, and the reflections with vertical axis if `f`. -/
noncomputable def standardSpace (f : Bool) (K : ℕ) : WSpace :=
  if f then (if K = 1 then .flip (π / 2) else .flipRot K (π / 2)) else (if K = 1 then .trivial else .rot K)

/-- The number of rotations left in the last layers for the level of restriction `r` (the comment in e2wrn.py:249-257). -/
def WideArgs.left (a : WideArgs) : ℕ := if a.r = 0 then a.N else if a.r = 3 then 1 else a.N / 2

theorem newAxis_vertical (N : ℕ) : newAxis (π / 2) ((0 : ℕ) * 2 * π / N) = π / 2 := by
  unfold newAxis fmod
  have : ⌊(π / 2 + 0.5 * ((0 : ℕ) * 2 * π / N)) / (2 * π)⌋ = 0 := by
    have : (π / 2 + 0.5 * ((0 : ℕ) * 2 * π / N)) / (2 * π) = 1 / 4 := by
      have := pi_ne_zero
      push_cast
      field_simp
      ring
    rw [this]
    norm_num
  rw [this]
  simp

theorem standardSpace_restrict {s : WSpace} {f : Bool} {K M : ℕ} (hs : s = standardSpace f K) {U : WSub s} (h : s.restrict f M = some U) :
    U.sub = standardSpace f M := by
  cases s with
  | trivial =>
    cases f with
    | true => cases h
    | false =>
      simp only [WSpace.restrict] at h
      split at h
      · cases h
      · split_ifs at h with hM
        rw [← Option.some.inj h]
        simp [standardSpace, hM]
  | rot N =>
    cases f with
    | true => cases h
    | false =>
      simp only [WSpace.restrict] at h
      split at h
      · cases h
      · split_ifs at h with hM hM'
        · rw [← Option.some.inj h]
          simp [standardSpace, show M ≠ 1 by omega]
        · rw [← Option.some.inj h]
          simp [standardSpace, hM']
  | flip axis => cases f <;> cases h
  | flipRot N axis =>
    cases f with
    | false => cases h
    | true =>
      have hax : axis = π / 2 := by
        unfold standardSpace at hs
        rw [if_pos rfl] at hs
        split_ifs at hs
        exact (WSpace.flipRot.inj hs).2
      subst hax
      simp only [WSpace.restrict] at h
      split at h
      · cases h
      · split_ifs at h with hM
        rw [← Option.some.inj h]
        simp only [standardSpace, hM, if_true, newAxis_vertical]
      · rename_i m parent child hsub
        have hM : M ≠ 1 := by
          rintro rfl
          unfold Dihedral.subgroup at hsub
          split_ifs at hsub
          all_goals first | simp at hsub; done | exact absurd rfl ‹¬1 = 1›
        rw [← Option.some.inj h]
        simp only [standardSpace, hM, if_true, if_false, newAxis_vertical]

theorem linkLayer_space {comp : Comps} {S : Stage} {f : Bool} {M : Option ℕ} {inT : List ℕ} {k : (T : Stage) × Link S T × List ℕ} {K : ℕ} (hs : S.s = standardSpace f K)
    (h : linkLayer comp S f M inT = some k) : k.1.s = standardSpace f (M.getD K) := by
  cases M with
  | none =>
    obtain rfl := Option.some.inj h
    exact hs
  | some M =>
    unfold linkLayer restrictLayer at h
    dsimp only at h
    split_ifs at h
    split at h
    · cases h
    · rename_i U hU
      split at h
      · cases h
      · split at h
        · cases h
        · split at h
          · obtain rfl := Option.some.inj h
            exact standardSpace_restrict hs hU
          · cases h

/-- **C74**, the group: the last layers of the network have the space with the number of rotations announced for the level of restriction. -/
theorem c74_group {comp : Comps} {a : WideArgs} {v : WideParams} {net : WideNet} (h : wideResNet comp a v = some net) : net.S3.s = standardSpace a.f a.left := by
  rw [wideResNet_eq] at h
  by_cases hdep : (a.depth - 4) % 6 = 0
  swap
  · rw [if_neg hdep] at h
    cases h
  rw [if_pos hdep] at h
  obtain ⟨s, hsp, h⟩ := Option.bind_eq_some_iff.1 h
  by_cases hr : a.r ≤ 3
  swap
  · rw [if_neg hr] at h
    cases h
  rw [if_pos hr] at h
  obtain ⟨S1, hS1, h⟩ := Option.bind_eq_some_iff.1 h
  obtain ⟨r2, hr2, h⟩ := Option.bind_eq_some_iff.1 h
  obtain ⟨conv1, hconv1, h⟩ := Option.bind_eq_some_iff.1 h
  obtain ⟨l1, hl1, h⟩ := Option.bind_eq_some_iff.1 h
  obtain ⟨k1, hk1, h⟩ := Option.bind_eq_some_iff.1 h
  obtain ⟨l2, hl2, h⟩ := Option.bind_eq_some_iff.1 h
  obtain ⟨k2, hk2, h⟩ := Option.bind_eq_some_iff.1 h
  obtain ⟨l3, hl3, h⟩ := Option.bind_eq_some_iff.1 h
  obtain ⟨bn, hbn, h⟩ := Option.bind_eq_some_iff.1 h
  obtain ⟨relu, hrelu, h⟩ := Option.bind_eq_some_iff.1 h
  obtain rfl := Option.some.inj h
  have h1 : S1.s = standardSpace a.f a.N := by
    rw [(Stage.new_ok (WideArgs.space_ok hsp) (by simp) hS1).1]
    unfold WideArgs.space at hsp
    unfold standardSpace
    split_ifs at hsp ⊢ <;> first | exact (Option.some.inj hsp).symm | contradiction
  have h2 := linkLayer_space h1 hk1
  have h3 := linkLayer_space h2 hk2
  dsimp only
  rw [h3]
  congr 1
  unfold WideArgs.restrict1 WideArgs.restrict2 WideArgs.left
  obtain h | h | h | h : a.r = 0 ∨ a.r = 1 ∨ a.r = 2 ∨ a.r = 3 := by omega
  all_goals simp [h]

/-- **C74**: the values of the classes for a batch of images are those for the images moved by any element of the group of the last layers which permutes the pixels. -/
theorem c74_invariant_partial (interp : ℝ → Img → Img) (hp : Periodic interp) {comp : Comps} (hc : CompsOk comp) {a : WideArgs} {v : WideParams} {net : WideNet}
    (h : wideResNet comp a v = some net) (hd : 10 ≤ a.depth) (hs : 0 < a.initialStride) {n q : ℕ} (hn : n = 1 + a.initialStride * (4 * q))
    (x : List (Pix B n → ℝ)) (hx : x.length = 3) :
    ∃ y, (∀ junk : ℕ → ℕ → ℕ → Junk B, (∀ i j k, JunkOk (junk i j k)) → net.forward junk x = some y) ∧
      ∀ g, (net.S3.s.space interp).G.isEl g → (net.S3.s.space interp).grid g → ∀ junk : ℕ → ℕ → ℕ → Junk B, (∀ i j k, JunkOk (junk i j k)) →
        net.forward junk (movePictures ((net.S3.s.space interp).base n g) x) = some y :=
  wideResNet_invariant interp hp hc h hd hs q hn x hx

theorem movePictures_of {n : ℕ} {base : Img → Img} {m : Fin n × Fin n → Fin n × Fin n} (h : ∀ (x : Img) (i j : Fin n), base x i j = x (m (i, j)).1 (m (i, j)).2)
    (x : List (Pix B n → ℝ)) : movePictures base x = x.map fun v q => v (q.1, m q.2) := by
  refine List.map_congr_left fun v _ => ?_
  funext q
  rw [h]
  unfold pixImg
  rw [dif_pos ⟨(m q.2).1.2, (m q.2).2.2⟩]

/-- A rotation by `k` right angles. -/
theorem standard_quarter (interp : ℝ → Img → Img) {s : WSpace} {f : Bool} {K p k : ℕ} (hs : s = standardSpace f K) (hK : 0 < K) (hp : K * k = 4 * p) (hk : k < 4) :
    ∃ g, (s.space interp).G.isEl g ∧ (s.space interp).grid g ∧ ∀ n x, (s.space interp).base n g x = rot90 n k x := by
  have hpK : p < K := by nlinarith
  have hang : ((p : ℤ) : ℝ) * (2 * π / K) = ((k : ℤ) : ℝ) * (π / 2) := by
    have h1 : (K : ℝ) * k = 4 * p := by exact_mod_cast hp
    have h2 : (K : ℝ) ≠ 0 := by positivity
    field_simp
    push_cast
    linarith
  have h0 : K = 1 → k = 0 := by
    rintro rfl
    omega
  have r0 : ∀ n x, rot90 n ((0 : ℕ) : ℤ) x = x := fun n x => by simp [rot90]
  cases s with
  | trivial =>
    have hK1 : K = 1 := by
      unfold standardSpace at hs
      split_ifs at hs <;> assumption
    rw [h0 hK1]
    refine ⟨(0 : ℤ), ?_, True.intro, fun n x => (r0 n x).symm⟩
    exact (Cyclic.isEl_iff 1 0).2 ⟨le_refl _, by norm_num⟩
  | rot N =>
    have hN : N = K := by
      unfold standardSpace at hs
      split_ifs at hs
      exact WSpace.rot.inj hs
    subst hN
    have hel : (Cyclic.grp N).isEl (p : ℤ) := (Cyclic.isEl_iff N p).2 ⟨by positivity, by exact_mod_cast hpK⟩
    refine ⟨(p : ℤ), hel, ⟨k, hang⟩, fun n x => ?_⟩
    have := (std_rot interp hK).base (p : ℤ) hel n x
    simp only [ne_eq, not_true, if_false] at this
    exact this.trans (rotateArray_quarter interp n x hang)
  | flip axis =>
    have hK1 : K = 1 := by
      unfold standardSpace at hs
      split_ifs at hs <;> assumption
    rw [h0 hK1]
    refine ⟨(0 : ℤ), ?_, Or.inl rfl, fun n x => ?_⟩
    · exact (Cyclic.isEl_iff 2 0).2 ⟨le_refl _, by norm_num⟩
    · have := (std_flip interp axis).base (0 : ℤ) True.intro n x
      simp only [ne_eq, not_true, if_false, if_true] at this
      rw [r0]
      exact this.trans (rotateArray_zero interp n x)
  | flipRot N axis =>
    have hN : N = K := by
      unfold standardSpace at hs
      split_ifs at hs
      exact (WSpace.flipRot.inj hs).1
    subst hN
    refine ⟨((0 : ℤ), (p : ℤ)), ?_, ?_, fun n x => ?_⟩
    · exact (Dihedral.isEl_iff N (0, p)).2 ⟨Or.inl rfl, by show (0 : ℤ) ≤ p; positivity, by show (p : ℤ) < N; exact_mod_cast hpK⟩
    · exact ⟨k, by simp only [if_true]; rw [add_zero]; exact hang⟩
    · have := (std_flipRot interp N axis).base ((0 : ℤ), (p : ℤ)) True.intro n x
      simp only [ne_eq, not_true, if_false, if_true] at this
      refine this.trans (rotateArray_quarter interp n x (k := k) ?_)
      rw [add_zero]
      exact hang

/-- The reflection with vertical axis. -/
theorem standard_mirror (interp : ℝ → Img → Img) {s : WSpace} {K : ℕ} (hs : s = standardSpace true K) (hK : 0 < K) :
    ∃ g, (s.space interp).G.isEl g ∧ (s.space interp).grid g ∧ ∀ n x i j, i < n → (s.space interp).base n g x i j = x i (n - 1 - j) := by
  have hrot : ∀ n x i j, i < n → rotateArray interp n (Img.flip0 n x) (2 * (π / 2)) i j = x i (n - 1 - j) := by
    intro n x i j hi
    rw [rotateArray_quarter interp n _ (k := 2) (by push_cast; ring)]
    rw [show rot90 n 2 (Img.flip0 n x) = Img.flip1 n (Img.flip0 n (Img.flip0 n x)) from by simp [rot90]]
    simp only [Img.flip0, Img.flip1]
    rw [show n - 1 - (n - 1 - i) = i by omega]
  have hq : Quarter (2 * (π / 2)) := ⟨2, by push_cast; ring⟩
  cases s with
  | trivial => unfold standardSpace at hs; split_ifs at hs <;> simp_all
  | rot N => unfold standardSpace at hs; split_ifs at hs <;> simp_all
  | flip axis =>
    have hax : axis = π / 2 := by
      unfold standardSpace at hs
      rw [if_pos rfl] at hs
      split_ifs at hs
      exact WSpace.flip.inj hs
    subst hax
    refine ⟨(1 : ℤ), (Cyclic.isEl_iff 2 1).2 ⟨by norm_num, by norm_num⟩, Or.inr hq, fun n x i j hi => ?_⟩
    have := (std_flip interp (π / 2)).base (1 : ℤ) True.intro n x
    simp only [ne_eq, one_ne_zero, not_false_eq_true, if_false, if_true] at this
    exact (congrFun (congrFun this i) j).trans (hrot n x i j hi)
  | flipRot N axis =>
    have hax : N = K ∧ axis = π / 2 := by
      unfold standardSpace at hs
      rw [if_pos rfl] at hs
      split_ifs at hs
      exact WSpace.flipRot.inj hs
    obtain ⟨rfl, rfl⟩ := hax
    refine ⟨((1 : ℤ), (0 : ℤ)), (Dihedral.isEl_iff N (1, 0)).2 ⟨Or.inr rfl, le_refl _, by show (0 : ℤ) < N; exact_mod_cast hK⟩, ?_, fun n x i j hi => ?_⟩
    · obtain ⟨k, hk⟩ := hq
      exact ⟨k, by simp only [one_ne_zero, if_false]; rw [← hk]; push_cast; ring⟩
    · have := (std_flipRot interp N (π / 2)).base ((1 : ℤ), (0 : ℤ)) True.intro n x
      simp only [ne_eq, one_ne_zero, not_false_eq_true, if_false, if_true, Int.cast_zero, zero_mul, zero_add] at this
      exact (congrFun (congrFun this i) j).trans (hrot n x i j hi)

/-- **C74**, on the pictures: with reflections a mirrored image has the values of the image; if the number of rotations left is even (a multiple of 4), so has the image
upside down (turned by a right angle). -/
theorem c74_pictures_partial {comp : Comps} (hc : CompsOk comp) {a : WideArgs} {v : WideParams} {net : WideNet} (h : wideResNet comp a v = some net) (hd : 10 ≤ a.depth)
    (hs : 0 < a.initialStride) {n q : ℕ} (hn : n = 1 + a.initialStride * (4 * q)) (x : List (Pix B n → ℝ)) (hx : x.length = 3) :
    ∃ y, ∀ junk : ℕ → ℕ → ℕ → Junk B, (∀ i j k, JunkOk (junk i j k)) →
      net.forward junk x = some y ∧
      (a.f = true → net.forward junk (x.map fun v q => v (q.1, q.2.1, q.2.2.rev)) = some y) ∧
      (2 ∣ a.left → net.forward junk (x.map fun v q => v (q.1, q.2.1.rev, q.2.2.rev)) = some y) ∧
      (4 ∣ a.left → net.forward junk (x.map fun v q => v (q.1, q.2.2, q.2.1.rev)) = some y) := by
  obtain ⟨y, hy, hg⟩ := c74_invariant_partial (fun _ x => x) (fun _ _ => rfl) hc h hd hs hn x hx
  have hS := c74_group h
  have hpos : 0 < a.left := by
    have hok := (wideResNet_ok (fun _ x => x) (fun _ _ => rfl) hc h hs).ok
    rw [hS] at hok
    unfold standardSpace at hok
    split_ifs at hok with h1 h2 h2
    · omega
    · exact hok
    · omega
    · exact hok
  have rot : ∀ k p : ℕ, a.left * k = 4 * p → k < 4 → ∀ m : Fin n × Fin n → Fin n × Fin n,
      (∀ (x : Img) (i j : Fin n), rot90 n k x i j = x (m (i, j)).1 (m (i, j)).2) → ∀ junk : ℕ → ℕ → ℕ → Junk B, (∀ i j k, JunkOk (junk i j k)) →
      net.forward junk (x.map fun v q => v (q.1, m q.2)) = some y := by
    intro k p hp hk m hm junk hj
    obtain ⟨g, g1, g2, g3⟩ := standard_quarter (fun _ x => x) hS hpos hp hk
    have := hg g g1 g2 junk hj
    rwa [movePictures_of (m := m) fun x i j => by rw [g3]; exact hm x i j] at this
  refine ⟨y, fun junk hj => ⟨hy junk hj, fun hf => ?_, fun h2 => ?_, fun h4 => ?_⟩⟩
  · rw [hf] at hS
    obtain ⟨g, g1, g2, g3⟩ := standard_mirror (fun _ x => x) hS hpos
    have := hg g g1 g2 junk hj
    rwa [movePictures_of (m := fun q => (q.1, q.2.rev)) fun x i j => by rw [g3 _ _ _ _ i.2]; simp only [Fin.val_rev]; congr 1; omega] at this
  · obtain ⟨p, hp⟩ := h2
    exact rot 2 p (by rw [hp]; ring) (by norm_num) (fun q => (q.1.rev, q.2.rev)) (fun x i j => by
      rw [show rot90 n ((2 : ℕ) : ℤ) x = Img.flip1 n (Img.flip0 n x) from by simp [rot90]]
      simp only [Img.flip0, Img.flip1, Fin.val_rev]
      congr 1 <;> omega) junk hj
  · obtain ⟨p, hp⟩ := h4
    exact rot 1 p (by rw [hp]; ring) (by norm_num) (fun q => (q.2, q.1.rev)) (fun x i j => by
      rw [show rot90 n ((1 : ℕ) : ℤ) x = Img.transp (Img.flip1 n x) from by simp [rot90]]
      simp only [Img.transp, Img.flip1, Fin.val_rev]
      congr 1
      omega) junk hj

/-- The number of planes for `p` planes of an ordinary network, for a group of order `k`: more if the number of weights is kept (e2wrn.py:89-93). -/
noncomputable def WideArgs.planes (a : WideArgs) (p : ℕ) : ℝ := if a.fixparams then p * Real.sqrt a.order else p

/-- **C74, construction**: without restrictions, weights can be found for the network exactly if the depth is `6n + 4`, the group has at most 256 elements, the first
layer has planes for at least one regular field, and the rate of dropout is a probability. -/
theorem c74_builds_unrestricted (comp : Comps) (a : WideArgs) (hr : a.r = 0) :
    (∃ v net, wideResNet comp a v = some net) ↔
      (a.depth - 4) % 6 = 0 ∧ 0 < a.N ∧ a.order ≤ 256 ∧ (a.order : ℝ) ≤ a.planes (16 * a.widen) ∧ 0 ≤ a.rate ∧ a.rate ≤ 1 := by
  have r1 : a.restrict1 = none := by simp [WideArgs.restrict1, hr]
  have r2 : a.restrict2 = none := by simp [WideArgs.restrict2, hr]
  constructor
  · rintro ⟨v, net, h⟩
    rw [wideResNet_eq] at h
    by_cases hdep : (a.depth - 4) % 6 = 0
    swap
    · rw [if_neg hdep] at h
      cases h
    rw [if_pos hdep] at h
    obtain ⟨s, hsp, h⟩ := Option.bind_eq_some_iff.1 h
    rw [if_pos (by omega)] at h
    obtain ⟨S1, hS1, h⟩ := Option.bind_eq_some_iff.1 h
    obtain ⟨t, ht, h⟩ := Option.bind_eq_some_iff.1 h
    obtain ⟨conv1, hconv1, h⟩ := Option.bind_eq_some_iff.1 h
    obtain ⟨l1, hl1, h⟩ := Option.bind_eq_some_iff.1 h
    have hN : 0 < a.N := by
      by_contra hN
      unfold WideArgs.space at hsp
      rw [if_pos (by omega)] at hsp
      cases hsp
    obtain ⟨s', hs', hok, hord⟩ := WideArgs.space_some hN
    obtain rfl := Option.some.inj (hsp.symm.trans hs')
    have hs1 := (Stage.new_ok hok (by simp) hS1).1
    obtain ⟨h1, h2⟩ := wideLayer_planes hl1
    rw [hs1, hord] at h1
    refine ⟨hdep, hN, ?_, h1, h2⟩
    unfold Stage.regularType at ht
    rw [hs1, hord] at ht
    split at ht
    · rename_i ho
      obtain ⟨h3, -⟩ := mkType_eq_some.1 ht
      have : 0 < ⌊(if true = true then ((16 : ℕ) : ℝ) * Real.sqrt a.order else ((16 : ℕ) : ℝ)) / (a.order : ℝ)⌋₊ := by
        rw [Nat.pos_iff_ne_zero]
        intro h0
        exact h3 (by rw [h0]; rfl)
      rw [Nat.floor_pos, le_div_iff₀ (by exact_mod_cast ho), one_mul, if_pos rfl] at this
      exact (planes_256 _).1 (by exact_mod_cast this)
    · cases ht
  · rintro ⟨hdep, hN, ho, hp, hrate⟩
    obtain ⟨s, hsp, hok, hord⟩ := WideArgs.space_some hN
    have hpos : 0 < a.order := by
      unfold WideArgs.order
      split_ifs <;> omega
    obtain ⟨S, hS, hs, hb⟩ := Stage.new_some hok (by omega)
    have hord' : S.s.order = a.order := by rw [hs, hord]
    obtain ⟨k, hk, e1⟩ := S.regularType_of (planes := 16) (fix := true) hb.ord (by rw [hord', if_pos rfl]; exact_mod_cast (planes_256 _).2 ho)
    have hreg : ∀ {t : List ℕ}, t ≠ [] ∧ t = List.replicate t.length 1 → 1 ∈ t := by
      rintro t ⟨h1, h2⟩
      rw [h2]
      exact List.mem_replicate.2 ⟨fun h => h1 (List.length_eq_zero_iff.1 h), rfl⟩
    have h1 : 1 ∈ List.replicate k 1 := List.mem_replicate.2 ⟨by omega, rfl⟩
    obtain ⟨w, conv, hconv⟩ := hb.conv 2 1 (hb.share (inT := [0, 0, 0]) (by simp) (List.ne_nil_of_mem h1) (Or.inr h1))
    have hmono : ∀ c : ℕ, 16 ≤ c → (S.s.order : ℝ) ≤ if a.fixparams then ((c * a.widen : ℕ) : ℝ) * Real.sqrt S.s.order else ((c * a.widen : ℕ) : ℝ) := by
      intro c hc
      rw [hord']
      refine hp.trans ?_
      unfold WideArgs.planes
      have hle : ((16 * a.widen : ℕ) : ℝ) ≤ ((c * a.widen : ℕ) : ℝ) := by exact_mod_cast Nat.mul_le_mul_right _ hc
      split_ifs
      · exact mul_le_mul_of_nonneg_right hle (Real.sqrt_nonneg _)
      · exact hle
    obtain ⟨v1, l1, hl1⟩ := hb.layer hrate (hmono 16 (le_refl _)) ((a.depth - 4) / 6) a.initialStride false someBN (inT := List.replicate k 1)
      (List.ne_nil_of_mem h1) (by simp)
    obtain ⟨v2, l2, hl2⟩ := hb.layer hrate (hmono 32 (by norm_num)) ((a.depth - 4) / 6) 2 false someBN (inT := l1.2) (wideLayer_regular hl1).1 (by simp)
    obtain ⟨v3, l3, hl3⟩ := hb.layer hrate (hmono 64 (by norm_num)) ((a.depth - 4) / 6) 2 true someBN (inT := l2.2) (wideLayer_regular hl2).1
      (fun _ => by
        obtain ⟨ψ, q1, q2⟩ := hb.triv
        exact ⟨1, hreg (wideLayer_regular hl2), ψ, q1, q2⟩)
    refine ⟨⟨w, v1, v2, v3, someBN, (fun _ _ => 0, fun _ => 0)⟩, Option.isSome_iff_exists.1 ?_⟩
    rw [wideResNet_eq, if_pos hdep, hsp, Option.bind_some, if_pos (by omega), hS, Option.bind_some, e1, Option.bind_some, hconv, Option.bind_some, hl1,
      Option.bind_some, r1, r2]
    simp only [linkLayer, Option.bind_some, hl2, hl3, wideBN, wideReLU, hb.accepts, if_true, Option.isSome_some]

/-- Networks of depth 10 and width 8 can be built for all groups up to `C_64` and `D_64`. -/
theorem wide_example (comp : Comps) (N : ℕ) (hN : 0 < N) (h : N ≤ 64) (f : Bool) :
    ∃ v net, wideResNet comp ⟨10, 8, 0, N, 0, f, false, 1⟩ v = some net := by
  rw [c74_builds_unrestricted comp _ rfl]
  refine ⟨by norm_num, hN, ?_, ?_, le_refl _, by norm_num⟩
  · unfold WideArgs.order
    dsimp only
    split_ifs <;> omega
  · unfold WideArgs.planes WideArgs.order
    dsimp only
    simp only [Bool.false_eq_true, if_false]
    norm_cast
    split_ifs <;> omega

/-- `connected_components` has an answer. -/
theorem exists_comps : ∃ comp, CompsOk comp := by
  choose n lab h using fun (s : WSpace) (r : Repr s.El) => exists_components (r.irreps.length + r.size) r.entangled
  exact ⟨fun s r => (n s r, lab s r), h⟩

/-- The hypotheses of the theorems can be met: a network for `D_8`, and images with 33 × 33 pixels. -/
example : ∃ comp a v net, CompsOk comp ∧ wideResNet comp a v = some net ∧ 10 ≤ a.depth ∧ 0 < a.initialStride ∧ 33 = 1 + a.initialStride * (4 * 8) ∧ a.f = true ∧ 4 ∣ a.left := by
  obtain ⟨comp, hc⟩ := exists_comps
  obtain ⟨v, net, h⟩ := wide_example comp 8 (by norm_num) (by norm_num) true
  exact ⟨comp, _, v, net, hc, h, by norm_num, by norm_num, by norm_num, rfl, by norm_num [WideArgs.left]⟩

/-- **C74, a disagreement**: a depth of 4 passes the assertion (e2wrn.py:221), each layer then has one block, and the last one does not end with trivial fields but
with regular ones (the test in e2wrn.py:344 is never true): the averages of the channels are not invariant. -/
theorem c74_depth_four {comp : Comps} {a : WideArgs} {v : WideParams} {net : WideNet} (h : wideResNet comp a v = some net) (hd : a.depth = 4) :
    net.outT ≠ [] ∧ ∀ i ∈ net.outT, i = 1 := by
  rw [wideResNet_eq, hd, if_pos (by norm_num)] at h
  obtain ⟨s, hsp, h⟩ := Option.bind_eq_some_iff.1 h
  by_cases hr : a.r ≤ 3
  swap
  · rw [if_neg hr] at h
    cases h
  rw [if_pos hr] at h
  obtain ⟨S1, hS1, h⟩ := Option.bind_eq_some_iff.1 h
  obtain ⟨r2, hr2, h⟩ := Option.bind_eq_some_iff.1 h
  obtain ⟨conv1, hconv1, h⟩ := Option.bind_eq_some_iff.1 h
  obtain ⟨l1, hl1, h⟩ := Option.bind_eq_some_iff.1 h
  obtain ⟨k1, hk1, h⟩ := Option.bind_eq_some_iff.1 h
  obtain ⟨l2, hl2, h⟩ := Option.bind_eq_some_iff.1 h
  obtain ⟨k2, hk2, h⟩ := Option.bind_eq_some_iff.1 h
  obtain ⟨l3, hl3, h⟩ := Option.bind_eq_some_iff.1 h
  obtain ⟨bn, hbn, h⟩ := Option.bind_eq_some_iff.1 h
  obtain ⟨relu, hrelu, h⟩ := Option.bind_eq_some_iff.1 h
  obtain rfl := Option.some.inj h
  unfold wideLayer at hl3
  simp only [Option.bind_eq_bind] at hl3
  obtain ⟨mainT, hmain, hl3⟩ := Option.bind_eq_some_iff.1 hl3
  obtain ⟨innerT, hinner, hl3⟩ := Option.bind_eq_some_iff.1 hl3
  rw [if_pos True.intro] at hl3
  obtain ⟨outT, hout, hl3⟩ := Option.bind_eq_some_iff.1 hl3
  norm_num at hl3
  unfold wideLoop at hl3
  simp only [Option.bind_eq_bind] at hl3
  obtain ⟨b, hb, hl3⟩ := Option.bind_eq_some_iff.1 hl3
  obtain ⟨⟨bs', t'⟩, hr', hl3⟩ := Option.bind_eq_some_iff.1 hl3
  obtain rfl := Option.some.inj hl3
  rw [if_neg (by norm_num), show List.replicate (-1 : ℤ).toNat 1 = ([] : List ℕ) from rfl, wideLoop] at hr'
  obtain rfl := (Prod.ext_iff.1 (Option.some.inj hr')).2
  obtain ⟨h1, h2⟩ := regularType_some hmain
  refine ⟨h1, fun i hi => ?_⟩
  dsimp only at hi
  rw [h2] at hi
  exact List.eq_of_mem_replicate hi

/-- Such a network can be built. -/
example (comp : Comps) : ∃ v net, wideResNet comp ⟨4, 8, 0, 8, 0, true, false, 1⟩ v = some net := by
  rw [c74_builds_unrestricted comp _ rfl]
  refine ⟨by norm_num, by norm_num, by norm_num [WideArgs.order], ?_, le_refl _, by norm_num⟩
  norm_num [WideArgs.planes, WideArgs.order]

end E2
