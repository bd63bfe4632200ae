import Verif.Lemmas.TranslateNet

/-!
# C77: networks commute with translations
-/

set_option linter.unusedSectionVars false

namespace E2

open Finset Mat

variable {El F A I B K : Type} [LinearOrder F] [DecidableEq I] [Fintype B]

/-- If the window of a network is inside of the image then the windows of its first module, at the positions seen by the others, are inside of the image. -/
theorem inside_first {n s p r S P R i u : ℕ} (hs : 0 < s) (hR : 0 < R) (hi : Inside n (s * S) (P * s + p) ((R - 1) * s + r) i) (hu : u < R) :
    P ≤ i * S ∧ Inside n s p r (i * S - P + u) ∧ (i * S - P + u) * s - p = i * (s * S) - (P * s + p) + u * s := by
  obtain ⟨h1, h2⟩ := hi
  have e : i * (s * S) = i * S * s := by rw [Nat.mul_comm s S, Nat.mul_assoc]
  rw [e] at h1 h2 ⊢
  have hP : P ≤ i * S := Nat.le_of_mul_le_mul_right (by omega : P * s ≤ i * S * s) hs
  obtain ⟨q, hq⟩ := Nat.exists_eq_add_of_le hP
  have e2 : (i * S - P + u) * s = q * s + u * s := by rw [hq, Nat.add_sub_cancel_left, Nat.add_mul]
  have e3 : i * S * s = P * s + q * s := by rw [hq, Nat.add_mul]
  have e4 : u * s ≤ (R - 1) * s := Nat.mul_le_mul_right s (by omega)
  unfold Inside
  rw [e2]
  rw [e3] at h1 h2 ⊢
  exact ⟨hP, ⟨by omega, by omega⟩, by omega⟩

theorem net_local {rep : F → Repr El} (hpos : ∀ r, 0 < (rep r).size) (net : List (K × Layer F A I)) (hpl : ∀ l ∈ net, l.2.Plain rep)
    (hfit : (net.map Prod.snd).IsChain fun a b => a.outTy = b.inTy) {S P R : ℕ} (hv : netView (net.map Prod.snd) = some (S, P, R)) :
    0 < S ∧ 0 < R ∧ ∀ (junk junk' : K → (c n : ℕ) → List (Pix B n → ℝ)), (∀ k, JunkOk (junk k)) → (∀ k, JunkOk (junk' k)) →
    ∀ (n : ℕ) (x y : GTensor F (Pix B n → ℝ)), x.WF (fun r => (rep r).size) → y.WF (fun r => (rep r).size) →
    (∀ l ∈ net.head?, x.ty = l.2.inTy ∧ y.ty = l.2.inTy) → ∀ x' y' : ETensor F B,
    compose ((net.map fun l => (l.1, l.2.toMod rep (junk l.1))).map Prod.snd) ⟨n, x⟩ = some x' →
    compose ((net.map fun l => (l.1, l.2.toMod rep (junk' l.1))).map Prod.snd) ⟨n, y⟩ = some y' →
    x'.n = y'.n ∧ (∀ i, Inside n S P R i → i < x'.n) ∧
    ∀ b b' i j i' j', Inside n S P R i → Inside n S P R j → Inside n S P R i' → Inside n S P R j' →
      SameWindow R x.data y.data b b' (i * S - P) (j * S - P) (i' * S - P) (j' * S - P) →
      ∀ c, chanImg x'.x.data b c i j = chanImg y'.x.data b' c i' j' := by
  induction net generalizing S P R with
  | nil =>
    simp only [List.map_nil, netView, Option.some.injEq, Prod.mk.injEq] at hv
    obtain ⟨rfl, rfl, rfl⟩ := hv
    refine ⟨one_pos, one_pos, fun _ _ _ _ n x y _ _ _ x' y' e1 e2 => ?_⟩
    obtain rfl := Option.some.inj e1
    obtain rfl := Option.some.inj e2
    refine ⟨rfl, fun i hi => by have := hi.2; simp only [Nat.mul_one, Nat.sub_zero] at this; exact this, fun b b' i j i' j' _ _ _ _ h c => ?_⟩
    have := h c 0 0 one_pos one_pos
    simpa using this
  | cons q net ih =>
    obtain ⟨k, l⟩ := q
    simp only [List.map_cons, netView] at hv
    cases hl : l.view with
    | none => rw [hl] at hv; simp at hv
    | some a =>
      obtain ⟨s, p, r⟩ := a
      cases hn : netView (net.map Prod.snd) with
      | none => rw [hl, hn] at hv; simp at hv
      | some a =>
        obtain ⟨S2, P2, R2⟩ := a
        rw [hl, hn] at hv
        simp only [Option.some.injEq, Prod.mk.injEq] at hv
        obtain ⟨rfl, rfl, rfl⟩ := hv
        have hfit' : (net.map Prod.snd).IsChain fun a b => a.outTy = b.inTy := by
          rw [List.map_cons] at hfit
          exact hfit.tail
        obtain ⟨hs, hr, hloc⟩ := layer_local (B := B) hpos l (hpl _ List.mem_cons_self) hl
        obtain ⟨hS, hR, hrest⟩ := ih (fun l hl => hpl l (List.mem_cons_of_mem _ hl)) hfit' hn
        refine ⟨Nat.mul_pos hs hS, by omega, fun junk junk' hj hj' n x y hx hy hxy x' y' e1 e2 => ?_⟩
        obtain ⟨x1, f1, f2⟩ := Option.bind_eq_some_iff.1 e1
        obtain ⟨y1, g1, g2⟩ := Option.bind_eq_some_iff.1 e2
        obtain ⟨hxt, hyt⟩ := hxy _ rfl
        obtain ⟨c1, c2, c3, c4, c5, c6, c7⟩ := hloc n x y hx hy hxt hyt _ _ (hj k) (hj' k) x1 y1 f1 g1
        obtain ⟨n1, x1⟩ := x1
        obtain ⟨n2, y1⟩ := y1
        obtain rfl : n1 = n2 := c1
        obtain ⟨d1, d2, d3⟩ := hrest junk junk' hj hj' n1 x1 y1 c2 c3 (fun l' hl' => by
          cases net with
          | nil => simp at hl'
          | cons q net =>
            obtain rfl : q = l' := by simpa using hl'
            rw [List.map_cons, List.map_cons, List.isChain_cons_cons] at hfit
            exact ⟨c4.trans hfit.1, c5.trans hfit.1⟩) x' y' f2 g2
        have hin : ∀ i, Inside n (s * S2) (P2 * s + p) ((R2 - 1) * s + r) i → Inside n1 S2 P2 R2 i := by
          intro i hi
          obtain ⟨h1, h2, -⟩ := inside_first hs hR hi (u := R2 - 1) (by omega)
          have := c6 _ h2
          dsimp only at this
          exact ⟨h1, by omega⟩
        refine ⟨d1, fun i hi => d2 i (hin i hi), fun b b' i j i' j' hi hj hi' hj' h c => d3 b b' i j i' j' (hin i hi) (hin j hj) (hin i' hi') (hin j' hj') ?_ c⟩
        intro c u v hu hv
        obtain ⟨-, i2, i3⟩ := inside_first hs hR hi hu
        obtain ⟨-, j2, j3⟩ := inside_first hs hR hj hv
        obtain ⟨-, k2, k3⟩ := inside_first hs hR hi' hu
        obtain ⟨-, l2, l3⟩ := inside_first hs hR hj' hv
        refine c7 b b' _ _ _ _ i2 j2 k2 l2 (fun c u' v' hu' hv' => ?_) c
        rw [i3, j3, k3, l3, Nat.add_assoc, Nat.add_assoc, Nat.add_assoc, Nat.add_assoc]
        have e1 : u * s ≤ (R2 - 1) * s := Nat.mul_le_mul_right s (by omega)
        have e2 : v * s ≤ (R2 - 1) * s := Nat.mul_le_mul_right s (by omega)
        exact h c (u * s + u') (v * s + v') (by omega) (by omega)

/-- A call of a network which returns is the composition of its modules, applied to a tensor of the type of the first one. -/
theorem netForward_compose [DecidableEq K] {rep : F → Repr El} (net : List (K × Layer F A I)) (hnd : (net.map Prod.fst).Nodup)
    (junk : K → (c n : ℕ) → List (Pix B n → ℝ)) (x y : ETensor F B) (h : netForward rep junk net x = some y) :
    (∀ l ∈ net.head?, x.x.ty = l.2.inTy) ∧ compose ((net.map fun l => (l.1, l.2.toMod rep (junk l.1))).map Prod.snd) x = some y := by
  obtain ⟨st, hst, h⟩ := Option.bind_eq_some_iff.1 h
  have hnd' : ((net.map fun l => (l.1, l.2.toMod rep (junk l.1))).map Prod.fst).Nodup := by
    rw [List.map_map]
    exact hnd
  obtain ⟨-, c1, c2, c3⟩ := (c41_built _ hnd').2 st hst
  rw [seqForward] at h
  split_ifs at h with h1
  obtain ⟨z, hz, h⟩ := Option.bind_eq_some_iff.1 h
  split_ifs at h with h2
  obtain rfl := Option.some.inj h
  rw [c1, runMods_eq] at hz
  refine ⟨fun l hl => ?_, hz⟩
  rw [c2, List.head?_map, Option.mem_def.1 hl] at h1
  exact Option.some.inj h1

/-- **C77, windows**: a network of convolutions, pointwise poolings, nonlinearities, batch normalisations in evaluation mode, group poolings, dropout in evaluation mode
computes an output from its window of the input only, and in the same way at all positions whose window does not reach the padding, whatever the weights and the contents
of new memory.  The stride, the padding and the width of the windows are those of the composition. -/
theorem c77_window [DecidableEq K] {rep : F → Repr El} (hpos : ∀ r, 0 < (rep r).size) (net : List (K × Layer F A I)) (hnd : (net.map Prod.fst).Nodup)
    (hfit : (net.map Prod.snd).IsChain fun a b => a.outTy = b.inTy) (hpl : ∀ l ∈ net, l.2.Plain rep) {S P R : ℕ} (hv : netView (net.map Prod.snd) = some (S, P, R))
    {n : ℕ} (x y : GTensor F (Pix B n → ℝ)) (hx : x.WF fun r => (rep r).size) (hy : y.WF fun r => (rep r).size)
    (junk junk' : K → (c n : ℕ) → List (Pix B n → ℝ)) (hj : ∀ k, JunkOk (junk k)) (hj' : ∀ k, JunkOk (junk' k)) (x' y' : ETensor F B)
    (hx' : netForward rep junk net ⟨n, x⟩ = some x') (hy' : netForward rep junk' net ⟨n, y⟩ = some y') :
    x'.n = y'.n ∧ (∀ i, Inside n S P R i → i < x'.n) ∧
    ∀ b b' i j i' j', Inside n S P R i → Inside n S P R j → Inside n S P R i' → Inside n S P R j' →
      SameWindow R x.data y.data b b' (i * S - P) (j * S - P) (i' * S - P) (j' * S - P) →
      ∀ c, chanImg x'.x.data b c i j = chanImg y'.x.data b' c i' j' := by
  obtain ⟨a1, a2⟩ := netForward_compose net hnd junk _ _ hx'
  obtain ⟨b1, b2⟩ := netForward_compose net hnd junk' _ _ hy'
  exact (net_local hpos net hpl hfit hv).2.2 junk junk' hj hj' n x y hx hy (fun l hl => ⟨a1 l hl, b1 l hl⟩) x' y' a2 b2

/-- **C77, translations**: if the images of `y` show those of `x` moved by `S a` pixels down and `S b` pixels to the right, where `S` is the stride of the network, then
the output for `y` shows the output for `x` moved by `a` and `b` pixels, at all positions whose windows do not reach the padding. -/
theorem c77_translation [DecidableEq K] {rep : F → Repr El} (hpos : ∀ r, 0 < (rep r).size) (net : List (K × Layer F A I)) (hnd : (net.map Prod.fst).Nodup)
    (hfit : (net.map Prod.snd).IsChain fun a b => a.outTy = b.inTy) (hpl : ∀ l ∈ net, l.2.Plain rep) {S P R : ℕ} (hv : netView (net.map Prod.snd) = some (S, P, R))
    {n : ℕ} (x y : GTensor F (Pix B n → ℝ)) (hx : x.WF fun r => (rep r).size) (hy : y.WF fun r => (rep r).size)
    (junk junk' : K → (c n : ℕ) → List (Pix B n → ℝ)) (hj : ∀ k, JunkOk (junk k)) (hj' : ∀ k, JunkOk (junk' k)) (x' y' : ETensor F B)
    (hx' : netForward rep junk net ⟨n, x⟩ = some x') (hy' : netForward rep junk' net ⟨n, y⟩ = some y') (a b : ℤ)
    (hmove : ∀ q c i j i' j', i < n → j < n → i' < n → j' < n → (i' : ℤ) = i + S * a → (j' : ℤ) = j + S * b →
      chanImg y.data q c i' j' = chanImg x.data q c i j) :
    ∀ q c i j i' j', Inside n S P R i → Inside n S P R j → Inside n S P R i' → Inside n S P R j' → (i' : ℤ) = i + a → (j' : ℤ) = j + b →
      (i < x'.n ∧ j < x'.n ∧ i' < y'.n ∧ j' < y'.n) ∧ chanImg y'.x.data q c i' j' = chanImg x'.x.data q c i j := by
  obtain ⟨h1, h2, h3⟩ := c77_window hpos net hnd hfit hpl hv x y hx hy junk junk' hj hj' x' y' hx' hy'
  intro q c i j i' j' hi hj hi' hj' ei ej
  refine ⟨⟨h2 i hi, h2 j hj, h1 ▸ h2 i' hi', h1 ▸ h2 j' hj'⟩, (h3 q q i j i' j' hi hj hi' hj' (fun c u v hu hv => ?_) c).symm⟩
  have key : ∀ {i i' : ℕ} {a : ℤ} {u : ℕ}, Inside n S P R i → Inside n S P R i' → (i' : ℤ) = i + a → u < R →
      i * S - P + u < n ∧ i' * S - P + u < n ∧ ((i' * S - P + u : ℕ) : ℤ) = ((i * S - P + u : ℕ) : ℤ) + S * a := by
    intro i i' a u hi hi' e hu
    obtain ⟨p1, p2⟩ := hi
    obtain ⟨p3, p4⟩ := hi'
    refine ⟨by omega, by omega, ?_⟩
    rw [Nat.cast_add, Nat.cast_add, Nat.cast_sub p1, Nat.cast_sub p3, Nat.cast_mul, Nat.cast_mul, e]
    ring
  obtain ⟨r1, r2, r3⟩ := key hi hi' ei hu
  obtain ⟨s1, s2, s3⟩ := key hj hj' ej hv
  exact (hmove q c _ _ _ _ r1 s1 r2 s2 r3 s3).symm

/-! ### Images on a torus -/

theorem forward_imgSize {rep : F → Repr El} (l : Layer F A I) {v : ℕ × ℕ × ℕ} (hv : l.view = some v) (junk : (c n : ℕ) → List (Pix B n → ℝ)) (x x' : ETensor F B)
    (h : l.forward rep junk x = some x') : l.imgSize x.n = some x'.n := by
  cases l with
  | conv c basis inT outT w b =>
    cases hG : convGroups c.groups inT outT with
    | none => simp [Layer.forward, hG] at h
    | some inG =>
      cases hf : (c.exp rep inG outT basis).forward w with
      | none => simp [Layer.forward, hG, hf] at h
      | some f =>
        simp only [Layer.forward, hG, hf, wrapped, runConv] at h
        split_ifs at h with h1 h2
        simp only [Layer.imgSize, ETensor.plain] at h ⊢
        cases hm : convSize x.n c.p c.k c.s c.d with
        | none => simp [hm] at h
        | some m =>
          simp only [hm, Option.map_some, mkE] at h
          obtain ⟨y, -, rfl⟩ := Option.map_eq_some_iff.1 h
          rfl
  | maxPool t k s p d ceil =>
    simp only [Layer.forward, Layer.imgSize] at h ⊢
    cases hm : poolSize ceil x.n p k s d with
    | none => simp [hm] at h
    | some m =>
      simp only [hm] at h
      obtain ⟨y, -, rfl⟩ := Option.map_eq_some_iff.1 h
      rfl
  | maxPoolAntialiased t k s p ceil fs sigma =>
    simp only [Layer.forward, Layer.imgSize] at h ⊢
    cases hm : poolSize ceil x.n p k 1 1 with
    | none => simp [hm] at h
    | some n1 =>
      simp only [hm, Option.bind_some] at h ⊢
      cases hm2 : convSize n1 (p + (fs - 1) / 2) fs s 1 with
      | none => simp [hm2] at h
      | some m =>
        simp only [hm2] at h
        obtain ⟨y, -, rfl⟩ := Option.map_eq_some_iff.1 h
        rfl
  | avgPool t k s p ceil =>
    simp only [Layer.forward, Layer.imgSize] at h ⊢
    cases hm : poolSize ceil x.n p k s 1 with
    | none => simp [hm] at h
    | some m =>
      simp only [hm] at h
      obtain ⟨y, -, rfl⟩ := Option.map_eq_some_iff.1 h
      rfl
  | avgPoolAntialiased t s p fs sigma =>
    simp only [Layer.forward, Layer.imgSize] at h ⊢
    cases hm : convSize x.n p fs s 1 with
    | none => simp [hm] at h
    | some m =>
      simp only [hm] at h
      obtain ⟨y, -, rfl⟩ := Option.map_eq_some_iff.1 h
      rfl
  | identity t =>
    simp only [Layer.forward, Layer.imgSize] at h ⊢
    split_ifs at h
    rw [Option.some.inj h]
  | reshuffle t perm =>
    simp only [Layer.forward, Layer.imgSize] at h ⊢
    split_ifs at h
    obtain ⟨y, -, rfl⟩ := Option.map_eq_some_iff.1 h
    rfl
  | convT c basis inT outT w b => simp [Layer.view] at hv
  | adaptiveAvgPool t m => simp [Layer.view] at hv
  | adaptiveMaxPool t m => simp [Layer.view] at hv
  | mask t S margin => simp [Layer.view] at hv
  | upsample t c => simp [Layer.view] at hv
  | _ =>
    simp only [Layer.forward, Layer.imgSize] at h ⊢
    obtain ⟨y, -, rfl⟩ := Option.map_eq_some_iff.1 h
    rfl

theorem roll_index {m s i a u : ℕ} (hs : 0 < s) (hu : u < s) : ((i + a) % m) * s + u = (i * s + u + s * a) % (m * s) := by
  rw [show i * s + u + s * a = s * (i + a) + u by ring, Nat.mul_comm m s, Nat.mod_mul, Nat.mul_add_mod, Nat.mod_eq_of_lt hu, Nat.mul_add_div hs, Nat.div_eq_of_lt hu,
    Nat.add_zero]
  ring

theorem view_pos (l : Layer F A I) {s p r : ℕ} (h : l.view = some (s, p, r)) : 0 < r := by
  cases l <;> simp only [Layer.view] at h <;> (try split_ifs at h) <;> simp at h <;> omega

theorem padIdx_circular {n p i : ℕ} (hn : 0 < n) (hp : p ≤ n) (hi : i < n + 2 * p) : padIdx .circular n p i = some ((i + (n - p)) % n) := by
  unfold padIdx
  split_ifs with h1 h2
  · rw [Nat.mod_eq_of_lt (by omega)]
    simp only [Option.some.injEq]
    omega
  · rw [show i + (n - p) = (i - p) + n by omega, Nat.add_mod_right, Nat.mod_eq_of_lt (by omega)]
  · simp only [Option.some.injEq]
    rw [show i + (n - p) = (i - p - n) + n * 2 by omega, Nat.add_mul_mod_self_left, Nat.mod_eq_of_lt (by omega)]

/-- The modules which treat the image as a torus commute with the translations of the torus. -/
theorem layer_roll {rep : F → Repr El} (hpos : ∀ r, 0 < (rep r).size) (l : Layer F A I) (hl : l.Plain rep) {n m s : ℕ} (h : l.Rolls n m s)
    (x y : GTensor F (Pix B n → ℝ)) (hx : x.WF fun r => (rep r).size) (hy : y.WF fun r => (rep r).size) (hxt : x.ty = l.inTy) (hyt : y.ty = l.inTy)
    (junk junk' : (c n : ℕ) → List (Pix B n → ℝ)) (hj : JunkOk junk) (hj' : JunkOk junk') (x' y' : ETensor F B)
    (e1 : l.forward rep junk ⟨n, x⟩ = some x') (e2 : l.forward rep junk' ⟨n, y⟩ = some y') (a b : ℕ) (hr : Rolled (s * a) (s * b) x.data y.data) :
    ∃ x1 y1 : GTensor F (Pix B m → ℝ), x' = ⟨m, x1⟩ ∧ y' = ⟨m, y1⟩ ∧ x1.WF (fun r => (rep r).size) ∧ y1.WF (fun r => (rep r).size) ∧ x1.ty = l.outTy ∧ y1.ty = l.outTy ∧
      Rolled a b x1.data y1.data := by
  obtain ⟨hsz, hs, hms, hc⟩ := h
  have key : ∀ r, l.view = some (s, 0, r) → r ≤ s → ∃ x1 y1 : GTensor F (Pix B m → ℝ), x' = ⟨m, x1⟩ ∧ y' = ⟨m, y1⟩ ∧ x1.WF (fun r => (rep r).size) ∧
      y1.WF (fun r => (rep r).size) ∧ x1.ty = l.outTy ∧ y1.ty = l.outTy ∧ Rolled a b x1.data y1.data := by
    intro r hv hrs
    obtain ⟨-, hr0, hloc⟩ := layer_local (B := B) hpos l hl hv
    obtain ⟨c1, c2, c3, c4, c5, c6, c7⟩ := hloc n x y hx hy hxt hyt junk junk' hj hj' x' y' e1 e2
    have f1 := forward_imgSize l hv junk _ _ e1
    have f2 := forward_imgSize l hv junk' _ _ e2
    obtain ⟨m1, x1⟩ := x'
    obtain ⟨m2, y1⟩ := y'
    obtain rfl := Option.some.inj (hsz.symm.trans f1)
    obtain rfl := Option.some.inj (hsz.symm.trans f2)
    refine ⟨x1, y1, rfl, rfl, c2, c3, c4, c5, fun q c i j hi hj => ?_⟩
    have hins : ∀ i, i < m → Inside n s 0 r i := by
      intro i hi
      have : (i + 1) * s ≤ m * s := Nat.mul_le_mul_right s hi
      rw [Nat.add_mul, Nat.one_mul, hms] at this
      exact ⟨Nat.zero_le _, by omega⟩
    have hm0 : 0 < m := by omega
    refine (c7 q q i j _ _ (hins i hi) (hins j hj) (hins _ (Nat.mod_lt _ hm0)) (hins _ (Nat.mod_lt _ hm0)) (fun c u v hu hv => ?_) c).symm
    have h1 := (hins i hi).2
    have h2 := (hins j hj).2
    rw [Nat.sub_zero, Nat.sub_zero, Nat.sub_zero, Nat.sub_zero, roll_index hs (by omega), roll_index hs (by omega), hms]
    exact (hr q c (i * s + u) (j * s + v) (by omega) (by omega)).symm
  cases l with
  | conv c basis inT outT w b0 =>
    obtain ⟨rfl, ⟨hmode, hp⟩ | ⟨hp, hr⟩⟩ := hc
    · have hsz : convSize n c.p c.k c.s c.d = some m := hsz
      cases hG : convGroups c.groups inT outT with
      | none => simp [Layer.forward, hG] at e1
      | some inG =>
        cases hf : (c.exp rep inG outT basis).forward w with
        | none => simp [Layer.forward, hG, hf] at e1
        | some f =>
          have hxt : x.ty = inT := hxt
          have hyt : y.ty = inT := hyt
          have hlx : x.data.length = typeSize (fun r => (rep r).size) inT := by rw [hx.2, hxt]
          have hly : y.data.length = typeSize (fun r => (rep r).size) inT := by rw [hy.2, hyt]
          simp only [Layer.forward, hG, hf, wrapped, hxt, if_pos, runConv, ETensor.plain, hlx, hsz, Option.map_some, mkE, mkGT] at e1
          simp only [Layer.forward, hG, hf, wrapped, hyt, if_pos, runConv, ETensor.plain, hly, hsz, Option.map_some, mkE, mkGT] at e2
          rw [if_pos (by simp), Option.map_some] at e1 e2
          obtain rfl := Option.some.inj e1
          obtain rfl := Option.some.inj e2
          refine ⟨_, _, rfl, rfl, ⟨hl, by simp⟩, ⟨hl, by simp⟩, rfl, rfl, fun q o i j hi hj => ?_⟩
          have hm0 : 0 < m := by omega
          have hn0 : 0 < n := by rw [← hms]; exact Nat.mul_pos hm0 hs
          rw [chanImg_in hi hj, chanImg_in (Nat.mod_lt _ hm0) (Nat.mod_lt _ hm0)]
          simp only [List.getD_eq_getElem?_getD, List.getElem?_map]
          by_cases ho : o < typeSize (fun r => (rep r).size) outT
          · rw [List.getElem?_range ho]
            simp only [Option.map_some, Option.getD_some]
            unfold conv2d
            congr 1
            refine Finset.sum_congr rfl fun e _ => Finset.sum_congr rfl fun u hu => Finset.sum_congr rfl fun v hv => ?_
            congr 1
            have hlt : ∀ i, i < m → ∀ u, u < c.k → i * c.s + u * c.d < n + 2 * c.p := by
              intro i hi u hu
              unfold convSize at hsz
              split_ifs at hsz with h0
              have h1 : (m - 1) * c.s ≤ n + 2 * c.p - c.d * (c.k - 1) - 1 := by
                have : m - 1 = (n + 2 * c.p - c.d * (c.k - 1) - 1) / c.s := by
                  have := Option.some.inj hsz
                  omega
                rw [this]
                exact Nat.div_mul_le_self _ _
              have h2 : i * c.s ≤ (m - 1) * c.s := Nat.mul_le_mul_right _ (by omega)
              have h3 : u * c.d ≤ (c.k - 1) * c.d := Nat.mul_le_mul_right _ (by omega)
              rw [Nat.mul_comm (c.k - 1)] at h3
              omega
            have hidx : ∀ i a u, ((i + a) % m * c.s + u * c.d + (n - c.p)) % n = ((i * c.s + u * c.d + (n - c.p)) % n + c.s * a) % n := by
              intro i a u
              have h0 := roll_index (m := m) (i := i) (a := a) (u := 0) hs hs
              rw [Nat.add_zero, Nat.add_zero, hms] at h0
              rw [h0, Nat.mod_add_mod, Nat.add_assoc, Nat.mod_add_mod]
              congr 1
              ring
            have hu := mem_range.1 hu
            have hv := mem_range.1 hv
            unfold readPad
            rw [hmode, padIdx_circular hn0 hp (hlt _ (Nat.mod_lt _ hm0) u hu), padIdx_circular hn0 hp (hlt _ (Nat.mod_lt _ hm0) v hv),
              padIdx_circular hn0 hp (hlt i hi u hu), padIdx_circular hn0 hp (hlt j hj v hv), hidx, hidx]
            exact hr q _ _ _ (Nat.mod_lt _ hn0) (Nat.mod_lt _ hn0)
          · rw [List.getElem?_eq_none (by simpa using ho)]
            rfl
    · exact key _ (by simp [Layer.view, hs, hp]) hr
  | _ =>
    obtain ⟨r, h1, h2⟩ := hc
    exact key r h1 h2

theorem net_roll {rep : F → Repr El} (hpos : ∀ r, 0 < (rep r).size) (net : List (K × Layer F A I)) (hpl : ∀ l ∈ net, l.2.Plain rep)
    (hfit : (net.map Prod.snd).IsChain fun a b => a.outTy = b.inTy) {n S : ℕ} (hc : CyclicNet (net.map Prod.snd) n S)
    (junk junk' : K → (c n : ℕ) → List (Pix B n → ℝ)) (hj : ∀ k, JunkOk (junk k)) (hj' : ∀ k, JunkOk (junk' k))
    (x y : GTensor F (Pix B n → ℝ)) (hx : x.WF fun r => (rep r).size) (hy : y.WF fun r => (rep r).size)
    (hxy : ∀ l ∈ net.head?, x.ty = l.2.inTy ∧ y.ty = l.2.inTy) (x' y' : ETensor F B)
    (e1 : compose ((net.map fun l => (l.1, l.2.toMod rep (junk l.1))).map Prod.snd) ⟨n, x⟩ = some x')
    (e2 : compose ((net.map fun l => (l.1, l.2.toMod rep (junk' l.1))).map Prod.snd) ⟨n, y⟩ = some y') (a b : ℕ) (hr : Rolled (S * a) (S * b) x.data y.data) :
    ∃ (m : ℕ) (x1 y1 : GTensor F (Pix B m → ℝ)), m * S = n ∧ x' = ⟨m, x1⟩ ∧ y' = ⟨m, y1⟩ ∧ Rolled a b x1.data y1.data := by
  induction net generalizing n S a b with
  | nil =>
    obtain rfl : S = 1 := hc
    obtain rfl := Option.some.inj e1
    obtain rfl := Option.some.inj e2
    exact ⟨n, x, y, Nat.mul_one n, rfl, rfl, by simpa using hr⟩
  | cons q net ih =>
    obtain ⟨k, l⟩ := q
    obtain ⟨m, s, S', h1, h2, rfl⟩ := hc
    have hfit' : (net.map Prod.snd).IsChain fun a b => a.outTy = b.inTy := by
      rw [List.map_cons] at hfit
      exact hfit.tail
    obtain ⟨x1, f1, f2⟩ := Option.bind_eq_some_iff.1 e1
    obtain ⟨y1, g1, g2⟩ := Option.bind_eq_some_iff.1 e2
    obtain ⟨hxt, hyt⟩ := hxy _ rfl
    obtain ⟨x2, y2, rfl, rfl, c1, c2, c3, c4, c5⟩ := layer_roll hpos l (hpl _ List.mem_cons_self) h1 x y hx hy hxt hyt _ _ (hj k) (hj' k) x1 y1 f1 g1 (S' * a) (S' * b)
      (by rw [← Nat.mul_assoc, ← Nat.mul_assoc]; exact hr)
    obtain ⟨m', x3, y3, d1, d2, d3, d4⟩ := ih (fun l hl => hpl l (List.mem_cons_of_mem _ hl)) hfit' h2 x2 y2 c1 c2 (fun l' hl' => by
      cases net with
      | nil => simp at hl'
      | cons q net =>
        obtain rfl : q = l' := by simpa using hl'
        rw [List.map_cons, List.map_cons, List.isChain_cons_cons] at hfit
        exact ⟨c3.trans hfit.1, c4.trans hfit.1⟩) f2 g2 a b c5
    exact ⟨m', x3, y3, by rw [← h1.2.2.1, ← d1]; ring, d2, d3, d4⟩

/-- **C77, images on a torus**: a network of convolutions with circular padding, pooling with disjoint windows, and modules which treat each pixel separately, whose strides
divide the sizes of the images, commutes with all translations of the torus by multiples of its stride, at all pixels. -/
theorem c77_circular [DecidableEq K] {rep : F → Repr El} (hpos : ∀ r, 0 < (rep r).size) (net : List (K × Layer F A I)) (hnd : (net.map Prod.fst).Nodup)
    (hfit : (net.map Prod.snd).IsChain fun a b => a.outTy = b.inTy) (hpl : ∀ l ∈ net, l.2.Plain rep) {n S : ℕ} (hc : CyclicNet (net.map Prod.snd) n S)
    (x y : GTensor F (Pix B n → ℝ)) (hx : x.WF fun r => (rep r).size) (hy : y.WF fun r => (rep r).size)
    (junk junk' : K → (c n : ℕ) → List (Pix B n → ℝ)) (hj : ∀ k, JunkOk (junk k)) (hj' : ∀ k, JunkOk (junk' k)) (x' y' : ETensor F B)
    (hx' : netForward rep junk net ⟨n, x⟩ = some x') (hy' : netForward rep junk' net ⟨n, y⟩ = some y') (a b : ℕ) (hr : Rolled (S * a) (S * b) x.data y.data) :
    ∃ (m : ℕ) (x1 y1 : GTensor F (Pix B m → ℝ)), m * S = n ∧ x' = ⟨m, x1⟩ ∧ y' = ⟨m, y1⟩ ∧ Rolled a b x1.data y1.data := by
  obtain ⟨a1, a2⟩ := netForward_compose net hnd junk _ _ hx'
  obtain ⟨b1, b2⟩ := netForward_compose net hnd junk' _ _ hy'
  exact net_roll hpos net hpl hfit hc junk junk' hj hj' x y hx hy (fun l hl => ⟨a1 l hl, b1 l hl⟩) x' y' a2 b2 a b hr

/-! ### Concrete networks -/

section example_

variable (interp : ℝ → Img → Img)

/-- A network for `C_4`: a convolution, a norm nonlinearity, a batch normalisation in evaluation mode, the norms of the fields, an average over windows. -/
noncomputable def trNet (c : ConvCfg (Option (PolarAttr ((ℝ × ℝ) × ℕ) (SBasis.Attr ℤ AngElem))) (Option (ℕ × ℕ × ℝ × ℕ))) (k s : ℕ) (w : List ℝ) (f : ℝ → ℝ)
    (bias : List ℝ) (v : ℕ → ℝ) (st : NormState ℝ) : List (ℕ × Layer ℕ (Option (PolarAttr ((ℝ × ℝ) × ℕ) (SBasis.Attr ℤ AngElem))) (Option (ℕ × ℕ × ℝ × ℕ))) :=
  [(0, .conv c exBasis [0, 1] [1] w []), (1, .norm [1] f 0 bias), (2, .normBatchNorm [1] (some (1 / 10)) (1 / 100000) v false st), (3, .normPool [1] 0),
    (4, .avgPool [0] k s 0 false)]

/-- `3 × 3` kernels, circular padding 1, stride 1. -/
noncomputable def trCfg : ConvCfg (Option (PolarAttr ((ℝ × ℝ) × ℕ) (SBasis.Attr ℤ AngElem))) (Option (ℕ × ℕ × ℝ × ℕ)) :=
  ⟨3, 1, 1, 1, 1, .circular, fun _ => true, fun _ => 1, planeIdent, fun _ => 0, fun _ => 0⟩

theorem trNet_plain (c : ConvCfg (Option (PolarAttr ((ℝ × ℝ) × ℕ) (SBasis.Attr ℤ AngElem))) (Option (ℕ × ℕ × ℝ × ℕ))) (k s : ℕ) (w : List ℝ) (f : ℝ → ℝ)
    (bias : List ℝ) (v : ℕ → ℝ) (st : NormState ℝ) : ∀ l ∈ trNet c k s w f bias v st, l.2.Plain exRep := by
  intro l hl
  simp only [trNet, List.mem_cons, List.not_mem_nil, or_false] at hl
  rcases hl with rfl | rfl | rfl | rfl | rfl
  · exact List.cons_ne_nil _ _
  · trivial
  · trivial
  · exact exRep_size 0
  · trivial

theorem exRep_pos (r : ℕ) : 0 < (exRep r).size := by
  rw [exRep_size]
  split_ifs <;> omega

theorem exRep_wf {n : ℕ} (x : GTensor ℕ (Pix (Fin 7) n → ℝ)) (hx : x.ty = [0, 1] ∧ x.data.length = 3) : x.WF fun r => (exRep r).size := by
  refine ⟨by simp [hx.1], ?_⟩
  rw [hx.1, hx.2]
  simp [typeSize, exRep_size]

open Classical in
/-- The hypotheses of `c77_translation` are met: for images with `13 × 13` pixels, this network with stride 2 has windows of width 7; if `y` is `x` moved by two pixels
down then its output is the one of `x` moved by one pixel down. -/
example (w : List ℝ) (hw : w.length = (exCfg.exp exRep [0, 1] [1] exBasis).dimension) (f : ℝ → ℝ) (bias : List ℝ) (v : ℕ → ℝ) (st : NormState ℝ)
    (x y : GTensor ℕ (Pix (Fin 7) 13 → ℝ)) (hx : x.ty = [0, 1] ∧ x.data.length = 3) (hy : y.ty = [0, 1] ∧ y.data.length = 3)
    (junk : ℕ → (c n : ℕ) → List (Pix (Fin 7) n → ℝ)) (hj : ∀ k, JunkOk (junk k))
    (hmove : ∀ q c i j, i + 2 < 13 → j < 13 → chanImg y.data q c (i + 2) j = chanImg x.data q c i j) :
    netView ((trNet exCfg 3 1 w f bias v st).map Prod.snd) = some (2, 1, 7) ∧
    ∃ x' y', netForward exRep junk (trNet exCfg 3 1 w f bias v st) ⟨13, x⟩ = some x' ∧ netForward exRep junk (trNet exCfg 3 1 w f bias v st) ⟨13, y⟩ = some y' ∧
      x'.n = 5 ∧ y'.n = 5 ∧ ∀ q i j, 1 ≤ i → i ≤ 2 → 1 ≤ j → j ≤ 3 → chanImg y'.x.data q 0 (i + 1) j = chanImg x'.x.data q 0 i j := by
  have hv : netView ((trNet exCfg 3 1 w f bias v st).map Prod.snd) = some (2, 1, 7) := by simp [trNet, netView, Layer.view, exCfg]
  have hS := c62_cyclic (F := ℕ) (A := Option (PolarAttr ((ℝ × ℝ) × ℕ) (SBasis.Attr ℤ AngElem))) (I := Option (ℕ × ℕ × ℝ × ℕ)) interp 4 (by omega) exRep exRep_ok exRep_pos
  have hd : (exCfg.exp exRep [0, 1] [1] exBasis).nPairs = 2 := rfl
  have hok : NetOk (rotSpace interp 4) exRep (builtRot 4 exRep) ((trNet exCfg 3 1 w f bias v st).map Prod.snd) 13 5 :=
    ⟨7, ⟨exInput, ⟨_, _, some 2, none, by simp, rfl⟩, Nat.one_pos, ⟨[0, 1], rfl, fun h => absurd (h.symm.trans hd) (by omega), hw⟩, trivial, rfl, by decide⟩,
      7, ⟨rfl, fun r _ => exRep_orth r⟩, 7, ⟨rfl, fun r _ => exRep_orth r⟩, 7, ⟨rfl, ⟨exRep_size 0, fun g hg => (exRep_trivial g hg).2⟩, fun r _ => exRep_orth r⟩,
      5, ⟨rfl, rfl⟩, rfl⟩
  have hfit : ((trNet exCfg 3 1 w f bias v st).map Prod.snd).IsChain fun a b => a.outTy = b.inTy := by simp [trNet, Layer.inTy, Layer.outTy]
  have hnd : ((trNet exCfg 3 1 w f bias v st).map Prod.fst).Nodup := by simp [trNet]
  obtain ⟨x', a1, -, -, a2, -⟩ := c62_network hS (trNet exCfg 3 1 w f bias v st) (by simp [trNet]) hnd hfit hok ⟨13, x⟩ rfl (exRep_wf x hx) hx.1
  obtain ⟨y', b1, -, -, b2, -⟩ := c62_network hS (trNet exCfg 3 1 w f bias v st) (by simp [trNet]) hnd hfit hok ⟨13, y⟩ rfl (exRep_wf y hy) hy.1
  refine ⟨hv, x', y', a2 junk hj, b2 junk hj, a1, b1, fun q i j h1 h2 h3 h4 => ?_⟩
  refine (c77_translation exRep_pos _ hnd hfit (trNet_plain _ _ _ _ _ _ _ _) hv x y (exRep_wf x hx) (exRep_wf y hy) junk junk hj hj x' y' (a2 junk hj) (b2 junk hj) 1 0
    (fun q c i j i' j' hi hj hi' hj' e1 e2 => ?_) q 0 i j (i + 1) j ?_ ?_ ?_ ?_ (by simp) (by simp)).2
  · obtain rfl : i' = i + 2 := by push_cast at e1; omega
    obtain rfl : j' = j := by push_cast at e2; omega
    exact hmove q c i j' hi' hj
  all_goals exact ⟨by omega, by omega⟩

open Classical in
/-- The hypotheses of `c77_circular` are met: with circular padding, stride 1 and averages over disjoint windows of width 2, on images with `4 × 4` pixels, rolling the
image by two pixels rolls the output by one. -/
example (w : List ℝ) (hw : w.length = (exCfg.exp exRep [0, 1] [1] exBasis).dimension) (f : ℝ → ℝ) (bias : List ℝ) (v : ℕ → ℝ) (st : NormState ℝ)
    (x y : GTensor ℕ (Pix (Fin 7) 4 → ℝ)) (hx : x.ty = [0, 1] ∧ x.data.length = 3) (hy : y.ty = [0, 1] ∧ y.data.length = 3)
    (junk : ℕ → (c n : ℕ) → List (Pix (Fin 7) n → ℝ)) (hj : ∀ k, JunkOk (junk k)) (hmove : Rolled 2 0 x.data y.data) :
    ∃ x' y', netForward exRep junk (trNet trCfg 2 2 w f bias v st) ⟨4, x⟩ = some ⟨2, x'⟩ ∧
      netForward exRep junk (trNet trCfg 2 2 w f bias v st) ⟨4, y⟩ = some ⟨2, y'⟩ ∧ Rolled 1 0 x'.data y'.data := by
  have hS := c62_cyclic (F := ℕ) (A := Option (PolarAttr ((ℝ × ℝ) × ℕ) (SBasis.Attr ℤ AngElem))) (I := Option (ℕ × ℕ × ℝ × ℕ)) interp 4 (by omega) exRep exRep_ok exRep_pos
  have hd : (exCfg.exp exRep [0, 1] [1] exBasis).nPairs = 2 := rfl
  have hok : NetOk (rotSpace interp 4) exRep (builtRot 4 exRep) ((trNet trCfg 2 2 w f bias v st).map Prod.snd) 4 2 :=
    ⟨4, ⟨exInput, ⟨_, _, some 2, none, by simp, rfl⟩, Nat.one_pos, ⟨[0, 1], rfl, fun h => absurd (h.symm.trans hd) (by omega), hw⟩, (by decide : 1 ≤ 4), rfl, by decide⟩,
      4, ⟨rfl, fun r _ => exRep_orth r⟩, 4, ⟨rfl, fun r _ => exRep_orth r⟩, 4, ⟨rfl, ⟨exRep_size 0, fun g hg => (exRep_trivial g hg).2⟩, fun r _ => exRep_orth r⟩,
      2, ⟨rfl, rfl⟩, rfl⟩
  have hfit : ((trNet trCfg 2 2 w f bias v st).map Prod.snd).IsChain fun a b => a.outTy = b.inTy := by simp [trNet, Layer.inTy, Layer.outTy]
  have hnd : ((trNet trCfg 2 2 w f bias v st).map Prod.fst).Nodup := by simp [trNet]
  have hc : CyclicNet ((trNet trCfg 2 2 w f bias v st).map Prod.snd) 4 2 :=
    ⟨4, 1, 2, ⟨rfl, one_pos, rfl, rfl, Or.inl ⟨rfl, (by decide : 1 ≤ 4)⟩⟩,
      ⟨4, 1, 2, ⟨rfl, one_pos, rfl, 1, rfl, le_rfl⟩, ⟨4, 1, 2, ⟨rfl, one_pos, rfl, 1, rfl, le_rfl⟩, ⟨4, 1, 2, ⟨rfl, one_pos, rfl, 1, rfl, le_rfl⟩,
        ⟨2, 2, 1, ⟨rfl, two_pos, rfl, 2, rfl, le_rfl⟩, rfl, rfl⟩, rfl⟩, rfl⟩, rfl⟩, rfl⟩
  obtain ⟨x', a1, -, -, a2, -⟩ := c62_network hS (trNet trCfg 2 2 w f bias v st) (by simp [trNet]) hnd hfit hok ⟨4, x⟩ rfl (exRep_wf x hx) hx.1
  obtain ⟨y', b1, -, -, b2, -⟩ := c62_network hS (trNet trCfg 2 2 w f bias v st) (by simp [trNet]) hnd hfit hok ⟨4, y⟩ rfl (exRep_wf y hy) hy.1
  obtain ⟨m, x1, y1, h1, rfl, rfl, h2⟩ := c77_circular exRep_pos _ hnd hfit (trNet_plain _ _ _ _ _ _ _ _) hc x y (exRep_wf x hx) (exRep_wf y hy) junk junk hj hj x' y'
    (a2 junk hj) (b2 junk hj) 1 0 hmove
  obtain rfl : m = 2 := a1
  exact ⟨x1, y1, a2 junk hj, b2 junk hj, h2⟩

end example_

end E2
