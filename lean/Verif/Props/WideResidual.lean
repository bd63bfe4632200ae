import Verif.Props.WideImages

/-!
The wide residual networks (C74): what a block without shortcut adds to its input, and what the last pooling averages.
-/

namespace E2

variable {B : Type} [Fintype B]

theorem iaddE_same {n : ℕ} {out : ETensor ℕ B} {x y : GTensor ℕ (Pix B n → ℝ)} (h : iaddE out ⟨n, x⟩ = some ⟨n, y⟩) :
    ∃ z : GTensor ℕ (Pix B n → ℝ), out = ⟨n, z⟩ ∧ z.ty = x.ty ∧ y.ty = x.ty ∧ y.data = List.zipWith (fun f h q => f q + h q) z.data x.data := by
  obtain ⟨m, t, d⟩ := out
  unfold iaddE inE at h
  by_cases ht : t = x.ty
  · rw [if_pos (show (⟨m, t, d⟩ : ETensor ℕ B).x.ty = (⟨n, x⟩ : ETensor ℕ B).x.ty from ht)] at h
    obtain ⟨d', hd', e⟩ := Option.map_eq_some_iff.1 h
    obtain ⟨v, hv, rfl⟩ := Option.map_eq_some_iff.1 hd'
    have hmn : m = n := congrArg ETensor.n e
    subst hmn
    have hv' : v = x.data := by
      unfold expand at hv
      rw [dif_pos (show (⟨m, x⟩ : ETensor ℕ B).plain.n = m from rfl)] at hv
      exact (Option.some.inj hv).symm
    subst hv'
    have e' : (⟨t, List.zipWith (fun f h q => f q + h q) d x.data⟩ : GTensor ℕ (Pix B m → ℝ)) = y := by
      have := e
      simp only [ETensor.mk.injEq, heq_eq_eq, true_and] at this
      exact this
    subst e'
    exact ⟨⟨t, d⟩, rfl, ht, ht, rfl⟩
  · rw [if_neg (show ¬ (⟨m, t, d⟩ : ETensor ℕ B).x.ty = (⟨n, x⟩ : ETensor ℕ B).x.ty from ht)] at h
    exact absurd h (by simp)

/-- **C74, residual connection**: a block without shortcut adds to its input something which only depends on the normalised input: two inputs which are the same after
the first normalisation and the first nonlinearity get the same channels `d` added. -/
theorem c74_residual {S : Stage} (b : WideBlock S) (hs : b.shortcut = none) (junk : ℕ → Junk B) {n : ℕ} (x x' y y' : GTensor ℕ (Pix B n → ℝ))
    (hx : (b.bn1.forward S.rep (junk 0) ⟨n, x⟩).bind (b.relu1.forward S.rep (junk 1)) = (b.bn1.forward S.rep (junk 0) ⟨n, x'⟩).bind (b.relu1.forward S.rep (junk 1)))
    (hy : b.forward junk ⟨n, x⟩ = some ⟨n, y⟩) (hy' : b.forward junk ⟨n, x'⟩ = some ⟨n, y'⟩) :
    ∃ d : List (Pix B n → ℝ), y.data = List.zipWith (fun f h q => f q + h q) d x.data ∧ y'.data = List.zipWith (fun f h q => f q + h q) d x'.data := by
  have key : ∀ z w : GTensor ℕ (Pix B n → ℝ), b.forward junk ⟨n, z⟩ = some ⟨n, w⟩ → ∃ xn y1 y2 y3 y4 out,
      (b.bn1.forward S.rep (junk 0) ⟨n, z⟩).bind (b.relu1.forward S.rep (junk 1)) = some xn ∧ b.conv1.forward S.rep (junk 2) xn = some y1 ∧
      b.bn2.forward S.rep (junk 3) y1 = some y2 ∧ b.relu2.forward S.rep (junk 4) y2 = some y3 ∧ b.dropout.forward S.rep (junk 5) y3 = some y4 ∧
      b.conv2.forward S.rep (junk 6) y4 = some out ∧ iaddE out ⟨n, z⟩ = some ⟨n, w⟩ := by
    intro z w h
    unfold WideBlock.forward at h
    simp only [hs, Option.bind_eq_bind, Option.bind_eq_some_iff] at h
    obtain ⟨x1, h1, xn, h2, y1, h3, y2, h4, y3, h5, y4, h6, out, h7, h8⟩ := h
    exact ⟨xn, y1, y2, y3, y4, out, by rw [h1]; exact h2, h3, h4, h5, h6, h7, h8⟩
  obtain ⟨xn, y1, y2, y3, y4, out, h1, h2, h3, h4, h5, h6, h7⟩ := key x y hy
  obtain ⟨xn', y1', y2', y3', y4', out', h1', h2', h3', h4', h5', h6', h7'⟩ := key x' y' hy'
  obtain rfl := Option.some.inj (h1.symm.trans (hx.trans h1'))
  obtain rfl := Option.some.inj (h2.symm.trans h2')
  obtain rfl := Option.some.inj (h3.symm.trans h3')
  obtain rfl := Option.some.inj (h4.symm.trans h4')
  obtain rfl := Option.some.inj (h5.symm.trans h5')
  obtain rfl := Option.some.inj (h6.symm.trans h6')
  obtain ⟨z, rfl, -, -, e⟩ := iaddE_same h7
  obtain ⟨z', e1, -, -, e'⟩ := iaddE_same h7'
  have : z = z' := by simpa only [ETensor.mk.injEq, heq_eq_eq, true_and] using e1
  subst this
  exact ⟨z.data, e, e'⟩

/-- A block of nonlinearities on one field: all values of the two inputs are negative and different, so the normalised inputs are the same. -/
example (S : Stage) (junk : ℕ → Junk B) :
    let b : WideBlock S := ⟨[0], [0], .identity [0], .pointwise [0] reluFun, .identity [0], .identity [0], .pointwise [0] reluFun, .identity [0], .identity [0], none⟩
    let x : ℝ → GTensor ℕ (Pix B 2 → ℝ) := fun t => ⟨[0], List.replicate (S.rep 0).size fun _ => t⟩
    ∃ d : List (Pix B 2 → ℝ), (x (-1)).data = List.zipWith (fun f h q => f q + h q) d (x (-1)).data ∧ (x (-2)).data = List.zipWith (fun f h q => f q + h q) d (x (-2)).data := by
  intro b x
  have hr : ∀ t : ℝ, t ≤ 0 → ∀ J : Junk B, (Layer.pointwise [0] reluFun : SLayer S).forward S.rep J ⟨2, x t⟩ = some ⟨2, x 0⟩ := by
    intro t ht J
    simp [Layer.forward, x, pointwise, channelwise, mkGT, typeSize, reluFun, ht]
  have hi : ∀ (t : ℝ) (J : Junk B), (Layer.identity [0] : SLayer S).forward S.rep J ⟨2, x t⟩ = some ⟨2, x t⟩ := by
    intro t J
    simp [Layer.forward, x]
  have hf : ∀ t : ℝ, t ≤ 0 → b.forward junk ⟨2, x t⟩ = some ⟨2, x t⟩ := by
    intro t ht
    have ha : iaddE (⟨2, x 0⟩ : ETensor ℕ B) ⟨2, x t⟩ = some ⟨2, x t⟩ := by
      simp [iaddE, inE, expand, x, ETensor.plain]
    simp only [WideBlock.forward, b, hi, hr t ht, hr 0 le_rfl, Option.bind_eq_bind, Option.bind_some, ha]
  exact c74_residual b rfl junk (x (-1)) (x (-2)) _ _
    (by simp only [b, hi, Option.bind_some]; rw [hr _ (by norm_num), hr _ (by norm_num)]) (hf _ (by norm_num)) (hf _ (by norm_num))

/-- **C74, the last pooling**: if a channel is brighter by `t c` in every pixel of an image, the score of class `o` grows by the sum of the weights times `t`. -/
theorem c74_head_mean {A : Type} (net : WideNet) {n : ℕ} (hn : 0 < n) (ty : List ℕ) (d d' : List (Pix A n → ℝ)) (t : ℕ → ℝ) (b : A)
    (h : ∀ c < typeSize (fun i => (net.S3.rep i).size) net.outT, ∀ i j, d'.getD c 0 (b, i, j) = d.getD c 0 (b, i, j) + t c) (o : ℕ) :
    net.head ⟨n, ty, d'⟩ o b = net.head ⟨n, ty, d⟩ o b + ∑ c ∈ Finset.range (typeSize (fun i => (net.S3.rep i).size) net.outT), net.linear.1 o c * t c := by
  have hn' : (n : ℝ) ≠ 0 := by exact_mod_cast hn.ne'
  unfold WideNet.head
  rw [add_right_comm, ← Finset.sum_add_distrib]
  congr 1
  refine Finset.sum_congr rfl fun c hc => ?_
  have e : ∑ i : Fin n, ∑ j : Fin n, d'.getD c 0 (b, i, j) = ∑ i : Fin n, ∑ j : Fin n, d.getD c 0 (b, i, j) + n * n * t c := by
    simp only [h c (Finset.mem_range.1 hc), Finset.sum_add_distrib, Finset.sum_const, Finset.card_univ, Fintype.card_fin, nsmul_eq_mul]
    ring
  show net.linear.1 o c * ((∑ i : Fin n, ∑ j : Fin n, d'.getD c 0 (b, i, j)) / ((n : ℝ) * n)) = _
  rw [e]
  show _ = net.linear.1 o c * ((∑ i : Fin n, ∑ j : Fin n, d.getD c 0 (b, i, j)) / ((n : ℝ) * n)) + _
  field_simp

/-- Black and white images. -/
example (net : WideNet) (o : ℕ) : net.head ⟨8, [], List.replicate (typeSize (fun i => (net.S3.rep i).size) net.outT) fun _ : Pix Unit 8 => 1⟩ o () =
    net.head ⟨8, [], []⟩ o () + ∑ c ∈ Finset.range (typeSize (fun i => (net.S3.rep i).size) net.outT), net.linear.1 o c * 1 :=
  c74_head_mean net (by norm_num) [] [] _ (fun _ => 1) () (fun c hc i j => by simp [List.getD_eq_getElem?_getD, hc]) o

end E2
