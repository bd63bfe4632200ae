import Verif.Lemmas.Translate

/-!
All modules: `Layer.view` is right.
-/

set_option linter.unusedSectionVars false

namespace E2

open Finset Mat

variable {El F A I B K : Type} [LinearOrder F] [DecidableEq I] [Fintype B]

theorem moveField_one {P : Type} {n : ℕ} {fld : List (P → ℝ)} (h : fld.length = n) (π : P → P) : moveField n Mat.one π fld = fld.map fun v => v ∘ π := by
  unfold moveField
  congr 1
  refine List.ext_getElem (by rw [chAct_length, h]) fun k h1 h2 => ?_
  have h3 : k < n := by rwa [chAct_length] at h1
  have := chAct_get n Mat.one fld h3
  rw [List.getElem?_eq_getElem h1] at this
  rw [Option.some.inj this, Finset.sum_eq_single k]
  · simp [Mat.one, List.getElem?_eq_getElem h2]
  · intro j _ hj
    simp [Mat.one, hj.symm]
  · intro hk
    exact absurd (mem_range.2 h3) hk

/-- A batch normalisation in evaluation mode treats each position separately if its computation on each field does. -/
theorem bnModule_eval {R L S P : Type} [DecidableEq R] [DecidableEq L] [LinearOrder R] (M : Normaliser P L S) (sz : R → ℕ) (lab : R → L) (t : List R) (contig : L → Bool) (order : List L)
    (hn : order.Nodup) (hm : ∀ l, l ∈ order ↔ l ∈ t.map lab) (hpos : ∀ r ∈ t, 0 < sz r) (hsz : ∀ r ∈ t, M.size (lab r) = sz r)
    (hf : ∀ l ∈ order, FlagOk (contig l) (labelChannels (t.map lab) (t.map sz) l))
    (ha : ∀ r k fld st, r ∈ t → fld.length = sz r → (M.apply false (lab r) k fld st).length = sz r)
    (π : P → P)
    (hap : ∀ r k fld st, r ∈ t → fld.length = sz r →
      M.apply false (lab r) k (fld.map fun v => v ∘ π) st = (M.apply false (lab r) k fld st).map fun v => v ∘ π)
    (st : NormState S) (x : GTensor R (P → ℝ)) (hx : x.WF sz) (hxt : x.ty = t) (out out' : List (P → ℝ))
    (ho : out.length = x.data.length) (ho' : out'.length = x.data.length) :
    ∃ st' y, bnModule M sz t (t.map lab) contig order false st out x = some (st', y) ∧ y.WF sz ∧ y.ty = t ∧
      bnModule M sz t (t.map lab) contig order false st out' (x.transform sz (fun _ => Mat.one) π) = some (st', y.transform sz (fun _ => Mat.one) π) := by
  have key := bnModule_equivariant (⟨M.size, fun _ _ _ _ s => s, fun _ => M.apply false⟩ : Normaliser P L S) sz lab t contig order hn hm hpos hsz hf
    (fun _ => ha) (fun _ => Mat.one) π (fun _ _ _ _ _ _ _ => rfl)
    (fun _ r k fld s hr h => by rw [moveField_one h, moveField_one (ha r k fld s hr h)]; exact hap r k fld s hr h) false st x hx hxt out out' ho ho'
  exact key

theorem readZ_padded {n : ℕ} (p : ℕ) (v : Pix B n → ℝ) (b : B) (u w : ℕ) : readZ n p v b u w = padded p (fun i j => readZ n 0 v b i j) u w :=
  readZ_shift v b u w

theorem chunks_map' {V W : Type} (f : V → W) (sizes : List ℕ) (d : List V) : chunks sizes (d.map f) = (chunks sizes d).map (List.map f) := by
  induction sizes generalizing d with
  | nil => simp [chunks]
  | cons a l ih => simp [chunks, ← List.map_take, ← List.map_drop, ih]

theorem gnorm_comp {P : Type} [Fintype P] (rep : F → Repr El) (momentum : Option ℝ) (eps : ℝ) (w b : ℕ → ℕ → ℝ) (l : F) (k : ℕ) (fld : List (P → ℝ)) (st : ℕ → ℝ × ℝ)
    (π : P → P) :
    (gnormBN (P := P) rep momentum eps w b).apply false l k (fld.map fun v => v ∘ π) st = ((gnormBN (P := P) rep momentum eps w b).apply false l k fld st).map fun v => v ∘ π := by
  simp only [gnormBN, Bool.false_eq_true, if_false]
  rw [chAct_comp]
  congr 1
  rw [List.map_flatten]
  congr 1
  rw [irrepBlocks, ← chAct_comp, chunks_map', ← irrepBlocks, List.map_zipWith, List.zipWith_map_right]
  congr 1
  funext a blk
  simp [gnormBlock, List.map_map, Function.comp_def]

/-- **All modules.** -/
theorem layer_local {rep : F → Repr El} (hpos : ∀ r, 0 < (rep r).size) (l : Layer F A I) (hl : l.Plain rep) {s p r : ℕ} (hv : l.view = some (s, p, r)) :
    0 < s ∧ 0 < r ∧ LocalStep (B := B) rep l s p r := by
  have hpos' : ∀ t : List F, ∀ r ∈ t, 0 < (rep r).size := fun _ r _ => hpos r
  cases l with
  | conv c basis inT outT w b =>
    simp only [Layer.view] at hv
    split_ifs at hv with hs
    obtain ⟨rfl, rfl, rfl⟩ : c.s = s ∧ c.p = p ∧ c.d * (c.k - 1) + 1 = r := by simpa using hv
    exact ⟨hs, by omega, conv_local c basis inT outT w b hl hs⟩
  | convT c basis inT outT w b => simp [Layer.view] at hv
  | adaptiveAvgPool t m => simp [Layer.view] at hv
  | adaptiveMaxPool t m => simp [Layer.view] at hv
  | mask t S margin => simp [Layer.view] at hv
  | upsample t c => simp [Layer.view] at hv
  | pointwise t f =>
    obtain ⟨rfl, rfl, rfl⟩ : 1 = s ∧ 0 = p ∧ 1 = r := by simpa [Layer.view] using hv
    refine ⟨one_pos, one_pos, fibre_local (fun n _ => E2.pointwise (fun r => (rep r).size) t f) (fun _ _ _ _ _ _ => rfl) fun n x hx hxt π _ _ _ _ => ?_⟩
    have hxt : x.ty = t := hxt
    obtain ⟨y, h1, h2, h3⟩ := c33_pointwise (fun r => (rep r).size) t f (fun _ => Mat.one) (fun r _ => isPerm_one _) π x hx hxt
    refine ⟨y, h1, ?_, h2, h3⟩
    have e := h1
    rw [E2.pointwise, if_pos hxt] at e
    obtain ⟨e1, rfl⟩ := mkGT_eq_some.1 e
    exact ⟨hxt ▸ hx.1, e1⟩
  | norm t f eps bias =>
    obtain ⟨rfl, rfl, rfl⟩ : 1 = s ∧ 0 = p ∧ 1 = r := by simpa [Layer.view] using hv
    refine ⟨one_pos, one_pos, fibre_local (fun n junk => normNonlin (fun r => (rep r).size) t f eps bias (junk (typeSize (fun r => (rep r).size) t) n)) (fun _ _ _ _ _ _ => rfl)
      fun n x hx hxt π junk junk' hj hj' => ?_⟩
    have hxt : x.ty = t := hxt
    obtain ⟨y, h1, h2⟩ := c34_norm_equivariant (fun r => (rep r).size) t (hpos' t) f eps bias (fun _ => Mat.one) (fun r hr => orth_one _) π
      (junk _ n) (junk' _ n) (hj _ _) (hj' _ _) x hx hxt
    obtain ⟨ord, -, hall⟩ := c34_norm_scalars (P := Pix B n) (fun r => (rep r).size) t (hxt ▸ hx.1) (hpos' t) f eps bias
    obtain ⟨y', e1, e2, e3, -⟩ := hall (junk _ n) x (hj _ _) hx hxt
    obtain rfl := Option.some.inj (h1.symm.trans e1)
    exact ⟨y, h1, e2, e3, h2⟩
  | inducedNorm t subs f eps bias =>
    obtain ⟨rfl, rfl, rfl⟩ : 1 = s ∧ 0 = p ∧ 1 = r := by simpa [Layer.view] using hv
    refine ⟨one_pos, one_pos, fibre_local (fun n junk => E2.inducedNorm (fun r => (rep r).size) subs t f eps bias (junk (typeSize (fun r => (rep r).size) t) n))
      (fun _ _ _ _ _ _ => rfl) fun n x hx hxt π junk junk' hj hj' => ?_⟩
    have hxt : x.ty = t := hxt
    obtain ⟨y, h1, h2⟩ := c55_norm_equivariant (fun r => (rep r).size) subs t (hpos' t) hl f eps bias (fun _ => Mat.one) (fun r hr => isBlockPerm_one _ _)
      π (junk _ n) (junk' _ n) (hj _ _) (hj' _ _) x hx hxt
    obtain ⟨ord, -, hall⟩ := c55_norm_scalars (P := Pix B n) (fun r => (rep r).size) subs t (hxt ▸ hx.1) (hpos' t) hl f eps bias
    obtain ⟨y', e1, e2, e3, -⟩ := hall (junk _ n) x (hj _ _) hx hxt
    obtain rfl := Option.some.inj (h1.symm.trans e1)
    exact ⟨y, h1, e2, e3, h2⟩
  | gated t trivial supports gates drop σ bias =>
    obtain ⟨rfl, rfl, rfl⟩ : 1 = s ∧ 0 = p ∧ 1 = r := by simpa [Layer.view] using hv
    obtain ⟨hc, hb, ht⟩ := hl
    refine ⟨one_pos, one_pos, fibre_local (fun n junk => gated1 (fun r => (rep r).size) trivial supports t gates drop σ bias
      (junk (typeSize (fun r => (rep r).size) (gated1Out t gates drop)) n)) (fun _ _ _ _ _ _ => rfl) fun n x hx hxt π junk junk' hj hj' => ?_⟩
    have hxt : x.ty = t := hxt
    obtain ⟨y, h1, h2⟩ := c34_gated1_equivariant (fun r => (rep r).size) trivial supports t (hpos' t) gates drop hc σ bias hb (fun _ => Mat.one)
      π (fun r hr => ⟨ht r hr, by simp [Mat.one]⟩) (junk _ n) (junk' _ n) (hj _ _) (hj' _ _) x hx hxt
    obtain ⟨ord, -, hall⟩ := c34_gated1_scalars (P := Pix B n) (fun r => (rep r).size) trivial supports ht t (hxt ▸ hx.1) (hpos' t)
      gates drop hc σ bias hb
    obtain ⟨y', e1, e2, e3, -⟩ := hall (junk _ n) x (hj _ _) hx hxt
    obtain rfl := Option.some.inj (h1.symm.trans e1)
    exact ⟨y, h1, e2, e3, h2⟩
  | innerBatchNorm t momentum eps track w b training st =>
    simp only [Layer.view] at hv
    split_ifs at hv with htr
    obtain ⟨rfl, rfl⟩ := htr
    obtain ⟨rfl, rfl, rfl⟩ : 1 = s ∧ 0 = p ∧ 1 = r := by simpa using hv
    refine ⟨one_pos, one_pos, fibre_local (fun n junk z => (E2.innerBatchNorm (fun r => (rep r).size) t momentum eps true w b false st (junk z.data.length n) z).map Prod.snd)
      (fun _ _ _ _ _ _ => by simp [Layer.forward, Option.map_map, Function.comp_def]) fun n x hx hxt π junk junk' hj hj' => ?_⟩
    have hxt : x.ty = t := hxt
    obtain ⟨st', y, h1, h2, h3, h4⟩ := bnModule_eval (innerBN (P := Pix B n) momentum eps true w b) (fun r => (rep r).size) (fun r => (rep r).size) t
      (fun s => ((indexesFromLabels (fun r => (rep r).size) t (t.map fun r => (rep r).size) s).map fun e => e.1).getD false)
      (firstKeys (t.map fun r => (rep r).size)) (firstKeys_nodup _) (fun l => mem_firstKeys _ l) (hpos' t) (fun _ _ => rfl)
      (fun l hl => inner_flagOk _ t (hpos' t) ((mem_firstKeys _ l).1 hl)) (fun r k fld s _ h => by simpa [innerBN] using h) π
      (fun r k fld s hr h => by simp [innerBN, Function.comp_def]) st x hx hxt (junk x.data.length n)
      (junk' (x.transform (fun r => (rep r).size) (fun _ => Mat.one) π).data.length n) (hj _ _) (by rw [hj', (transform_wf _ _ hx).2, hx.2]; rfl)
    exact ⟨y, by rw [E2.innerBatchNorm, h1]; rfl, h2, h3, by rw [E2.innerBatchNorm, h4]; rfl⟩
  | normBatchNorm t momentum eps w training st =>
    simp only [Layer.view] at hv
    split_ifs at hv with htr
    subst htr
    obtain ⟨rfl, rfl, rfl⟩ : 1 = s ∧ 0 = p ∧ 1 = r := by simpa using hv
    refine ⟨one_pos, one_pos, fibre_local (fun n junk z => (E2.normBatchNorm (fun r => (rep r).size) t momentum eps w false st z).map Prod.snd)
      (fun _ _ _ _ _ _ => by simp [Layer.forward, Option.map_map, Function.comp_def]) fun n x hx hxt π junk junk' hj hj' => ?_⟩
    have hxt : x.ty = t := hxt
    obtain ⟨st', y, h1, h2, h3, h4⟩ := bnModule_eval (normBN (P := Pix B n) momentum eps w) (fun r => (rep r).size) (fun r => (rep r).size) t
      (fun s => (contigFlags (t.map fun r => (rep r).size) s).getD false)
      (firstKeys (t.map fun r => (rep r).size)) (firstKeys_nodup _) (fun l => mem_firstKeys _ l) (hpos' t) (fun _ _ => rfl)
      (fun l _ => bn_flagOk _ _ t (hpos' t) l) (fun r k fld s _ h => by simpa [normBN] using h) π
      (fun r k fld s hr h => by simp [normBN, Function.comp_def]) st x hx hxt x.data
      (x.transform (fun r => (rep r).size) (fun _ => Mat.one) π).data rfl (by rw [(transform_wf _ _ hx).2, hx.2]; rfl)
    exact ⟨y, by rw [E2.normBatchNorm, h1]; rfl, h2, h3, by rw [E2.normBatchNorm, h4]; rfl⟩
  | inducedBatchNorm t sub momentum eps w training st =>
    simp only [Layer.view] at hv
    split_ifs at hv with htr
    subst htr
    obtain ⟨rfl, rfl, rfl⟩ : 1 = s ∧ 0 = p ∧ 1 = r := by simpa using hv
    refine ⟨one_pos, one_pos, fibre_local (fun n junk z => (inducedNormBatchNorm (fun r => (rep r).size) sub t momentum eps w false st z).map Prod.snd)
      (fun _ _ _ _ _ _ => by simp [Layer.forward, Option.map_map, Function.comp_def]) fun n x hx hxt π junk junk' hj hj' => ?_⟩
    have hxt : x.ty = t := hxt
    obtain ⟨st', y, h1, h2, h3, h4⟩ := bnModule_eval (inducedBN (P := Pix B n) momentum eps w) (fun r => (rep r).size) (fun r => ((rep r).size, sub r)) t
      (fun s => (contigFlags (t.map fun r => ((rep r).size, sub r)) s).getD false)
      (firstKeys (t.map fun r => ((rep r).size, sub r))) (firstKeys_nodup _) (fun l => mem_firstKeys _ l) (hpos' t) (fun _ _ => rfl)
      (fun l _ => bn_flagOk _ _ t (hpos' t) l) (fun r k fld s _ h => by simpa [inducedBN] using h) π
      (fun r k fld s hr h => by simp [inducedBN, Function.comp_def]) st x hx hxt x.data
      (x.transform (fun r => (rep r).size) (fun _ => Mat.one) π).data rfl (by rw [(transform_wf _ _ hx).2, hx.2]; rfl)
    exact ⟨y, by rw [inducedNormBatchNorm, h1]; rfl, h2, h3, by rw [inducedNormBatchNorm, h4]; rfl⟩
  | gnormBatchNorm t order momentum eps w b training st =>
    simp only [Layer.view] at hv
    split_ifs at hv with htr
    subst htr
    obtain ⟨rfl, rfl, rfl⟩ : 1 = s ∧ 0 = p ∧ 1 = r := by simpa using hv
    obtain ⟨hn, ho⟩ := hl
    refine ⟨one_pos, one_pos, fibre_local (fun n junk z => (E2.gnormBatchNorm rep t order momentum eps w b false st (junk z.data.length n) z).map Prod.snd)
      (fun _ _ _ _ _ _ => by simp [Layer.forward, Option.map_map, Function.comp_def]) fun n x hx hxt π junk junk' hj hj' => ?_⟩
    have hxt : x.ty = t := hxt
    have hid : t.map (fun r => r) = t := List.map_id t
    obtain ⟨st', y, h1, h2, h3, h4⟩ := bnModule_eval (gnormBN (P := Pix B n) rep momentum eps w b) (fun r => (rep r).size) (fun r => r) t
      (fun r => (contigFlags t r).getD false) order hn (fun l => by rw [hid]; exact ho l) (hpos' t) (fun _ _ => rfl)
      (fun l _ => by
        have := bn_flagOk (fun r => (rep r).size) (fun r => r) t (hpos' t) l
        rw [hid] at this ⊢
        exact this)
      (fun r k fld s _ h => by simp [gnormBN, chAct_length]) π
      (fun r k fld s hr h => gnorm_comp rep momentum eps w b r k fld s π) st x hx hxt (junk x.data.length n)
      (junk' (x.transform (fun r => (rep r).size) (fun _ => Mat.one) π).data.length n) (hj _ _) (by rw [hj', (transform_wf _ _ hx).2, hx.2]; rfl)
    rw [hid] at h1 h4
    exact ⟨y, by rw [E2.gnormBatchNorm, h1]; rfl, h2, h3, by rw [E2.gnormBatchNorm, h4]; rfl⟩
  | maxPool t k s' p' d ceil =>
    simp only [Layer.view] at hv
    split_ifs at hv with hs
    obtain ⟨rfl, rfl, rfl⟩ : s' = s ∧ p' = p ∧ d * (k - 1) + 1 = r := by simpa using hv
    refine ⟨hs, by omega, channelwise_local t rfl rfl (fun n => poolSize ceil n p' k s' d) (fun n m => maxPool2d n p' k s' d m)
      (fun n X i j => maxVal ((windowPix n p' k s' d i j).map fun u => X u.1 u.2)) ?_ (fun n m i h hi => poolSize_inside hs h hi) (fun n m _ v b i j => maxPool2d_eq v b i j) ?_⟩
    · intro junk n x
      simp only [Layer.forward]
      cases poolSize ceil n p' k s' d <;> rfl
    · intro n X Y i j i' j' hi hj hi' hj' h
      rw [maxWindow_congr hi hj hi' hj' h]
  | avgPool t k s' p' ceil =>
    simp only [Layer.view] at hv
    split_ifs at hv with hs
    obtain ⟨rfl, rfl, rfl⟩ : s' = s ∧ p' = p ∧ (k - 1) + 1 = r := by simpa using hv
    refine ⟨hs, by omega, channelwise_local t rfl rfl (fun n => poolSize ceil n p' k s' 1) (fun n m => avgPool2d n p' k s' m)
      (fun n X i j => (∑ a ∈ Finset.range k, ∑ b ∈ Finset.range k, padded p' X (i * s' + a) (j * s' + b))
        / ((min (i * s' + k) (n + 2 * p') - i * s') * (min (j * s' + k) (n + 2 * p') - j * s') : ℕ)) ?_ (fun n m i h hi => poolSize_inside hs h (by simpa using hi)) ?_ ?_⟩
    · intro junk n x
      simp only [Layer.forward]
      cases poolSize ceil n p' k s' 1 <;> rfl
    · intro n m _ v b i j
      unfold avgPool2d
      congr 1
      exact Finset.sum_congr rfl fun a _ => Finset.sum_congr rfl fun c _ => readZ_padded p' v b _ _
    · intro n X Y i j i' j' hi hj hi' hj' h
      have hden : ∀ i, Inside n s' p' (k - 1 + 1) i → min (i * s' + k) (n + 2 * p') - i * s' = k := by
        intro i hi
        obtain ⟨h1, h2⟩ := hi
        rw [Nat.min_eq_left (by omega)]
        omega
      rw [hden i hi, hden j hj, hden i' hi', hden j' hj']
      congr 1
      refine Finset.sum_congr rfl fun a ha => Finset.sum_congr rfl fun b hb => ?_
      have ha := mem_range.1 ha; have hb := mem_range.1 hb
      exact padded_inside hi hj hi' hj' (by omega) (by omega) h
  | avgPoolAntialiased t s' p' fs sigma =>
    simp only [Layer.view] at hv
    split_ifs at hv with hs
    obtain ⟨rfl, rfl, rfl⟩ : s' = s ∧ p' = p ∧ (fs - 1) + 1 = r := by simpa using hv
    refine ⟨hs, by omega, channelwise_local t rfl rfl (fun n => convSize n p' fs s' 1) (fun n m => depthConv n p' fs s' m (gaussFilter fs sigma))
      (fun n X i j => ∑ a ∈ Finset.range fs, ∑ b ∈ Finset.range fs, gaussFilter fs sigma a b * padded p' X (i * s' + a) (j * s' + b)) ?_
      (fun n m i h hi => convSize_inside hs h (by simpa using hi)) ?_ ?_⟩
    · intro junk n x
      simp only [Layer.forward]
      cases convSize n p' fs s' 1 <;> rfl
    · intro n m _ v b i j
      unfold depthConv
      refine Finset.sum_congr rfl fun a _ => Finset.sum_congr rfl fun c _ => ?_
      congr 1
      exact readZ_padded p' v b _ _
    · intro n X Y i j i' j' hi hj hi' hj' h
      refine Finset.sum_congr rfl fun a ha => Finset.sum_congr rfl fun b hb => ?_
      have ha := mem_range.1 ha; have hb := mem_range.1 hb
      rw [padded_inside hi hj hi' hj' (by omega) (by omega) h]
  | maxPoolAntialiased t k s' p' ceil fs sigma =>
    simp only [Layer.view] at hv
    split_ifs at hv with hs
    obtain ⟨rfl, rfl, rfl⟩ : s' = s ∧ p' + (p' + (fs - 1) / 2) = p ∧ (fs - 1) + (k - 1) + 1 = r := by simpa using hv
    have hin1 : ∀ {n i a : ℕ}, Inside n s' (p' + (p' + (fs - 1) / 2)) ((fs - 1) + (k - 1) + 1) i → a < fs - 1 + 1 → Inside n 1 p' (1 * (k - 1) + 1) (i * s' + a - (p' + (fs - 1) / 2)) := by
      intro n i a hi ha
      obtain ⟨h1, h2⟩ := hi
      exact ⟨by omega, by omega⟩
    refine ⟨hs, by omega, channelwise_local t rfl rfl (fun n => (poolSize ceil n p' k 1 1).bind fun n1 => convSize n1 (p' + (fs - 1) / 2) fs s' 1)
      (fun n m => fun v => depthConv ((poolSize ceil n p' k 1 1).getD 0) (p' + (fs - 1) / 2) fs s' m (gaussFilter fs sigma) (maxPool2d n p' k 1 1 _ v))
      (fun n X i j => ∑ a ∈ Finset.range fs, ∑ b ∈ Finset.range fs, gaussFilter fs sigma a b * padded (p' + (fs - 1) / 2)
        (fun u w => if u < (poolSize ceil n p' k 1 1).getD 0 ∧ w < (poolSize ceil n p' k 1 1).getD 0 then
          maxVal ((windowPix n p' k 1 1 u w).map fun q => X q.1 q.2) else 0) (i * s' + a) (j * s' + b)) ?_ ?_ ?_ ?_⟩
    · intro junk n x
      simp only [Layer.forward]
      cases h1 : poolSize ceil n p' k 1 1 with
      | none => rfl
      | some n1 =>
        simp only [Option.bind_some, Option.getD_some]
        cases convSize n1 (p' + (fs - 1) / 2) fs s' 1 <;> rfl
    · intro n m i h hi
      obtain ⟨n1, h1, h2⟩ := Option.bind_eq_some_iff.1 h
      refine convSize_inside hs h2 ?_
      have h3 := poolSize_inside one_pos h1 (hin1 (a := fs - 1) hi (by omega))
      obtain ⟨h4, h5⟩ := hi
      exact ⟨by omega, by omega⟩
    · intro n m _ v b i j
      unfold depthConv
      refine Finset.sum_congr rfl fun a ha => Finset.sum_congr rfl fun c hc => ?_
      congr 1
      rw [readZ_padded]
      unfold padded
      refine if_congr Iff.rfl ?_ rfl
      dsimp only
      by_cases hh : i * s' + a - (p' + (fs - 1) / 2) < (poolSize ceil n p' k 1 1).getD 0 ∧ j * s' + c - (p' + (fs - 1) / 2) < (poolSize ceil n p' k 1 1).getD 0
      · rw [if_pos hh, readZ, dif_pos ⟨⟨Nat.zero_le _, by simpa using hh.1⟩, Nat.zero_le _, by simpa using hh.2⟩, maxPool2d_eq]
        rfl
      · rw [if_neg hh, readZ, dif_neg fun e => hh ⟨by simpa using e.1.2, by simpa using e.2.2⟩]
    · intro n X Y i j i' j' hi hj hi' hj' h
      refine Finset.sum_congr rfl fun a ha => Finset.sum_congr rfl fun b hb => ?_
      have ha := mem_range.1 ha; have hb := mem_range.1 hb
      congr 1
      unfold padded
      have hlt : ∀ {i a : ℕ}, Inside n s' (p' + (p' + (fs - 1) / 2)) ((fs - 1) + (k - 1) + 1) i → a < fs - 1 + 1 → i * s' + a - (p' + (fs - 1) / 2) < (poolSize ceil n p' k 1 1).getD 0 := by
        intro i a hi ha
        have h1 := hin1 hi ha
        cases hp : poolSize ceil n p' k 1 1 with
        | none =>
          exfalso
          unfold poolSize at hp
          obtain ⟨g1, g2⟩ := hi
          split_ifs at hp with h4
          omega
        | some m => exact poolSize_inside one_pos hp h1
      have g1 := hi.1; have g2 := hj.1; have g3 := hi'.1; have g4 := hj'.1
      rw [if_pos (by omega), if_pos (by omega)]
      dsimp only
      rw [if_pos ⟨hlt hi (by omega), hlt hj (by omega)⟩, if_pos ⟨hlt hi' (by omega), hlt hj' (by omega)⟩]
      congr 1
      refine maxWindow_congr (hin1 hi (by omega)) (hin1 hj (by omega)) (hin1 hi' (by omega)) (hin1 hj' (by omega)) fun u v hu hv => ?_
      have := h (a + u) (b + v) (by omega) (by omega)
      rw [show (i * s' + a - (p' + (fs - 1) / 2)) * 1 - p' + u = i * s' - (p' + (p' + (fs - 1) / 2)) + (a + u) by omega,
        show (j * s' + b - (p' + (fs - 1) / 2)) * 1 - p' + v = j * s' - (p' + (p' + (fs - 1) / 2)) + (b + v) by omega,
        show (i' * s' + a - (p' + (fs - 1) / 2)) * 1 - p' + u = i' * s' - (p' + (p' + (fs - 1) / 2)) + (a + u) by omega,
        show (j' * s' + b - (p' + (fs - 1) / 2)) * 1 - p' + v = j' * s' - (p' + (p' + (fs - 1) / 2)) + (b + v) by omega]
      exact this
  | groupPool t triv =>
    obtain ⟨rfl, rfl, rfl⟩ : 1 = s ∧ 0 = p ∧ 1 = r := by simpa [Layer.view] using hv
    have ht1 : (rep triv).size = 1 := hl
    refine ⟨one_pos, one_pos, fibre_local (fun n junk => groupPooling (fun r => (rep r).size) t triv (junk t.length n)) (fun _ _ _ _ _ _ => rfl)
      fun n x hx hxt π junk junk' hj hj' => ?_⟩
    have hxt : x.ty = t := hxt
    have hx' := transform_wf (fun _ => Mat.one) π hx
    obtain ⟨y, h1, -, h3⟩ := c36_groupPooling_invariant (fun r => (rep r).size) t triv ht1 (hpos' t) (junk t.length n) (hj _ _) x hx hxt (fun _ => Mat.one)
      (fun r hr => isPerm_one _) π
    refine step_pool (F := F) (sz := fun r => (rep r).size) (ρ := fun _ => Mat.one) (triv := triv) (t := t) ht1 (by simp [Mat.one]) (hxt ▸ hx.1) π (f := groupPooling (fun r => (rep r).size) t triv) (hj _ _) (hj' _ _) (fun j hj => ?_)
      (fun j j' hj hj' => groupPooling_junk _ t triv ht1 _ (hpos' t) _ hx' hxt j j' hj hj') ⟨y, h1, h3⟩
    obtain ⟨d, e1, e2, -⟩ := c36_groupPooling_max (fun r => (rep r).size) t triv ht1 (hpos' t) j hj _ hx' hxt
    exact ⟨d, e1, e2⟩
  | normPool t triv =>
    obtain ⟨rfl, rfl, rfl⟩ : 1 = s ∧ 0 = p ∧ 1 = r := by simpa [Layer.view] using hv
    have ht1 : (rep triv).size = 1 := hl
    refine ⟨one_pos, one_pos, fibre_local (fun n junk => E2.normPool (fun r => (rep r).size) t triv (junk t.length n)) (fun _ _ _ _ _ _ => rfl)
      fun n x hx hxt π junk junk' hj hj' => ?_⟩
    have hxt : x.ty = t := hxt
    have hx' := transform_wf (fun _ => Mat.one) π hx
    obtain ⟨y, h1, -, h3⟩ := c36_normPool_invariant (fun r => (rep r).size) t triv ht1 (hpos' t) (junk t.length n) (hj _ _) x hx hxt (fun _ => Mat.one)
      (fun r hr => orth_one _) π
    refine step_pool (F := F) (sz := fun r => (rep r).size) (ρ := fun _ => Mat.one) (triv := triv) (t := t) ht1 (by simp [Mat.one]) (hxt ▸ hx.1) π (f := E2.normPool (fun r => (rep r).size) t triv) (hj _ _) (hj' _ _) (fun j hj => ?_)
      (fun j j' hj hj' => groupPooling_junk _ t triv ht1 _ (hpos' t) _ hx' hxt j j' hj hj') ⟨y, h1, h3⟩
    obtain ⟨d, e1, e2, -⟩ := c36_normPool_norm (fun r => (rep r).size) t triv ht1 (hpos' t) j hj _ hx' hxt
    exact ⟨d, e1, e2⟩
  | inducedNormPool t sub triv =>
    obtain ⟨rfl, rfl, rfl⟩ : 1 = s ∧ 0 = p ∧ 1 = r := by simpa [Layer.view] using hv
    obtain ⟨ht1, hd⟩ := hl
    refine ⟨one_pos, one_pos, fibre_local (fun n junk => E2.inducedNormPool (fun r => (rep r).size) sub t triv (junk t.length n)) (fun _ _ _ _ _ _ => rfl)
      fun n x hx hxt π junk junk' hj hj' => ?_⟩
    have hxt : x.ty = t := hxt
    have hx' := transform_wf (fun _ => Mat.one) π hx
    obtain ⟨y, h1, -, h3⟩ := c36_inducedNorm_invariant (fun r => (rep r).size) sub t triv ht1 (hpos' t) hd (junk t.length n) (hj _ _) x hx hxt
      (fun _ => Mat.one) (fun r hr => isBlockPerm_one _ _) π
    refine step_pool (F := F) (sz := fun r => (rep r).size) (ρ := fun _ => Mat.one) (triv := triv) (t := t) ht1 (by simp [Mat.one]) (hxt ▸ hx.1) π (f := E2.inducedNormPool (fun r => (rep r).size) sub t triv) (hj _ _) (hj' _ _) (fun j hj => ?_)
      (fun j j' hj hj' => inducedNormPool_junk _ sub t triv ht1 (hpos' t) hd _ hx' hxt j j' hj hj') ⟨y, h1, h3⟩
    obtain ⟨d, e1, e2, -⟩ := c36_inducedNorm_max (fun r => (rep r).size) sub t triv ht1 (hpos' t) hd j hj _ hx' hxt
    exact ⟨d, e1, e2⟩
  | dropout t q inplace =>
    obtain ⟨rfl, rfl, rfl⟩ : 1 = s ∧ 0 = p ∧ 1 = r := by simpa [Layer.view] using hv
    refine ⟨one_pos, one_pos, fibre_local (fun n _ => some) (fun n junk _ z _ hz => ?_) fun n x hx hxt π _ _ _ _ => ⟨x, rfl, hx, hxt, rfl⟩⟩
    have hz : t = z.ty := hz.symm
    subst hz
    rw [Layer.forward, c38_eval]
  | identity t =>
    obtain ⟨rfl, rfl, rfl⟩ : 1 = s ∧ 0 = p ∧ 1 = r := by simpa [Layer.view] using hv
    refine ⟨one_pos, one_pos, fibre_local (fun n _ => some) (fun n junk _ z _ hz => ?_) fun n x hx hxt π _ _ _ _ => ⟨x, rfl, hx, hxt, rfl⟩⟩
    have hz : z.ty = t := hz
    rw [Layer.forward, if_pos hz]
    rfl
  | concatenated t out f =>
    obtain ⟨rfl, rfl, rfl⟩ : 1 = s ∧ 0 = p ∧ 1 = r := by simpa [Layer.view] using hv
    have hl : ∀ r ∈ t, (rep (out r)).size = 2 * (rep r).size := hl
    exact ⟨one_pos, one_pos, fibre_local (fun n _ => E2.concatenated (fun r => (rep r).size) out t f) (fun n junk _ z _ hz => rfl) fun n x hx hxt π _ _ _ _ =>
      concatenated_step (fun r => (rep r).size) out t hl f (fun _ => Mat.one) (fun r hr => (isPerm_one _).signed) (fun r hr => concatMat_one.symm) π x hx hxt⟩
  | reshuffle t perm =>
    obtain ⟨rfl, rfl, rfl⟩ : 1 = s ∧ 0 = p ∧ 1 = r := by simpa [Layer.view] using hv
    have hl : perm.Perm (List.range t.length) := hl
    refine ⟨one_pos, one_pos, fibre_local (fun n _ => E2.reshuffle (fun r => (rep r).size) perm) (fun n junk _ z _ hz => ?_) fun n x hx hxt π _ _ _ _ => ?_⟩
    · have hz : z.ty = t := hz
      rw [Layer.forward, if_pos hz]
    · obtain rfl : x.ty = t := hxt
      exact reshuffle_step (fun r => (rep r).size) (fun _ => Mat.one) π perm x hx hl

end E2
