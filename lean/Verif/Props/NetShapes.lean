import Verif.Model.NetShapes
import Verif.Props.Shapes
import Verif.Props.BatchIndependence

/-!
Declared and computed shapes of networks (C98): for networks of any length whose modules declare their shapes correctly, the shape declared by the
`SequentialModule` is the shape of the tensor it returns.
-/

set_option linter.unusedSectionVars false

namespace E2

variable {El F A I B K : Type} [LinearOrder F] [DecidableEq I] [Fintype B]

/-! ### One module -/

/-- The parameters for which the declared shape is right (C40): no kernel of size zero, floor mode, no padding in the antialiased max pooling, transposed
convolutions which keep the size, and no average or adaptive pooling. -/
def Layer.ShapeOk : Layer F A I → Prop
  | .conv c _ _ _ _ _ => 0 < c.k
  | .convT c _ _ _ _ _ => 0 < c.k ∧ c.s = 1 ∧ 2 * c.p = c.d * (c.k - 1)
  | .maxPool _ k _ _ _ ceil => 0 < k ∧ ceil = false
  | .maxPoolAntialiased _ k _ p ceil fs _ => 0 < k ∧ p = 0 ∧ ceil = false ∧ fs % 2 = 1
  | .avgPool _ _ _ _ _ | .adaptiveAvgPool _ _ | .adaptiveMaxPool _ _ => False
  | .avgPoolAntialiased _ _ _ fs _ => 0 < fs
  | _ => True

theorem axisFloor_int {n p k s d m : ℕ} (hk : 0 < k) (h : convSize n p k s d = some m) : axisFloor p k s d (.int n) = some (.int m) := by
  have := declFloor_of_convSize hk h
  rw [declFloor] at this
  rw [axisFloor]
  push_cast
  rw [this]

theorem declAxes_dims {inS outS b n m : ℕ} {f : Dim → Option Dim} (h : f (.int n) = some (.int m)) :
    declAxes inS outS f f (Shape.mk b inS n n).dims = some (Shape.mk b outS m m).dims := by
  simp only [Shape.dims, declAxes, if_true, h, Option.bind_some, Option.map_some]

/-- The resolution of the result of a module. -/
theorem layer_size {rep : F → Repr El} (l : Layer F A I) {junk : (c n : ℕ) → List (Pix B n → ℝ)} {x y : ETensor F B} (h : l.forward rep junk x = some y) :
    x.x.ty = l.inTy ∧ match l with
      | .conv c _ _ _ _ _ => convSize x.n c.p c.k c.s c.d = some y.n
      | .convT c _ _ _ _ _ => convTSize x.n c.p 0 c.k c.s c.d = some y.n
      | .maxPool _ k s p d ceil => poolSize ceil x.n p k s d = some y.n
      | .maxPoolAntialiased _ k s p ceil fs _ => maxAASize ceil x.n p k s fs = some y.n
      | .avgPool _ k s p ceil => poolSize ceil x.n p k s 1 = some y.n
      | .avgPoolAntialiased _ s p fs _ => convSize x.n p fs s 1 = some y.n
      | .adaptiveAvgPool _ m | .adaptiveMaxPool _ m => y.n = m
      | .upsample _ c => (upSize c.scale c.size x.n).map Prod.fst = some y.n
      | _ => y.n = x.n := by
  have cw : ∀ {n m : ℕ} {t : List F} {g : (Pix B n → ℝ) → Pix B m → ℝ} {x : GTensor F (Pix B n → ℝ)} {y : ETensor F B},
      (channelwise (fun r => (rep r).size) t g x).map (fun y => (⟨m, y⟩ : ETensor F B)) = some y → x.ty = t ∧ y.n = m := by
    intro n m t g x y h
    obtain ⟨z, hz, rfl⟩ := Option.map_eq_some_iff.1 h
    unfold channelwise at hz
    split_ifs at hz with hx
    exact ⟨hx, rfl⟩
  have wr : ∀ {inT outT : List F} {g : PTensor B → Option (PTensor B)} {x y : ETensor F B}, wrapped (fun r => (rep r).size) inT outT g x = some y →
      x.x.ty = inT ∧ ∃ z, g x.plain = some z ∧ y.n = z.n := by
    intro inT outT g x y h
    unfold wrapped at h
    split_ifs at h with hx
    split at h
    · exact absurd h (by simp)
    · rename_i z hz
      obtain ⟨u, -, rfl⟩ := Option.map_eq_some_iff.1 h
      exact ⟨hx, z, hz, rfl⟩
  have bn : ∀ {L S : Type} [DecidableEq L] {M : Normaliser (Pix B x.n) L S} {t : List F} {labels : List L} {contig : L → Bool} {order : List L} {tr : Bool}
      {st : NormState S} {out : List (Pix B x.n → ℝ)},
      (bnModule M (fun r => (rep r).size) t labels contig order tr st out x.x).map (fun r => (⟨x.n, r.2⟩ : ETensor F B)) = some y →
      x.x.ty = t ∧ y.n = x.n := by
    intro L S _ M t labels contig order tr st out h
    obtain ⟨z, hz, rfl⟩ := Option.map_eq_some_iff.1 h
    unfold bnModule at hz
    split_ifs at hz with hx
    exact ⟨hx, rfl⟩
  cases l with
  | conv c basis inT outT w b =>
    simp only [Layer.forward] at h
    split at h
    · exact absurd h (by simp)
    · split at h
      · exact absurd h (by simp)
      · obtain ⟨h1, z, hz, h2⟩ := wr h
        refine ⟨h1, ?_⟩
        rw [runConv] at hz
        split_ifs at hz
        obtain ⟨m, hm, rfl⟩ := Option.map_eq_some_iff.1 hz
        rw [h2]
        exact hm
  | convT c basis inT outT w b =>
    simp only [Layer.forward] at h
    split at h
    · exact absurd h (by simp)
    · split at h
      · exact absurd h (by simp)
      · obtain ⟨h1, z, hz, h2⟩ := wr h
        refine ⟨h1, ?_⟩
        rw [runConvT] at hz
        split_ifs at hz
        obtain ⟨m, hm, rfl⟩ := Option.map_eq_some_iff.1 hz
        rw [h2]
        exact hm
  | pointwise t g => exact cw h
  | norm t g eps bias =>
    obtain ⟨z, hz, rfl⟩ := Option.map_eq_some_iff.1 h
    unfold normNonlin at hz
    split_ifs at hz with hx
    exact ⟨hx, rfl⟩
  | inducedNorm t subs g eps bias =>
    obtain ⟨z, hz, rfl⟩ := Option.map_eq_some_iff.1 h
    unfold inducedNorm at hz
    split_ifs at hz with h1 hx
    exact ⟨hx, rfl⟩
  | gated t trivial supports gates drop g bias =>
    obtain ⟨z, hz, rfl⟩ := Option.map_eq_some_iff.1 h
    unfold gated1 at hz
    by_cases h1 : gated1Check trivial supports t gates = true
    · rw [if_pos h1] at hz
      by_cases h2 : x.x.ty = t
      · exact ⟨h2, rfl⟩
      · rw [if_neg h2] at hz
        exact absurd hz (by simp)
    · rw [if_neg h1] at hz
      exact absurd hz (by simp)
  | innerBatchNorm t momentum eps track w b training st => exact bn h
  | normBatchNorm t momentum eps w training st => exact bn h
  | inducedBatchNorm t sub momentum eps w training st => exact bn h
  | gnormBatchNorm t order momentum eps w b training st => exact bn h
  | maxPool t k s p d ceil =>
    simp only [Layer.forward] at h
    split at h
    · exact absurd h (by simp)
    · rename_i m hm
      obtain ⟨h1, h2⟩ := cw h
      exact ⟨h1, by rw [h2]; exact hm⟩
  | maxPoolAntialiased t k s p ceil fs sigma =>
    simp only [Layer.forward] at h
    split at h
    · exact absurd h (by simp)
    · rename_i n1 hn1
      split at h
      · exact absurd h (by simp)
      · rename_i m hm
        obtain ⟨h1, h2⟩ := cw h
        refine ⟨h1, ?_⟩
        change maxAASize ceil x.n p k s fs = some y.n
        rw [h2, maxAASize, hn1, Option.bind_some, hm]
  | avgPool t k s p ceil =>
    simp only [Layer.forward] at h
    split at h
    · exact absurd h (by simp)
    · rename_i m hm
      obtain ⟨h1, h2⟩ := cw h
      exact ⟨h1, by rw [h2]; exact hm⟩
  | avgPoolAntialiased t s p fs sigma =>
    simp only [Layer.forward] at h
    split at h
    · exact absurd h (by simp)
    · rename_i m hm
      obtain ⟨h1, h2⟩ := cw h
      exact ⟨h1, by rw [h2]; exact hm⟩
  | adaptiveAvgPool t m => exact cw h
  | adaptiveMaxPool t m => exact cw h
  | groupPool t triv =>
    obtain ⟨z, hz, rfl⟩ := Option.map_eq_some_iff.1 h
    unfold groupPooling poolBySize at hz
    split_ifs at hz with hx
    exact ⟨hx, rfl⟩
  | normPool t triv =>
    obtain ⟨z, hz, rfl⟩ := Option.map_eq_some_iff.1 h
    unfold normPool poolBySize at hz
    split_ifs at hz with hx
    exact ⟨hx, rfl⟩
  | inducedNormPool t sub triv =>
    obtain ⟨z, hz, rfl⟩ := Option.map_eq_some_iff.1 h
    unfold inducedNormPool at hz
    split_ifs at hz with hx
    exact ⟨hx.1, rfl⟩
  | mask t S margin =>
    simp only [Layer.forward] at h
    split_ifs at h
    exact cw h
  | upsample t c =>
    simp only [Layer.forward] at h
    split at h
    · exact absurd h (by simp)
    · rename_i r hr
      obtain ⟨h1, h2⟩ := cw h
      refine ⟨h1, ?_⟩
      change (upSize c.scale c.size x.n).map Prod.fst = some y.n
      rw [h2, hr, Option.map_some]
  | dropout t p inplace =>
    obtain ⟨z, hz, rfl⟩ := Option.map_eq_some_iff.1 h
    unfold fieldDropout at hz
    by_cases h2 : x.x.ty = t
    · exact ⟨h2, rfl⟩
    · rw [if_neg h2] at hz
      exact absurd hz (by simp)
  | identity t =>
    simp only [Layer.forward] at h
    split_ifs at h with h2
    obtain rfl := Option.some.inj h
    exact ⟨h2, rfl⟩
  | concatenated t out g =>
    obtain ⟨z, hz, rfl⟩ := Option.map_eq_some_iff.1 h
    unfold concatenated at hz
    split_ifs at hz with h2
    exact ⟨h2, rfl⟩
  | reshuffle t perm =>
    simp only [Layer.forward] at h
    split_ifs at h with h2
    obtain ⟨z, hz, rfl⟩ := Option.map_eq_some_iff.1 h
    exact ⟨h2, rfl⟩

/-- **C98 for one module**: whenever a module returns a tensor, the shape it declares for the shape of the input is the shape of this tensor. -/
theorem c98_module {rep : F → Repr El} (l : Layer F A I) (hl : l.ShapeOk) (ho : l.outTy ≠ []) {junk : (c n : ℕ) → List (Pix B n → ℝ)} (x y : ETensor F B)
    (hx : x.x.WF fun r => (rep r).size) (h : l.forward rep junk x = some y) : l.declared (fun r => (rep r).size) x.dims = some y.dims := by
  obtain ⟨hy, hyt⟩ := layer_typed l ho x y hx h
  obtain ⟨hxt, hn⟩ := layer_size l h
  have hc : x.x.data.length = typeSize (fun r => (rep r).size) l.inTy := by rw [hx.2, hxt]
  have hc' : y.x.data.length = typeSize (fun r => (rep r).size) l.outTy := by rw [hy.2, hyt]
  have same : ∀ {inS outS b n m : ℕ}, m = n → declAxes inS outS some some (Shape.mk b inS n n).dims = some (Shape.mk b outS m m).dims := by
    rintro inS outS b n m rfl
    exact declAxes_dims rfl
  rw [ETensor.dims, ETensor.dims, hc, hc']
  cases l with
  | conv c basis inT outT w b => exact declAxes_dims (axisFloor_int hl hn)
  | convT c basis inT outT w b =>
    obtain ⟨hk, hs, hp⟩ := hl
    refine declAxes_dims (axisFloor_int hk ?_)
    change convTSize x.n c.p 0 c.k c.s c.d = some y.n at hn
    rw [convTSize, hs] at hn
    rw [convSize, hs, if_pos (by split_ifs at hn with h'; omega)]
    split_ifs at hn with h'
    rw [← Option.some.inj hn, Nat.div_one]
    congr 1
    omega
  | pointwise t g => exact same hn
  | norm t g eps bias => exact same hn
  | inducedNorm t subs g eps bias => exact same hn
  | gated t trivial supports gates drop g bias => exact same hn
  | innerBatchNorm t momentum eps track w b training st => exact same hn
  | normBatchNorm t momentum eps w training st => exact same hn
  | inducedBatchNorm t sub momentum eps w training st => exact same hn
  | gnormBatchNorm t order momentum eps w b training st => exact same hn
  | maxPool t k s p d ceil =>
    obtain ⟨hk, rfl⟩ := hl
    exact declAxes_dims (axisFloor_int hk ((poolSize_floor _ _ _ _ _).symm.trans hn))
  | maxPoolAntialiased t k s p ceil fs sigma =>
    obtain ⟨hk, rfl, rfl, hodd⟩ := hl
    obtain ⟨h1, h2⟩ := maxAASize_eq hk hodd hn
    refine declAxes_dims (axisFloor_int hk ?_)
    rw [convSize, if_pos (by omega), h2]
    congr 3
    omega
  | avgPool t k s p ceil => exact hl.elim
  | avgPoolAntialiased t s p fs sigma => exact declAxes_dims (axisFloor_int hl hn)
  | adaptiveAvgPool t m => exact hl.elim
  | adaptiveMaxPool t m => exact hl.elim
  | groupPool t triv => exact same hn
  | normPool t triv => exact same hn
  | inducedNormPool t sub triv => exact same hn
  | mask t S margin =>
    have hn : y.n = x.n := hn
    rw [hn]
    rfl
  | upsample t c =>
    obtain ⟨scale, size, mode, align⟩ := c
    change (upSize scale size x.n).map Prod.fst = some y.n at hn
    cases scale with
    | none =>
      cases size with
      | none => simp [upSize] at hn
      | some m =>
        rw [upSize] at hn
        split_ifs at hn
        · obtain rfl : m = y.n := by simpa using hn
          exact declAxes_dims (f := fun _ => some (.int y.n)) rfl
        · simp at hn
    | some q =>
      cases size with
      | some m => simp [upSize] at hn
      | none =>
        rw [upSize] at hn
        split_ifs at hn with h0
        · refine declAxes_dims (f := axisScale (some q)) ?_
          have hn : ⌊(x.n : ℚ) * q⌋₊ = y.n := by simpa using hn
          rw [axisScale, Option.map_some, ← hn, Int.cast_natCast, Int.natCast_floor_eq_floor]
          by_contra hneg
          rw [Nat.floor_of_nonpos (not_le.1 hneg).le] at h0
          exact absurd h0 (lt_irrefl 0)
        · simp at hn
  | dropout t p inplace => exact same hn
  | identity t =>
    have hn : y.n = x.n := hn
    rw [hn]
    change declIdentity _ _ = _
    rw [declIdentity, if_pos ⟨by simp [Shape.dims], rfl⟩]
    rfl
  | concatenated t out g => exact same hn
  | reshuffle t perm => exact same hn

/-- **The excluded poolings** never declare the shape of the tensor they return. -/
theorem c98_module_wrong {rep : F → Repr El} (l : Layer F A I)
    (hl : (∃ t k s p ceil, l = .avgPool t k s p ceil) ∨ (∃ t m, l = .adaptiveAvgPool t m) ∨ ∃ t m, l = .adaptiveMaxPool t m)
    {junk : (c n : ℕ) → List (Pix B n → ℝ)} (x y : ETensor F B) (hx : x.x.WF fun r => (rep r).size) (h : l.forward rep junk x = some y) :
    l.declared (fun r => (rep r).size) x.dims ≠ some y.dims := by
  obtain ⟨hxt, -⟩ := layer_size l h
  have hc : x.x.data.length = typeSize (fun r => (rep r).size) l.inTy := by rw [hx.2, hxt]
  rcases hl with ⟨t, k, s, p, ceil, rfl⟩ | ⟨t, m, rfl⟩ | ⟨t, m, rfl⟩
  · simp [Layer.declared]
  · rw [ETensor.dims, hc]
    simp [Layer.declared, Layer.inTy, declAxes, ETensor.dims, Shape.dims]
  · rw [ETensor.dims, hc]
    simp [Layer.declared, Layer.inTy, declAxes, ETensor.dims, Shape.dims]

/-! ### Networks -/

section seq

variable {T X S : Type}

/-- A module without its declared shapes. -/
def EMod.unshaped (m : EMod T X S) : EMod T X Unit := ⟨m.inTy, m.outTy, m.fwd, some⟩

def SeqState.unshaped (st : SeqState K T X S) : SeqState K T X Unit := ⟨st.inTy, st.outTy, st.mods.map fun p => (p.1, p.2.unshaped)⟩

theorem dictSet_unshaped [DecidableEq K] (d : List (K × EMod T X S)) (k : K) (m : EMod T X S) :
    dictSet (d.map fun p => (p.1, p.2.unshaped)) k m.unshaped = (dictSet d k m).map fun p => (p.1, p.2.unshaped) := by
  induction d with
  | nil => rfl
  | cons p d ih =>
    obtain ⟨k', m'⟩ := p
    simp only [List.map_cons, dictSet]
    split_ifs
    · rfl
    · rw [ih]
      rfl

theorem addModule_unshaped [DecidableEq K] [DecidableEq T] (st : SeqState K T X S) (k : K) (m : EMod T X S) :
    addModule st.unshaped k m.unshaped = (addModule st k m).map SeqState.unshaped := by
  have e : m.unshaped.inTy = m.inTy := rfl
  unfold addModule
  simp only [SeqState.unshaped, List.length_map, dictSet_unshaped, e]
  split_ifs <;> rfl

theorem addModules_unshaped [DecidableEq K] [DecidableEq T] (l : List (K × EMod T X S)) (st : SeqState K T X S) :
    addModules st.unshaped (l.map fun p => (p.1, p.2.unshaped)) = (addModules st l).map SeqState.unshaped := by
  induction l generalizing st with
  | nil => rfl
  | cons p l ih =>
    obtain ⟨k, m⟩ := p
    simp only [List.map_cons, addModules, addModule_unshaped]
    cases addModule st k m with
    | none => rfl
    | some st' => exact ih st'

theorem runMods_unshaped (l : List (K × EMod T X S)) (x : X) : runMods (l.map fun p => (p.1, p.2.unshaped)) x = runMods l x := by
  induction l generalizing x with
  | nil => rfl
  | cons p l ih =>
    obtain ⟨k, m⟩ := p
    simp only [List.map_cons, runMods]
    change (m.fwd x).bind _ = _
    congr 1
    funext y
    exact ih y

end seq

/-- The forward pass of a network does not depend on the declared shapes. -/
theorem netForward_shaped [DecidableEq K] (rep : F → Repr El) (junk : K → (c n : ℕ) → List (Pix B n → ℝ)) (net : List (K × Layer F A I)) (x : ETensor F B) :
    netForward rep junk net x =
      (seqNew (net.map fun l => (l.1, l.2.toShapedMod rep (junk l.1)))).bind fun st => seqForward (fun x => x.x.ty) st x := by
  have h := addModules_unshaped (net.map fun l => (l.1, l.2.toShapedMod rep (junk l.1))) ⟨none, none, []⟩
  rw [List.map_map] at h
  change seqNew (net.map fun l => (l.1, l.2.toMod rep (junk l.1))) = (seqNew (net.map fun l => (l.1, l.2.toShapedMod rep (junk l.1)))).map SeqState.unshaped at h
  rw [netForward, h]
  cases seqNew (net.map fun l => (l.1, l.2.toShapedMod rep (junk l.1))) with
  | none => rfl
  | some st =>
    simp only [Option.map_some, Option.bind_some, seqForward, SeqState.unshaped, runMods_unshaped]

theorem runMods_declared {rep : F → Repr El} (net : List (K × Layer F A I)) (hl : ∀ l ∈ net, l.2.ShapeOk) (ho : ∀ l ∈ net, l.2.outTy ≠ [])
    (junk : K → (c n : ℕ) → List (Pix B n → ℝ)) (x y : ETensor F B) (hx : x.x.WF fun r => (rep r).size)
    (h : runMods (net.map fun l => (l.1, l.2.toShapedMod rep (junk l.1))) x = some y) :
    (net.map fun l => (l.1, l.2.toShapedMod rep (junk l.1))).foldlM (fun s m => m.2.shape s) x.dims = some y.dims := by
  induction net generalizing x with
  | nil =>
    obtain rfl : x = y := by simpa [runMods] using h
    rfl
  | cons l net ih =>
    simp only [List.map_cons, runMods] at h
    obtain ⟨u, hu, h⟩ := Option.bind_eq_some_iff.1 h
    have e := c98_module l.2 (hl l List.mem_cons_self) (ho l List.mem_cons_self) x u hx hu
    rw [List.map_cons, List.foldlM_cons]
    change (l.2.declared _ x.dims).bind _ = _
    rw [e, Option.bind_some]
    exact ih (fun a ha => hl a (List.mem_cons_of_mem _ ha)) (fun a ha => ho a (List.mem_cons_of_mem _ ha)) u
      (layer_typed l.2 (ho l List.mem_cons_self) x u hx hu).1 h

theorem runMods_wf {rep : F → Repr El} (net : List (K × Layer F A I)) (ho : ∀ l ∈ net, l.2.outTy ≠ []) (junk : K → (c n : ℕ) → List (Pix B n → ℝ)) (x y : ETensor F B)
    (hx : x.x.WF fun r => (rep r).size) (h : runMods (net.map fun l => (l.1, l.2.toShapedMod rep (junk l.1))) x = some y) : y.x.WF fun r => (rep r).size := by
  induction net generalizing x with
  | nil =>
    obtain rfl : x = y := by simpa [runMods] using h
    exact hx
  | cons l net ih =>
    simp only [List.map_cons, runMods] at h
    obtain ⟨u, hu, h⟩ := Option.bind_eq_some_iff.1 h
    exact ih (fun a ha => ho a (List.mem_cons_of_mem _ ha)) u (layer_typed l.2 (ho l List.mem_cons_self) x u hx hu).1 h

/-- **C98**: networks of any length, with modules of all kinds; whenever the network returns a tensor, the shape it declares is the shape of this tensor. -/
theorem c98_network_partial [DecidableEq K] {rep : F → Repr El} (net : List (K × Layer F A I)) (hnd : (net.map Prod.fst).Nodup) (hl : ∀ l ∈ net, l.2.ShapeOk)
    (ho : ∀ l ∈ net, l.2.outTy ≠ []) (junk : K → (c n : ℕ) → List (Pix B n → ℝ)) (x y : ETensor F B) (hx : x.x.WF fun r => (rep r).size)
    (h : netForward rep junk net x = some y) : netDeclared rep junk net x.dims = some y.dims := by
  rw [netForward_shaped] at h
  rw [netDeclared]
  obtain ⟨st, hst, h⟩ := Option.bind_eq_some_iff.1 h
  rw [hst, Option.bind_some]
  obtain ⟨-, h1, -, -⟩ := (c41_built _ (by simpa [List.map_map, Function.comp_def] using hnd)).2 st hst
  rw [seqForward] at h
  split_ifs at h with hty
  obtain ⟨z, hz, h⟩ := Option.bind_eq_some_iff.1 h
  split_ifs at h with hzt
  obtain rfl := Option.some.inj h
  have hok : seqShapeOk (fun r => (rep r).size) st.inTy x.dims = true := by
    rw [← hty]
    simp [seqShapeOk, ETensor.dims, Shape.dims, hx.2]
  rw [seqShape, if_pos hok, h1]
  rw [h1] at hz
  exact runMods_declared net hl ho junk x z hx hz

/-- The same outright: the declared batch size is the one of the input, the declared channels are those of the output type of the last module. -/
theorem c98_channels [DecidableEq K] {rep : F → Repr El} (net : List (K × Layer F A I)) (hnd : (net.map Prod.fst).Nodup) (hl : ∀ l ∈ net, l.2.ShapeOk)
    (ho : ∀ l ∈ net, l.2.outTy ≠ []) (junk : K → (c n : ℕ) → List (Pix B n → ℝ)) (x y : ETensor F B) (hx : x.x.WF fun r => (rep r).size)
    (h : netForward rep junk net x = some y) :
    netDeclared rep junk net [.int (Fintype.card B), .int x.x.data.length, .int x.n, .int x.n] =
      some [.int (Fintype.card B), .int (typeSize (fun r => (rep r).size) ((net.getLast?.map fun l => l.2.outTy).getD [])), .int y.n, .int y.n] := by
  have h0 := c98_network_partial net hnd hl ho junk x y hx h
  rw [ETensor.dims, ETensor.dims, Shape.dims, Shape.dims] at h0
  rw [h0]
  rw [netForward_shaped] at h
  obtain ⟨st, hst, h⟩ := Option.bind_eq_some_iff.1 h
  obtain ⟨-, h1, -, h2⟩ := (c41_built _ (by simpa [List.map_map, Function.comp_def] using hnd)).2 st hst
  rw [seqForward] at h
  split_ifs at h with hty
  obtain ⟨z, hz, h⟩ := Option.bind_eq_some_iff.1 h
  split_ifs at h with hzt
  obtain rfl := Option.some.inj h
  rw [h1] at hz
  have hw : z.x.WF fun r => (rep r).size := runMods_wf net ho junk x z hx hz
  rw [List.getLast?_map, Option.map_map] at h2
  have e : (net.getLast?.map fun l => l.2.outTy) = some z.x.ty := (hzt.trans h2).symm
  rw [e, Option.getD_some, hw.2]

/-- **A network with an adaptive pooling** declares pairs instead of sizes, which the following modules pass on. -/
theorem c98_pairs_wrong {rep : F → Repr El} (t : List F) (ht : t ≠ []) (m : ℕ) (f : ℝ → ℝ) (junk : ℕ → (c n : ℕ) → List (Pix B n → ℝ)) (x : ETensor F B)
    (hx : x.x.WF fun r => (rep r).size) (hxt : x.x.ty = t) :
    ∃ y, netForward (A := A) (I := I) rep junk [(0, .adaptiveAvgPool t m), (1, .pointwise t f)] x = some y ∧ y.n = m ∧
      netDeclared (A := A) (I := I) rep junk [(0, .adaptiveAvgPool t m), (1, .pointwise t f)] x.dims =
        some [.int (Fintype.card B), .int y.x.data.length, .pair m m, .pair m m] := by
  subst hxt
  refine ⟨⟨m, x.x.ty, (x.x.data.map (adaptiveAvg x.n m)).map fun v p => f (v p)⟩, ?_, rfl, ?_⟩
  · simp [netForward, seqNew, addModules, addModule, dictSet, Layer.toMod, Layer.inTy, Layer.outTy, seqForward, runMods, Layer.forward, pointwiseAdaptiveAvg, channelwise,
      mkGT, hx.2, pointwise]
  · simp [netDeclared, seqNew, addModules, addModule, dictSet, Layer.toShapedMod, Layer.inTy, Layer.outTy, seqShape, seqShapeOk, Layer.declared, ETensor.dims, Shape.dims,
      declAxes, hx.2]

/-- **A network with an average pooling** anywhere declares no shape at all, for no input. -/
theorem c98_average_raises [DecidableEq K] {rep : F → Repr El} (net : List (K × Layer F A I)) (hnd : (net.map Prod.fst).Nodup)
    (h : ∃ l ∈ net, ∃ t k s p ceil, l.2 = .avgPool t k s p ceil) (junk : K → (c n : ℕ) → List (Pix B n → ℝ)) (d : List Dim) : netDeclared rep junk net d = none := by
  rw [netDeclared]
  cases hs : seqNew (net.map fun l => (l.1, l.2.toShapedMod rep (junk l.1))) with
  | none => rfl
  | some st =>
    obtain ⟨-, h1, -, -⟩ := (c41_built _ (by simpa [List.map_map, Function.comp_def] using hnd)).2 st hs
    rw [Option.bind_some, seqShape]
    have key : (net.map fun l => (l.1, l.2.toShapedMod rep (junk l.1))).foldlM (fun s m => m.2.shape s) d = none := by
      clear h1 hs hnd
      induction net generalizing d with
      | nil => simp at h
      | cons a net ih =>
        rw [List.map_cons, List.foldlM_cons]
        change (a.2.declared _ d).bind _ = none
        obtain ⟨l, hl, h⟩ := h
        rcases List.mem_cons.1 hl with rfl | hl
        · obtain ⟨t, k, s, p, ceil, h⟩ := h
          rw [h]
          rfl
        · cases a.2.declared (fun r => (rep r).size) d with
          | none => rfl
          | some d' => exact ih ⟨l, hl, h⟩ d'
    split_ifs
    · rw [h1, key]
    · rfl

/-! ### A concrete network -/

/-- The hypotheses of `c98_network_partial` are met: a convolution with stride 2, a norm nonlinearity, a batch normalisation and the norms of the fields, on
images with `5 × 5` pixels; the declared and the computed resolution is 3.  With the average pooling of `exNet` at the end the network still returns a tensor
but declares no shape. -/
example (interp : ℝ → Img → Img) (w : List ℝ) (hw : w.length = (exCfg.exp exRep [0, 1] [1] exBasis).dimension) (f : ℝ → ℝ) (bias : List ℝ) (v : ℕ → ℝ)
    (st : NormState ℝ) (x : GTensor ℕ (Pix (Fin 7) 5 → ℝ)) (hx : x.ty = [0, 1] ∧ x.data.length = 3) (junk : ℕ → (c n : ℕ) → List (Pix (Fin 7) n → ℝ))
    (hj : ∀ k, JunkOk (junk k)) :
    (∃ y, netForward exRep junk ((exNet w f bias v st).take 4) ⟨5, x⟩ = some y ∧
      netDeclared exRep junk ((exNet w f bias v st).take 4) [.int 7, .int 3, .int 5, .int 5] = some [.int 7, .int 1, .int 3, .int 3]) ∧
    (netForward exRep junk (exNet w f bias v st) ⟨5, x⟩).isSome ∧ netDeclared exRep junk (exNet w f bias v st) [.int 7, .int 3, .int 5, .int 5] = none := by
  classical
  have hS := c62_cyclic (F := ℕ) (A := Option (PolarAttr ((ℝ × ℝ) × ℕ) (SBasis.Attr ℤ AngElem))) (I := Option (ℕ × ℕ × ℝ × ℕ)) interp 4 (by omega) exRep exRep_ok exRep_pos
  have hd : (exCfg.exp exRep [0, 1] [1] exBasis).nPairs = 2 := rfl
  have hok4 : NetOk (rotSpace interp 4) exRep (builtRot 4 exRep) (((exNet w f bias v st).take 4).map Prod.snd) 5 3 :=
    ⟨3, ⟨exInput, ⟨_, _, some 2, none, by simp, rfl⟩, Nat.one_pos, ⟨[0, 1], rfl, fun h => absurd (h.symm.trans hd) (by omega), hw⟩, trivial, rfl, by decide⟩,
      3, ⟨rfl, fun r _ => exRep_orth r⟩, 3, ⟨rfl, fun r _ => exRep_orth r⟩, 3, ⟨rfl, ⟨exRep_size 0, fun g hg => (exRep_trivial g hg).2⟩, fun r _ => exRep_orth r⟩, rfl⟩
  have hw3 : (⟨5, x⟩ : ETensor ℕ (Fin 7)).x.WF fun r => (exRep r).size := exRep_wf x hx
  refine ⟨?_, ?_, ?_⟩
  · obtain ⟨y, h1, -, -, h4, -⟩ := c62_network hS ((exNet w f bias v st).take 4) (by simp [exNet]) (by simp [exNet]) (by simp [exNet, Layer.inTy, Layer.outTy]) hok4
      ⟨5, x⟩ rfl hw3 hx.1
    refine ⟨y, h4 junk hj, ?_⟩
    have h := c98_channels ((exNet w f bias v st).take 4) (by simp [exNet]) (by simp [exNet, Layer.ShapeOk, exCfg]) (by simp [exNet, Layer.outTy]) junk ⟨5, x⟩ y hw3 (h4 junk hj)
    rw [h1] at h
    have e : typeSize (fun r => (exRep r).size) ((((exNet w f bias v st).take 4).getLast?.map fun l => l.2.outTy).getD []) = 1 := by
      simp [exNet, Layer.outTy, typeSize, exRep_size]
    rw [e, hx.2] at h
    simpa using h
  · obtain ⟨y, -, -, -, h4, -⟩ := c62_network hS (exNet w f bias v st) (by simp [exNet]) (by simp [exNet]) (by simp [exNet, Layer.inTy, Layer.outTy])
      (exNet_ok interp w hw f bias v st) ⟨5, x⟩ rfl hw3 hx.1
    rw [h4 junk hj]
    rfl
  · exact c98_average_raises _ (by simp [exNet]) ⟨(4, .avgPool [0] 3 1 0 false), by simp [exNet], _, _, _, _, _, rfl⟩ junk _

end E2
