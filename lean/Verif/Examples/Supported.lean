import Verif.Props.ConcatBuild
import Verif.Props.Tags
import Verif.Props.Stride

/-!
Representations of `CyclicGroup(N)`, for every `N`, which meet the hypotheses of the theorems about `supported_nonlinearities` (C73) and about
`ConcatenatedNonLinearity` (C103).
-/

namespace E2

open Mat Real

theorem cyc_ok {N : ℕ} (hN : 0 < N) : GName.Ok (.cyc N) := hN

/-- The trivial representation (label `false`) and the regular one (label `true`). -/
theorem exists_trivial_regular (N : ℕ) (hN : 0 < N) : ∃ (rep : Bool → Repr ℤ) (tags : Bool → List Tag), (∀ cut b, Lib cut (.cyc N) (rep b) (tags b)) ∧
    (rep false).IsTrivial ∧ (rep false).size = 1 ∧ (rep true).size = N ∧ tags false = Cyclic.irrepTags N 0 ∧ tags true = Cyclic.regularTags := by
  obtain ⟨i, hi⟩ : ∃ i, Cyclic.irrep N 0 = some i := by simp [Cyclic.irrep]
  obtain ⟨r, hr, hreg, -⟩ := c12_cyclic_regular N hN
  have hrs : r.size = N := by rw [hreg.size]; simp [Cyclic.elements]
  have hs : i.size = 1 ∧ i.freq = 0 ∧ i.flip = 0 := by
    simp [Cyclic.irrep] at hi
    rw [← hi]
    exact ⟨rfl, rfl, rfl⟩
  refine ⟨fun b => if b then r else i.repr, fun b => if b then Cyclic.regularTags else Cyclic.irrepTags N 0, ?_, ?_, ?_, ?_, rfl, rfl⟩
  · intro cut b
    cases b
    · exact .irrep (cyc_ok hN) (.cyc hi)
    · exact .cycRegular hN hr
  · refine ⟨⟨rfl, fun a _ b _ => rfl⟩, ?_⟩
    intro j hj
    have hj : i = j := by simpa [Irrep.repr] using hj
    exact hj ▸ hs.2
  · exact (Irrep.repr_size i).trans hs.1
  · exact hrs

/-- `c73_is_trivial`. -/
example (N : ℕ) (hN : 0 < N) : ∃ (r : Repr ℤ) (tags : List Tag), Lib true (.cyc N) r tags ∧ r.IsTrivial ∧ r.size = 1 ∧ ∀ e, r.mat e 0 0 = 1 := by
  obtain ⟨rep, tags, hlib, h1, -⟩ := exists_trivial_regular N hN
  exact ⟨rep false, tags false, hlib true false, h1, c73_is_trivial (hlib true false) h1⟩

/-- `c73_supported_disentangle_partial`: the regular representation and its two sets. -/
example (N : ℕ) (hN : 0 < N) : ∃ (r : Repr ℤ), Lib true (.cyc N) r Cyclic.regularTags ∧ r.size = N ∧ IsRep (Cyclic.grp N) r.size r.mat ∧
    TagOk (Cyclic.grp N) r.size r.mat .pointwise := by
  obtain ⟨rep, tags, hlib, -, -, h3, -, h5⟩ := exists_trivial_regular N hN
  have hL := hlib true true
  rw [h5] at hL
  obtain ⟨h, h'⟩ := c73_supported_disentangle_partial hL
  exact ⟨rep true, hL, h3, h, h' .pointwise (by simp [Cyclic.regularTags, regularTags]) trivial⟩

open Classical in
/-- `c73_pointwise`, `c73_norm`, `c73_gated` and `c73_concatenated` for the type with a trivial and a regular field, on images of any size. -/
example (N n : ℕ) (hN : 0 < N) (f : ℝ → ℝ) (eps : ℝ) (bias : List ℝ) (hb : bias.length = 1) : ∃ (rep : Bool → Repr ℤ) (tags : Bool → List Tag),
    (∀ b, Lib true (.cyc N) (rep b) (tags b)) ∧
    (∀ r ∈ [false, true], IsRep (Cyclic.grp N) (2 * (rep r).size) fun e => concatMat ((rep r).mat e)) ∧
    ∀ (e : ℤ), (Cyclic.grp N).isEl e → ∀ (x : GTensor Bool (Pix (Fin 2) n → ℝ)), x.ty = [false, true] → x.data.length = 1 + N → ∀ p : Pix (Fin 2) n → Pix (Fin 2) n,
      (∃ y, pointwise (fun r => (rep r).size) [false, true] f x = some y ∧
        pointwise (fun r => (rep r).size) [false, true] f (x.transform (fun r => (rep r).size) (fun r => (rep r).mat e) p)
          = some (y.transform (fun r => (rep r).size) (fun r => (rep r).mat e) p)) ∧
      (∃ y, normNonlin (fun r => (rep r).size) [false, true] f eps bias (List.replicate (1 + N) 0) x = some y ∧
        normNonlin (fun r => (rep r).size) [false, true] f eps bias (List.replicate (1 + N) 1) (x.transform (fun r => (rep r).size) (fun r => (rep r).mat e) p)
          = some (y.transform (fun r => (rep r).size) (fun r => (rep r).mat e) p)) ∧
      ∃ y, gated1 (fun r => (rep r).size) (fun r => decide (rep r).IsTrivial) (fun r => decide (Tag.gated ∈ tags r)) [false, true] [true, false] true f bias
            (List.replicate N 0) x = some y ∧
        gated1 (fun r => (rep r).size) (fun r => decide (rep r).IsTrivial) (fun r => decide (Tag.gated ∈ tags r)) [false, true] [true, false] true f bias
            (List.replicate N 1) (x.transform (fun r => (rep r).size) (fun r => (rep r).mat e) p)
          = some (y.transform (fun r => (rep r).size) (fun r => (rep r).mat e) p) := by
  obtain ⟨rep, tags, hlib, h1, h2, h3, h4, h5⟩ := exists_trivial_regular N hN
  have hl := hlib true
  have e0 : typeSize (fun r => (rep r).size) [false, true] = 1 + N := by simp [typeSize, h2, h3]
  refine ⟨rep, tags, hl, fun r hr => ((c73_concatenated (P := Unit) (g := .cyc N) rep tags hl [false, true] (by
    simp [accepts, h4, h5, Cyclic.irrepTags, Cyclic.regularTags, regularTags])).1 r hr).2, fun e he x hx hxl p => ?_⟩
  have hw : x.WF fun r => (rep r).size := ⟨by simp [hx], by rw [hx, e0]; exact hxl⟩
  refine ⟨?_, ?_, ?_⟩
  · obtain ⟨y, a, -, b⟩ := c73_pointwise (g := .cyc N) rep tags hl [false, true] (by simp [accepts, h4, h5, Cyclic.irrepTags, Cyclic.regularTags, regularTags]) f e he p x hw hx
    exact ⟨y, a, b⟩
  · exact c73_norm (g := .cyc N) rep tags hl [false, true] (by simp [accepts, h4, h5, Cyclic.irrepTags, Cyclic.regularTags, regularTags]) f eps bias e he p _ _
      (by simp [e0]) (by simp [e0]) x hw hx
  · exact c73_gated (g := .cyc N) rep tags hl [false, true] [true, false] true (by
      simp [gated1Check, h1, h5, Cyclic.regularTags, regularTags]) f bias (by simpa using hb) e p _ _
      (by simp [gated1Out, typeSize, h3]) (by simp [gated1Out, typeSize, h3]) x hw hx

/-- `c103_returns` and `c103_transform`: the regular representation is doubled, to `2 * N` channels which are permuted. -/
example (N : ℕ) (hN : 0 < N) : ∃ (r r' : Repr ℤ) (solve : List (Irrep ℤ) → ℕ → ℝ), Cyclic.regular N = some r ∧
    concatRepr (.cyc N) id solve r = some r' ∧ r'.size = 2 * N ∧ IsRep (Cyclic.grp N) r'.size r'.mat ∧
    ∀ e, (Cyclic.grp N).isEl e → IsDoubled r.size (r.mat e) (r'.mat e) ∧ IsPerm r'.size (r'.mat e) := by
  obtain ⟨r, hr, hreg, -⟩ := c12_cyclic_regular N hN
  have hL : Lib false (.cyc N) r Cyclic.regularTags := .cycRegular hN hr
  obtain ⟨s, hs⟩ := exists_goodSolver (.cyc N) r
  have hsp : ∀ e, (Cyclic.grp N).isEl e → IsSignedPerm r.size (r.mat e) :=
    (c73_supported_partial hL).2 .concatenated (by simp [Cyclic.regularTags, regularTags])
  obtain ⟨r', h⟩ := c103_returns (g := .cyc N) (cyc_ok hN) trivial (srt := id) (fun l => List.Perm.refl l) (lib_good hL).isRep hsp hs
  obtain ⟨-, -, -, h4, -, h6, h7⟩ := c103_transform (g := .cyc N) (cyc_ok hN) (fun l => List.Perm.refl l) (lib_good hL).isRep h
  exact ⟨r, r', s, hr, h, by rw [h4, hreg.size]; simp [Cyclic.elements], h6, h7⟩

/-- `c103_continuous`: the trivial representation of `SO2`. -/
example (srt : List (Irrep ℝ × ℤ) → List (Irrep ℝ × ℤ)) (solve : List (Irrep ℝ) → ℕ → ℝ) :
    concatRepr .so2 srt solve (SO2.irrep 0).repr = none :=
  c103_continuous (g := .so2) (fun h => h) srt solve _

/-- `c103_invertible`: the rotation by a right angle is accepted, an invertible matrix without zeros is not. -/
example : (∃ M, concatElement 2 (m2 0 (-1) 1 0) = some M ∧ IsPerm 4 M) ∧ concatElement 2 (m2 1 1 (-1) 1) = none := by
  have h1 : IsInv 2 (m2 0 (-1) 1 0) (m2 0 1 (-1) 0) := by
    constructor <;> (intro i hi j hj; interval_cases i <;> interval_cases j <;> simp [Mat.mul, Finset.sum_range_succ, m2, Mat.one])
  have h2 : IsInv 2 (m2 1 1 (-1) 1) (m2 (1 / 2) (-1 / 2) (1 / 2) (1 / 2)) := by
    constructor <;> (intro i hi j hj; interval_cases i <;> interval_cases j <;> norm_num [Mat.mul, Finset.sum_range_succ, m2, Mat.one])
  constructor
  · obtain ⟨M, hM⟩ := (c103_invertible h1).1.2 ⟨Equiv.swap 0 1, fun i => if i = 0 then -1 else 1, fun i => by fin_cases i <;> simp, fun i j => by
      fin_cases i <;> fin_cases j <;> simp [m2]⟩
    exact ⟨M, hM, (c103_invertible h1).2 M hM⟩
  · by_contra h
    obtain ⟨M, hM⟩ := Option.ne_none_iff_exists'.1 h
    obtain ⟨σ, ε, -, hσ⟩ := (c103_invertible h2).1.1 ⟨M, hM⟩
    have a := hσ 0 0
    have b := hσ 0 1
    simp [m2] at a b
    by_cases h0 : (0 : Fin 2) = σ 0
    · rw [← h0] at b
      simp at b
    · rw [if_neg h0] at a
      exact one_ne_zero a

/-- `c103_type`: each of the four fields gets the representation of its label. -/
example (tr : Bool → Option ℕ) : concatType [true, false] [false, true, true, false] tr = [false, true, true, false].mapM tr :=
  c103_type tr _ _ (by decide) (by simp)

/-- `c103_equivariant`: the module for two regular fields of `CyclicGroup(N)`, with ReLU. -/
example (N n : ℕ) (hN : 0 < N) : ∃ (rep : Bool → Repr ℤ) (outs : List (Repr ℤ)) (f : ℝ → ℝ) (solve : Bool → List (Irrep ℤ) → ℕ → ℝ),
    concatInit (.cyc N) id solve rep (fun _ => Cyclic.regularTags) [false] [false, false] "c_relu" = some (outs, f) ∧ (rep false).size = N ∧
    ∀ (e : ℤ), (Cyclic.grp N).isEl e → ∀ (x : GTensor Bool (Pix (Fin 3) n → ℝ)), x.ty = [false, false] → x.data.length = N + N → ∀ p : Pix (Fin 3) n → Pix (Fin 3) n,
      ∃ y, concatenated (fun r => (rep r).size) (fun _ => true) [false, false] f x = some y ∧ y.ty = [true, true] ∧
        concatenated (fun r => (rep r).size) (fun _ => true) [false, false] f (x.transform (fun r => (rep r).size) (fun r => (rep r).mat e) p)
          = some (y.transform (fun r => (rep r).size) (fun r => (rep r).mat e) p) := by
  obtain ⟨r, hr, hreg, -⟩ := c12_cyclic_regular N hN
  have hrs : r.size = N := by rw [hreg.size]; simp [Cyclic.elements]
  have hL : Lib false (.cyc N) r Cyclic.regularTags := .cycRegular hN hr
  obtain ⟨s, hs⟩ := exists_goodSolver (.cyc N) r
  have hsp : ∀ e, (Cyclic.grp N).isEl e → IsSignedPerm r.size (r.mat e) :=
    (c73_supported_partial hL).2 .concatenated (by simp [Cyclic.regularTags, regularTags])
  obtain ⟨r', h⟩ := c103_returns (g := .cyc N) (cyc_ok hN) trivial (srt := id) (fun l => List.Perm.refl l) (lib_good hL).isRep hsp hs
  let rep : Bool → Repr ℤ := fun b => if b then r' else r
  have h0 : concatInit (.cyc N) id (fun _ => s) rep (fun _ => Cyclic.regularTags) [false] [false, false] "c_relu" = some ([r', r'], fun x => max x 0) := by
    have e : concatRepr (.cyc N) id s (rep false) = some r' := h
    simp [concatInit, accepts, Cyclic.regularTags, regularTags, concatType, e, concatFunction]
  refine ⟨rep, _, _, _, h0, hrs, fun e he x hx hxl p => ?_⟩
  exact c103_equivariant (g := .cyc N) (cyc_ok hN) (fun l => List.Perm.refl l) (fun b hb => by
    simp at hb
    subst hb
    exact (lib_good hL).isRep) (by simp) (by simp) h0 (fun _ => true) rfl e he p x ⟨by simp [hx], by rw [hx, hxl]; simp [typeSize, rep, hrs]⟩ hx

/-- `c73_induced_norm`: representations of `O(2)` induced from the irreps of frequency 3 of `SO(2)`, with two subfields of size 2. -/
example (n : ℕ) (f : ℝ → ℝ) (eps : ℝ) (bias : List ℝ) : ∃ (r : Repr (ℤ × ℝ)) (tags : List Tag), r.size = 4 ∧ Lib false .o2 r tags ∧ inducedNormSizes tags = [2] ∧
    ∀ e : ℤ × ℝ, O2.grp.isEl e → ∀ (x : GTensor Unit (Pix (Fin 3) n → ℝ)), x.ty = [(), ()] → x.data.length = 8 → ∀ p : Pix (Fin 3) n → Pix (Fin 3) n,
      ∃ y, inducedNorm (fun _ => r.size) (fun _ => inducedNormSizes tags) [(), ()] f eps bias (List.replicate 8 0) x = some y ∧
        inducedNorm (fun _ => r.size) (fun _ => inducedNormSizes tags) [(), ()] f eps bias (List.replicate 8 1)
            (x.transform (fun _ => r.size) (fun _ => r.mat e) p)
          = some (y.transform (fun _ => r.size) (fun _ => r.mat e) p) := by
  obtain ⟨r, hr, h, -⟩ := c67_induced 3
  have hs : r.size = 4 := by rw [h.size]; rfl
  have hL : Lib false .o2 r (inducedTags (SO2.irrep 3).size (SO2.irrepTags 3)) := .induced (show GName.Ok .o2 from trivial) (.so2 3) (.o2 hr)
  have hn : inducedNormSizes (inducedTags (SO2.irrep 3).size (SO2.irrepTags 3)) = [2] := by
    simp [inducedTags, SO2.irrepTags, inducedNormSizes, SO2.irrep, Tag.isInducedNorm, Tag.isInducedGated]
  refine ⟨r, _, hs, hL, hn, fun e he x hx hxl p => ?_⟩
  exact c73_induced_norm (g := .o2) (fun _ : Unit => r) (fun _ => inducedTags (SO2.irrep 3).size (SO2.irrepTags 3)) (fun _ => hL) [(), ()]
    (by simp [inducedNormCheck, hn, hs, subSize]) f eps bias e he p _ _ (by simp [typeSize, hs]) (by simp [typeSize, hs]) x
    ⟨by simp [hx], by rw [hx, hxl]; simp [typeSize, hs]⟩ hx

/-- `c93_avgpool_antialiased`: windows of size 3 with stride 2 fit on 7 pixels and not on 8. -/
example (sigma : ℝ) :
    (∀ v : Pix Unit 7 → ℝ, depthConv 7 0 3 2 3 (gaussFilter 3 sigma) (v ∘ Pix.move ⟨false, true, true⟩)
      = depthConv 7 0 3 2 3 (gaussFilter 3 sigma) v ∘ Pix.move ⟨false, true, true⟩) ∧
    ¬ ∀ v : Pix Unit 8 → ℝ, depthConv 8 0 3 2 3 (gaussFilter 3 sigma) (v ∘ Pix.move ⟨false, true, true⟩)
      = depthConv 8 0 3 2 3 (gaussFilter 3 sigma) v ∘ Pix.move ⟨false, true, true⟩ := by
  rw [c93_avgpool_antialiased (by norm_num) ⟨0, by norm_num, by norm_num, by norm_num⟩ _ ⟨rfl, Or.inl rfl⟩,
    c93_avgpool_antialiased (by norm_num) ⟨0, by norm_num, by norm_num, by norm_num⟩ _ ⟨rfl, Or.inl rfl⟩]
  simp [Covers]

end E2
