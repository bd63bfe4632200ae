import Verif.Model.DisentangleModule
import Verif.Lemmas.Invariant
import Verif.Lemmas.Nonlin
import Verif.Props.Disentangle
import Verif.Props.GNorm

/-!
# C56: the module which disentangles the fields is an equivariant change of basis
-/

set_option linter.unusedSectionVars false

namespace E2

open Mat

variable {R R' N P : Type}

/-! ## Specification -/

/-- The name determines the representation, among those of the type. -/
def NamesOk (name : R → N) (t : List R) : Prop := ∀ r ∈ t, ∀ q ∈ t, name r = name q → r = q

/-- The contract of `disentangle` at one element of the group, with matrix `ρ r` in the representation `r` and `ρ' s` in the resulting
ones: `cob · ρ(g) = (⊕ₛ ρ'ₛ(g)) · cob`. -/
def DisAt (sz : R → ℕ) (sz' : R' → ℕ) (dis : R → Mat × List R') (ρ : R → Mat) (ρ' : R' → Mat) (r : R) : Prop :=
  MEq (sz r) (sz r) (Mat.mul (sz r) (bdiag ((dis r).2.map fun s => (sz' s, ρ' s))) (dis r).1) (Mat.mul (sz r) (dis r).1 (ρ r))

/-- The resulting representations have together the size of the given one. -/
def DisSize (sz : R → ℕ) (sz' : R' → ℕ) (dis : R → Mat × List R') (r : R) : Prop := ((dis r).2.map sz').sum = sz r

theorem byName_eq [DecidableEq N] (name : R → N) (t uniq : List R) (hu : ∀ r, r ∈ uniq ↔ r ∈ t) (hn : NamesOk name t) {r : R} (hr : r ∈ t) :
    byName name uniq (name r) = some r := by
  have key : ∀ (l : List R) (d : N → Option R), (∀ q ∈ l, q ∈ t) → (d (name r) = some r ∨ r ∈ l) →
      (l.foldl (fun d r k => if k = name r then some r else d k) d) (name r) = some r := by
    intro l
    induction l with
    | nil => intro d _ h; simpa using h
    | cons q l ih =>
      intro d hl h
      rw [List.foldl_cons]
      apply ih _ fun p hp => hl p (by simp [hp])
      by_cases hq : name r = name q
      · left
        rw [hn r hr q (hl q (by simp)) hq]
        simp
      · rcases h with h | h
        · left; simp [hq, h]
        · right
          rcases List.mem_cons.1 h with rfl | h
          · exact absurd rfl hq
          · exact h
  exact key uniq _ (fun q hq => (hu q).1 hq) (Or.inr ((hu r).2 hr))

theorem disOutType_eq [DecidableEq N] (name : R → N) (dis : R → Mat × List R') (t uniq : List R) (hu : ∀ r, r ∈ uniq ↔ r ∈ t)
    (hn : NamesOk name t) : disOutType name dis uniq t = some (t.flatMap fun r => (dis r).2) := by
  have h : ∀ l : List R, (∀ r ∈ l, r ∈ t) →
      (l.mapM fun r => (byName name uniq (name r)).map fun q => (dis q).2) = some (l.map fun r => (dis r).2) := by
    intro l
    induction l with
    | nil => intro _; rfl
    | cons r l ih =>
      intro hl
      rw [List.mapM_cons, byName_eq name t uniq hu hn (hl r (by simp)), ih fun q hq => hl q (by simp [hq])]
      rfl
  rw [disOutType, h t fun _ h => h]
  rfl

theorem typeSize_flatMap (sz : R → ℕ) (sz' : R' → ℕ) (dis : R → Mat × List R') (t : List R) (h : ∀ r ∈ t, DisSize sz sz' dis r) :
    typeSize sz' (t.flatMap fun r => (dis r).2) = typeSize sz t := by
  induction t with
  | nil => rfl
  | cons r t ih =>
    have := ih fun q hq => h q (by simp [hq])
    have h1 := h r (by simp)
    rw [DisSize] at h1
    rw [typeSize] at this ⊢
    rw [List.flatMap_cons, List.map_append, List.sum_append, this, h1]
    simp [typeSize]

/-- **C56.** What the module computes: on each field of the input its change of basis, and nothing else; the channels of the output are
those of the fields of the input in the same order. -/
theorem c56_forward_partial [DecidableEq R] [DecidableEq N] (sz : R → ℕ) (sz' : R' → ℕ) (name : R → N) (dis : R → Mat × List R')
    (uniq t : List R) (ht : t ≠ []) (hpos : ∀ r ∈ t, 0 < sz r) (hu : ∀ r, r ∈ uniq ↔ r ∈ t) (hn : NamesOk name t)
    (hd : ∀ r ∈ t, DisSize sz sz' dis r) (junk : List (P → ℝ)) (hj : junk.length = typeSize sz t) (x : GTensor R (P → ℝ)) (hx : x.WF sz)
    (hxt : x.ty = t) :
    ∃ y, disForward sz sz' name dis uniq t junk x = some y ∧ y.WF sz' ∧ y.ty = t.flatMap (fun r => (dis r).2) ∧
      chunks (t.map sz) y.data = List.zipWith (fun r fld => chAct (sz r) (dis r).1 fld) t (x.fields sz) := by
  subst hxt
  have hlen : (x.ty.map name).length = x.ty.length := by simp
  have hlen' : (x.ty.map name).length = (x.ty.map sz).length := by simp
  have hout : disOutType name dis uniq x.ty = some (x.ty.flatMap fun r => (dis r).2) := disOutType_eq name dis x.ty uniq hu hn
  have hne : (x.ty.flatMap fun r => (dis r).2) ≠ [] := by
    intro h0
    obtain ⟨r, hr⟩ := List.exists_mem_of_ne_nil _ ht
    rw [List.flatMap_eq_nil_iff] at h0
    have h1 := hd r hr
    rw [DisSize, h0 r hr] at h1
    have := hpos r hr
    simp at h1
    omega
  have hsize : ∀ r ∈ x.ty, ((byName name uniq (name r)).map sz).getD 0 = sz r := fun r hr => by
    rw [byName_eq name x.ty uniq hu hn hr]; rfl
  have hsi : ∀ (c : ℕ) l, (x.ty.map name)[c]? = some l → (x.ty.map sz)[c]? = some (((byName name uniq l).map sz).getD 0) := by
    intro c l hc
    rw [List.getElem?_map, Option.map_eq_some_iff] at hc
    obtain ⟨r, hr, rfl⟩ := hc
    rw [List.getElem?_map, hr, Option.map_some, hsize r (List.mem_of_getElem? hr)]
  have hcheck : ∀ n ∈ x.ty.map name, (labelChannels (x.ty.map name) (x.ty.map sz) n).length
      = labelCount (x.ty.map name) n * ((byName name uniq n).map sz).getD 0 := by
    intro n _
    rw [show labelChannels (x.ty.map name) (x.ty.map sz) n = _ from (labelIdx_eq (x.ty.map name) (x.ty.map sz) hlen' n).1, chanIdx,
      List.length_flatMap, ← posOf_length_eq]
    have h : (posOf (x.ty.map name) n).map (fun c => (List.range' (offset (x.ty.map sz) c) ((x.ty.map sz)[c]?.getD 0)).length)
        = List.replicate (posOf (x.ty.map name) n).length (((byName name uniq n).map sz).getD 0) := by
      rw [List.eq_replicate_iff]
      refine ⟨by simp, fun b hb => ?_⟩
      obtain ⟨c, hc, rfl⟩ := List.mem_map.1 hb
      rw [hsi c n (mem_posOf.1 hc)]
      simp
    rw [h]
    simp
  have hflag : ∀ l ∈ firstKeys (x.ty.map name), FlagOk (((indexesFromLabels sz x.ty (x.ty.map name) l).map fun e => e.1).getD false)
      (labelChannels (x.ty.map name) (x.ty.map sz) l) := by
    intro l hl
    obtain ⟨b, h1, h2, -⟩ := flagOk_indexes sz x.ty hpos (x.ty.map name) hlen ((mem_firstKeys _ _).1 hl)
    rw [h1, show labelChannels (x.ty.map name) (x.ty.map sz) l = _ from (labelIdx_eq (x.ty.map name) (x.ty.map sz) hlen' l).1]
    exact h2
  obtain ⟨y, hy1, hy2, hy3⟩ := fieldLoop_spec x.data (x.ty.map name) (x.ty.map sz) (x.ty.map sz) hx.2 hlen' hlen'
    (fun n => ((indexesFromLabels sz x.ty (x.ty.map name) n).map fun e => e.1).getD false)
    (fun n => ((byName name uniq n).map sz).getD 0) (fun n => ((byName name uniq n).map sz).getD 0)
    (fun n _ fld => chAct (((byName name uniq n).map sz).getD 0) (((byName name uniq n).map fun r => (dis r).1).getD fun _ _ => 0) fld)
    (firstKeys (x.ty.map name)) (firstKeys_nodup _)
    (fun l hl => by
      obtain ⟨r, hr, rfl⟩ := List.mem_map.1 ((mem_firstKeys _ _).1 hl)
      rw [hsize r hr]; exact hpos r hr)
    hsi hsi hflag hflag (fun l _ k fld _ => chAct_length _ _ _) junk hj
  have hyl : y.length = typeSize sz' (x.ty.flatMap fun r => (dis r).2) := by rw [typeSize_flatMap sz sz' dis x.ty hd]; exact hy2
  refine ⟨⟨x.ty.flatMap fun r => (dis r).2, y⟩, ?_, ⟨hne, hyl⟩, rfl, ?_⟩
  · rw [disForward, hout, Option.bind_some, mkType, if_neg hne]
    simp only [if_true]
    rw [if_pos hcheck, hy1]
    simp only [mkGT, if_pos hyl]
  · apply List.ext_getElem?
    intro c
    rcases hr : x.ty[c]? with _ | r
    · have h1 : x.ty.length ≤ c := List.getElem?_eq_none_iff.1 hr
      rw [List.getElem?_eq_none (by rw [chunks_length]; simpa using h1), List.getElem?_eq_none (by simp; omega)]
    · have hc : c < x.ty.length := (List.getElem?_eq_some_iff.1 hr).1
      have hmem : c ∈ fieldOrder (x.ty.map name) (firstKeys (x.ty.map name)) :=
        (fieldOrder_perm (x.ty.map name) _ (firstKeys_nodup _) fun l hl => (mem_firstKeys _ _).2 hl).mem_iff.2 (by simpa using hc)
      obtain ⟨j, hj⟩ := List.mem_iff_getElem?.1 hmem
      obtain ⟨l, hl, h⟩ := hy3 j c hj
      have hl' : l = name r := by simpa [hr] using hl.symm
      subst hl'
      have hcf : c < (x.fields sz).length := by rw [GTensor.fields_length]; exact hc
      rw [h, List.getElem?_zipWith, hr]
      change ((x.fields sz)[c]?).map _ = _
      rw [List.getElem?_eq_getElem hcf]
      simp only [Option.map_some, byName_eq name x.ty uniq hu hn (List.mem_of_getElem? hr), Option.getD_some]

/-- The output is the block diagonal change of basis applied to the channels. -/
theorem chAct_of_chunks (sz : R → ℕ) (Q : R → Mat) (t : List R) (d y : List (P → ℝ)) (hy : y.length = typeSize sz t)
    (h : chunks (t.map sz) y = List.zipWith (fun r fld => chAct (sz r) (Q r) fld) t (chunks (t.map sz) d)) :
    y = chAct (typeSize sz t) (bdiag (t.map fun r => (sz r, Q r))) d := by
  have e : (t.map fun r => (sz r, Q r)).map Prod.fst = t.map sz := by rw [List.map_map]; rfl
  have h1 := chunks_chAct (t.map fun r => (sz r, Q r)) d
  rw [e] at h1
  refine eq_of_chunks (s := t.map sz) hy (chAct_length _ _ _) ?_
  rw [typeSize, h1, h, List.zipWith_map_left]

/-- **C56.** `DisentangleModule` is equivariant: transforming the input by an element of the group (matrices `ρ`, pixels moved by `π`)
transforms the output in the same way, in the representations of the output type. -/
theorem c56_equivariant_partial [DecidableEq R] [DecidableEq N] (sz : R → ℕ) (sz' : R' → ℕ) (name : R → N) (dis : R → Mat × List R')
    (uniq t : List R) (ht : t ≠ []) (hpos : ∀ r ∈ t, 0 < sz r) (hu : ∀ r, r ∈ uniq ↔ r ∈ t) (hn : NamesOk name t)
    (hd : ∀ r ∈ t, DisSize sz sz' dis r) (ρ : R → Mat) (ρ' : R' → Mat) (hat : ∀ r ∈ t, DisAt sz sz' dis ρ ρ' r) (π : P → P)
    (junk junk' : List (P → ℝ)) (hj : junk.length = typeSize sz t) (hj' : junk'.length = typeSize sz t) (x : GTensor R (P → ℝ))
    (hx : x.WF sz) (hxt : x.ty = t) :
    ∃ y, disForward sz sz' name dis uniq t junk x = some y ∧
      disForward sz sz' name dis uniq t junk' (x.transform sz ρ π) = some (y.transform sz' ρ' π) := by
  obtain ⟨y, h1, h2, h3, h4⟩ := c56_forward_partial sz sz' name dis uniq t ht hpos hu hn hd junk hj x hx hxt
  obtain ⟨y', h1', h2', h3', h4'⟩ := c56_forward_partial sz sz' name dis uniq t ht hpos hu hn hd junk' hj' (x.transform sz ρ π)
    (transform_wf ρ π hx) hxt
  refine ⟨y, h1, h1'.trans (congrArg some ?_)⟩
  have hs := typeSize_flatMap sz sz' dis t hd
  have hyl : y.data.length = typeSize sz t := by rw [h2.2, h3, hs]
  have hyl' : y'.data.length = typeSize sz t := by rw [h2'.2, h3', hs]
  have e1 : y.data = _ := chAct_of_chunks sz (fun r => (dis r).1) t x.data y.data hyl (by rw [h4, GTensor.fields, hxt])
  have e2 : y'.data = _ := chAct_of_chunks sz (fun r => (dis r).1) t (x.transform sz ρ π).data y'.data hyl'
    (by rw [h4', GTensor.fields]; rw [show (x.transform sz ρ π).ty = t from hxt])
  have key : MEq (typeSize sz t) (typeSize sz t)
      (Mat.mul (typeSize sz t) (bdiag ((t.flatMap fun r => (dis r).2).map fun s => (sz' s, ρ' s))) (bdiag (t.map fun r => (sz r, (dis r).1))))
      (Mat.mul (typeSize sz t) (bdiag (t.map fun r => (sz r, (dis r).1))) (bdiag (t.map fun r => (sz r, ρ r)))) := by
    have f1 : bdiag ((t.flatMap fun r => (dis r).2).map fun s => (sz' s, ρ' s))
        = bdiag (t.map fun r => (sz r, bdiag ((dis r).2.map fun s => (sz' s, ρ' s)))) := by
      rw [List.flatMap_def, List.map_flatten, ← bdiag_flatten, List.map_map, List.map_map]
      congr 1
      refine List.map_congr_left fun r hr => ?_
      have := hd r hr
      rw [DisSize] at this
      simp only [Function.comp, total, List.map_map, Prod.mk.injEq, and_true]
      exact this
    rw [f1]
    have g1 := bdiag_mul sz (fun r => bdiag ((dis r).2.map fun s => (sz' s, ρ' s))) (fun r => (dis r).1) t
    have g2 := bdiag_mul sz (fun r => (dis r).1) ρ t
    rw [typeSize]
    exact MEq.of_eq (g1.trans ((bdiag_congr sz _ _ t fun r hr => hat r hr).trans g2.symm))
  have hd1 : (y.transform sz' ρ' π).data
      = chAct (typeSize sz t) (bdiag ((t.flatMap fun r => (dis r).2).map fun s => (sz' s, ρ' s))) (y.data.map fun v => v ∘ π) := by
    rw [GTensor.transform, GTensor.act, chAct_comp, h3, hs]
  have hd2 : (x.transform sz ρ π).data
      = chAct (typeSize sz t) (bdiag (t.map fun r => (sz r, ρ r))) (x.data.map fun v => v ∘ π) := by
    rw [GTensor.transform, GTensor.act, chAct_comp, hxt]
  have hty : y'.ty = (y.transform sz' ρ' π).ty := by rw [h3']; exact h3.symm
  have hdata : y'.data = (y.transform sz' ρ' π).data := by
    rw [e2, hd2, hd1, e1, chAct_comp, chAct_mul, chAct_mul]
    exact chAct_MEq key.symm _
  cases y'
  simp only at hty hdata
  subst hty
  subst hdata
  rfl

variable {El : Type}

/-- The change of basis and the representations which `disentangle` returns, for correct answers `comp` of `connected_components`. -/
noncomputable def disOf (comp : Repr El → ℕ × (ℕ → ℕ)) (r : Repr El) : Mat × List (Repr El) :=
  (r.disentangle (comp r).1 (comp r).2).getD (fun _ _ => 0, [])

theorem disOf_ok (comp : Repr El → ℕ × (ℕ → ℕ)) (r : Repr El) (hr : r.WF)
    (hc : IsComponents (r.irreps.length + r.size) r.entangled (comp r).1 (comp r).2) :
    DisSize Repr.size Repr.size (disOf comp) r ∧ (∀ g, DisAt Repr.size Repr.size (disOf comp) (fun s => s.mat g) (fun s => s.mat g) r) ∧
      IsInv r.size (disOf comp r).1 (tr (disOf comp r).1) := by
  obtain ⟨Q, reps, σ, h1, h2, h3, h4, h5, h6, h7⟩ := c11_disentangle r hr _ _ hc
  have e : disOf comp r = (Q, reps) := by rw [disOf, h1]; rfl
  refine ⟨?_, ?_, ?_⟩
  · rw [DisSize, e, ← h5, Repr.directsum_size]
  · intro g
    rw [DisAt, e]
    have h8 := h7 g
    rw [Repr.directsum_mat] at h8
    refine (MEq.mul h8 (MEq.refl Q)).trans ?_
    rw [conj, mul_assoc]
    refine (MEq.mul (MEq.refl _) h3.2).trans ?_
    exact MEq_mul_one _ _ _
  · rw [e]; exact h3

open Classical in
/-- **C56.** With the representations themselves: for every field type made of representations whose names differ when they differ, and
every correct answer of `connected_components`, the module of `disentangle` succeeds on every tensor of the type, its output
transforms, for every element `g` and every motion of the pixels, in the representations which `disentangle` returns, and the change of
basis which it applies to a field of the representation `r` is orthogonal. -/
theorem c56_disentangle_partial [DecidableEq N] (comp : Repr El → ℕ × (ℕ → ℕ)) (name : Repr El → N) (uniq t : List (Repr El)) (ht : t ≠ [])
    (hwf : ∀ r ∈ t, r.WF ∧ 0 < r.size) (hu : ∀ r, r ∈ uniq ↔ r ∈ t) (hn : NamesOk name t)
    (hc : ∀ r ∈ t, IsComponents (r.irreps.length + r.size) r.entangled (comp r).1 (comp r).2)
    (junk : List (P → ℝ)) (hj : junk.length = typeSize Repr.size t) (x : GTensor (Repr El) (P → ℝ)) (hx : x.WF Repr.size) (hxt : x.ty = t) :
    ∃ y, disForward Repr.size Repr.size name (disOf comp) uniq t junk x = some y ∧
      y.ty = t.flatMap (fun r => (disOf comp r).2) ∧
      (∀ g (π : P → P), disForward Repr.size Repr.size name (disOf comp) uniq t junk
        (x.transform Repr.size (fun r => r.mat g) π) = some (y.transform Repr.size (fun r => r.mat g) π)) ∧
      chunks (t.map Repr.size) y.data = List.zipWith (fun r fld => chAct r.size (disOf comp r).1 fld) t (x.fields Repr.size) ∧
      ∀ r ∈ t, IsInv r.size (disOf comp r).1 (tr (disOf comp r).1) := by
  have hk := fun r hr => disOf_ok comp r (hwf r hr).1 (hc r hr)
  obtain ⟨y, h1, h2, h3, h4⟩ := c56_forward_partial Repr.size Repr.size name (disOf comp) uniq t ht (fun r hr => (hwf r hr).2) hu hn
    (fun r hr => (hk r hr).1) junk hj x hx hxt
  refine ⟨y, h1, h3, fun g π => ?_, h4, fun r hr => (hk r hr).2.2⟩
  obtain ⟨y', h1', h2'⟩ := c56_equivariant_partial Repr.size Repr.size name (disOf comp) uniq t ht (fun r hr => (hwf r hr).2) hu hn
    (fun r hr => (hk r hr).1) (fun r => r.mat g) (fun r => r.mat g) (fun r hr => (hk r hr).2.1 g) π junk junk hj hj x hx hxt
  rw [h1] at h1'
  cases h1'
  exact h2'

/-- The hypotheses of `c56_disentangle_partial` are met by the type with two fields of a representation with two one-dimensional irreps
and the change of basis swapping them. -/
example : ∃ (r : Repr ℤ) (comp : Repr ℤ → ℕ × (ℕ → ℕ)) (x : GTensor (Repr ℤ) (Unit → ℝ)), r.WF ∧ r.size = 2 ∧ NamesOk (fun _ => ()) [r, r] ∧
    IsComponents (r.irreps.length + r.size) r.entangled (comp r).1 (comp r).2 ∧ x.WF Repr.size ∧ x.ty = [r, r] := by
  let i : Irrep ℤ := { size := 1, socs := 1, mat := fun e => m1 e, freq := 0, flip := 0 }
  let r : Repr ℤ := ⟨[i, i], m2 0 1 1 0, m2 0 1 1 0⟩
  obtain ⟨n, lab, h⟩ := exists_components (r.irreps.length + r.size) r.entangled
  refine ⟨r, fun _ => (n, lab), ⟨[r, r], [0, 0, 0, 0]⟩, ?_, rfl, ?_, h, ⟨by simp, rfl⟩, rfl⟩
  · refine isInv_of_left ?_
    show MEq 2 2 (Mat.mul 2 (m2 0 1 1 0) (m2 0 1 1 0)) _
    rw [m2_mul]
    norm_num
    exact m2_one
  · intro a ha b hb _
    rw [show a = r by simpa using ha, show b = r by simpa using hb]

/-- **C56 fails without the hypothesis on the names.**  The dictionaries of the module are indexed by names: two representations
`1 ⊕ σ` and `σ ⊕ 1` of the same name (`σ` the sign, at the element `-1`) both get the data of the one treated last.  All other
hypotheses hold, and the output does not transform in the representations of the output type. -/
theorem c56_names_wrong :
    let dis : Bool → Mat × List Bool := fun b => (Mat.one, [b, !b])
    let ρ' : Bool → Mat := fun b => m1 (if b then -1 else 1)
    let ρ : Bool → Mat := fun b => bdiag ((dis b).2.map fun s => (1, ρ' s))
    let t : List Bool := [false, true]
    (∀ r, r ∈ t ↔ r ∈ t) ∧ (∀ r ∈ t, DisSize (fun _ => 2) (fun _ => 1) dis r) ∧ (∀ r ∈ t, DisAt (fun _ => 2) (fun _ => 1) dis ρ ρ' r) ∧
      ∃ x : GTensor Bool (Unit → ℝ), x.WF (fun _ => 2) ∧ x.ty = t ∧ ∃ y,
        disForward (fun _ => 2) (fun _ => 1) (fun _ => ()) dis t t x.data x = some y ∧
        ∀ y', disForward (fun _ => 2) (fun _ => 1) (fun _ => ()) dis t t x.data (x.transform (fun _ => 2) ρ id) = some y' →
          y' ≠ y.transform (fun _ => 1) ρ' id := by
  intro dis ρ' ρ t
  refine ⟨fun _ => Iff.rfl, fun r _ => rfl, fun r _ => ?_, ?_⟩
  · show MEq 2 2 (Mat.mul 2 (ρ r) Mat.one) (Mat.mul 2 Mat.one (ρ r))
    exact (MEq_mul_one 2 2 _).trans (MEq_one_mul 2 2 _).symm
  · have key : ∀ (z j : List (Unit → ℝ)) , z.length = 4 → j.length = 4 →
        disForward (fun _ => 2) (fun _ => 1) (fun _ : Bool => ()) dis t t j ⟨t, z⟩ = some ⟨[true, false, true, false], z⟩ := by
      intro z j hz hj
      obtain ⟨a, b, c, d, rfl⟩ : ∃ a b c d, z = [a, b, c, d] := by
        match z, hz with
        | [a, b, c, d], _ => exact ⟨a, b, c, d, rfl⟩
      obtain ⟨a', b', c', d', rfl⟩ : ∃ a b c d, j = [a, b, c, d] := by
        match j, hj with
        | [a, b, c, d], _ => exact ⟨a, b, c, d, rfl⟩
      have hidx : labelChannels [(), ()] [2, 2] () = [0, 1, 2, 3] := rfl
      have hone : ∀ u v : Unit → ℝ, chAct 2 Mat.one [u, v] = [u, v] := by
        intro u v
        simp [chAct, List.range_succ, Mat.one]
      have hcc : checkConsecutive [0, 1, 2, 3] = some true := by
        norm_num [checkConsecutive, consecutiveLoop]
      have hflag : indexesFromLabels (fun _ : Bool => 2) [false, true] [(), ()] () = some (true, [0, 1], [0, 1, 2, 3]) := by
        rw [indexesFromLabels, if_pos (by simp), if_pos (by simp)]
        show (checkConsecutive [0, 1, 2, 3]).map _ = _
        rw [hcc]
        rfl
      have hout : (disOutType (fun _ : Bool => ()) dis t t).bind mkType = some [true, false, true, false] := by
        simp [disOutType, byName, t, dis, mkType]
      have hbn' : ∀ n, byName (fun _ : Bool => ()) [false, true] n = some true := fun _ => rfl
      rw [disForward, hout]
      simp only [if_true, t, List.map_cons, List.map_nil]
      rw [if_pos (fun n _ => by rw [hbn']; rfl)]
      simp only [firstKeys, fieldLoop, hflag, hidx, Option.map_some, Option.getD_some, readGroup, List.filter_nil, if_true, hbn']
      have hg : pySlice [a, b, c, d] 0 4 = [a, b, c, d] := rfl
      have hv : eachField 2 (fun (_ : ℕ) fld => chAct 2 (dis true).1 fld) 0 [a, b, c, d] = [a, b, c, d] := by
        simp only [eachField, viewFields, List.length_cons, List.length_nil, dis]
        simp [chunks, hone]
      have hmin : [0, 1, 2, 3].min? = some 0 := rfl
      have hmax : [0, 1, 2, 3].max? = some 3 := rfl
      have hfil : List.filter (fun x => decide (x ≠ ())) [()] = [] := rfl
      rw [hmin, hmax]
      simp only [Nat.reduceAdd, hg, hv, hfil, fieldLoop]
      simp [writeGroup, hmin, hmax, writeSlice, mkGT, typeSize]
    refine ⟨⟨t, [fun _ => 1, 0, 0, 0]⟩, ⟨by simp [t], rfl⟩, rfl, ⟨[true, false, true, false], [fun _ => 1, 0, 0, 0]⟩, key _ _ rfl rfl, ?_⟩
    intro y' hy' h
    rw [h] at hy'
    have hk := key ((GTensor.transform (fun _ => 2) ρ id (⟨t, [fun _ => 1, 0, 0, 0]⟩ : GTensor Bool (Unit → ℝ))).data) [fun _ => 1, 0, 0, 0]
      (by simp [GTensor.transform, GTensor.act, chAct_length, typeSize, t]) rfl
    have h2 := (Option.some.inj (hy'.symm.trans hk))
    have h3 := congrArg (fun z : GTensor Bool (Unit → ℝ) => (z.data[0]?.getD 0 : Unit → ℝ) ()) h2
    norm_num [GTensor.transform, GTensor.act, chAct, typeSize, t, ρ, ρ', dis, bdiag, m1, List.range_succ, Finset.sum_range_succ] at h3

end E2
