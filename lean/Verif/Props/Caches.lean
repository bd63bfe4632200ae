import Verif.Model.Caches
import Verif.Props.Diffops

/-!
# C42 and C53: caches

C42: for all histories of requests, the kernel bases a space returns are those a fresh space would build, when the names determine the representations.
For differential operators the key has no `max_power` and no discretisation: the claim is false (`c42_diffop_wrong`), and holds for the histories in
which requests with the same representations and other arguments agree on them.

C53: the saved cache is not restored (`c53_load_wrong`); the values returned are right all the same.
-/

namespace E2

section Space

variable {R V Disc N B : Type} [DecidableEq N]

/-- What a fresh space returns. -/
noncomputable def freshBasis (gen : BasisGen R V Disc N B) (r : BasisReq R V Disc) : Option B := (buildBasis gen (fun _ _ => none) r).1

namespace BasisReq

/-- The representations of a request. -/
def reps : BasisReq R V Disc → R × R
  | kernel i o _ _ _ => (i, o)
  | diffop i o _ _ _ => (i, o)

/-- The keyword arguments of a request. -/
def kw : BasisReq R V Disc → Kwargs V
  | kernel _ _ _ _ k => k
  | diffop _ _ _ _ k => k

/-- A request for a basis of kernels. -/
def IsKernel : BasisReq R V Disc → Prop
  | kernel .. => True
  | diffop .. => False

/-- Two requests for operators agree on the arguments which are not in the key. -/
def SameDisc : BasisReq R V Disc → BasisReq R V Disc → Prop
  | diffop _ _ p d _, diffop _ _ p' d' _ => p = p' ∧ d = d'
  | _, _ => True

/-- The key of a request. -/
def key : BasisReq R V Disc → Kwargs V
  | kernel _ _ s r k => kernelKey (sigmaList s r) r k
  | diffop _ _ _ _ k => k

/-- The call of the generator. -/
def make (gen : BasisGen R V Disc N B) : BasisReq R V Disc → Option B
  | kernel i o s r k => gen.kernel i o r (sigmaList s r) k
  | diffop i o p d k => gen.diffop i o p d k

/-- The assertions. -/
def Valid (gen : BasisGen R V Disc N B) : BasisReq R V Disc → Prop
  | kernel i o s r _ => (gen.ofGroup i ∧ gen.ofGroup o) ∧ ¬ (¬ (∀ x ∈ sigmaList s r, 0 < x) ∨ (sigmaList s r).length ≠ r.length)
  | diffop i o _ _ _ => gen.ofGroup i ∧ gen.ofGroup o

/-- The names of the representations. -/
def names (gen : BasisGen R V Disc N B) (r : BasisReq R V Disc) : N × N := (gen.name r.reps.1, gen.name r.reps.2)

end BasisReq

open Classical in
theorem buildBasis_eq (gen : BasisGen R V Disc N B) (mem : Memory V N B) (r : BasisReq R V Disc) :
    buildBasis gen mem r = if r.Valid gen then remember mem r.key (r.names gen) (r.make gen) else (none, mem) := by
  cases r with
  | kernel i o s rg k =>
    by_cases h1 : gen.ofGroup i ∧ gen.ofGroup o
    · by_cases h2 : ¬ (∀ x ∈ sigmaList s rg, 0 < x) ∨ (sigmaList s rg).length ≠ rg.length
      · rw [if_neg (fun h => h.2 h2), buildBasis, if_neg (not_not.2 h1), if_pos h2]
      · rw [if_pos (show BasisReq.Valid gen (.kernel i o s rg k) from ⟨h1, h2⟩), buildBasis, if_neg (not_not.2 h1), if_neg h2]
        rfl
    · rw [if_neg (fun h => h1 h.1), buildBasis, if_pos h1]
  | diffop i o p d k =>
    by_cases h1 : gen.ofGroup i ∧ gen.ofGroup o
    · rw [if_pos (show BasisReq.Valid gen (.diffop i o p d k) from h1), buildBasis, if_neg (not_not.2 h1)]
      rfl
    · rw [if_neg (show ¬ BasisReq.Valid gen (.diffop i o p d k) from h1), buildBasis, if_pos h1]

open Classical in
theorem fresh_eq (gen : BasisGen R V Disc N B) (r : BasisReq R V Disc) : freshBasis gen r = if r.Valid gen then r.make gen else none := by
  rw [freshBasis, buildBasis_eq]
  by_cases h : r.Valid gen
  · rw [if_pos h, if_pos h]
    unfold remember
    cases r.make gen <;> rfl
  · rw [if_neg h, if_neg h]

/-- Requests with the same key and names call the generator with the same result: what the transparency of the cache needs. -/
theorem cache_transparent (gen : BasisGen R V Disc N B) (rs : List (BasisReq R V Disc)) (all : List (BasisReq R V Disc)) (hsub : ∀ r ∈ rs, r ∈ all)
    (hcomp : ∀ r ∈ all, ∀ r' ∈ all, r.key = r'.key → r.names gen = r'.names gen → r.make gen = r'.make gen) (mem : Memory V N B)
    (hinv : ∀ r ∈ all, ∀ b, mem r.key (r.names gen) = some b → r.make gen = some b) :
    (buildAll gen mem rs).1 = rs.map (freshBasis gen) := by
  classical
  induction rs generalizing mem with
  | nil => rfl
  | cons r rs ih =>
    rw [buildAll, List.map_cons]
    have hr := hsub r (List.mem_cons_self ..)
    have hrs := fun x hx => hsub x (List.mem_cons_of_mem _ hx)
    have hstep : (buildBasis gen mem r).1 = freshBasis gen r ∧
        ∀ r' ∈ all, ∀ b, (buildBasis gen mem r).2 r'.key (r'.names gen) = some b → r'.make gen = some b := by
      rw [buildBasis_eq, fresh_eq]
      by_cases hv : r.Valid gen
      · rw [if_pos hv, if_pos hv]
        unfold remember
        cases hm : mem r.key (r.names gen) with
        | some b => exact ⟨(hinv r hr b hm).symm, hinv⟩
        | none =>
          cases hg : r.make gen with
          | none => exact ⟨rfl, hinv⟩
          | some b =>
            refine ⟨rfl, fun r' hr' b' hb' => ?_⟩
            dsimp only at hb'
            by_cases hk : r'.key = r.key ∧ r'.names gen = r.names gen
            · rw [if_pos hk] at hb'
              rw [hcomp r' hr' r hr hk.1 hk.2, hg, hb']
            · rw [if_neg hk] at hb'
              exact hinv r' hr' b' hb'
      · rw [if_neg hv, if_neg hv]
        exact ⟨rfl, hinv⟩
    rw [hstep.1, ih hrs _ hstep.2]

theorem kernelKey_inj {s s' r r' : List ℝ} {k k' : Kwargs V} (hk : k "sigma" = none ∧ k "rings" = none) (hk' : k' "sigma" = none ∧ k' "rings" = none)
    (h : kernelKey s r k = kernelKey s' r' k') : s = s' ∧ r = r' ∧ k = k' := by
  have h1 := congrFun h "sigma"
  have h2 := congrFun h "rings"
  simp [kernelKey, Function.update] at h1 h2
  refine ⟨h1, h2, funext fun x => ?_⟩
  have h3 := congrFun h x
  simp only [kernelKey, Function.update] at h3
  by_cases hx : x = "rings"
  · subst hx; rw [hk.2, hk'.2]
  · by_cases hx' : x = "sigma"
    · subst hx'; rw [hk.1, hk'.1]
    · simpa [hx, hx'] using h3

/-- A call of the functions: `sigma` and `rings` are named parameters of `build_kernel_basis`, not keyword arguments for the generator; neither is an
argument of the generators of operators. -/
def BasisReq.Callable (r : BasisReq R V Disc) : Prop := r.kw "sigma" = none ∧ r.kw "rings" = none

/-- **C42**, for all histories of requests for kernels and operators: every result is the one of a fresh space, when the names determine the
representations and the requests for operators which agree on representations and keyword arguments agree on `max_power` and the discretisation.
Missing: histories in which they do not (`c42_diffop_wrong`), and representations which share a name (`c42_names_wrong`). -/
theorem c42_cache_partial (gen : BasisGen R V Disc N B) (rs : List (BasisReq R V Disc)) (hcall : ∀ r ∈ rs, r.Callable)
    (hnames : ∀ r ∈ rs, ∀ r' ∈ rs, r.names gen = r'.names gen → r.reps = r'.reps)
    (hdisc : ∀ r ∈ rs, ∀ r' ∈ rs, r.reps = r'.reps → r.kw = r'.kw → r.SameDisc r') :
    (buildAll gen (fun _ _ => none) rs).1 = rs.map (freshBasis gen) := by
  refine cache_transparent gen rs rs (fun _ h => h) (fun r hr r' hr' hk hn => ?_) _ (fun _ _ _ h => by simp at h)
  have hreps := hnames r hr r' hr' hn
  have hc := hcall r hr
  have hc' := hcall r' hr'
  cases r with
  | kernel i o s rg k =>
    cases r' with
    | kernel i' o' s' rg' k' =>
      obtain ⟨e1, e2, e3⟩ := kernelKey_inj hc hc' hk
      simp only [BasisReq.reps, Prod.mk.injEq] at hreps
      have e3 : k = k' := e3
      simp only [BasisReq.make]
      rw [e1, hreps.1, hreps.2, e2, e3]
    | diffop i' o' p' d' k' =>
      have := congrFun hk "rings"
      simp only [BasisReq.key, kernelKey, Function.update_self] at this
      rw [show k' "rings" = none from hc'.2] at this
      simp at this
  | diffop i o p d k =>
    cases r' with
    | kernel i' o' s' rg' k' =>
      have := congrFun hk "rings"
      simp only [BasisReq.key, kernelKey, Function.update_self] at this
      rw [show k "rings" = none from hc.2] at this
      simp at this
    | diffop i' o' p' d' k' =>
      have hsd := hdisc _ hr _ hr' hreps hk
      simp only [BasisReq.reps, Prod.mk.injEq] at hreps
      simp only [BasisReq.SameDisc] at hsd
      simp only [BasisReq.key] at hk
      simp only [BasisReq.make, hreps.1, hreps.2, hsd.1, hsd.2, hk]

/-- **C42 for kernels**: for all histories of requests for kernels, when the names determine the representations. -/
theorem c42_kernels (gen : BasisGen R V Disc N B) (rs : List (BasisReq R V Disc)) (hker : ∀ r ∈ rs, r.IsKernel) (hcall : ∀ r ∈ rs, r.Callable)
    (hnames : Function.Injective gen.name) : (buildAll gen (fun _ _ => none) rs).1 = rs.map (freshBasis gen) := by
  refine c42_cache_partial gen rs hcall (fun r _ r' _ h => ?_) (fun r hr r' hr' _ _ => ?_)
  · simp only [BasisReq.names, Prod.mk.injEq] at h
    exact Prod.ext (hnames h.1) (hnames h.2)
  · have := hker r hr
    cases r with
    | kernel => trivial
    | diffop => exact absurd this id

end Space

/-! ### Where C42 is false -/

/-- Scalars, for SO(2). -/
noncomputable def exScalar : Repr ℝ := ⟨[SO2.irrep 0], Mat.one, Mat.one⟩

/-- The space of SO(2), with the model of its bases of operators; `name` are the names of the representations. -/
noncomputable def exGen (name : Repr ℝ → String) : BasisGen (Repr ℝ) Unit Unit String (List DArr) :=
  ⟨fun _ => true, name, fun _ _ _ _ _ => none, fun i o p _ _ => tensorBasis dCont (fun i o e => dCoefCont o.size i.size e) i o p⟩

theorem exTensor_length (p : ℕ) : ∃ l, tensorBasis dCont (fun i o e => dCoefCont o.size i.size e) exScalar exScalar p = some l ∧ l.length = p + 1 := by
  have h0 : dCont (SO2.irrep 0) (SO2.irrep 0) = some [⟨0, 0, 0, 0⟩] := by
    simp [dCont, SO2.irrep]
  have hs : ∃ S, steerable dCont exScalar exScalar = some S ∧ S.ins = exScalar.irreps ∧ S.outs = exScalar.irreps ∧
      S.bases = fun i o => (dCont i o).getD [] := by
    unfold steerable
    rw [if_pos]
    · exact ⟨_, rfl, rfl, rfl, rfl⟩
    · intro i hi o ho
      simp only [exScalar, List.mem_singleton] at hi ho
      rw [hi, ho, h0]
      simp
  obtain ⟨S, hS, h1, h2, h3⟩ := hs
  refine ⟨tensorCoefs (S.dCoefs fun i o e => dCoefCont o.size i.size e) (laplaceProfile p), by rw [tensorBasis, hS]; rfl, ?_⟩
  have hd : S.dim = 1 := by
    simp [SBasis.dim, h1, h2, h3, exScalar, h0]
  have : ∀ (l : List DArr) (m : List HPoly), (tensorCoefs l m).length = l.length * m.length := by
    intro l m
    simp [tensorCoefs, List.length_flatMap]
  rw [this, S.length_dCoefs, hd]
  simp [laplaceProfile]

/-- **C42 is false for operators**: asking for the operators between scalars with `max_power = 0`, then with `max_power = 1`, returns the first basis
twice; a fresh space builds a basis with two elements for the second request. -/
theorem c42_diffop_wrong (name : Repr ℝ → String) : ∃ rs : List (BasisReq (Repr ℝ) Unit Unit), (∀ r ∈ rs, r.Callable) ∧
    (buildAll (exGen name) (fun _ _ => none) rs).1 ≠ rs.map (freshBasis (exGen name)) := by
  classical
  refine ⟨[.diffop exScalar exScalar 0 () (fun _ => none), .diffop exScalar exScalar 1 () (fun _ => none)], ?_, ?_⟩
  · intro r hr
    simp only [List.mem_cons, List.not_mem_nil, or_false] at hr
    rcases hr with rfl | rfl <;> exact ⟨rfl, rfl⟩
  · obtain ⟨l0, h0, n0⟩ := exTensor_length 0
    obtain ⟨l1, h1, n1⟩ := exTensor_length 1
    intro h
    have hv : ∀ p, (BasisReq.diffop exScalar exScalar p () (fun _ => none) : BasisReq (Repr ℝ) Unit Unit).Valid (exGen name) := fun p => ⟨rfl, rfl⟩
    have e := congrArg (fun l => l[1]?) h
    simp only [buildAll, List.map_cons, List.map_nil, List.getElem?_cons_succ, List.getElem?_cons_zero, Option.some.injEq] at e
    rw [fresh_eq, if_pos (hv 1), buildBasis_eq, if_pos (hv 1), buildBasis_eq, if_pos (hv 0)] at e
    have m0 : (BasisReq.diffop exScalar exScalar 0 () (fun _ => none) : BasisReq (Repr ℝ) Unit Unit).make (exGen name) = some l0 := h0
    have m1 : (BasisReq.diffop exScalar exScalar 1 () (fun _ => none) : BasisReq (Repr ℝ) Unit Unit).make (exGen name) = some l1 := h1
    rw [m0, m1] at e
    simp [remember, BasisReq.key, BasisReq.names, BasisReq.reps] at e
    rw [e] at n0
    omega

/-- **C42 is false for two representations which share a name**: the second request returns the basis of the first. -/
theorem c42_names_wrong {R V Disc N B : Type} [DecidableEq N] (gen : BasisGen R V Disc N B) (a b : R) (hname : gen.name a = gen.name b)
    (s : ℝ) (hs : 0 < s) (rings : List ℝ) (kw : Kwargs V) (hg : gen.ofGroup a ∧ gen.ofGroup b) {x y : B}
    (hx : gen.kernel a a rings (List.replicate rings.length s) kw = some x) (hy : gen.kernel b b rings (List.replicate rings.length s) kw = some y)
    (hxy : x ≠ y) : (buildAll gen (fun _ _ => none) [.kernel a a (.inl s) rings kw, .kernel b b (.inl s) rings kw]).1 = [some x, some x] ∧
      [BasisReq.kernel a a (.inl s) rings kw, .kernel b b (.inl s) rings kw].map (freshBasis (Disc := Disc) gen) = [some x, some y] ∧
      [some x, some x] ≠ [some x, some y] := by
  classical
  have hva : (BasisReq.kernel a a (.inl s) rings kw : BasisReq R V Disc).Valid gen := by
    refine ⟨⟨hg.1, hg.1⟩, ?_⟩
    simp [sigmaList, hs]
  have hvb : (BasisReq.kernel b b (.inl s) rings kw : BasisReq R V Disc).Valid gen := by
    refine ⟨⟨hg.2, hg.2⟩, ?_⟩
    simp [sigmaList, hs]
  have ma : (BasisReq.kernel a a (.inl s) rings kw : BasisReq R V Disc).make gen = some x := hx
  have mb : (BasisReq.kernel b b (.inl s) rings kw : BasisReq R V Disc).make gen = some y := hy
  refine ⟨?_, ?_, by simpa using hxy⟩
  · simp only [buildAll]
    rw [buildBasis_eq, if_pos hva, buildBasis_eq, if_pos hvb, ma, mb]
    simp [remember, BasisReq.key, BasisReq.names, BasisReq.reps, hname]
  · simp only [List.map_cons, List.map_nil]
    rw [fresh_eq, if_pos hva, fresh_eq, if_pos hvb, ma, mb]

/-- Two scalar fields and a vector field registered under one name: the hypotheses of `c42_names_wrong`, with the numbers of elements as bases. -/
example : (buildAll (⟨fun _ => true, fun _ => "field", fun i o _ _ _ => some (i * o), fun _ _ _ _ _ => none⟩ : BasisGen ℕ Unit Unit String ℕ)
    (fun _ _ => none) [.kernel 1 1 (.inl 1) [0, 1] (fun _ => none), .kernel 2 2 (.inl 1) [0, 1] (fun _ => none)]).1 = [some 1, some 1] :=
  (c42_names_wrong (⟨fun _ => true, fun _ => "field", fun i o _ _ _ => some (i * o), fun _ _ _ _ _ => none⟩ : BasisGen ℕ Unit Unit String ℕ)
    1 2 rfl 1 one_pos [0, 1] (fun _ => none) ⟨rfl, rfl⟩ (x := 1) (y := 4) rfl rfl (by decide)).1

/-- A history of three requests for operators with two sets of arguments, which meets the hypotheses of `c42_cache_partial`. -/
example (name : Repr ℝ → String) :
    let r := fun p : ℕ => (BasisReq.diffop exScalar exScalar p () (fun k => if k = "maximum_frequency" then some (.tuple [p]) else none) :
      BasisReq (Repr ℝ) Unit Unit)
    (buildAll (exGen name) (fun _ _ => none) [r 0, r 1, r 0]).1 = [r 0, r 1, r 0].map (freshBasis (exGen name)) := by
  intro r
  have hmem : ∀ x ∈ [r 0, r 1, r 0], ∃ p, x = r p := by
    intro x hx
    simp only [List.mem_cons, List.not_mem_nil, or_false] at hx
    rcases hx with rfl | rfl | rfl <;> exact ⟨_, rfl⟩
  refine c42_cache_partial _ _ (fun x hx => ?_) (fun x hx y hy _ => ?_) (fun x hx y hy _ h => ?_)
  · obtain ⟨p, rfl⟩ := hmem x hx
    exact ⟨by simp [r, BasisReq.kw], by simp [r, BasisReq.kw]⟩
  · obtain ⟨p, rfl⟩ := hmem x hx
    obtain ⟨p', rfl⟩ := hmem y hy
    rfl
  · obtain ⟨p, rfl⟩ := hmem x hx
    obtain ⟨p', rfl⟩ := hmem y hy
    have := congrFun h "maximum_frequency"
    simp [r, BasisReq.kw] at this
    exact ⟨this, rfl⟩

/-! ### C53 -/

section Disc

variable {K W : Type} [DecidableEq K]

/-- The start: no process has run, there is no file. -/
def DCache.start : DCache K W := ⟨fun _ => none, none⟩

/-- **C53, the values**: along all histories of discretisations, stores, loads and restarts, every discretisation returns the value computed from its
arguments.  Missing: that the stored operators are served from the cache, which is false (`c53_load_wrong`). -/
theorem c53_values_partial (compute : K → W) (isZero : K → Bool) (ops : List (DOp K)) :
    (dRun compute isZero DCache.start ops).1 = ops.map fun o => match o with
      | .disc k => some (compute k)
      | _ => none := by
  have key : ∀ (ops : List (DOp K)) (s : DCache K W), (∀ k w, s.cache k = some w → w = compute k) →
      (dRun compute isZero s ops).1 = ops.map fun o => match o with
        | .disc k => some (compute k)
        | _ => none := by
    intro ops
    induction ops with
    | nil => intro s _; rfl
    | cons o ops ih =>
      intro s hs
      rw [dRun, List.map_cons]
      have hstep : (dOp compute isZero s o).1 = (match o with
          | .disc k => some (compute k)
          | _ => none) ∧ ∀ k w, (dOp compute isZero s o).2.cache k = some w → w = compute k := by
        cases o with
        | disc k =>
          simp only [dOp, discStep]
          cases hk : s.cache k with
          | some w => exact ⟨by rw [hs k w hk], hs⟩
          | none =>
            by_cases hz : isZero k
            · simp only [hz, if_true]; exact ⟨trivial, hs⟩
            · rw [if_neg hz]
              refine ⟨rfl, fun k' w hw => ?_⟩
              simp only [Function.update] at hw
              split_ifs at hw with h
              · subst h; exact (Option.some.inj hw).symm
              · exact hs k' w hw
        | store => exact ⟨rfl, hs⟩
        | load =>
          refine ⟨rfl, ?_⟩
          simp only [dOp, loadCache]
          cases s.file <;> exact hs
        | restart => exact ⟨rfl, fun k w h => by simp [dOp] at h⟩
      rw [hstep.1, ih _ hstep.2]
  exact key ops _ fun k w h => by simp [DCache.start] at h

/-- **C53, within one process**: a discretised operator which is not zero is served from the cache until the process ends. -/
theorem c53_same_process (compute : K → W) (isZero : K → Bool) (s : DCache K W) (k : K) (hz : isZero k = false) (hs : s.cache k = none)
    (ops : List (DOp K)) (hops : ∀ o ∈ ops, match o with
      | .restart => False
      | _ => True) :
    (dRun compute isZero (dOp compute isZero s (.disc k)).2 ops).2.cache k = some (compute k) := by
  have key : ∀ (ops : List (DOp K)) (s : DCache K W) (w : W), s.cache k = some w → (∀ o ∈ ops, match o with
      | .restart => False
      | _ => True) → (dRun compute isZero s ops).2.cache k = some w := by
    intro ops
    induction ops with
    | nil => intro s w h _; exact h
    | cons o ops ih =>
      intro s w h ho
      rw [dRun]
      refine ih _ w ?_ fun o' h' => ho o' (List.mem_cons_of_mem _ h')
      have ho1 := ho o (List.mem_cons_self ..)
      cases o with
      | disc k' =>
        simp only [dOp, discStep]
        cases hk' : s.cache k' with
        | some w' => exact h
        | none =>
          by_cases hz' : isZero k'
          · simp only [hz', if_true]; exact h
          · rw [if_neg hz']
            simp only [Function.update]
            have : k ≠ k' := by rintro rfl; rw [h] at hk'; simp at hk'
            simp [this, h]
      | store => exact h
      | load =>
        simp only [dOp, loadCache]
        cases s.file <;> exact h
      | restart => exact absurd ho1 id
  refine key ops _ _ ?_ hops
  simp [dOp, discStep, hs, hz, Function.update]

/-- **C53 is false**: whatever was discretised and stored, in the next process `load_cache` leaves the cache empty, although the file has the
operators. -/
theorem c53_load_wrong (compute : K → W) (isZero : K → Bool) (ops : List (DOp K)) :
    (dRun compute isZero DCache.start (ops ++ [.store, .restart, .load])).2.cache = (fun _ => none) ∧
    (dRun compute isZero DCache.start (ops ++ [.store, .restart, .load])).2.file = some (dRun compute isZero DCache.start ops).2.cache := by
  have happ : ∀ (xs ys : List (DOp K)) (s : DCache K W), (dRun compute isZero s (xs ++ ys)).2 = (dRun compute isZero (dRun compute isZero s xs).2 ys).2 := by
    intro xs
    induction xs with
    | nil => intro ys s; rfl
    | cons x xs ih => intro ys s; simp only [List.cons_append, dRun]; exact ih _ _
  rw [happ]
  exact ⟨rfl, rfl⟩

/-- One operator, discretised and stored. -/
example : (dRun (fun k : ℕ => k + 7) (fun _ => false) DCache.start [.disc 3, .store, .restart, .load]).2.cache 3 = none ∧
    ((dRun (fun k : ℕ => k + 7) (fun _ => false) DCache.start [.disc 3, .store, .restart, .load]).2.file.bind fun f => f 3) = some 10 := ⟨rfl, rfl⟩

end Disc

end E2
