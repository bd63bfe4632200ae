import Verif.Lemmas.TranslateNet

/-!
The loops over fields commute with maps of the channels.
-/

set_option linter.unusedSectionVars false

namespace E2

open Mat

variable {L V V' W W' P P' R S : Type}

theorem readGroup_map (f : V → V') (x : List V) (c : Bool) (idx : List ℕ) : readGroup (x.map f) c idx = (readGroup x c idx).map (List.map f) := by
  unfold readGroup
  split_ifs
  · cases idx.min? <;> cases idx.max? <;> simp [pySlice, List.map_take, List.map_drop]
  · exact gather_map f x idx

theorem writeIdx_map (f : W → W') (x : List W) (idx : List ℕ) (v : List W) : writeIdx (x.map f) idx (v.map f) = (writeIdx x idx v).map f := by
  unfold writeIdx
  induction idx generalizing x v with
  | nil => simp
  | cons a l ih =>
    cases v with
    | nil => simp
    | cons b v => simp only [List.map_cons, List.zip_cons_cons, List.foldl_cons, ← List.map_set]; exact ih _ v

theorem writeGroup_map (f : W → W') (x : List W) (c : Bool) (idx : List ℕ) (v : List W) :
    writeGroup (x.map f) c idx (v.map f) = (writeGroup x c idx v).map (List.map f) := by
  unfold writeGroup
  rw [List.length_map, List.length_map]
  split_ifs
  · cases idx.min? <;> cases idx.max? <;> simp [writeSlice, List.map_take, List.map_drop]
  · rw [writeIdx_map]; rfl
  · rfl
  · rfl

theorem fieldLoop_map (f : V → V') (g : W → W') (x : List V) (contig : L → Bool) (inIdx outIdx : L → List ℕ) (nf : L → ℕ) (φ : L → ℕ → List V → List W)
    (φ' : L → ℕ → List V' → List W') (h : ∀ l k fld, φ' l k (fld.map f) = (φ l k fld).map g) (ls : List L) (next : ℕ) (out : List W) :
    fieldLoop (x.map f) contig inIdx outIdx nf φ' ls next (out.map g) = (fieldLoop x contig inIdx outIdx nf φ ls next out).map (List.map g) := by
  induction ls generalizing next out with
  | nil => rfl
  | cons l ls ih =>
    rw [fieldLoop, fieldLoop, readGroup_map]
    cases readGroup x (contig l) (inIdx l) with
    | none => rfl
    | some gr =>
      simp only [Option.map_some, h, writeGroup_map]
      cases writeGroup out (contig l) (outIdx l) (φ l next gr) with
      | none => rfl
      | some o => exact ih _ _

theorem viewFields_map (f : V → V') (s : ℕ) (g : List V) : viewFields s (g.map f) = (viewFields s g).map (List.map f) := by
  rw [viewFields, viewFields, List.length_map, chunks_map']

theorem eachField_map (f : V → V') (g : W → W') (s : ℕ) (φ : ℕ → List V → List W) (φ' : ℕ → List V' → List W') (h : ∀ k fld, φ' k (fld.map f) = (φ k fld).map g)
    (next : ℕ) (gr : List V) : eachField s φ' next (gr.map f) = (eachField s φ next gr).map g := by
  rw [eachField, eachField, viewFields_map, List.map_flatten]
  congr 1
  refine List.ext_getElem (by simp) fun i h1 h2 => ?_
  simp [h]

theorem updLoop_map (f : V → V') (x : List V) (contig : L → Bool) (idx : L → List ℕ) (nf s : L → ℕ) (upd : L → ℕ → List V → S → S) (upd' : L → ℕ → List V' → S → S)
    (h : ∀ l k fld st, upd' l k (fld.map f) st = upd l k fld st) (ls : List L) (next : ℕ) (st : ℕ → S) :
    updLoop (x.map f) contig idx nf s upd' ls next st = updLoop x contig idx nf s upd ls next st := by
  induction ls generalizing next st with
  | nil => rfl
  | cons l ls ih =>
    rw [updLoop, updLoop, readGroup_map]
    cases readGroup x (contig l) (idx l) with
    | none => rfl
    | some gr =>
      simp only [Option.map_some]
      rw [ih]
      congr 1
      funext j
      rw [viewFields_map, List.getElem?_map]
      cases (viewFields (s l) gr)[j - next]? with
      | none => rfl
      | some fld => simp only [Option.map_some, h]

/-- The same positions of other channels. -/
def GTensor.mapCh (g : V → W) (x : GTensor R V) : GTensor R W := ⟨x.ty, x.data.map g⟩

theorem mkGT_map (sz : R → ℕ) (g : W → W') (d : List W) (t : List R) : mkGT sz (d.map g) t = (mkGT sz d t).map (GTensor.mapCh g) := by
  unfold mkGT
  rw [List.length_map]
  split_ifs <;> rfl

theorem channelwise_map [DecidableEq R] (sz : R → ℕ) (t : List R) (f : V → W) (f' : V' → W') (g : V → V') (g' : W → W') (h : ∀ v, f' (g v) = g' (f v)) (x : GTensor R V) :
    channelwise sz t f' (x.mapCh g) = (channelwise sz t f x).map (GTensor.mapCh g') := by
  unfold channelwise
  by_cases ht : x.ty = t
  · rw [if_pos ht, if_pos (show (x.mapCh g).ty = t from ht), ← mkGT_map]
    simp only [GTensor.mapCh, List.map_map]
    congr 1
    exact List.map_congr_left fun v _ => h v
  · rw [if_neg ht, if_neg (show ¬ (x.mapCh g).ty = t from ht)]
    rfl

theorem bnModule_map [DecidableEq R] [DecidableEq L] (g : (P → ℝ) → P' → ℝ) (M : Normaliser P L S) (M' : Normaliser P' L S) (hs : M'.size = M.size) (sz : R → ℕ) (t : List R)
    (labels : List L) (contig : L → Bool) (order : List L) (training : Bool) (st : NormState S)
    (hu : training = true → ∀ l k n fld s, M'.update l k n (fld.map g) s = M.update l k n fld s)
    (ha : ∀ l k fld s, M'.apply training l k (fld.map g) s = (M.apply training l k fld s).map g) (out : List (P → ℝ)) (x : GTensor R (P → ℝ)) :
    bnModule M' sz t labels contig order training st (out.map g) (x.mapCh g) =
      (bnModule M sz t labels contig order training st out x).map fun r => (r.1, r.2.mapCh g) := by
  unfold bnModule
  by_cases ht : x.ty = t
  · rw [if_pos ht, if_pos (show (x.mapCh g).ty = t from ht)]
    unfold bnForward
    rw [hs]
    have h1 : (if training = true then updLoop (x.data.map g) contig (labelChannels labels (t.map sz)) (labelCount labels) M.size
        (fun l k => M'.update l k (if training = true then st.batches + 1 else st.batches)) order 0 st.stats else some st.stats) =
        (if training = true then updLoop x.data contig (labelChannels labels (t.map sz)) (labelCount labels) M.size
        (fun l k => M.update l k (if training = true then st.batches + 1 else st.batches)) order 0 st.stats else some st.stats) := by
      by_cases htr : training = true
      · rw [htr]
        exact updLoop_map g _ _ _ _ _ _ _ (fun l k fld s => hu htr l k _ fld s) _ _ _
      · rw [if_neg htr, if_neg htr]
    simp only [GTensor.mapCh]
    rw [h1]
    cases (if training = true then updLoop x.data contig (labelChannels labels (t.map sz)) (labelCount labels) M.size
        (fun l k => M.update l k (if training = true then st.batches + 1 else st.batches)) order 0 st.stats else some st.stats) with
    | none => rfl
    | some stats =>
      dsimp only
      rw [fieldLoop_map g g x.data contig _ _ _ (fun l => eachField (M.size l) fun k fld => M.apply training l k fld (stats k)) _
        (fun l k fld => eachField_map g g _ _ _ (fun k fld => ha l k fld _) k fld)]
      cases fieldLoop x.data contig (labelChannels labels (t.map sz)) (labelChannels labels (t.map sz)) (labelCount labels)
        (fun l => eachField (M.size l) fun k fld => M.apply training l k fld (stats k)) order 0 out with
      | none => rfl
      | some y =>
        simp only [Option.map_some]
        rw [mkGT_map]
        cases mkGT sz y t <;> rfl
  · rw [if_neg ht, if_neg (show ¬ (x.mapCh g).ty = t from ht)]
    rfl

theorem poolBySize_map [DecidableEq R] (σ : P' → P) (sz : R → ℕ) (t : List R) (triv : R) (f : List (P → ℝ) → P → ℝ) (f' : List (P' → ℝ) → P' → ℝ)
    (h : ∀ fld, f' (fld.map (· ∘ σ)) = f fld ∘ σ) (junk : List (P → ℝ)) (x : GTensor R (P → ℝ)) :
    poolBySize sz t triv f' (junk.map (· ∘ σ)) (x.mapCh (· ∘ σ)) = (poolBySize sz t triv f junk x).map (GTensor.mapCh (· ∘ σ)) := by
  unfold poolBySize
  by_cases ht : x.ty = t
  · rw [if_pos ht, if_pos (show (x.mapCh (· ∘ σ)).ty = t from ht)]
    simp only [GTensor.mapCh]
    rw [fieldLoop_map (· ∘ σ) (· ∘ σ) x.data _ _ _ _ (fun s => eachField s fun _ fld => [f fld]) _
        (fun l k fld => eachField_map _ _ _ _ _ (fun k fld => by simp [h]) k fld)]
    cases fieldLoop x.data _ _ _ _ (fun s => eachField s fun _ fld => [f fld]) _ 0 junk with
    | none => rfl
    | some y => simp only [Option.map_some]; exact mkGT_map _ _ _ _
  · rw [if_neg ht, if_neg (show ¬ (x.mapCh (· ∘ σ)).ty = t from ht)]
    rfl

theorem fieldNorm_map (σ : P' → P) (fld : List (P → ℝ)) : fieldNorm (fld.map (· ∘ σ)) = fieldNorm fld ∘ σ := by
  funext p
  simp [fieldNorm, List.map_map, Function.comp_def]

theorem mulList_map (σ : P' → P) (a b : List (P → ℝ)) : List.zipWith (· * ·) (a.map (· ∘ σ)) (b.map (· ∘ σ)) = (List.zipWith (· * ·) a b).map (· ∘ σ) := by
  rw [List.map_zipWith, List.zipWith_map]
  rfl

end E2
