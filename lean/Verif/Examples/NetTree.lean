import Verif.Props.NetTree
import Verif.Examples.NetFibre

/-!
Nested networks: a `MultipleModule` inside a `SequentialModule`, with a `SequentialModule` as one of its branches.
-/

namespace E2

open Mat

/-- The fields with label 0 are trivial and go through a pointwise nonlinearity and an identity, the field with label 1 is a sign and goes through a concatenated
nonlinearity; then the group is pooled and the image is averaged. -/
noncomputable def treeNet (f : ℝ → ℝ) : NetMod ℕ Unit Unit ℕ :=
  .seq (.cons 0 (.multi [0, 1, 0] 1 [0, 1, 0]
      (.cons 0 (.seq (.cons 0 (.layer (.pointwise [0, 0] f)) (.cons 1 (.layer (.identity [0, 0])) .nil)))
        (.cons 1 (.layer (.concatenated [1] (· + 2) f)) .nil)))
    (.cons 1 (.layer (.groupPool [0, 0, 3] 0)) (.cons 2 (.layer (.avgPool [0, 0, 0] 5 1 0 false)) .nil)))

theorem catRep_sizes : (fun r => (catRep r).size) = fun r => if r < 2 then 1 else 2 := funext catRep_size

theorem treeNet_branch : branchType (fun r => (catRep r).size) 1 [0, 1, 0] [0, 1, 0] 0 = some [0, 0] ∧
    branchType (fun r => (catRep r).size) 1 [0, 1, 0] [0, 1, 0] 1 = some [1] := by
  have e : branchPerm (fun r => (catRep r).size) 1 [0, 1, 0] [0, 1, 0] = [0, 2, 1] := by
    rw [catRep_sizes, branchPerm]
    simp [List.mergeSort, List.MergeSort.Internal.splitInTwo]
  constructor
  · rw [branchType, e]; rfl
  · rw [branchType, e]; rfl

/-- The network can be built. -/
theorem treeNet_built {B : Type} [Fintype B] (f : ℝ → ℝ) (junk : List ℕ → (c n : ℕ) → List (Pix B n → ℝ)) :
    ∃ M, (treeNet f).build catRep junk = some M ∧ M.inTy = [0, 1, 0] ∧ M.outTy = [0, 0, 0] := by
  obtain ⟨h0, h1⟩ := treeNet_branch
  simp only [treeNet, NetMod.build, NetMods.build, Option.bind_some, Option.map_some]
  obtain ⟨M₁, e₁, i₁, o₁⟩ := seqMod_some (fun r => (catRep r).size)
    [(0, (Layer.pointwise [0, 0] f : Layer ℕ Unit Unit).toShapedMod catRep (junk [0, 0, 0])), (1, (Layer.identity [0, 0] : Layer ℕ Unit Unit).toShapedMod catRep (junk [0, 0, 1]))]
    (by simp) (by simp) (by simp [Fits, Layer.toShapedMod, Layer.outTy, Layer.inTy])
  rw [e₁]
  simp only [Option.bind_some]
  obtain ⟨M₂, e₂, i₂, o₂⟩ := multiMod_some (fun r => (catRep r).size) [0, 1, 0] 1 [0, 1, 0]
    [(0, M₁), (1, (Layer.concatenated [1] (· + 2) f : Layer ℕ Unit Unit).toShapedMod catRep (junk [0, 1]))] (junk [0]) (by omega) rfl
    (by intro k; simp; tauto) (by
      intro m hm
      simp only [List.mem_cons, List.not_mem_nil, or_false] at hm
      rcases hm with rfl | rfl
      · rw [i₁]; exact h0
      · exact h1) (by simp [o₁, Layer.toShapedMod, Layer.outTy])
  rw [e₂]
  simp only [Option.map_some, Option.bind_some]
  obtain ⟨M₃, e₃, i₃, o₃⟩ := seqMod_some (fun r => (catRep r).size)
    [(0, M₂), (1, (Layer.groupPool [0, 0, 3] 0 : Layer ℕ Unit Unit).toShapedMod catRep (junk [1])),
      (2, (Layer.avgPool [0, 0, 0] 5 1 0 false : Layer ℕ Unit Unit).toShapedMod catRep (junk [2]))]
    (by simp) (by simp) (by simp [Fits, o₂, o₁, Layer.toShapedMod, Layer.outTy, Layer.inTy])
  exact ⟨M₃, e₃, by rw [i₃]; exact i₂, o₃⟩

theorem treeNet_ok (interp : ℝ → Img → Img) (f : ℝ → ℝ) : (treeNet f).Ok (rotSpace interp 2) catRep (builtRot 2 catRep) 5 1 := by
  have s : ∀ r < 2, (catRep r).size = 1 ∧ (catRep (r + 2)).size = 2 := fun r hr => ⟨by rw [catRep_size, if_pos hr], by rw [catRep_size, if_neg (by omega)]⟩
  have e1 : ∀ g, (Cyclic.grp 2).isEl g → IsSignedPerm 1 ((catRep 1).mat g) := fun g hg => signed_one (by
    rw [(catRep_mat 1 g hg).2.1 rfl]
    split_ifs <;> simp)
  have k1 : ∀ g, (Cyclic.grp 2).isEl g → MEq 2 2 ((catRep 3).mat g) (concatMat ((catRep 1).mat g)) := by
    intro g hg
    refine MEq.trans ?_ concatMat_size_one.symm
    rw [(catRep_mat 1 g hg).2.1 rfl]
    exact (catRep_mat 3 g hg).2.2.2 (by omega)
  have p0 : ∀ g, (Cyclic.grp 2).isEl g → IsPerm 1 ((catRep 0).mat g) := by
    intro g hg
    refine ⟨1, fun i j => ?_⟩
    obtain rfl : i = 0 := Subsingleton.elim _ _
    obtain rfl : j = 0 := Subsingleton.elim _ _
    simpa using (catRep_mat 0 g hg).1 rfl
  have p3 : ∀ g, (Cyclic.grp 2).isEl g → IsPerm 2 ((catRep 3).mat g) := fun g hg =>
    isPerm_iff_sPerm.2 ((isPerm_iff_sPerm.1 (e1 g hg).concatMat).congr (k1 g hg).symm)
  simp only [treeNet, NetMod.Ok, NetMods.OkSeq, NetMods.OkAll, NetMods.names, NetMod.ShapeOk, NetMods.ShapeOk]
  refine ⟨by simp, 5, ⟨⟨⟨trivial, trivial, trivial⟩, trivial, trivial⟩, ⟨by simp, 5, ⟨rfl, ?_⟩, 5, rfl, rfl⟩, ⟨rfl, ?_⟩, trivial⟩,
    5, ⟨rfl, ⟨(s 0 (by omega)).1, fun g hg => (catRep_mat 0 g hg).1 rfl⟩, ?_⟩, 1, ⟨rfl, rfl⟩, rfl⟩
  · intro r hr g hg
    obtain rfl : r = 0 := by simpa using hr
    rw [(s 0 (by omega)).1]
    exact p0 g hg
  · intro r hr
    obtain rfl : r = 1 := by simpa using hr
    rw [(s 1 (by omega)).1]
    exact ⟨(s 1 (by omega)).2, fun g hg => ⟨e1 g hg, k1 g hg⟩⟩
  · intro r hr g hg
    have hr : r = 0 ∨ r = 3 := by simpa using hr
    rcases hr with rfl | rfl
    · rw [(s 0 (by omega)).1]; exact p0 g hg
    · rw [(s 1 (by omega)).2]; exact p3 g hg

/-- `c102_network` for this network: a half turn of the image gives the same output, for every function and every memory. -/
example (interp : ℝ → Img → Img) (f : ℝ → ℝ) (x : GTensor ℕ (Pix (Fin 7) 5 → ℝ)) (hx : x.ty = [0, 1, 0] ∧ x.data.length = 3)
    (junk : List ℕ → (c n : ℕ) → List (Pix (Fin 7) n → ℝ)) (hj : ∀ p, JunkOk (junk p)) :
    ∃ y, y.n = 1 ∧ y.x.ty = [0, 0, 0] ∧ (treeNet f).forward catRep junk ⟨5, x⟩ = some y ∧
      (treeNet f).forward catRep junk (ETensor.act (rotSpace interp 2) catRep 1 ⟨5, x⟩) = some (y.act (rotSpace interp 2) catRep 1) := by
  have hS := c62_cyclic (F := ℕ) (A := Unit) (I := Unit) interp 2 (by omega) catRep catRep_ok (fun r => by rw [catRep_size]; split_ifs <;> omega)
  obtain ⟨M, hM, hi, ho⟩ := treeNet_built f junk
  obtain ⟨y, h1, -, h3, h4, h5⟩ := c102_network hS (treeNet f) (treeNet_ok interp f) junk hj M hM ⟨5, x⟩ rfl
    ⟨by simp [hx.1], by rw [show (⟨5, x⟩ : ETensor ℕ (Fin 7)).x = x from rfl, hx.1, hx.2]; simp [typeSize, catRep_size]⟩ (hx.1.trans hi.symm)
  exact ⟨y, h1, h3.trans ho, h4 junk hj, h5 1 rfl ⟨2, by norm_num; ring⟩ junk hj⟩

/-- A `MultipleModule` inside another one: the constructor accepts it, and every call raises (`c102_nested`). -/
example {B : Type} [Fintype B] (junk : List ℕ → (c n : ℕ) → List (Pix B n → ℝ)) :
    ∃ net : NetMod ℕ Unit Unit ℕ, (net.build catRep junk).isSome ∧ ∀ x, net.forward catRep junk x = none := by
  refine ⟨.multi [0, 1] 0 [0, 1] (.cons 0 (.multi [0] 0 [0] (.cons 0 (.layer (.identity [0])) .nil)) (.cons 1 (.layer (.identity [1])) .nil)), ?_, ?_⟩
  · simp only [NetMod.build, NetMods.build, Option.bind_some, Option.map_some]
    obtain ⟨M₁, e₁, i₁, o₁⟩ := multiMod_some (fun r => (catRep r).size) [0] 0 [0] [(0, (Layer.identity [0] : Layer ℕ Unit Unit).toShapedMod catRep (junk [0, 0]))]
      (junk [0]) (by omega) rfl (by simp) (by simp [Layer.toShapedMod, Layer.inTy]; rfl) (by simp [Layer.toShapedMod, Layer.outTy])
    rw [e₁]
    simp only [Option.bind_some]
    obtain ⟨M₂, e₂, -, -⟩ := multiMod_some (fun r => (catRep r).size) [0, 1] 0 [0, 1]
      [(0, M₁), (1, (Layer.identity [1] : Layer ℕ Unit Unit).toShapedMod catRep (junk [1]))] (junk []) (by omega) rfl (by simp) (by
        intro m hm
        simp only [List.mem_cons, List.not_mem_nil, or_false] at hm
        rcases hm with rfl | rfl
        · rw [i₁]; rfl
        · rfl) (by simp [o₁, Layer.toShapedMod, Layer.outTy])
    rw [e₂]
    rfl
  · exact c102_nested catRep junk _ _ _ _ (by simp [NetMods.Undeclared, NetMod.Undeclared])

/-- `c102_multiple`: the identity on each of two fields, side by side and in the other order. -/
example {B : Type} [Fintype B] (interp : ℝ → Img → Img) (junk : List ℕ → (c n : ℕ) → List (Pix B n → ℝ)) (hj : ∀ p, JunkOk (junk p)) (u v : Pix B 9 → ℝ) :
    (NetMod.multi [0, 1] 0 [1, 0] (.cons 0 (.layer (.identity [1])) (.cons 1 (.layer (.identity [0])) .nil)) : NetMod ℕ Unit Unit ℕ).forward catRep junk
      ⟨9, [0, 1], [u, v]⟩ = some ⟨9, [1, 0], [v, u]⟩ := by
  have hS := c62_cyclic (F := ℕ) (A := Unit) (I := Unit) interp 2 (by omega) catRep catRep_ok (fun r => by rw [catRep_size]; split_ifs <;> omega)
  have hx : (⟨[0, 1], [u, v]⟩ : GTensor ℕ (Pix B 9 → ℝ)).WF fun r => (catRep r).size := ⟨by simp, by simp [typeSize, catRep_size]⟩
  obtain ⟨ys, h1, h2, h3⟩ := c102_multiple hS [0, 1] 0 [1, 0] (.cons 0 (.layer (.identity [1])) (.cons 1 (.layer (.identity [0])) .nil)) (n := 9) (m := 9)
    (by simp only [NetMod.Ok, NetMods.OkAll, NetMods.ShapeOk, NetMod.ShapeOk]; exact ⟨⟨trivial, trivial, trivial⟩, rfl, rfl, trivial⟩) junk hj (by
      simp only [NetMod.build, NetMods.build, Option.bind_some, Option.map_some]
      obtain ⟨M, e, -, -⟩ := multiMod_some (fun r => (catRep r).size) [0, 1] 0 [1, 0]
        [(0, (Layer.identity [1] : Layer ℕ Unit Unit).toShapedMod catRep (junk [0])), (1, (Layer.identity [0] : Layer ℕ Unit Unit).toShapedMod catRep (junk [1]))]
        (junk []) (by omega) rfl (by intro k; simp; tauto) (by
          intro m hm
          simp only [List.mem_cons, List.not_mem_nil, or_false] at hm
          rcases hm with rfl | rfl <;> rfl) (by simp [Layer.toShapedMod, Layer.outTy])
      rw [e]
      rfl) ⟨[0, 1], [u, v]⟩ hx rfl
  rw [h3]
  simp only [NetMods.Results] at h1
  obtain ⟨fs, z, y, _, a1, a2, -, a4, a5, rfl, fs', z', y', _, b1, b2, -, b4, b5, rfl, rfl⟩ := h1
  have one : ∀ (fs : List ℕ) (c : ℕ), (∀ d, d ∈ fs ↔ d = c) → fs.Nodup → fs = [c] := by
    intro fs c h1 h2
    cases fs with
    | nil => simpa using (h1 c).2 rfl
    | cons a fs =>
      obtain rfl := (h1 a).1 (by simp)
      cases fs with
      | nil => rfl
      | cons b fs =>
        obtain rfl := (h1 b).1 (by simp)
        simp at h2
  obtain rfl := one fs 1 (fun d => by rw [a1]; match d with
    | 0 => simp
    | 1 => simp
    | d + 2 => simp) a2
  obtain rfl := one fs' 0 (fun d => by rw [b1]; match d with
    | 0 => simp
    | 1 => simp
    | d + 2 => simp) b2
  have e0 : (catRep 0).size = 1 := by rw [catRep_size]; rfl
  have e1 : (catRep 1).size = 1 := by rw [catRep_size]; rfl
  obtain rfl : (⟨[1], [v]⟩ : GTensor ℕ (Pix B 9 → ℝ)) = z := by simpa [GTensor.select, GTensor.fields, chunks, e0, e1] using a4
  obtain rfl : (⟨[0], [u]⟩ : GTensor ℕ (Pix B 9 → ℝ)) = z' := by simpa [GTensor.select, GTensor.fields, chunks, e0, e1] using b4
  obtain rfl : (⟨[1], [v]⟩ : GTensor ℕ (Pix B 9 → ℝ)) = y := by simpa [NetMod.forward, NetMod.build, Layer.toShapedMod, Layer.forward] using a5
  obtain rfl : (⟨[0], [u]⟩ : GTensor ℕ (Pix B 9 → ℝ)) = y' := by simpa [NetMod.forward, NetMod.build, Layer.toShapedMod, Layer.forward] using b5
  rfl

/-- `c102_adaptive` and `c102_broadcast` for the trivial field. -/
example {B : Type} [Fintype B] (junk : List ℕ → (c n : ℕ) → List (Pix B n → ℝ)) (x : ETensor ℕ B) :
    (NetMod.multi [0, 1] 0 [0, 1] (.cons 0 (.layer (.adaptiveAvgPool [0] 3)) (.cons 1 (.layer (.identity [1])) .nil)) : NetMod ℕ Unit Unit ℕ).forward catRep junk x
      = none :=
  c102_adaptive catRep junk _ _ _ _ 0 [0] 3 (.inl (by simp [NetMods.toList])) x

example {B : Type} [Fintype B] (junk : List ℕ → (c n : ℕ) → List (Pix B n → ℝ)) (hj : ∀ p, JunkOk (junk p)) (v : Pix B 1 → ℝ) :
    (NetMod.multi [0] 0 [0] (.cons 0 (.layer (.maxPool [0] 2 2 1 1 true)) .nil) : NetMod ℕ Unit Unit ℕ).forward catRep junk ⟨1, [0], [v]⟩
      = some ⟨2, [0], [fun q => v (q.1, 0, 0)]⟩ :=
  (c102_broadcast catRep (fun r => by rw [catRep_size]; split_ifs <;> omega) junk hj 0 0 ⟨[0], [v]⟩ ⟨by simp, by simp [typeSize, catRep_size]⟩ rfl).2

end E2
