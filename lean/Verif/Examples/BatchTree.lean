import Verif.Props.BatchTree
import Verif.Examples.NetTree
import Verif.Examples.DiffopTree

/-!
Some images of a batch in the nested networks of `Examples/NetTree.lean` and `Examples/DiffopTree.lean`.
-/

namespace E2

open Mat Real

theorem treeNet_frozen (f : ℝ → ℝ) : (treeNet f).Frozen := by
  simp [treeNet, NetMod.Frozen, NetMods.Frozen, Layer.Frozen]

theorem treeNet_wf {B : Type} {n : ℕ} (x : GTensor ℕ (Pix B n → ℝ)) (hx : x.ty = [0, 1, 0] ∧ x.data.length = 3) : x.WF fun r => (catRep r).size :=
  ⟨by simp [hx.1], by rw [hx.1, hx.2]; simp [typeSize, catRep_size]⟩

/-- `c107_pick`: the first, second and again the first of seven images. -/
example (interp : ℝ → Img → Img) (f : ℝ → ℝ) (x : GTensor ℕ (Pix (Fin 7) 5 → ℝ)) (hx : x.ty = [0, 1, 0] ∧ x.data.length = 3)
    (junk : List ℕ → (c n : ℕ) → List (Pix (Fin 7) n → ℝ)) (hj : ∀ p, JunkOk (junk p)) (junk' : List ℕ → (c n : ℕ) → List (Pix (Fin 3) n → ℝ))
    (hj' : ∀ p, JunkOk (junk' p)) :
    ∃ y, (treeNet f).forward catRep junk ⟨5, x⟩ = some y ∧ y.n = 1 ∧ y.x.ty = [0, 0, 0] ∧
      (treeNet f).forward catRep junk' (ETensor.pick ![0, 1, 0] ⟨5, x⟩) = some (y.pick ![0, 1, 0]) := by
  have hS := c62_cyclic (F := ℕ) (A := Unit) (I := Unit) interp 2 (by omega) catRep catRep_ok (fun r => by rw [catRep_size]; split_ifs <;> omega)
  obtain ⟨M, hM, hi, ho⟩ := treeNet_built f junk
  rw [← ho]
  exact c107_pick hS (treeNet f) (treeNet_ok interp f) (treeNet_frozen f) ![0, 1, 0] M junk hj junk' hj' hM ⟨5, x⟩ rfl (treeNet_wf x hx) (hx.1.trans hi.symm)

/-- `c107_reorder`: the images in the other order. -/
example (interp : ℝ → Img → Img) (f : ℝ → ℝ) (x : GTensor ℕ (Pix (Fin 7) 5 → ℝ)) (hx : x.ty = [0, 1, 0] ∧ x.data.length = 3)
    (junk : List ℕ → (c n : ℕ) → List (Pix (Fin 7) n → ℝ)) (hj : ∀ p, JunkOk (junk p)) :
    ∃ y, (treeNet f).forward catRep junk ⟨5, x⟩ = some y ∧ y.n = 1 ∧ y.x.ty = [0, 0, 0] ∧
      (treeNet f).forward catRep junk (ETensor.pick Fin.revPerm ⟨5, x⟩) = some (y.pick Fin.revPerm) := by
  have hS := c62_cyclic (F := ℕ) (A := Unit) (I := Unit) interp 2 (by omega) catRep catRep_ok (fun r => by rw [catRep_size]; split_ifs <;> omega)
  obtain ⟨M, hM, hi, ho⟩ := treeNet_built f junk
  rw [← ho]
  exact c107_reorder hS (treeNet f) (treeNet_ok interp f) Fin.revPerm M junk hj junk hj hM ⟨5, x⟩ rfl (treeNet_wf x hx) (hx.1.trans hi.symm)

/-- `c107_image`: image 2 of seven images, and the same image alone. -/
example (interp : ℝ → Img → Img) (f : ℝ → ℝ) (u v w : Pix (Fin 7) 5 → ℝ)
    (junk : List ℕ → (c n : ℕ) → List (Pix (Fin 7) n → ℝ)) (hj : ∀ p, JunkOk (junk p)) (junk' : List ℕ → (c n : ℕ) → List (Pix (Fin 1) n → ℝ)) (hj' : ∀ p, JunkOk (junk' p)) :
    ∃ y y', (treeNet f).forward catRep junk ⟨5, [0, 1, 0], [u, v, w]⟩ = some y ∧
      (treeNet f).forward catRep junk' ⟨5, [0, 1, 0], [fun q => u (2, q.2), fun q => v (2, q.2), fun q => w (2, q.2)]⟩ = some y' ∧
      ∀ c i j, chanImg y.x.data 2 c i j = chanImg y'.x.data 0 c i j := by
  have hS := c62_cyclic (F := ℕ) (A := Unit) (I := Unit) interp 2 (by omega) catRep catRep_ok (fun r => by rw [catRep_size]; split_ifs <;> omega)
  obtain ⟨M, hM, hi, ho⟩ := treeNet_built f junk
  obtain ⟨y, y', h1, h2, -, -, -, h3⟩ := c107_image hS (treeNet f) (treeNet_ok interp f) (treeNet_frozen f) M junk hj hM junk' hj'
    ⟨[0, 1, 0], [u, v, w]⟩ ⟨[0, 1, 0], [fun q => u (2, q.2), fun q => v (2, q.2), fun q => w (2, q.2)]⟩ (treeNet_wf _ ⟨rfl, rfl⟩) (treeNet_wf _ ⟨rfl, rfl⟩) hi.symm 2 0 rfl
    (fun c i j => (chanImg_pick (fun _ : Fin 1 => (2 : Fin 7)) [u, v, w] 0 ▸ rfl))
  exact ⟨y, y', h1, h2, h3⟩

/-- `c107_any` and `c107_diffop_any`: no condition on the network besides the mode, here for the network with a differential operator. -/
example (smp : Sampler) (M : DiffopModule ℤ ℕ) (w b : List ℝ) (f : ℝ → ℝ) (bias : List ℝ) (sigma : ℝ) (junk : List ℕ → (c n : ℕ) → List (Pix (Fin 7) n → ℝ)) (x : ETensor ℕ (Fin 7)) :
    (dtreeNet smp M w b f bias sigma).forward exFlipRep (fun p => pickJunk ![3, 4] (junk p)) (x.pick ![3, 4]) =
      ((dtreeNet smp M w b f bias sigma).forward exFlipRep junk x).map (ETensor.pick ![3, 4]) :=
  c107_diffop_any exFlipRep _ _ (.inl (by simp [dtreeNet, DNetMod.Frozen, DNetMods.Frozen, DLayer.Frozen, Layer.Frozen])) junk x

example (f : ℝ → ℝ) (junk : List ℕ → (c n : ℕ) → List (Pix (Fin 7) n → ℝ)) (x : ETensor ℕ (Fin 7)) :
    (treeNet f).forward catRep (fun p => pickJunk ![3, 4] (junk p)) (x.pick ![3, 4]) = ((treeNet f).forward catRep junk x).map (ETensor.pick ![3, 4]) :=
  c107_any catRep _ _ (.inl (treeNet_frozen f)) junk x

/-- `c107_statistics_false` for the trivial field. -/
example (st : NormState (ℝ × ℝ)) : ∃ net : NetMod ℕ Unit Unit ℕ,
    net = .seq (.cons 0 (.layer (.innerBatchNorm [0] none 1 true (fun _ => 1) (fun _ => 0) true st)) .nil) ∧
      ∃ x : ETensor ℕ (Fin 2), x.x.WF (fun r => (catRep r).size) ∧
        ∀ (junk : List ℕ → (c n : ℕ) → List (Pix (Fin 2) n → ℝ)) (junk' : List ℕ → (c n : ℕ) → List (Pix Unit n → ℝ)), (∀ p, JunkOk (junk p)) → (∀ p, JunkOk (junk' p)) →
        ∃ y y', net.forward catRep junk x = some y ∧ net.forward catRep junk' (x.pick fun _ => 1) = some y' ∧ y' ≠ y.pick fun _ => 1 :=
  c107_statistics_false 0 0 (by simp [catRep_size]) none 1 one_pos true _ _ one_ne_zero true (.inl rfl) st

/-- `c107_diffop_pick`: the network with a differential operator, on two of seven images. -/
example (interp : ℝ → Img → Img) (f : ℝ → ℝ) (bias : List ℝ) (sigma : ℝ) : ∃ (ext : DiscExt) (smp : Sampler) (M : DiffopModule ℤ ℕ),
    r2diffopInitWith ext false "ga" (some 1) (flip2dDiffops 0) exArgs exFlipRep [0] [1] = some (smp, M) ∧ 0 < (M.exp smp exFlipRep [1]).dimension ∧
    ∀ (w b : List ℝ), w.length = (M.exp smp exFlipRep [1]).dimension → ∀ (x : GTensor ℕ (Pix (Fin 7) 5 → ℝ)), x.ty = [0, 1] → x.data.length = 2 →
    ∀ (junk : List ℕ → (c n : ℕ) → List (Pix (Fin 7) n → ℝ)) (junk' : List ℕ → (c n : ℕ) → List (Pix (Fin 2) n → ℝ)), (∀ p, JunkOk (junk p)) → (∀ p, JunkOk (junk' p)) →
      ∃ y, (dtreeNet smp M w b f bias sigma).forward exFlipRep junk ⟨5, x⟩ = some y ∧ y.n = 3 ∧ y.x.ty = [1, 1] ∧
        (dtreeNet smp M w b f bias sigma).forward exFlipRep junk' (ETensor.pick ![6, 2] ⟨5, x⟩) = some (y.pick ![6, 2]) := by
  obtain ⟨ext, smp, M, hM, hdim, hO⟩ := dtreeNet_ok interp f bias sigma
  refine ⟨ext, smp, M, hM, hdim, fun w b hw x hx hxl junk junk' hj hj' => ?_⟩
  have hok : ∀ n, (exFlipRep n).WF ∧ ∀ i ∈ (exFlipRep n).irreps, ∃ k, Cyclic.irrep 2 k = some i := fun n => ⟨(exFlipRep_ok n).1, (exFlipRep_ok n).2.2⟩
  have hpos : ∀ n, 0 < (exFlipRep n).size := fun n => by rw [(exFlipRep_ok n).2.1]; exact one_pos
  have hS := c62_flip (A := Unit) (I := Unit) interp 0 exFlipRep hok hpos
  obtain ⟨N, hN, hi, ho⟩ := dtreeNet_built smp M w b f bias sigma junk
  rw [← ho]
  exact c107_diffop_pick hS (c104_flip interp 0 exFlipRep hok hpos) _ (hO w b hw) (by simp [dtreeNet, DNetMod.Frozen, DNetMods.Frozen, DLayer.Frozen, Layer.Frozen]) ![6, 2] N junk hj
    junk' hj' hN ⟨5, x⟩ rfl ⟨by simp [hx], by simp [hx, hxl, typeSize, (exFlipRep_ok 0).2.1, (exFlipRep_ok 1).2.1]⟩ (by rw [hi]; exact hx)

end E2
