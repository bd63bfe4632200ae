import Verif.Props.DefaultTest
import Verif.Examples.NetTree

/-!
The inherited self test on a network and on a module which is not equivariant.
-/

namespace E2

open Mat

/-- A nonlinearity and an identity, one after the other. -/
noncomputable def testNet (f : ℝ → ℝ) : NetMod ℕ Unit Unit ℕ := .seq (.cons 0 (.layer (.pointwise [0, 0] f)) (.cons 1 (.layer (.identity [0, 0])) .nil))

/-- `c108_network` and `c108_right_angles` for this network: it passes on every minibatch. -/
example (interp : ℝ → Img → Img) (f : ℝ → ℝ) (u v : Pix (Fin 3) 10 → ℝ) (junk : ℤ → Bool → List ℕ → (c n : ℕ) → List (Pix (Fin 3) n → ℝ))
    (hj : ∀ g b p, JunkOk (junk g b p)) :
    defaultCheck (rotSpace interp 2) catRep (Cyclic.testingElements 2) (fun g b => (testNet f).forward catRep (junk g b)) ⟨10, [0, 0], [u, v]⟩ =
      some ((Cyclic.testingElements 2).map fun g => (g, 0)) := by
  have hS := c62_cyclic (F := ℕ) (A := Unit) (I := Unit) interp 2 (by omega) catRep catRep_ok (fun r => by rw [catRep_size]; split_ifs <;> omega)
  obtain ⟨M, e, i, -⟩ := seqMod_some (fun r => (catRep r).size)
    [(0, (Layer.pointwise [0, 0] f : Layer ℕ Unit Unit).toShapedMod catRep (junk 0 false [0])), (1, (Layer.identity [0, 0] : Layer ℕ Unit Unit).toShapedMod catRep (junk 0 false [1]))]
    (by simp) (by simp) (by simp [Fits, Layer.toShapedMod, Layer.outTy, Layer.inTy])
  have hM : (testNet f).build catRep (junk 0 false) = some M := by
    simp only [testNet, NetMod.build, NetMods.build, Option.bind_some, Option.map_some]
    exact e
  have hok : (testNet f).Ok (rotSpace interp 2) catRep (builtRot 2 catRep) 10 10 := by
    simp only [testNet, NetMod.Ok, NetMods.OkSeq, NetMods.names]
    refine ⟨by simp, 10, ⟨rfl, ?_⟩, 10, rfl, rfl⟩
    intro r hr g hg
    obtain rfl : r = 0 := by simpa using hr
    rw [show (catRep 0).size = 1 by simp [catRep_size]]
    refine ⟨1, fun i j => ?_⟩
    obtain rfl : i = 0 := Subsingleton.elim _ _
    obtain rfl : j = 0 := Subsingleton.elim _ _
    simpa using (catRep_mat 0 g hg).1 rfl
  exact c108_network hS (testNet f) hok (junk 0 false) (hj 0 false) M hM _ (fun g hg => c108_right_angles interp 2 ⟨2, rfl⟩ g hg) junk hj _ rfl
    ⟨by simp, by simp [typeSize, catRep_size]⟩ i.symm

/-- A module which returns the same image of ones for every input, on a field whose sign changes under a half turn, fails (`c108_cyclic`). -/
example (interp : ℝ → Img → Img) : ¬ ∀ x : ETensor ℕ (Fin 3), x.n = 10 →
    defaultCheck (rotSpace interp 2) catRep (Cyclic.testingElements 2) (fun _ _ _ => some ⟨10, [1], [fun _ => 1]⟩) x ≠ none := by
  intro h
  have h1 : (Cyclic.grp 2).isEl 1 := rfl
  obtain ⟨y, z, hy, hz, e⟩ := (c108_cyclic interp 2 catRep (fun _ _ _ => some ⟨10, [1], [fun _ => 1]⟩) fun x => x.n = 10).1.1 h 1 h1 ⟨10, [1], [fun _ => 1]⟩ rfl
  obtain rfl := Option.some.inj hy
  obtain rfl := Option.some.inj hz
  have hs : (catRep 1).size = 1 := by simp [catRep_size]
  have ht : typeSize (fun r => (catRep r).size) [1] = 1 := by simp [typeSize, hs]
  obtain ⟨i', hi', j', hj', -, hf⟩ := c45_formula (rotSpace interp 2) (rotSpace_grid interp 2 (by omega)) 1 (typeMat catRep [1] 1) 1 h1
    (c108_right_angles interp 2 ⟨2, rfl⟩ 1 (by simp [Cyclic.testingElements, Cyclic.elements])).2 10 0 0 (by omega) (by omega)
  have hm : typeMat catRep [1] 1 0 0 = -1 := by
    simpa [typeMat, bdiag, hs] using (catRep_mat 1 1 h1).2.1 rfl
  simp only [ETensor.act, ETensor.plain, PTensor.mk.injEq, heq_eq_eq, true_and, ht] at e
  have e0 := congrFun (congrArg (fun l : List (Pix (Fin 3) 10 → ℝ) => l.getD 0 0) e) (0, 0, 0)
  simp only [List.range_one, List.map_cons, List.map_nil, List.getD_cons_zero] at e0
  have := hf (chanImg (B := Fin 3) (n := 10) [fun _ => 1] 0) 0
  simp only [Finset.sum_range_one, hm] at this
  have hc : chanImg (B := Fin 3) (n := 10) [fun _ => 1] 0 0 i' j' = 1 := by
    simp [chanImg, readZ, hi', hj']
  rw [hc] at this
  have e1 := this.symm.trans e0
  norm_num at e1

end E2
