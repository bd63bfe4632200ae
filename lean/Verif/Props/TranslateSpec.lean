import Verif.Model.Network

/-!
# Specification: the window of the input which an output of a network sees
-/

namespace E2

variable {El F A I B : Type}

/-- The stride `s`, the padding `p` and the width `r` of the windows of a module: the output at position `i` is computed from the positions `i s - p, …, i s - p + r - 1`
of the input.  `none` for the modules which do not treat all positions in the same way: masks, adaptive pooling, batch normalisation with the statistics of the batch;
and for transposed convolution and upsampling, whose outputs are finer than the input. -/
def Layer.view : Layer F A I → Option (ℕ × ℕ × ℕ)
  | .conv c _ _ _ _ _ => if 0 < c.s then some (c.s, c.p, c.d * (c.k - 1) + 1) else none
  | .pointwise _ _ | .norm _ _ _ _ | .inducedNorm _ _ _ _ _ | .gated _ _ _ _ _ _ _ => some (1, 0, 1)
  | .innerBatchNorm _ _ _ track _ _ training _ => if training = false ∧ track = true then some (1, 0, 1) else none
  | .normBatchNorm _ _ _ _ training _ | .inducedBatchNorm _ _ _ _ _ training _ | .gnormBatchNorm _ _ _ _ _ _ training _ =>
      if training = false then some (1, 0, 1) else none
  | .maxPool _ k s p d _ => if 0 < s then some (s, p, d * (k - 1) + 1) else none
  | .maxPoolAntialiased _ k s p _ fs _ => if 0 < s then some (s, p + (p + (fs - 1) / 2), (fs - 1) + (k - 1) + 1) else none
  | .avgPool _ k s p _ => if 0 < s then some (s, p, (k - 1) + 1) else none
  | .avgPoolAntialiased _ s p fs _ => if 0 < s then some (s, p, (fs - 1) + 1) else none
  | .groupPool _ _ | .normPool _ _ | .inducedNormPool _ _ _ => some (1, 0, 1)
  | .dropout _ _ _ | .identity _ | .concatenated _ _ _ | .reshuffle _ _ => some (1, 0, 1)
  | .convT _ _ _ _ _ _ | .adaptiveAvgPool _ _ | .adaptiveMaxPool _ _ | .mask _ _ _ | .upsample _ _ => none

/-- The windows of a network: stride, padding and width of the windows of the composition. -/
def netView : List (Layer F A I) → Option (ℕ × ℕ × ℕ)
  | [] => some (1, 0, 1)
  | l :: ls =>
    match l.view, netView ls with
    | some (s, p, r), some (S, P, R) => some (s * S, P * s + p, (R - 1) * s + r)
    | _, _ => none

/-- The window of output `i` is inside of an image of width `n`, it does not reach the padding. -/
def Inside (n s p r i : ℕ) : Prop := p ≤ i * s ∧ i * s - p + r ≤ n

/-- The images number `b` of `x` and `b'` of `y` show the same in the windows of width `r` which start at the pixels `(i, j)` and `(i', j')`. -/
def SameWindow {n n' : ℕ} (r : ℕ) (x : List (Pix B n → ℝ)) (y : List (Pix B n' → ℝ)) (b b' : B) (i j i' j' : ℕ) : Prop :=
  ∀ c u v, u < r → v < r → chanImg x b c (i + u) (j + v) = chanImg y b' c (i' + u) (j' + v)

/-- The images of `y` show those of `x`, moved by `a` pixels down and `b` pixels to the right, what leaves the image on one side coming back on the other. -/
def Rolled {n : ℕ} (a b : ℕ) (x y : List (Pix B n → ℝ)) : Prop :=
  ∀ q c i j, i < n → j < n → chanImg y q c ((i + a) % n) ((j + b) % n) = chanImg x q c i j

/-- The width of the output images of a module with windows. -/
def Layer.imgSize : Layer F A I → ℕ → Option ℕ
  | .conv c _ _ _ _ _, n => convSize n c.p c.k c.s c.d
  | .maxPool _ k s p d ceil, n => poolSize ceil n p k s d
  | .maxPoolAntialiased _ k s p ceil fs _, n => (poolSize ceil n p k 1 1).bind fun n1 => convSize n1 (p + (fs - 1) / 2) fs s 1
  | .avgPool _ k s p ceil, n => poolSize ceil n p k s 1
  | .avgPoolAntialiased _ s p fs _, n => convSize n p fs s 1
  | .convT _ _ _ _ _ _, _ | .adaptiveAvgPool _ _, _ | .adaptiveMaxPool _ _, _ | .mask _ _ _, _ | .upsample _ _, _ => none
  | _, n => some n

/-- The modules which treat the image as a torus, with stride `s`, from `n × n` to `m × m` pixels: convolutions with circular padding, and modules without padding whose
windows do not overlap; in both cases the strides cover the image exactly. -/
def Layer.Rolls (l : Layer F A I) (n m s : ℕ) : Prop :=
  l.imgSize n = some m ∧ 0 < s ∧ m * s = n ∧
    match l with
    | .conv c _ _ _ _ _ => c.s = s ∧ ((c.mode = .circular ∧ c.p ≤ n) ∨ (c.p = 0 ∧ c.d * (c.k - 1) + 1 ≤ s))
    | l => ∃ r, l.view = some (s, 0, r) ∧ r ≤ s

/-- A network of such modules, with stride `S` in total, on images with `n × n` pixels. -/
def CyclicNet : List (Layer F A I) → ℕ → ℕ → Prop
  | [], _, S => S = 1
  | l :: ls, n, S => ∃ m s S', l.Rolls n m s ∧ CyclicNet ls m S' ∧ S = s * S'

variable [LinearOrder F]

/-- What the constructors check, as far as it is needed here: types are not empty, the gates fit, the fields returned by the poolings are single channels, subfields have
equal sizes, the representations built for the concatenated nonlinearity have twice the size, fields are permuted. -/
def Layer.Plain (rep : F → Repr El) : Layer F A I → Prop
  | .conv _ _ _ outT _ _ => outT ≠ []
  | .inducedNorm t subs _ _ _ => inducedNormCheck (fun r => (rep r).size) subs t = true
  | .gated t trivial supports gates _ _ bias => gated1Check trivial supports t gates = true ∧ bias.length = gates.count true ∧ ∀ r, trivial r = true → (rep r).size = 1
  | .gnormBatchNorm t order _ _ _ _ _ _ => order.Nodup ∧ ∀ r, r ∈ order ↔ r ∈ t
  | .groupPool _ triv | .normPool _ triv => (rep triv).size = 1
  | .inducedNormPool t sub triv => (rep triv).size = 1 ∧ ∀ r ∈ t, sub r ∣ (rep r).size
  | .concatenated t out _ => ∀ r ∈ t, (rep (out r)).size = 2 * (rep r).size
  | .reshuffle t perm => perm.Perm (List.range t.length)
  | _ => True

end E2
