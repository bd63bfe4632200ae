import Verif.Model.Shapes

/-!
Declared and computed shapes (C40).  The claim holds for the convolution, the differential operators, the antialiased average pooling, upsampling, max pooling
in floor mode and merging; for the other modules it is false, and the exact conditions are given.
-/

namespace E2

/-- The specification: whenever the forward pass returns a tensor, its shape is the declared one. -/
def Declares (decl : Shape → Option (List Dim)) (actual : Shape → Option Shape) : Prop := ∀ sh r, actual sh = some r → decl sh = some r.dims

/-- The number of positions of a window inside of a padded image, without any formula: the largest number of windows at distance `s`. -/
def IsWindowCount (n p k s d m : ℕ) : Prop := IsGreatest {o : ℕ | 0 < o ∧ (o - 1) * s + d * (k - 1) + 1 ≤ n + 2 * p} m

theorem isWindowCount_convSize {n p k s d m : ℕ} (hs : 0 < s) (h : convSize n p k s d = some m) : IsWindowCount n p k s d m := by
  rw [convSize] at h
  split_ifs at h with hc
  obtain rfl := Option.some.inj h
  set t := n + 2 * p - d * (k - 1) - 1 with ht
  refine ⟨⟨Nat.succ_pos _, ?_⟩, ?_⟩
  · have := Nat.div_mul_le_self t s
    rw [Nat.add_sub_cancel]
    omega
  · rintro o ⟨ho, hle⟩
    have h1 : (o - 1) * s ≤ t := by omega
    have := (Nat.le_div_iff_mul_le hs).2 h1
    omega

/-! ### The arithmetic -/

theorem decl_arg {n p k d : ℕ} (hk : 0 < k) (hc : d * (k - 1) + 1 ≤ n + 2 * p) :
    ((n : ℚ) + 2 * p - d * ((k : ℚ) - 1) - 1) = ((n + 2 * p - d * (k - 1) - 1 : ℕ) : ℚ) := by
  rw [Nat.sub_sub, Nat.cast_sub hc]
  push_cast [Nat.cast_sub hk]
  ring

theorem declFloor_eq {n p k s d : ℕ} (hk : 0 < k) (hc : d * (k - 1) + 1 ≤ n + 2 * p) :
    declFloor n p k s d = ((n + 2 * p - d * (k - 1) - 1) / s + 1 : ℕ) := by
  rw [declFloor, decl_arg hk hc, Int.floor_add_one, Rat.floor_natCast_div_natCast]
  push_cast
  rfl

theorem declCeil_eq {n p k s d : ℕ} (hs : 0 < s) (hk : 0 < k) (hc : d * (k - 1) + 1 ≤ n + 2 * p) :
    declCeil n p k s d = ((n + 2 * p - d * (k - 1) - 1 + s - 1) / s + 1 : ℕ) := by
  rw [declCeil, decl_arg hk hc, Int.ceil_add_one]
  set t := n + 2 * p - d * (k - 1) - 1
  have hsq : (0 : ℚ) < s := by exact_mod_cast hs
  have h1 := Nat.div_mul_le_self (t + s - 1) s
  have h2 := Nat.lt_div_mul_add (a := t + s - 1) hs
  set q := (t + s - 1) / s
  have : ⌈(t : ℚ) / s⌉ = (q : ℤ) := by
    rw [Int.ceil_eq_iff]
    constructor
    · rw [lt_div_iff₀ hsq]
      have : (q : ℚ) * s < t + s := by
        have : q * s < t + s := by omega
        exact_mod_cast this
      push_cast
      linarith
    · rw [div_le_iff₀ hsq]
      have : t ≤ q * s := by omega
      exact_mod_cast this
  rw [this]
  push_cast
  rfl

theorem declFloor_of_convSize {n p k s d m : ℕ} (hk : 0 < k) (h : convSize n p k s d = some m) : declFloor n p k s d = m := by
  rw [convSize] at h
  split_ifs at h with hc
  rw [declFloor_eq hk hc, Option.some.inj h]

theorem poolSize_floor (n p k s d : ℕ) : poolSize false n p k s d = convSize n p k s d := by
  rw [poolSize, convSize]
  simp

theorem pair_some {A B C : Type} {a : Option A} {b : Option B} {f : A → B → C} {r : C} (h : (a.bind fun x => b.map fun y => f x y) = some r) :
    ∃ x y, a = some x ∧ b = some y ∧ r = f x y := by
  cases a with
  | none => simp at h
  | some x =>
    cases b with
    | none => simp at h
    | some y => exact ⟨x, y, rfl, rfl, by simpa using h.symm⟩

/-! ### Convolutions -/

/-- **C40 for `R2Conv` and `R2DiffOp`**: all sizes and parameters, rectangular images included. -/
theorem c40_conv (inS outS p k s d : ℕ) (hk : 0 < k) : Declares (declConv inS outS p k s d) (torchConv inS outS p k s d) := by
  intro sh r h
  rw [torchConv] at h
  split_ifs at h with hc
  obtain ⟨x, y, hx, hy, rfl⟩ := pair_some h
  rw [declConv, if_pos hc, declFloor_of_convSize hk hx, declFloor_of_convSize hk hy]
  rfl

/-- The declared height is the number of windows which fit. -/
theorem c40_conv_count (inS outS p k s d : ℕ) (hk : 0 < k) (hs : 0 < s) (sh r : Shape) (h : torchConv inS outS p k s d sh = some r) :
    ∃ h w : ℕ, declConv inS outS p k s d sh = some [.int sh.b, .int outS, .int h, .int w] ∧ IsWindowCount sh.h p k s d h ∧ IsWindowCount sh.w p k s d w := by
  have hd := c40_conv inS outS p k s d hk sh r h
  rw [torchConv] at h
  split_ifs at h with hc
  obtain ⟨x, y, hx, hy, rfl⟩ := pair_some h
  exact ⟨x, y, hd, isWindowCount_convSize hs hx, isWindowCount_convSize hs hy⟩

/-- **The claim is false for `R2ConvTransposed`**: a 5 × 5 image, kernel 3, stride 2: declared 2 × 2, computed 11 × 11. -/
theorem c40_transposed_wrong : ¬ Declares (declConv 1 1 0 3 2 1) (torchConvT 1 1 0 0 3 2 1) := by
  intro h
  have h1 := h ⟨1, 1, 5, 5⟩ ⟨1, 1, 11, 11⟩ (by decide)
  rw [declConv, if_pos rfl, declFloor_eq (by norm_num) (by norm_num)] at h1
  simp [Shape.dims] at h1

/-- What remains: with stride 1 the two formulas agree exactly when `4 p = 2 d (k - 1) + output_padding` (for instance the padding which keeps the size). -/
theorem c40_transposed_partial (inS outS p op k d : ℕ) (hk : 0 < k) (sh r : Shape) (h : torchConvT inS outS p op k 1 d sh = some r)
    (hfit : d * (k - 1) + 1 ≤ sh.h + 2 * p ∧ d * (k - 1) + 1 ≤ sh.w + 2 * p) :
    declConv inS outS p k 1 d sh = some r.dims ↔ 4 * p = 2 * (d * (k - 1)) + op := by
  rw [torchConvT] at h
  split_ifs at h with hc
  obtain ⟨x, y, hx, hy, rfl⟩ := pair_some h
  rw [convTSize] at hx hy
  split_ifs at hx with hx'
  split_ifs at hy with hy'
  obtain rfl := Option.some.inj hx
  obtain rfl := Option.some.inj hy
  rw [declConv, if_pos hc, declFloor_eq hk hfit.1, declFloor_eq hk hfit.2]
  simp only [Shape.dims, Option.some.injEq, List.cons.injEq, true_and, and_true, Dim.int.injEq, Nat.cast_inj, Nat.div_one, Nat.mul_one] at hx' hy' ⊢
  omega

/-! ### Poolings -/

theorem poolSize_ceil {n p k s d m : ℕ} (h : poolSize true n p k s d = some m) :
    d * (k - 1) + 1 ≤ n + 2 * p ∧
    m = if (n + 2 * p - d * (k - 1) - 1 + s - 1) / s * s ≥ n + p then (n + 2 * p - d * (k - 1) - 1 + s - 1) / s
      else (n + 2 * p - d * (k - 1) - 1 + s - 1) / s + 1 := by
  rw [poolSize] at h
  by_cases hc : d * (k - 1) + 1 ≤ n + 2 * p
  swap
  · rw [if_neg hc] at h
    simp at h
  rw [if_pos hc] at h
  refine ⟨hc, ?_⟩
  simp only [if_true, Option.some.injEq, Nat.add_sub_cancel] at h
  exact h.symm

/-- **C40 for `PointwiseMaxPool`, floor mode**: all sizes and parameters, different ones for the two axes included. -/
theorem c40_maxpool_floor (size ph kh sth dh pw kw stw dw : ℕ) (hkh : 0 < kh) (hkw : 0 < kw) :
    Declares (declPool false size (maxPoolAttrs ph kh sth dh) (maxPoolAttrs pw kw stw dw)) (torchPool false size ph kh sth dh pw kw stw dw) := by
  intro sh r h
  rw [torchPool] at h
  split_ifs at h with hc
  obtain ⟨x, y, hx, hy, rfl⟩ := pair_some h
  rw [poolSize_floor] at hx hy
  rw [declPool, if_pos hc]
  simp only [maxPoolAttrs, Option.bind_eq_bind, Option.bind_some, Bool.false_eq_true, if_false]
  rw [declFloor_of_convSize hkh hx, declFloor_of_convSize hkw hy]
  rfl

/-- **`PointwiseMaxPool`, ceil mode**: exactly when no axis has a last window starting in the right padding (PyTorch drops it, the declared
shape counts it). -/
theorem c40_maxpool_ceil_partial (size ph kh sth dh pw kw stw dw : ℕ) (hkh : 0 < kh) (hkw : 0 < kw) (hsh : 0 < sth) (hsw : 0 < stw) (sh r : Shape)
    (h : torchPool true size ph kh sth dh pw kw stw dw sh = some r) :
    declPool true size (maxPoolAttrs ph kh sth dh) (maxPoolAttrs pw kw stw dw) sh = some r.dims ↔
      ((sh.h + 2 * ph - dh * (kh - 1) - 1 + sth - 1) / sth * sth < sh.h + ph ∧ (sh.w + 2 * pw - dw * (kw - 1) - 1 + stw - 1) / stw * stw < sh.w + pw) := by
  rw [torchPool] at h
  split_ifs at h with hc
  obtain ⟨x, y, hx, hy, rfl⟩ := pair_some h
  obtain ⟨hx1, rfl⟩ := poolSize_ceil hx
  obtain ⟨hy1, rfl⟩ := poolSize_ceil hy
  rw [declPool, if_pos hc]
  simp only [maxPoolAttrs, Option.bind_eq_bind, Option.bind_some, if_true]
  rw [declCeil_eq hsh hkh hx1, declCeil_eq hsw hkw hy1]
  simp only [Shape.dims, Option.some.injEq, List.cons.injEq, true_and, and_true, Dim.int.injEq, Nat.cast_inj]
  split_ifs with h1 h2 h2 <;> omega

/-- A 4 × 4 image, kernel 2, stride 3, padding 1, ceil mode: declared 3, computed 2. -/
theorem c40_maxpool_ceil_wrong : ¬ Declares (declPool true 1 (maxPoolAttrs 1 2 3 1) (maxPoolAttrs 1 2 3 1)) (torchPool true 1 1 2 3 1 1 2 3 1) := by
  intro h
  have h0 : torchPool true 1 1 2 3 1 1 2 3 1 ⟨1, 1, 4, 4⟩ = some ⟨1, 1, 2, 2⟩ := by decide
  have := (c40_maxpool_ceil_partial 1 1 2 3 1 1 2 3 1 (by norm_num) (by norm_num) (by norm_num) (by norm_num) _ _ h0).1 (h _ _ h0)
  simp at this

/-- **C40 for `NormMaxPool`, floor mode**. -/
theorem c40_normpool_floor (size ph kh sth dh pw kw stw dw : ℕ) (hkh : 0 < kh) (hkw : 0 < kw) :
    Declares (declNormPool size (maxPoolAttrs ph kh sth dh) (maxPoolAttrs pw kw stw dw)) (torchPool false size ph kh sth dh pw kw stw dw) :=
  c40_maxpool_floor size ph kh sth dh pw kw stw dw hkh hkw

/-- `NormMaxPool` ignores `ceil_mode`: a 4 × 4 image, kernel 3, stride 2: declared 1, computed 2. -/
theorem c40_normpool_ceil_wrong : ¬ Declares (declNormPool 1 (maxPoolAttrs 0 3 2 1) (maxPoolAttrs 0 3 2 1)) (torchPool true 1 0 3 2 1 0 3 2 1) := by
  intro h
  have h1 := h ⟨1, 1, 4, 4⟩ ⟨1, 1, 2, 2⟩ (by decide)
  rw [declNormPool, declPool, if_pos rfl] at h1
  simp only [maxPoolAttrs, Option.bind_eq_bind, Option.bind_some, Bool.false_eq_true, if_false] at h1
  rw [declFloor_eq (by norm_num) (by norm_num)] at h1
  simp [Shape.dims] at h1

/-- `PointwiseAvgPool.evaluate_output_shape` always raises: the attribute `dilation` does not exist. -/
theorem c40_avgpool_raises (ceil : Bool) (size ph kh sth pw kw stw : ℕ) (sh : Shape) :
    declPool ceil size (avgPoolAttrs ph kh sth) (avgPoolAttrs pw kw stw) sh = none := by
  rw [declPool]
  split_ifs <;> rfl

/-- So the claim is false for it. -/
theorem c40_avgpool_wrong : ¬ Declares (declPool false 1 (avgPoolAttrs 0 2 2) (avgPoolAttrs 0 2 2)) (torchPool false 1 0 2 2 1 0 2 2 1) := by
  intro h
  have h1 := h ⟨1, 1, 4, 4⟩ ⟨1, 1, 2, 2⟩ (by decide)
  rw [c40_avgpool_raises] at h1
  simp at h1

/-- **C40 for `PointwiseAvgPoolAntialiased`**. -/
theorem c40_avgpool_antialiased (size fs ph sth pw stw : ℕ) (hfs : 0 < fs) : Declares (declAvgAA size fs ph sth pw stw) (torchAvgAA size fs ph sth pw stw) := by
  intro sh r h
  rw [torchAvgAA] at h
  split_ifs at h with hc
  obtain ⟨x, y, hx, hy, rfl⟩ := pair_some h
  rw [declAvgAA, if_pos hc, declFloor_of_convSize hfs hx, declFloor_of_convSize hfs hy]
  rfl

/-- One axis of `PointwiseMaxPoolAntialiased` in floor mode: the padding is counted twice. -/
theorem maxAASize_eq {n p k s fs m : ℕ} (hk : 0 < k) (hodd : fs % 2 = 1) (h : maxAASize false n p k s fs = some m) :
    k ≤ n + 2 * p ∧ m = (n + 2 * p - k + 2 * p) / s + 1 := by
  rw [maxAASize, poolSize_floor, convSize] at h
  split_ifs at h with hc
  · rw [Option.bind_some, convSize] at h
    split_ifs at h with hc2
    simp only [Option.some.injEq, Nat.one_mul, Nat.div_one] at h hc hc2
    refine ⟨by omega, ?_⟩
    rw [← h]
    congr 2
    omega
  · simp at h

/-- **`PointwiseMaxPoolAntialiased`** in floor mode without padding: the declared shape is the computed one. -/
theorem c40_maxpool_antialiased_partial (size fs kh sth kw stw : ℕ) (hkh : 0 < kh) (hkw : 0 < kw) (hodd : fs % 2 = 1) :
    Declares (declPool false size (maxPoolAttrs 0 kh sth 1) (maxPoolAttrs 0 kw stw 1)) (torchMaxAA false size fs 0 kh sth 0 kw stw) := by
  intro sh r h
  rw [torchMaxAA] at h
  split_ifs at h with hc
  obtain ⟨x, y, hx, hy, rfl⟩ := pair_some h
  obtain ⟨hx1, rfl⟩ := maxAASize_eq hkh hodd hx
  obtain ⟨hy1, rfl⟩ := maxAASize_eq hkw hodd hy
  rw [declPool, if_pos hc]
  simp only [maxPoolAttrs, Option.bind_eq_bind, Option.bind_some, Bool.false_eq_true, if_false]
  rw [declFloor_eq hkh (by omega), declFloor_eq hkw (by omega)]
  have e1 : sh.h + 2 * 0 - 1 * (kh - 1) - 1 = sh.h + 2 * 0 - kh + 2 * 0 := by omega
  have e2 : sh.w + 2 * 0 - 1 * (kw - 1) - 1 = sh.w + 2 * 0 - kw + 2 * 0 := by omega
  rw [e1, e2]
  rfl

/-- With padding 1 (a 4 × 4 image, kernel 3, stride 2, filter 5): declared 2, computed 3. -/
theorem c40_maxpool_antialiased_wrong : ¬ Declares (declPool false 1 (maxPoolAttrs 1 3 2 1) (maxPoolAttrs 1 3 2 1)) (torchMaxAA false 1 5 1 3 2 1 3 2) := by
  intro h
  have h1 := h ⟨1, 1, 4, 4⟩ ⟨1, 1, 3, 3⟩ (by decide)
  rw [declPool, if_pos rfl] at h1
  simp only [maxPoolAttrs, Option.bind_eq_bind, Option.bind_some, Bool.false_eq_true, if_false] at h1
  rw [declFloor_eq (by norm_num) (by norm_num)] at h1
  simp [Shape.dims] at h1

/-- The adaptive poolings declare pairs instead of sizes, for all inputs they accept. -/
theorem c40_adaptive_wrong (size oh ow : ℕ) (sh r : Shape) (h : torchAdaptive size oh ow sh = some r) : declAdaptive size oh ow sh ≠ some r.dims := by
  rw [torchAdaptive] at h
  split_ifs at h with hc
  obtain rfl := Option.some.inj h
  rw [declAdaptive, if_pos hc]
  simp [Shape.dims]

/-! ### Upsampling and merging -/

/-- **C40 for `R2Upsampling`**. -/
theorem c40_upsampling (size : ℕ) (a : UpSize) : Declares (declUp size a) (torchUp size a) := by
  intro sh r h
  cases a with
  | size hh ww =>
    simp only [torchUp] at h
    split_ifs at h with hc
    obtain rfl := Option.some.inj h
    rw [declUp, if_pos hc.1]
    rfl
  | scale q =>
    simp only [torchUp] at h
    split_ifs at h with hc
    obtain rfl := Option.some.inj h
    rw [declUp, if_pos hc.1]
    simp only [Shape.dims]
    rw [Int.toNat_of_nonneg (by omega), Int.toNat_of_nonneg (by omega)]

/-- **C40 for `MergeModule`**: the shape declared for tensors of one batch size and resolution has the sum of their channels. -/
theorem c40_merge (s : Shape) (ss : List Shape) (h : ∀ o ∈ ss, o.b = s.b ∧ o.h = s.h ∧ o.w = s.w) :
    mergeDecl 0 (s :: ss) = some ⟨s.b, ((s :: ss).map Shape.c).sum, s.h, s.w⟩ := by
  rw [mergeDecl, if_neg (by omega), mergeShapes]
  clear * - h
  induction ss generalizing s with
  | nil => rfl
  | cons o ss ih =>
    obtain ⟨h1, h2, h3⟩ := h o List.mem_cons_self
    rw [List.foldlM_cons, if_pos ⟨h1.symm, h2.symm, h3.symm⟩]
    change ss.foldlM _ ({ s with c := s.c + o.c } : Shape) = _
    rw [ih { s with c := s.c + o.c } fun x hx => h x (List.mem_cons_of_mem _ hx)]
    simp [Nat.add_assoc]

/-- `MultipleModule.evaluate_output_shape` always raises. -/
theorem c40_multiple_raises (inSize : ℕ) (branches : Shape → List Shape) (sh : Shape) : multipleDecl inSize branches sh = none := by
  rw [multipleDecl, mergeDecl, if_pos Nat.one_pos]
  split_ifs <;> rfl

/-! ### The hypotheses are met -/

/-- A rectangular image and a dilated kernel. -/
example : torchConv 3 8 2 5 2 2 ⟨4, 3, 17, 30⟩ = some ⟨4, 8, 7, 13⟩ := by decide

example : declConv 3 8 2 5 2 2 ⟨4, 3, 17, 30⟩ = some [.int 4, .int 8, .int 7, .int 13] :=
  c40_conv 3 8 2 5 2 2 (by norm_num) ⟨4, 3, 17, 30⟩ ⟨4, 8, 7, 13⟩ (by decide)

example : torchConvT 1 1 1 0 3 1 1 ⟨1, 1, 6, 6⟩ = some ⟨1, 1, 6, 6⟩ ∧ 4 * 1 = 2 * (1 * (3 - 1)) + 0 := by decide

example : torchPool true 1 1 3 2 1 0 2 2 1 ⟨1, 1, 8, 7⟩ = some ⟨1, 1, 5, 4⟩ := by decide

example : torchMaxAA false 1 5 0 3 2 0 3 2 ⟨1, 1, 9, 8⟩ = some ⟨1, 1, 4, 3⟩ := by decide

end E2
