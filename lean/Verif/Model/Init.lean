import Verif.Model.Expansion

/-!
# Weight initialisation: `nn/init.py`

A random number is a parameter: the theorems hold for all its values.
-/

namespace E2

variable {Nm : Type} [DecidableEq Nm]

/-- The entries of the dictionaries yielded by `get_basis_info` which `init.py` reads: `in_irrep`, `out_irrep`, `in_irreps_position`, `out_irreps_position` and
`radius` or else `order` (lines 109-114; `none` if there is neither). -/
structure WInfo (Nm : Type) where
  inIrr : Nm
  outIrr : Nm
  inPos : ℕ
  outPos : ℕ
  rad : Option ℝ

/-! ## `generalized_he_init` -/

/-- The state of the first loop of `_generalized_he_init_variances` (init.py:26-27): the sets of names, as lists without repetitions, and the numbers. -/
structure HeCounts (Nm : Type) where
  inputs : ℕ → List Nm
  basis : Nm → ℕ → ℕ

/-- One step of the loop (init.py:31-35). -/
def HeCounts.step (c : HeCounts Nm) (a : WInfo Nm) : HeCounts Nm where
  inputs o := if o = a.outPos then (c.inputs o).insert a.inIrr else c.inputs o
  basis i o := if i = a.inIrr ∧ o = a.outPos then c.basis i o + 1 else c.basis i o

/-- The loop (init.py:26-35). -/
def heCounts (infos : List (WInfo Nm)) : HeCounts Nm := infos.foldl HeCounts.step ⟨fun _ => [], fun _ _ => 0⟩

/-- `_generalized_he_init_variances` (init.py:14-45), for a basis expansion with dimension `dim`: a vector of ones whose first entries are overwritten; `none` for an
index out of range.  The numbers are standard deviations, as the code multiplies normal variables by them. -/
noncomputable def heVars (dim : ℕ) (infos : List (WInfo Nm)) : Option (List ℝ) :=
  if infos.length ≤ dim then
    some ((infos.map fun a => 1 / Real.sqrt ((((heCounts infos).inputs a.outPos).length * (heCounts infos).basis a.inIrr a.outPos : ℕ) : ℝ))
      ++ List.replicate (dim - infos.length) 1)
  else none

/-- A call of `generalized_he_init` (init.py:51-83): the expansion (its dimension and attributes), the flag `cache`, the shape of the tensor and the values of
`torch.randn_like`. -/
structure HeCall (K : Type) where
  exp : K
  cache : Bool
  len : ℕ
  noise : List ℝ

section

variable {K : Type}

open Classical in
/-- `generalized_he_init` (init.py:73-83): the new contents of the tensor (`none` for an exception) and `cached_he_vars` afterwards.  `same` is `==` on the expansions,
`dim` and `infos` are `dimension` and `get_basis_info`. -/
noncomputable def heInit (same : K → K → Prop) (dim : K → ℕ) (infos : K → List (WInfo Nm)) (mem : List (K × List ℝ)) (c : HeCall K) :
    Option (List ℝ) × List (K × List ℝ) :=
  if c.len ≠ dim c.exp then (none, mem)
  else
    let vars := heVars (dim c.exp) (infos c.exp)
    let fill := fun v : List ℝ => List.zipWith (· * ·) v c.noise
    if c.cache then
      match mem.find? fun e => decide (same e.1 c.exp) with
      | some e => (some (fill e.2), mem)
      | none => match vars with
        | none => (none, mem)
        | some v => (some (fill v), (c.exp, v) :: mem)
    else (vars.map fill, mem)

/-- A sequence of calls. -/
noncomputable def heRun (same : K → K → Prop) (dim : K → ℕ) (infos : K → List (WInfo Nm)) : List (K × List ℝ) → List (HeCall K) → List (Option (List ℝ))
  | _, [] => []
  | mem, c :: cs => (heInit same dim infos mem c).1 :: heRun same dim infos (heInit same dim infos mem c).2 cs

end

/-! ## `deltaorthonormal_init` -/

/-- The keys of a dictionary in the order of insertion. -/
def keysOf {α : Type} [DecidableEq α] (l : List α) : List α := l.foldl (fun ks a => if a ∈ ks then ks else ks ++ [a]) []

/-- The test `i == o and r == 0.` (init.py:116). -/
noncomputable def central (a : WInfo Nm) : Bool := by classical exact decide (a.inIrr = a.outIrr ∧ a.rad = some 0)

/-- The entries appended to `counts` (init.py:104-117): name, pair of positions and index, in the order of the loop. -/
noncomputable def deltaEntries (infos : List (WInfo Nm)) : List (Nm × (ℕ × ℕ) × ℕ) :=
  (infos.zipIdx.filter fun q => central q.1).map fun q => (q.1.inIrr, (q.1.inPos, q.1.outPos), q.2)

/-- `counts[irrep][(ip, op)]`. -/
def deltaList (ent : List (Nm × (ℕ × ℕ) × ℕ)) (irr : Nm) (pq : ℕ × ℕ) : List ℕ :=
  (ent.filter fun e => decide (e.1 = irr ∧ e.2.1 = pq)).map fun e => e.2.2

/-- `counts[irrep].keys()`. -/
def deltaKeys (ent : List (Nm × (ℕ × ℕ) × ℕ)) (irr : Nm) : List (ℕ × ℕ) :=
  keysOf ((ent.filter fun e => decide (e.1 = irr)).map fun e => e.2.1)

/-- `same_content` (init.py:119-121). -/
def sameContent (l : List ℕ) : Bool := l.all fun x => decide (x = l.headD 0)

/-- The assertions for an irrep (init.py:124-134). -/
def deltaOk (ent : List (Nm × (ℕ × ℕ) × ℕ)) (irr : Nm) : Bool :=
  let keys := deltaKeys ent irr
  let ins := keysOf (keys.map Prod.fst)
  let outs := keysOf (keys.map Prod.snd)
  let inC := ins.map fun ip => keys.countP fun k => decide (k.1 = ip)
  let outC := outs.map fun op => keys.countP fun k => decide (k.2 = op)
  sameContent (keys.map fun k => (deltaList ent irr k).length) && sameContent inC && sameContent outC &&
    decide (inC.headD 0 = outs.length) && decide (outC.headD 0 = ins.length)

/-- The random numbers drawn for an irrep: `stats.ortho_group.rvs`, `torch.randint(0, 1)` and `torch.randn` (init.py:145-151). -/
structure DeltaDraw where
  ortho : Mat
  bit : ℤ
  gauss : Mat

/-- `W` (init.py:144-148); the cut `[:o, :i]` is implicit. -/
noncomputable def deltaW (d : DeltaDraw) (i o : ℕ) : Mat := if 1 < max o i then d.ortho else fun _ _ => 2 * (d.bit : ℝ) - 1

/-- `w` (init.py:151-154), with rows of length `s`. -/
noncomputable def deltaRow (d : DeltaDraw) (s : ℕ) : Mat := fun o p =>
  d.gauss o p * 5 / Real.sqrt (∑ q ∈ Finset.range s, (d.gauss o q * 5) ^ 2)

/-- The assignments for one irrep (init.py:136-159), in the order of the loops. -/
noncomputable def deltaIrrep (ent : List (Nm × (ℕ × ℕ) × ℕ)) (d : DeltaDraw) (irr : Nm) (t : ℕ → ℝ) : ℕ → ℝ :=
  let keys := deltaKeys ent irr
  let ins := keysOf (keys.map Prod.fst)
  let outs := keysOf (keys.map Prod.snd)
  let s := (deltaList ent irr (keys.headD (0, 0))).length
  let W := deltaW d ins.length outs.length
  let w := deltaRow d s
  ins.zipIdx.foldl (fun t ip => outs.zipIdx.foldl (fun t op =>
    (deltaList ent irr (ip.1, op.1)).zipIdx.foldl (fun t p => Function.update t p.1 (w op.2 p.2 * W op.2 ip.2)) t) t) t

/-- `deltaorthonormal_init` (init.py:86-159) for a tensor of length `len` and an expansion of dimension `dim`; `none` for an exception.  The positions written are
smaller than `len` as the infos are as many as the dimension. -/
noncomputable def deltaInit (len dim : ℕ) (infos : List (WInfo Nm)) (draw : Nm → DeltaDraw) : Option (ℕ → ℝ) :=
  if len ≠ dim then none
  else if infos.any fun a => a.rad.isNone then none
  else
    let ent := deltaEntries infos
    let irreps := keysOf (ent.map Prod.fst)
    if irreps.all fun irr => deltaOk ent irr then some (irreps.foldl (fun t irr => deltaIrrep ent (draw irr) irr t) fun _ => 0) else none

end E2
