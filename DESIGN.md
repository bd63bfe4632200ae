# Design

A Lean 4 model of e2cnn (source in /repo, read as text) and theorems about it.

## Layout

* `lean/Verif/Model` - the model: one definition per function of the code. The comment of each definition cites file and lines and names the simplifications.
* `lean/Verif/Lemmas` - helper lemmas.
* `lean/Verif/Props` - specifications (`*Spec.lean` and the small definitions at the top of a file) and the property theorems, with an `example` beside each theorem that meets its hypotheses.
* `lean/Verif/Examples` - further `example`s: the theorems are applied to concrete convolutions, operators, tensors and groups, which shows that their hypotheses can be met. The theorems on a general space (`c66_conv`, `c85_conv_partial`, `c94_conv`, `c92_layer`, `c68_rotations_partial`, `c82_space`, ...) are instantiated by the proofs of the theorems on each group.
* `properties.jsonl` - the properties in English; `MANIFEST.json` - which theorems prove which property.
* `seeded/LOG.jsonl` - wrong programs on which the theorems were tried.

Theorem names start with the property (`c25_conv`). `_partial` marks a theorem which proves only part of its property. A name that ends in `_wrong`, `_false`, `_stale` and the like is the negation of a clause of the property, with a concrete witness.

## Trusted base

* The kernel of Lean 4.33.0 and Mathlib as installed.
* Axioms: every theorem of MANIFEST.json depends on a subset of `propext`, `Classical.choice`, `Quot.sound` (checked with `#print axioms` for all of them). No axiom is added; there is no `sorry`, `native_decide`, `bv_decide`, `implemented_by` or `unsafe`.
* The reading of the Python source: the definitions under `Model` are transcriptions by hand. Nothing ties them to the source but the citations.
* The meaning of the external libraries, which enters as follows.

| external | how it enters |
|---|---|
| floats | real numbers; tolerances (`np.allclose`, `math.isclose`, 1e-8 roundings) become equality, except the thresholds 1e-9 (origin), 1e-15, 1e-6 and 1e-2 of the basis expansion and the tolerances of the self tests in Model/Tolerance, which are kept |
| Python ints, `%`, `//`, slices, dicts | `Int`, `Int.emod`, `Int.ediv`; slices by the rules of `slice.indices` (`PySlice.select`); dicts as functions or association lists in insertion order; `sorted` as a stable merge sort |
| numpy arrays | functions of natural indices with explicit sizes |
| `np.linalg.inv` | the matrix inverse of Mathlib (`Mat.inv`) |
| `scipy.sparse.csgraph.connected_components` | parameter with contract `IsComponents`; `exists_components` shows that the contract can be met |
| `scipy.ndimage.rotate` | parameter `interp`, used only at angles that are not multiples of a quarter turn |
| `np.rot90`, flips | index formulas (`rot90`, `Img.flip0`, `Img.flip1`) |
| `sympy.finite_diff_weights` | parameter `fd` with contract `FDSpec`: exact on polynomials of degree below the number of points; `FDSpec.exists` shows that such weights exist |
| `torch.conv2d`, `conv_transpose2d`, `F.pad`, max, average and adaptive pooling, `interpolate`, `BatchNorm2d/3d`, `ReLU`, `ELU` | their documented formulas as finite sums and maxima |
| `torch.argmax` | any function that returns an index of a largest entry (`IsArgmax`) |
| random draws of dropout | arbitrary function parameter |
| uninitialised memory (`torch.empty`) | arbitrary list parameter `junk` |

## Conventions

* Matrices are `Nat -> Nat -> Real` with explicit sizes; `MEq n m A B` is equality of the entries inside the sizes.
* An assertion or exception is a value: `none`. Theorems that say "the call succeeds" prove `= some _`.
* A group is the record `Grp` of the operations the code uses; an irrep is a record with size, matrix function, frequency, flip and character; a representation is a list of irreps with a change of basis and its inverse, as in `Representation`.
* Images are square except in C94; the batch axis is dropped for convolutions (they act on each image separately) and is an arbitrary type for poolings, normalisations and exports.
* Integer padding, kernel size, stride and dilation as in the convolutions of the code (it asserts squares for the kernel); pairs for the padding and for the arguments of the poolings in C94.

## What is modelled

* `group/`: cyclic, dihedral, SO(2), O(2): elements, composition, inverse, equality, irreps, characters, subgroups with both maps, restriction of irreps, factories and their caches; `Representation`, `directsum`, `change_basis`, `restrict`, `disentangle`, regular, quotient and induced representations (finite groups, and SO(2) in O(2)), `decompose_representation` and `build_from_discrete_group_representation` (the numerical search is a parameter); the sets `supported_nonlinearities` written by all of these.
* `kernels/`: offset iteration, the angular bases of all groups, Gaussian radial profiles, polar bases, steerable bases (constructor, sampling, indexing, iteration).
* `diffops/`: polynomial arithmetic, Chebyshev and Laplacian coefficients, angular bases, steerable and tensor bases, discretisation by finite differences, derivatives of Gaussians and RBF-FD, required points and accuracy, the discretisation cache.
* `gspaces/`: the six spaces: actions on the plane and on images, restriction, equality, basis caches.
* `nn/`: `FieldType`, `GeometricTensor`, the basis expansion (single and blocks), `R2Conv` (construction from the public arguments: kernel basis of the space, default rings, widths and band limit, groups, padding; expansion, forward, train/eval), `R2ConvTransposed` (construction from the public arguments, parameters, expansion, forward; shape, in the export), `R2Diffop` (construction from the public arguments: operators of the space, sizes, orders and powers; basis, discretisation, forward), bias; the nonlinearities, batch normalisations, poolings, dropout, masks, upsampling, reordering, branching and merging, restriction, disentangling, sequential and multiple modules, `export` of all exportable modules, `evaluate_output_shape`; state dictionaries, moves between devices and the sharing of sampled bases between networks (C89, C90).
* `examples/e2wrn.py`: `Wide_ResNet` and `WideBasic` (constructors and `forward` in evaluation mode).
* Names of representations apart from the representations, in the blocks of a convolution, with any number of groups (C80). Elsewhere a name stands for its representation.
* The self tests: `testing_elements` of the four groups and the loop of `check_equivariance` with the action on the fibres, without and with its tolerances, and the method inherited from `EquivariantModule`, which also moves the images.

## What is not modelled

* The plotting code, the `check_equivariance` methods other than the common loop over the fibres (C81) and the inherited one (C108), the notebooks in `examples/` except the network of `model.ipynb` (C87).
* The external package `rbf` (RBF-FD weights, derivatives of Gaussians) and `sympy.finite_diff_weights`: parameters with the specifications `RBFSpec`, `GaussSpec` and `FDSpec`.
* Rounding, dtype, device, autograd, hashing of tensors, pickling (except that a saved cache is the map that was saved).
* Interpolated rotations of images.
* Non-square images and tuple paddings for layers other than `R2Conv` and the pointwise max and average poolings (C94).

## Property by property

For each property: how it is modelled and proved, the status in MANIFEST.json, the files with the theorems.

* **C01 Cyclic group laws** (proved; Props/GroupLaws.lean) - `Verif/Model/Cyclic.lean`; integer arithmetic with `%`; direct proofs for all N. All N >= 1.
* **C02 Dihedral group laws** (proved; Props/GroupLaws.lean) - `Verif/Model/Dihedral.lean`; pairs of integers; case split on the flip bits. All N >= 1.
* **C03 Continuous group laws** (proved; Props/GroupLaws.lean) - `Verif/Model/Continuous.lean`; reals, Python float `%` modelled as x - 2pi*floor(x/2pi); equality of angles modulo 2pi as a relation. Exact real angles; equality modulo 2pi.
* **C04 Irreps of the cyclic groups are orthogonal representations** (proved; Props/Irreps.lean) - matrices as functions of two indices with explicit sizes; trigonometric addition theorems, periodicity over Z.
* **C05 Irreps of D_N, SO(2) and O(2) are orthogonal representations** (proved; Props/Irreps.lean) - same, with the reflection matrix chi; error branch of `irrep` modelled as `Option`.
* **C06 Subgroup maps of the finite groups** (proved; Props/Subgroups.lean) - `subgroup` returns parent and child maps as functions; child as `Option`.
* **C07 Subgroup maps of the continuous groups** (partial; Props/SubgroupsCont.lean) - same over reals with exact arithmetic; the range of child fails for unreduced O(2) angles: negation + partial. For O(2) the value of child is an element only for angles in [0, 2pi); combine does not reduce angles, and c07_o2_child_unreduced gives a product of group elements on which child returns a non-element.
* **C08 Restriction of representations, cyclic groups** (proved; Props/Restriction.lean) - `restrictIrrep` returns (change of basis, list of irreps); proved per irrep, then lifted through block diagonals by induction on the list.
* **C09 Restriction of representations, dihedral and continuous groups** (proved; Props/Restriction.lean, Props/RestrictionCont.lean) - same, case analysis over ids and parities of frequency and axis. The irreps of the continuous subgroup are assumed to be available for every frequency (no maximum frequency).
* **C10 Direct sum of representations** (proved; Props/DirectSum.lean) - `directsum` over lists with ℕ-indexed block diagonals; induction on the list.
* **C11 Disentangling keeps the represented map** (proved; Props/Disentangle.lean) - block partition model of disentangle; the connected components computed by scipy are a parameter with the contract `IsComponents`. scipy connected_components is a parameter constrained by its contract; exists_components shows the contract can be met.
* **C12 Regular representation** (proved; Props/Regular.lean) - change of basis built element by element as in the code; finite Fourier sums. All N >= 1, all the finite groups of the library.
* **C13 Quotient and induced representations** (proved; Props/Quotient.lean, Props/QuotientDihedral.lean, Props/InducedExists.lean) - coset loop and change of basis as in the code, then the matrices are compared with the induced matrices. That no assertion fails for any irrep of a subgroup: the multiplicities are integers by Frobenius reciprocity, the columns of the change of basis are intertwiners, orthonormal by the trace form and the inequivalence of the irreps. Quotients: success and permutation action for every admissible id. Induction: for every irrep of every subgroup of C_N and D_N the call returns (integrality of the multiplicities by Frobenius reciprocity, orthogonality of the change of basis by Schur) and the result is the induced representation.
* **C14 Frequencies enumerated for a kernel basis** (proved; Props/Offsets.lean) - offset loops become explicit integer ranges; set equality + no duplicates. Without a maximum frequency the offsets are capped at 10000 and the non-negativity flag is ignored; this is what the code does and is stated as such.
* **C15 Kernel constraint for SO(2)** (proved; Props/KernelConstraint.lean) - angular kernels as functions of the angle; trigonometric identities; value at the origin modelled separately. Any radial profile; all points including the origin.
* **C16 Kernel constraint for C_N** (proved; Props/KernelConstraint.lean) - as C15 with frequencies k + tN. Any radial profile; the trivial group is N = 1.
* **C17 Kernel constraint for reflections** (proved; Props/KernelConstraint.lean) - as C15 with the axis shift.
* **C18 Kernel constraint for D_N and O(2)** (proved; Props/KernelConstraint.lean) - as C15 with both.
* **C19 No redundant kernels** (partial; Props/KernelBasis.lean) - orthogonality / evaluation argument; negation for max_offset without max_frequency (duplicates). For the finite groups a maximum frequency must be given when both irreps have size 1: without it the property is false (c19_offsets_dependent).
* **C20 Completeness of the kernel basis** (proved; Props/KernelBasis.lean) - a solution is determined by its value at angle 0; solve for the coefficients. Proved for kernels on the plane with coefficients depending on the radius, which includes one circle. Points closer than 1e-9 to the origin, other than the origin, are excluded, because the code treats them as the origin.
* **C21 Steerable basis for arbitrary representations** (proved; Props/Steerable.lean) - list model of the direct sum placement and change of basis; sums over ranges. The number of elements of a steerable basis is proved in c21_steerable_constraint; the other theorems instantiate it with the irrep bases of C15-C18 and multiply with arbitrary radial profiles.
* **C22 Basis indexing agrees with sampling** (proved; Props/Steerable.lean) - counting functions over nested lists; induction. Iteration and indexing are modelled as separate loops.
* **C23 Expanded filters satisfy the kernel constraint for every weight** (proved; Props/Expansion.lean) - expansion as a finite linear combination; placement by channel index lists. for all weights, types, grids, filters and normalisations; admissible inputs have fields of positive size and bases with distinct identifiers (which the library bases have when the radii of the rings are distinct); with exactly one pair of representations the basis has to be non empty, since the code raises otherwise
* **C24 Parameter bookkeeping of the expansion** (proved; Props/Expansion.lean, Props/ExpansionOrder.lean) - ranges by prefix sums; induction over the pairs. for all types and indices when the identifiers in each block are distinct, which holds for the library bases whenever the radii of the rings are distinct; c24_repeated_identifiers shows that with repeated identifiers the code accepts no weights
* **C25 Convolution commutes with the symmetries of the pixel grid** (proved; Props/Conv.lean) - conv2d with zero padding as a finite sum over integers; reindexing of the kernel window. Convolution with the filters expanded from the library bases and the expanded bias, for all group spaces, types, groups, kernel sizes, paddings and modes, dilations, and strides with s | n+2p-d(k-1)-1; elements acting as pixel permutations. Square images and integer padding.
* **C26 Bias is invariant** (proved; Props/Bias.lean) - columns of the change of basis of trivial irreps; orthonormal case. The expanded bias is fixed by the representation of the output type for all parameters, and every fixed vector is the bias for some parameters. The three modules share the code.
* **C27 Evaluation mode uses the trained filter** (proved; Props/TrainEval.lean) - transition system over (training flag, weights, stored filter); invariant by induction over operation lists. State machine of train/eval/step/forward/export over all sequences of calls; the parameters, the expansion and the convolution are arbitrary. c27_stale records that assignments to the weights in evaluation mode leave the stored filter unchanged.
* **C28 Channel layout of a field type** (proved; Props/Layout.lean) - prefix sums over lists; induction.
* **C29 Splitting and concatenating geometric tensors** (partial; Props/Tensor.lean) - lists of fields; induction; mutation of the argument modelled by returning the new list: negation of the non-mutation part. Everything but the last clause: split appends to the caller's list of breakpoints, so the argument is changed (c29_argument_changed).
* **C30 Indexing geometric tensors** (partial; Props/Tensor.lean) - model of Python slice normalisation (`slice.indices`) and of the code's branches; refinement to list indexing. Integers below -n-1 are not rejected but return a field (c30_int_out_of_range); everything else is proved.
* **C31 Reordering modules only move whole fields** (proved; Props/Reorder.lean) - list model of channel index lists. c31_restriction takes the restricted representations as given by IsRestriction, which C07-C09 prove for the four groups.
* **C32 Contiguity test** (proved; Props/Layout.lean) - arithmetic series; induction on sorted lists.
* **C33 Pointwise nonlinearities are equivariant** (proved; Props/Pointwise.lean, Props/PointwiseGroups.lean) - permutation matrices as functions. pointwise functions on permutation representations (regular and quotient ones are such); concatenated nonlinearity on every representation the constructor accepts
* **C34 Norm and gated nonlinearities are equivariant** (proved; Props/Nonlin.lean, Props/NonlinGroups.lean, Props/Gated.lean, Props/DefaultGates.lean) - norm invariance under orthogonal matrices. All types (any order and any sizes of the fields), all functions, biases and inputs, all orthogonal matrices (for the gated ones all matrices with trivial gates) and all maps of the positions.
* **C35 Vector field nonlinearity is equivariant** (partial; Props/VectorField.lean) - argmax with first-index tie breaking; negation on ties + partial for unique maximum. proved for N >= 3 where the largest entry is taken once or is not positive; false at ties (c35_ties_false, c35_every_tie_false) and for C_2 with more than one field (c35_c2_error)
* **C36 Invariant maps are invariant** (proved; Props/Invariant.lean) - max over finite sets, sums of squares. values of the three maps field by field and their invariance; induced representations meet the hypothesis of InducedNormPool
* **C37 Batch normalisation is equivariant** (proved; Props/BatchNorm.lean, Props/GNorm.lean) - batch statistics as finite sums; running statistics as a fold over batches. All four batch normalisations, both modes, any parameters and running statistics; transformations act on the fibers and permute the positions. Non-negativity needs a momentum in [0,1] or None. PyTorch BatchNorm3d is modelled by its documented formula.
* **C38 Field dropout drops whole fields** (partial; Props/Dropout.lean) - mask per field as parameter; aliasing of the in-place form modelled; negation for non-contiguous in-place. training factors, equivariance for fixed draws and evaluation mode proved; the in-place form agrees only when the fields of each size follow each other (c38_inplace_false is a counterexample otherwise); p = 1 divides by zero
* **C39 Spatial pooling and masks commute with grid symmetries** (partial; Props/Pooling.lean, Props/PoolingAdaptive.lean) - windows as finite sets; reindexing. NormMaxPool: proved when the largest norm of each window is attained once; with ties the claim is false (c39_normmax_ties).  All the others without reservation, under the condition that the windows cover the padded image exactly.
* **C40 Declared output shapes are the computed ones** (partial; Props/Shapes.lean, Props/ShapesMore.lean, Props/Sequential.lean) - integer formulas against torch's documented formulas; negations for the wrong ones. True for R2Conv, R2DiffOp, the gated nonlinearity with two inputs, the induced gated nonlinearity, the vector field nonlinearity, branching, pointwise dropout, floor-mode max poolings, antialiased average pooling, upsampling, merging and sequences. False for R2ConvTransposed, ceil_mode with padding, NormMaxPool with ceil_mode, PointwiseAvgPool (raises), antialiased max pooling with padding, adaptive poolings and MultipleModule: witnesses and exact conditions are proved.
* **C41 Composition of equivariant modules** (proved; Props/Sequential.lean) - modules as functions with types; induction on lists. Also MultipleModule.  add_module with a name already in use breaks the chain of types (c41_reused_name); the constructors never do that.
* **C42 Caches are transparent** (partial; Props/Caches.lean) - map from keys to bases, fold over requests; negation for diffops and for name clashes. The key of the differential operators lacks max_power and the discretisation, and representations are identified by their names.
* **C43 Group factories return one object per group** (proved; Props/Factory.lean) - state machines; induction over call lists. Over all histories of factory calls, constructor calls, irrep and subgroup calls. Also proved: the SO(2) subgroup memoised by O(2) keeps the old maximum frequency, and irreps built above the maximum are missing among the representations.
* **C44 Restricting a space keeps the action on the plane** (proved; Props/SpaceRestrict.lean) - affine maps of the plane; case analysis. All spaces, ids, axes, elements and points, on the plane and on images; the interpolation of scipy is a parameter assumed to depend on the angle modulo a full turn.
* **C45 The action on images is a group action** (proved; Props/Image.lean) - integer index maps; finite case analysis symbolic in n. The action on images is the formula rho(g) x(g^-1 .), and composes as a group action, for all six spaces, on elements acting as pixel permutations. Interpolated rotations are external.
* **C46 Polynomial representation of differential operators** (proved; Props/DiffopPoly.lean) - polynomials as coefficient lists evaluated at points; binomial theorem and de Moivre. The coefficient arrays are compared with the polynomial functions they stand for, for all degrees, powers, matrices and angles.
* **C47 Steerability of differential operators** (proved; Props/Diffops.lean) - from C46 and the kernel identities. The rounding of entries below 1e-8 (diffops/basis.py:77) is not modelled.
* **C48 Finite difference discretisation is equivariant** (partial; Props/FiniteDiff.lean) - tensor product of 1-d weights with the code's axis order; negation for reflections, theorem for rotations. Holds at the rotations. False at the reflections for operators of odd order: the constraint holds with the opposite sign (c48_reflection), and c48_reflection_wrong is a case where the filter is not zero. The weights of sympy are assumed exact for polynomials of degree less than the number of points (FDSpec).
* **C49 Order, accuracy and number of points agree** (partial; Props/FiniteDiff.lean) - omega. largest_possible_order fails when the number of points is one less than an even accuracy, although the order 0 is possible (c49_largest_order_wrong).
* **C50 Exported modules compute the same function** (partial; Props/Export.lean, Props/Invariant.lean) - functional models of the plain modules; negations where an option is dropped. Proved for nested sequences of all exportable modules when no argument forgotten by the exports is used. False in general: PointwiseMaxPool.export drops ceil_mode, R2ConvTransposed.export drops output_padding, R2Upsampling.export drops size (the exported module then raises on every input). R2Diffop exports as R2Conv does (same code).
* **C51 Type checks distinguish different symmetries** (partial; Props/SpaceRestrict.lean) - decision logic of __eq__; negation. The claim is false: spaces with reflections compare equal whatever their axis (c51_wrong). Proved: classes and groups are told apart, spaces with the same axis act equally, and the exact condition on the axes.
* **C52 Band-limit filtering loses no admissible kernel** (proved; Props/BandLimit.lean) - monotonicity of the filter in the frequency. The bases of the continuous groups take no maximum frequency (they raise for none of the callers), so only the discrete ones are band limited. A float as frequencies_cutoff is turned into a function by the convolution before the filter is built; a float passed directly to bandlimiting_filter always raises a TypeError, which c52_float_wrong records.
* **C53 Saved differential operator cache is restored** (partial; Props/Caches.lean) - process state with global and local variables; negation. False: load_cache assigns a local variable (c53_load_wrong). The values returned are right along all histories.
* **C54 Upsampling commutes with the symmetries of the pixel grid** (proved; Props/Upsample.lean) - interpolation as an explicit formula on one axis; reflection of the axis by case analysis on the rounding. interpolate of PyTorch is modelled by its documented formula over the reals.
* **C55 The nonlinearities of induced representations multiply subfields by scalars and are equivariant** (partial; Props/InducedNonlin.lean, Props/InducedGated.lean) - the loop over groups of fields with the subfields as units; a group of fields of q subfields read as fields again; block permutations from the coset action; a witness in D_2 for gates of another subgroup. The norm part is complete. The gated module commutes with transformations which permute the channels of the gates and the subfields in the same way, which holds for quotient and induced representations of the same subgroup (c55_same_subgroup). Missing because false: the constructor compares only the sizes, so gates from another subgroup of the same index are accepted and equivariance fails (c55_gated_wrong, D_2).
* **C56 The module which disentangles fields is an equivariant change of basis** (partial; Props/DisentangleModule.lean) - the loop over groups of fields with names as labels; the output is a block diagonal change of basis; nested block diagonals and C11. Proved for every field type in which different representations have different names, for every representation and every correct answer of connected_components. Missing because false: the dictionaries of the module are indexed by names, and two representations of the same name get the same change of basis (c56_names_wrong).
* **C57 The irreps are irreducible and pairwise inequivalent, and sum_of_squares_constituents is the dimension of their commutant** (proved; Props/Irreducible.lean) - Invariant subspaces of the plane under a rotation that is not +-1 are trivial; intertwiners vanish because rho(g)+rho(g^-1) is a different multiple of the identity in the two irreps; the commutants are computed outright. Irreducibility, inequivalence and the commutant are stated with Mathlib submodules and matrices (Props/IrrepSpec.lean), over the reals.
* **C58 decompose_representation recovers the irreps of every representation of a finite group** (proved; Props/Decompose.lean) - Complete reducibility by greedy extension: every vector generates an image of the regular representation (C12), so as long as the intertwiner built so far is not onto, some irrep maps outside its range, and irreducibility (C57) makes the extension injective; in the orthogonal case Schur's lemma for symmetric matrices normalises each block. The multiplicities follow from the orthogonality of the characters, proved from trigonometric sums. The vectorised system (Kronecker sums) is proved equivalent to the commutation relation. The null space and the search for an orthogonal matrix inside it (scipy, pymanopt) are a parameter; it is proved that what they search for exists, and that any invertible solution passes the final assertion. Exact arithmetic.
* **C59 The dictionary of sampled bases is transparent** (partial; Props/StoredFilters.lean) - basis objects with the equality of the code, dictionary as an association list; induction over call lists; negation with two axes of O(2). False for two spaces which differ in the axis only: R2FlipsDiscreteRotationsSolution and R2FlipsContinuousRotationsSolution do not compare the axis (R2FlipsSolution does), so the second space gets the filters of the first, which are not equivariant (c59_axis_wrong, for every grid with the point (1, 0)). Proved for all sequences of calls with one axis per group. The dictionary for differential operators uses the same function; its bases are not modelled here.
* **C60 Weight initialisation preserves the scale of the features** (proved; Props/Init.lean, Props/InitDelta.lean, Props/InitDeltaReturns.lean) - counts as folds over the attributes; sums of the variances by grouping; the nested loops of assignments as a list of writes without conflicts, orthogonality from the drawn matrix. The random numbers are parameters: uncorrelated variables of variance one for He's method, an orthogonal matrix and vectors with a non-zero entry for the other. torch.randint(0, 1) only returns 0, so the sign which is meant to be random for a single input and output is always -1 (harmless for the claim). c60_delta assumes of the basis elements in the centre the relations B_p^T B_q + B_q^T B_p = 2 delta_pq, as the identity and the quarter turn have. c60_he_cache assumes that equal expansions have equal deviations, which C86 proves.
* **C61 Transposed convolutions commute with the symmetries of the grid** (partial; Props/Transposed.lean) - `conv_transpose2d` is modelled as the sum over the input pixels reaching an output pixel, with the filter transposed and one group of the output as in the code. The symmetry of the grid permutes the triples (input pixel, filter pixel, output pixel) exactly when there is no output padding; the rest follows from the constraint on the filters (C23) and the invariance of the bias (C26). The parameters are compared with those of C52. Equivariance is proved without output padding, for all the spaces and types; with output padding it is false (`c61_output_padding_wrong`). The parameters agree with those of R2Conv when the rings are given and accepted by R2Conv, or without dilation; otherwise they differ (`c61_rings_wrong`, `c61_radius_wrong`).
* **C62 Whole networks are equivariant, and invariant when they end in invariant fields on one pixel** (proved; Props/Network.lean) - Model a network as a list of named modules (one constructor for each module of the library with its arguments, parameters and state) built and called by SequentialModule. Show for every constructor that forward returns the same tensor for all contents of new memory and commutes with the action on batches of images, from the theorems C25, C33-C39, C54, C55, C61; then induct over the list. Composes the theorems on the single modules by induction over the list of modules. Layer.Ok lists what each module asks of its arguments. Left out, because they are not equivariant (see C38, C39, C61): dropout in training mode, the norm max pooling with ties, output padding; also the vector field nonlinearity (see C35), and R2Diffop. Modules side by side: C102.
* **C63 The cutoff policies limit the frequencies on each ring of a filter** (partial; Props/Cutoff.lean) - Show that the default rings of odd filters are 0, ..., size // 2, evaluate the three tables on natural numbers, and combine with the characterisation of the kept elements of C52. Witnesses for even sizes and dilation. Proved for odd kernel sizes without dilation. False for even sizes and for dilated filters: the tables are given kernel_size // 2 as the radius of the last ring, but the rings end at (kernel_size - 1) // 2 times the dilation.
* **C64 Batch normalisations normalise by the moving averages of the statistics of the training batches** (proved; Props/Running.lean) - One call updates the statistics of every field independently of the others (from bnForward_spec); invariant by induction over the calls: the statistics are the moving average of the history. MovingAverage is the closed form (a weighted sum over the history), not the recursion of the code. The statistics are stated per field, whatever the grouping of the fields and the layout of the buffers. Real numbers instead of floats; torch.batch_norm of InnerBatchNorm is modelled from its documentation (biased variance for normalisation, unbiased one for the running variance). InnerBatchNorm with track_running_stats=True.
* **C65 R2Diffop commutes with the symmetries which permute the pixels** (partial; Props/R2Diffop.lean) - Model the constructor (sizes, power of the Laplacian, filter, expansion) and forward on top of the finite differences (C48), the expansion of filters (C23, C24) and the convolution (C25). The filter satisfies the constraint at one element up to a sign (Lemmas/FilterAt), the sign being the parity of the order at reflections. Equivariance then follows as in C25. Proved: the choices of the constructor; that every operator passing the filter can be discretised; the equivariance for all rotations by multiples of a right angle, on every space; the equivariance for the reflections too when all the orders used are even. False: with operators of odd orders the output has the opposite sign at every reflection (c65_odd_orders), so for every such layer with parameters and every reflection there are weights and an image for which the layer does not commute (c65_reflections_wrong), and c65_flip_wrong is a concrete layer.
* **C66 R2Conv built from its public arguments is equivariant** (proved; Props/R2ConvInit.lean) - Model the functions of kernels/r2.py, the _basis_generator of the six spaces, build_kernel_basis (without the cache) and R2Conv.__init__ as one function of the public arguments which returns the configuration and the bases of the layer, or nothing. Prove that the identifiers of the elements of one basis differ when the rings do, and that all kernels satisfy the constraint, and reduce to C25. Show that the constructor succeeds for scalar fields and odd sizes. c66_cyclic, c66_so2, c66_flip, c66_dihedral, c66_o2 and c66_trivial are the claim for the six spaces: the only thing assumed about the layer is that the constructor returned it. c66_odd_sizes shows that the default arguments build a layer for every odd size. c66_size_two: with kernel_size=2 and default arguments the constructor raises for scalar fields, whatever the dilation, because the only ring is discarded.
* **C67 Inducing an irreducible representation of SO(2) to O(2)** (proved; Props/InducedO2.lean) - Model/InducedO2.lean transcribes _induced_from_irrep of O2. Compute the change of basis in closed form for f = 0 and for f > 0, then compare the matrix of the result with the specification IsInducedRep (shared with C13). The constants of build_commuting_matrix, the blocks of v, the normalisations and the change of basis are modelled as written; the result is shown equal to the induced representation entry by entry. Representatives of the cosets: identity and reflection.
* **C68 R2Diffop built from its public arguments commutes with the rotations of the pixel grid** (partial; Props/R2DiffopInit.lean) - Model the diffop generators of the six spaces, build_diffop_basis with the attributes of TensorBasis, the identifiers and the constructor; show that orders are degrees and identifiers differ, and reduce to C65. Whenever the modelled constructor succeeds: full claim for Rot2dOnR2 and TrivialOnR2; for the spaces with reflections the rotations, and all the elements when every operator kept has even order and there is no angle offset. False for reflections with operators of odd order (c68_reflections_wrong, concrete layer c68_flip_wrong), as in C65. Finite differences only (FDSpec of sympy's weights); see C82 and C83 for the other two methods.
* **C69 The kernel bases of the finite groups contain every kernel up to the maximum frequency** (proved; Props/Complete.lean) - Expand a kernel of bounded frequency in all elements of frequency at most F without the congruence condition; average over the rotations and the reflection; only elements with the right frequency and phase survive, and offset_iterator enumerates them all (C14). Completeness of the bases of C_N (including the trivial group, N = 1), of a reflection and of D_N for all kernels of bounded angular frequency; the bases are the lists returned by the model with maximum_offset = None. c69_band_limited with the *_freq theorems: the elements themselves have frequencies at most F.
* **C70 The kernel bases for arbitrary representations are bases of the spaces of equivariant kernels** (proved; Props/SteerableComplete.lean) - Conjugate the kernel by the changes of basis, cut it into blocks, apply C20 and C69 to each block, and reassemble; independence from C19 for each block. Uses that the indices of the iterator are in bijection with (input irrep, output irrep, inner index). Independence on the circle and completeness for the assembled basis; maximum_offset = None for the finite groups.
* **C71 Programs with residual connections, in-place operations and shared memory are equivariant** (proved; Props/Program.lean) - A semantics with a heap and references. Invariant: every block of memory has a field type of which each reference is a run of consecutive fields; the group acts on all blocks; every statement commutes with this action, by induction over the program. Progress from a type system with sizes. Memory is a list of blocks; a tensor is a contiguous range of channels of a block. In-place operations on partially overlapping tensors (PyTorch leaves their result unspecified) count as exceptions. Broadcasting of 1 x 1 images is modelled, as __add__ compares types only.
* **C72 The differential operators of a layer are all the equivariant ones up to its order** (proved; Props/DiffopComplete.lean, Props/R2DiffopComplete.lean) - The restriction of a polynomial of degree d to the circle has frequencies d, d-2, ...; expand an equivariant operator on the circle with C70, separate the frequencies, and multiply each angular element by the power of the Laplacian that makes its degree d. Independence: compare powers of the radius and use the independence of the angular part. For the layer: the homogeneous parts of an equivariant symbol are equivariant, and the filter by order keeps the elements of order at most the maximum. About the operators themselves, before they are discretised with finite differences; layers with maximum_power, maximum_offset and basis_filter left at their defaults.
* **C73 The supported nonlinearities of a representation are true** (partial; Props/Tags.lean, Props/TagsCut.lean) - An inductive predicate for the representations the library can build, with their strings; induction over it with the invariant that the strings are true, the irreps are irreps of the group, and a field which carries 'concatenated' has subfields of size 1. Block structure of induced representations from the transversal; block diagonal sums of monomial matrices; splitting of a monomial matrix that is block diagonal. What is missing is false: directsum with a change of basis keeps the strings although they become false (c73_directsum_cob_wrong), and disentangle copies induced_norm_k and induced_gated_k with k > 1 to parts which have no subfields of that size (c73_disentangle_wrong: from the induced representation of C_4, restricted to C_2). change_basis is taken with its default (no strings). The induced gated nonlinearity needs more than the strings, see C55.
* **C74 The example wide residual network is invariant** (partial; Props/WideResNet.lean, Props/WideResNetBuilds.lean, Props/WideImages.lean, Props/WideResidual.lean) - The network as a list of modules of the earlier models (R2Conv from public arguments, InnerBatchNorm, ReLU, PointwiseDropout in evaluation, RestrictionModule with DisentangleModule, average over positions, linear). An invariant of stages (every representation of the stage is orthogonal, pointwise fields are permutations) carried through the layers by induction over the blocks; equivariance of each block; commutation of the restriction with the action. Proved: the remaining group; invariance of the scores for every depth of at least 10 and pictures with 1 + s*4q pixels per side (s the initial stride), with quarter turns, half turns and mirror images written out on the pixels; a network is built exactly if the depth is 6n+4, N > 0, the group has at most 256 elements and at most as many as the planes of the first layer, the dropout rate is in [0,1], r <= 3 and, when r > 0, N is even or 3 and (with the flip and r = 3) at least 4; in particular all the named networks; in evaluation mode the scores of an image do not depend on the other images of the batch. Missing: a depth of 4, for which it is false (c74_depth_four); other picture sizes, for which strided convolutions do not see the grid symmetrically (compare C30).
* **C75 A convolution can be built when the types share an irrep** (proved; Props/ConvBuilds.lean, Props/OrthLib.lean) - The value of the polar basis at the centre: only the functions of angular frequency 0 in the first ring remain, they are the matrices commuting with both irreps, the identity is one of them; the change of basis is invertible, so the sampled kernel does not vanish and is not removed by the filter. Conversely a kernel of size 1 is an intertwiner, and there is none between fields without a common irrep. The representations are those the library can build: positive size, invertible orthogonal change of basis, irreps of the group of the space (Repr.Plane). Examples: regular fields of C_N; two frequencies of SO(2), for which a kernel of size 1 cannot be built.
* **C76 Changes of basis stay orthogonal** (proved; Props/OrthLib.lean) - Induction over the constructions: each step keeps `cob` orthogonal. Restriction composes with block diagonal orthogonal matrices, disentangling takes blocks of a permuted orthogonal matrix, induction scales by square roots so that the columns are orthonormal. The constructors of OrthLib are the functions of the library. Not included: representations built from a table of matrices (build_from_discrete_group_representation, whose change of basis comes from a numerical search), matrices of the caller which are not orthogonal.
* **C77 Networks commute with translations** (proved; Props/Translate.lean) - Each module is shown to be a function of its window (LocalStep): for the modules which treat pixels separately from their equivariance under arbitrary maps of the pixels, for convolution and pooling by their formulas. Composition by induction over the network. The torus separately: circular padding reads modulo n. Layer.view is the specification of the windows of the modules. Not included, since they do not commute with translations: masks, adaptive pooling, batch normalisation with the statistics of the batch (these do commute with the translations of the torus, which permute the pixels). Transposed convolution and upsampling are not treated.
* **C78 A 1×1 convolution can represent exactly the linear maps which commute with the group, each by exactly one choice of weights** (proved; Props/OneByOne.lean) - Prove that BlocksBasisExpansion.forward is onto and injective when each block is (Lemmas/ForwardBij), that SingleBlockBasisExpansion keeps precisely the nonzero elements of the basis, and that the elements of the kernel basis at the origin span the intertwiners and are independent where nonzero (Lemmas/OneByOne). c78_one_by_one: filters of any weights commute with the group and each commuting matrix has exactly one vector of weights; c78_none and c78_iff: the constructor refuses exactly when only zero commutes; c78_layer: what the layer computes. The proof goes through the completeness and independence of the kernel bases (C21, C22) at the centre, the normalisation and selection of SingleBlockBasisExpansion and the bookkeeping of BlocksBasisExpansion (forward_surj, forward_inj hold for every kernel size).
* **C79 The dictionary of sampled differential operators is transparent** (partial; Props/StoredDiffops.lean) - Model the calls as a fold over a list of keys and entries, with the == of TensorBasis, SteerableDiffopBasis and the irrep bases; prove by induction that every entry is what its key builds. c79_stored_partial: true when all bases of one group and class are discretised alike and have one axis; c79_dihedral: on FlipRot2dOnR2(N) true without conditions, as the objects are never equal to anything; c79_discretisation_wrong: the negation otherwise.
* **C80 A convolution is equivariant for the representations of its fields, whatever their names** (partial; Props/Names.lean) - Fields with a name and a representation apart; the dictionary of the blocks as a fold over the two sets of representations (`blockDict`), the last representation with a non empty basis wins. If the names determine the representations the expansion agrees with the one indexed by representations (`Exp.Agree`), hence the layers are equal. The negation: `directsum` ignores the change of basis in its default name. Proved when fields of the same name have the same representation, over both types together: the layer is then the one of C66 and C78 for every order of the sets, and it is equivariant on the six spaces. Any number of groups. False otherwise: c80_names_wrong proves that two direct sums of irrep_0 and irrep_1 of C_2, with and without a change of basis, share their default name, and that a convolution from both of them is built without an error and does not commute with the rotation by 180 degrees, for every order of the sets.
* **C81 The self tests decide whether a layer is equivariant** (partial; Props/SelfTest.lean, Props/SelfTestNonlin.lean, Props/ErrorMean.lean, Props/Tolerance.lean) - The loop of `check_equivariance` as a fold over `testing_elements`, without tolerance and then with it. Linear layers: what commutes with two types at an element is decided block by block (`comm_lift`), a block of irreps of frequencies a, b splits into a part commuting with the rotations and one anticommuting with them, and each is forced to vanish at the angle 2π/52 unless 52 divides a - b or a + b. The minibatches on which a faulty layer passes lie in a proper subspace, which has measure 0. With tolerances: a linear form bounded by another one up to a constant is a multiple of it. Proved for C_N and D_N: any layer passes on all minibatches iff it commutes with the whole group, and a linear layer which does not commute fails with probability 1. Proved for SO(2) and O(2) and linear layers if the frequencies of every input irrep and every output irrep add up to less than 52; c81_so2_irreps gives the exact condition for two irreps. False beyond: c81_so2_wrong proves that the layer (x, y) -> (x, -y) on a field of frequency 26 is not equivariant and passes on every minibatch. Without linearity it is false for SO(2) and O(2) already on a field of frequency 1 (c81_so2_nonlinear_wrong, c81_o2_nonlinear_wrong: the real part of the 52nd power passes on every minibatch). With the tolerances of the code: whatever passes the exact test passes; a linear layer passes on all minibatches iff each channel commutes up to a factor which differs from 1 by at most rtol, so atol makes no difference and a layer off by a factor 1 + 1e-6 passes (c81_tolerance_wrong); every entry is then off by at most rtol times its size (c81_tolerance_bound), and by nothing if the output field is one trivial channel and the tested element has finite order on the input (c81_tolerance_scalar). The test which also rotates the image is C108; missing: the tests of the convolutions and of upsampling, which compare the middle of a photograph with a tolerance.
* **C82 R2Diffop with derivatives of Gaussians is equivariant, reflections included** (proved; Props/GaussDiff.lean, Props/GaussLayers.lean) - `gaussianDerivative` as the code computes it, a sum over the nonzero coefficients. Lemma: a polynomial in the partial derivatives commutes with an orthogonal change of variables (`polyD_comp`), by writing the derivatives as commuting linear operators on smooth functions; the Gaussian is invariant. The layers from the general lemma on filters (`diffop_sym`) for an arbitrary method of discretisation. get_rbf('ga') is a parameter with the specification GaussSpec: the derivative of exp(-(eps r)^2) with the given exponents. The concrete layer c82_flip_layer is the one for which the claim is false with finite differences (c68_flip_wrong).
* **C83 R2Diffop with RBF-FD is equivariant, reflections included** (proved; Props/GaussDiff.lean, Props/GaussLayers.lean) - The system of the weights is invariant under an orthogonal map which permutes the points; the composed weights solve the system of the composed operator (`RBFSystem.comp`), so uniqueness gives the constraint. Existence for Gaussians: the matrix of the system is a product of two Vandermonde systems. weight_matrix is a parameter with the specification RBFSpec: the weights solve the system of RBF-FD for some smooth radial function and some degree of the added polynomials, and the solution is unique. RBFSolves.exists proves that the Gaussian without polynomials has the specification on all the grids. The check for entries which are not numbers and the warnings are not modelled.
* **C84 The width and the sign of the smoothing of R2Diffop** (partial; Props/GaussLayers.lean) - The derivative of the Gaussian in closed form; two Gaussians which agree have the same width; all the terms of the sum have one sign. False in both parts. The standard deviation is s^2/sqrt 2 (c84_width_partial), which is s for s = sqrt 2 only (c84_width_wrong). The filter of d/dx has a negative value on the function x for all sizes above one, all dilations and widths (c84_sign_wrong). Proved: the filters are the derivatives of one Gaussian.
* **C85 R2ConvTransposed built from its public arguments is equivariant** (partial; Props/TransposedInit.lean, Props/TransposedBuilds.lean) - The constructor as a function of the arguments of `R2Conv` with its own rings and radius. The constraint on the filters comes from `c66_build_kernel_basis`, the equivariance from `c61_conv_partial`. For the size 2 the only ring has radius 0 and width 0.005, and no sample is closer than d/√2, so the only element is discarded. Equivariance is proved for all arguments without output padding (with it, C61 proves it false) and layers with at least one weight. With one group and no dilated default rings, what R2Conv accepts gives the same module. False: the constructor does not refuse an empty basis. c85_size_two_wrong proves that with kernel_size=2 and default arguments R2Conv raises, R2ConvTransposed does not, and every forward pass raises; with several representations the layer ignores its input (c85_empty_constant). c85_common_irrep: for odd kernel sizes and the default basis the layer has a weight if the types have a common irrep, for all groups and dilations; c85_one_by_one: for kernels of size 1 exactly then.
* **C86 Expansions which compare equal initialise and expand alike, so the cache of the He initialisation is transparent** (proved; Props/ExpansionEq.lean) - `__eq__` is a conjunction over the pairs of representations. Equal index lists give equal numbers of fields, so a parameter belongs to the same element of the same pair and to fields with the same rank in both. The deviations depend only on which parameters share an output irrep and on the names of the input irreps. The filters follow from `forward_eq`. This discharges the assumption of c60_he_cache that equal expansions have equal deviations. `same` is any test which implies `==`, as the dictionary compares hashes first. c86_shape_differs shows why the filters are compared on the common channels: __eq__ ignores the sizes of the types, so expansions whose filters have different shapes can be equal. Comparisons are exact, without the tolerance of allclose.
* **C87 The network of the tutorial is exactly invariant to rotations by multiples of a right angle** (proved; Props/TutorialNet.lean, Props/TutorialHead.lean, Props/TutorialHeadBias.lean, Props/TutorialImages.lean) - Every SequentialModule of the network is a chain of modules to which C62 applies. The sizes are computed, and the windows of every convolution and pooling cover the padded image exactly. The last feature map has one pixel and trivial fields, so the action on it is the identity. The text of the notebook says that the padding of the convolutions breaks the invariance. For right angles it does not: the sizes 29, 25, 13, 7, 5, 1 are such that every window grid is symmetric. Exact arithmetic; the rotation by 45 degrees is not considered. Running statistics updated in training mode are not part of the result.
* **C88 The images of a batch do not influence each other in evaluation mode** (proved; Props/BatchIndependence.lean) - Every layer commutes with a change of the batch index applied to all channels, because slices, views and writes act on channels and the torch functions on images. Networks follow by running both sequences side by side. That the contents of fresh memory do not matter follows from the locality lemmas of C77. torch functions (conv2d, pooling, interpolate, batch_norm in evaluation mode) act on each image of the batch separately in the model, as their documentation says; this is part of the trusted base. c88_statistics_false shows that the evaluation mode is needed, and that InnerBatchNorm with track_running_stats=False has to be excluded also in evaluation mode.
* **C89 A state dictionary saved in evaluation mode is restored** (proved; Props/Checkpoint.lean) - Names and shapes of tensors are never changed by an operation, and in evaluation mode both buffers exist with their final shapes; this is an invariant of all sequences of operations. So the keys agree, the entries are copied, and a simulation between the two networks is preserved by all later calls. Proved as the documentation recommends it (evaluation mode when storing and when loading). c89_new needs that expanded_bias is registered with its final shape, which R2ConvTransposed does not do with groups > 1: c89_transposed_false. c89_silent_false is about networks in training mode which have never been switched. torch.nn.Module (state_dict, load_state_dict, register_buffer, del, to) is modelled from its documentation; copying between data types does not round. expand_parameters and conv2d are arbitrary functions.
* **C90 Networks do not influence each other** (partial; Props/Independence.lean) - The memory of the bases is modelled as a heap with addresses, which block_basisexpansion returns. Operations write only the tensors of one network and the heap at its addresses, so two runs which agree on what a network can see stay in agreement. The full statement is false for the default recompute=False: c90_move_false, c90_load_false. The partial theorems give all the cases in which it holds. Same model of torch.nn.Module as for C89.
* **C91 The names which the library gives identify the representations** (partial; Props/RepNames.lean) - RExp is the syntax of the calls and RExp.name the name; legality is an inductive predicate which gives the group. Induction on the calls, with a count of brackets to cut the names of direct sums at the commas which separate the summands. The full statement is false: restrict_representation leaves the identifier of the subgroup out of the name (c91_names_wrong, c91_axis_wrong). The partial theorem has the condition on identifiers; c91_rotations has none, for the rotation groups. c91_types is the link to C80. Names chosen by the caller are C80.
* **C92 The layers discretise equivariant convolutions on the plane, and the basis contains all of them** (proved; Props/PlaneConv.lean) - Change of variables by the linear maps of the group (determinant 1 or -1) and by translations; the converse with the fundamental lemma of the calculus of variations. The kernel of a layer is the weighted sum of the elements of the basis, without the restriction to the points of the filter; its regularity by induction over the loops of SteerableKernelBasis.sample. Completeness from C70. Fields on the plane and the convolution are integrals of Mathlib (Bochner integral, Lebesgue measure). c92_iff holds for continuous kernels and test functions; c92_commutes for all kernels and fields. The kernels of the layers are bounded, measurable and continuous except on the circle of radius 1e-9 where basis.py sets the angle to nan. With groups > 1 the kernel is zero between channels of different groups.
* **C93 For which strides and image sizes convolutions and poolings are equivariant** (proved; Props/Stride.lean) - The kernel constraint makes the support of the filter symmetric; a single pixel seen by the extreme entry of the filter in one window is seen, after the reversal, by no entry of the filter in the reversed window. Not constant: the constructor keeps only elements whose sampled norm is above a threshold. Padding mode zeros. The code does not check the image size: a layer on an image of another size runs and is not equivariant (c93_example: kernel 3, stride 2, no padding, 8 x 8 pixels).
* **C94 Convolutions and poolings on rectangular images, with arguments which differ along the two axes** (proved; Props/Rect.lean, Props/RectPool.lean) - Model rot90, the actions of the spaces, the padding pair with its reversal for torch's pad, conv2d and the poolings on h × w images; symmetries of the grid map an h × w image to a possibly turned shape; redo the change of variables of C25 with separate sizes along the axes. The condition on turns is necessary (c94_tuple_wrong). Layers with square images and integer paddings are those of C66 (c94_square).
* **C95 The predicates irreducible, is_trivial and contains_trivial of a representation say what their names say** (partial; Props/Flags.lean) - Conjugation invariance of invariant subspaces and fixed vectors; fixed vectors of a block diagonal matrix are those supported on the trivial blocks; the first block spans an invariant subspace when there are two. contains_trivial and the multiplicity are proved outright. irreducible and is_trivial also ask for the identity as change of basis: they imply the mathematical notions (c95_flags_partial), the converse holds with that change of basis and is false in general (c95_flags_wrong; the source has a TODO on this line). The mathematical notions are decided by the list of irreps (c95_irreducible, c95_trivial_iff).
* **C96 The representation of a field type is the direct sum of its fields, and restricting a type restricts each field** (partial; Props/TypeRep.lean) - Direct sums as in C10; a fold over the set with an invariant on the entries written; the witness is a type of C_6 with two fields of the same name. The restriction is looked up in a dictionary by name (field_type.py:265-270): it is right when the names identify the representations of the type (c96_restrict_partial; C91 says when they do), and wrong otherwise (c96_restrict_wrong, two direct sums with the default name). The name of the representation of a type does not identify it (c96_name_wrong); nothing in the library looks it up.
* **C97 Spaces, field types and representations which compare equal have equal hashes** (partial; Props/Hash.lean) - Case analysis on the classes; the witness is D_4 with the axes 0 and pi/2. True for representations. False for FlipRot2dOnR2: == ignores the axis and the hash is that of a name which contains it with 5 digits (c97_wrong; c97_space_iff says exactly when the hashes agree). The comparison of changes of basis is exact, without the tolerance of allclose, and so is their sum.
* **C98 The shape declared by a SequentialModule is the shape of the tensor it returns** (partial; Props/NetShapes.lean) - Every forward pass determines its resolution; the well-formedness of the tensors is the invariant of the induction over the modules. Proved by induction over the modules for networks without the modules for which C40 is false (Layer.ShapeOk lists the parameters). A network with an average pooling declares no shape at all, one with an adaptive pooling passes pairs on. The shapes are tied to the modelled forward passes, not to a second formula. Square images.
* **C99 R2Diffop can be built between any two types with a common irrep** (proved; Props/DiffopBuilds.lean) - The identity of the common irrep is an operator of order 0; a polynomial which vanishes at all but the central points bounds its weights from below (Cauchy-Schwarz), so the expansion keeps it. The weights come from sympy.finite_diff_weights, which is a parameter assumed to be exact for polynomials of degree less than the number of points (FDSpec, satisfiable). The proof bounds the sum of the squares of the weights of the value at the origin by 1/2 from below for every number of points. Default offsets and filter. c99_refused covers all maximum orders above the kernel size, and equal ones for even kernel sizes. c99_gauss: with derivatives of Gaussians the constructor succeeds for all odd kernel sizes; c99_gauss_even: for even sizes, maximum order 0 and a narrow Gaussian it fails.
* **C100 Operations in place give the results of the program without shared memory** (proved; Props/Inplace.lean) - A relation between memory and values on the needed variables is kept by every statement (backward liveness, forward simulation); split on channel numbers and on contents give the same pieces. Liveness (the variables needed later) and overwritten memory are defined on the text of the program and the variables' ranges of memory. c100_types judges the program by types and sizes only. Operands of += which overlap partly are excluded (PyTorch leaves their result open).
* **C101 Resetting a batch normalisation gives back the module as constructed** (partial; Props/BatchReset.lean) - Fields use only their own entries of the buffers (from the specification of forward, C64); a simulation relation which ignores the entries no field uses is kept by all operations; the loop over the groups fills all used entries. Full for GNormBatchNorm and InnerBatchNorm (which calls PyTorch's BatchNorm3d, whose resets are modelled as filling with 1 and 0) and for InducedNormBatchNorm with affine=True. The rest of the property is false of the code: c101_norm_drawn (a reset NormBatchNorm multiplies the fields by the random numbers it drew and always differs from a new one) and c101_no_affine (exception).
* **C102 Networks nested from SequentialModule and MultipleModule are equivariant, and MultipleModule is the direct sum of its branches** (partial; Props/NetTree.lean) - Mutual induction over the network: two copies with different memory return the same tensor and transformed tensors for transformed inputs; branching and merging commute with the action (C31, C41), the declared shapes are those of C98. c102_network and c102_multiple need that the branches of a MultipleModule declare their shapes correctly (C98). The rest is false of the code: c102_nested, c102_adaptive (exceptions) and c102_broadcast (another tensor). Left out: the vector field nonlinearity and R2Diffop as modules, modules with several labels (they need a tuple as in_type, which no module of the library has), the empty SequentialModule.
* **C103 ConcatenatedNonLinearity is constructed exactly for signed permutations and is then equivariant with the representations it builds** (proved; Props/ConcatBuild.lean, Props/ConcatFunction.lean) - The loops are folds which raise; the row search notes the single column, so that the checks are equivalent to the pattern of a signed permutation for invertible matrices; the dictionary of matrices is a homomorphism, which build_from_discrete_group_representation decomposes (C58). c103_zero_row: a single row of zeros passes the checks of one matrix, which no invertible matrix has. math.isclose is equality. The solver of the linear system is a parameter (GoodSolver: it finds an invertible solution where one exists).
* **C104 Networks with R2Diffop modules are equivariant** (partial; Props/DiffopNet.lean) - One step of the network for R2Diffop from C68, C82 and C83, the other modules as in C62, induction over the list of modules. False at the reflections for finite differences of odd orders (c104_flip_wrong, from C68). Proved: all three methods, all orders and angle offsets for rotations; without an angle offset also for reflections with RBF-FD, derivatives of Gaussians, and finite differences of even orders. Nested networks: C106.
* **C105 ModuleList is a list of equivariant modules** (partial; Props/ModuleList.lean) - The dictionary of numbered names as state; refinement to lists by induction over the calls, with a loop invariant for insert. False in three ways: add_module is inherited without a check of the class (c105_add_wrong), insert behind the end makes the next append replace the inserted module (c105_insert_gap_wrong), insert at -1 raises and leaves the first module twice (c105_insert_negative_wrong). Proved: refinement of a Python list for calls in range, and the class invariant for all programs without add_module. The methods of torch.nn.ModuleList are modelled from torch's definitions, which are not in the repository; slices, pop and the modes set by export are left out.
* **C106 Nested networks with R2Diffop modules are equivariant** (partial; Props/DiffopTree.lean) - The induction over the tree of C102 with the step of C104 at the leaves; the declared shape from the kernel size found by the constructor. False at the reflections for finite differences of odd orders (c106_flip_wrong, from C68). Proved with the hypotheses about the spaces which c104_cyclic, c104_so2, c104_flip, c104_dihedral, c104_o2 and their variants for rotations give. A MultipleModule inside a branch of a MultipleModule raises (C102).
* **C107 The images of a batch do not influence each other in nested networks** (proved; Props/BatchTree.lean) - A relation between modules over two batches, kept by SequentialModule and MultipleModule, with C88 at the leaves; induction over the tree; independence of memory from C102 and C106. c107_any and c107_diffop_any include the errors and make no assumption on the network besides the mode. The others need the network to be used as it should be (Ok, as in C102 and C106), which gives independence of memory. c107_statistics_false: evaluation mode and running statistics are needed.
* **C108 The inherited self test decides whether a module is equivariant, and networks pass it** (proved; Props/DefaultTest.lean, Props/ErrorMean.lean) - Induction over the list of tested elements; equivariance of nested networks (C102) for the second part. The comparison has no tolerance. With a tolerance the test accepts more modules. For SO(2) and O(2) the test looks at 52 angles only, see C81.

## Disagreements between the code and the properties

Each of these is proved in the model as the negation of a clause, with a witness; the matching positive theorem says exactly when the clause holds.

* C07 - `O2.combine` does not reduce angles, and `child` of a product outside `[0, 2pi)` may return a non-element (`c07_o2_child_unreduced`).
* C19 - without a maximum frequency the offset iteration ignores `non_negative`; the kernels for two one-dimensional irreps are then linearly dependent (`c19_offsets_dependent`).
* C24 - repeated identifiers (rings with equal radii) make the number of weights differ from the number of basis elements; the expansion then accepts no weights (`c24_repeated_identifiers`).
* C27 - assigning weights in evaluation mode leaves the stored filter (`c27_stale`).
* C29 - `GeometricTensor.split` appends to the list passed by the caller (`c29_argument_changed`).
* C30 - integers below `-n-1` return a field instead of raising (`c30_int_out_of_range`).
* C35 - ties of the maximum break the equivariance (`c35_ties_false`, `c35_every_tie_false`), and C_2 with more than one field raises (`c35_c2_error`).
* C38 - in-place dropout leaves fields untouched whose group is not contiguous (`c38_inplace_false`); p = 1 divides by zero.
* C39 - `NormMaxPool` at ties (`c39_normmax_ties`).
* C40 - `evaluate_output_shape` is wrong for transposed convolutions, ceil mode, average pooling, antialiased max pooling with padding, adaptive poolings and `MultipleModule` (`c40_*`).
* C41 - `add_module` with a name already in use (`c41_reused_name`).
* C42 - the cache key of differential operators lacks `max_power` and the discretisation; representations are identified by their names.
* C43 - the SO(2) subgroup memoised by O(2) keeps its old maximum frequency; irreps above the maximum are missing among the representations.
* C48 - the finite difference filter of P(dx, dy) discretises P(-dy, dx): at reflections operators of odd order get the opposite sign (`c48_reflection`, `c48_reflection_wrong`).
* C49 - `largest_possible_order` fails one point below an even accuracy (`c49_largest_order_wrong`).
* C50 - `PointwiseMaxPool.export` drops `ceil_mode`, `R2ConvTransposed.export` drops `output_padding`, `R2Upsampling.export` drops `size`.
* C51 - spaces with reflections compare equal whatever their axis (`c51_wrong`).
* C52 - `bandlimiting_filter` with a float always raises (`c52_float_wrong`).
* C53 - `load_cache` assigns a local variable (`c53_load_wrong`).
* C54 - nearest neighbour upsampling commutes with the reflections only if the input size divides the output size.
* C55 - `InducedGatedNonLinearity1` accepts gates of a quotient by another subgroup of the same index; the module is then not equivariant.
* C56 - `DisentangleModule` indexes its change of basis matrices by the name of the representation; two representations of one name get the same one (`c56_names_wrong`).
* C59 - the equality of the bases for D_N and O(2) ignores the reflection axis: with the dictionary of sampled bases a second FlipRot2dOnR2 with another axis gets the filters of the first (`c59_axis_wrong`).
* C61 - `R2ConvTransposed`: (a) with `output_padding > 0` the extra pixels are on one side only, so the output is not equivariant (`c61_output_padding_wrong`; no check or warning); (b) `max_radius` (r2_transposed_convolution.py:475) sums over the points (`sum(1)`) instead of the coordinates (`sum(0)` in r2convolution.py:637), so rings out of the grid are accepted (`c61_radius_wrong`); (c) the default rings are not multiplied by the dilation (lines 478-494, against r2convolution.py:642-659), so that the outer pixels of a dilated kernel are not covered (`c61_rings_wrong`).
* C63 - The docstrings of `_manual_fco1`, `_manual_fco2` and `_manual_fco3` say that `max_radius` is the radius of the last ring, touching the border of the grid. `compute_basis_params` gives them `kernel_size // 2`, while the last of the default rings has radius `(kernel_size - 1) // 2 * dilation`. For even sizes and for dilation above 1 the last ring is not recognised and keeps higher frequencies than on undilated odd filters (`c63_even_wrong`, `c63_dilation_wrong`).
* C65 - `R2Diffop` is not equivariant to reflections: the weights of the first coordinate are put on the rows of the filter (diffops/utils.py `discretize_2d_monomial`; see C48), so operators of odd order change sign at reflections. `c65_reflections_wrong` shows this for every layer with odd orders only, `c65_flip_wrong` for `Flip2dOnR2(axis=0)` with a kernel of size 3 from the trivial to the sign representation. The repository's tests do not see it: their image is nearly constant (r2diffop.py:536 divides an image already scaled to [0, 1] by 255) and the tolerance is 0.1.
* C66 - `R2Conv(..., kernel_size=2)` can not be built with the default arguments: `compute_basis_params` gives the single ring of radius 0 and width 0.005, whose samples at the four points are `exp(-10000 d²)`, so all elements are discarded and the constructor raises (`c66_size_two`, for scalar fields). Nothing in the documentation excludes the size 2. In the same way every even size loses its ring of radius 0.
* C68 - `R2Diffop(kernel_size=3, maximum_order=1)` on `Flip2dOnR2(axis=0)` from a trivial field to a sign field is built by the constructor and does not commute with the reflection (`c68_flip_wrong`); same cause as C65.
* C73 - `directsum(reprs, change_of_basis=Q)` gives the result the strings which all summands have, although the change of basis makes them false: the two irreps of C_2 with Q = [[1,1],[0,1]] make a representation with the matrix [[1,-2],[0,-1]] which carries 'norm' and 'concatenated'. `change_basis` drops the strings for this reason.
* C73 - `disentangle` gives every part the strings of the whole (representation.py:597). `CyclicGroup(4).induced_representation(4, irrep(1))` carries 'induced_norm_2'; its restriction to C_2 is twice the sign, and both parts, of size 1, carry 'induced_norm_2', so that InducedNormNonLinearity raises on a field which it is said to support.
* C74 - `Wide_ResNet` with depth 4 passes the assertion (depth - 4) % 6 == 0, builds one block in each layer (the list of strides always holds the first one) and never takes `out_type` because the test b == num_blocks - 1 is false: the last features are regular fields, so the scores depend on the orientation (c74_depth_four). With r = 3, f and N in {2, 3} the constructor fails, because the space which is left after the first restriction is a flip space and its `restrict` does not take a pair (c74_builds).
* C79 - no `__eq__` of the differential operator bases compares `DiscretizationArgs`: a layer which differs from an earlier one only in `angle_offset`, `smoothing` or `rbffd` silently gets the stencils of the earlier layer (`c79_discretisation_wrong`: the second layer gets the derivative, although it asked for its opposite). `R2FlipsDiscreteRotationsSolution.__eq__` asks for an instance of `R2DiscreteRotationsSolution`, so no basis on D_N equals itself and its entries are never found again; this keeps D_N from the error above.
* C80 - The dictionaries of `BlocksBasisExpansion` are indexed by the names of the representations (basisexpansion_blocks.py:66-85), while the sets they are built from hold representations. The default name of `directsum` does not mention the change of basis (representation.py:442-443). An R2Conv from a type with two different direct sums of the same name is built without an error and uses the basis of whichever of the two is visited last for both of them, so it is not equivariant (`c80_names_wrong`). `FieldType.restrict` and the names of restricted representations (group.py:409) have the same form and are not modelled here.
* C81 - `SO2.testing_elements` and `O2.testing_elements` are 52 equally spaced angles for all frequencies. A layer between irreps whose frequencies add up to 52, for example 26 and 26, passes its self test without being equivariant (`c81_so2_wrong`); the exact condition is `c81_so2_irreps`. The self tests of `PointwiseMaxPool`, `PointwiseAdaptiveMaxPool`, `NormMaxPool` and `FieldDropout` are `pass`: they never fail.
* C84 - `gaussian_derivative` passes `1/std**2` as the shape parameter of `exp(-(eps r)²)`, so the standard deviation of the Gaussian is `smoothing²/√2` and not `smoothing` as documented (`c84_width_wrong`). The filters are applied by cross-correlation without reflecting them, so those of odd order have the opposite sign of the smoothed derivative (`c84_sign_wrong`).
* C85 - `R2ConvTransposed.__init__` lacks the check of r2convolution.py:267-272 that the basis is not empty. With `kernel_size=2` and default arguments, scalar fields to scalar fields, it succeeds (with a printed warning), and `forward` raises `IndexError` at `self._representations_pairs[0]` (`c85_size_two_wrong`). With more than one representation in the input or output the layer gives its bias for every input (`c85_empty_constant`).
* C89 - (r2_transposed_convolution.py:111, 148): `R2ConvTransposed` with `groups > 1` registers the buffer `expanded_bias` with the size of one group, because the variable `out_type` has been replaced. After `eval()` the buffer has the size of the whole output type. A checkpoint saved in evaluation mode is refused by a new network built with the same arguments (`c89_transposed_false`). Apart from that, the constructors leave zeros in `filter` in training mode: a checkpoint saved from a network which has never been switched loads without error into one in evaluation mode, which then uses zero filters whatever the weights are (`c89_silent_false`). The documentation warns of the modes, but not of wrong results without an error.
* C90 - (basisexpansion_singleblock.py:145-186): `block_basisexpansion` returns the same `SingleBlockBasisExpansion` module for equal bases, and this module is registered as a submodule of all the convolutions that use it. `to()`, `cuda()`, `double()` or `half()` on one network therefore moves the bases of every other network of the process: in training mode the other networks raise an error for all inputs, and their `eval()` raises too (`c90_move_false`). Loading a checkpoint with another basis changes the outputs of the other networks (`c90_load_false`).
* C91 - (group.py:409): `restrict_representation` names its result `G:name` without the identifier of the subgroup. The action of D_2m on the plane, restricted to the reflections along axis 0 and along axis m, gives two representations diag(1, -1) and diag(-1, 1) of C_2 with one name (`c91_names_wrong`). A convolution whose input type contains both is built without an error and is not equivariant (`c91_axis_wrong`), because `BlocksBasisExpansion` uses names as keys.
* C94 - R2Conv accepts a pair as padding (r2convolution.py:168) and applies it, but evaluate_output_shape (r2convolution.py:397-406) adds twice the pair to an integer and raises (c94_declared_shape_raises).
* C95 - irreducible and is_trivial() are false for an irrep in another basis (representation.py:209-212, 247-256): the trivial representation with change of basis [[-1]] is not recognised (c95_flags_wrong).
* C96 - FieldType.restrict replaces a field by the restriction of another field with the same name (nn/field_type.py:265-270): with the fields directsum([irrep_0, irrep_3]) and directsum([irrep_0, irrep_3], change_of_basis=[[0,1],[1,0]]) of C_6, restricted to C_2, both fields get the same representation, so one of them transforms wrongly (c96_restrict_wrong). The name of FieldType.representation contains the size and the set of names only, so different types share it (c96_name_wrong).
* C97 - FlipRot2dOnR2(4, axis=0) == FlipRot2dOnR2(4, axis=pi/2) (the axis is not compared, see C51), but their hashes are those of different names (fliprot2d_on_r2.py:79, 296-303), and the same holds for the field types over them (c97_wrong).
* C98 - A SequentialModule which contains a PointwiseAvgPool cannot evaluate its output shape at all (c98_average_raises), and after an adaptive pooling the two sizes of the declared shape are pairs, which pointwise modules pass on without complaint (c98_pairs_wrong).
* C101 - NormBatchNorm.reset_parameters (norm.py:140-144) fills the weights with uniform random numbers in [0, 1) instead of 1; it and InducedNormBatchNorm.reset_parameters (induced_norm.py:153-157) do not test affine and raise AttributeError when it is False.
* C102 - MergeModule.forward (merge_module.py:86-92) allocates its output by evaluate_output_shape of its modules, so that a MultipleModule cannot be used inside a branch of another one (its evaluate_output_shape always raises), nor PointwiseAvgPool or the adaptive poolings; where the declared size is too large and the computed one is 1, the assignment in line 101 repeats the pixel.
* C104 - The library and its documentation treat R2Diffop as equivariant for all groups; with finite differences a network does not commute with reflections (c104_flip_wrong).
* C105 - ModuleList is documented to accept only equivariant modules; add_module accepts any. insert outside of 0..len does not behave like that of a list and corrupts the numbering; the class does not check the index.
* C106 - As for C104: with finite differences a network with R2Diffop does not commute with reflections.

Seen while reading, not stated as properties of their own: tuple padding breaks `R2Conv.evaluate_output_shape`; `ReshuffleModule` accepts duplicates; `deltaorthonormal_init` draws `randint(0, 1)`, which is always 0; `NormPool` and `NormMaxPool` do not check orthogonality. Others noted at first are now theorems: the equality of bases of operators and of kernels (C79, C59) and the row of zeros in `ConcatenatedNonLinearity` (C103).

## Main simplifications

* `SO2.irrep` is total; the code raises above the maximum frequency (modelled in the factory model of C43).
* Irreps are identified by frequency and flip, representations by their names, as the code does; where two objects with one name could differ this is stated.
* An empty kernel basis is the empty list; the code raises `EmptyBasisException`, which its callers turn into the same thing.
* A missing bias is the zero bias. `GNormBatchNorm` always multiplies by the weight (affine).
* Running statistics are functions of the number of the field.
* Names of submodules come from an injective `str`.
* The discretisation of differential operators does not round coefficients below 1e-8 to zero.
* The size of the antialiasing filter is a parameter.
