{"id": "C01", "title": "Cyclic group laws", "statement": "For CyclicGroup(N) the results of combine and inverse are elements again (is_element), combine is associative and commutative, identity is neutral on both sides, inverse is a two-sided inverse, order() is the number of listed elements, elements are pairwise different and are exactly the integers accepted by is_element.", "quantifier": "every N >= 1 and every triple of group elements", "why_tests_cant": "N is unbounded; tests enumerate a handful of orders", "anchors": ["e2cnn/group/groups/cyclicgroup.py: CyclicGroup.inverse, combine, is_element, elements, identity"]}
{"id": "C02", "title": "Dihedral group laws", "statement": "For DihedralGroup(N) combine and inverse stay inside the listed elements, combine is associative, identity is neutral, inverse is two-sided, the reflection is an involution that conjugates a rotation to its inverse, and the 2N listed elements are pairwise different and exactly those accepted by is_element.", "quantifier": "every N >= 1 and every triple of elements", "why_tests_cant": "N is unbounded and the flip/rotation sign has to be right for every combination", "anchors": ["e2cnn/group/groups/dihedralgroup.py: DihedralGroup.inverse, combine, is_element, elements"]}
{"id": "C03", "title": "Continuous group laws", "statement": "SO2.combine/inverse return angles in [0, 2pi), and satisfy the group laws exactly on [0, 2pi); O2.combine/inverse satisfy the group laws up to equality of angles modulo 2pi (O2.equal) and O2.equal is a congruence for combine and inverse.", "quantifier": "all real angles and both flip values", "why_tests_cant": "uncountably many elements; tests draw a few random angles and compare with a tolerance", "anchors": ["e2cnn/group/groups/so2group.py: SO2.inverse, combine, equal", "e2cnn/group/groups/o2group.py: O2.inverse, combine, equal", "e2cnn/group/utils.py: cycle_isclose"]}
{"id": "C04", "title": "Irreps of the cyclic groups are orthogonal representations", "statement": "For every CyclicGroup(N) and every admissible frequency k, irrep(k) maps the identity to the identity matrix, combine to the matrix product, inverse to the transpose; the returned character is the trace of the matrix; irrep(k) has size 1 exactly for k = 0 and for k = N/2 with N even, and size 2 otherwise.", "quantifier": "every N >= 1, every 0 <= k <= N//2, all pairs of elements", "why_tests_cant": "unbounded in N and k; floating point tests check samples within a tolerance", "anchors": ["e2cnn/group/groups/cyclicgroup.py: CyclicGroup.irrep", "e2cnn/group/utils.py: psi"]}
{"id": "C05", "title": "Irreps of D_N, SO(2) and O(2) are orthogonal representations", "statement": "Every irrep returned by DihedralGroup.irrep, SO2.irrep and O2.irrep maps identity to identity, combine to product and inverse to transpose, its character is the trace, and the calls with an inadmissible pair (flip frequency 0 with a rotation frequency that is neither 0 nor N/2) are rejected.", "quantifier": "every N >= 1, all admissible (j, k), all pairs of group elements (all real angles for the continuous groups)", "why_tests_cant": "infinitely many groups, frequencies and angles", "anchors": ["e2cnn/group/groups/dihedralgroup.py: DihedralGroup.irrep", "e2cnn/group/groups/so2group.py: SO2.irrep", "e2cnn/group/groups/o2group.py: O2.irrep", "e2cnn/group/utils.py: psi, chi, psichi"]}
{"id": "C06", "title": "Subgroup maps of the finite groups", "statement": "For every subgroup id accepted by CyclicGroup.subgroup and DihedralGroup.subgroup the returned parent map is an injective homomorphism of the returned group into the parent, child(parent(h)) = h for every h, and child(g) is None exactly when g is not in the image of the parent map; inadmissible ids are rejected.", "quantifier": "every N, every admissible subgroup id (axis, M) and every element", "why_tests_cant": "the ids and orders are unbounded; the three id forms follow different formulas", "anchors": ["e2cnn/group/groups/cyclicgroup.py: CyclicGroup.subgroup", "e2cnn/group/groups/dihedralgroup.py: DihedralGroup.subgroup"]}
{"id": "C07", "title": "Subgroup maps of the continuous groups", "statement": "For every subgroup id accepted by SO2.subgroup and O2.subgroup the parent map is a homomorphism (angles modulo 2pi), child(parent(h)) returns the group element h, and whenever child returns a value that value is an element of the subgroup whose image is the given element.", "quantifier": "every admissible id and every element produced by the group's own operations", "why_tests_cant": "angles are real numbers and the range of the products is unbounded (O2 does not reduce angles)", "anchors": ["e2cnn/group/groups/so2group.py: SO2.subgroup", "e2cnn/group/groups/o2group.py: O2.subgroup"]}
{"id": "C08", "title": "Restriction of representations, cyclic groups", "statement": "Restricting any representation of C_N to C_M (M | N) gives a representation of C_M, decomposed in irreps of C_M, whose matrix at h equals the original matrix at the image of h.", "quantifier": "every N, every divisor M, every representation (any list of irreps and any invertible change of basis), every h in C_M", "why_tests_cant": "the frequency folding f -> M - f has boundary cases at 0, M/2 and multiples of M, for every N and M", "anchors": ["e2cnn/group/groups/cyclicgroup.py: _restrict_irrep", "e2cnn/group/group.py: restrict_representation"]}
{"id": "C09", "title": "Restriction of representations, dihedral and continuous groups", "statement": "Restricting any representation of D_N to D_M (about any admissible axis), C_M or the flip group, of SO(2) to C_M, and of O(2) to O(2), SO(2), D_M, C_M or a flip group gives a representation decomposed in irreps of the subgroup whose matrix at h equals the original matrix at the image of h.", "quantifier": "every N, every admissible subgroup id including every axis, every representation, every subgroup element", "why_tests_cant": "the change of basis depends on the axis, frequency and parity; infinitely many combinations", "anchors": ["e2cnn/group/groups/dihedralgroup.py: _restrict_irrep", "e2cnn/group/groups/so2group.py: _restrict_irrep", "e2cnn/group/groups/o2group.py: _restrict_irrep", "e2cnn/group/group.py: restrict_representation"]}
{"id": "C10", "title": "Direct sum of representations", "statement": "directsum(reprs) is a representation whose matrix at g is block diagonal with the matrices of the summands in list order, whose irreps are the concatenation of the summands' irreps, and, when a change of basis Q is given, the conjugation of that by Q.", "quantifier": "every list of representations (any length and sizes) and every group element", "why_tests_cant": "lists are unbounded", "anchors": ["e2cnn/group/representation.py: directsum, Representation.__call__", "e2cnn/group/representation.py: change_basis"]}
{"id": "C11", "title": "Disentangling keeps the represented map", "statement": "disentangle(repr) returns a matrix Q and a list of representations such that conjugating the original representation with Q gives exactly the direct sum of the list, so DisentangleModule turns a field of type repr into fields of the listed types and commutes with the group action.", "quantifier": "every representation whose change of basis is a channel permutation of a block diagonal matrix, every group element", "why_tests_cant": "the block structure is data dependent and unbounded", "anchors": ["e2cnn/group/representation.py: disentangle", "e2cnn/nn/modules/disentangle_module.py: DisentangleModule"]}
{"id": "C12", "title": "Regular representation", "statement": "The regular representation built from the irreps of C_N and of D_N is the permutation representation: at h it sends the basis vector of g to the basis vector of h*g, and its change of basis is orthogonal.", "quantifier": "every N >= 1 and every pair of group elements", "why_tests_cant": "it is assembled numerically from trigonometric functions of every irrep; tests check a few N within tolerance", "anchors": ["e2cnn/group/representation.py: build_regular_representation", "e2cnn/group/group.py: regular_representation"]}
{"id": "C13", "title": "Quotient and induced representations", "statement": "The quotient representation by an admissible subgroup sends the basis vector of a coset gH to that of h*gH, so it is a permutation representation with one channel per coset. Induction from any irrep of any admissible subgroup returns, and gives the orthogonal representation whose blocks are the matrices of the irrep at r_j^-1 g r_i (zero outside the subgroup).", "quantifier": "every finite group of the library, every admissible subgroup id, every irrep of the subgroup, every element", "why_tests_cant": "unbounded group order", "anchors": ["e2cnn/group/representation.py: build_induced_representation, build_quotient_representation", "e2cnn/group/group.py: quotient_representation, induced_representation"]}
{"id": "C14", "title": "Frequencies enumerated for a kernel basis", "statement": "When a maximum frequency F is given, the enumeration of angular frequencies for base frequency k and group order N produces exactly the integers congruent to k modulo N with absolute value at most F (and at most the maximum offset, if given), each exactly once; with the non-negative restriction it produces exactly the non-negative ones.", "quantifier": "all integers k, all N >= 1, all bounds F and offsets", "why_tests_cant": "off-by-one at the boundaries would only show for particular (k, N, F)", "anchors": ["e2cnn/kernels/utils.py: offset_iterator"]}
{"id": "C15", "title": "Kernel constraint for SO(2)", "statement": "Every basis kernel returned for SO(2) irreps satisfies kappa(g x) = rho_out(g) kappa(x) rho_in(g)^-1.", "quantifier": "all pairs of frequencies, all basis elements, all rotations g and all points x of the plane including the origin", "why_tests_cant": "uncountably many rotations and points", "anchors": ["e2cnn/kernels/irreps_basis.py: R2ContinuousRotationsSolution", "e2cnn/kernels/r2.py: kernels_SO2_act_R2"]}
{"id": "C16", "title": "Kernel constraint for C_N", "statement": "Every basis kernel returned for irreps of C_N satisfies the kernel constraint for all elements of C_N acting by rotations of 2*pi*e/N.", "quantifier": "all N >= 1, all pairs of irreps (all four combinations of sizes), all maximum frequencies, all points", "why_tests_cant": "unbounded in N, frequencies and points", "anchors": ["e2cnn/kernels/irreps_basis.py: R2DiscreteRotationsSolution", "e2cnn/kernels/r2.py: kernels_CN_act_R2, kernels_Trivial_act_R2"]}
{"id": "C17", "title": "Kernel constraint for reflections", "statement": "Every basis kernel returned for the flip group satisfies the kernel constraint for the reflection with respect to the chosen axis.", "quantifier": "all axes, all pairs of irreps, all maximum frequencies, all points", "why_tests_cant": "axis and points are real numbers", "anchors": ["e2cnn/kernels/irreps_basis.py: R2FlipsSolution", "e2cnn/kernels/r2.py: kernels_Flip_act_R2"]}
{"id": "C18", "title": "Kernel constraint for D_N and O(2)", "statement": "Every basis kernel returned for irreps of D_N and O(2) satisfies the kernel constraint for all rotations and reflections of the group, with the reflection axis given by the user.", "quantifier": "all N, all axes, all pairs of irreps, all points", "why_tests_cant": "unbounded", "anchors": ["e2cnn/kernels/irreps_basis.py: R2FlipsDiscreteRotationsSolution, R2FlipsContinuousRotationsSolution", "e2cnn/kernels/r2.py: kernels_DN_act_R2, kernels_O2_act_R2"]}
{"id": "C19", "title": "No redundant kernels", "statement": "The angular basis kernels returned for a pair of irreps are linearly independent as functions on the circle, so distinct weights give distinct kernels.", "quantifier": "all N, all pairs of irreps, all maximum frequencies or offsets", "why_tests_cant": "linear independence over an unbounded family cannot be sampled", "anchors": ["e2cnn/kernels/irreps_basis.py", "e2cnn/kernels/utils.py: offset_iterator"]}
{"id": "C20", "title": "Completeness of the kernel basis", "statement": "For SO(2) and O(2), every kernel on the circle that satisfies the kernel constraint is a linear combination of the returned basis kernels.", "quantifier": "all pairs of irreps, all functions from angles to matrices satisfying the constraint", "why_tests_cant": "quantifies over all functions", "anchors": ["e2cnn/kernels/irreps_basis.py: R2ContinuousRotationsSolution, R2FlipsContinuousRotationsSolution"]}
{"id": "C21", "title": "Steerable basis for arbitrary representations", "statement": "If the bases for all pairs of irreps satisfy the kernel constraint, then every element of the basis built for arbitrary input and output representations (direct sums of irreps with a change of basis) satisfies the constraint for those representations, and the number of elements is the sum over all pairs of irreps.", "quantifier": "all representations (any number of irreps and any invertible change of basis), all elements, all points", "why_tests_cant": "unbounded lists of irreps", "anchors": ["e2cnn/kernels/steerable_basis.py: SteerableKernelBasis.sample, _sample_direct_sum, _change_of_basis"]}
{"id": "C22", "title": "Basis indexing agrees with sampling", "statement": "The attributes reported by indexing or iterating a kernel basis describe the kernel stored at the same position by sample: iteration yields exactly dim entries, entry i equals indexing at i, its in/out irrep positions are those of the block where kernel i is non-zero, and inside a polar basis the radius and angular element are those of the product stored at i.", "quantifier": "all bases and all indices", "why_tests_cant": "index arithmetic over unbounded nested sums", "anchors": ["e2cnn/kernels/steerable_basis.py: __getitem__, __iter__", "e2cnn/kernels/basis.py: PolarBasis.__getitem__, __iter__, sample"]}
{"id": "C23", "title": "Expanded filters satisfy the kernel constraint for every weight", "statement": "For every value of the weights the filter expanded from the basis satisfies the kernel constraint between the full input and output field types, whatever elements are filtered out, whatever normalisation is applied and whether the channels of a pair of representations are contiguous or not.", "quantifier": "all weights, all field types (any number and order of fields), all basis filters, all points of the grid", "why_tests_cant": "weights change during training; tests use one random initialisation", "anchors": ["e2cnn/nn/modules/r2_conv/basisexpansion_singleblock.py: SingleBlockBasisExpansion", "e2cnn/nn/modules/r2_conv/basisexpansion_blocks.py: BlocksBasisExpansion.forward, _expand_block"]}
{"id": "C24", "title": "Parameter bookkeeping of the expansion", "statement": "The parameter ranges of the pairs of representations partition [0, dimension), every parameter index is reported exactly once by get_basis_info, get_element_info(i) agrees with it, and changing weight i only changes the filter block of the pair, and the fields, that get_element_info(i) names. The pairs are in the order of the names of their representations, so that the ranges and identifiers do not depend on the order in which Python goes through its sets.", "quantifier": "all field types and all indices", "why_tests_cant": "index arithmetic over unbounded field lists", "anchors": ["e2cnn/nn/modules/r2_conv/basisexpansion_blocks.py: __init__, get_element_info, get_basis_info, dimension, forward"]}
{"id": "C25", "title": "Convolution commutes with the symmetries of the pixel grid", "statement": "R2Conv applied to a square image commutes with the action of every quarter rotation (and every reflection for D_4/flip spaces): transforming the input and then convolving equals convolving and then transforming the output, for odd and even kernel sizes, any padding, any dilation, and for stride s when s divides n + 2p - d(k-1) - 1.", "quantifier": "all images, all weights, all input/output field types, all kernel sizes, paddings, dilations and strides meeting the condition", "why_tests_cant": "tests compare one image under a tolerance of ten percent", "anchors": ["e2cnn/nn/modules/r2_conv/r2convolution.py: R2Conv.forward, get_grid_coords, expand_parameters", "e2cnn/gspaces/r2/utils.py: rotate_array", "e2cnn/gspaces/gspace.py: featurefield_action"]}
{"id": "C26", "title": "Bias is invariant", "statement": "The bias added by R2Conv, R2ConvTransposed and R2Diffop is fixed by the output representation, for every value of the bias parameters, and every vector of the span of the trivial components can be obtained.", "quantifier": "all output types, all parameters, all group elements", "why_tests_cant": "parameters change during training", "anchors": ["e2cnn/nn/modules/r2_conv/r2convolution.py: bias_expansion, expand_parameters"]}
{"id": "C27", "title": "Evaluation mode uses the trained filter", "statement": "In training mode the forward pass uses the expansion of the current weights; after switching from training to evaluation mode the stored filter and bias equal the expansion of the weights at that moment and do not change through further forward calls or eval() calls; export() returns a layer holding that filter; going back to training discards them.", "quantifier": "every sequence of train(), eval(), optimiser steps, forward and export calls", "why_tests_cant": "histories are unbounded", "anchors": ["e2cnn/nn/modules/r2_conv/r2convolution.py: R2Conv.train, forward, export", "e2cnn/nn/modules/r2_conv/r2diffop.py: R2Diffop.train", "e2cnn/nn/modules/r2_conv/r2_transposed_convolution.py: train"]}
{"id": "C28", "title": "Channel layout of a field type", "statement": "For a FieldType the i-th field occupies the channels fields_start[i] .. fields_end[i]-1; these intervals are consecutive, disjoint, cover 0..size-1 and have the size of the i-th representation; + concatenates layouts, index_select and sorted permute fields, group_by_labels partitions them keeping order.", "quantifier": "all lists of representations", "why_tests_cant": "lists are unbounded", "anchors": ["e2cnn/nn/field_type.py: fields_start, fields_end, __add__, index_select, sorted, group_by_labels"]}
{"id": "C29", "title": "Splitting and concatenating geometric tensors", "statement": "split(breaks) returns pieces whose types and channels, concatenated by tensor_directsum, give back the original tensor and type; the pieces lie at the requested field boundaries; both operations commute with transforming the fibers; the argument list is not changed by the call.", "quantifier": "all tensors, types and lists of breakpoints", "why_tests_cant": "unbounded lists; aliasing of the argument shows only on reuse", "anchors": ["e2cnn/nn/geometric_tensor.py: GeometricTensor.split, tensor_directsum"]}
{"id": "C30", "title": "Indexing geometric tensors", "statement": "Indexing the field dimension of a GeometricTensor with an integer, slice or ellipsis returns exactly the channels of the fields that Python indexing selects from the list of representations, with the matching type, or raises; the result transforms according to its type.", "quantifier": "all types, all integers (negative included) and slices with any start, stop and step", "why_tests_cant": "boundary arithmetic over unbounded sizes, negative indices and steps", "anchors": ["e2cnn/nn/geometric_tensor.py: GeometricTensor.__getitem__"]}
{"id": "C31", "title": "Reordering modules only move whole fields", "statement": "ReshuffleModule with a permutation, BranchingModule followed by MergeModule, and RestrictionModule move or regroup whole fields without changing values, and commute with the group action.", "quantifier": "all types, permutations and label lists", "why_tests_cant": "unbounded", "anchors": ["e2cnn/nn/modules/reshuffle_module.py: ReshuffleModule", "e2cnn/nn/modules/branching_module.py: BranchingModule", "e2cnn/nn/modules/merge_module.py: MergeModule", "e2cnn/nn/modules/utils.py: indexes_from_labels"]}
{"id": "C32", "title": "Contiguity test", "statement": "The test used to replace index lists by slices answers true exactly when the increasing list of channel indices is a range, so the sliced and the gathered computation give the same result.", "quantifier": "all increasing lists of indices", "why_tests_cant": "lists are unbounded; the test compares sums", "anchors": ["e2cnn/nn/modules/utils.py: check_consecutive_numbers, indexes_from_labels"]}
{"id": "C33", "title": "Pointwise nonlinearities are equivariant", "statement": "Applying any function channel by channel commutes with the action of every representation whose matrices are permutation matrices, and the concatenated nonlinearity (f(x), f(-x)) maps a field with signed permutation matrices to the declared output type equivariantly.", "quantifier": "all functions, all (signed) permutation representations, all inputs", "why_tests_cant": "quantifies over all functions and representations", "anchors": ["e2cnn/nn/modules/nonlinearities/pointwise.py, relu.py, elu.py", "e2cnn/nn/modules/nonlinearities/concatenated.py: ConcatenatedNonLinearity"]}
{"id": "C34", "title": "Norm and gated nonlinearities are equivariant", "statement": "NormNonLinearity, GatedNonLinearity1 and GatedNonLinearity2 commute with the action of all representations with orthogonal matrices (gates being trivial), each field is multiplied by exactly one scalar which depends only on invariants, and each gate is used by exactly one field.", "quantifier": "all inputs, all orthogonal representations, all biases and all orders of the fields", "why_tests_cant": "unbounded", "anchors": ["e2cnn/nn/modules/nonlinearities/norm.py: NormNonLinearity", "e2cnn/nn/modules/nonlinearities/gated1.py: GatedNonLinearity1", "e2cnn/nn/modules/nonlinearities/gated2.py: GatedNonLinearity2"]}
{"id": "C35", "title": "Vector field nonlinearity is equivariant", "statement": "VectorFieldNonLinearity maps a regular field of C_N to a field of the frequency-1 irrep and commutes with the group action.", "quantifier": "all N > 1 and all inputs", "why_tests_cant": "ties in the maximum are measure zero for random tests", "anchors": ["e2cnn/nn/modules/nonlinearities/vectorfield.py: VectorFieldNonLinearity"]}
{"id": "C36", "title": "Invariant maps are invariant", "statement": "GroupPooling (max over each permutation field), NormPool and InducedNormPool outputs do not change when the input fibers are transformed.", "quantifier": "all inputs, all types with permutation (respectively orthogonal, induced) matrices, all group elements", "why_tests_cant": "unbounded", "anchors": ["e2cnn/nn/modules/invariantmaps/gpool.py: GroupPooling, MaxPoolChannels", "e2cnn/nn/modules/invariantmaps/norm.py: NormPool", "e2cnn/nn/modules/invariantmaps/induced_norm.py: InducedNormPool"]}
{"id": "C37", "title": "Batch normalisation is equivariant", "statement": "InnerBatchNorm, NormBatchNorm and GNormBatchNorm commute with the group action in training and in evaluation mode, and the running statistics after a training step do not depend on the transformation applied to the batch; running variances stay non-negative over any history of batches.", "quantifier": "all batches, all parameters, all histories of updates, all group elements", "why_tests_cant": "histories and batches are unbounded", "anchors": ["e2cnn/nn/modules/batchnormalization/gnorm.py: GNormBatchNorm", "e2cnn/nn/modules/batchnormalization/norm.py: NormBatchNorm", "e2cnn/nn/modules/batchnormalization/inner.py: InnerBatchNorm"]}
{"id": "C38", "title": "Field dropout drops whole fields", "statement": "In training mode FieldDropout multiplies every channel of a field by the same factor, 0 or 1/(1-p), so it commutes with the group action for a fixed mask; in evaluation mode it is the identity; the in-place and the out-of-place form compute the same values.", "quantifier": "all inputs, all masks, all p, all orders of the fields", "why_tests_cant": "random masks and unbounded types", "anchors": ["e2cnn/nn/modules/dropout/field.py: FieldDropout, dropout_field"]}
{"id": "C39", "title": "Spatial pooling and masks commute with grid symmetries", "statement": "PointwiseMaxPool/AvgPool/antialiased pooling and NormMaxPool on a square image commute with quarter rotations and reflections when the window grid is symmetric, and the disk mask of MaskModule is invariant under them, so MaskModule commutes with them.", "quantifier": "all images, sizes, margins and window parameters meeting the divisibility condition", "why_tests_cant": "unbounded sizes", "anchors": ["e2cnn/nn/modules/pooling/pointwise.py, pointwise_avg.py, pointwise_avg.py, norm_max.py", "e2cnn/nn/modules/masking_module.py: build_mask, MaskModule"]}
{"id": "C40", "title": "Declared output shapes are the computed ones", "statement": "evaluate_output_shape of convolutions, transposed convolutions, poolings, upsampling, branching, dropout and the gated, induced gated and vector field nonlinearities equals the shape of the tensor returned by forward.", "quantifier": "all parameter settings and input shapes", "why_tests_cant": "unbounded parameter space with rounding", "anchors": ["e2cnn/nn/modules/r2_conv/r2convolution.py: evaluate_output_shape", "e2cnn/nn/modules/r2_conv/r2_transposed_convolution.py: evaluate_output_shape", "e2cnn/nn/modules/pooling/*.py: evaluate_output_shape", "e2cnn/nn/modules/r2upsampling.py", "e2cnn/nn/modules/multiple_module.py", "e2cnn/nn/modules/nonlinearities/gated2.py: evaluate_output_shape", "e2cnn/nn/modules/nonlinearities/induced_gated1.py: evaluate_output_shape", "e2cnn/nn/modules/nonlinearities/vectorfield.py: evaluate_output_shape", "e2cnn/nn/modules/branching_module.py: evaluate_output_shape", "e2cnn/nn/modules/dropout/pointwise.py: evaluate_output_shape"]}
{"id": "C41", "title": "Composition of equivariant modules", "statement": "A SequentialModule is only built when the output type of every module equals the input type of the next one; it computes the composition, its declared types are those of the first and last module, and if every component commutes with the group action so does the whole.", "quantifier": "all lists of modules", "why_tests_cant": "lists are unbounded", "anchors": ["e2cnn/nn/modules/sequential_module.py: SequentialModule", "e2cnn/nn/modules/equivariant_module.py"]}
{"id": "C42", "title": "Caches are transparent", "statement": "Building the same kernel or differential operator basis twice, in any order and interleaved with other requests to the same space, returns a basis equal to the one a fresh space would build for that request.", "quantifier": "all sequences of build requests", "why_tests_cant": "histories of requests are unbounded; a stale entry needs two particular requests", "anchors": ["e2cnn/gspaces/r2/general_r2.py: build_kernel_basis, build_diffop_basis"]}
{"id": "C43", "title": "Group factories return one object per group", "statement": "cyclic_group and dihedral_group return the same object for the same order over any history of calls; so2_group and o2_group return one object whose maximum frequency is the maximum requested so far, never decreases, and whose irreps up to that frequency all exist.", "quantifier": "all sequences of factory calls", "why_tests_cant": "histories are unbounded", "anchors": ["e2cnn/group/groups/factory.py", "e2cnn/group/groups/so2group.py: _generator", "e2cnn/group/groups/o2group.py: _generator", "e2cnn/group/groups/cyclicgroup.py: _generator", "e2cnn/group/groups/dihedralgroup.py: _generator"]}
{"id": "C44", "title": "Restricting a space keeps the action on the plane", "statement": "For GSpace.restrict, the action on the plane of an element h of the smaller space equals the action of its image in the original space, including the position of the reflection axis.", "quantifier": "all spaces (flips, rotations, both, continuous), all subgroup ids and axes, all elements and points", "why_tests_cant": "axes and angles are real", "anchors": ["e2cnn/gspaces/r2/fliprot2d_on_r2.py: restrict, _basespace_action", "e2cnn/gspaces/r2/rot2d_on_r2.py: restrict", "e2cnn/gspaces/r2/flip2d_on_r2.py: restrict"]}
{"id": "C45", "title": "The action on images is a group action", "statement": "Transforming a feature map by h and then by g equals transforming it by g*h, and the identity changes nothing, for quarter rotations and reflections of square images and any fiber representation.", "quantifier": "all square images of any size and all channels, all pairs of elements acting by grid symmetries", "why_tests_cant": "unbounded sizes", "anchors": ["e2cnn/gspaces/gspace.py: featurefield_action", "e2cnn/gspaces/r2/utils.py: rotate_array", "e2cnn/gspaces/r2/fliprot2d_on_r2.py: _basespace_action"]}
{"id": "C46", "title": "Polynomial representation of differential operators", "statement": "The coefficient lists used for differential operators evaluate to r^n cos(n t) and r^n sin(n t) at the point with polar coordinates (r, t), the k-th Laplacian power evaluates to r^(2k), multiplying coefficient lists multiplies the polynomials, and transforming by a matrix A gives the polynomial evaluated at the point transformed by A transposed.", "quantifier": "all degrees, all points, all coefficient lists, all matrices", "why_tests_cant": "unbounded degree", "anchors": ["e2cnn/diffops/utils.py: homogenized_cheby, laplacian_power, multiply_polynomials, expand_binomial, transform_polynomial, eval_polys"]}
{"id": "C47", "title": "Steerability of differential operators", "statement": "Every element of the differential operator basis for irreps of SO(2), C_N, O(2), D_N and the flip group, evaluated as a matrix of polynomials, satisfies P(g x) = rho_out(g) P(x) rho_in(g)^-1; products with Laplacian powers and changes of basis keep it.", "quantifier": "all groups, frequencies, axes, points and elements", "why_tests_cant": "unbounded", "anchors": ["e2cnn/diffops/irreps_basis.py", "e2cnn/diffops/basis.py: TensorBasis", "e2cnn/diffops/steerable_basis.py: SteerableDiffopBasis"]}
{"id": "C48", "title": "Finite difference discretisation is equivariant", "statement": "The filters obtained from a steerable differential operator by finite differences satisfy the discrete kernel constraint for the symmetries of the pixel grid that belong to the group, reflections included.", "quantifier": "all symmetric grids, all operators, all grid symmetries of the group", "why_tests_cant": "unit tests check rotations only, or use a tolerance above the signal", "anchors": ["e2cnn/diffops/utils.py: discretize_homogeneous_polynomial, discretize_2d_monomial", "e2cnn/nn/modules/r2_conv/r2diffop.py: get_grid_coords"]}
{"id": "C49", "title": "Order, accuracy and number of points agree", "statement": "required_points, largest_possible_order and guaranteed_accuracy are consistent: the required number of points guarantees the accuracy, it is the least one, and the largest possible order is the largest order for which the guaranteed accuracy is at least the requested one.", "quantifier": "all orders, accuracies and numbers of points", "why_tests_cant": "parity boundary cases over unbounded integers", "anchors": ["e2cnn/diffops/utils.py: required_points, largest_possible_order, guaranteed_accuracy"]}
{"id": "C50", "title": "Exported modules compute the same function", "statement": "export() of batch normalisation, pooling, upsampling, convolution and sequential modules returns a plain module computing the same tensor as the original in evaluation mode.", "quantifier": "all parameters and inputs", "why_tests_cant": "options that are dropped only show for particular settings", "anchors": ["export methods in e2cnn/nn/modules"]}
{"id": "C51", "title": "Type checks distinguish different symmetries", "statement": "Two spaces (and hence two field types) compare equal only when they describe the same action, so a tensor of one space is not accepted by a module of another.", "quantifier": "all pairs of spaces including the reflection axis", "why_tests_cant": "needs a pair of spaces differing only in one parameter", "anchors": ["e2cnn/gspaces/r2/flip2d_on_r2.py: __eq__", "e2cnn/gspaces/r2/fliprot2d_on_r2.py: __eq__", "e2cnn/nn/field_type.py: __eq__"]}
{"id": "C52", "title": "Band-limit filtering loses no admissible kernel", "statement": "The maximum frequency used to build the basis for a kernel size never excludes an element that the band-limiting filter would keep: filtering the basis built with any larger maximum frequency gives the same set of (radius, frequency) elements.", "quantifier": "all kernel sizes, dilations, cutoff functions and larger maxima", "why_tests_cant": "unbounded parameters", "anchors": ["e2cnn/nn/modules/r2_conv/r2convolution.py: compute_basis_params, bandlimiting_filter", "e2cnn/kernels/utils.py: offset_iterator"]}
{"id": "C53", "title": "Saved differential operator cache is restored", "statement": "After store_cache(path) and load_cache(path) in a fresh process every discretised operator stored before is served from the cache with the same value.", "quantifier": "all histories of discretisations, stores and loads, including a process restart between store and load", "why_tests_cant": "needs a process restart between the two calls; the unit test loads in the same process", "anchors": ["e2cnn/diffops/utils.py: load_cache, store_cache, discretize_homogeneous_polynomial"]}
{"id": "C54", "title": "Upsampling commutes with the symmetries of the pixel grid", "statement": "R2Upsampling applied to a transformed tensor is the transformed output, for all representations and all symmetries of the square grid: in the bilinear mode for every integer factor and every given size, with or without aligned corners (a result of one row needs an image of one row when the corners are aligned), and in the nearest mode exactly when the size of the result is a multiple of the size of the image.", "quantifier": "all types, representations, image sizes, factors, sizes of the result, symmetries and tensors", "why_tests_cant": "check_equivariance runs one image of size 55 with tolerances of 10% and only looks at the centre; the asymmetric sizes and the borders are never compared", "anchors": ["e2cnn/nn/modules/r2upsampling.py:23-102"]}
{"id": "C55", "title": "The nonlinearities of induced representations multiply subfields by scalars and are equivariant", "statement": "InducedNormNonLinearity multiplies every subfield of every field by one scalar which depends only on the norm of that subfield and on the bias of the field (zero where the norm is not above eps, otherwise function(norm - bias)/norm), and each bias belongs to exactly one field. InducedGatedNonLinearity1 pairs gates and gated fields one to one and multiplies the subfield i of a gated field by the sigmoid of the channel i of its gate minus the bias of the gate. Both commute with the action of every group element on the representations the constructors accept.", "quantifier": "for every field type accepted by the constructor with any order and sizes of fields and subfields, every list of gates, every bias, every input and every group element", "why_tests_cant": "The fields are regrouped by (size, subfield size), contiguous groups are sliced and others indexed, and biases and gates are consumed by a running counter; tests use one or two layouts, and a gate from another subgroup of the same index is accepted without any error.", "anchors": ["e2cnn/nn/modules/nonlinearities/induced_norm.py:23-209", "e2cnn/nn/modules/nonlinearities/induced_gated1.py:26-264", "e2cnn/group/group.py:439-468"]}
{"id": "C56", "title": "The module which disentangles fields is an equivariant change of basis", "statement": "DisentangleModule applies to each field of the input the orthogonal change of basis returned by disentangle for its representation, leaves the fields in their order, and its output transforms under every group element in the representations of its declared output type.", "quantifier": "for every field type with any order of fields, every representation, every input and every group element", "why_tests_cant": "Fields are regrouped by the names of their representations, contiguous groups are sliced and others indexed, and the representations of the output type have to line up with channels written group by group; tests use few layouts.", "anchors": ["e2cnn/nn/modules/disentangle_module.py:22-117", "e2cnn/group/representation.py:471-605"]}
{"id": "C57", "title": "The irreps are irreducible and pairwise inequivalent, and sum_of_squares_constituents is the dimension of their commutant", "statement": "For each of the four groups, every representation built by irrep(...) is irreducible over the reals (it has no invariant subspace besides zero and the whole space), irreps built from different indices are inequivalent (no non-zero intertwiner in either direction), and the field sum_of_squares_constituents is the dimension of the algebra of matrices commuting with the irrep.", "quantifier": "every N >= 1 and every accepted index for C_N and D_N; every frequency for SO(2) and O(2)", "why_tests_cant": "Irreducibility is a statement about all subspaces and all group elements; tests of the characters on samples of elements see neither, and the continuous groups have infinitely many irreps.", "anchors": ["e2cnn/group/groups/cyclicgroup.py: CyclicGroup.irrep", "e2cnn/group/groups/dihedralgroup.py: DihedralGroup.irrep", "e2cnn/group/groups/so2group.py: SO2.irrep", "e2cnn/group/groups/o2group.py: O2.irrep", "e2cnn/group/irrep.py: IrreducibleRepresentation"]}
{"id": "C58", "title": "decompose_representation recovers the irreps of every representation of a finite group", "statement": "For every representation of C_N or D_N by matrices: the multiplicities that decompose_representation computes from the characters are natural numbers (its assertion never fails), the representation is equivalent to the direct sum of the irreps with these multiplicities and to no other direct sum, the change of basis can be chosen orthogonal if the representation is orthogonal, and build_from_discrete_group_representation returns a well formed representation with the given matrices and character whenever the numerical search returns an invertible solution of the linear system.", "quantifier": "every N >= 1, every size and every matrix representation of C_N and D_N, every order in which the irreps are sorted", "why_tests_cant": "It needs complete reducibility and the orthogonality of characters for all N and all representations; tests exercise a few concrete representations.", "anchors": ["e2cnn/group/representation.py: build_from_discrete_group_representation, compute_change_of_basis, decompose_representation"]}
{"id": "C59", "title": "The dictionary of sampled bases is transparent", "statement": "Unless recompute is set, block_basisexpansion returns for every call the sampled basis which SingleBlockBasisExpansion would compute from the arguments of this call, whatever was requested before in the process; so the layers of every space get filters satisfying the kernel constraint of that space.", "quantifier": "all sequences of calls of block_basisexpansion in a process, all polar bases, points and filters", "why_tests_cant": "the dictionary is a module variable shared by all layers of all spaces; a test which builds one space never sees a stale entry", "anchors": ["e2cnn/nn/modules/r2_conv/basisexpansion_singleblock.py: block_basisexpansion", "e2cnn/kernels/irreps_basis.py: R2FlipsDiscreteRotationsSolution.__eq__", "e2cnn/kernels/irreps_basis.py: R2FlipsContinuousRotationsSolution.__eq__", "e2cnn/kernels/steerable_basis.py: SteerableKernelBasis.__eq__"]}
{"id": "C60", "title": "Weight initialisation preserves the scale of the features", "statement": "generalized_he_init gives every weight a positive deviation such that the variances of the weights of one output field sum to one, shared equally among the types of input irreps, so the expected energy of the filter of an output irrep is its size; the cached deviations are those which would be computed. deltaorthonormal_init sets every weight outside the centre of the filter, or between different irreps, to zero, and the map in the centre between all the inputs and all the outputs of one irrep has orthonormal columns (rows, if there are more inputs than outputs). It returns exactly if every basis element has a radius or an order and the weights in the centre of every irrep form a full table.", "quantifier": "all lists of attributes, all random draws (an orthogonal matrix, non-zero normal vectors), all sequences of cached calls", "why_tests_cant": "the output is random, tests can only estimate its variance; the delta initialisation holds its orthogonality only through the order of three dictionaries", "anchors": ["e2cnn/nn/init.py: _generalized_he_init_variances", "e2cnn/nn/init.py: generalized_he_init", "e2cnn/nn/init.py: deltaorthonormal_init"]}
{"id": "C61", "title": "Transposed convolutions commute with the symmetries of the grid", "statement": "For every field types, groups, kernel size, padding, stride and dilation, all weights and all images, R2ConvTransposed commutes with the elements of the group which permute the pixels, and its kernel parameters (rings, widths, cutoff, maximum frequency) are those R2Conv computes for the same arguments, as the documentation says that the two modules differ only in the type of convolution.", "quantifier": "forall groups and spaces, field types, groups, kernel sizes, paddings, strides, dilations, output paddings, weights, biases, images, group elements which permute the pixels", "why_tests_cant": "The tests use a few representations and one configuration without output padding and without dilation.", "anchors": ["e2cnn/nn/modules/r2_conv/r2_transposed_convolution.py:79-187", "e2cnn/nn/modules/r2_conv/r2_transposed_convolution.py:192-224", "e2cnn/nn/modules/r2_conv/r2_transposed_convolution.py:464-533"]}
{"id": "C62", "title": "Whole networks are equivariant, and invariant when they end in invariant fields on one pixel", "statement": "A SequentialModule built from modules of the library (convolutions and transposed convolutions with the bases of the gspace, pointwise, norm, induced norm and gated nonlinearities, the four batch normalisations in either mode, max, average, antialiased and adaptive poolings, group, norm and induced norm pooling, masks, upsampling, dropout in evaluation mode, identity), with distinct names and matching types, whose windows cover the padded images exactly, accepts every tensor of its input type and its output for the transformed tensor is the transformed output, for every group element which permutes the pixels and whatever the contents of newly allocated memory. If the output is one pixel of trivial fields, the network is invariant.", "quantifier": "all networks of any depth, all orders of modules, all weights, biases, states and functions, all input tensors, all batch sizes and image sizes, all group elements which permute the pixels, all five families of spaces", "why_tests_cant": "There is no bound on the depth, the order of the modules, the sizes of the types, the weights or the images; tests check a few fixed architectures with tolerances.", "anchors": ["e2cnn/nn/modules/sequential_module.py:15-84", "e2cnn/nn/modules/r2_conv/r2convolution.py:314-353", "e2cnn/nn/modules/equivariant_module.py:14-62", "e2cnn/nn/geometric_tensor.py:310-331"]}
{"id": "C63", "title": "The cutoff policies limit the frequencies on each ring of a filter", "statement": "With frequencies_cutoff -1 (the default), -2 or -3 and default rings, only frequency 0 is kept in the centre of a filter; on the last ring, which touches the border of the grid, frequencies up to 2 (-1) or 1 (-2, -3); on the other rings up to 2r (odd r) or 2r-1 (even r), or 2 (-3). Nothing else is removed, and the maximum frequency of the basis is at least every limit.", "quantifier": "all kernel sizes, dilations and policies, all rings, all bases", "why_tests_cant": "There are infinitely many kernel sizes and dilations; the tables compare radii as numbers, so each size has to be tried; existing tests never look at the frequencies kept.", "anchors": ["e2cnn/nn/modules/r2_conv/r2convolution.py:642-680", "e2cnn/nn/modules/r2_conv/r2convolution.py:699-759"]}
{"id": "C64", "title": "Batch normalisations normalise by the moving averages of the statistics of the training batches", "statement": "After any history of calls in training and evaluation mode, each field (for GNormBatchNorm: each irrep of each field) has its own running statistics, which are the exponential moving averages with the given momentum, or the means when momentum is None, of the unbiased variances (and for InnerBatchNorm and trivial irreps the means) of that field in the batches seen in training mode, starting from variance 1 and mean 0. Calls in evaluation mode leave them unchanged. The output is the input divided by the root of the variance plus eps, times the weight of the field: NormBatchNorm and InducedNormBatchNorm use the running variance, updated first in training mode; InnerBatchNorm and GNormBatchNorm subtract means and use the statistics of the batch in training mode and the running ones in evaluation mode.", "quantifier": "all field types, all histories of calls of any length, batches and images of any sizes, all momenta, eps, weights and biases, all contents of new memory", "why_tests_cant": "The claim is about histories of any length with any types; tests run a few batches and compare the equivariance only, which wrong momenta or mixed up buffers do not break.", "anchors": ["e2cnn/nn/modules/batchnormalization/norm.py:146-254", "e2cnn/nn/modules/batchnormalization/induced_norm.py:159-269", "e2cnn/nn/modules/batchnormalization/inner.py:114-149", "e2cnn/nn/modules/batchnormalization/gnorm.py:174-345"]}
{"id": "C65", "title": "R2Diffop commutes with the symmetries which permute the pixels", "statement": "The constructor of R2Diffop chooses, from a maximum order and an accuracy, the smallest kernel which guarantees the accuracy; from a kernel size and an accuracy, the largest order for which it is guaranteed; and all the operators which pass its filter can be discretised. For every group, every admissible pair of field types, every weights and biases, the layer applied to a transformed image gives the transformed output, for every element of the group which permutes the pixels, when the windows cover the padded image.", "quantifier": "all groups of the plane supported by the library, all field types, all kernel sizes, orders, accuracies, dilations, paddings, strides, numbers of groups, weights, biases, image sizes and images", "why_tests_cant": "Tests run a few spaces and sizes with a tolerance of 0.1 on an image scaled by resize to [0, 1], divided by 255 and shifted (r2diffop.py:530-536): almost constant, so that all its derivatives are below the tolerance. No test covers all types, weights and sizes.", "anchors": ["e2cnn/nn/modules/r2_conv/r2diffop.py:215-384", "e2cnn/nn/modules/r2_conv/r2diffop.py:399-458", "e2cnn/nn/modules/r2_conv/r2diffop.py:681-755", "e2cnn/diffops/basis.py:93-150"]}
{"id": "C66", "title": "R2Conv built from its public arguments is equivariant", "statement": "For every space of the library, every pair of field types and every value of the public arguments of R2Conv (kernel size, padding, stride, dilation, padding mode, groups, sigma, frequency cutoff, distinct rings, maximum offset, custom basis filter): if the constructor succeeds then the layer accepts every image and, for every weights and biases, commutes with every element of the group which permutes the pixels, provided that the windows cover the padded image. With the default arguments the constructor succeeds for every odd kernel size, for scalar fields.", "quantifier": "all six spaces, all field types, all arguments, weights, biases, image sizes and images", "why_tests_cant": "The tests build a few layers with a few arguments and compare two outputs with a tolerance. The parameters of the basis computed by the constructor (rings, widths, cutoff, maximum frequency), the filter and the identifiers interact, and no finite set of arguments covers them.", "anchors": ["e2cnn/nn/modules/r2_conv/r2convolution.py:152-279", "e2cnn/nn/modules/r2_conv/r2convolution.py:626-695", "e2cnn/gspaces/r2/general_r2.py:44-126", "e2cnn/kernels/r2.py:20-310", "e2cnn/gspaces/r2/rot2d_on_r2.py:106-154", "e2cnn/gspaces/r2/fliprot2d_on_r2.py:168-217", "e2cnn/gspaces/r2/flip2d_on_r2.py:88-134", "e2cnn/gspaces/r2/trivial_on_r2.py:76-121"]}
{"id": "C67", "title": "Inducing an irreducible representation of SO(2) to O(2)", "statement": "For every irreducible representation rho of SO(2), O2._induced_from_irrep((None, -1), rho) returns a representation of O(2) of twice the size, whose change of basis is orthogonal with its transpose as inverse, and which is the induced representation: an element g takes the block of axes of a coset representative r (identity or reflection) to the block of the coset of g r, acting by rho. For the trivial representation it permutes the two cosets. Every other subgroup identifier is refused.", "quantifier": "all frequencies f, all elements (s, theta) of O(2)", "why_tests_cant": "The change of basis is built from explicit constants, and the identity has to hold for every frequency and every real angle; a test only compares floats at sampled angles.", "anchors": ["e2cnn/group/groups/o2group.py:419-519"]}
{"id": "C68", "title": "R2Diffop built from its public arguments commutes with the rotations of the pixel grid", "statement": "Whatever the types, kernel size, maximum order, accuracy, power of the Laplacian, offset, padding, stride, dilation, groups, angle offset and basis filter: if the constructor of R2Diffop succeeds, then the layer it builds accepts every vector of weights of the right length and every image whose padded windows are covered exactly, and commutes with every element of the group of the space which permutes the pixels.", "quantifier": "all spaces of the library, all orders of the groups, all types, all constructor arguments, all weights, biases and images", "why_tests_cant": "The arguments, the groups, the representations and the images are unbounded; a test samples a few layers, and the existing tests compare outputs up to a tolerance which hides wrong signs of small responses.", "anchors": ["e2cnn/nn/modules/r2_conv/r2diffop.py:R2Diffop.__init__", "e2cnn/nn/modules/r2_conv/r2diffop.py:R2Diffop.forward", "e2cnn/gspaces/r2/general_r2.py:GeneralOnR2.build_diffop_basis", "e2cnn/diffops/basis.py:TensorBasis"]}
{"id": "C69", "title": "The kernel bases of the finite groups contain every kernel up to the maximum frequency", "statement": "For C_N, for the group of a reflection and for D_N, and for every pair of irreps, the list of angular kernels built with maximum_frequency = F is complete: every kernel on the plane that satisfies the constraint k(g x) = rho_out(g) k(x) rho_in(g)^-1 and whose restriction to each circle is a trigonometric polynomial of degree at most F is a linear combination of the elements of the list, with coefficients that depend on the radius only. Conversely every element has frequency at most F.", "quantifier": "all N >= 1, all axes, all pairs of irreps, all maximum frequencies F, all kernels, all points at the origin or at least 1e-9 away from it", "why_tests_cant": "The claim quantifies over an infinite-dimensional family of kernels; a missing basis element leaves every built kernel equivariant and every existing test green, and only makes the layers less expressive.", "anchors": ["e2cnn/kernels/irreps_basis.py:38-113", "e2cnn/kernels/irreps_basis.py:188-359", "e2cnn/kernels/irreps_basis.py:639-804", "e2cnn/kernels/utils.py:14-48"]}
{"id": "C70", "title": "The kernel bases for arbitrary representations are bases of the spaces of equivariant kernels", "statement": "For any two representations of a group that are direct sums of irreps in arbitrary bases, the steerable basis assembled from the bases of all the pairs of irreps is linearly independent, and every kernel on the plane that satisfies k(g x) = rho_out(g) k(x) rho_in(g)^-1 (for the finite groups: of angular frequencies at most the maximum frequency) is a linear combination of its elements with coefficients that depend on the radius only.", "quantifier": "all groups C_N, D_N, a reflection, SO(2), O(2), all axes, all representations with any number of irreps and any invertible change of basis, all maximum frequencies, all kernels", "why_tests_cant": "Tests check that the kernels that are built are equivariant; a basis with missing or repeated elements passes them all. The claim is about all equivariant kernels between all representations.", "anchors": ["e2cnn/kernels/steerable_basis.py:14-273", "e2cnn/kernels/r2.py:20-310"]}
{"id": "C71", "title": "Programs with residual connections, in-place operations and shared memory are equivariant", "statement": "A program on geometric tensors (calls of modules with or without inplace, assignments, a + b, a - b, a * c, a += b, a -= b, a *= c, split into views, direct sums) that is correct by the types and sizes of its inputs runs to its end on all such inputs, and started on the inputs transformed by an element of the group that permutes the pixels it ends with the transformed tensors in all variables, although tensors share memory. An operation in place writes what the operation returns, all tensors that share the memory see it, and no other tensor changes.", "quantifier": "all programs of any length, all modules of the library, all inputs, all aliasing between tensors, all contents of new memory, all groups", "why_tests_cant": "Residual blocks modify tensors in place (inplace ReLU, out += x) while other variables still refer to the same memory; tests run a few architectures on a few inputs and cannot cover all interleavings and aliases.", "anchors": ["e2cnn/nn/geometric_tensor.py:209-308", "e2cnn/nn/geometric_tensor.py:548-650", "e2cnn/nn/geometric_tensor.py:657-699", "examples/e2wrn.py:159-170", "e2cnn/nn/modules/nonlinearities/relu.py:52-65", "e2cnn/nn/modules/identity_module.py:32-45"]}
{"id": "C72", "title": "The differential operators of a layer are all the equivariant ones up to its order", "statement": "For any two representations, the basis of equivariant partial differential operators (an angular part times a power of the Laplacian) is linearly independent, and every homogeneous operator with constant coefficients that satisfies D(g x) = rho_out(g) D(x) rho_in(g)^-1 (for the finite groups: of order at most the maximum frequency) is a combination of the elements of its own order. An R2Diffop built with the default maximum power, offset and filter has, for every pair of fields, independent operators whose combinations are exactly all the equivariant operators of order at most its maximum order.", "quantifier": "all groups C_N, D_N, a reflection, SO(2), O(2), the trivial group, all axes, all representations, all maximum frequencies and powers, all operators with constant coefficients, all layers that the constructor builds", "why_tests_cant": "Tests check that the operators that are built are equivariant; a basis with missing or repeated operators passes them all. The claim is about all equivariant operators of all orders.", "anchors": ["e2cnn/diffops/irreps_basis.py:29-909", "e2cnn/diffops/steerable_basis.py:14-183", "e2cnn/diffops/basis.py:162-300", "e2cnn/diffops/r2.py:20-317", "e2cnn/nn/modules/r2_conv/r2diffop.py:702-755"]}
{"id": "C73", "title": "The supported nonlinearities of a representation are true", "statement": "Whatever functions of the library a representation is built with, in any order and number of steps (irreps, regular, quotient and induced representations, direct sums, changes of basis, restrictions, disentangling, the representations made by the concatenated nonlinearity), the strings in its set supported_nonlinearities are true of its matrices: permutations for 'pointwise' and 'induced_gate', permutations up to signs for 'concatenated', orthogonal for 'norm', the identity for 'gate', permuted subfields of size k for 'induced_gated_k' and, with orthogonal blocks, for 'induced_norm_k'. So every module that looks a string up in its constructor is equivariant on the fields it accepts.", "quantifier": "all groups C_N, D_N, SO(2), O(2), all finite constructions of representations, all subgroups, all group elements, all inputs", "why_tests_cant": "Tests take the representations that the groups hold in their dictionaries; the sets are copied, intersected and extended by each construction, and a wrong entry shows only after the particular sequence of constructions that makes it wrong.", "anchors": ["e2cnn/group/representation.py:205", "e2cnn/group/representation.py:400-468", "e2cnn/group/representation.py:590-598", "e2cnn/group/representation.py:608-646", "e2cnn/group/group.py:211-330", "e2cnn/group/group.py:361-468", "e2cnn/group/groups/cyclicgroup.py:222-288", "e2cnn/group/groups/dihedralgroup.py:390-462", "e2cnn/group/groups/so2group.py:238-263", "e2cnn/group/groups/o2group.py:370-415", "e2cnn/nn/modules/nonlinearities/concatenated.py:147-234"]}
{"id": "C74", "title": "The example wide residual network is invariant", "statement": "Wide_ResNet(depth, widen_factor, ..., N, f, r) classifies a picture independently of its orientation: in evaluation mode, when the picture is turned or mirrored by an element of the group which is left after the restrictions (N rotations, N/2 rotations and so on as r says, with the flip unless it is given up), the scores do not change. The network is built for all arguments which pass its assertions, and then the restriction gives exactly the group the documentation names.", "quantifier": "all depths, widening factors, N, f, r, initial strides, parameter values, running statistics and images (with the sizes below), all elements of the remaining group which map the pixel grid to itself", "why_tests_cant": "The script's own test compares one untrained network on one photograph, up to a tolerance; the composition goes through group restrictions, disentangled fields, shortcuts and strides, and each of these depends on the arguments.", "anchors": ["examples/e2wrn.py:44-105", "examples/e2wrn.py:114-179", "examples/e2wrn.py:181-392", "examples/e2wrn.py:395-460"]}
{"id": "C75", "title": "A convolution can be built when the types share an irrep", "statement": "R2Conv(in_type, out_type, kernel_size, padding, stride, dilation, groups) with an odd kernel size and the default rings, widths and band limit does not fail, and has at least one weight, when an input field and an output field (of one group of channels) contain the same irrep. With kernel size 1 this is also necessary: otherwise the constructor raises an exception because the basis is empty.", "quantifier": "all six spaces, all N, all lists of fields with orthogonal changes of basis, all odd kernel sizes, all paddings, strides, dilations and groups", "why_tests_cant": "The set of kernels depends on the irreps, the sampling of the angular functions at the pixels, the band limit and the radial profiles at the same time; tests build some pairs of types with some kernel sizes.", "anchors": ["e2cnn/nn/modules/r2_conv/r2convolution.py:152-279", "e2cnn/nn/modules/r2_conv/basisexpansion_singleblock.py:33-87", "e2cnn/gspaces/r2/general_r2.py", "e2cnn/kernels/r2.py", "e2cnn/kernels/irreps_basis.py"]}
{"id": "C76", "title": "Changes of basis stay orthogonal", "statement": "Whatever functions of the library a representation is built with (irreps, regular representations, induction, direct sums, changes of basis, restriction to a subgroup, disentangling), in any order and any number of steps, its change_of_basis is an orthogonal matrix, change_of_basis_inv is its transpose, and all its matrices are orthogonal, as long as the matrices given by the caller are orthogonal.", "quantifier": "all four kinds of groups, all N, all finite sequences of constructions, all orthogonal matrices given by the caller", "why_tests_cant": "The tests look at single constructions of some small groups up to a tolerance; the property is an invariant of all compositions, which other parts of the library (kernel bases, normalisations, initialisation) silently rely on.", "anchors": ["e2cnn/group/representation.py:275-288", "e2cnn/group/representation.py:400-468", "e2cnn/group/representation.py:471-605", "e2cnn/group/representation.py:608-646", "e2cnn/group/representation.py:649-747", "e2cnn/group/representation.py:779-1011"]}
{"id": "C77", "title": "Networks commute with translations", "statement": "A sequence of convolutions, pointwise poolings, nonlinearities, batch normalisations in evaluation mode, group poolings and dropout in evaluation mode computes each output from a window of the input, in the same way at all positions: with total stride S, padding P and window width R (given by the usual recursion over the modules), output i reads the pixels i*S-P, ..., i*S-P+R-1, and if an image is moved by (S*a, S*b) pixels then its output is moved by (a, b), at all positions whose windows do not reach the padding. With circular padding, disjoint pooling windows and strides which divide the image sizes this holds on the torus, at all positions.", "quantifier": "all networks of these modules, all groups and types, all weights, parameters, running statistics, image sizes, batches, translations, contents of new memory", "why_tests_cant": "The tests check rotations and reflections only, for single modules and fixed sizes; the windows of compositions and their dependence on strides, dilations and paddings range over infinitely many networks.", "anchors": ["e2cnn/nn/modules/r2_conv/r2convolution.py:294-353", "e2cnn/nn/modules/pooling/pointwise_max.py", "e2cnn/nn/modules/pooling/pointwise_avg.py", "e2cnn/nn/modules/nonlinearities", "e2cnn/nn/modules/batchnormalization", "e2cnn/nn/modules/sequential_module.py:66-84"]}
{"id": "C78", "title": "A 1×1 convolution can represent exactly the linear maps which commute with the group, each by exactly one choice of weights", "statement": "For R2Conv with kernel_size=1 and default rings, sigma and offsets, on each of the gspaces of the plane and for all input and output types: (1) whatever the weights, the filter is a matrix which commutes with the representations of the input and of the output type; (2) every matrix which commutes with them is the filter of one and only one vector of weights, so nothing is missing in the basis and no weight is redundant; (3) the constructor raises 'The basis for the steerable filter is empty!' exactly when no matrix but zero commutes with them; (4) without padding and groups the layer multiplies the channels of every pixel (which the stride selects) with this matrix and adds the bias.", "quantifier": "for all N, axes, field types, representations built by the library (orthogonal change of basis, irreps of the group), dilations, strides, frequency cutoffs, matrices and weights", "why_tests_cant": "The tests of the library check that random filters are equivariant; they never check that the basis is complete or independent, and a lost or duplicated basis element leaves every layer equivariant.", "anchors": ["e2cnn/nn/modules/r2_conv/r2convolution.py:150-280", "e2cnn/nn/modules/r2_conv/basisexpansion_blocks.py:60-330", "e2cnn/nn/modules/r2_conv/basisexpansion_singleblock.py:20-110", "e2cnn/kernels/steerable_basis.py:60-190", "e2cnn/kernels/irreps_basis.py:20-1000"]}
{"id": "C79", "title": "The dictionary of sampled differential operators is transparent", "statement": "Unless recompute is set, R2Diffop gets from block_basisexpansion, for every pair of representations, the operators discretised as this layer asked (method, smoothing, angle offset, axis of its space), whatever layers were built before in the process.", "quantifier": "all sequences of calls of block_basisexpansion for bases of differential operators, all groups, representations, filters, points and discretisations", "why_tests_cant": "the dictionary is a module variable; a test which builds layers of one discretisation never sees a stale entry", "anchors": ["e2cnn/nn/modules/r2_conv/basisexpansion_singleblock.py:148-185", "e2cnn/diffops/basis.py:196-203", "e2cnn/diffops/basis.py:285-292", "e2cnn/diffops/steerable_basis.py:238-261", "e2cnn/diffops/irreps_basis.py:125-134", "e2cnn/diffops/irreps_basis.py:581-592"]}
{"id": "C80", "title": "A convolution is equivariant for the representations of its fields, whatever their names", "statement": "An R2Conv between two field types commutes with the group acting through the representations of their fields. The weights, sizes and bases of the layer are kept in dictionaries indexed by the names of the representations, and the order in which the sets of representations are visited does not change the layer.", "quantifier": "all group orders, field types with names and representations, layer arguments, orders of the sets of representations, weights, biases and images", "why_tests_cant": "A test uses the names given by the library to a handful of representations. Whether two different representations can share a name, and which of them then wins, depends on the order of a Python set and on combinations of fields that no test builds.", "anchors": ["e2cnn/nn/modules/r2_conv/basisexpansion_blocks.py:66-160", "e2cnn/nn/modules/r2_conv/basisexpansion_blocks.py:307-358", "e2cnn/group/representation.py:398-467", "e2cnn/nn/field_type.py:76", "e2cnn/nn/modules/r2_conv/r2convolution.py:152-353"]}
{"id": "C81", "title": "The self tests decide whether a layer is equivariant", "statement": "check_equivariance, run with exact arithmetic on the testing elements of the group, passes with all errors equal to 0 for every layer which is equivariant on the fibres. For a layer which is not it fails: on some minibatch for any layer, and with probability 1 on a random minibatch for a linear layer.", "quantifier": "all group orders, field types, changes of basis, layers, matrices, minibatches and distributions of the minibatch with a density", "why_tests_cant": "This is a claim about the tests themselves. For SO(2) and O(2) the tests look at 52 angles only, so no run of them tells whether a passing layer commutes with the other angles.", "anchors": ["e2cnn/group/groups/cyclicgroup.py:101-106", "e2cnn/group/groups/dihedralgroup.py:122-126", "e2cnn/group/groups/so2group.py:100-105", "e2cnn/group/groups/o2group.py:122-127", "e2cnn/nn/modules/invariantmaps/gpool.py:133-157", "e2cnn/nn/modules/equivariant_module.py:79-117", "e2cnn/nn/geometric_tensor.py:333-365"]}
{"id": "C82", "title": "R2Diffop with derivatives of Gaussians is equivariant, reflections included", "statement": "With smoothing given, the filters of the equivariant differential operators are steerable: the derivatives of the Gaussian satisfy the kernel constraint at every element of the group and every point of the plane. Whenever the constructor succeeds the layer commutes with every element of the group which permutes the pixels, reflections included; with an angle offset, with the rotations.", "quantifier": "all six spaces and group orders, field types, changes of basis, kernel sizes, orders, dilations, widths of the Gaussian, weights, biases and images", "why_tests_cant": "A run of the layer compares one Gaussian, one operator and one image, to a tolerance of a tenth, and the package for the Gaussians is optional; the identity between derivatives and group actions holds or fails for all orders at once.", "anchors": ["e2cnn/diffops/utils.py:64-165", "e2cnn/diffops/utils.py:259-279", "e2cnn/diffops/basis.py:93-150", "e2cnn/nn/modules/r2_conv/r2diffop.py:699-745"]}
{"id": "C83", "title": "R2Diffop with RBF-FD is equivariant, reflections included", "statement": "With rbffd=True the filters of the equivariant operators satisfy the kernel constraint on the grid for every radial basis function for which the linear system of the weights has one solution. Whenever the constructor succeeds the layer commutes with every element of the group which permutes the pixels, reflections included; with an angle offset, with the rotations.", "quantifier": "all six spaces and group orders, field types, changes of basis, kernel sizes, orders, dilations, radial basis functions, degrees of the added polynomials, weights, biases and images", "why_tests_cant": "The weights come from a linear system solved numerically by an optional package; whether symmetric points give symmetric weights is a fact about all such systems.", "anchors": ["e2cnn/diffops/utils.py:64-165", "e2cnn/diffops/utils.py:259-279", "e2cnn/diffops/basis.py:93-150", "e2cnn/nn/modules/r2_conv/r2diffop.py:699-745"]}
{"id": "C84", "title": "The width and the sign of the smoothing of R2Diffop", "statement": "The filters with smoothing=s are the derivatives of a Gaussian with standard deviation s, and applying one is similar to smoothing the image and applying finite differences: on a linear function the filter of a first derivative has the sign of the derivative.", "quantifier": "all widths, operators, kernel sizes and dilations", "why_tests_cant": "No test compares the filters with a Gaussian of the documented width, and a wrong width or sign leaves the layer equivariant and trainable.", "anchors": ["e2cnn/nn/modules/r2_conv/r2diffop.py:196-200", "e2cnn/diffops/basis.py:22-26", "e2cnn/diffops/utils.py:259-279"]}
{"id": "C85", "title": "R2ConvTransposed built from its public arguments is equivariant", "statement": "Whatever the arguments given to R2ConvTransposed, if the constructor succeeds then the layer accepts all weights, biases and images, and commutes with the elements of the group which permute the pixels. It accepts the arguments which R2Conv accepts and refuses those which R2Conv refuses.", "quantifier": "all six spaces, group orders and axes, field types, kernel sizes, paddings, strides, dilations, groups, rings, widths, cutoffs, custom filters, weights, biases, image sizes and images", "why_tests_cant": "test/nn/test_convolution_transposed.py builds kernels of size 7 or more with default arguments only. No test tries the size 2, often used with stride 2 to upsample.", "anchors": ["e2cnn/nn/modules/r2_conv/r2_transposed_convolution.py:27-224", "e2cnn/nn/modules/r2_conv/r2_transposed_convolution.py:464-533", "e2cnn/nn/modules/r2_conv/basisexpansion_blocks.py:66-90", "e2cnn/nn/modules/r2_conv/basisexpansion_blocks.py:307-358"]}
{"id": "C86", "title": "Expansions which compare equal initialise and expand alike, so the cache of the He initialisation is transparent", "statement": "If two BlocksBasisExpansion compare equal, they have the same number of parameters, generalized_he_init gives their parameters the same standard deviations, and the same weights give the same filter on the channels which both filters have. So calling generalized_he_init with cache=True, in any order and for any layers, gives the same weights as without the cache.", "quantifier": "all pairs of well formed expansions (any types, also different ones), all weights, all sequences of calls with and without cache, all random numbers", "why_tests_cant": "test/nn/test_he_init.py uses the cache with the expansion of one layer only. Equal expansions of layers with different types never occur in the tests.", "anchors": ["e2cnn/nn/modules/r2_conv/basisexpansion_blocks.py:360-400", "e2cnn/nn/modules/r2_conv/basisexpansion_singleblock.py:131-142", "e2cnn/nn/init.py:14-83"]}
{"id": "C87", "title": "The network of the tutorial is exactly invariant to rotations by multiples of a right angle", "statement": "C8SteerableCNN of examples/model.ipynb gives the same output for a 29x29 image and for the image turned by any multiple of a right angle, for all parameters and statistics, in training and evaluation mode. It can be built with any weights of the right number, and it refuses images of any other size or with more than one channel.", "quantifier": "all weights, parameters, running statistics and batches of images; both modes; any order N of the group for the elements which permute the pixels", "why_tests_cant": "The notebook prints the outputs for eight angles of one image with one set of weights, and the reader compares the digits; it does not check them. It attributes fluctuations to the padding.", "anchors": ["examples/model.ipynb (cells 4, 12, 16)", "e2cnn/nn/modules/pooling/pointwise_avg.py:119-219", "e2cnn/nn/modules/masking_module.py:13-73", "e2cnn/nn/modules/invariantmaps/gpool.py:17-123", "e2cnn/nn/modules/sequential_module.py:15-84"]}
{"id": "C88", "title": "The images of a batch do not influence each other in evaluation mode", "statement": "A SequentialModule in evaluation mode computes the output for an image from that image alone: picking any images of a batch, in any order and with repetitions, before the network is the same as picking the corresponding outputs after it. Hence the output for an image does not depend on the other images nor on the size of the batch. In training mode a permutation of the batch permutes the outputs. The exception is InnerBatchNorm with track_running_stats=False, which mixes the images in both modes.", "quantifier": "all networks of the modelled layers which accept their inputs, all parameters and statistics, all batches and selections of images, whatever uninitialised memory contains", "why_tests_cant": "The tests of the library feed random batches of one size and never compare the output for an image across batches. The modules write slices of channels of freshly allocated tensors, so a wrong view or a leftover value would show only for particular combinations of types and batch sizes.", "anchors": ["e2cnn/nn/modules/sequential_module.py:66-84", "e2cnn/nn/modules/batchnormalization/inner.py:114-149", "e2cnn/nn/modules/batchnormalization/norm.py:146-254", "e2cnn/nn/modules/batchnormalization/induced_norm.py:159-245", "e2cnn/nn/modules/r2_conv/r2convolution.py:314-353", "e2cnn/nn/modules/nonlinearities/norm.py:117-195"]}
{"id": "C89", "title": "A state dictionary saved in evaluation mode is restored", "statement": "The state_dict of a network which is in evaluation mode can be loaded with load_state_dict(strict=True) into any network in evaluation mode which was built with the same arguments, in the same or in another process and whatever was done to both before. Afterwards the two networks give the same outputs, also after further calls of train, eval and assignments of weights. It can also be loaded into a network which has just been built. Loading between networks in different modes is refused.", "quantifier": "all networks of convolutions and other modules, all sequences of train, eval, assignments, moves and loads before saving and before loading, all calls afterwards, all inputs", "why_tests_cant": "The tests save and load conventional torch modules and lists of modules, and only right after construction. The documentation warns that the attributes of the class change with the mode; which combinations work depends on the history of both networks.", "anchors": ["e2cnn/nn/modules/r2_conv/r2convolution.py:231-239", "e2cnn/nn/modules/r2_conv/r2convolution.py:274-275", "e2cnn/nn/modules/r2_conv/r2convolution.py:355-395", "e2cnn/nn/modules/r2_conv/r2_transposed_convolution.py:93-154", "e2cnn/nn/modules/r2_conv/r2_transposed_convolution.py:181-182", "e2cnn/nn/modules/r2_conv/basisexpansion_blocks.py:66-84", "e2cnn/nn/modules/r2_conv/basisexpansion_singleblock.py:86"]}
{"id": "C90", "title": "Networks do not influence each other", "statement": "What is done to one network (train, eval, steps of an optimiser, moving it to another device or data type, loading a state dictionary) does not change the outputs of another network. This holds with recompute=True. With the default, where blocks of equal bases are shared objects, it holds for train, eval and assignments, for networks in evaluation mode, and as long as nothing is moved and the loaded dictionaries contain the same bases.", "quantifier": "all networks, all sequences of operations on the other networks and on the network itself, all inputs", "why_tests_cant": "Tests use one network at a time, on one device and with one data type. The sharing goes through a module-level dictionary and shows only when several networks live in one process.", "anchors": ["e2cnn/nn/modules/r2_conv/basisexpansion_singleblock.py:145-186", "e2cnn/nn/modules/r2_conv/basisexpansion_singleblock.py:86", "e2cnn/nn/modules/r2_conv/basisexpansion_blocks.py:66-84", "e2cnn/nn/modules/r2_conv/r2convolution.py:294-353"]}
{"id": "C91", "title": "The names which the library gives identify the representations", "statement": "Two representations of a group which the library builds (irreps, regular, quotient and induced representations, restrictions, direct sums, nested in any way) with the same name are the same. This holds when only rotation groups are restricted, and in general when all restrictions of one group to one other group use one identifier of the subgroup. It fails for restrictions along different axes.", "quantifier": "all sequences of calls which build representations, all groups, all nestings", "why_tests_cant": "There are infinitely many nested names, and the tests never put two restrictions of one representation in a type. The library uses the names as keys of dictionaries and caches, so a clash produces a wrong layer and no error.", "anchors": ["e2cnn/group/group.py:361-420", "e2cnn/group/group.py:281", "e2cnn/group/group.py:317", "e2cnn/group/representation.py:442-443", "e2cnn/nn/modules/r2_conv/basisexpansion_blocks.py:45-90"]}
{"id": "C92", "title": "The layers discretise equivariant convolutions on the plane, and the basis contains all of them", "statement": "A convolution on the plane with a continuous matrix valued kernel commutes with all translations and with all elements of the group (acting on the points and on the channels) exactly when the kernel satisfies the kernel constraint. The filter of every R2Conv consists of the values, at the points of the filter, of a kernel on the plane which satisfies the constraint for every element of the group, so the layer is a discretisation of a convolution which commutes with the whole group, not only with the elements which permute pixels; this convolution is not zero unless the filter is. Conversely the basis of the library spans every continuous kernel whose convolution commutes with the group (for the finite groups: every such kernel of bounded frequency).", "quantifier": "all six kinds of spaces, all orders, axes, representations, field types, constructor arguments, weights, fields on the plane, translations and group elements", "why_tests_cant": "A test on images can only compare elements of the group which permute the pixels, or allow a tolerance for interpolation; it can neither see fields on the plane nor show that no equivariant convolution is missing from the basis.", "anchors": ["e2cnn/nn/modules/r2_conv/r2convolution.py:152-279", "e2cnn/nn/modules/r2_conv/r2convolution.py:606-623", "e2cnn/kernels/basis.py:262-301", "e2cnn/kernels/steerable_basis.py:134-220", "e2cnn/kernels/irreps_basis.py:115-163", "e2cnn/gspaces/r2/general_r2.py:52-93"]}
{"id": "C93", "title": "For which strides and image sizes convolutions and poolings are equivariant", "statement": "Let an element of the group reverse an axis of the image (a rotation by 180 degrees, a reflection along the rows or the columns). A zero-padded R2Conv which is not constant, at least one window of which lies in the image, commutes with it exactly when the stride divides the range of the windows, i.e. size + 2 padding - dilation (kernel_size - 1) - 1. No choice of weights makes a layer equivariant on another image size, except a constant layer; and every parameter of a layer alone gives a layer which is not constant. Max pooling, average pooling and antialiased average pooling commute with the reversal exactly when the windows cover the padded image.", "quantifier": "all spaces, representations, field types, constructor arguments (kernel sizes, strides, dilations, paddings, groups), weights, biases, image sizes; all windows of the poolings, with and without ceil_mode", "why_tests_cant": "A test runs some weights on some image sizes; that no weights work on the other sizes is a statement about all weights and all images.", "anchors": ["e2cnn/nn/modules/r2_conv/r2convolution.py:152-353", "e2cnn/nn/modules/r2_conv/basisexpansion_singleblock.py:33-87", "e2cnn/nn/modules/pooling/pointwise_max.py:85-107", "e2cnn/nn/modules/pooling/pointwise_avg.py:75-96", "e2cnn/nn/modules/pooling/pointwise_avg.py:203-219"]}
{"id": "C94", "title": "Convolutions and poolings on rectangular images, with arguments which differ along the two axes", "statement": "On images with h × w pixels the group elements which permute the pixels act exactly: a reversal keeps the shape, a quarter turn or a diagonal reflection gives an image with w × h pixels, and the value at a pixel is the matrix of the element applied to the value at the preimage of its centre. An R2Conv built from its public arguments, with padding an integer or a pair, in any padding mode, and pointwise max and average poolings with integers or pairs as arguments, commute with this action for every h and w whose padded sizes are covered by the windows, provided that elements which exchange the axes meet equal arguments along the two axes. With stride 1 unequal paddings never commute with a quarter turn, the shapes differ. evaluate_output_shape raises for a pair although the constructor and forward accept it.", "quantifier": "All groups of the library, types, arguments of the constructor, integers and pairs for the padding, padding modes, heights and widths, weights, biases, images, group elements which permute the pixels; all pooling windows, strides, paddings and dilations, permutation (max) or arbitrary (average) matrices.", "why_tests_cant": "The tests of the library use square images and integer arguments only; there are infinitely many pairs of sizes, and exchanging the order of the pair in one of the padding modes is invisible on square images with equal paddings.", "anchors": ["e2cnn/nn/modules/r2_conv/r2convolution.py:167-178", "e2cnn/nn/modules/r2_conv/r2convolution.py:325-406", "e2cnn/gspaces/r2/utils.py:7-16", "e2cnn/nn/modules/pooling/pointwise_max.py:60-107", "e2cnn/nn/modules/pooling/pointwise_avg.py:56-96"]}
{"id": "C95", "title": "The predicates irreducible, is_trivial and contains_trivial of a representation say what their names say", "statement": "For every representation of a group of the library: contains_trivial() is true exactly when some non-zero vector is fixed by all group elements, and the number of trivial irreps is the dimension of the space of fixed vectors; irreducible is true exactly when there is no invariant subspace other than zero and the whole space; is_trivial() is true exactly when the representation has one dimension and every matrix is the identity.", "quantifier": "All groups of the library, all representations over their irreps with an invertible change of basis.", "why_tests_cant": "It is a statement about all subspaces and all group elements (infinitely many for SO(2) and O(2)) and all changes of basis.", "anchors": ["e2cnn/group/representation.py:209-212", "e2cnn/group/representation.py:247-273"]}
{"id": "C96", "title": "The representation of a field type is the direct sum of its fields, and restricting a type restricts each field", "statement": "FieldType.representation is block diagonal with the representations of the fields in order, its irreps and changes of basis are those of FieldType.irreps, change_of_basis and change_of_basis_inv, and these decompose it; its name identifies it. FieldType.transform mixes the channels of each field by the matrix of the field. FieldType.restrict(id) has, in the place of each field, its restriction to the subgroup, so that transforming a restricted tensor with an element h of the subgroup is transforming the tensor with the corresponding element of the group.", "quantifier": "All field types (any number of fields with any names and representations), all spaces and subgroups, all elements, all images, all orders in which Python visits the set of representations.", "why_tests_cant": "The fields of a type, their names and bases are unbounded, and the order of a set of Python objects varies between runs.", "anchors": ["e2cnn/nn/field_type.py:95-275", "e2cnn/nn/modules/restriction_module.py:15-55", "e2cnn/nn/geometric_tensor.py:173-207"]}
{"id": "C97", "title": "Spaces, field types and representations which compare equal have equal hashes", "statement": "If two spaces, two field types or two representations are equal (==), their hashes are equal, as Python requires for keys of dictionaries and elements of sets.", "quantifier": "All spaces (all groups, orders, maximum frequencies and axes), all field types, all representations, every hash function on texts.", "why_tests_cant": "The pairs of equal objects are infinitely many (axes are real numbers), and a test with a particular hash could agree by coincidence.", "anchors": ["e2cnn/gspaces/r2/fliprot2d_on_r2.py:296-303", "e2cnn/gspaces/r2/rot2d_on_r2.py:222-229", "e2cnn/gspaces/r2/flip2d_on_r2.py:197-204", "e2cnn/nn/field_type.py:92,445-452", "e2cnn/group/representation.py:328-342"]}
{"id": "C98", "title": "The shape declared by a SequentialModule is the shape of the tensor it returns", "statement": "Whenever a network built as a SequentialModule returns a tensor, evaluate_output_shape of the network on the shape of the input returns the shape of this tensor.", "quantifier": "Networks of any length made of modules of any kind with all parameters, all batch sizes, all resolutions (square images), all inputs and all contents of new memory.", "why_tests_cant": "The networks, their parameters and the resolutions are infinitely many, and a wrong entry of one module is only seen where a later module reads it.", "anchors": ["e2cnn/nn/modules/sequential_module.py:102-112", "e2cnn/nn/modules/r2_conv/r2convolution.py:397-406", "e2cnn/nn/modules/pooling/pointwise_avg.py:98-115", "e2cnn/nn/modules/nonlinearities/gated1.py:252-259", "e2cnn/nn/modules/invariantmaps/gpool.py:125-131"]}
{"id": "C99", "title": "R2Diffop can be built between any two types with a common irrep", "statement": "If the input and the output type share an irrep and the kernel has more points than the maximum order, the constructor of R2Diffop succeeds and the layer has at least one weight; for maximum order 0 it succeeds exactly if the types share an irrep; with a kernel too small for a power of the Laplacian within the maximum order it fails; with derivatives of Gaussians it succeeds for every odd kernel size, order and width, and for even sizes it can fail for all types when the Gaussian is narrow.", "quantifier": "All spaces of the library (rotations, reflections, both, the continuous groups, the trivial group) of any order and axis, all representations with an orthogonal change of basis, all types, kernel sizes (even and odd), maximum orders, accuracies, dilations, paddings, strides, groups, angle offsets and largest powers of the Laplacian; discretisation by finite differences (all claims) and by derivatives of Gaussians (last claim).", "why_tests_cant": "The constructor drops operators whose filter is small, so the claim needs a lower bound on the finite difference weights for every number of points and every pair of representations.", "anchors": ["e2cnn/nn/modules/r2_conv/r2diffop.py:215-384", "e2cnn/nn/modules/r2_conv/basisexpansion_singleblock.py:36-86", "e2cnn/diffops/utils.py:170-201", "e2cnn/diffops/basis.py:93-150"]}
{"id": "C100", "title": "Operations in place give the results of the program without shared memory", "statement": "If no statement overwrites memory of a variable whose value is needed later, a program with modules called in place, +=, -=, *=, views made by split and aliases raises an exception exactly when the program does in which every statement makes a new value, and otherwise all results are equal. The residual blocks of the wide residual network satisfy this, and leave their input unchanged. A residual block whose nonlinearity overwrites its input returns f(x) + f(x) instead of x + f(x), without an exception.", "quantifier": "All programs of any length, all variables, all field types, image sizes and batches, all modules with all parameters, all contents of new memory, all sets of result variables; all blocks which the constructor of the wide residual network accepts.", "why_tests_cant": "Whether two tensors share memory depends on the history of the program; a test sees one program and notices a wrong alias only if the values happen to differ.", "anchors": ["e2cnn/nn/geometric_tensor.py:209-308", "e2cnn/nn/geometric_tensor.py:549-699", "e2cnn/nn/modules/nonlinearities/relu.py:48-68", "e2cnn/nn/modules/nonlinearities/elu.py:52-70", "examples/e2wrn.py:140-170"]}
{"id": "C101", "title": "Resetting a batch normalisation gives back the module as constructed", "statement": "After reset_parameters, whatever batches, optimiser steps and resets came before, every later call of a batch normalisation returns what a newly constructed one returns; after reset_running_stats it returns what a new one with the same parameters returns. (This fails for NormBatchNorm, which draws its weights from [0, 1) although the constructor sets them to 1, so that a reset module always differs from a new one; and NormBatchNorm and InducedNormBatchNorm built with affine=False raise an exception on reset_parameters.)", "quantifier": "All field types, numbers and sizes of fields, orders of the groups, momenta and eps, all finite histories of calls in training and evaluation mode on batches of any size, parameter updates and resets, and all continuations.", "why_tests_cant": "Equality of behaviour must hold after every history and for every continuation; the repository has no test which calls a reset.", "anchors": ["e2cnn/nn/modules/batchnormalization/norm.py:117-144", "e2cnn/nn/modules/batchnormalization/induced_norm.py:126-157", "e2cnn/nn/modules/batchnormalization/gnorm.py:139-172", "e2cnn/nn/modules/batchnormalization/inner.py:94-112"]}
{"id": "C102", "title": "Networks nested from SequentialModule and MultipleModule are equivariant, and MultipleModule is the direct sum of its branches", "statement": "Every network nested to any depth from SequentialModule and MultipleModule which can be constructed accepts all tensors of its input type and commutes with the transformations by the elements of the group which permute the pixels; the result of a MultipleModule is the direct sum of the results of its modules on the fields with their labels. (This fails when a module of a MultipleModule declares its output shape wrongly: a MultipleModule or a PointwiseAvgPool inside a branch of a MultipleModule, or an adaptive pooling as a branch, passes the constructor and then raises on every input; a max pooling in ceil mode can be repeated silently over a larger image.)", "quantifier": "All trees of modules of any depth and width, all modules of the network model in training and evaluation mode, all weights, labels, levels of reshuffling, batches and image sizes, all contents of uninitialised memory.", "why_tests_cant": "The tests check a few MultipleModules of one level; the trees, the parameters and the inputs are unbounded, and whether forward runs depends on evaluate_output_shape of all modules below.", "anchors": ["e2cnn/nn/modules/multiple_module.py:20-131", "e2cnn/nn/modules/merge_module.py:75-126", "e2cnn/nn/modules/branching_module.py:24-219", "e2cnn/nn/modules/sequential_module.py:16-112"]}
{"id": "C103", "title": "ConcatenatedNonLinearity is constructed exactly for signed permutations and is then equivariant with the representations it builds", "statement": "For a representation of a finite group, ConcatenatedNonLinearity._transform_representation returns exactly if all matrices of the representation are permutations of the coordinates up to signs (assuming that the numerical solver finds a change of basis where there is one); the result has twice the size, its matrices are those of the input with 1 replaced by the 2x2 identity and -1 by the exchange of two coordinates, they are permutations, and they form a representation of the group made of its irreps. For a continuous group it raises. The constructor accepts every type built by the library whose representations carry 'concatenated', the fields of the output correspond to the fields of the input in whatever order the set of representations is iterated, and the module commutes with the group; where the string is wrong the constructor raises.", "quantifier": "All representations of all groups C_N, D_N, SO(2), O(2), all types with any number of fields, all orders of the set of representations, all solvers, all tensors and elements.", "why_tests_cant": "Representations, sizes and groups are unbounded; the tests construct the module for a few groups.", "anchors": ["e2cnn/nn/modules/nonlinearities/concatenated.py:20-63", "e2cnn/nn/modules/nonlinearities/concatenated.py:119-234"]}
{"id": "C104", "title": "Networks with R2Diffop modules are equivariant", "statement": "Every SequentialModule made of modules of the library, R2Diffop among them, whose types fit and whose windows cover the padded images, accepts every tensor of its input type and commutes with the elements of the group which permute the pixels, for all weights and all three methods of discretisation (finite differences, RBF-FD, derivatives of Gaussians).", "quantifier": "All networks of any length, all spaces and representations, all public arguments of R2Diffop for which the constructor succeeds, all weights, batches, image sizes and elements.", "why_tests_cant": "Networks, sizes and weights are unbounded; the tests of R2Diffop build single layers.", "anchors": ["e2cnn/nn/modules/sequential_module.py:16-84", "e2cnn/nn/modules/r2_conv/r2diffop.py:214-458"]}
{"id": "C105", "title": "ModuleList is a list of equivariant modules", "statement": "A ModuleList behaves under append, extend, insert, item assignment and deletion like a list of Python, contains only equivariant modules whatever the program does, and export returns the exported modules at the same positions.", "quantifier": "All modules, all lists given to the constructor, all sequences of calls of any length, with calls that raise in between for the class invariant.", "why_tests_cant": "The sequences of calls are unbounded; the repository has no test of ModuleList.", "anchors": ["e2cnn/nn/modules/module_list.py:20-95"]}
{"id": "C106", "title": "Nested networks with R2Diffop modules are equivariant", "statement": "Every network nested from SequentialModule and MultipleModule to any depth, with R2Diffop among its modules, which can be built and whose modules are used as they should be, accepts every tensor of its input type, does not depend on uninitialised memory, and commutes with the elements of the group which permute the pixels; R2Diffop.evaluate_output_shape, on which MultipleModule relies, declares the shape of the output.", "quantifier": "All nested networks of any depth and width, all spaces and representations, all public arguments of R2Diffop for which the constructor succeeds, all methods of discretisation, weights, batches, image sizes and elements.", "why_tests_cant": "Networks, depths, sizes and weights are unbounded; no test nests R2Diffop.", "anchors": ["e2cnn/nn/modules/sequential_module.py:16-112", "e2cnn/nn/modules/multiple_module.py:20-131", "e2cnn/nn/modules/r2_conv/r2diffop.py:214-511"]}
{"id": "C107", "title": "The images of a batch do not influence each other in nested networks", "statement": "A network nested from SequentialModule and MultipleModule to any depth, R2Diffop among its modules, whose batch normalisations are in evaluation mode with running statistics, returns for some of the images of a batch, in any order and any number of times, the same as for the whole batch; the output for an image depends on this image only. In any mode, reordering the images reorders the output. Nothing depends on uninitialised memory.", "quantifier": "All nested networks of any depth and width, all spaces and representations, all weights, image sizes, batch sizes, choices of images and contents of uninitialised memory.", "why_tests_cant": "Networks, depths, batches and choices are unbounded; MultipleModule allocates its output from the shapes which its modules declare for the size of the batch, and no test compares batches of different sizes.", "anchors": ["e2cnn/nn/modules/sequential_module.py:16-112", "e2cnn/nn/modules/multiple_module.py:20-131", "e2cnn/nn/modules/merge_module.py:75-126", "e2cnn/nn/modules/branching_module.py:192-219"]}
{"id": "C108", "title": "The inherited self test decides whether a module is equivariant, and networks pass it", "statement": "EquivariantModule.check_equivariance, run with exact arithmetic on a space with a cyclic or dihedral group, passes on all minibatches of a set exactly if the module returns and commutes with the action of every element of the group on fibres and images, whatever the interpolation of the images is; if it passes all reported errors are 0. A network nested from SequentialModule and MultipleModule passes it on every minibatch if every tested element acts on the images without interpolation, as on the spaces with 1, 2 or 4 rotations, also with reflections at an axis which is a multiple of 45 degrees.", "quantifier": "All modules (any function, and any contents of uninitialised memory in each call), all sets of minibatches, all group orders, axes, representations and interpolations; for networks all depths, widths, weights and biases.", "why_tests_cant": "This is a claim about the test itself, for modules, networks and minibatches without bound.", "anchors": ["e2cnn/nn/modules/equivariant_module.py:79-118", "e2cnn/nn/modules/sequential_module.py:114-115", "e2cnn/nn/modules/identity_module.py:53-54", "e2cnn/nn/modules/multiple_module.py:133-137"]}
