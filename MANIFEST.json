{
 "claims": [
  {
   "property": "C01",
   "status": "proved",
   "theorems": [
    "E2.c01_cyclic_group_laws"
   ],
   "note": "All N >= 1."
  },
  {
   "property": "C02",
   "status": "proved",
   "theorems": [
    "E2.c02_dihedral_group_laws"
   ],
   "note": "All N >= 1."
  },
  {
   "property": "C03",
   "status": "proved",
   "theorems": [
    "E2.c03_so2_group_laws",
    "E2.c03_so2_group_laws_up_to",
    "E2.c03_o2_group_laws_up_to"
   ],
   "note": "Exact real angles; equality modulo 2pi."
  },
  {
   "property": "C04",
   "status": "proved",
   "theorems": [
    "E2.c04_cyclic_irreps"
   ],
   "note": ""
  },
  {
   "property": "C05",
   "status": "proved",
   "theorems": [
    "E2.c05_dihedral_irreps",
    "E2.c05_so2_irreps",
    "E2.c05_o2_irreps"
   ],
   "note": ""
  },
  {
   "property": "C06",
   "status": "proved",
   "theorems": [
    "E2.c06_cyclic_subgroup",
    "E2.c06_dihedral_subgroup"
   ],
   "note": ""
  },
  {
   "property": "C07",
   "status": "partial",
   "theorems": [
    "E2.c07_so2_subgroup",
    "E2.c07_so2_reduced",
    "E2.c07_o2_subgroup_partial",
    "E2.c07_so2_child_unreduced",
    "E2.c07_o2_child_unreduced"
   ],
   "note": "For O(2) the value of child is an element only for angles in [0, 2pi); combine does not reduce angles, and c07_o2_child_unreduced gives a product of group elements on which child returns a non-element."
  },
  {
   "property": "C08",
   "status": "proved",
   "theorems": [
    "E2.c08_cyclic_restriction"
   ],
   "note": ""
  },
  {
   "property": "C09",
   "status": "proved",
   "theorems": [
    "E2.c09_dihedral_to_cyclic",
    "E2.c09_dihedral_to_flip",
    "E2.c09_dihedral_to_dihedral",
    "E2.c09_so2_to_cyclic",
    "E2.c09_o2_to_o2",
    "E2.c09_o2_to_so2",
    "E2.c09_o2_to_flip",
    "E2.c09_o2_to_cyclic",
    "E2.c09_o2_to_dihedral"
   ],
   "note": "The irreps of the continuous subgroup are assumed to be available for every frequency (no maximum frequency)."
  },
  {
   "property": "C10",
   "status": "proved",
   "theorems": [
    "E2.c10_directsum",
    "E2.c10_directsum_change_of_basis",
    "E2.c10_change_basis"
   ],
   "note": ""
  },
  {
   "property": "C11",
   "status": "proved",
   "theorems": [
    "E2.c11_disentangle"
   ],
   "note": "scipy connected_components is a parameter constrained by its contract; exists_components shows the contract can be met."
  },
  {
   "property": "C12",
   "status": "proved",
   "theorems": [
    "E2.c12_cyclic_regular",
    "E2.c12_dihedral_regular"
   ],
   "note": "All N >= 1, all the finite groups of the library."
  },
  {
   "property": "C13",
   "status": "proved",
   "theorems": [
    "E2.c13_cyclic_quotient",
    "E2.c13_dihedral_quotient_dihedral",
    "E2.c13_dihedral_quotient_flip",
    "E2.c13_dihedral_quotient_cyclic",
    "E2.c13_cyclic_induced",
    "E2.c13_dihedral_induced",
    "E2.c13_cyclic_induced_exists",
    "E2.c13_dihedral_induced_cyclic_exists",
    "E2.c13_dihedral_induced_flip_exists",
    "E2.c13_dihedral_induced_dihedral_exists"
   ],
   "note": "Quotients: success and permutation action for every admissible id. Induction: for every irrep of every subgroup of C_N and D_N the call returns (integrality of the multiplicities by Frobenius reciprocity, orthogonality of the change of basis by Schur) and the result is the induced representation."
  },
  {
   "property": "C14",
   "status": "proved",
   "theorems": [
    "E2.c14_offsets",
    "E2.c14_offsets_without_frequency",
    "E2.c14_offsets_fail"
   ],
   "note": "Without a maximum frequency the offsets are capped at 10000 and the non-negativity flag is ignored; this is what the code does and is stated as such."
  },
  {
   "property": "C15",
   "status": "proved",
   "theorems": [
    "E2.c15_so2_kernel_constraint"
   ],
   "note": "Any radial profile; all points including the origin."
  },
  {
   "property": "C16",
   "status": "proved",
   "theorems": [
    "E2.c16_cyclic_kernel_constraint"
   ],
   "note": "Any radial profile; the trivial group is N = 1."
  },
  {
   "property": "C17",
   "status": "proved",
   "theorems": [
    "E2.c17_flip_kernel_constraint"
   ],
   "note": ""
  },
  {
   "property": "C18",
   "status": "proved",
   "theorems": [
    "E2.c18_dihedral_kernel_constraint",
    "E2.c18_o2_kernel_constraint"
   ],
   "note": ""
  },
  {
   "property": "C19",
   "status": "partial",
   "theorems": [
    "E2.c19_so2_independent",
    "E2.c19_o2_independent",
    "E2.c19_cyclic_independent_partial",
    "E2.c19_flip_independent_partial",
    "E2.c19_dihedral_independent_partial",
    "E2.c19_offsets_dependent"
   ],
   "note": "For the finite groups a maximum frequency must be given when both irreps have size 1: without it the property is false (c19_offsets_dependent)."
  },
  {
   "property": "C20",
   "status": "proved",
   "theorems": [
    "E2.c20_so2_complete",
    "E2.c20_o2_complete"
   ],
   "note": "Proved for kernels on the plane with coefficients depending on the radius, which includes one circle. Points closer than 1e-9 to the origin, other than the origin, are excluded, because the code treats them as the origin."
  },
  {
   "property": "C21",
   "status": "proved",
   "theorems": [
    "E2.c21_steerable_constraint",
    "E2.c21_so2_kernels",
    "E2.c21_cyclic_kernels",
    "E2.c21_flip_kernels",
    "E2.c21_dihedral_kernels",
    "E2.c21_o2_kernels"
   ],
   "note": "The number of elements of a steerable basis is proved in c21_steerable_constraint; the other theorems instantiate it with the irrep bases of C15-C18 and multiply with arbitrary radial profiles."
  },
  {
   "property": "C22",
   "status": "proved",
   "theorems": [
    "E2.c22_steerable_indexing",
    "E2.c22_polar_indexing",
    "E2.c22_plane_basis_indexing"
   ],
   "note": "Iteration and indexing are modelled as separate loops."
  },
  {
   "property": "C23",
   "status": "proved",
   "theorems": [
    "E2.c23_filter_constraint",
    "E2.c23_so2",
    "E2.c23_cyclic",
    "E2.c23_flip",
    "E2.c23_dihedral",
    "E2.c23_o2",
    "E2.c24_identifiers_distinct"
   ],
   "note": "for all weights, types, grids, filters and normalisations; admissible inputs have fields of positive size and bases with distinct identifiers (which the library bases have when the radii of the rings are distinct); with exactly one pair of representations the basis has to be non empty, since the code raises otherwise"
  },
  {
   "property": "C24",
   "status": "proved",
   "theorems": [
    "E2.c24_ranges",
    "E2.c24_reported",
    "E2.c24_attributes",
    "E2.c24_filter",
    "E2.c24_weight_effect",
    "E2.c24_identifiers_distinct",
    "E2.c24_repeated_identifiers",
    "E2.c24_sorted",
    "E2.c24_layout"
   ],
   "note": "for all types and indices when the identifiers in each block are distinct, which holds for the library bases whenever the radii of the rings are distinct; c24_repeated_identifiers shows that with repeated identifiers the code accepts no weights"
  },
  {
   "property": "C25",
   "status": "proved",
   "theorems": [
    "E2.c25_conv",
    "E2.c25_cyclic",
    "E2.c25_so2",
    "E2.c25_flip",
    "E2.c25_dihedral",
    "E2.c25_o2"
   ],
   "note": "Convolution with the filters expanded from the library bases and the expanded bias, for all group spaces, types, groups, kernel sizes, paddings and modes, dilations, and strides with s | n+2p-d(k-1)-1; elements acting as pixel permutations. Square images and integer padding."
  },
  {
   "property": "C26",
   "status": "proved",
   "theorems": [
    "E2.c26_bias",
    "E2.c26_cyclic",
    "E2.c26_dihedral",
    "E2.c26_so2",
    "E2.c26_o2"
   ],
   "note": "The expanded bias is fixed by the representation of the output type for all parameters, and every fixed vector is the bias for some parameters. The three modules share the code."
  },
  {
   "property": "C27",
   "status": "proved",
   "theorems": [
    "E2.c27_training",
    "E2.c27_evaluation",
    "E2.c27_discarded",
    "E2.c27_cases",
    "E2.c27_stale"
   ],
   "note": "State machine of train/eval/step/forward/export over all sequences of calls; the parameters, the expansion and the convolution are arbitrary. c27_stale records that assignments to the weights in evaluation mode leave the stored filter unchanged."
  },
  {
   "property": "C28",
   "status": "proved",
   "theorems": [
    "E2.c28_intervals",
    "E2.c28_cover",
    "E2.c28_add",
    "E2.c28_index_select",
    "E2.c28_sorted",
    "E2.c28_group_by_labels"
   ],
   "note": ""
  },
  {
   "property": "C29",
   "status": "partial",
   "theorems": [
    "E2.c29_pieces_partial",
    "E2.c29_split_directsum_partial",
    "E2.c29_split_succeeds_partial",
    "E2.c29_split_all_partial",
    "E2.c29_split_act_partial",
    "E2.c29_directsum_act_partial",
    "E2.c29_argument_changed"
   ],
   "note": "Everything but the last clause: split appends to the caller's list of breakpoints, so the argument is changed (c29_argument_changed)."
  },
  {
   "property": "C30",
   "status": "partial",
   "theorems": [
    "E2.c30_slice_partial",
    "E2.c30_int_partial",
    "E2.c30_int_out_of_range",
    "E2.c30_ellipsis",
    "E2.c30_ellipses",
    "E2.c30_full_and_reversed",
    "E2.c30_act",
    "E2.c30_axes"
   ],
   "note": "Integers below -n-1 are not rejected but return a field (c30_int_out_of_range); everything else is proved."
  },
  {
   "property": "C31",
   "status": "proved",
   "theorems": [
    "E2.c31_reshuffle",
    "E2.c31_reshuffle_act",
    "E2.c31_branch",
    "E2.c31_branch_act",
    "E2.c31_branch_merge",
    "E2.c31_branch_order",
    "E2.c31_merge_act",
    "E2.c31_restriction"
   ],
   "note": "c31_restriction takes the restricted representations as given by IsRestriction, which C07-C09 prove for the four groups."
  },
  {
   "property": "C32",
   "status": "proved",
   "theorems": [
    "E2.c32_test_iff_range",
    "E2.c32_indices_increasing",
    "E2.c32_slice_eq_gather"
   ],
   "note": ""
  },
  {
   "property": "C33",
   "status": "proved",
   "theorems": [
    "E2.c33_pointwise",
    "E2.c33_concatenated",
    "E2.c33_concatenated_mul",
    "E2.c33_regular_isPerm",
    "E2.c33_quotient_isPerm"
   ],
   "note": "pointwise functions on permutation representations (regular and quotient ones are such); concatenated nonlinearity on every representation the constructor accepts"
  },
  {
   "property": "C34",
   "status": "proved",
   "theorems": [
    "E2.c34_norm_scalars",
    "E2.c34_norm_equivariant",
    "E2.c34_norm_group",
    "E2.c34_gated1_scalars",
    "E2.c34_gated1_equivariant",
    "E2.c34_gated2_scalars",
    "E2.c34_gated2_equivariant",
    "E2.c34_default_gates",
    "E2.c34_default_accepts"
   ],
   "note": "All types (any order and any sizes of the fields), all functions, biases and inputs, all orthogonal matrices (for the gated ones all matrices with trivial gates) and all maps of the positions."
  },
  {
   "property": "C35",
   "status": "partial",
   "theorems": [
    "E2.c35_vectorfield_partial",
    "E2.c35_ties_false",
    "E2.c35_every_tie_false",
    "E2.c35_c2_error"
   ],
   "note": "proved for N >= 3 where the largest entry is taken once or is not positive; false at ties (c35_ties_false, c35_every_tie_false) and for C_2 with more than one field (c35_c2_error)"
  },
  {
   "property": "C36",
   "status": "proved",
   "theorems": [
    "E2.c36_groupPooling_max",
    "E2.c36_groupPooling_invariant",
    "E2.c36_normPool_norm",
    "E2.c36_normPool_invariant",
    "E2.c36_inducedNorm_max",
    "E2.c36_inducedNorm_invariant",
    "E2.c36_induced_isBlockPerm",
    "E2.c36_maxPoolChannels"
   ],
   "note": "values of the three maps field by field and their invariance; induced representations meet the hypothesis of InducedNormPool"
  },
  {
   "property": "C37",
   "status": "proved",
   "theorems": [
    "E2.c37_norm",
    "E2.c37_norm_nonneg",
    "E2.c37_induced",
    "E2.c37_induced_nonneg",
    "E2.c37_inner",
    "E2.c37_inner_nonneg",
    "E2.c37_inner_normalises",
    "E2.c37_gnorm",
    "E2.c37_gnorm_nonneg",
    "E2.c37_gnorm_cyclic",
    "E2.c37_gnorm_dihedral"
   ],
   "note": "All four batch normalisations, both modes, any parameters and running statistics; transformations act on the fibers and permute the positions. Non-negativity needs a momentum in [0,1] or None. PyTorch BatchNorm3d is modelled by its documented formula."
  },
  {
   "property": "C38",
   "status": "partial",
   "theorems": [
    "E2.c38_training",
    "E2.c38_equivariant",
    "E2.c38_eval",
    "E2.c38_inplace",
    "E2.c38_inplace_partial",
    "E2.c38_inplace_false",
    "E2.c38_p_one"
   ],
   "note": "training factors, equivariance for fixed draws and evaluation mode proved; the in-place form agrees only when the fields of each size follow each other (c38_inplace_false is a counterexample otherwise); p = 1 divides by zero"
  },
  {
   "property": "C39",
   "status": "partial",
   "theorems": [
    "E2.c39_spaces",
    "E2.c39_maxpool",
    "E2.c39_avgpool",
    "E2.c39_maxpool_antialiased",
    "E2.c39_avgpool_antialiased",
    "E2.c39_adaptive_avg",
    "E2.c39_adaptive_max",
    "E2.c39_mask",
    "E2.c39_normmax_partial",
    "E2.c39_normmax_ties"
   ],
   "note": "NormMaxPool: proved when the largest norm of each window is attained once; with ties the claim is false (c39_normmax_ties).  All the others without reservation, under the condition that the windows cover the padded image exactly."
  },
  {
   "property": "C40",
   "status": "partial",
   "theorems": [
    "E2.c40_conv",
    "E2.c40_conv_count",
    "E2.c40_transposed_wrong",
    "E2.c40_transposed_partial",
    "E2.c40_maxpool_floor",
    "E2.c40_maxpool_ceil_partial",
    "E2.c40_maxpool_ceil_wrong",
    "E2.c40_normpool_floor",
    "E2.c40_normpool_ceil_wrong",
    "E2.c40_avgpool_raises",
    "E2.c40_avgpool_wrong",
    "E2.c40_avgpool_antialiased",
    "E2.c40_maxpool_antialiased_partial",
    "E2.c40_maxpool_antialiased_wrong",
    "E2.c40_adaptive_wrong",
    "E2.c40_upsampling",
    "E2.c40_merge",
    "E2.c40_multiple_raises",
    "E2.c40_gated2",
    "E2.c40_gated2_refuses",
    "E2.c40_induced_gated",
    "E2.c40_vector_field",
    "E2.c40_branch",
    "E2.c40_dropout",
    "E2.c41_shape"
   ],
   "note": "True for R2Conv, R2DiffOp, the gated nonlinearity with two inputs, the induced gated nonlinearity, the vector field nonlinearity, branching, pointwise dropout, floor-mode max poolings, antialiased average pooling, upsampling, merging and sequences. False for R2ConvTransposed, ceil_mode with padding, NormMaxPool with ceil_mode, PointwiseAvgPool (raises), antialiased max pooling with padding, adaptive poolings and MultipleModule: witnesses and exact conditions are proved."
  },
  {
   "property": "C41",
   "status": "proved",
   "theorems": [
    "E2.c41_built",
    "E2.c41_built_args",
    "E2.c41_forward",
    "E2.c41_equivariant",
    "E2.c41_shape",
    "E2.c41_multiple",
    "E2.c41_reused_name"
   ],
   "note": "Also MultipleModule.  add_module with a name already in use breaks the chain of types (c41_reused_name); the constructors never do that."
  },
  {
   "property": "C42",
   "status": "partial",
   "theorems": [
    "E2.c42_cache_partial",
    "E2.c42_kernels",
    "E2.c42_diffop_wrong",
    "E2.c42_names_wrong"
   ],
   "note": "The key of the differential operators lacks max_power and the discretisation, and representations are identified by their names."
  },
  {
   "property": "C43",
   "status": "proved",
   "theorems": [
    "E2.Factory.c43_cyclic_same",
    "E2.Factory.c43_cyclic_object",
    "E2.Factory.c43_cyclic_distinct",
    "E2.Factory.c43_dihedral_same",
    "E2.Factory.c43_dihedral_object",
    "E2.Factory.c43_so2_same",
    "E2.Factory.c43_so2_object",
    "E2.Factory.c43_so2_succeeds",
    "E2.Factory.c43_o2_same",
    "E2.Factory.c43_o2_object",
    "E2.Factory.c43_o2_succeeds",
    "E2.Factory.c43_monotone",
    "E2.Factory.c43_subgroup_stale",
    "E2.Factory.c43_irrep_above"
   ],
   "note": "Over all histories of factory calls, constructor calls, irrep and subgroup calls. Also proved: the SO(2) subgroup memoised by O(2) keeps the old maximum frequency, and irreps built above the maximum are missing among the representations."
  },
  {
   "property": "C44",
   "status": "proved",
   "theorems": [
    "E2.c44_trivial",
    "E2.c44_rot",
    "E2.c44_so2",
    "E2.c44_flip",
    "E2.c44_flipRot",
    "E2.c44_o2",
    "E2.c44_field"
   ],
   "note": "All spaces, ids, axes, elements and points, on the plane and on images; the interpolation of scipy is a parameter assumed to depend on the angle modulo a full turn."
  },
  {
   "property": "C45",
   "status": "proved",
   "theorems": [
    "E2.c45_formula",
    "E2.c45_action",
    "E2.c45_spaces",
    "E2.c45_d4"
   ],
   "note": "The action on images is the formula rho(g) x(g^-1 .), and composes as a group action, for all six spaces, on elements acting as pixel permutations. Interpolated rotations are external."
  },
  {
   "property": "C46",
   "status": "proved",
   "theorems": [
    "E2.HPoly.c46_multiply",
    "E2.HPoly.c46_binomial",
    "E2.HPoly.c46_transform",
    "E2.HPoly.c46_cheby",
    "E2.HPoly.c46_laplacian"
   ],
   "note": "The coefficient arrays are compared with the polynomial functions they stand for, for all degrees, powers, matrices and angles."
  },
  {
   "property": "C47",
   "status": "proved",
   "theorems": [
    "E2.c47_cyclic_irreps",
    "E2.c47_flip_irreps",
    "E2.c47_dihedral_irreps",
    "E2.c47_o2_irreps",
    "E2.c47_so2_irreps",
    "E2.c47_steerable",
    "E2.c47_tensor",
    "E2.c47_order",
    "E2.c47_so2_diffops",
    "E2.c47_cyclic_diffops",
    "E2.c47_flip_diffops",
    "E2.c47_dihedral_diffops",
    "E2.c47_o2_diffops"
   ],
   "note": "The rounding of entries below 1e-8 (diffops/basis.py:77) is not modelled."
  },
  {
   "property": "C48",
   "status": "partial",
   "theorems": [
    "E2.c48_rotations_partial",
    "E2.c48_reflection",
    "E2.c48_even_order",
    "E2.c48_reflection_wrong"
   ],
   "note": "Holds at the rotations. False at the reflections for operators of odd order: the constraint holds with the opposite sign (c48_reflection), and c48_reflection_wrong is a case where the filter is not zero. The weights of sympy are assumed exact for polynomials of degree less than the number of points (FDSpec)."
  },
  {
   "property": "C49",
   "status": "partial",
   "theorems": [
    "E2.c49_required_points",
    "E2.c49_largest_order_partial",
    "E2.c49_largest_order_wrong",
    "E2.c49_accuracy_meaning"
   ],
   "note": "largest_possible_order fails when the number of points is one less than an even accuracy, although the order 0 is possible (c49_largest_order_wrong)."
  },
  {
   "property": "C50",
   "status": "partial",
   "theorems": [
    "E2.c50_export_partial",
    "E2.c50_inner_exportable",
    "E2.c50_ceil_wrong",
    "E2.c50_output_padding_wrong",
    "E2.c50_size_wrong",
    "E2.c50_not_faithful",
    "E2.c36_maxPoolChannels"
   ],
   "note": "Proved for nested sequences of all exportable modules when no argument forgotten by the exports is used. False in general: PointwiseMaxPool.export drops ceil_mode, R2ConvTransposed.export drops output_padding, R2Upsampling.export drops size (the exported module then raises on every input). R2Diffop exports as R2Conv does (same code)."
  },
  {
   "property": "C51",
   "status": "partial",
   "theorems": [
    "E2.c51_equal_partial",
    "E2.c51_distinct",
    "E2.c51_flip_iff",
    "E2.c51_flipRot_iff",
    "E2.c51_o2_iff",
    "E2.c51_wrong"
   ],
   "note": "The claim is false: spaces with reflections compare equal whatever their axis (c51_wrong). Proved: classes and groups are told apart, spaces with the same axis act equally, and the exact condition on the axes."
  },
  {
   "property": "C52",
   "status": "proved",
   "theorems": [
    "E2.c52_cyclic",
    "E2.c52_flip",
    "E2.c52_dihedral",
    "E2.c52_negative",
    "E2.c52_kept_iff",
    "E2.c52_float_wrong",
    "E2.c52_defaults"
   ],
   "note": "The bases of the continuous groups take no maximum frequency (they raise for none of the callers), so only the discrete ones are band limited. A float as frequencies_cutoff is turned into a function by the convolution before the filter is built; a float passed directly to bandlimiting_filter always raises a TypeError, which c52_float_wrong records."
  },
  {
   "property": "C53",
   "status": "partial",
   "theorems": [
    "E2.c53_values_partial",
    "E2.c53_same_process",
    "E2.c53_load_wrong"
   ],
   "note": "False: load_cache assigns a local variable (c53_load_wrong). The values returned are right along all histories."
  },
  {
   "property": "C54",
   "status": "proved",
   "theorems": [
    "E2.c54_upsampling",
    "E2.c54_integer_scale",
    "E2.c54_any_size",
    "E2.c54_nearest_iff",
    "E2.c54_nearest_wrong"
   ],
   "note": "interpolate of PyTorch is modelled by its documented formula over the reals."
  },
  {
   "property": "C55",
   "status": "partial",
   "theorems": [
    "E2.c55_norm_scalars",
    "E2.c55_norm_equivariant",
    "E2.c55_gated_scalars",
    "E2.c55_gated_equivariant_partial",
    "E2.c55_same_subgroup",
    "E2.c55_gated_wrong"
   ],
   "note": "The norm part is complete. The gated module commutes with transformations which permute the channels of the gates and the subfields in the same way, which holds for quotient and induced representations of the same subgroup (c55_same_subgroup). Missing because false: the constructor compares only the sizes, so gates from another subgroup of the same index are accepted and equivariance fails (c55_gated_wrong, D_2)."
  },
  {
   "property": "C56",
   "status": "partial",
   "theorems": [
    "E2.c56_forward_partial",
    "E2.c56_equivariant_partial",
    "E2.c56_disentangle_partial",
    "E2.c56_names_wrong"
   ],
   "note": "Proved for every field type in which different representations have different names, for every representation and every correct answer of connected_components. Missing because false: the dictionaries of the module are indexed by names, and two representations of the same name get the same change of basis (c56_names_wrong)."
  },
  {
   "property": "C57",
   "status": "proved",
   "theorems": [
    "E2.c57_cyclic",
    "E2.c57_dihedral",
    "E2.c57_so2",
    "E2.c57_o2"
   ],
   "note": "Irreducibility, inequivalence and the commutant are stated with Mathlib submodules and matrices (Props/IrrepSpec.lean), over the reals."
  },
  {
   "property": "C58",
   "status": "proved",
   "theorems": [
    "E2.c58_cyclic_decompose",
    "E2.c58_dihedral_decompose",
    "E2.c58_cyclic_build",
    "E2.c58_dihedral_build"
   ],
   "note": "The null space and the search for an orthogonal matrix inside it (scipy, pymanopt) are a parameter; it is proved that what they search for exists, and that any invertible solution passes the final assertion. Exact arithmetic."
  },
  {
   "property": "C59",
   "status": "partial",
   "theorems": [
    "E2.c59_stored_partial",
    "E2.c59_axis_wrong",
    "E2.sqNorm_normalize"
   ],
   "note": "False for two spaces which differ in the axis only: R2FlipsDiscreteRotationsSolution and R2FlipsContinuousRotationsSolution do not compare the axis (R2FlipsSolution does), so the second space gets the filters of the first, which are not equivariant (c59_axis_wrong, for every grid with the point (1, 0)). Proved for all sequences of calls with one axis per group. The dictionary for differential operators uses the same function; its bases are not modelled here."
  },
  {
   "property": "C60",
   "status": "proved",
   "theorems": [
    "E2.c60_he",
    "E2.c60_he_energy",
    "E2.c60_he_cache",
    "E2.c60_delta_zero",
    "E2.c60_delta_returns",
    "E2.c60_delta"
   ],
   "note": "The random numbers are parameters: uncorrelated variables of variance one for He's method, an orthogonal matrix and vectors with a non-zero entry for the other. torch.randint(0, 1) only returns 0, so the sign which is meant to be random for a single input and output is always -1 (harmless for the claim). c60_delta assumes of the basis elements in the centre the relations B_p^T B_q + B_q^T B_p = 2 delta_pq, as the identity and the quarter turn have. c60_he_cache assumes that equal expansions have equal deviations, which C86 proves."
  },
  {
   "property": "C61",
   "status": "partial",
   "theorems": [
    "E2.c61_conv_partial",
    "E2.c61_cyclic_partial",
    "E2.c61_so2_partial",
    "E2.c61_flip_partial",
    "E2.c61_dihedral_partial",
    "E2.c61_o2_partial",
    "E2.c61_output_padding_wrong",
    "E2.c61_params_partial",
    "E2.c61_rings_wrong",
    "E2.c61_radius_wrong"
   ],
   "note": "Equivariance is proved without output padding, for all the spaces and types; with output padding it is false (`c61_output_padding_wrong`). The parameters agree with those of R2Conv when the rings are given and accepted by R2Conv, or without dilation; otherwise they differ (`c61_rings_wrong`, `c61_radius_wrong`)."
  },
  {
   "property": "C62",
   "status": "proved",
   "theorems": [
    "E2.c62_network",
    "E2.c62_invariant",
    "E2.c62_cyclic",
    "E2.c62_so2",
    "E2.c62_flip",
    "E2.c62_dihedral",
    "E2.c62_o2"
   ],
   "note": "Composes the theorems on the single modules by induction over the list of modules. Layer.Ok lists what each module asks of its arguments. Left out, because they are not equivariant (see C38, C39, C61): dropout in training mode, the norm max pooling with ties, output padding; also the vector field nonlinearity (see C35), and R2Diffop. Modules side by side: C102."
  },
  {
   "property": "C63",
   "status": "partial",
   "theorems": [
    "E2.c63_policies_partial",
    "E2.c63_range",
    "E2.c63_order",
    "E2.c63_even_wrong",
    "E2.c63_dilation_wrong"
   ],
   "note": "Proved for odd kernel sizes without dilation. False for even sizes and for dilated filters: the tables are given kernel_size // 2 as the radius of the last ring, but the rings end at (kernel_size - 1) // 2 times the dilation."
  },
  {
   "property": "C64",
   "status": "proved",
   "theorems": [
    "E2.c64_norm",
    "E2.c64_induced",
    "E2.c64_inner",
    "E2.c64_gnorm"
   ],
   "note": "MovingAverage is the closed form (a weighted sum over the history), not the recursion of the code. The statistics are stated per field, whatever the grouping of the fields and the layout of the buffers. Real numbers instead of floats; torch.batch_norm of InnerBatchNorm is modelled from its documentation (biased variance for normalisation, unbiased one for the running variance). InnerBatchNorm with track_running_stats=True."
  },
  {
   "property": "C65",
   "status": "partial",
   "theorems": [
    "E2.c65_kernel_size",
    "E2.c65_maximum_order",
    "E2.c65_defaults",
    "E2.c65_sampled",
    "E2.c65_rotations_partial",
    "E2.c65_cyclic",
    "E2.c65_so2",
    "E2.c65_dihedral_partial",
    "E2.c65_o2_partial",
    "E2.c65_even_orders",
    "E2.c65_dihedral_even",
    "E2.c65_o2_even",
    "E2.c65_flip_even",
    "E2.c65_odd_orders",
    "E2.c65_reflections_wrong",
    "E2.c65_flip_wrong"
   ],
   "note": "Proved: the choices of the constructor; that every operator passing the filter can be discretised; the equivariance for all rotations by multiples of a right angle, on every space; the equivariance for the reflections too when all the orders used are even. False: with operators of odd orders the output has the opposite sign at every reflection (c65_odd_orders), so for every such layer with parameters and every reflection there are weights and an image for which the layer does not commute (c65_reflections_wrong), and c65_flip_wrong is a concrete layer."
  },
  {
   "property": "C66",
   "status": "proved",
   "theorems": [
    "E2.c66_build_kernel_basis",
    "E2.c66_conv",
    "E2.c66_cyclic",
    "E2.c66_so2",
    "E2.c66_flip",
    "E2.c66_dihedral",
    "E2.c66_o2",
    "E2.c66_trivial",
    "E2.c66_odd_sizes",
    "E2.c66_size_two"
   ],
   "note": "c66_cyclic, c66_so2, c66_flip, c66_dihedral, c66_o2 and c66_trivial are the claim for the six spaces: the only thing assumed about the layer is that the constructor returned it. c66_odd_sizes shows that the default arguments build a layer for every odd size. c66_size_two: with kernel_size=2 and default arguments the constructor raises for scalar fields, whatever the dilation, because the only ring is discarded."
  },
  {
   "property": "C67",
   "status": "proved",
   "theorems": [
    "E2.c67_induced",
    "E2.c67_blocks",
    "E2.c67_quotient",
    "E2.c67_refused"
   ],
   "note": "The constants of build_commuting_matrix, the blocks of v, the normalisations and the change of basis are modelled as written; the result is shown equal to the induced representation entry by entry. Representatives of the cosets: identity and reflection."
  },
  {
   "property": "C68",
   "status": "partial",
   "theorems": [
    "E2.c68_build_diffop_basis",
    "E2.c68_rotations_partial",
    "E2.c68_even_orders",
    "E2.c68_reflections_wrong",
    "E2.c68_cyclic",
    "E2.c68_so2",
    "E2.c68_trivial",
    "E2.c68_dihedral_partial",
    "E2.c68_o2_partial",
    "E2.c68_dihedral_even",
    "E2.c68_o2_even",
    "E2.c68_flip_even",
    "E2.c68_flip_wrong"
   ],
   "note": "Whenever the modelled constructor succeeds: full claim for Rot2dOnR2 and TrivialOnR2; for the spaces with reflections the rotations, and all the elements when every operator kept has even order and there is no angle offset. False for reflections with operators of odd order (c68_reflections_wrong, concrete layer c68_flip_wrong), as in C65. Finite differences only (FDSpec of sympy's weights); see C82 and C83 for the other two methods."
  },
  {
   "property": "C69",
   "status": "proved",
   "theorems": [
    "E2.c69_cyclic_complete",
    "E2.c69_flip_complete",
    "E2.c69_dihedral_complete",
    "E2.c69_band_limited",
    "E2.rotBasis_freq",
    "E2.flipsBasis_freq",
    "E2.flipRotBasis_freq"
   ],
   "note": "Completeness of the bases of C_N (including the trivial group, N = 1), of a reflection and of D_N for all kernels of bounded angular frequency; the bases are the lists returned by the model with maximum_offset = None. c69_band_limited with the *_freq theorems: the elements themselves have frequencies at most F."
  },
  {
   "property": "C70",
   "status": "proved",
   "theorems": [
    "E2.c70_so2",
    "E2.c70_o2",
    "E2.c70_cyclic",
    "E2.c70_flip",
    "E2.c70_dihedral",
    "E2.steerable_independent",
    "E2.steerable_complete"
   ],
   "note": "Independence on the circle and completeness for the assembled basis; maximum_offset = None for the finite groups."
  },
  {
   "property": "C71",
   "status": "proved",
   "theorems": [
    "E2.c71_program",
    "E2.c71_types",
    "E2.c71_inplace",
    "E2.c71_overlap"
   ],
   "note": "Memory is a list of blocks; a tensor is a contiguous range of channels of a block. In-place operations on partially overlapping tensors (PyTorch leaves their result unspecified) count as exceptions. Broadcasting of 1 x 1 images is modelled, as __add__ compares types only."
  },
  {
   "property": "C72",
   "status": "proved",
   "theorems": [
    "E2.c72_so2",
    "E2.c72_o2",
    "E2.c72_cyclic",
    "E2.c72_flip",
    "E2.c72_dihedral",
    "E2.c72_filter",
    "E2.c72_layer",
    "E2.c72_layer_cyclic",
    "E2.c72_layer_so2",
    "E2.c72_layer_flip",
    "E2.c72_layer_dihedral",
    "E2.c72_layer_o2",
    "E2.c72_layer_trivial"
   ],
   "note": "About the operators themselves, before they are discretised with finite differences; layers with maximum_power, maximum_offset and basis_filter left at their defaults."
  },
  {
   "property": "C73",
   "status": "partial",
   "theorems": [
    "E2.c73_supported_partial",
    "E2.c73_supported_disentangle_partial",
    "E2.c73_is_trivial",
    "E2.c73_pointwise",
    "E2.c73_norm",
    "E2.c73_gated",
    "E2.c73_induced_norm",
    "E2.c73_concatenated",
    "E2.c73_directsum_cob_wrong",
    "E2.c73_disentangle_wrong"
   ],
   "note": "What is missing is false: directsum with a change of basis keeps the strings although they become false (c73_directsum_cob_wrong), and disentangle copies induced_norm_k and induced_gated_k with k > 1 to parts which have no subfields of that size (c73_disentangle_wrong: from the induced representation of C_4, restricted to C_2). change_basis is taken with its default (no strings). The induced gated nonlinearity needs more than the strings, see C55."
  },
  {
   "property": "C74",
   "status": "partial",
   "theorems": [
    "E2.c74_group",
    "E2.c74_invariant_partial",
    "E2.c74_pictures_partial",
    "E2.c74_builds",
    "E2.c74_named",
    "E2.c74_builds_unrestricted",
    "E2.c74_depth_four",
    "E2.wide_example",
    "E2.c74_pick",
    "E2.c74_image",
    "E2.c74_residual",
    "E2.c74_head_mean"
   ],
   "note": "Proved: the remaining group; invariance of the scores for every depth of at least 10 and pictures with 1 + s*4q pixels per side (s the initial stride), with quarter turns, half turns and mirror images written out on the pixels; a network is built exactly if the depth is 6n+4, N > 0, the group has at most 256 elements and at most as many as the planes of the first layer, the dropout rate is in [0,1], r <= 3 and, when r > 0, N is even or 3 and (with the flip and r = 3) at least 4; in particular all the named networks; in evaluation mode the scores of an image do not depend on the other images of the batch. Missing: a depth of 4, for which it is false (c74_depth_four); other picture sizes, for which strided convolutions do not see the grid symmetrically (compare C30)."
  },
  {
   "property": "C75",
   "status": "proved",
   "theorems": [
    "E2.c75_conv",
    "E2.c75_one_by_one",
    "E2.c75_library"
   ],
   "note": "The representations are those the library can build: positive size, invertible orthogonal change of basis, irreps of the group of the space (Repr.Plane). Examples: regular fields of C_N; two frequencies of SO(2), for which a kernel of size 1 cannot be built."
  },
  {
   "property": "C76",
   "status": "proved",
   "theorems": [
    "E2.c76_orthogonal"
   ],
   "note": "The constructors of OrthLib are the functions of the library. Not included: representations built from a table of matrices (build_from_discrete_group_representation, whose change of basis comes from a numerical search), matrices of the caller which are not orthogonal."
  },
  {
   "property": "C77",
   "status": "proved",
   "theorems": [
    "E2.c77_window",
    "E2.c77_translation",
    "E2.c77_circular"
   ],
   "note": "Layer.view is the specification of the windows of the modules. Not included, since they do not commute with translations: masks, adaptive pooling, batch normalisation with the statistics of the batch (these do commute with the translations of the torus, which permute the pixels). Transposed convolution and upsampling are not treated."
  },
  {
   "property": "C78",
   "status": "proved",
   "theorems": [
    "E2.c78_one_by_one",
    "E2.c78_none",
    "E2.c78_iff",
    "E2.c78_layer"
   ],
   "note": "c78_one_by_one: filters of any weights commute with the group and each commuting matrix has exactly one vector of weights; c78_none and c78_iff: the constructor refuses exactly when only zero commutes; c78_layer: what the layer computes. The proof goes through the completeness and independence of the kernel bases (C21, C22) at the centre, the normalisation and selection of SingleBlockBasisExpansion and the bookkeeping of BlocksBasisExpansion (forward_surj, forward_inj hold for every kernel size)."
  },
  {
   "property": "C79",
   "status": "partial",
   "theorems": [
    "E2.c79_stored_partial",
    "E2.c79_dihedral",
    "E2.c79_discretisation_wrong"
   ],
   "note": "c79_stored_partial: true when all bases of one group and class are discretised alike and have one axis; c79_dihedral: on FlipRot2dOnR2(N) true without conditions, as the objects are never equal to anything; c79_discretisation_wrong: the negation otherwise."
  },
  {
   "property": "C80",
   "status": "partial",
   "theorems": [
    "E2.c80_names_partial",
    "E2.c80_default_names_partial",
    "E2.c80_trivial_partial",
    "E2.c80_cyclic_partial",
    "E2.c80_so2_partial",
    "E2.c80_flip_partial",
    "E2.c80_dihedral_partial",
    "E2.c80_o2_partial",
    "E2.c80_names_wrong"
   ],
   "note": "Proved when fields of the same name have the same representation, over both types together: the layer is then the one of C66 and C78 for every order of the sets, and it is equivariant on the six spaces. Any number of groups. False otherwise: c80_names_wrong proves that two direct sums of irrep_0 and irrep_1 of C_2, with and without a change of basis, share their default name, and that a convolution from both of them is built without an error and does not commute with the rotation by 180 degrees, for every order of the sets."
  },
  {
   "property": "C81",
   "status": "partial",
   "theorems": [
    "E2.c81_cyclic_partial",
    "E2.c81_dihedral_partial",
    "E2.c81_finite_partial",
    "E2.c81_so2_partial",
    "E2.c81_o2_partial",
    "E2.c81_so2_irreps",
    "E2.c81_so2_wrong",
    "E2.c81_so2_nonlinear_wrong",
    "E2.c81_o2_nonlinear_wrong",
    "E2.c81_mean",
    "E2.c81_tolerance_passes",
    "E2.c81_tolerance_linear",
    "E2.c81_tolerance_bound",
    "E2.c81_tolerance_scalar",
    "E2.c81_tolerance_wrong"
   ],
   "note": "Proved for C_N and D_N: any layer passes on all minibatches iff it commutes with the whole group, and a linear layer which does not commute fails with probability 1. Proved for SO(2) and O(2) and linear layers if the frequencies of every input irrep and every output irrep add up to less than 52; c81_so2_irreps gives the exact condition for two irreps. False beyond: c81_so2_wrong proves that the layer (x, y) -> (x, -y) on a field of frequency 26 is not equivariant and passes on every minibatch. Without linearity it is false for SO(2) and O(2) already on a field of frequency 1 (c81_so2_nonlinear_wrong, c81_o2_nonlinear_wrong: the real part of the 52nd power passes on every minibatch). With the tolerances of the code: whatever passes the exact test passes; a linear layer passes on all minibatches iff each channel commutes up to a factor which differs from 1 by at most rtol, so atol makes no difference and a layer off by a factor 1 + 1e-6 passes (c81_tolerance_wrong); every entry is then off by at most rtol times its size (c81_tolerance_bound), and by nothing if the output field is one trivial channel and the tested element has finite order on the input (c81_tolerance_scalar). The test which also rotates the image is C108; missing: the tests of the convolutions and of upsampling, which compare the middle of a photograph with a tolerance."
  },
  {
   "property": "C82",
   "status": "proved",
   "theorems": [
    "E2.c82_steerable",
    "E2.c82_space",
    "E2.c82_cyclic",
    "E2.c82_so2",
    "E2.c82_trivial",
    "E2.c82_flip",
    "E2.c82_dihedral",
    "E2.c82_o2",
    "E2.c82_dihedral_offset",
    "E2.c82_o2_offset",
    "E2.c82_angle_offset",
    "E2.c82_method",
    "E2.c82_flip_layer"
   ],
   "note": "get_rbf('ga') is a parameter with the specification GaussSpec: the derivative of exp(-(eps r)^2) with the given exponents. The concrete layer c82_flip_layer is the one for which the claim is false with finite differences (c68_flip_wrong)."
  },
  {
   "property": "C83",
   "status": "proved",
   "theorems": [
    "E2.c83_space",
    "E2.c83_cyclic",
    "E2.c83_so2",
    "E2.c83_trivial",
    "E2.c83_flip",
    "E2.c83_dihedral",
    "E2.c83_o2",
    "E2.c83_dihedral_offset",
    "E2.c83_o2_offset",
    "E2.c83_exact",
    "E2.c83_flip_layer",
    "E2.RBFSolves.exists"
   ],
   "note": "weight_matrix is a parameter with the specification RBFSpec: the weights solve the system of RBF-FD for some smooth radial function and some degree of the added polynomials, and the solution is unique. RBFSolves.exists proves that the Gaussian without polynomials has the specification on all the grids. The check for entries which are not numbers and the warnings are not modelled."
  },
  {
   "property": "C84",
   "status": "partial",
   "theorems": [
    "E2.c84_width_partial",
    "E2.c84_width_wrong",
    "E2.c84_sign_wrong"
   ],
   "note": "False in both parts. The standard deviation is s^2/sqrt 2 (c84_width_partial), which is s for s = sqrt 2 only (c84_width_wrong). The filter of d/dx has a negative value on the function x for all sizes above one, all dilations and widths (c84_sign_wrong). Proved: the filters are the derivatives of one Gaussian."
  },
  {
   "property": "C85",
   "status": "partial",
   "theorems": [
    "E2.c85_conv_partial",
    "E2.c85_cyclic_partial",
    "E2.c85_so2_partial",
    "E2.c85_flip_partial",
    "E2.c85_dihedral_partial",
    "E2.c85_o2_partial",
    "E2.c85_trivial_partial",
    "E2.c85_same_module_partial",
    "E2.c85_odd_sizes",
    "E2.c85_empty_raises",
    "E2.c85_empty_constant",
    "E2.c85_size_two_wrong",
    "E2.c85_common_irrep",
    "E2.c85_one_by_one"
   ],
   "note": "Equivariance is proved for all arguments without output padding (with it, C61 proves it false) and layers with at least one weight. With one group and no dilated default rings, what R2Conv accepts gives the same module. False: the constructor does not refuse an empty basis. c85_size_two_wrong proves that with kernel_size=2 and default arguments R2Conv raises, R2ConvTransposed does not, and every forward pass raises; with several representations the layer ignores its input (c85_empty_constant). c85_common_irrep: for odd kernel sizes and the default basis the layer has a weight if the types have a common irrep, for all groups and dilations; c85_one_by_one: for kernels of size 1 exactly then."
  },
  {
   "property": "C86",
   "status": "proved",
   "theorems": [
    "E2.c86_same_deviations",
    "E2.c86_cache",
    "E2.c86_same_filter",
    "E2.c86_shape_differs"
   ],
   "note": "This discharges the assumption of c60_he_cache that equal expansions have equal deviations. `same` is any test which implies `==`, as the dictionary compares hashes first. c86_shape_differs shows why the filters are compared on the common channels: __eq__ ignores the sizes of the types, so expansions whose filters have different shapes can be equal. Comparisons are exact, without the tolerance of allclose."
  },
  {
   "property": "C87",
   "status": "proved",
   "theorems": [
    "E2.c87_right_angles",
    "E2.c87_invariant",
    "E2.c87_refused",
    "E2.c87_builds",
    "E2.c87_head_statistics",
    "E2.c87_head_evaluation",
    "E2.c87_head_bias",
    "E2.c87_flatten",
    "E2.c87_pick",
    "E2.c87_image"
   ],
   "note": "The text of the notebook says that the padding of the convolutions breaks the invariance. For right angles it does not: the sizes 29, 25, 13, 7, 5, 1 are such that every window grid is symmetric. Exact arithmetic; the rotation by 45 degrees is not considered. Running statistics updated in training mode are not part of the result."
  },
  {
   "property": "C88",
   "status": "proved",
   "theorems": [
    "E2.c88_pick",
    "E2.c88_reorder",
    "E2.c88_image",
    "E2.c88_statistics_false"
   ],
   "note": "torch functions (conv2d, pooling, interpolate, batch_norm in evaluation mode) act on each image of the batch separately in the model, as their documentation says; this is part of the trusted base. c88_statistics_false shows that the evaluation mode is needed, and that InnerBatchNorm with track_running_stats=False has to be excluded also in evaluation mode."
  },
  {
   "property": "C89",
   "status": "proved",
   "theorems": [
    "E2.c89_restores",
    "E2.c89_training",
    "E2.c89_new",
    "E2.c89_unregistered",
    "E2.c89_transposed_false",
    "E2.c89_modes_false",
    "E2.c89_silent_false",
    "E2.c89_eval_frozen"
   ],
   "note": "Proved as the documentation recommends it (evaluation mode when storing and when loading). c89_new needs that expanded_bias is registered with its final shape, which R2ConvTransposed does not do with groups > 1: c89_transposed_false. c89_silent_false is about networks in training mode which have never been switched. torch.nn.Module (state_dict, load_state_dict, register_buffer, del, to) is modelled from its documentation; copying between data types does not round. expand_parameters and conv2d are arbitrary functions."
  },
  {
   "property": "C90",
   "status": "partial",
   "theorems": [
    "E2.c90_disjoint_partial",
    "E2.c90_recompute",
    "E2.c90_shared",
    "E2.c90_calls_partial",
    "E2.c90_eval_partial",
    "E2.c90_harmless_partial",
    "E2.c90_move_false",
    "E2.c90_load_false"
   ],
   "note": "The full statement is false for the default recompute=False: c90_move_false, c90_load_false. The partial theorems give all the cases in which it holds. Same model of torch.nn.Module as for C89."
  },
  {
   "property": "C91",
   "status": "partial",
   "theorems": [
    "E2.c91_names_partial",
    "E2.c91_rotations",
    "E2.c91_types",
    "E2.c91_subgroups",
    "E2.c91_names_wrong",
    "E2.c91_axis_wrong"
   ],
   "note": "The full statement is false: restrict_representation leaves the identifier of the subgroup out of the name (c91_names_wrong, c91_axis_wrong). The partial theorem has the condition on identifiers; c91_rotations has none, for the rotation groups. c91_types is the link to C80. Names chosen by the caller are C80."
  },
  {
   "property": "C92",
   "status": "proved",
   "theorems": [
    "E2.c92_commutes",
    "E2.c92_constraint",
    "E2.c92_iff",
    "E2.c92_nonzero",
    "E2.c92_layer",
    "E2.c92_cyclic",
    "E2.c92_so2",
    "E2.c92_flip",
    "E2.c92_dihedral",
    "E2.c92_o2",
    "E2.c92_trivial",
    "E2.c92_so2_complete",
    "E2.c92_o2_complete",
    "E2.c92_cyclic_complete",
    "E2.c92_flip_complete",
    "E2.c92_dihedral_complete"
   ],
   "note": "Fields on the plane and the convolution are integrals of Mathlib (Bochner integral, Lebesgue measure). c92_iff holds for continuous kernels and test functions; c92_commutes for all kernels and fields. The kernels of the layers are bounded, measurable and continuous except on the circle of radius 1e-9 where basis.py sets the angle to nan. With groups > 1 the kernel is zero between channels of different groups."
  },
  {
   "property": "C93",
   "status": "proved",
   "theorems": [
    "E2.c93_conv",
    "E2.c93_cyclic",
    "E2.c93_so2",
    "E2.c93_flip",
    "E2.c93_dihedral",
    "E2.c93_o2",
    "E2.c93_not_constant",
    "E2.c93_maxpool",
    "E2.c93_avgpool",
    "E2.c93_avgpool_antialiased",
    "E2.c93_example"
   ],
   "note": "Padding mode zeros. The code does not check the image size: a layer on an image of another size runs and is not equivariant (c93_example: kernel 3, stride 2, no padding, 8 x 8 pixels)."
  },
  {
   "property": "C94",
   "status": "proved",
   "theorems": [
    "E2.c94_formula",
    "E2.c94_square_action",
    "E2.c94_square",
    "E2.c94_conv",
    "E2.c94_cyclic",
    "E2.c94_so2",
    "E2.c94_flip",
    "E2.c94_dihedral",
    "E2.c94_o2",
    "E2.c94_trivial",
    "E2.c94_tuple_wrong",
    "E2.c94_declared_shape_raises",
    "E2.c94_maxpool",
    "E2.c94_avgpool",
    "E2.c94_pool_args",
    "E2.c94_maxpool_window",
    "E2.c94_avgpool_window"
   ],
   "note": "The condition on turns is necessary (c94_tuple_wrong). Layers with square images and integer paddings are those of C66 (c94_square)."
  },
  {
   "property": "C95",
   "status": "partial",
   "theorems": [
    "E2.c95_contains_trivial",
    "E2.c95_multiplicity",
    "E2.c95_irreducible",
    "E2.c95_trivial_iff",
    "E2.c95_flags_partial",
    "E2.c95_flags_wrong",
    "E2.c95_cyclic",
    "E2.c95_dihedral",
    "E2.c95_so2",
    "E2.c95_o2"
   ],
   "note": "contains_trivial and the multiplicity are proved outright. irreducible and is_trivial also ask for the identity as change of basis: they imply the mathematical notions (c95_flags_partial), the converse holds with that change of basis and is false in general (c95_flags_wrong; the source has a TODO on this line). The mathematical notions are decided by the list of irreps (c95_irreducible, c95_trivial_iff)."
  },
  {
   "property": "C96",
   "status": "partial",
   "theorems": [
    "E2.c96_representation",
    "E2.c96_transform",
    "E2.c96_name_wrong",
    "E2.c96_restrict_partial",
    "E2.c96_restriction_module",
    "E2.c96_restrict_wrong"
   ],
   "note": "The restriction is looked up in a dictionary by name (field_type.py:265-270): it is right when the names identify the representations of the type (c96_restrict_partial; C91 says when they do), and wrong otherwise (c96_restrict_wrong, two direct sums with the default name). The name of the representation of a type does not identify it (c96_name_wrong); nothing in the library looks it up."
  },
  {
   "property": "C97",
   "status": "partial",
   "theorems": [
    "E2.c97_representation",
    "E2.c97_space_partial",
    "E2.c97_space_iff",
    "E2.c97_type_partial",
    "E2.c97_wrong"
   ],
   "note": "True for representations. False for FlipRot2dOnR2: == ignores the axis and the hash is that of a name which contains it with 5 digits (c97_wrong; c97_space_iff says exactly when the hashes agree). The comparison of changes of basis is exact, without the tolerance of allclose, and so is their sum."
  },
  {
   "property": "C98",
   "status": "partial",
   "theorems": [
    "E2.c98_module",
    "E2.c98_module_wrong",
    "E2.c98_network_partial",
    "E2.c98_channels",
    "E2.c98_pairs_wrong",
    "E2.c98_average_raises"
   ],
   "note": "Proved by induction over the modules for networks without the modules for which C40 is false (Layer.ShapeOk lists the parameters). A network with an average pooling declares no shape at all, one with an adaptive pooling passes pairs on. The shapes are tied to the modelled forward passes, not to a second formula. Square images."
  },
  {
   "property": "C99",
   "status": "proved",
   "theorems": [
    "E2.c99_diffop",
    "E2.c99_gauss",
    "E2.c99_gauss_even",
    "E2.c99_arguments",
    "E2.c99_order_zero",
    "E2.c99_refused"
   ],
   "note": "The weights come from sympy.finite_diff_weights, which is a parameter assumed to be exact for polynomials of degree less than the number of points (FDSpec, satisfiable). The proof bounds the sum of the squares of the weights of the value at the origin by 1/2 from below for every number of points. Default offsets and filter. c99_refused covers all maximum orders above the kernel size, and equal ones for even kernel sizes. c99_gauss: with derivatives of Gaussians the constructor succeeds for all odd kernel sizes; c99_gauss_even: for even sizes, maximum order 0 and a narrow Gaussian it fails."
  },
  {
   "property": "C100",
   "status": "proved",
   "theorems": [
    "E2.c100_program",
    "E2.c100_types",
    "E2.c100_wide_block",
    "E2.c100_unsafe"
   ],
   "note": "Liveness (the variables needed later) and overwritten memory are defined on the text of the program and the variables' ranges of memory. c100_types judges the program by types and sizes only. Operands of += which overlap partly are excluded (PyTorch leaves their result open)."
  },
  {
   "property": "C101",
   "status": "partial",
   "theorems": [
    "E2.c101_gnorm",
    "E2.c101_inner",
    "E2.c101_induced_partial",
    "E2.c101_norm_partial",
    "E2.c101_no_affine",
    "E2.c101_norm_drawn"
   ],
   "note": "Full for GNormBatchNorm and InnerBatchNorm (which calls PyTorch's BatchNorm3d, whose resets are modelled as filling with 1 and 0) and for InducedNormBatchNorm with affine=True. The rest of the property is false of the code: c101_norm_drawn (a reset NormBatchNorm multiplies the fields by the random numbers it drew and always differs from a new one) and c101_no_affine (exception)."
  },
  {
   "property": "C102",
   "status": "partial",
   "theorems": [
    "E2.c102_network",
    "E2.c102_multiple",
    "E2.c102_nested",
    "E2.c102_adaptive",
    "E2.c102_broadcast"
   ],
   "note": "c102_network and c102_multiple need that the branches of a MultipleModule declare their shapes correctly (C98). The rest is false of the code: c102_nested, c102_adaptive (exceptions) and c102_broadcast (another tensor). Left out: the vector field nonlinearity and R2Diffop as modules, modules with several labels (they need a tuple as in_type, which no module of the library has), the empty SequentialModule."
  },
  {
   "property": "C103",
   "status": "proved",
   "theorems": [
    "E2.c103_element",
    "E2.c103_invertible",
    "E2.c103_zero_row",
    "E2.c103_transform",
    "E2.c103_returns",
    "E2.c103_continuous",
    "E2.c103_type",
    "E2.c103_init",
    "E2.c103_function",
    "E2.c103_library",
    "E2.c103_equivariant",
    "E2.c103_wrong_tag"
   ],
   "note": "c103_zero_row: a single row of zeros passes the checks of one matrix, which no invertible matrix has. math.isclose is equality. The solver of the linear system is a parameter (GoodSolver: it finds an invertible solution where one exists)."
  },
  {
   "property": "C104",
   "status": "partial",
   "theorems": [
    "E2.c104_network",
    "E2.c104_cyclic",
    "E2.c104_so2",
    "E2.c104_flip",
    "E2.c104_dihedral",
    "E2.c104_o2",
    "E2.c104_dihedral_turns",
    "E2.c104_o2_turns",
    "E2.c104_flip_wrong"
   ],
   "note": "False at the reflections for finite differences of odd orders (c104_flip_wrong, from C68). Proved: all three methods, all orders and angle offsets for rotations; without an angle offset also for reflections with RBF-FD, derivatives of Gaussians, and finite differences of even orders. Nested networks: C106."
  },
  {
   "property": "C105",
   "status": "partial",
   "theorems": [
    "E2.c105_list",
    "E2.c105_only_equivariant_partial",
    "E2.c105_rejected",
    "E2.c105_extend_stops",
    "E2.c105_export",
    "E2.c105_add_wrong",
    "E2.c105_insert_gap_wrong",
    "E2.c105_insert_negative_wrong"
   ],
   "note": "False in three ways: add_module is inherited without a check of the class (c105_add_wrong), insert behind the end makes the next append replace the inserted module (c105_insert_gap_wrong), insert at -1 raises and leaves the first module twice (c105_insert_negative_wrong). Proved: refinement of a Python list for calls in range, and the class invariant for all programs without add_module. The methods of torch.nn.ModuleList are modelled from torch's definitions, which are not in the repository; slices, pop and the modes set by export are left out."
  },
  {
   "property": "C106",
   "status": "partial",
   "theorems": [
    "E2.c106_network",
    "E2.c106_shape",
    "E2.c106_flip_wrong"
   ],
   "note": "False at the reflections for finite differences of odd orders (c106_flip_wrong, from C68). Proved with the hypotheses about the spaces which c104_cyclic, c104_so2, c104_flip, c104_dihedral, c104_o2 and their variants for rotations give. A MultipleModule inside a branch of a MultipleModule raises (C102)."
  },
  {
   "property": "C107",
   "status": "proved",
   "theorems": [
    "E2.c107_any",
    "E2.c107_pick",
    "E2.c107_reorder",
    "E2.c107_image",
    "E2.c107_diffop_any",
    "E2.c107_diffop_pick",
    "E2.c107_diffop_reorder",
    "E2.c107_diffop_image",
    "E2.c107_statistics_false"
   ],
   "note": "c107_any and c107_diffop_any include the errors and make no assumption on the network besides the mode. The others need the network to be used as it should be (Ok, as in C102 and C106), which gives independence of memory. c107_statistics_false: evaluation mode and running statistics are needed."
  },
  {
   "property": "C108",
   "status": "proved",
   "theorems": [
    "E2.c108_cyclic",
    "E2.c108_dihedral",
    "E2.c108_network",
    "E2.c108_right_angles",
    "E2.c108_reflections",
    "E2.c108_mean",
    "E2.c108_allclose"
   ],
   "note": "The comparison has no tolerance. With a tolerance the test accepts more modules. For SO(2) and O(2) the test looks at 52 angles only, see C81."
  }
 ]
}