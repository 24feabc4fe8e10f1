{
 "claims": [
  {
   "property": "C01",
   "status": "proved",
   "theorems": [
    "Cyten.Props.C01_all_trees_exactly_sane",
    "Cyten.Props.C01_all_trees_nodup"
   ],
   "note": "for every fusion rule with duplicate-free outcome lists"
  },
  {
   "property": "C02",
   "status": "proved",
   "theorems": [
    "Cyten.Props.C02_len_eq_count"
   ],
   "note": ""
  },
  {
   "property": "C03",
   "status": "proved",
   "theorems": [
    "Cyten.Props.C03_index_iff_position",
    "Cyten.Props.C03_index_of_yielded"
   ],
   "note": "iff-form for structurally well-formed trees (right number of inner sectors and labels)"
  },
  {
   "property": "C04",
   "status": "proved",
   "theorems": [
    "Cyten.Props.C04_insert_split",
    "Cyten.Props.C04_split_insert",
    "Cyten.Props.C04_split_raises"
   ],
   "note": ""
  },
  {
   "property": "C05",
   "status": "proved",
   "theorems": [
    "Cyten.Props.C05_extended_sane",
    "Cyten.Props.C05_extended_empty",
    "Cyten.Props.C05_split_bottom_extended",
    "Cyten.Props.C05_extended_split_bottom",
    "Cyten.Props.C05_insert_sane",
    "Cyten.Props.C05_braid_sane"
   ],
   "note": "extended, insert, split, split_bottom_vertex, braid"
  },
  {
   "property": "C06",
   "status": "proved",
   "theorems": [
    "Cyten.Props.C06_braid_inverse_fibonacci",
    "Cyten.Props.C06_braid_inverse_category",
    "Cyten.Props.C06_braid_inverse"
   ],
   "note": "for any fusion rule (with multiplicities) whose C/R symbols are unitary; instantiated for every multiplicity-free unitary braided category, hence ZN/U1/fermion/anyon categories below. The numerical cutoff is assumed to drop only exact zeros (cutoff 0 in the category instance)."
  },
  {
   "property": "C07",
   "status": "proved",
   "theorems": [
    "Cyten.Props.C07_zn_anyon",
    "Cyten.Props.C07_zn_anyon2",
    "Cyten.Props.C07_quantum_double",
    "Cyten.Props.C07_zn_anyon_ribbon",
    "Cyten.Props.C07_zn_anyon2_ribbon",
    "Cyten.Props.C07_zn_anyon2_frobenius",
    "Cyten.Props.C07_quantum_double_ribbon"
   ],
   "note": "2 <= N <= 32768 (int16 storage); exact complex arithmetic"
  },
  {
   "property": "C08",
   "status": "proved",
   "theorems": [
    "Cyten.Props.C08_fibonacci",
    "Cyten.Props.C08_fibonacci_qdim",
    "Cyten.Props.C08_fibonacci_ribbon",
    "Cyten.Props.C08_fibonacci_twist",
    "Cyten.Props.C08_fibonacci_fs"
   ],
   "note": "both handednesses, exact complex arithmetic; kernel-evaluated equations over Q(zeta_10, sqrt(1/phi)) transported to C"
  },
  {
   "property": "C09",
   "status": "partial",
   "theorems": [
    "Cyten.Props.C09_ising_c_symbol_partial",
    "Cyten.Props.C09_ising_psi_psi",
    "Cyten.Props.C09_ising_c_symbol_wrong"
   ],
   "note": "FALSE of the code: the guard all_sigma(b,c) makes the C-symbol 1 for (psi,psi), (sigma,psi), (psi,sigma); proved: negation for every nu, and correctness for the remaining pairs"
  },
  {
   "property": "C10",
   "status": "proved",
   "theorems": [
    "Cyten.Props.C10_product_category",
    "Cyten.Props.C10_product_outcomes",
    "Cyten.Props.C10_product_qdim",
    "Cyten.Props.C10_product_qdim_character",
    "Cyten.Props.C10_product_ribbon",
    "Cyten.Props.C10_product_n_symbol",
    "Cyten.Props.C10_product_n_assoc",
    "Cyten.Props.C10_product_all_sectors",
    "Cyten.Props.C10_empty_product_wrong",
    "Cyten.Props.C10_products_of_library_symmetries"
   ],
   "note": "multiplicity-free factors for pentagon/hexagon; n_symbol and associativity also with multiplicities; the empty product Symmetry([]) is shown to violate the property"
  },
  {
   "property": "C11",
   "status": "proved",
   "theorems": [
    "Cyten.Props.C11_u1_group",
    "Cyten.Props.C11_u1_sum",
    "Cyten.Props.C11_u1_sum_only_if",
    "Cyten.Props.C11_zn_group",
    "Cyten.Props.C11_zn_values",
    "Cyten.Props.C11_zn_large_not_closed",
    "Cyten.Props.C11_no_symmetry",
    "Cyten.Props.C11_fermion_parity",
    "Cyten.Props.C11_fermion_number",
    "Cyten.Props.C11_fermion_parity_ribbon",
    "Cyten.Props.C11_zn_multiple_fusion",
    "Cyten.Props.C11_u1_multiple_fusion"
   ],
   "note": "U1, ZN, NoSymmetry, FermionParity, FermionNumber incl. int16 wrap-around; integer charge conservation fails exactly at overflow; ZN(N>32768) is not closed"
  },
  {
   "property": "C12",
   "status": "proved",
   "theorems": [
    "Cyten.Props.C12_outcomes",
    "Cyten.Props.C12_can_fuse",
    "Cyten.Props.C12_dim",
    "Cyten.Props.C12_comm",
    "Cyten.Props.C12_self_dual",
    "Cyten.Props.C12_assoc",
    "Cyten.Props.C12_overflow",
    "Cyten.Props.C12_r_symbol",
    "Cyten.Props.C12_twist",
    "Cyten.Props.C12_z_iso"
   ],
   "note": "within int16 range; behaviour at overflow proved separately (C12_overflow); F symbols of SU(2) come from numerical CG data and are not modelled"
  },
  {
   "property": "C13",
   "status": "partial",
   "theorems": [
    "Cyten.Props.C13_split_combine_partial",
    "Cyten.Props.C13_nested_wrong"
   ],
   "note": "FALSE of the code for labels of nested combined legs (proved: splitting raises/aborts); exact characterisation of when the round trip works is proved"
  },
  {
   "property": "C14",
   "status": "partial",
   "theorems": [
    "Cyten.Props.C14_dual_involutive_partial",
    "Cyten.Props.C14_dual_combined",
    "Cyten.Props.C14_dual_combined_involutive_partial",
    "Cyten.Props.C14_double_star_wrong",
    "Cyten.Props.C14_offset_wrong",
    "Cyten.Props.C14_nested_dual_wrong"
   ],
   "note": "FALSE of the code for labels ending in **, for placeholders with offset; proved for elementary labels and one level of combination"
  },
  {
   "property": "C15",
   "status": "proved",
   "theorems": [
    "Cyten.Props.C15_labels_unique",
    "Cyten.Props.C15_lookup",
    "Cyten.Props.C15_lookup_index",
    "Cyten.Props.C15_num_legs",
    "Cyten.Props.C15_construct",
    "Cyten.Props.C15_set_label",
    "Cyten.Props.C15_set_label_effect",
    "Cyten.Props.C15_set_label_none_wrong",
    "Cyten.Props.C15_labels_are",
    "Cyten.Props.C15_matching"
   ],
   "note": "histories not ended by an assert abort; includes the finding that set_label(None) raises when another leg is unlabelled"
  },
  {
   "property": "C16",
   "status": "partial",
   "theorems": [
    "Cyten.Props.C16_always_valid_partial",
    "Cyten.Props.C16_default_valid",
    "Cyten.Props.C16_nan_wrong",
    "Cyten.Props.C16_failed_set_option",
    "Cyten.Props.C16_block_restores",
    "Cyten.Props.C16_enter_failure_wrong",
    "Cyten.Props.C16_update_not_atomic_wrong",
    "Cyten.Props.C16_update_prefix",
    "Cyten.Props.C16_set_option_frame",
    "Cyten.Props.C16_get_set",
    "Cyten.Props.C16_save_load"
   ],
   "note": "FALSE of the code in three ways, each proved: NaN accepted for fusion_tree_eps, set_options not atomic, temporary_options whose entry raises leaks; everything else proved for all programs"
  },
  {
   "property": "C17",
   "status": "proved",
   "theorems": [
    "Cyten.Props.C17_common_is_lub",
    "Cyten.Props.C17_common_set",
    "Cyten.Props.C17_common_complex",
    "Cyten.Props.C17_common_append",
    "Cyten.Props.C17_to_complex_to_real"
   ],
   "note": "common is the least upper bound for every non-empty list; set-dependence, complex iff, staged promotion."
  },
  {
   "property": "C18",
   "status": "partial",
   "theorems": [
    "Cyten.Props.C18_selection",
    "Cyten.Props.C18_priority",
    "Cyten.Props.C18_chi_min",
    "Cyten.Props.C18_chi_max_zero_is_ignored",
    "Cyten.Props.C18_chi_max_zero_witness"
   ],
   "note": "Proved for all spectra and options with chi_max >= 1 (incl. the exact error and norm, priority of constraints, chi_min). chi_max = 0 is ignored by the code: proved as a defect with a witness. Floats are an ordered field."
  },
  {
   "property": "C19",
   "status": "partial",
   "theorems": [
    "Cyten.Props.C19_norm_partial",
    "Cyten.Props.C19_normalised_iff_no_truncation",
    "Cyten.Props.C19_witness"
   ],
   "note": "The property is false of the code: proved norm^2 * (1-err) = x^2, equal to x^2 exactly if nothing of weight is truncated; witness included."
  },
  {
   "property": "C20",
   "status": "proved",
   "theorems": [
    "Cyten.Props.C20_cmp_lexsort",
    "Cyten.Props.C20_cmp_lexsort_antisymm",
    "Cyten.Props.C20_iter_common_sorted",
    "Cyten.Props.C20_none_strict",
    "Cyten.Props.C20_iter_common_noncommon",
    "Cyten.Props.C20_find_row_differences"
   ],
   "note": "Model of _cmp_lexsort / iter_common_sorted / iter_common_noncommon_sorted / find_row_differences; statements in terms of an independent row order."
  },
  {
   "property": "C21",
   "status": "proved",
   "theorems": [
    "Cyten.Props.C21_is_permutation",
    "Cyten.Props.C21_inverse_permutation",
    "Cyten.Props.C21_rank_data",
    "Cyten.Props.C21_permutation_as_swaps",
    "Cyten.Props.C21_swap_meaning",
    "Cyten.Props.C21_combine_permutations"
   ],
   "note": "argsort is any stable argsort; numpy arrays are lists of naturals."
  },
  {
   "property": "C22",
   "status": "proved",
   "theorems": [
    "Cyten.Props.C22_grid_complete",
    "Cyten.Props.C22_stride_grid",
    "Cyten.Props.C22_grid_entry",
    "Cyten.Props.C22_pack_order"
   ],
   "note": ""
  },
  {
   "property": "C23",
   "status": "proved",
   "theorems": [
    "Cyten.Props.C23_semiring",
    "Cyten.Props.C23_neutral",
    "Cyten.Props.C23_eq",
    "Cyten.Props.C23_mono_value",
    "Cyten.Props.C23_simplify_class",
    "Cyten.Props.C23_ops_class",
    "Cyten.Props.C23_reduced",
    "Cyten.Props.C23_prod",
    "Cyten.Props.C23_zero_exponent_defect",
    "Cyten.Props.C23_negative_exponent_defect"
   ],
   "note": "For polynomials built from strings by + and *; strings are parsed to tokens outside the model, int64 is unbounded. Two corner-case defects outside parsed input are proved as witnesses."
  },
  {
   "property": "C24",
   "status": "proved",
   "theorems": [
    "Cyten.Props.C24_pre_compose",
    "Cyten.Props.C24_matrix_product",
    "Cyten.Props.C24_assoc",
    "Cyten.Props.C24_identity_entries",
    "Cyten.Props.C24_identity_neutral",
    "Cyten.Props.C24_prune",
    "Cyten.Props.C24_identity_mapping"
   ],
   "note": "unordered_map is a duplicate-free association list; scalars any commutative semiring."
  },
  {
   "property": "C25",
   "status": "proved",
   "theorems": [
    "Cyten.Props.C25_dim",
    "Cyten.Props.C25_from_defining_sectors_raises",
    "Cyten.Props.C25_from_defining_sectors",
    "Cyten.Props.C25_sectors_of_basis",
    "Cyten.Props.C25_from_basis",
    "Cyten.Props.C25_from_sector_decomposition"
   ],
   "note": "from_basis, from_defining_sectors, from_sector_decomposition, sectors_of_basis, dim over arbitrary sector lists"
  },
  {
   "property": "C26",
   "status": "proved",
   "theorems": [
    "Cyten.Props.C26_parse_index",
    "Cyten.Props.C26_idx_to_sector"
   ],
   "note": "parse_index and idx_to_sector for every valid ElementarySpace and index"
  },
  {
   "property": "C27",
   "status": "proved",
   "theorems": [
    "Cyten.Props.C27_is_isomorphic_to",
    "Cyten.Props.C27_sector_multiplicity",
    "Cyten.Props.C27_is_subspace_of",
    "Cyten.Props.C27_largest_common_subspace",
    "Cyten.Props.C27_direct_sum",
    "Cyten.Props.C27_is_trivial"
   ],
   "note": "includes the is_trivial theorem that records the null-space out-of-bounds read as a defect"
  },
  {
   "property": "C28",
   "status": "proved",
   "theorems": [
    "Cyten.Props.C28_leg_dual_involutive",
    "Cyten.Props.C28_leg_dual_reverses",
    "Cyten.Props.C28_leg_dual_basis_perm",
    "Cyten.Props.C28_leg_equality",
    "Cyten.Props.C28_flat_leg_permutation",
    "Cyten.Props.C28_space_dual",
    "Cyten.Props.C28_with_opposite_duality",
    "Cyten.Props.C28_product_dual",
    "Cyten.Props.C28_product_dual_multiplicity",
    "Cyten.Props.C28_product_dual_involutive"
   ],
   "note": "legs, pipes, elementary spaces and tensor products; fusion ring laws as hypotheses (proved for cyten symmetries in C07-C12, C43)"
  },
  {
   "property": "C29",
   "status": "proved",
   "theorems": [
    "Cyten.Props.C29_sectors",
    "Cyten.Props.C29_multiplicity",
    "Cyten.Props.C29_dim"
   ],
   "note": ""
  },
  {
   "property": "C30",
   "status": "proved",
   "theorems": [
    "Cyten.Props.C30_tree_blocks_tile",
    "Cyten.Props.C30_tree_blocks_trees",
    "Cyten.Props.C30_tree_block_slice",
    "Cyten.Props.C30_forest_blocks",
    "Cyten.Props.C30_forest_of_trees",
    "Cyten.Props.C30_tiles_exactly_once"
   ],
   "note": ""
  },
  {
   "property": "C31",
   "status": "proved",
   "theorems": [
    "Cyten.Props.C31_rows_exhaustive",
    "Cyten.Props.C31_row_charge",
    "Cyten.Props.C31_slices_tile",
    "Cyten.Props.C31_row_order",
    "Cyten.Props.C31_pipe_space",
    "Cyten.Props.C31_fused_basis",
    "Cyten.Props.C31_charges",
    "Cyten.Props.C31_dual",
    "Cyten.Props.C31_nonvacuous"
   ],
   "note": "Construction of AbelianLegPipe from legs of any abelian, droppable symmetry: rows cover every combination once, slices tile, charges and basis order, dual. The dense use in combine_legs/split_legs is not part of this claim."
  },
  {
   "property": "C32",
   "status": "proved",
   "theorems": [
    "Cyten.Props.C32_linear_combination",
    "Cyten.Props.C32_mul"
   ],
   "note": "linear_combination and mul, over any semiring; block table consistency under C41"
  },
  {
   "property": "C33",
   "status": "proved",
   "theorems": [
    "Cyten.Props.C33_conserving",
    "Cyten.Props.C33_isHom",
    "Cyten.Props.C33_matrix_product",
    "Cyten.Props.C33_assoc",
    "Cyten.Props.C33_nonvacuous",
    "Cyten.Props.C33_compose_worker",
    "Cyten.Props.C33_compose",
    "Cyten.Props.C33_compose_no_contraction"
   ],
   "note": "all three branches of compose (scalar result, outer product, grouped contraction); charge conservation of the result; associativity. Exact arithmetic; the dtype conversion of the scalar branch is not modelled."
  },
  {
   "property": "C34",
   "status": "proved",
   "theorems": [
    "Cyten.Props.C34_entry_dagger",
    "Cyten.Props.C34_isHom_dagger",
    "Cyten.Props.C34_dagger_compose",
    "Cyten.Props.C34_basis",
    "Cyten.Props.C34_basis_nodup",
    "Cyten.Props.C34_inner_dagger",
    "Cyten.Props.C34_inner_no_dagger",
    "Cyten.Props.C34_inner_isSome",
    "Cyten.Props.C34_inner_conj_symm",
    "Cyten.Props.C34_inner_of_dagger",
    "Cyten.Props.C34_norm",
    "Cyten.Props.C34_norm_sq",
    "Cyten.Props.C34_norm_eq_zero",
    "Cyten.Props.C34_dagger",
    "Cyten.Props.C34_dagger_dagger"
   ],
   "note": "exact arithmetic; keys are unbounded integers (make_stride overflow guard: C44); inner raises for tensors without legs (C34_inner_isSome)"
  },
  {
   "property": "C35",
   "status": "proved",
   "theorems": [
    "Cyten.Props.C35_index_bijection",
    "Cyten.Props.C35_to_dense",
    "Cyten.Props.C35_get_element",
    "Cyten.Props.C35_get_element_raises",
    "Cyten.Props.C35_from_dense_raises_iff",
    "Cyten.Props.C35_from_dense",
    "Cyten.Props.C35_round_trip_dense",
    "Cyten.Props.C35_round_trip_tensor",
    "Cyten.Props.C35_from_dense_excess",
    "Cyten.Props.C35_example"
   ],
   "note": "exact dense <-> block conversion. Tensors without legs: from_dense_block raises (make_grid of an empty shape raises), proved in C35_from_dense_raises_iff. Finding: from_dense_block never checks the shape, so oversize arrays are silently truncated (C35_from_dense_excess)."
  },
  {
   "property": "C36",
   "status": "proved",
   "theorems": [
    "Cyten.Props.C36_unary",
    "Cyten.Props.C36_scalar_operand",
    "Cyten.Props.C36_binary",
    "Cyten.Props.C36_binary_flag_partial",
    "Cyten.Props.C36_binary_flag_bug",
    "Cyten.Props.C36_all",
    "Cyten.Props.C36_any",
    "Cyten.Props.C36_trace",
    "Cyten.Props.C36_max",
    "Cyten.Props.C36_eye",
    "Cyten.Props.C36_almost_equal",
    "Cyten.Props.C36_from_diag_block_raises",
    "Cyten.Props.C36_from_diag_block",
    "Cyten.Props.C36_as_block",
    "Cyten.Props.C36_round_trip_block",
    "Cyten.Props.C36_round_trip_tensor",
    "Cyten.Props.C36_get_item",
    "Cyten.Props.C36_full",
    "Cyten.Props.C36_charge_rule",
    "Cyten.Props.C36_from_full_raises",
    "Cyten.Props.C36_from_full",
    "Cyten.Props.C36_full_round_trip",
    "Cyten.Props.C36_example"
   ],
   "note": "Every sentence of the statement is a theorem. The defect of partial_zero_is_zero is proved by a counterexample (C36_binary_flag_bug); C36_binary_flag_partial states the condition under which the flag is harmless."
  },
  {
   "property": "C37",
   "status": "proved",
   "theorems": [
    "Cyten.Props.C37_small_dim",
    "Cyten.Props.C37_dagger",
    "Cyten.Props.C37_get_item",
    "Cyten.Props.C37_from_block_mask",
    "Cyten.Props.C37_from_diagonal",
    "Cyten.Props.C37_to_diagonal",
    "Cyten.Props.C37_unary",
    "Cyten.Props.C37_binary",
    "Cyten.Props.C37_all_any",
    "Cyten.Props.C37_eye_zero",
    "Cyten.Props.C37_full",
    "Cyten.Props.C37_subspace",
    "Cyten.Props.C37_example",
    "Cyten.Props.C37_transpose"
   ],
   "note": "Masks of the abelian backend: from_block_mask / from_DiagonalTensor / eye / zero / unary / binary / dagger all give well-formed masks whose boolean vector is the stated one, the small leg has one vector per True in increasing order of public index, get_item and the full tensor are the 0/1 matrix of that subset, all/any are quantifiers; as_block_mask is independent of block representation. Not modelled: Mask.from_random's random choice, fusion tree and no-symmetry backends."
  },
  {
   "property": "C38",
   "status": "proved",
   "theorems": [
    "Cyten.Props.C38_sum",
    "Cyten.Props.C38_shifted",
    "Cyten.Props.C38_projected",
    "Cyten.Props.C38_projected_span",
    "Cyten.Props.C38_projected_orth",
    "Cyten.Props.C38_linear",
    "Cyten.Props.C38_adjoint",
    "Cyten.Props.C38_adjoint_twice",
    "Cyten.Props.C38_to_tensor",
    "Cyten.Props.C38_tensor_op",
    "Cyten.Props.C38_projected_gram_schmidt",
    "Cyten.Props.C38_direct_sum_inner",
    "Cyten.Props.C38_direct_sum_norm",
    "Cyten.Props.C38_direct_sum_axpy",
    "Cyten.Props.C38_direct_sum_mismatch",
    "Cyten.Props.C38_direct_sum_operator",
    "Cyten.Props.C38_direct_sum_good",
    "Cyten.Props.C38_direct_sum_adjoint",
    "Cyten.Props.C38_direct_sum_at",
    "Cyten.Props.C38_unwrapped",
    "Cyten.Props.C38_documented_false",
    "Cyten.Props.C38_adjoint_false",
    "Cyten.Props.C38_nonvacuous"
   ],
   "note": "Exact arithmetic over R or C. Documented claim for non-orthonormal ortho_vecs refuted (C38_documented_false, C38_adjoint_false)."
  },
  {
   "property": "C39",
   "status": "proved",
   "theorems": [
    "Cyten.Props.C39_orthonormal",
    "Cyten.Props.C39_span_le",
    "Cyten.Props.C39_near",
    "Cyten.Props.C39_span_eq",
    "Cyten.Props.C39_length_le",
    "Cyten.Props.C39_length_eq",
    "Cyten.Props.C39_prefix",
    "Cyten.Props.C39_fixed",
    "Cyten.Props.C39_span_false"
   ],
   "note": "Exact arithmetic. For rcond > 0 the documented 'span the same space' is refuted (C39_span_false) and replaced by C39_near."
  },
  {
   "property": "C40",
   "status": "partial",
   "theorems": [
    "Cyten.Props.C40_insert_multiply",
    "Cyten.Props.C40_left_multiply",
    "Cyten.Props.C40_insert_multiply_end",
    "Cyten.Props.C40_right_multiply_computes",
    "Cyten.Props.C40_right_multiply_partial",
    "Cyten.Props.C40_permuted",
    "Cyten.Props.C40_permuted_accepts",
    "Cyten.Props.C40_from_partial_products"
   ],
   "note": "insert_multiply, left_multiply, permuted, from_partial_products proved; right_multiply is proved to insert the new factor before the last one, so the documented factor order fails (C40_right_multiply_partial characterises exactly when it holds); sectors and multiplicities are right"
  },
  {
   "property": "C41",
   "status": "proved",
   "theorems": [
    "Cyten.Props.C41_compose",
    "Cyten.Props.C41_all_histories",
    "Cyten.Props.C41_nonvacuous",
    "Cyten.Props.C41_linear_combination",
    "Cyten.Props.C41_mul",
    "Cyten.Props.C41_dagger",
    "Cyten.Props.C41_permute_legs",
    "Cyten.Props.C41_add_trivial_leg",
    "Cyten.Props.C41_outer",
    "Cyten.Props.C41_compose_no_contraction",
    "Cyten.Props.C41_eye",
    "Cyten.Props.C41_scale_axis"
   ],
   "note": "C41_all_histories: induction over all histories of the modelled operations (constructors, linear algebra, legs, masks, diagonal tensors, decompositions, tensor_from_grid); from_tree_pairs and truncate_singular_values are not modelled for the abelian backend. Abelian group symmetries with trivial braiding, exact arithmetic."
  },
  {
   "property": "C42",
   "status": "proved",
   "theorems": [
    "Cyten.Props.C42_ising_fr",
    "Cyten.Props.C42_ising_qdim",
    "Cyten.Props.C42_ising_ribbon",
    "Cyten.Props.C42_ising_twist",
    "Cyten.Props.C42_ising_fs"
   ],
   "note": "all odd nu"
  },
  {
   "property": "C43",
   "status": "proved",
   "theorems": [
    "Cyten.Props.C43_su2k_fusion",
    "Cyten.Props.C43_su2k_outcomes",
    "Cyten.Props.C43_su2k_qdim",
    "Cyten.Props.C43_su2k_r_phase",
    "Cyten.Props.C43_su2k_ribbon",
    "Cyten.Props.C43_su2k_twist"
   ],
   "note": "F/C symbols (q-6j) not covered; 1<=k<=32767"
  },
  {
   "property": "C44",
   "status": "partial",
   "theorems": [
    "Cyten.Props.C44_cstyle_guard",
    "Cyten.Props.C44_fstyle_guard_fails",
    "Cyten.Props.C44_fstyle_guard_partial"
   ],
   "note": "C-style guard proved; the F-style guard is wrong (C44_fstyle_guard_fails), it suffices only if last dim <= first dim (C44_fstyle_guard_partial)."
  },
  {
   "property": "C45",
   "status": "proved",
   "theorems": [
    "Cyten.Props.C45_permute_legs_isHom",
    "Cyten.Props.C45_permute_legs"
   ],
   "note": "trivial braiding (bosonic abelian symmetry)"
  },
  {
   "property": "C46",
   "status": "proved",
   "theorems": [
    "Cyten.Props.C46_entry_eye",
    "Cyten.Props.C46_eye_compose",
    "Cyten.Props.C46_compose_eye",
    "Cyten.Props.C46_entry_trace",
    "Cyten.Props.C46_trace_cyclic",
    "Cyten.Props.C46_add_trivial_leg",
    "Cyten.Props.C46_outer",
    "Cyten.Props.C46_eye",
    "Cyten.Props.C46_trace_full"
   ],
   "note": "eye, trace_full, outer, add_trivial_leg over any semiring; keys unbounded"
  },
  {
   "property": "C47",
   "status": "proved",
   "theorems": [
    "Cyten.Props.C47_apply_mask",
    "Cyten.Props.C47_enlarge_leg",
    "Cyten.Props.C47_diagonal",
    "Cyten.Props.C47_charge",
    "Cyten.Props.C47_projector",
    "Cyten.Props.C47_example"
   ],
   "note": "Abelian backend; entries of a commutative monoid. That the leg of the tensor equals the leg of the mask (checked by _check_compatible_legs) is a hypothesis, as are the assertions on the kind of mask."
  },
  {
   "property": "C48",
   "status": "proved",
   "theorems": [
    "Cyten.Props.C48_new_leg",
    "Cyten.Props.C48_qr",
    "Cyten.Props.C48_lq",
    "Cyten.Props.C48_svd",
    "Cyten.Props.C48_eigh",
    "Cyten.Props.C48_qr_compose",
    "Cyten.Props.C48_qr_isometry",
    "Cyten.Props.C48_lq_compose",
    "Cyten.Props.C48_example"
   ],
   "note": "Abelian backend; the block decompositions (LAPACK) are arguments with their specification as hypothesis. Legs are combined before (combine_legs: C31, C49)."
  },
  {
   "property": "C49",
   "status": "proved",
   "theorems": [
    "Cyten.Props.C49_segments",
    "Cyten.Props.C49_index_bijection",
    "Cyten.Props.C49_combine",
    "Cyten.Props.C49_combine_legs",
    "Cyten.Props.C49_split_legs",
    "Cyten.Props.C49_roundtrip",
    "Cyten.Props.C49_combine_hom",
    "Cyten.Props.C49_split_hom",
    "Cyten.Props.C49_nonvacuous"
   ],
   "note": "Abelian backend. The groups are neighbouring legs (the tensor-level function permutes first: C45)."
  },
  {
   "property": "C50",
   "status": "partial",
   "theorems": [
    "Cyten.Props.C50_rel",
    "Cyten.Props.C50_gmres",
    "Cyten.Props.C50_monotone",
    "Cyten.Props.C50_exact",
    "Cyten.Props.C50_breakdown_fails",
    "Cyten.Props.C50_fails_only",
    "Cyten.Props.C50_hermitian",
    "Cyten.Props.C50_complex_wrong",
    "Cyten.Props.C50_breakdown_witness"
   ],
   "note": "proved for real vector spaces and for Hermitian operators over C; for complex non-Hermitian operators the English property (without the restriction) is false of the code (C50_complex_wrong: rotations lack conjugation); a breakdown before N_min steps makes the code raise (C50_breakdown_fails, C50_fails_only)"
  },
  {
   "property": "C51",
   "status": "proved",
   "theorems": [
    "Cyten.Props.C51_lanczos",
    "Cyten.Props.C51_succeeds",
    "Cyten.Props.C51_independent",
    "Cyten.Props.C51_bounds",
    "Cyten.Props.C51_exact",
    "Cyten.Props.C51_early_stop",
    "Cyten.Props.C51_no_shift",
    "Cyten.Props.C51_shift",
    "Cyten.Props.C51_shift_projected",
    "Cyten.Props.C51_shift_reused_wrong"
   ],
   "note": "Exact arithmetic; numpy.linalg.eigh enters by its specification (EighSpec, shown satisfiable). The documented harmlessness of E_shift fails when a ProjectedLinearOperator object is used a second time (C51_shift_reused_wrong)."
  },
  {
   "property": "C52",
   "status": "proved",
   "theorems": [
    "Cyten.Props.C52_evolution",
    "Cyten.Props.C52_succeeds",
    "Cyten.Props.C52_exact",
    "Cyten.Props.C52_unitary",
    "Cyten.Props.C52_early_stop",
    "Cyten.Props.C52_history",
    "Cyten.Props.C52_independent"
   ],
   "note": "Exact arithmetic; numpy.linalg.eigh enters by its specification. E_shift is not modelled for the evolution (the code does not compensate for it, the result is then the evolution with the shifted operator)."
  },
  {
   "property": "C53",
   "status": "proved",
   "theorems": [
    "Cyten.Props.C53_arnoldi",
    "Cyten.Props.C53_which",
    "Cyten.Props.C53_exact",
    "Cyten.Props.C53_shift",
    "Cyten.Props.C53_succeeds",
    "Cyten.Props.C53_early_stop",
    "Cyten.Props.C53_excess",
    "Cyten.Props.C53_second_run",
    "Cyten.Props.C53_evolution",
    "Cyten.Props.C53_evolution_exact",
    "Cyten.Props.C53_history",
    "Cyten.Props.C53_evolution_stop",
    "Cyten.Props.C53_evolution_fails",
    "Cyten.Props.C53_evolution_succeeds"
   ],
   "note": "numpy.linalg.eig/solve and std::sort enter through specifications that are proved satisfiable; defects proved: num_ev > N returns additional numbers 0 - E_shift (C53_excess); a second run of the same Arnoldi object raises after a run with N_max steps (C53_second_run)"
  },
  {
   "property": "C54",
   "status": "proved",
   "theorems": [
    "Cyten.Props.C54_scale_axis",
    "Cyten.Props.C54_conserving",
    "Cyten.Props.C54_compose_diagonal",
    "Cyten.Props.C54_diagonal_compose",
    "Cyten.Props.C54_nonvacuous"
   ],
   "note": "abelian backend, exact scalars; C54_compose_diagonal and C54_diagonal_compose relate it to the matrix product"
  },
  {
   "property": "C55",
   "status": "proved",
   "theorems": [
    "Cyten.Props.C55_isHom",
    "Cyten.Props.C55_trace_full",
    "Cyten.Props.C55_nonvacuous",
    "Cyten.Props.C55_partial_trace",
    "Cyten.Props.C55_succeeds"
   ],
   "note": "abelian backend, exact scalars; the charge rule of the result (C55_isHom) for symmetries given by abelian groups"
  },
  {
   "property": "C56",
   "status": "proved",
   "theorems": [
    "Cyten.Props.C56_partial_compose_codomain",
    "Cyten.Props.C56_partial_compose_domain",
    "Cyten.Props.C56_partial_nonvacuous",
    "Cyten.Props.C56_tdot",
    "Cyten.Props.C56_tdot_isHom",
    "Cyten.Props.C56_tdot_defined",
    "Cyten.Props.C56_nonvacuous"
   ],
   "note": "SymmetricTensor branch of tdot and partial_compose (abelian backend, exact scalars, labels omitted); the branches for Mask, DiagonalTensor, Identity and ChargedTensor are not covered"
  },
  {
   "property": "C57",
   "status": "partial",
   "theorems": [
    "Cyten.Props.C57_act_block_diagonal",
    "Cyten.Props.C57_exp_leg",
    "Cyten.Props.C57_exp_common_pipe",
    "Cyten.Props.C57_exp_bug",
    "Cyten.Props.C57_exp_bug_charge",
    "Cyten.Props.C57_nonvacuous"
   ],
   "note": "Proved for one leg and, for any number of legs, if both sides use the same pipe. For two or more legs the code combines codomain and domain with different pipes: C57_exp_bug and C57_exp_bug_charge prove that exp is then wrong (exp of zero is not the identity, result violates the charge rule)."
  },
  {
   "property": "C58",
   "status": "partial",
   "theorems": [
    "Cyten.Props.C58_almost_equal_iff",
    "Cyten.Props.C58_almost_equal_sound",
    "Cyten.Props.C58_almost_equal_complete_partial",
    "Cyten.Props.C58_almost_equal_bug",
    "Cyten.FT.C58_ft_almost_equal_iff",
    "Cyten.FT.C58_ft_almost_equal_sound",
    "Cyten.FT.C58_ft_almost_equal_complete_partial",
    "Cyten.FT.C58_ft_almost_equal_bug"
   ],
   "note": "Abelian and fusion tree backend: soundness proved in full; completeness if b stores no block that a lacks or rtol = 0. Without that it is false of the code: C58_almost_equal_bug, C58_ft_almost_equal_bug."
  },
  {
   "property": "C59",
   "status": "proved",
   "theorems": [
    "Cyten.Props.C59_squeeze_sane",
    "Cyten.Props.C59_squeeze",
    "Cyten.Props.C59_basis",
    "Cyten.Props.C59_squeeze_isHom",
    "Cyten.Props.C59_squeeze_add",
    "Cyten.Props.C59_nonvacuous"
   ],
   "note": ""
  },
  {
   "property": "C60",
   "status": "partial",
   "theorems": [
    "Cyten.Props.C60_tdot_symmetric",
    "Cyten.Props.C60_diagonal_right",
    "Cyten.Props.C60_diagonal_left_partial",
    "Cyten.Props.C60_identity_left_partial",
    "Cyten.Props.C60_identity_right_partial",
    "Cyten.Props.C60_nonvacuous",
    "Cyten.Props.C60_diagonal_left_bug",
    "Cyten.Props.C60_identity_left_bug",
    "Cyten.Props.C60_identity_right_bug"
   ],
   "note": "Diagonal tensor second: proved for all leg choices. Diagonal tensor first: proved for two contracted legs and for one leg with equal numbers; otherwise false (C60_diagonal_left_bug). Identity first: proved except full contraction with a matrix, where the code raises (C60_identity_left_bug). Identity second: proved for two contracted legs; false for one (C60_identity_right_bug). Scalars commutative for the 'first' cases. tdot with Masks and ChargedTensors is not covered here."
  },
  {
   "property": "C61",
   "status": "proved",
   "theorems": [
    "Cyten.FT.C61_linear_combination",
    "Cyten.FT.C61_compose",
    "Cyten.FT.C61_dagger",
    "Cyten.FT.C61_mul",
    "Cyten.FT.C61_eye",
    "Cyten.FT.C61_inner",
    "Cyten.FT.C61_trace",
    "Cyten.FT.C61_norm",
    "Cyten.FT.C61_from_sector_block_func",
    "Cyten.FT.C61_zero_data",
    "Cyten.FT.C61_act_block_diagonal",
    "Cyten.FT.C61_block_ind_from_coupled",
    "Cyten.FT.C61_discard_zero_blocks"
   ],
   "note": "Entries from a ring with conjugation; dtypes and rounding are not modelled (the code converts the results of inner to the dtype of the first tensor)."
  },
  {
   "property": "C62",
   "status": "proved",
   "theorems": [
    "Cyten.FT.C62_qr",
    "Cyten.FT.C62_lq",
    "Cyten.FT.C62_svd",
    "Cyten.FT.C62_eigh",
    "Cyten.FT.C62_new_leg",
    "Cyten.FT.C62_qr_compose"
   ],
   "note": "The decompositions of single blocks are assumed to be correct; entries from a ring with conjugation."
  },
  {
   "property": "C63",
   "status": "proved",
   "theorems": [
    "Cyten.FT.C63_tree_tensors",
    "Cyten.FT.C63_linear",
    "Cyten.FT.C63_compose",
    "Cyten.FT.C63_dagger",
    "Cyten.FT.C63_inner",
    "Cyten.FT.C63_norm",
    "Cyten.FT.C63_trace",
    "Cyten.FT.C63_eye",
    "Cyten.FT.C63_round_trip",
    "Cyten.FT.C63_projection",
    "Cyten.FT.C63_tolerance",
    "Cyten.FT.C63_symmetric_accepted",
    "Cyten.FT.C63_sides"
   ],
   "note": "Exact arithmetic, internal basis order, legs without pipes; the fusion tensors are a parameter with the documented orthonormality."
  },
  {
   "property": "C64",
   "status": "proved",
   "theorems": [
    "Cyten.Sites.C64_spin_algebra",
    "Cyten.Sites.C64_spin_ladder",
    "Cyten.Sites.C64_spin_charges",
    "Cyten.Sites.C64_clock_algebra",
    "Cyten.Sites.C64_clock_inferred",
    "Cyten.Sites.C64_state_labels",
    "Cyten.Sites.C64_state_sectors",
    "Cyten.Sites.C64_occupation_ladder",
    "Cyten.Sites.C64_boson_algebra",
    "Cyten.Sites.C64_boson_sanity",
    "Cyten.Sites.C64_fermion_algebra",
    "Cyten.Sites.C64_spin_half_fermion"
   ],
   "note": "dense arrays of the degrees of freedom, labels and sectors; exact numbers instead of floats"
  },
  {
   "property": "C65",
   "status": "partial",
   "theorems": [
    "Cyten.Couplings.C65_sites_are_spins",
    "Cyten.Couplings.C65_spin_spin",
    "Cyten.Couplings.C65_heisenberg_aklt",
    "Cyten.Couplings.C65_spin_symmetric",
    "Cyten.Couplings.C65_chiral",
    "Cyten.Couplings.C65_aklt_spin_one",
    "Cyten.Couplings.C65_aklt_spin_half",
    "Cyten.Couplings.C65_sites_are_occ",
    "Cyten.Couplings.C65_hopping_pairing_partial",
    "Cyten.Couplings.C65_two_site_modes",
    "Cyten.Couplings.C65_hopping_conserves",
    "Cyten.Couplings.C65_hopping_bug",
    "Cyten.Couplings.C65_densities",
    "Cyten.Couplings.C65_onsite_pairing",
    "Cyten.Couplings.C65_clock"
   ],
   "note": "all documented formulas proved; hopping and pairing only for equivalent sites: for inequivalent sites the documented formula is false of the code (C65_hopping_bug)"
  },
  {
   "property": "C66",
   "status": "partial",
   "theorems": [
    "Cyten.CouplingPermute.C66_adjacent_transpositions",
    "Cyten.CouplingPermute.C66_is_permutation",
    "Cyten.CouplingPermute.C66_permute",
    "Cyten.CouplingPermute.C66_permute_unspecified",
    "Cyten.CouplingPermute.C66_permute_length_bug"
   ],
   "note": "Proved for all permutations of the sites. The last sentence is false of the code: the length of the permutation is not compared with the number of sites (C66_permute_length_bug)."
  },
  {
   "property": "C67",
   "status": "proved",
   "theorems": [
    "Cyten.CouplingMpo.C67_sanity",
    "Cyten.CouplingMpo.C67_to_tensor",
    "Cyten.CouplingMpo.C67_from_tensor",
    "Cyten.CouplingMpo.C67_from_tensor_rejects",
    "Cyten.CouplingMpo.C67_stretch",
    "Cyten.CouplingMpo.C67_stretch_rejects",
    "Cyten.CouplingMpo.C67_stretch_from_tensor"
   ],
   "note": "Dense semantics for bosonic symmetries; qr of the numerical library is a parameter with its law, the truncating variant (cutoff) is not modelled."
  },
  {
   "property": "C68",
   "status": "partial",
   "theorems": [
    "Cyten.SiteOps.C68_get_op",
    "Cyten.SiteOps.C68_multiply_op_names",
    "Cyten.SiteOps.C68_multiply_operators",
    "Cyten.SiteOps.C68_add_onsite_operator",
    "Cyten.SiteOps.C68_reload",
    "Cyten.SiteOps.C68_state_index",
    "Cyten.SiteOps.C68_empty_name_bug"
   ],
   "note": "Proved for all names except the empty string and names with a trailing space as factors of multiply_op_names; the empty string is accepted by add_onsite_operator, and then the statement is false of the code (C68_empty_name_bug)."
  },
  {
   "property": "C69",
   "status": "partial",
   "theorems": [
    "Cyten.Hdf5.C69_roundtrip",
    "Cyten.Hdf5.C69_file",
    "Cyten.Hdf5.C69_empty_key_lost",
    "Cyten.Hdf5.C69_recursive_tuple",
    "Cyten.Hdf5.C69_ignored_in_list",
    "Cyten.Hdf5.C69_masked_iff",
    "Cyten.Hdf5.C69_masked_lost"
   ],
   "note": "The round trip is proved for all graphs that satisfy Savable (simple keys not empty, no ignored objects, no tuple reachable from its own items). Without these it is false of the code: negations with witnesses (empty key, recursive tuple, ignored item, masked arrays; exact condition for masked arrays)."
  },
  {
   "property": "C70",
   "status": "proved",
   "theorems": [
    "Cyten.Props.C70_roundtrip",
    "Cyten.Props.C70_roundtrip'",
    "Cyten.Props.C70_element",
    "Cyten.Props.C70_linear",
    "Cyten.Props.C70_zero",
    "Cyten.Props.C70_eye",
    "Cyten.Props.C70_dagger",
    "Cyten.Props.C70_permute",
    "Cyten.Props.C70_outer",
    "Cyten.Props.C70_compose",
    "Cyten.Props.C70_inner",
    "Cyten.Props.C70_trace",
    "Cyten.Props.C70_partial_trace",
    "Cyten.Props.C70_partial_compose_cod",
    "Cyten.Props.C70_partial_compose_dom",
    "Cyten.Props.C70_diagonal",
    "Cyten.Props.C70_scale_axis",
    "Cyten.Props.C70_mask_project",
    "Cyten.Props.C70_mask_embed",
    "Cyten.Props.C70_combine",
    "Cyten.Props.C70_split",
    "Cyten.Props.C70_qr",
    "Cyten.Props.C70_eigh"
   ],
   "note": "dense operations in the public bases; block-level decompositions assumed to satisfy their defining law"
  },
  {
   "property": "C71",
   "status": "proved",
   "theorems": [
    "Cyten.Props.C71_permute_instructions",
    "Cyten.Props.C71_symmetric_braid",
    "Cyten.Props.C71_levels",
    "Cyten.Props.C71_crossings",
    "Cyten.Props.C71_swap_boundary",
    "Cyten.Props.C71_nonvacuous"
   ],
   "note": "all permutations and bends; chirality of crossings only without bends to the left (with left bends the code adds crossings that cancel)"
  },
  {
   "property": "C72",
   "status": "proved",
   "theorems": [
    "Cyten.FT.C72_permute_legs",
    "Cyten.FT.C72_braid",
    "Cyten.FT.C72_bend_down",
    "Cyten.FT.C72_bend_up"
   ],
   "note": "For permutations that mix codomain and domain, legs that are not pipes, symmetric braid of a group. Inner permutations (FactorizedTreeMapping): C73."
  },
  {
   "property": "C73",
   "status": "proved",
   "theorems": [
    "Cyten.FT.C73_permute_inner"
   ],
   "note": "For legs that are not pipes, symmetric braid of a group. Amplitudes are not rounded to real numbers: SymmetricTensor::verify_dtype excludes real tensors with complex symbols."
  },
  {
   "property": "C74",
   "status": "proved",
   "theorems": [
    "Cyten.Props.C74_bipartition_sound",
    "Cyten.Props.C74_bipartition_complete",
    "Cyten.Props.C74_bipartition",
    "Cyten.Props.C74_contraction_sound",
    "Cyten.Props.C74_contraction_complete",
    "Cyten.Props.C74_contraction_one_order",
    "Cyten.Props.C74_rejected_defect",
    "Cyten.Props.C74_nonvacuous"
   ],
   "note": "Planar contractions are accepted in at least one order of the tensors; acceptance in the given order fails when all legs of the first tensor are contracted in a rotated order (C74_rejected_defect)."
  },
  {
   "property": "C75",
   "status": "proved",
   "theorems": [
    "Cyten.Props.C75_planar_permute",
    "Cyten.Props.C75_only_planar",
    "Cyten.Props.C75_planar_permute_iff",
    "Cyten.Props.C75_empty_defect",
    "Cyten.Props.C75_nonvacuous"
   ],
   "note": "For lists of at most n legs (duplicates in longer lists are only detected by permute_legs); two empty lists: C75_empty_defect."
  },
  {
   "property": "C76",
   "status": "partial",
   "theorems": [
    "Cyten.Props.C76_planar_contraction_partial",
    "Cyten.Props.C76_open_legs",
    "Cyten.Props.C76_full_defect",
    "Cyten.Props.C76_full_error_defect",
    "Cyten.Props.C76_wrap_defect",
    "Cyten.Props.C76_both_sides_defect",
    "Cyten.Props.C76_nonvacuous"
   ],
   "note": "False of the code in the cases of C76_full_defect, C76_full_error_defect, C76_wrap_defect and C76_both_sides_defect (contracted legs across both sides of the tensor; all legs of tensor2 contracted with all domain legs of tensor1) and for a second tensor without legs; proved in all other cases."
  },
  {
   "property": "C77",
   "status": "proved",
   "theorems": [
    "Cyten.Props.C77_checks",
    "Cyten.Props.C77_planar_trace",
    "Cyten.Props.C77_placeholder_defect",
    "Cyten.Props.C77_nonvacuous"
   ],
   "note": ""
  },
  {
   "property": "C78",
   "status": "proved",
   "theorems": [
    "Cyten.Planar.C78_from_contraction_order",
    "Cyten.Planar.C78_nonvacuous"
   ],
   "note": "all orders"
  },
  {
   "property": "C79",
   "status": "proved",
   "theorems": [
    "Cyten.Planar.C79_diagram",
    "Cyten.Planar.C79_order_string",
    "Cyten.Planar.C79_nonvacuous"
   ],
   "note": "labels only: dimensions, costs and charge legs are not modelled"
  },
  {
   "property": "C80",
   "status": "proved",
   "theorems": [
    "Cyten.Planar.C80_remove",
    "Cyten.Planar.C80_add",
    "Cyten.Planar.C80_add_remove",
    "Cyten.Planar.C80_nonvacuous"
   ],
   "note": "all definitions"
  },
  {
   "property": "C81",
   "status": "proved",
   "theorems": [
    "Cyten.Props.C81_direct_sum_position",
    "Cyten.Props.C81_nonvacuous"
   ],
   "note": "dim-1 sectors (all abelian symmetries); other sectors: C27."
  },
  {
   "property": "C82",
   "status": "partial",
   "theorems": [
    "Cyten.Props.C82_tensor_from_grid",
    "Cyten.Props.C82_legs_checked",
    "Cyten.Props.C82_nonvacuous",
    "Cyten.Props.C82_row_legs_unchecked",
    "Cyten.Props.C82_example"
   ],
   "note": "C82_tensor_from_grid proves the positive part for the abelian backend with ElementarySpace legs; the rejection of grids with unequal legs within a row is false in the code (C82_row_legs_unchecked)."
  },
  {
   "property": "C83",
   "status": "partial",
   "theorems": [
    "Cyten.Props.C83_truncated_svd",
    "Cyten.Props.C83_relative_error",
    "Cyten.Props.C83_documented_error_iff",
    "Cyten.Props.C83_documented_error_false"
   ],
   "note": "Proved in full with the squared error (abelian backend, two legs, exact real arithmetic; LAPACK and argsort are arguments). The documented meaning of err is false of the code: C83_documented_error_iff / C83_documented_error_false."
  },
  {
   "property": "C84",
   "status": "partial",
   "theorems": [
    "Cyten.Props.C84_to_dense",
    "Cyten.Props.C84_get_item",
    "Cyten.Props.C84_scalar_multiply",
    "Cyten.Props.C84_linear_combination",
    "Cyten.Props.C84_norm",
    "Cyten.Props.C84_almost_equal_partial",
    "Cyten.Props.C84_inner",
    "Cyten.Props.C84_inner_defined",
    "Cyten.Props.C84_inner_symmetric",
    "Cyten.Props.C84_inner_symmetric_dagger_partial",
    "Cyten.Props.C84_from_dense",
    "Cyten.Props.C84_scalar_multiply_false",
    "Cyten.Props.C84_scalar_multiply_nonvacuous",
    "Cyten.Props.C84_linear_combination_nonvacuous",
    "Cyten.Props.C84_almost_equal_false",
    "Cyten.Props.C84_inner_nonvacuous",
    "Cyten.Props.C84_inner_dagger_false"
   ],
   "note": "All listed operations proved for all inputs except where the code is wrong: scalar multiplication by a complex number with a real invariant part, almost_equal with different states, inner(symmetric, charged) with a complex state (negations proved with witnesses). Not modelled: outer/tdot/compose/partial_trace of charged tensors, dagger, leg permutations, other backends."
  },
  {
   "property": "C85",
   "status": "partial",
   "theorems": [
    "Cyten.Props.C85_insert_at",
    "Cyten.Props.C85_tree_outer",
    "Cyten.Props.C85_outer_partial",
    "Cyten.Props.C85_multiplicity",
    "Cyten.Props.C85_insert_empty",
    "Cyten.Props.C85_outer_wrong"
   ],
   "note": "proved for symmetries without fusion multiplicities; false of the code otherwise (C85_multiplicity, C85_outer_wrong)"
  },
  {
   "property": "C86",
   "status": "proved",
   "theorems": [
    "Cyten.Props.C86_ring",
    "Cyten.Props.C86_category",
    "Cyten.Props.C86_shapes",
    "Cyten.Props.C86_shapes_rb",
    "Cyten.Props.C86_qdim",
    "Cyten.Props.C86_twist",
    "Cyten.Props.C86_ribbon",
    "Cyten.Props.C86_bending",
    "Cyten.Props.C86_dual_batch"
   ],
   "note": "All 4 sectors are covered (the category is finite); numbers are exact, floating point rounding is not modelled."
  },
  {
   "property": "C87",
   "status": "proved",
   "theorems": [
    "Cyten.Props.C87_product_category",
    "Cyten.Props.C87_product_shapes",
    "Cyten.Props.C87_product_shapes_cb",
    "Cyten.Props.C87_product_n",
    "Cyten.Props.C87_product_entries",
    "Cyten.Props.C87_product_qdim",
    "Cyten.Props.C87_product_ribbon",
    "Cyten.Props.C87_product_bending",
    "Cyten.Props.C87_su33_power"
   ],
   "note": "Proved for every nonempty list of factors satisfying the laws themselves (hypothesis Good; met by SU(3)_3, C87_su33_power)."
  },
  {
   "property": "C88",
   "status": "proved",
   "theorems": [
    "Cyten.Props.C88_truncated_pinv",
    "Cyten.Props.C88_pinv",
    "Cyten.Props.C88_small_tensor",
    "Cyten.Props.C88_pinv_diagonal",
    "Cyten.Props.C88_example"
   ],
   "note": "For tensors with one leg in the codomain and one in the domain (svd combines legs before, C31/C49). The zero tensor (division by the norm 0) is excluded."
  },
  {
   "property": "C89",
   "status": "partial",
   "theorems": [
    "Cyten.FT.C89_tree_rows",
    "Cyten.FT.C89_scale_axis_codomain",
    "Cyten.FT.C89_scale_axis_domain",
    "Cyten.FT.C89_scale_axis_single",
    "Cyten.FT.C89_flat_idx",
    "Cyten.FT.C89_pipes_raise",
    "Cyten.FT.C89_dense_codomain",
    "Cyten.FT.C89_dense_domain",
    "Cyten.FT.C89_pipes_wrong_leg"
   ],
   "note": "Proved for all tensors without leg pipes (and single-factor sides with or without pipes), also for dense blocks. With pipes before the leg the code computes the flat leg number wrongly: C89_flat_idx gives the cases where it is right, C89_pipes_raise and C89_pipes_wrong_leg prove the failures."
  },
  {
   "property": "C90",
   "status": "partial",
   "theorems": [
    "Cyten.FT.C90_tree_row_unique",
    "Cyten.FT.C90_large_leg_domain",
    "Cyten.FT.C90_small_leg_domain",
    "Cyten.FT.C90_single_tree_abelian",
    "Cyten.FT.C90_single_tree_two_legs",
    "Cyten.FT.C90_large_leg_codomain_partial",
    "Cyten.FT.C90_small_leg_codomain_partial",
    "Cyten.FT.C90_codomain_wrong"
   ],
   "note": "Legs in the domain: full statement. Legs in the codomain: proved when there is at most one fusion tree per choice of sectors (abelian symmetries, or two legs without fusion multiplicities); otherwise the code is wrong, C90_codomain_wrong."
  },
  {
   "property": "C91",
   "status": "proved",
   "theorems": [
    "Cyten.FT.C91_unary",
    "Cyten.FT.C91_binary",
    "Cyten.FT.C91_all",
    "Cyten.FT.C91_any",
    "Cyten.FT.C91_max",
    "Cyten.FT.C91_trace",
    "Cyten.FT.C91_apply_mask",
    "Cyten.FT.C91_transpose",
    "Cyten.FT.C91_full",
    "Cyten.FT.C91_from_full",
    "Cyten.FT.C91_from_full_raises",
    "Cyten.FT.C91_to_block",
    "Cyten.FT.C91_from_block",
    "Cyten.FT.C91_from_block_accepts",
    "Cyten.FT.C91_block_round_trip",
    "Cyten.FT.C91_tensor_round_trip",
    "Cyten.FT.C91_get_element"
   ],
   "note": "dtypes, devices and the tolerance of from_block (an arbitrary comparison) are parameters; parse_index is outside the model of get_element"
  },
  {
   "property": "C92",
   "status": "partial",
   "theorems": [
    "Cyten.FT.C92_from_diagonal",
    "Cyten.FT.C92_unary_partial",
    "Cyten.FT.C92_binary_partial",
    "Cyten.FT.C92_dagger",
    "Cyten.FT.C92_to_block",
    "Cyten.FT.C92_to_diagonal",
    "Cyten.FT.C92_transpose",
    "Cyten.FT.C92_from_block",
    "Cyten.FT.C92_get_element",
    "Cyten.FT.MaskExample.C92_unary_dual_wrong",
    "Cyten.FT.MaskExample.C92_unary_dual_sector_wrong",
    "Cyten.FT.MaskExample.C92_binary_dual_wrong"
   ],
   "note": "Everything is proved except that the logical operations are wrong for dual legs whose sectors are not sorted (C92_unary_dual_wrong, C92_binary_dual_wrong are the negations); C92_unary_partial and C92_binary_partial cover all legs with sorted sectors. basis_perm is not modelled (C37 has it for the same code in the abelian backend)"
  },
  {
   "property": "C93",
   "status": "proved",
   "theorems": [
    "Cyten.FT.C93_spectrum",
    "Cyten.FT.C93_qdims",
    "Cyten.FT.C93_mask",
    "Cyten.FT.C93_truncate",
    "Cyten.FT.C93_perm_raises",
    "Cyten.FT.C93_error",
    "Cyten.FT.C93_truncated_svd",
    "Cyten.FT.C93_normalize_to"
   ],
   "note": "the selection is that of C18 with the order of priorities of its options; applying the mask to U and Vh is C90, to S C91; algorithms of the block decompositions are arguments; with normalize_to the norm of S is x / sqrt(new_norm), not x (C93_normalize_to, the defect of C19)"
  }
 ]
}