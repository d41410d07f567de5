BATS.C01_add: [Classical.choice, Quot.sound, propext]
BATS.C01_addAssign: [Classical.choice, Quot.sound, propext]
BATS.C01_canon_unique: [Classical.choice, Quot.sound, propext]
BATS.C01_div: [Classical.choice, Quot.sound, propext]
BATS.C01_divAssign: [Classical.choice, Quot.sound, propext]
BATS.C01_divAssign_zero: []
BATS.C01_div_zero: []
BATS.C01_eq: [Classical.choice, Quot.sound, propext]
BATS.C01_inv: [Classical.choice, Quot.sound, propext]
BATS.C01_inv_zero: []
BATS.C01_iszero: [Classical.choice, Quot.sound, propext]
BATS.C01_mul: [Classical.choice, Quot.sound, propext]
BATS.C01_mulAssign: [Classical.choice, Quot.sound, propext]
BATS.C01_neg: [Classical.choice, Quot.sound, propext]
BATS.C01_sub: [Classical.choice, Quot.sound, propext]
BATS.C01_subAssign: [Classical.choice, Quot.sound, propext]
BATS.C03_ofInt_above: [Classical.choice, Quot.sound, propext]
BATS.C03_ofInt_below: [Classical.choice, Quot.sound, propext]
BATS.C03_ofInt_iff: [Classical.choice, Quot.sound, propext]
BATS.C03_ofInt_wrong: []
BATS.C04_isprime_correct: [Classical.choice, Quot.sound, propext]
BATS.C06_axpy: [Classical.choice, Quot.sound, propext]
BATS.C06_axpy_nnz: [Classical.choice, Quot.sound, propext]
BATS.C06_axpy_window: [Classical.choice, Quot.sound, propext]
BATS.C06_nnz_counts_support: [Classical.choice, Quot.sound, propext]
BATS.C06_read_and_equality: [Classical.choice, Quot.sound, propext]
BATS.C07_add: [Classical.choice, Quot.sound, propext]
BATS.C07_assoc: [Classical.choice, Quot.sound, propext]
BATS.C07_distrib: [Classical.choice, Quot.sound, propext]
BATS.C07_distrib_right: [Classical.choice, Quot.sound, propext]
BATS.C07_gemm: [Classical.choice, Quot.sound, propext]
BATS.C07_gemv: [Classical.choice, Quot.sound, propext]
BATS.C07_identity: [Classical.choice, Quot.sound, propext]
BATS.C07_identity_neutral: [Classical.choice, Quot.sound, propext]
BATS.C07_representation_unique: [Quot.sound, propext]
BATS.C07_transpose: [Classical.choice, Quot.sound, propext]
BATS.C07_transpose_laws: [Classical.choice, Quot.sound, propext]
BATS.C08_sub_correct_iff: [Classical.choice, Quot.sound, propext]
BATS.C08_sub_is_reversed: [Classical.choice, Quot.sound, propext]
BATS.C08_sub_wrong: [Classical.choice, Quot.sound, propext]
BATS.C09_inverses: [Classical.choice, Quot.sound, propext]
BATS.C09_l_solve: [Classical.choice, Quot.sound, propext]
BATS.C09_solve_matrix: [Classical.choice, Quot.sound, propext]
BATS.C09_u_solve: [Classical.choice, Quot.sound, propext]
BATS.C10_reduce_matrix_standard: [Classical.choice, Quot.sound, propext]
BATS.C11_basis_any: [Classical.choice, Quot.sound, propext]
BATS.C11_basis_identity: [Classical.choice, Quot.sound, propext]
BATS.C11_mismatch_throws: [Quot.sound, propext]
BATS.C12_pivots_unique: [Classical.choice, Quot.sound, propext]
BATS.C12_rank_of_lower_left_blocks: [Classical.choice, Quot.sound, propext]
BATS.C12_table_is_pivots: [Classical.choice, Quot.sound, propext]
BATS.C13_betti_is_dim_homology: [Classical.choice, Quot.sound, propext]
BATS.C13_euler: [Classical.choice, Quot.sound, propext]
BATS.C14_representatives: [Classical.choice, Quot.sound, propext]
BATS.C15_clearing_same: [Classical.choice, Quot.sound, propext]
BATS.C16_clearing_basis: [Classical.choice, Quot.sound, propext]
BATS.C17_compression_basis_not_factorisation: [Classical.choice, Quot.sound, propext]
BATS.C17_compression_same: [Classical.choice, Quot.sound, propext]
BATS.C18_exact: [Classical.choice, Quot.sound, propext]
BATS.C18_loses_rank: [Classical.choice, Quot.sound, propext]
BATS.C18_not_a_reduction: [Classical.choice, Quot.sound, propext]
BATS.C18_reduction: [Classical.choice, Quot.sound, propext]
BATS.C19_add_result: [Classical.choice, Quot.sound, propext]
BATS.C19_closed: [Classical.choice, Quot.sound, propext]
BATS.C19_empty: [propext]
BATS.C19_history: [Classical.choice, Quot.sound, propext]
BATS.C19_recursive_result: [Classical.choice, Quot.sound, propext]
BATS.C19_stable: [Classical.choice, Quot.sound, propext]
BATS.C20_boundary_query: [Classical.choice, Quot.sound, propext]
BATS.C20_chain_complex: [Classical.choice, Quot.sound, propext]
BATS.C20_columns: [Classical.choice, Quot.sound, propext]
BATS.C20_square_zero: [Classical.choice, Quot.sound, propext]
BATS.C21_key_injective: [Classical.choice, Quot.sound, propext]
BATS.C21_key_roundtrip: [Classical.choice, Quot.sound, propext]
BATS.C21_overflow_collision: [propext]
BATS.C21_vertex_out_of_range: [propext]
BATS.C22_decrement: [Classical.choice, Quot.sound, propext]
BATS.C22_decrement_wrong: [propext]
BATS.C22_faces: [Classical.choice, Quot.sound, propext]
BATS.C22_iterator: [Classical.choice, Quot.sound, propext]
BATS.C23_add_result: [Classical.choice, Quot.sound, propext]
BATS.C23_betti: [Classical.choice, Quot.sound, propext]
BATS.C23_closed: [Classical.choice, Quot.sound, propext]
BATS.C23_columns: [Classical.choice, Quot.sound, propext]
BATS.C23_dimension_zero: [propext]
BATS.C23_find_prefix: [propext]
BATS.C23_generate_cube: [Classical.choice, Quot.sound, propext]
BATS.C23_history: [Classical.choice, Quot.sound, propext]
BATS.C23_invalid: [Classical.choice, Quot.sound, propext]
BATS.C23_recursive_result: [Classical.choice, Quot.sound, propext]
BATS.C23_set_dimension: [Classical.choice, Quot.sound, propext]
BATS.C23_skeleton: [Classical.choice, Quot.sound, propext]
BATS.C23_square_zero: [Classical.choice, Quot.sound, propext]
BATS.C24_apply_inverse: [Classical.choice, Quot.sound, propext]
BATS.C24_apply_perm: [Classical.choice, Quot.sound, propext]
BATS.C24_apply_perm_compose: [Classical.choice, Quot.sound, propext]
BATS.C24_extension_perm: [Quot.sound, propext]
BATS.C24_find_perm_from_vector: [Classical.choice, Quot.sound, propext]
BATS.C24_inv_perm: [Classical.choice, Quot.sound, propext]
BATS.C24_partial_perm: [Classical.choice, Quot.sound, propext]
BATS.C24_perm_sign: [Classical.choice, Quot.sound, propext]
BATS.C24_perm_to_the_end: [Classical.choice, Quot.sound, propext]
BATS.C24_stable_sortperm: [Classical.choice, Quot.sound, propext]
BATS.C24_stable_sortperm_unique: [Classical.choice, Quot.sound, propext]
BATS.C25_apply_iperm_swap: [Classical.choice, Quot.sound, propext]
BATS.C25_apply_perm_swap: [Classical.choice, Quot.sound, propext]
BATS.C25_swap_inverse: [Classical.choice, Quot.sound, propext]
BATS.C26_kendall_tau: [Classical.choice, Quot.sound, propext]
BATS.C26_kendall_tau_self: [Classical.choice, Quot.sound, propext]
BATS.C26_kendall_tau_two: [Classical.choice, Quot.sound, propext]
BATS.C27_find_sorted_lt: [Classical.choice, Quot.sound, propext]
BATS.C27_find_sorted_lt_ub: [propext]
BATS.C27_has_intersect_sorted: [Quot.sound, propext]
BATS.C27_has_intersect_sorted_lt: [Classical.choice, Quot.sound, propext]
BATS.C27_intersect_sorted: [Quot.sound, propext]
BATS.C27_intersect_sorted_lt: [Classical.choice, Quot.sound, propext]
BATS.C27_intersect_sorted_lt_bad_head: [Quot.sound, propext]
BATS.C27_set_union: [Classical.choice, Quot.sound, propext]
BATS.C27_sort_sum_reduce: [Classical.choice, Quot.sound, propext]
BATS.C27_sorted_complement: [Classical.choice, Quot.sound, propext]
BATS.C27_sorted_complement_diverges: []
BATS.C28_absent: [Classical.choice, Quot.sound, propext]
BATS.C28_last_inserted: [Classical.choice, Quot.sound, propext]
BATS.C28_prefix: [Classical.choice, Quot.sound, propext]
BATS.C29_history: [Classical.choice, Quot.sound, propext]
BATS.C29_lower_star: [Classical.choice, Quot.sound, propext]
BATS.C29_lower_star_sublevel: [Classical.choice, Quot.sound, propext]
BATS.C29_sublevel: [Classical.choice, Quot.sound, propext]
BATS.C29_sublevel_nested: [propext]
BATS.C30_ipermute_basis: [Classical.choice, Quot.sound, propext]
BATS.C30_permute_basis: [Classical.choice, Quot.sound, propext]
BATS.C30_same_betti: [Classical.choice, Quot.sound, propext]
BATS.C30_sorted_complex: [Classical.choice, Quot.sound, propext]
BATS.C30_vertices_only_ub: [Classical.choice, Quot.sound, propext]
BATS.C31_birth_le_death: [Classical.choice, Quot.sound, propext]
BATS.C31_each_cell_once: [Classical.choice, Quot.sound, propext]
BATS.C31_flags_agree: [Classical.choice, Quot.sound, propext]
BATS.C31_infinite_bars: [Classical.choice, Quot.sound, propext]
BATS.C31_permuted: [Classical.choice, Quot.sound, propext]
BATS.C31_values: [Classical.choice, Quot.sound, propext]
BATS.C32_persistent_betti: [Classical.choice, Quot.sound, propext]
BATS.C33_compression_wrong: [Classical.choice, Quot.sound, propext]
BATS.C33_no_basis_ub: [Classical.choice, Quot.sound, propext]
BATS.C33_update_equals_recompute: [Classical.choice, Quot.sound, propext]
BATS.C33_valid_factorisation: [Classical.choice, Quot.sound, propext]
BATS.C34_barcode_equality_iff: [Quot.sound, propext]
BATS.C34_multiplicities: [Quot.sound, propext]
BATS.C35_agrees_with_reduction: [Classical.choice, Quot.sound, propext]
BATS.C35_binom_to_inds: [Classical.choice, Quot.sound, propext]
BATS.C35_find_parent: [Classical.choice, Quot.sound, propext]
BATS.C35_rips_union_find: [Classical.choice, Quot.sound, propext]
BATS.C35_union_find_pairs: [Classical.choice, Quot.sound, propext]
BATS.C35_unsorted_values_wrong: [Classical.choice, Quot.sound, propext]
BATS.C36_edge_order: [Classical.choice, Quot.sound, propext]
BATS.C36_flag_complex: [Classical.choice, Quot.sound, propext]
BATS.C36_flag_complex_odd: [Quot.sound, propext]
BATS.C36_flag_filtration: [Classical.choice, Quot.sound, propext]
BATS.C36_repeated_edge: [Quot.sound, propext]
BATS.C36_rips_filtration: [Classical.choice, Quot.sound, propext]
BATS.C36_rips_filtration_data: [Classical.choice, Quot.sound, propext]
BATS.C37_chain_map: [Classical.choice, Quot.sound, propext]
BATS.C37_columns: [Classical.choice, Quot.sound, propext]
BATS.C37_composition: [Classical.choice, Quot.sound, propext]
BATS.C37_dimension_ub: [Classical.choice, Quot.sound, propext]
BATS.C37_homology: [Classical.choice, Quot.sound, propext]
BATS.C37_identity: [Classical.choice, Quot.sound, propext]
BATS.C37_inclusion: [Classical.choice, Quot.sound, propext]
BATS.C37_inclusion_missing: [Classical.choice, Quot.sound, propext]
BATS.C37_missing: [Classical.choice, Quot.sound, propext]
BATS.C37_succeeds_iff: [Classical.choice, Quot.sound, propext]
BATS.C38_el_l_commute: [Classical.choice, Quot.sound, propext]
BATS.C38_eu_u_commute: [Classical.choice, Quot.sound, propext]
BATS.C38_inverse: [Classical.choice, Quot.sound, propext]
BATS.C38_l_el_commute: [Classical.choice, Quot.sound, propext]
BATS.C38_leup: [Classical.choice, Quot.sound, propext]
BATS.C38_lqu: [Classical.choice, Quot.sound, propext]
BATS.C38_pleu: [Classical.choice, Quot.sound, propext]
BATS.C38_puel: [Classical.choice, Quot.sound, propext]
BATS.C38_shape_checks: [Classical.choice, Quot.sound, propext]
BATS.C38_u_eu_commute: [Classical.choice, Quot.sound, propext]
BATS.C38_uelp: [Classical.choice, Quot.sound, propext]
BATS.C38_uql: [Classical.choice, Quot.sound, propext]
BATS.C39_canonical: [Classical.choice, Quot.sound, propext]
BATS.C39_combination: [Classical.choice, Quot.sound, propext]
BATS.C39_compression_wrong: [Classical.choice, Quot.sound, propext]
BATS.C40_composition: [Classical.choice, Quot.sound, propext]
BATS.C40_homotopic: [Classical.choice, Quot.sound, propext]
BATS.C40_identity: [Classical.choice, Quot.sound, propext]
BATS.C40_induced: [Classical.choice, Quot.sound, propext]
BATS.C40_mismatch: [Classical.choice, Quot.sound, propext]
BATS.C41_reduced: [Classical.choice, Quot.sound, propext]
BATS.C41_triangular: [Classical.choice, Quot.sound, propext]
BATS.C41_upper_invert_accepts_singular: [Classical.choice, Quot.sound, propext]
BATS.C41_upper_invert_exact: [Classical.choice, Quot.sound, propext]
BATS.C41_upper_invert_nonzero_columns: [Classical.choice, Quot.sound, propext]
BATS.C42_block: [Classical.choice, Quot.sound, propext]
BATS.C42_set_block_correct_iff: [Classical.choice, Quot.sound, propext]
BATS.C42_set_block_exact: [Classical.choice, Quot.sound, propext]
BATS.C42_set_block_wrong: [Classical.choice, Quot.sound, propext]
BATS.C43_cellular_map_throws: [Classical.choice, Quot.sound, propext]
BATS.C43_complex: [Classical.choice, Quot.sound, propext]
BATS.C43_complex_cut: [Classical.choice, Quot.sound, propext]
BATS.C43_cut_at_line: [Classical.choice, Quot.sound, propext]
BATS.C43_cut_in_line: [Classical.choice, Quot.sound, propext]
BATS.C43_dims_throw: [Classical.choice, Quot.sound, propext]
BATS.C43_index_throws: [Classical.choice, Quot.sound, propext]
BATS.C43_matrix_int: [Classical.choice, Quot.sound, propext]
BATS.C43_matrix_mod2: [Classical.choice, Quot.sound, propext]
BATS.C43_matrix_modp: [Classical.choice, Quot.sound, propext]
BATS.C43_matrix_rational: [Classical.choice, Quot.sound, propext]
BATS.C43_simplex: [Classical.choice, Quot.sound, propext]
BATS.C43_simplex_vector_throws: [Classical.choice, Quot.sound, propext]
BATS.C43_str_throws: [Classical.choice, Quot.sound, propext]
BATS.C43_total: [Classical.choice, Quot.sound, propext]
BATS.C43_vector_int: [Classical.choice, Quot.sound, propext]
BATS.C43_vector_mod2: [Classical.choice, Quot.sound, propext]
BATS.C43_vector_modp: [Classical.choice, Quot.sound, propext]
BATS.C43_vector_rational: [Classical.choice, Quot.sound, propext]
BATS.C43_vector_rational_iff: [Classical.choice, Quot.sound, propext]
BATS.C44_apply: [Classical.choice, Quot.sound, propext]
BATS.C44_arith: [Classical.choice, Quot.sound, propext]
BATS.C44_characteristic: [Classical.choice, Quot.sound, propext]
BATS.C44_characteristic_throws: [Quot.sound, propext]
BATS.C44_companion: [Classical.choice, Quot.sound, propext]
BATS.C44_companion_other: [Classical.choice, Quot.sound, propext]
BATS.C44_divrem: [Classical.choice, Quot.sound, propext]
BATS.C44_divrem_zero: [Quot.sound, propext]
BATS.C44_eq: [Classical.choice, Quot.sound, propext]
BATS.C44_eval: [Classical.choice, Quot.sound, propext]
BATS.C44_gcd: [Classical.choice, Quot.sound, propext]
BATS.C44_generating_basis: [Classical.choice, Quot.sound, propext]
BATS.C44_repr: [Classical.choice, Quot.sound, propext]
BATS.C45_correct_if_involution: [Classical.choice, Quot.sound, propext]
BATS.C45_update_filtration: [Classical.choice, Quot.sound, propext]
BATS.C45_wrong_direction: [Classical.choice, Quot.sound, propext]
BATS.C46_equal: [Classical.choice, Quot.sound, propext]
BATS.C46_int: [Classical.choice, Quot.sound, propext]
BATS.C46_poly: [Classical.choice, Quot.sound, propext]
BATS.C47_boundary: [Classical.choice, Quot.sound, propext]
BATS.C47_cells: [Classical.choice, Quot.sound, propext]
BATS.C47_complex: [Classical.choice, Quot.sound, propext]
BATS.C47_kunneth: [Classical.choice, Quot.sound, propext]
BATS.C47_kunneth_full: [Classical.choice, Quot.sound, propext]
BATS.C47_stray: [Classical.choice, Quot.sound, propext]
BATS.C47_stray_witness: [Classical.choice, Quot.sound, propext]
BATS.C48_axpy_coefficients: [Classical.choice, Quot.sound, propext]
BATS.C48_axpy_coefficients_wrong: [Classical.choice, Quot.sound, propext]
BATS.C48_constructors: [Classical.choice, Quot.sound, propext]
BATS.C48_dot: [Classical.choice, Quot.sound, propext]
BATS.C48_erase_rows: [Classical.choice, Quot.sound, propext]
BATS.C48_insert_order: [Classical.choice, Quot.sound, propext]
BATS.C48_insert_rows: [Classical.choice, Quot.sound, propext]
BATS.C48_insert_zero_rows: [Classical.choice, Quot.sound, propext]
BATS.C48_ipermute: [Classical.choice, Quot.sound, propext]
BATS.C48_ipermute_wrong: [Classical.choice, Quot.sound, propext]
BATS.C48_kron: [Classical.choice, Quot.sound, propext]
BATS.C48_mix_rows: [Classical.choice, Quot.sound, propext]
BATS.C48_mix_rows_wrong: [Classical.choice, Quot.sound, propext]
BATS.C48_nonzeros: [Classical.choice, Quot.sound, propext]
BATS.C48_scale_by: [Classical.choice, Quot.sound, propext]
BATS.C48_scale_entry: [Classical.choice, Quot.sound, propext]
BATS.C48_shift: [Quot.sound, propext]
BATS.C48_smul: [Classical.choice, Quot.sound, propext]
BATS.C48_subvector: [Classical.choice, Quot.sound, propext]
BATS.C48_swap_rows: [Classical.choice, Quot.sound, propext]
BATS.C49_append_column: [Quot.sound, propext]
BATS.C49_append_row: [Classical.choice, Quot.sound, propext]
BATS.C49_append_sparse_row: [Quot.sound, propext]
BATS.C49_block: [Classical.choice, Quot.sound, propext]
BATS.C49_clear_cols: [Quot.sound, propext]
BATS.C49_direct_sum: [Quot.sound, propext]
BATS.C49_erase_columns: [Classical.choice, Quot.sound, propext]
BATS.C49_erase_rows: [Classical.choice, Quot.sound, propext]
BATS.C49_extensional: [Quot.sound, propext]
BATS.C49_insert_column: [Classical.choice, Quot.sound, propext]
BATS.C49_insert_columns: [Classical.choice, Quot.sound, propext]
BATS.C49_insert_row: [Classical.choice, Quot.sound, propext]
BATS.C49_insert_rows: [Classical.choice, Quot.sound, propext]
BATS.C49_insert_rows_disagree: [Classical.choice, Quot.sound, propext]
BATS.C49_insert_sparse_rows: [Classical.choice, Quot.sound, propext]
BATS.C49_insert_zero_column: [Classical.choice, Quot.sound, propext]
BATS.C49_insert_zero_column_end: [Classical.choice, Quot.sound, propext]
BATS.C49_insert_zero_column_wrong: [Classical.choice, Quot.sound, propext]
BATS.C49_insert_zero_rows: [Classical.choice, Quot.sound, propext]
BATS.C49_mix_cols: [Classical.choice, Quot.sound, propext]
BATS.C49_mix_cols_stores_zeros: [Classical.choice, Quot.sound, propext]
BATS.C49_mix_rows: [Classical.choice, Quot.sound, propext]
BATS.C49_permute_rows: [Classical.choice, Quot.sound, propext]
BATS.C49_read: [Classical.choice, Quot.sound, propext]
BATS.C49_scale: [Classical.choice, Quot.sound, propext]
BATS.C49_schur_complement: [Classical.choice, Quot.sound, propext]
BATS.C49_set_block: [Classical.choice, Quot.sound, propext]
BATS.C49_set_block_wrong: [Classical.choice, Quot.sound, propext]
BATS.C49_submatrix: [Classical.choice, Quot.sound, propext]
BATS.C49_swap_cols: [Quot.sound, propext]
BATS.C49_swap_rows: [Classical.choice, Quot.sound, propext]
BATS.C49_vec_mat: [Classical.choice, Quot.sound, propext]
BATS.C50_representatives: [Classical.choice, Quot.sound, propext]
BATS.C50_representatives_after_updates: [Classical.choice, Quot.sound, propext]
BATS.C51_betti: [Classical.choice, Quot.sound, propext]
BATS.C51_generated: [Classical.choice, Quot.sound, propext]
BATS.C52_persistence: [Classical.choice, Quot.sound, propext]
BATS.C53_rips_persistence: [Classical.choice, Quot.sound, propext]
BATS.C54_betti: [Classical.choice, Quot.sound, propext]
BATS.C54_columns: [Classical.choice, Quot.sound, propext]
BATS.C54_history: [Classical.choice, Quot.sound, propext]
BATS.C54_missing_face: [Classical.choice, Quot.sound, propext]
BATS.C54_recursive_result: [Classical.choice, Quot.sound, propext]
BATS.C55_algorithms_agree: [Classical.choice, Quot.sound, propext]
BATS.C55_alive: [Classical.choice, Quot.sound, propext]
BATS.C55_all_dimensions: [Classical.choice, Quot.sound, propext]
BATS.C55_decomposition: [Classical.choice, Quot.sound, propext]
BATS.C55_no_edges: [Classical.choice, Quot.sound, propext]
BATS.C55_rank: [Classical.choice, Quot.sound, propext]
BATS.C55_right_arrows: [Classical.choice, Quot.sound, propext]
BATS.C55_unique: [Classical.choice, Quot.sound, propext]
BATS.C56_is_valid_complex: [Classical.choice, Quot.sound, propext]
BATS.C56_relative_complex: [Classical.choice, Quot.sound, propext]
BATS.C56_subcomplex: [Classical.choice, Quot.sound, propext]
BATS.C57_agree: [Classical.choice, Quot.sound, propext]
BATS.C57_augmented: [Classical.choice, Quot.sound, propext]
BATS.C57_cohomology: [Classical.choice, Quot.sound, propext]
BATS.C57_homology: [Classical.choice, Quot.sound, propext]
BATS.C57_reduced_cohomology: [Classical.choice, Quot.sound, propext]
BATS.C57_reduced_homology: [Classical.choice, Quot.sound, propext]
BATS.C57_simplicial: [Classical.choice, Quot.sound, propext]
BATS.C58_pairs: [Classical.choice, Quot.sound, propext]
BATS.C58_persistent_betti: [Classical.choice, Quot.sound, propext]
BATS.C58_simplicial: [Classical.choice, Quot.sound, propext]
BATS.C59_space_update_wrong: [Classical.choice, Quot.sound, propext]
BATS.C59_update_equals_recompute: [Classical.choice, Quot.sound, propext]
BATS.C59_valid_factorisation: [Classical.choice, Quot.sound, propext]
BATS.C60_cohomology_index_wrong: [Classical.choice, Quot.sound, propext]
BATS.C60_cohomology_representatives_shifted: [Classical.choice, Quot.sound, propext]
BATS.C60_homology_representatives: [Classical.choice, Quot.sound, propext]
BATS.C60_reduced_cohomology_representatives_shifted: [Classical.choice, Quot.sound, propext]
BATS.C60_reduced_homology_representatives: [Classical.choice, Quot.sound, propext]
BATS.C65_all_dimensions: [Classical.choice, Quot.sound, propext]
BATS.C65_barcode: [Classical.choice, Quot.sound, propext]
BATS.C65_chain_functor: [Classical.choice, Quot.sound, propext]
BATS.C65_hom: [Classical.choice, Quot.sound, propext]
BATS.C65_no_dimension: [Quot.sound, propext]
BATS.C65_rank: [Classical.choice, Quot.sound, propext]
BATS.C65_schedule: [Quot.sound, propext]
BATS.C65_spaces: [Classical.choice, Quot.sound, propext]
BATS.C65_unique: [Classical.choice, Quot.sound, propext]
BATS.C66_barcode: [Classical.choice, Quot.sound, propext]
BATS.C66_betti: [Classical.choice, Quot.sound, propext]
BATS.C66_bivariate: [Classical.choice, Quot.sound, propext]
BATS.C66_dimension_zero: [Classical.choice, Quot.sound, propext]
BATS.C66_functor: [Classical.choice, Quot.sound, propext]
BATS.C66_landmark_eps: [Classical.choice, Quot.sound, propext]
BATS.C66_landmark_eps_covers: [Classical.choice, Quot.sound, propext]
BATS.C66_nerve: [Classical.choice, Quot.sound, propext]
BATS.C66_refinement: [Classical.choice, Quot.sound, propext]
BATS.C68_barcode: [Classical.choice, Quot.sound, propext]
BATS.C68_betti: [Classical.choice, Quot.sound, propext]
BATS.C68_distinct_points: [Classical.choice, Quot.sound, propext]
BATS.C68_equal_points: [Quot.sound, propext]
BATS.C68_functor: [Classical.choice, Quot.sound, propext]
BATS.C68_functor_radii: [Classical.choice, Quot.sound, propext]
BATS.C68_intersection_diagram: [Classical.choice, Quot.sound, propext]
BATS.C68_intersection_wrong: [Classical.choice, Quot.sound, propext]
BATS.C68_levels: [Classical.choice, Quot.sound, propext]
BATS.C68_morozov: [Classical.choice, Quot.sound, propext]
BATS.C68_morozov_barcode: [Classical.choice, Quot.sound, propext]
BATS.C68_morozov_ub: [Classical.choice, Quot.sound, propext]
BATS.C68_morozov_ub_example: [Classical.choice, Quot.sound, propext]
BATS.C68_oscillating: [Classical.choice, Quot.sound, propext]
BATS.C68_oscillating_barcode: [Classical.choice, Quot.sound, propext]
BATS.C68_oscillating_thrown: [Quot.sound, propext]
BATS.C68_radii_thrown: [Classical.choice, Quot.sound, propext]
BATS.C68_rips_complex: [Classical.choice, Quot.sound, propext]
BATS.C68_rips_hom: [Classical.choice, Quot.sound, propext]
BATS.C68_rips_matrix: [Classical.choice, Quot.sound, propext]
BATS.C68_union_diagram: [Classical.choice, Quot.sound, propext]
BATS.C68_union_rips: [Classical.choice, Quot.sound, propext]
BATS.C68_vertex_inclusion: [Classical.choice, Quot.sound, propext]
BATS.C72_cutoff: [Classical.choice, Quot.sound, propext]
BATS.C72_enclosing_radius: [Quot.sound, propext]
BATS.C72_no_points: [propext]
BATS.C72_persistence: [Classical.choice, Quot.sound, propext]
BATS.C72_rips_acyclic: [Classical.choice, Quot.sound, propext]
BATS.C72_rips_complex: [Classical.choice, Quot.sound, propext]
BATS.C73_cohomology_wrong: [Classical.choice, Quot.sound, propext]
BATS.C73_new_vertex_ub: [propext]
BATS.C73_persistence: [Classical.choice, Quot.sound, propext]
BATS.C73_top_grows_ub: [Classical.choice, Quot.sound, propext]
BATS.C73_update_equals_recompute: [Classical.choice, Quot.sound, propext]
BATS.C73_update_info: [Classical.choice, Quot.sound, propext]
BATS.C74_directed_sorted: [Classical.choice, Quot.sound, propext]
BATS.C74_get_indices: [Classical.choice, Quot.sound, propext]
BATS.C74_intersection: [Classical.choice, Quot.sound, propext]
BATS.C74_union: [Classical.choice, Quot.sound, propext]
BATS.C74_union_add: [Classical.choice, Quot.sound, propext]
BATS.C75_map_of_pairs: [Classical.choice, Quot.sound, propext]
BATS.C75_not_contained: [Classical.choice, Quot.sound, propext]
BATS.C75_relative_betti: [Classical.choice, Quot.sound, propext]
BATS.C75_relative_map: [Classical.choice, Quot.sound, propext]
BATS.C76_connecting: [Classical.choice, Quot.sound, propext]
BATS.C76_induces: [Classical.choice, Quot.sound, propext]
BATS.C76_sorted_columns: [Classical.choice, Quot.sound, propext]
BATS.C76_unsorted: [Classical.choice, Quot.sound, propext]
BATS.C77_collision: [propext]
BATS.C77_decoded: [Classical.choice, Quot.sound, propext]
BATS.C77_full: [Classical.choice, Quot.sound, propext]
BATS.C77_not_skeleton: [propext]
BATS.C77_simplices: [Classical.choice, Quot.sound, propext]
BATS.C78_dual: [Classical.choice, Quot.sound, propext]
BATS.C78_fewer_triangles: [Classical.choice, Quot.sound, propext]
BATS.C78_hdim_exact: [Classical.choice, Quot.sound, propext]
BATS.C78_not_cohomology: [Classical.choice, Quot.sound, propext]
BATS.C78_ranks: [Classical.choice, Quot.sound, propext]
BATS.C78_top: [Classical.choice, Quot.sound, propext]
BATS.C79_all_dimensions: [Classical.choice, Quot.sound, propext]
BATS.C79_augmented: [Classical.choice, Quot.sound, propext]
BATS.C79_augmented_map: [Classical.choice, Quot.sound, propext]
BATS.C79_barcode: [Classical.choice, Quot.sound, propext]
BATS.C79_cohomology_wrong: [Classical.choice, Quot.sound, propext]
BATS.C79_degrees: [Quot.sound, propext]
BATS.C79_functor: [Classical.choice, Quot.sound, propext]
BATS.C79_functor_chain: [Classical.choice, Quot.sound, propext]
BATS.C79_functorial: [Classical.choice, Quot.sound, propext]
BATS.C79_hom: [Classical.choice, Quot.sound, propext]
BATS.C79_induced: [Classical.choice, Quot.sound, propext]
BATS.C79_map: [Classical.choice, Quot.sound, propext]
BATS.C79_preferred: [Classical.choice, Quot.sound, propext]
BATS.C79_preferred_cohomology_wrong: [Classical.choice, Quot.sound, propext]
BATS.C79_schedule: [Quot.sound, propext]
BATS.C79_spaces: [Classical.choice, Quot.sound, propext]
BATS.C80_image2: [Classical.choice, Quot.sound, propext]
BATS.C80_image3: [Classical.choice, Quot.sound, propext]
BATS.C80_persistence: [Classical.choice, Quot.sound, propext]
BATS.C81_adjoint: [Classical.choice, Quot.sound, propext]
BATS.C81_defined: [Classical.choice, Quot.sound, propext]
BATS.C81_gradient: [Classical.choice, Quot.sound, propext]
BATS.C81_labels: [propext]
BATS.CellCpx.C86_add_assert: [Quot.sound, propext]
BATS.CellCpx.C86_betti: [Classical.choice, Quot.sound, propext]
BATS.CellCpx.C86_boundary: [Classical.choice, Quot.sound, propext]
BATS.CellCpx.C86_boundary_ub: [Classical.choice, Quot.sound, propext]
BATS.CellCpx.C86_chain_complex: [Classical.choice, Quot.sound, propext]
BATS.CellCpx.C86_history: [Classical.choice, Quot.sound, propext]
BATS.CellCpx.C86_missing_face: [Classical.choice, Quot.sound, propext]
BATS.CellCpx.C86_top_unique: []
BATS.CellCpx.C86_zero_coefficient_wrong: [Classical.choice, Quot.sound, propext]
BATS.Density.C89_kdist: [Classical.choice, Quot.sound, propext]
BATS.Density.C89_undefined: [Quot.sound, propext]
BATS.Density.C89_zero: [Classical.choice, Quot.sound, propext]
BATS.Grid.C83_box: [Classical.choice, Quot.sound, propext]
BATS.Grid.C83_box_line: [Classical.choice, Quot.sound, propext]
BATS.Grid.C83_cubical: [Classical.choice, Quot.sound, propext]
BATS.Grid.C83_degenerate: [Classical.choice, Quot.sound, propext]
BATS.Grid.C83_light: [Classical.choice, Quot.sound, propext]
BATS.Grid.C83_light_box: [Classical.choice, Quot.sound, propext]
BATS.Grid.C83_names: [Quot.sound, propext]
BATS.Grid.C83_plane: [Classical.choice, Quot.sound, propext]
BATS.Grid.C83_space: [Classical.choice, Quot.sound, propext]
BATS.Grid.C84_box: [Classical.choice, Quot.sound, propext]
BATS.Grid.C84_box_line: [Classical.choice, Quot.sound, propext]
BATS.Grid.C84_degenerate: [Classical.choice, Quot.sound, propext]
BATS.Grid.C84_plane: [Classical.choice, Quot.sound, propext]
BATS.Grid.C84_space: [Classical.choice, Quot.sound, propext]
BATS.Lmk.C67_L1: [Classical.choice, Quot.sound, propext]
BATS.Lmk.C67_LInf: [Classical.choice, Quot.sound, propext]
BATS.Lmk.C67_all_points: [Classical.choice, Quot.sound, propext]
BATS.Lmk.C67_approx_center: [Classical.choice, Quot.sound, propext]
BATS.Lmk.C67_center_quality: [Classical.choice, Quot.sound, propext]
BATS.Lmk.C67_farthest_first: [Classical.choice, Quot.sound, propext]
BATS.Lmk.C67_greedy_landmarks: [Classical.choice, Quot.sound, propext]
BATS.Lmk.C67_hausdorff_landmarks: [Classical.choice, Quot.sound, propext]
BATS.Lmk.C67_matrix: [Classical.choice, Quot.sound, propext]
BATS.Lmk.C67_matrix_asymmetric: [propext]
BATS.Lmk.C67_negative_radius_diverges: [Classical.choice, Quot.sound, propext]
BATS.Lmk.C67_permutation: [Classical.choice, Quot.sound, propext]
BATS.Lmk.C67_repeated_index: [propext]
BATS.Lmk.C67_spread: [Classical.choice, Quot.sound, propext]
BATS.Lmk.C67_too_many_diverges: [Classical.choice, Quot.sound, propext]
BATS.Lmk.C67_two_approximation: [Classical.choice, Quot.sound, propext]
BATS.MPair.C85_clear_wrong: [propext]
BATS.MPair.C85_deterministic: [propext]
BATS.MPair.C85_edges: [Classical.choice, Quot.sound, propext]
BATS.MPair.C85_history: [Classical.choice, Quot.sound, propext]
BATS.MPair.C85_matching: [Quot.sound, propext]
BATS.MPair.C85_mixed_wrong: [propext]
BATS.Mod2.C02_add: [Classical.choice, Quot.sound, propext]
BATS.Mod2.C02_assignInt_noop: []
BATS.Mod2.C02_assignInt_wrong: [Classical.choice, Quot.sound, propext]
BATS.Mod2.C02_div: [Classical.choice, Quot.sound, propext]
BATS.Mod2.C02_eq: [Classical.choice, Quot.sound, propext]
BATS.Mod2.C02_eqInt: [Classical.choice, Quot.sound, propext]
BATS.Mod2.C02_inv: [Classical.choice, Quot.sound, propext]
BATS.Mod2.C02_iszero: [Classical.choice, Quot.sound, propext]
BATS.Mod2.C02_mul: [Classical.choice, Quot.sound, propext]
BATS.Mod2.C02_ne: [Classical.choice, Quot.sound, propext]
BATS.Mod2.C02_neInt_inconsistent: [Quot.sound, propext]
BATS.Mod2.C02_neInt_zero_one: [Classical.choice, Quot.sound, propext]
BATS.Mod2.C02_neg: [Classical.choice, Quot.sound, propext]
BATS.Mod2.C02_ofInt: [Classical.choice, Quot.sound, propext]
BATS.Mod2.C02_sub: [Classical.choice, Quot.sound, propext]
BATS.Par.C71_complex: [Classical.choice, Quot.sound, propext]
BATS.Par.C71_no_deadlock: [Classical.choice, Quot.sound, propext]
BATS.Par.C71_no_failure: [Classical.choice, Quot.sound, propext]
BATS.Par.C71_reduction: [Classical.choice, Quot.sound, propext]
BATS.Par.C71_reduction_basis: [Classical.choice, Quot.sound, propext]
BATS.Par.C71_schedule_independent: [Classical.choice, Quot.sound, propext]
BATS.Par.C71_small_blocks: [Quot.sound, propext]
BATS.Par.C71_sweep_result: [Classical.choice, Quot.sound, propext]
BATS.Par.C71_sweep_runs: [Classical.choice, Quot.sound, propext]
BATS.Par.C71_sweep_schedule_independent: [Classical.choice, Quot.sound, propext]
BATS.Par.C71_sweep_ub: []
BATS.Par.C71_task_locality: [Classical.choice, Quot.sound, propext]
BATS.Par.C71_terminates: [Classical.choice, Quot.sound, propext]
BATS.Rational.C05_add: [Classical.choice, Quot.sound, propext]
BATS.Rational.C05_div: [Classical.choice, Quot.sound, propext]
BATS.Rational.C05_eq: [Classical.choice, Quot.sound, propext]
BATS.Rational.C05_inv: [Classical.choice, Quot.sound, propext]
BATS.Rational.C05_iszero: [Classical.choice, Quot.sound, propext]
BATS.Rational.C05_lt: [Classical.choice, Quot.sound, propext]
BATS.Rational.C05_mk: [Classical.choice, Quot.sound, propext]
BATS.Rational.C05_mk_zero_den: []
BATS.Rational.C05_mul: [Classical.choice, Quot.sound, propext]
BATS.Rational.C05_neg: [Classical.choice, Quot.sound, propext]
BATS.Rational.C05_ofInt: [Classical.choice, Quot.sound, propext]
BATS.Rational.C05_sub: [Classical.choice, Quot.sound, propext]
BATS.SetVec.C88_axpy: [Classical.choice, Quot.sound, propext]
BATS.SetVec.C88_axpy_zero: [Classical.choice, Quot.sound, propext]
BATS.SetVec.C88_constructor: [Classical.choice, Quot.sound, propext]
BATS.SetVec.C88_eq: [Classical.choice, Quot.sound, propext]
BATS.SetVec.C88_get: [Classical.choice, Quot.sound, propext]
BATS.SetVec.C88_history: [Classical.choice, Quot.sound, propext]
BATS.SetVec.C88_lastnz: [Quot.sound, propext]
BATS.SetVec.C88_permute: [Classical.choice, Quot.sound, propext]
BATS.SetVec.C88_permute_ub: [Classical.choice, Quot.sound, propext]
BATS.SetVec.C88_set: [Classical.choice, Quot.sound, propext]
BATS.SetVec.C88_single: [Classical.choice, Quot.sound, propext]
BATS.SetVec.C88_window: [Classical.choice, Quot.sound, propext]
BATS.SetVec.C88_window_dropped: [Quot.sound, propext]
BATS.SetVec.C88_window_end: [Quot.sound, propext]
BATS.SetVec.C88_window_none: [Quot.sound, propext]
BATS.SetVec.C88_window_wrong: [Classical.choice, Quot.sound, propext]
BATS.Txt.C90_default: [propext]
BATS.Txt.C90_flag: [propext]
BATS.Txt.C90_line: [propext]
BATS.Txt.C90_token: [propext]
BATS.Txt.C90_value: [propext]
BATS.Wit.C69_dowker_filtration: [Classical.choice, Quot.sound, propext]
BATS.Wit.C69_dowker_param: [Classical.choice, Quot.sound, propext]
BATS.Wit.C69_dowker_persistence: [Classical.choice, Quot.sound, propext]
BATS.Wit.C69_firstk: [Classical.choice, Quot.sound, propext]
BATS.Wit.C69_firstk_ub: [propext]
BATS.Wit.C69_get_m: [Classical.choice, Quot.sound, propext]
BATS.Wit.C69_landmark_cover: [Classical.choice, Quot.sound, propext]
BATS.Wit.C69_neighborhood: [Classical.choice, Quot.sound, propext]
BATS.Wit.C69_neighborhoods_eps: [Classical.choice, Quot.sound, propext]
BATS.Wit.C69_neighborhoods_k: [Classical.choice, Quot.sound, propext]
BATS.Wit.C69_neighborhoods_r: [Quot.sound, propext]
BATS.Wit.C69_strict_witness: [Classical.choice, Quot.sound, propext]
BATS.Wit.C69_weak_witness: [Classical.choice, Quot.sound, propext]
BATS.Wit.C69_weak_witness_generic: [Classical.choice, Quot.sound, propext]
BATS.Wit.C69_witness_betti: [Classical.choice, Quot.sound, propext]
BATS.Wit.C69_witness_complex: [Classical.choice, Quot.sound, propext]
BATS.Wit.C69_witness_complex_ub: [Classical.choice, Quot.sound, propext]
BATS.Wit.C69_witness_edges: [Quot.sound, propext]
BATS.Wit.C69_witness_filtration: [Classical.choice, Quot.sound, propext]
BATS.Wit.C69_witness_filtration_ub: [Classical.choice, Quot.sound, propext]
BATS.Wit.C69_witness_param: [Classical.choice, Quot.sound, propext]
BATS.Wit.C69_witness_param_ub: [Classical.choice, Quot.sound, propext]
BATS.Wit.C70_dowker_cover: [Classical.choice, Quot.sound, propext]
BATS.Wit.C70_rips_cover: [Classical.choice, Quot.sound, propext]
BATS.Wit.C70_rips_cover_persistence: [Classical.choice, Quot.sound, propext]
BATS.Wit.C70_rips_trivial_cover: [Classical.choice, Quot.sound, propext]
BATS.Wit.C70_strict_persistence: [Classical.choice, Quot.sound, propext]
BATS.Wit.C70_strict_rips_cover: [Classical.choice, Quot.sound, propext]
BATS.Wit.C70_strict_subset: [Classical.choice, Quot.sound, propext]
BATS.Wit.C70_union_add: [Classical.choice, Quot.sound, propext]
BATS.Zigzag.C61_alive_is_betti: [Classical.choice, Quot.sound, propext]
BATS.Zigzag.C61_default_maxdim: [Classical.choice, Quot.sound, propext]
BATS.Zigzag.C61_stale_pivot_above_maxdim: [Classical.choice, Quot.sound, propext]
BATS.Zigzag.C61_zigzag_barcode: [Classical.choice, Quot.sound, propext]
BATS.Zigzag.C62_barcode: [Classical.choice, Quot.sound, propext]
BATS.Zigzag.C62_barcode_simplicial: [Classical.choice, Quot.sound, propext]
BATS.Zigzag.C62_copy_index: [Classical.choice, Quot.sound, propext]
BATS.Zigzag.C62_first_interval_not_redirected: [Classical.choice, Quot.sound, propext]
BATS.Zigzag.C62_point_interval_wrong_copy: [Classical.choice, Quot.sound, propext]
BATS.Zigzag.C62_simplicial_betti: [Classical.choice, Quot.sound, propext]
BATS.Zigzag.C62_simplicial_history: [Classical.choice, Quot.sound, propext]
BATS.Zigzag.C62_single_interval: [Quot.sound, propext]
BATS.Zigzag.C63_barcode: [Classical.choice, Quot.sound, propext]
BATS.Zigzag.C63_extension: [Classical.choice, Quot.sound, propext]
BATS.Zigzag.C63_negative_late: [Classical.choice, Quot.sound, propext]
BATS.Zigzag.C63_negative_throws: [Classical.choice, Quot.sound, propext]
BATS.Zigzag.C64_barcode: [Classical.choice, Quot.sound, propext]
BATS.Zigzag.C64_history: [Classical.choice, Quot.sound, propext]
BATS.Zigzag.C64_levelset: [Classical.choice, Quot.sound, propext]
BATS.Zigzag.C64_levelset_misses: [propext]
BATS.Zigzag.C64_readd_not_recursive: [Quot.sound, propext]
BATS.Zigzag.C82_history: [Classical.choice, Quot.sound, propext]
BATS.Zigzag.C82_history_error: [Classical.choice, Quot.sound, propext]
BATS.Zigzag.C82_levelset_wrong: [propext]
BATS.Zigzag.C82_toplex: [Classical.choice, Quot.sound, propext]
BATS.Zigzag.C82_toplex_edge_wrong: [propext]
BATS.Zigzag.C82_toplex_empty: [propext]
BATS.Zigzag.C82_toplex_nested: [Classical.choice, Quot.sound, propext]
BATS.Zigzag.C87_barcode: [Classical.choice, Quot.sound, propext]
BATS.Zigzag.C87_misses: [propext]
BATS.Zigzag.C87_windows: [Classical.choice, Quot.sound, propext]
BATS.Zigzag.C87_windows_diverge: [propext]
BATS.Zigzag.C87_zigzag: [Classical.choice, Quot.sound, propext]
