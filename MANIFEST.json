{
 "claims": [
  {
   "property": "C01",
   "status": "proved",
   "theorems": [
    "BATS.C01_add",
    "BATS.C01_addAssign",
    "BATS.C01_sub",
    "BATS.C01_subAssign",
    "BATS.C01_neg",
    "BATS.C01_mul",
    "BATS.C01_mulAssign",
    "BATS.C01_inv",
    "BATS.C01_inv_zero",
    "BATS.C01_div",
    "BATS.C01_divAssign",
    "BATS.C01_div_zero",
    "BATS.C01_divAssign_zero",
    "BATS.C01_eq",
    "BATS.C01_iszero",
    "BATS.C01_canon_unique"
   ],
   "note": "every canonical operand, P*P < 2^31 (no signed overflow); loop termination included"
  },
  {
   "property": "C02",
   "status": "proved",
   "theorems": [
    "BATS.Mod2.C02_add",
    "BATS.Mod2.C02_sub",
    "BATS.Mod2.C02_neg",
    "BATS.Mod2.C02_mul",
    "BATS.Mod2.C02_div",
    "BATS.Mod2.C02_inv",
    "BATS.Mod2.C02_eq",
    "BATS.Mod2.C02_ne",
    "BATS.Mod2.C02_iszero",
    "BATS.Mod2.C02_ofInt",
    "BATS.Mod2.C02_eqInt",
    "BATS.Mod2.C02_neInt_inconsistent",
    "BATS.Mod2.C02_neInt_zero_one",
    "BATS.Mod2.C02_assignInt_noop",
    "BATS.Mod2.C02_assignInt_wrong"
   ],
   "note": "all 2^32 stored representations; also the exact behaviour of the int overloads"
  },
  {
   "property": "C03",
   "status": "proved",
   "theorems": [
    "BATS.C03_ofInt_above",
    "BATS.C03_ofInt_below",
    "BATS.C03_ofInt_iff",
    "BATS.C03_ofInt_wrong"
   ],
   "note": "exact characterisation C03_ofInt_iff; witness C03_ofInt_wrong"
  },
  {
   "property": "C04",
   "status": "proved",
   "theorems": [
    "BATS.C04_isprime_correct"
   ],
   "note": "32-bit wrap of p*p outside the modelled range is discussed in Field.lean"
  },
  {
   "property": "C05",
   "status": "proved",
   "theorems": [
    "BATS.Rational.C05_mk",
    "BATS.Rational.C05_ofInt",
    "BATS.Rational.C05_add",
    "BATS.Rational.C05_sub",
    "BATS.Rational.C05_neg",
    "BATS.Rational.C05_mul",
    "BATS.Rational.C05_div",
    "BATS.Rational.C05_inv",
    "BATS.Rational.C05_eq",
    "BATS.Rational.C05_lt",
    "BATS.Rational.C05_iszero",
    "BATS.Rational.C05_mk_zero_den"
   ],
   "note": "over unbounded integers; machine overflow of numerator/denominator is not modelled"
  },
  {
   "property": "C06",
   "status": "proved",
   "theorems": [
    "BATS.C06_nnz_counts_support",
    "BATS.C06_axpy",
    "BATS.C06_axpy_nnz",
    "BATS.C06_axpy_window",
    "BATS.C06_read_and_equality"
   ],
   "note": "coordinate law needs no hypothesis; sortedness, no stored zeros, bounds, nnz = support size, windowed form, getval, +, =="
  },
  {
   "property": "C07",
   "status": "proved",
   "theorems": [
    "BATS.C07_gemv",
    "BATS.C07_gemm",
    "BATS.C07_add",
    "BATS.C07_transpose",
    "BATS.C07_identity",
    "BATS.C07_representation_unique",
    "BATS.C07_assoc",
    "BATS.C07_distrib",
    "BATS.C07_distrib_right",
    "BATS.C07_identity_neutral",
    "BATS.C07_transpose_laws"
   ],
   "note": "entrywise products/sums/transposes; associativity, distributivity, neutrality and transpose laws as equalities of the stored objects"
  },
  {
   "property": "C08",
   "status": "proved",
   "theorems": [
    "BATS.C08_sub_is_reversed",
    "BATS.C08_sub_correct_iff",
    "BATS.C08_sub_wrong"
   ],
   "note": "defect: operator- returns B - A; exact law, characterisation of when it is right, witness"
  },
  {
   "property": "C09",
   "status": "proved",
   "theorems": [
    "BATS.C09_u_solve",
    "BATS.C09_l_solve",
    "BATS.C09_solve_matrix",
    "BATS.C09_inverses"
   ],
   "note": "termination, no UB/throw, unique solution; two-sided inverses"
  },
  {
   "property": "C10",
   "status": "proved",
   "theorems": [
    "BATS.C10_reduce_matrix_standard"
   ],
   "note": "termination, memory safety, reducedness, exact table"
  },
  {
   "property": "C11",
   "status": "proved",
   "theorems": [
    "BATS.C11_basis_identity",
    "BATS.C11_basis_any",
    "BATS.C11_mismatch_throws"
   ],
   "note": "any U, equality with the basis-free run, mismatch throws"
  },
  {
   "property": "C12",
   "status": "proved",
   "theorems": [
    "BATS.C12_pivots_unique",
    "BATS.C12_rank_of_lower_left_blocks",
    "BATS.C12_table_is_pivots"
   ],
   "note": "uniqueness, algorithm-independent pivots, rank of every lower-left block, table of the code; clearing/compression tables in C15/C17"
  },
  {
   "property": "C13",
   "status": "proved",
   "theorems": [
    "BATS.C13_betti_is_dim_homology",
    "BATS.C13_euler"
   ],
   "note": "six constructors (standard, no basis, clearing with/without basis, compression with/without basis)"
  },
  {
   "property": "C14",
   "status": "proved",
   "theorems": [
    "BATS.C14_representatives"
   ],
   "note": "all constructors that compute a basis"
  },
  {
   "property": "C15",
   "status": "proved",
   "theorems": [
    "BATS.C15_clearing_same"
   ],
   "note": ""
  },
  {
   "property": "C16",
   "status": "proved",
   "theorems": [
    "BATS.C16_clearing_basis"
   ],
   "note": ""
  },
  {
   "property": "C17",
   "status": "proved",
   "theorems": [
    "BATS.C17_compression_same",
    "BATS.C17_compression_basis_not_factorisation"
   ],
   "note": "also proved: B*U=R fails under compression"
  },
  {
   "property": "C18",
   "status": "proved",
   "theorems": [
    "BATS.C18_not_a_reduction",
    "BATS.C18_loses_rank",
    "BATS.C18_exact",
    "BATS.C18_reduction"
   ],
   "note": "C18_exact for every input; C18_reduction for the case in which it is a reduction; C18_not_a_reduction, C18_loses_rank are witnesses"
  },
  {
   "property": "C19",
   "status": "proved",
   "theorems": [
    "BATS.C19_history",
    "BATS.C19_closed",
    "BATS.C19_stable",
    "BATS.C19_add_result",
    "BATS.C19_recursive_result",
    "BATS.C19_empty"
   ],
   "note": "a refused add still raises maxdim(): stated exactly in C19_add_result"
  },
  {
   "property": "C20",
   "status": "proved",
   "theorems": [
    "BATS.C20_columns",
    "BATS.C20_square_zero",
    "BATS.C20_chain_complex",
    "BATS.C20_boundary_query"
   ],
   "note": ""
  },
  {
   "property": "C21",
   "status": "proved",
   "theorems": [
    "BATS.C21_key_roundtrip",
    "BATS.C21_key_injective",
    "BATS.C21_overflow_collision",
    "BATS.C21_vertex_out_of_range"
   ],
   "note": "unsigned arithmetic modulo the word size is modelled"
  },
  {
   "property": "C22",
   "status": "proved",
   "theorems": [
    "BATS.C22_faces",
    "BATS.C22_iterator",
    "BATS.C22_decrement",
    "BATS.C22_decrement_wrong"
   ],
   "note": "the read of offset(-1) in the last step is undefined behaviour in C++; modelled as an arbitrary value that the results do not depend on"
  },
  {
   "property": "C23",
   "status": "proved",
   "theorems": [
    "BATS.C23_history",
    "BATS.C23_invalid",
    "BATS.C23_add_result",
    "BATS.C23_recursive_result",
    "BATS.C23_closed",
    "BATS.C23_square_zero",
    "BATS.C23_columns",
    "BATS.C23_betti",
    "BATS.C23_skeleton",
    "BATS.C23_generate_cube",
    "BATS.C23_set_dimension",
    "BATS.C23_dimension_zero",
    "BATS.C23_find_prefix"
   ],
   "note": "exact behaviour, with two findings as witnesses"
  },
  {
   "property": "C24",
   "status": "proved",
   "theorems": [
    "BATS.C24_inv_perm",
    "BATS.C24_apply_perm",
    "BATS.C24_apply_perm_compose",
    "BATS.C24_apply_inverse",
    "BATS.C24_stable_sortperm",
    "BATS.C24_stable_sortperm_unique",
    "BATS.C24_find_perm_from_vector",
    "BATS.C24_partial_perm",
    "BATS.C24_perm_sign",
    "BATS.C24_perm_to_the_end",
    "BATS.C24_extension_perm"
   ],
   "note": ""
  },
  {
   "property": "C25",
   "status": "proved",
   "theorems": [
    "BATS.C25_apply_perm_swap",
    "BATS.C25_apply_iperm_swap",
    "BATS.C25_swap_inverse"
   ],
   "note": ""
  },
  {
   "property": "C26",
   "status": "proved",
   "theorems": [
    "BATS.C26_kendall_tau",
    "BATS.C26_kendall_tau_two",
    "BATS.C26_kendall_tau_self"
   ],
   "note": ""
  },
  {
   "property": "C27",
   "status": "proved",
   "theorems": [
    "BATS.C27_intersect_sorted",
    "BATS.C27_has_intersect_sorted",
    "BATS.C27_intersect_sorted_lt",
    "BATS.C27_intersect_sorted_lt_bad_head",
    "BATS.C27_has_intersect_sorted_lt",
    "BATS.C27_find_sorted_lt",
    "BATS.C27_find_sorted_lt_ub",
    "BATS.C27_sort_sum_reduce",
    "BATS.C27_sorted_complement",
    "BATS.C27_sorted_complement_diverges",
    "BATS.C27_set_union"
   ],
   "note": ""
  },
  {
   "property": "C28",
   "status": "proved",
   "theorems": [
    "BATS.C28_last_inserted",
    "BATS.C28_absent",
    "BATS.C28_prefix"
   ],
   "note": ""
  },
  {
   "property": "C29",
   "status": "proved",
   "theorems": [
    "BATS.C29_history",
    "BATS.C29_sublevel",
    "BATS.C29_sublevel_nested",
    "BATS.C29_lower_star",
    "BATS.C29_lower_star_sublevel"
   ],
   "note": "NaN and the passage through double in lower_star_filtration are not modelled; star.hpp: LowerStarFiltration does not compile (uses members that do not exist) and is not modelled"
  },
  {
   "property": "C30",
   "status": "proved",
   "theorems": [
    "BATS.C30_permute_basis",
    "BATS.C30_ipermute_basis",
    "BATS.C30_sorted_complex",
    "BATS.C30_same_betti",
    "BATS.C30_vertices_only_ub"
   ],
   "note": "Assumes the 1 x n zero matrix as boundary[0], which is what the constructor from a complex builds."
  },
  {
   "property": "C31",
   "status": "proved",
   "theorems": [
    "BATS.C31_each_cell_once",
    "BATS.C31_values",
    "BATS.C31_infinite_bars",
    "BATS.C31_birth_le_death",
    "BATS.C31_flags_agree",
    "BATS.C31_permuted"
   ],
   "note": "All six flag combinations; both values of `permuted`."
  },
  {
   "property": "C32",
   "status": "proved",
   "theorems": [
    "BATS.C32_persistent_betti"
   ],
   "note": "For arbitrary values (no filtration hypothesis needed)."
  },
  {
   "property": "C33",
   "status": "proved",
   "theorems": [
    "BATS.C33_update_equals_recompute",
    "BATS.C33_valid_factorisation",
    "BATS.C33_no_basis_ub",
    "BATS.C33_compression_wrong"
   ],
   "note": "histories of any length; defects (no basis, compression) proved as the exact behaviour"
  },
  {
   "property": "C34",
   "status": "proved",
   "theorems": [
    "BATS.C34_barcode_equality_iff",
    "BATS.C34_multiplicities"
   ],
   "note": ""
  },
  {
   "property": "C35",
   "status": "proved",
   "theorems": [
    "BATS.C35_find_parent",
    "BATS.C35_union_find_pairs",
    "BATS.C35_agrees_with_reduction",
    "BATS.C35_rips_union_find",
    "BATS.C35_binom_to_inds",
    "BATS.C35_unsorted_values_wrong"
   ],
   "note": "exact arithmetic for binom_to_inds (sqrt) and an order-preserving float conversion are assumed; defect for unsorted input proved as a witness"
  },
  {
   "property": "C36",
   "status": "proved",
   "theorems": [
    "BATS.C36_flag_filtration",
    "BATS.C36_edge_order",
    "BATS.C36_rips_filtration",
    "BATS.C36_rips_filtration_data",
    "BATS.C36_flag_complex",
    "BATS.C36_flag_complex_odd",
    "BATS.C36_repeated_edge"
   ],
   "note": "flag_filtration, flag_complex, rips (matrix and data set); the pairing and extension variants of FlagFiltration are not modelled"
  },
  {
   "property": "C37",
   "status": "proved",
   "theorems": [
    "BATS.C37_columns",
    "BATS.C37_missing",
    "BATS.C37_dimension_ub",
    "BATS.C37_succeeds_iff",
    "BATS.C37_chain_map",
    "BATS.C37_composition",
    "BATS.C37_inclusion",
    "BATS.C37_inclusion_missing",
    "BATS.C37_identity",
    "BATS.C37_homology"
   ],
   "note": "exact columns, success iff simplicial, chain map, composition, inclusion, identity, functoriality on homology; out of bounds read when the source has larger dimension proved"
  },
  {
   "property": "C38",
   "status": "proved",
   "theorems": [
    "BATS.C38_leup",
    "BATS.C38_pleu",
    "BATS.C38_uelp",
    "BATS.C38_puel",
    "BATS.C38_lqu",
    "BATS.C38_uql",
    "BATS.C38_inverse",
    "BATS.C38_el_l_commute",
    "BATS.C38_l_el_commute",
    "BATS.C38_u_eu_commute",
    "BATS.C38_eu_u_commute",
    "BATS.C38_shape_checks"
   ],
   "note": "all six factorisations, inv, the four commutation functions and the shape checks, for all sizes and fields"
  },
  {
   "property": "C39",
   "status": "proved",
   "theorems": [
    "BATS.C39_canonical",
    "BATS.C39_combination",
    "BATS.C39_compression_wrong"
   ],
   "note": "reductions standard and clearing with basis; compression refuted by witness"
  },
  {
   "property": "C40",
   "status": "proved",
   "theorems": [
    "BATS.C40_induced",
    "BATS.C40_identity",
    "BATS.C40_composition",
    "BATS.C40_homotopic",
    "BATS.C40_mismatch"
   ],
   "note": "reductions standard and clearing with basis"
  },
  {
   "property": "C41",
   "status": "proved",
   "theorems": [
    "BATS.C41_triangular",
    "BATS.C41_reduced",
    "BATS.C41_upper_invert_exact",
    "BATS.C41_upper_invert_nonzero_columns",
    "BATS.C41_upper_invert_accepts_singular"
   ],
   "note": "exact characterisations; the defect of is_upper_invert is proved as a witness"
  },
  {
   "property": "C42",
   "status": "proved",
   "theorems": [
    "BATS.C42_block",
    "BATS.C42_set_block_exact",
    "BATS.C42_set_block_correct_iff",
    "BATS.C42_set_block_wrong"
   ],
   "note": "defect: set_block also erases coordinate i1; exact law, iff characterisation, witness"
  },
  {
   "property": "C43",
   "status": "proved",
   "theorems": [
    "BATS.C43_vector_int",
    "BATS.C43_vector_modp",
    "BATS.C43_vector_mod2",
    "BATS.C43_vector_rational",
    "BATS.C43_vector_rational_iff",
    "BATS.C43_matrix_int",
    "BATS.C43_matrix_modp",
    "BATS.C43_matrix_mod2",
    "BATS.C43_matrix_rational",
    "BATS.C43_str_throws",
    "BATS.C43_index_throws",
    "BATS.C43_dims_throw",
    "BATS.C43_cut_at_line",
    "BATS.C43_cut_in_line",
    "BATS.C43_cellular_map_throws",
    "BATS.C43_total",
    "BATS.C43_simplex",
    "BATS.C43_simplex_vector_throws",
    "BATS.C43_complex",
    "BATS.C43_complex_cut"
   ],
   "note": "std::getline, std::stoi, eofbit/failbit and decimal output are modelled on character lists; opening files is assumed to succeed; int has 32 bits"
  },
  {
   "property": "C44",
   "status": "proved",
   "theorems": [
    "BATS.C44_arith",
    "BATS.C44_repr",
    "BATS.C44_eq",
    "BATS.C44_eval",
    "BATS.C44_apply",
    "BATS.C44_divrem",
    "BATS.C44_divrem_zero",
    "BATS.C44_gcd",
    "BATS.C44_companion",
    "BATS.C44_companion_other",
    "BATS.C44_characteristic",
    "BATS.C44_characteristic_throws",
    "BATS.C44_generating_basis"
   ],
   "note": ""
  },
  {
   "property": "C45",
   "status": "proved",
   "theorems": [
    "BATS.C45_update_filtration",
    "BATS.C45_correct_if_involution",
    "BATS.C45_wrong_direction"
   ],
   "note": "exact behaviour, sufficient condition, and a witness with wrong bars"
  },
  {
   "property": "C46",
   "status": "proved",
   "theorems": [
    "BATS.C46_int",
    "BATS.C46_poly",
    "BATS.C46_equal"
   ],
   "note": ""
  },
  {
   "property": "C47",
   "status": "proved",
   "theorems": [
    "BATS.C47_complex",
    "BATS.C47_boundary",
    "BATS.C47_cells",
    "BATS.C47_kunneth",
    "BATS.C47_kunneth_full",
    "BATS.C47_stray",
    "BATS.C47_stray_witness"
   ],
   "note": "Reads of ind_shift[-1][j] and ind_shift[i][-1] are undefined behaviour in C++; they are modelled as arbitrary values."
  },
  {
   "property": "C48",
   "status": "proved",
   "theorems": [
    "BATS.C48_nonzeros",
    "BATS.C48_constructors",
    "BATS.C48_swap_rows",
    "BATS.C48_scale_entry",
    "BATS.C48_scale_by",
    "BATS.C48_erase_rows",
    "BATS.C48_mix_rows",
    "BATS.C48_mix_rows_wrong",
    "BATS.C48_insert_zero_rows",
    "BATS.C48_insert_order",
    "BATS.C48_insert_rows",
    "BATS.C48_subvector",
    "BATS.C48_ipermute",
    "BATS.C48_ipermute_wrong",
    "BATS.C48_shift",
    "BATS.C48_dot",
    "BATS.C48_kron",
    "BATS.C48_smul",
    "BATS.C48_axpy_coefficients",
    "BATS.C48_axpy_coefficients_wrong"
   ],
   "note": "exact behaviour incl. the wrong cases of mix_rows, ipermute and coefficient-list axpy, with witnesses"
  },
  {
   "property": "C49",
   "status": "proved",
   "theorems": [
    "BATS.C49_extensional",
    "BATS.C49_read",
    "BATS.C49_append_column",
    "BATS.C49_insert_column",
    "BATS.C49_insert_zero_column",
    "BATS.C49_insert_zero_column_end",
    "BATS.C49_insert_zero_column_wrong",
    "BATS.C49_insert_columns",
    "BATS.C49_erase_columns",
    "BATS.C49_swap_cols",
    "BATS.C49_mix_cols",
    "BATS.C49_mix_cols_stores_zeros",
    "BATS.C49_clear_cols",
    "BATS.C49_append_row",
    "BATS.C49_append_sparse_row",
    "BATS.C49_insert_row",
    "BATS.C49_insert_sparse_rows",
    "BATS.C49_insert_zero_rows",
    "BATS.C49_insert_rows",
    "BATS.C49_insert_rows_disagree",
    "BATS.C49_erase_rows",
    "BATS.C49_swap_rows",
    "BATS.C49_mix_rows",
    "BATS.C49_permute_rows",
    "BATS.C49_block",
    "BATS.C49_set_block",
    "BATS.C49_set_block_wrong",
    "BATS.C49_submatrix",
    "BATS.C49_direct_sum",
    "BATS.C49_vec_mat",
    "BATS.C49_schur_complement",
    "BATS.C49_scale"
   ],
   "note": "exact behaviour incl. the wrong cases, with witnesses"
  },
  {
   "property": "C50",
   "status": "proved",
   "theorems": [
    "BATS.C50_representatives",
    "BATS.C50_representatives_after_updates"
   ],
   "note": ""
  },
  {
   "property": "C51",
   "status": "proved",
   "theorems": [
    "BATS.C51_betti",
    "BATS.C51_generated"
   ],
   "note": ""
  },
  {
   "property": "C52",
   "status": "proved",
   "theorems": [
    "BATS.C52_persistence"
   ],
   "note": "complexes with maxdim 0 are excluded: the code reads out of bounds there (C30_vertices_only_ub)"
  },
  {
   "property": "C53",
   "status": "proved",
   "theorems": [
    "BATS.C53_rips_persistence"
   ],
   "note": "C53_rips_persistence"
  },
  {
   "property": "C54",
   "status": "proved",
   "theorems": [
    "BATS.C54_history",
    "BATS.C54_recursive_result",
    "BATS.C54_columns",
    "BATS.C54_betti",
    "BATS.C54_missing_face"
   ],
   "note": ""
  },
  {
   "property": "C55",
   "status": "proved",
   "theorems": [
    "BATS.C55_decomposition",
    "BATS.C55_rank",
    "BATS.C55_alive",
    "BATS.C55_unique",
    "BATS.C55_algorithms_agree",
    "BATS.C55_right_arrows",
    "BATS.C55_all_dimensions",
    "BATS.C55_no_edges"
   ],
   "note": "OpenMP tasks on disjoint ranges are modelled one after the other."
  },
  {
   "property": "C56",
   "status": "proved",
   "theorems": [
    "BATS.C56_is_valid_complex",
    "BATS.C56_subcomplex",
    "BATS.C56_relative_complex"
   ],
   "note": ""
  },
  {
   "property": "C57",
   "status": "proved",
   "theorems": [
    "BATS.C57_homology",
    "BATS.C57_cohomology",
    "BATS.C57_reduced_homology",
    "BATS.C57_reduced_cohomology",
    "BATS.C57_agree",
    "BATS.C57_augmented",
    "BATS.C57_simplicial"
   ],
   "note": ""
  },
  {
   "property": "C58",
   "status": "proved",
   "theorems": [
    "BATS.C58_pairs",
    "BATS.C58_persistent_betti",
    "BATS.C58_simplicial"
   ],
   "note": ""
  },
  {
   "property": "C59",
   "status": "proved",
   "theorems": [
    "BATS.C59_update_equals_recompute",
    "BATS.C59_valid_factorisation",
    "BATS.C59_space_update_wrong"
   ],
   "note": ""
  },
  {
   "property": "C60",
   "status": "proved",
   "theorems": [
    "BATS.C60_homology_representatives",
    "BATS.C60_reduced_homology_representatives",
    "BATS.C60_cohomology_representatives_shifted",
    "BATS.C60_reduced_cohomology_representatives_shifted",
    "BATS.C60_cohomology_index_wrong"
   ],
   "note": ""
  },
  {
   "property": "C61",
   "status": "proved",
   "theorems": [
    "BATS.Zigzag.C61_zigzag_barcode",
    "BATS.Zigzag.C61_default_maxdim",
    "BATS.Zigzag.C61_alive_is_betti",
    "BATS.Zigzag.C61_stale_pivot_above_maxdim"
   ],
   "note": "standard reduction flag; std::unordered_map as association list; the condition on explicit maxdim is necessary (C61_stale_pivot_above_maxdim)"
  },
  {
   "property": "C62",
   "status": "proved",
   "theorems": [
    "BATS.Zigzag.C62_simplicial_betti",
    "BATS.Zigzag.C62_barcode",
    "BATS.Zigzag.C62_barcode_simplicial",
    "BATS.Zigzag.C62_single_interval",
    "BATS.Zigzag.C62_simplicial_history",
    "BATS.Zigzag.C62_copy_index",
    "BATS.Zigzag.C62_first_interval_not_redirected",
    "BATS.Zigzag.C62_point_interval_wrong_copy"
   ],
   "note": "interval decomposition, Betti numbers at every time, both overloads; witnesses for the two excluded kinds of filtrations"
  },
  {
   "property": "C63",
   "status": "proved",
   "theorems": [
    "BATS.Zigzag.C63_extension",
    "BATS.Zigzag.C63_barcode",
    "BATS.Zigzag.C63_negative_late",
    "BATS.Zigzag.C63_negative_throws"
   ],
   "note": "simplicial overload; floating point rounding not modelled; the cubical overload is not modelled"
  },
  {
   "property": "C64",
   "status": "proved",
   "theorems": [
    "BATS.Zigzag.C64_history",
    "BATS.Zigzag.C64_barcode",
    "BATS.Zigzag.C64_levelset",
    "BATS.Zigzag.C64_levelset_misses",
    "BATS.Zigzag.C64_readd_not_recursive"
   ],
   "note": "simplicial complexes; the add_recursive and levelset behaviour is stated exactly, with witnesses for the deviations from the documentation"
  },
  {
   "property": "C65",
   "status": "proved",
   "theorems": [
    "BATS.C65_schedule",
    "BATS.C65_chain_functor",
    "BATS.C65_hom",
    "BATS.C65_barcode",
    "BATS.C65_unique",
    "BATS.C65_rank",
    "BATS.C65_spaces",
    "BATS.C65_all_dimensions",
    "BATS.C65_no_dimension"
   ],
   "note": "C65_schedule (independence of the schedule), C65_chain_functor, C65_hom (edges represent the induced maps), C65_barcode (interval decomposition of homology), C65_unique, C65_rank (Betti numbers and ranks of composites), C65_spaces (from spaces to barcodes, simplicial Betti numbers), C65_all_dimensions, C65_no_dimension (throws); zigzag_of_spaces exhibits a diagram satisfying the hypotheses and zigzag_of_spaces_barcode its barcodes"
  },
  {
   "property": "C66",
   "status": "proved",
   "theorems": [
    "BATS.C66_nerve",
    "BATS.C66_betti",
    "BATS.C66_refinement",
    "BATS.C66_dimension_zero",
    "BATS.C66_functor",
    "BATS.C66_barcode",
    "BATS.C66_bivariate",
    "BATS.C66_landmark_eps",
    "BATS.C66_landmark_eps_covers"
   ],
   "note": "complete; distances are modelled in an ordered abelian group without rounding; negative behaviour for dmax = 0 and eps = 0 is part of the statement"
  },
  {
   "property": "C67",
   "status": "proved",
   "theorems": [
    "BATS.Lmk.C67_farthest_first",
    "BATS.Lmk.C67_spread",
    "BATS.Lmk.C67_all_points",
    "BATS.Lmk.C67_permutation",
    "BATS.Lmk.C67_two_approximation",
    "BATS.Lmk.C67_hausdorff_landmarks",
    "BATS.Lmk.C67_negative_radius_diverges",
    "BATS.Lmk.C67_greedy_landmarks",
    "BATS.Lmk.C67_too_many_diverges",
    "BATS.Lmk.C67_approx_center",
    "BATS.Lmk.C67_center_quality",
    "BATS.Lmk.C67_matrix",
    "BATS.Lmk.C67_L1",
    "BATS.Lmk.C67_LInf",
    "BATS.Lmk.C67_repeated_index",
    "BATS.Lmk.C67_matrix_asymmetric"
   ],
   "note": "complete for landmark.hpp except random_landmarks (random numbers); distances are modelled without rounding"
  },
  {
   "property": "C68",
   "status": "proved",
   "theorems": [
    "BATS.C68_rips_complex",
    "BATS.C68_rips_matrix",
    "BATS.C68_betti",
    "BATS.C68_functor",
    "BATS.C68_functor_radii",
    "BATS.C68_radii_thrown",
    "BATS.C68_barcode",
    "BATS.C68_rips_hom",
    "BATS.C68_oscillating_barcode",
    "BATS.C68_morozov_barcode",
    "BATS.C68_morozov_ub_example",
    "BATS.C68_vertex_inclusion",
    "BATS.C68_union_diagram",
    "BATS.C68_union_rips",
    "BATS.C68_intersection_diagram",
    "BATS.C68_intersection_wrong",
    "BATS.C68_oscillating",
    "BATS.C68_oscillating_thrown",
    "BATS.C68_levels",
    "BATS.C68_morozov",
    "BATS.C68_distinct_points",
    "BATS.C68_equal_points",
    "BATS.C68_morozov_ub"
   ],
   "note": "all parts; theta = sqrt(d/(2d+1)) is a parameter, arithmetic is exact"
  },
  {
   "property": "C69",
   "status": "proved",
   "theorems": [
    "BATS.Wit.C69_get_m",
    "BATS.Wit.C69_dowker_param",
    "BATS.Wit.C69_dowker_filtration",
    "BATS.Wit.C69_dowker_persistence",
    "BATS.Wit.C69_firstk",
    "BATS.Wit.C69_firstk_ub",
    "BATS.Wit.C69_neighborhoods_k",
    "BATS.Wit.C69_neighborhood",
    "BATS.Wit.C69_neighborhoods_r",
    "BATS.Wit.C69_witness_edges",
    "BATS.Wit.C69_neighborhoods_eps",
    "BATS.Wit.C69_landmark_cover",
    "BATS.Wit.C69_witness_complex",
    "BATS.Wit.C69_witness_complex_ub",
    "BATS.Wit.C69_weak_witness",
    "BATS.Wit.C69_weak_witness_generic",
    "BATS.Wit.C69_witness_betti",
    "BATS.Wit.C69_witness_param",
    "BATS.Wit.C69_witness_param_ub",
    "BATS.Wit.C69_witness_filtration_ub",
    "BATS.Wit.C69_witness_filtration",
    "BATS.Wit.C69_strict_witness"
   ],
   "note": "The lazy-witness overload WitnessComplex(X, L, dist, nu, rmax, dmax) does not compile when instantiated and is not modelled."
  },
  {
   "property": "C70",
   "status": "proved",
   "theorems": [
    "BATS.Wit.C70_union_add",
    "BATS.Wit.C70_rips_cover",
    "BATS.Wit.C70_rips_trivial_cover",
    "BATS.Wit.C70_rips_cover_persistence",
    "BATS.Wit.C70_dowker_cover",
    "BATS.Wit.C70_strict_rips_cover",
    "BATS.Wit.C70_strict_subset",
    "BATS.Wit.C70_strict_persistence"
   ],
   "note": "Full statement; all reduction variants and fields."
  },
  {
   "property": "C71",
   "status": "proved",
   "theorems": [
    "BATS.Par.C71_no_failure",
    "BATS.Par.C71_terminates",
    "BATS.Par.C71_no_deadlock",
    "BATS.Par.C71_task_locality",
    "BATS.Par.C71_schedule_independent",
    "BATS.Par.C71_reduction",
    "BATS.Par.C71_reduction_basis",
    "BATS.Par.C71_small_blocks",
    "BATS.Par.C71_complex",
    "BATS.Par.C71_sweep_ub",
    "BATS.Par.C71_sweep_runs",
    "BATS.Par.C71_sweep_schedule_independent",
    "BATS.Par.C71_sweep_result"
   ],
   "note": ""
  },
  {
   "property": "C72",
   "status": "proved",
   "theorems": [
    "BATS.C72_enclosing_radius",
    "BATS.C72_no_points",
    "BATS.C72_rips_acyclic",
    "BATS.C72_rips_complex",
    "BATS.C72_persistence",
    "BATS.C72_cutoff"
   ],
   "note": ""
  },
  {
   "property": "C73",
   "status": "proved",
   "theorems": [
    "BATS.C73_update_equals_recompute",
    "BATS.C73_persistence",
    "BATS.C73_update_info",
    "BATS.C73_top_grows_ub",
    "BATS.C73_new_vertex_ub",
    "BATS.C73_cohomology_wrong"
   ],
   "note": "degree -1 for all histories that meet the stated restrictions; outside them counterexamples are theorems (C73_top_grows_ub, C73_new_vertex_ub, C73_cohomology_wrong)"
  },
  {
   "property": "C74",
   "status": "proved",
   "theorems": [
    "BATS.C74_union",
    "BATS.C74_union_add",
    "BATS.C74_intersection",
    "BATS.C74_get_indices",
    "BATS.C74_directed_sorted"
   ],
   "note": "C74_directed_sorted is the witness for directed simplices."
  },
  {
   "property": "C75",
   "status": "proved",
   "theorems": [
    "BATS.C75_relative_betti",
    "BATS.C75_not_contained",
    "BATS.C75_map_of_pairs",
    "BATS.C75_relative_map"
   ],
   "note": "C75_not_contained states the exact behaviour when A is not contained in X."
  },
  {
   "property": "C76",
   "status": "proved",
   "theorems": [
    "BATS.C76_induces",
    "BATS.C76_connecting",
    "BATS.C76_sorted_columns",
    "BATS.C76_unsorted"
   ],
   "note": "C76_unsorted is the witness for unsorted columns."
  },
  {
   "property": "C77",
   "status": "proved",
   "theorems": [
    "BATS.C77_simplices",
    "BATS.C77_decoded",
    "BATS.C77_full",
    "BATS.C77_collision",
    "BATS.C77_not_skeleton"
   ],
   "note": "C77_collision and C77_not_skeleton are the witnesses for the exact behaviour."
  },
  {
   "property": "C78",
   "status": "proved",
   "theorems": [
    "BATS.C78_dual",
    "BATS.C78_hdim_exact",
    "BATS.C78_top",
    "BATS.C78_fewer_triangles",
    "BATS.C78_ranks",
    "BATS.C78_not_cohomology"
   ],
   "note": "The intended statement (hdim = dim H^k) is false; proved: the exact result, the exact domain of success, the top dimension, and the cohomology formula that the stored matrices do give. Finding 80."
  },
  {
   "property": "C79",
   "status": "proved",
   "theorems": [
    "BATS.C79_induced",
    "BATS.C79_augmented",
    "BATS.C79_augmented_map",
    "BATS.C79_functorial",
    "BATS.C79_map",
    "BATS.C79_schedule",
    "BATS.C79_functor",
    "BATS.C79_functor_chain",
    "BATS.C79_hom",
    "BATS.C79_barcode",
    "BATS.C79_all_dimensions",
    "BATS.C79_spaces",
    "BATS.C79_preferred",
    "BATS.C79_degrees",
    "BATS.C79_cohomology_wrong",
    "BATS.C79_preferred_cohomology_wrong"
   ],
   "note": "Degree -1 and the functors are proved; for degree +1 the intended statement is false and a counterexample is proved (finding 81)."
  },
  {
   "property": "C80",
   "status": "proved",
   "theorems": [
    "BATS.C80_persistence",
    "BATS.C80_image2",
    "BATS.C80_image3"
   ],
   "note": ""
  },
  {
   "property": "C81",
   "status": "proved",
   "theorems": [
    "BATS.C81_defined",
    "BATS.C81_adjoint",
    "BATS.C81_gradient",
    "BATS.C81_labels"
   ],
   "note": ""
  },
  {
   "property": "C82",
   "status": "proved",
   "theorems": [
    "BATS.Zigzag.C82_history",
    "BATS.Zigzag.C82_history_error",
    "BATS.Zigzag.C82_toplex",
    "BATS.Zigzag.C82_toplex_nested",
    "BATS.Zigzag.C82_toplex_edge_wrong",
    "BATS.Zigzag.C82_levelset_wrong",
    "BATS.Zigzag.C82_toplex_empty"
   ],
   "note": "the exit of edges is wrong in the code (std::max(b, ..) for std::max(d, ..)); the theorem states what is computed, with witnesses"
  },
  {
   "property": "C83",
   "status": "proved",
   "theorems": [
    "BATS.Grid.C83_names",
    "BATS.Grid.C83_plane",
    "BATS.Grid.C83_space",
    "BATS.Grid.C83_degenerate",
    "BATS.Grid.C83_box",
    "BATS.Grid.C83_box_line",
    "BATS.Grid.C83_cubical",
    "BATS.Grid.C83_light",
    "BATS.Grid.C83_light_box"
   ],
   "note": ""
  },
  {
   "property": "C84",
   "status": "proved",
   "theorems": [
    "BATS.Grid.C84_plane",
    "BATS.Grid.C84_box",
    "BATS.Grid.C84_box_line",
    "BATS.Grid.C84_space",
    "BATS.Grid.C84_degenerate"
   ],
   "note": ""
  },
  {
   "property": "C85",
   "status": "proved",
   "theorems": [
    "BATS.MPair.C85_history",
    "BATS.MPair.C85_deterministic",
    "BATS.MPair.C85_matching",
    "BATS.MPair.C85_edges",
    "BATS.MPair.C85_mixed_wrong",
    "BATS.MPair.C85_clear_wrong"
   ],
   "note": "one rank vector per history; the members that use the underlying complex (add, add_pair, faces) are not modelled"
  },
  {
   "property": "C86",
   "status": "proved",
   "theorems": [
    "BATS.CellCpx.C86_history",
    "BATS.CellCpx.C86_top_unique",
    "BATS.CellCpx.C86_boundary",
    "BATS.CellCpx.C86_chain_complex",
    "BATS.CellCpx.C86_betti",
    "BATS.CellCpx.C86_add_assert",
    "BATS.CellCpx.C86_boundary_ub",
    "BATS.CellCpx.C86_missing_face",
    "BATS.CellCpx.C86_zero_coefficient_wrong"
   ],
   "note": "the assertion on the lengths of the two lists is a hypothesis; the coefficients of boundary_csc are unbounded integers"
  },
  {
   "property": "C87",
   "status": "proved",
   "theorems": [
    "BATS.Zigzag.C87_windows",
    "BATS.Zigzag.C87_windows_diverge",
    "BATS.Zigzag.C87_zigzag",
    "BATS.Zigzag.C87_barcode",
    "BATS.Zigzag.C87_misses"
   ],
   "note": "simplicial complexes only; times are elements of an Archimedean ordered group, rounding is not modelled"
  },
  {
   "property": "C88",
   "status": "proved",
   "theorems": [
    "BATS.SetVec.C88_get",
    "BATS.SetVec.C88_constructor",
    "BATS.SetVec.C88_single",
    "BATS.SetVec.C88_set",
    "BATS.SetVec.C88_permute",
    "BATS.SetVec.C88_permute_ub",
    "BATS.SetVec.C88_lastnz",
    "BATS.SetVec.C88_axpy",
    "BATS.SetVec.C88_eq",
    "BATS.SetVec.C88_history",
    "BATS.SetVec.C88_window",
    "BATS.SetVec.C88_window_end",
    "BATS.SetVec.C88_window_none",
    "BATS.SetVec.C88_window_dropped",
    "BATS.SetVec.C88_axpy_zero",
    "BATS.C88_window_wrong"
   ],
   "note": "std::set is modelled by the list of its elements in the order of iteration; axpy for arguments x with increasing indices"
  },
  {
   "property": "C89",
   "status": "proved",
   "theorems": [
    "BATS.Density.C89_kdist",
    "BATS.Density.C89_zero",
    "BATS.Density.C89_undefined"
   ],
   "note": "the matrix of distances is given, values are in a linear order (no NaN)"
  },
  {
   "property": "C90",
   "status": "proved",
   "theorems": [
    "BATS.Txt.C90_value",
    "BATS.Txt.C90_line",
    "BATS.Txt.C90_flag",
    "BATS.Txt.C90_default",
    "BATS.Txt.C90_token"
   ],
   "note": "the conversion to numbers by std::stod of the general version is not modelled"
  }
 ]
}