{"claims": [
{"property": "C01", "status": "proved", "theorems": ["TB.C01_from_generator_group"], "note": ""},
{"property": "C02", "status": "proved", "theorems": ["TB.C02_from_generator_minimal", "TB.C02_product"], "note": ""},
{"property": "C03", "status": "proved", "theorems": ["TB.C03_from_generator_returns_iff", "TB.C03_from_generator_error"], "note": ""},
{"property": "C04", "status": "proved", "theorems": ["TB.C04_constructor_accepts_iff", "TB.C04_constructor_error", "TB.C04_constructor_operations"], "note": ""},
{"property": "C05", "status": "proved", "theorems": ["TB.C05_len_counts_operations", "TB.C05_len_double_counts"], "note": ""},
{"property": "C06", "status": "proved", "theorems": ["TB.C06_transform", "TB.C06_dual", "TB.C06_copy"], "note": ""},
{"property": "C07", "status": "proved", "theorems": ["TB.C07_r_class_size"], "note": ""},
{"property": "C08", "status": "proved", "theorems": ["TB.C08_k_weight_value", "TB.C08_k_weight_range", "TB.C08_k_weight_periodic", "TB.C08_k_weight_orbit"], "note": ""},
{"property": "C09", "status": "proved", "theorems": ["TB.C09_realize_points", "TB.C09_realize_unique", "TB.C09_realize_unit_cell"], "note": ""},
{"property": "C10", "status": "proved", "theorems": ["TB.C10_realize_data"], "note": ""},
{"property": "C11", "status": "proved", "theorems": ["TB.C11_reduce_representatives", "TB.C11_reduce_check", "TB.C11_reduce_rejects", "TB.C11_reduce_rounding_defect"], "note": ""},
{"property": "C12", "status": "proved", "theorems": ["TB.C12_symmetrize_projection", "TB.C12_symmetrize_inversion", "TB.C12_symmetrize_odd_rank_ignores_inversion"], "note": ""},
{"property": "C13", "status": "proved", "theorems": ["TB.C13_equivalence_classes", "TB.C13_conjugacy_classes"], "note": ""},
{"property": "C14", "status": "proved", "theorems": ["TB.C14_find_classes"], "note": ""},
{"property": "C15", "status": "proved", "theorems": ["TB.C15_complete_neighbors", "TB.C15_lost_without_inversion"], "note": ""},
{"property": "C16", "status": "proved", "theorems": ["TB.C16_neighbor_lookup"], "note": ""},
{"property": "C17", "status": "proved", "theorems": ["TB.C17_equality", "TB.C17_check", "TB.C17_duplicates_defect"], "note": ""},
{"property": "C18", "status": "proved", "theorems": ["TB.C18_pointcloud_distance_zero_iff", "TB.C18_zero_iff_perm", "TB.C18_empty", "TB.C18_not_symmetric"], "note": ""},
{"property": "C19", "status": "proved", "theorems": ["TB.C19_division", "TB.C19_division_terminates", "TB.C19_division_by_inversion_raises", "TB.C19_division_order_defect"], "note": ""},
{"property": "C20", "status": "proved", "theorems": ["TB.C20_value", "TB.C20_hermitian"], "note": ""},
{"property": "C21", "status": "proved", "theorems": ["TB.C21_periodic"], "note": ""},
{"property": "C22", "status": "proved", "theorems": ["TB.C22_derivatives"], "note": ""},
{"property": "C23", "status": "proved", "theorems": ["TB.C23_unit_matrix"], "note": ""},
{"property": "C24", "status": "proved", "theorems": ["TB.C24_add_new", "TB.C24_add_listed", "TB.C24_duplicates_accepted"], "note": ""},
{"property": "C25", "status": "proved", "theorems": ["TB.C25_limit_neighbors", "TB.C25_cleanup_neighbors", "TB.C25_limit_neighbor_count", "TB.C25_limit_count_zero", "TB.C25_limit_count_negative", "TB.C25_invariant"], "note": ""},
{"property": "C26", "status": "proved", "theorems": ["TB.C26_series_sum", "TB.C26_bands_of_sum"], "note": ""},
{"property": "C27", "status": "proved", "theorems": ["TB.C27_scale", "TB.C27_shift", "TB.C27_shift_not_rigid"], "note": ""},
{"property": "C28", "status": "proved", "theorems": ["TB.C28_transform", "TB.C28_round_trip"], "note": ""},
{"property": "C29", "status": "proved", "theorems": ["TB.C29_permute", "TB.C29_permute_repeated", "TB.C29_normalize"], "note": ""},
{"property": "C30", "status": "proved", "theorems": ["TB.BS.C30_f", "TB.BS.C30_roundtrip", "TB.BS.C30_none", "TB.BS.C30_symmetry_defect", "TB.BS.C30_init", "TB.BS.C30_errors"], "note": ""},
{"property": "C31", "status": "proved", "theorems": ["TB.Fmt.C31_round_trip", "TB.Fmt.C31_exact", "TB.Fmt.C31_mismatch", "TB.Fmt.C31_empty", "TB.Fmt.C31_value"], "note": ""},
{"property": "C32", "status": "proved", "theorems": ["TB.Fmt.C32_content", "TB.Fmt.C32_pairs", "TB.Fmt.C32_accepts", "TB.Fmt.C32_errors", "TB.Fmt.C32_malformed"], "note": ""},
{"property": "C33", "status": "proved", "theorems": ["TB.Fmt.C33_hangs", "TB.Fmt.C33_deterministic", "TB.Fmt.C33_content", "TB.Fmt.C33_accepts", "TB.Fmt.C33_errors", "TB.Fmt.C33_degeneracy_ignored"], "note": ""},
{"property": "C34", "status": "proved", "theorems": ["TB.C34_loss_eq_error", "TB.C34_value", "TB.C34_zero_iff", "TB.C34_weight_scaling", "TB.C34_permutation", "TB.C34_offset_too_large", "TB.C34_raises"], "note": ""},
{"property": "C35", "status": "proved", "theorems": ["TB.C35_minimum", "TB.C35_equal_counts", "TB.C35_last_offset_missed"], "note": ""},
{"property": "C36", "status": "proved", "theorems": ["TB.C36_history", "TB.C36_last", "TB.C36_abort", "TB.C36_iterations", "TB.C36_error_characters", "TB.C36_perfect_fit_raises"], "note": ""},
{"property": "C37", "status": "proved", "theorems": ["TB.C37_to", "TB.C37_label", "TB.C37_start", "TB.C37_to_succeeds_iff", "TB.C37_invariant", "TB.C37_list_constructor", "TB.C37_tuple_start_raises", "TB.C37_empty_list", "TB.C37_failed_call_adds_name"], "note": ""},
{"property": "C38", "status": "proved", "theorems": ["TB.C38_x", "TB.C38_linear", "TB.C38_sym_x"], "note": ""},
{"property": "C39", "status": "proved", "theorems": ["TB.Bulk.C39_seebeck", "TB.Bulk.C39_thermal", "TB.Bulk.C39_peltier", "TB.Bulk.C39_kelvin", "TB.Bulk.C39_conductivity", "TB.Bulk.C39_errors"], "note": ""},
{"property": "C40", "status": "proved", "theorems": ["TB.Bulk.C40_formula", "TB.Bulk.C40_symmetric", "TB.Bulk.C40_semidefinite", "TB.Bulk.C40_thermal", "TB.Bulk.C40_drude", "TB.Bulk.C40_rotation", "TB.Bulk.C40_errors"], "note": ""},
{"property": "C41", "status": "proved", "theorems": ["TB.FS.C41_bands", "TB.FS.C41_empty"], "note": ""},
{"property": "C42", "status": "proved", "theorems": ["TB.Lat.C42_triclinic", "TB.Lat.C42_volume", "TB.Lat.C42_primitive", "TB.Lat.C42_rhombohedral", "TB.Lat.C42_cubic", "TB.Lat.C42_centred", "TB.Lat.C42_monoclinic_base", "TB.Lat.C42_errors"], "note": ""},
{"property": "C43", "status": "proved", "theorems": ["TB.Lat.C43_scale", "TB.Lat.C43_idempotent", "TB.Lat.C43_left_handed"], "note": ""},
{"property": "C44", "status": "proved", "theorems": ["TB.Smear.C44_true_volume", "TB.Smear.C44_unclamped_volume", "TB.Smear.C44_range", "TB.Smear.C44_monotone", "TB.Smear.C44_both"], "note": ""},
{"property": "C45", "status": "proved", "theorems": ["TB.Smear.C45_derivative", "TB.Smear.C45_nonneg", "TB.Smear.C45_total"], "note": ""},
{"property": "C46", "status": "proved", "theorems": ["TB.Smear.C46_sphere_true_volume", "TB.Smear.C46_sphere_radius", "TB.Smear.C46_sphere_distribution", "TB.Smear.C46_sphere_derivative", "TB.Smear.C46_tetra_true_volume", "TB.Smear.C46_tetra_derivative", "TB.Smear.C46_tetra_distribution", "TB.Smear.C46_cell_distribution"], "note": ""},
{"property": "C47", "status": "proved", "theorems": ["TB.Dos.C47_states_density", "TB.Dos.C47_count", "TB.Dos.C47_cut", "TB.Dos.C47_density", "TB.Dos.C47_grid"], "note": ""},
{"property": "C48", "status": "proved", "theorems": ["TB.Dos.C48_newton_iff", "TB.Dos.C48_newton_errors", "TB.Dos.C48_assertion", "TB.Dos.C48_gap", "TB.Dos.C48_ends", "TB.Dos.C48_search", "TB.Dos.C48_accuracy", "TB.Dos.C48_start"], "note": ""},
{"property": "C49", "status": "proved", "theorems": ["TB.C49_terminates", "TB.C49_x0_overwritten", "TB.C49_exact", "TB.C49_exact_default", "TB.C49_energy_decreases", "TB.C49_threshold_defect"], "note": ""},
{"property": "C50", "status": "proved", "theorems": ["TB.C50_direct_sum_blocks", "TB.C50_associative", "TB.C50_kron_entry", "TB.C50_multiplicative", "TB.C50_adjoint"], "note": ""},
{"property": "C51", "status": "proved", "theorems": ["TB.C51_lattice_in_sphere", "TB.C51_nonpositive_radius"], "note": ""},
{"property": "C52", "status": "proved", "theorems": ["TB.C52_gradient", "TB.C52_bands_grad", "TB.C52_hessian", "TB.C52_hess_ignores_overlap", "TB.C52_simple", "TB.C52_bands_simple", "TB.C52_bands_hess_simple"], "note": ""},
{"property": "C53", "status": "proved", "theorems": ["TB.C53_contains_sound", "TB.C53_contains_complete", "TB.C53_contains_incomplete"], "note": ""},
{"property": "C54", "status": "proved", "theorems": ["TB.C54_subgroup"], "note": ""},
{"property": "C56", "status": "proved", "theorems": ["TB.C56_best_assignment", "TB.C56_zero_iff"], "note": ""},
{"property": "C57", "status": "proved", "theorems": ["TB.C57_histogram", "TB.C57_equal_counts"], "note": ""},
{"property": "C58", "status": "proved", "theorems": ["TB.Smear.C58_linear_exact", "TB.Smear.C58_corners", "TB.Smear.C58_grid_linear", "TB.Smear.C58_least_squares"], "note": ""},
{"property": "C59", "status": "proved", "theorems": ["TB.Smear.C59_area", "TB.Smear.C59_on_plane"], "note": ""},
{"property": "C60", "status": "proved", "theorems": ["TB.Smear.C60_richardson", "TB.Smear.C60_extrapolated_range"], "note": ""},
{"property": "C61", "status": "proved", "theorems": ["TB.Dos.C61_bandgap", "TB.Dos.C61_gap_interval", "TB.Dos.C61_energy_range"], "note": ""},
{"property": "C62", "status": "proved", "theorems": ["TB.Dos.C62_partly_filled", "TB.Dos.C62_full_band_excess", "TB.Dos.C62_total", "TB.Dos.C62_full_band_wrong"], "note": ""},
{"property": "C63", "status": "proved", "theorems": ["TB.Dos.C63_samples", "TB.Dos.C63_flat", "TB.Dos.C63_average", "TB.Dos.C63_point"], "note": ""},
{"property": "C64", "status": "proved", "theorems": ["TB.Dos.C64_samples", "TB.Dos.C64_right_part", "TB.Dos.C64_flat_wrong"], "note": ""},
{"property": "C65", "status": "proved", "theorems": ["TB.Dos.C65_secant", "TB.Dos.C65_zero_division", "TB.Dos.C65_linear"], "note": ""},
{"property": "C66", "status": "proved", "theorems": ["TB.Dos.C66_int_poly"], "note": ""},
{"property": "C67", "status": "proved", "theorems": ["TB.Dos.C67_quadratic", "TB.Dos.C67_deviation"], "note": ""},
{"property": "C68", "status": "proved", "theorems": ["TB.KI.C68_exact", "TB.KI.C68_sum", "TB.KI.C68_duplicate", "TB.KI.C68_zero", "TB.KI.C68_filter"], "note": ""},
{"property": "C69", "status": "proved", "theorems": ["TB.KI.C69_assert", "TB.KI.C69_insulator", "TB.KI.C69_zero", "TB.KI.C69_one", "TB.KI.C69_metal"], "note": ""},
{"property": "C70", "status": "proved", "theorems": ["TB.KI.C70_bands", "TB.KI.C70_grad", "TB.KI.C70_derivative", "TB.KI.C70_hess"], "note": ""},
{"property": "C71", "status": "proved", "theorems": ["TB.Bulk.C71_scale", "TB.Bulk.C71_isotropic_mass", "TB.Bulk.C71_isotropic", "TB.Bulk.C71_tau", "TB.Bulk.C71_callable", "TB.Bulk.C71_three", "TB.Bulk.C71_units"], "note": ""},
{"property": "C72", "status": "proved", "theorems": ["TB.BS.C72_python"], "note": ""},
{"property": "C73", "status": "proved", "theorems": ["TB.BS.C73_derivatives", "TB.BS.C73_custom", "TB.BS.C73_ddf_missing"], "note": ""},
{"property": "C74", "status": "proved", "theorems": ["TB.BS.C74_permute", "TB.BS.C74_scalar", "TB.BS.C74_transform", "TB.BS.C74_transform_defect", "TB.BS.C74_add", "TB.BS.C74_add_defect"], "note": ""},
{"property": "C75", "status": "proved", "theorems": ["TB.BS.C75_normalize", "TB.BS.C75_symmetrizer", "TB.BS.C75_hermitian"], "note": ""},
{"property": "C76", "status": "proved", "theorems": ["TB.BS.C76_supercell"], "note": ""},
{"property": "C77", "status": "proved", "theorems": ["TB.Named.C77_cubic", "TB.Named.C77_perm3", "TB.Named.C77_even_perm3", "TB.Named.C77_mirror3", "TB.Named.C77_square", "TB.Named.C77_tetrahedral"], "note": ""},
{"property": "C78", "status": "proved", "theorems": ["TB.Cyclic.C78_o2", "TB.Cyclic.C78_cyclic", "TB.Cyclic.C78_zero", "TB.Cyclic.C78_mirror", "TB.Cyclic.C78_none_inv", "TB.Cyclic.C78_o1", "TB.Cyclic.C78_dihedral_returns", "TB.Cyclic.C78_dihedral_error", "TB.Cyclic.C78_dihedral"], "note": ""},
{"property": "C79", "status": "proved", "theorems": ["TB.UR.C79_from_generator", "TB.UR.C79_from_generator_returns_iff", "TB.UR.C79_from_generator_error", "TB.UR.C79_defect_duplicates", "TB.UR.C79_defect_identity", "TB.UR.C79_lengths"], "note": ""},
{"property": "C80", "status": "proved", "theorems": ["TB.UR.C80_match_sym", "TB.UR.C80_short_defect"], "note": ""},
{"property": "C81", "status": "proved", "theorems": ["TB.UR.C81_check_iff", "TB.UR.C81_defect"], "note": ""},
{"property": "C82", "status": "proved", "theorems": ["TB.UR.C82_add", "TB.UR.C82_add_error", "TB.UR.C82_unitary", "TB.UR.C82_defect_complex"], "note": ""},
{"property": "C83", "status": "proved", "theorems": ["TB.UR.C83_mul", "TB.UR.C83_mul_rep"], "note": ""},
{"property": "C84", "status": "proved", "theorems": ["TB.UR.C84_permute"], "note": ""},
{"property": "C85", "status": "proved", "theorems": ["TB.UR.C85_returns", "TB.UR.C85_covariant", "TB.UR.C85_fixed", "TB.UR.C85_orthogonal", "TB.UR.C85_no_inversion", "TB.UR.C85_defect_no_inversion"], "note": ""},
{"property": "C86", "status": "proved", "theorems": ["TB.UR.C86_equal", "TB.UR.C86_returns", "TB.UR.C86_defect", "TB.UR.C86_errors", "TB.UR.C86_errors_no_inversion"], "note": ""},
{"property": "C87", "status": "proved", "theorems": ["TB.UR.C87_invariant", "TB.UR.C87_fixed", "TB.UR.C87_orthogonal"], "note": ""},
{"property": "C88", "status": "proved", "theorems": ["TB.UR.C88_points", "TB.UR.C88_inverse", "TB.UR.C88_default", "TB.UR.C88_defect_default", "TB.UR.C88_defect_inversion"], "note": ""},
{"property": "C89", "status": "proved", "theorems": ["TB.UR.C89_check_symmetry", "TB.UR.C89_defect"], "note": ""},
{"property": "C90", "status": "proved", "theorems": ["TB.UR.C90_o3", "TB.UR.C90_so3", "TB.UR.C90_o3ri", "TB.UR.C90_o3r", "TB.UR.C90_one_dim", "TB.UR.C90_d3", "TB.UR.C90_irreducible3", "TB.UR.C90_irreducible2"], "note": ""},
{"property": "C91", "status": "proved", "theorems": ["TB.UR.C91_returns", "TB.UR.C91_result", "TB.UR.C91_not_transitive"], "note": ""},
{"property": "C92", "status": "proved", "theorems": ["TB.HS.C92_returns", "TB.HS.C92_covariant", "TB.HS.C92_hermitian", "TB.HS.C92_inversion", "TB.HS.C92_same_place", "TB.HS.C92_fixed", "TB.HS.C92_idempotent", "TB.HS.C92_orthogonal", "TB.HS.C92_defect_inversion"], "note": ""},
{"property": "C93", "status": "proved", "theorems": ["TB.HS.C93_symmetrizer", "TB.HS.C93_defect_duplicate"], "note": ""},
{"property": "C94", "status": "proved", "theorems": ["TB.HS.C94_rotation", "TB.HS.C94_inversion", "TB.HS.C94_hermitian", "TB.HS.C94_defect_law"], "note": ""},
{"property": "C95", "status": "proved", "theorems": ["TB.HS.C95_init", "TB.HS.C95_append", "TB.HS.C95_append_valid", "TB.HS.C95_append_s", "TB.HS.C95_append_p", "TB.HS.C95_append_d3", "TB.HS.C95_append_d2", "TB.HS.C95_append_d2_other", "TB.HS.C95_t2g", "TB.HS.C95_append_d3_even", "TB.HS.C95_defect_d3", "TB.HS.C95_swaps", "TB.HS.C95_diamond_s", "TB.HS.C95_diamond_p", "TB.HS.C95_diamond_d3", "TB.HS.C95_diamond_s_inversion", "TB.HS.C95_diamond_p_inversion", "TB.HS.C95_diamond_d3_inversion", "TB.HS.C95_defect_diamond_s", "TB.HS.C95_defect_diamond_p", "TB.HS.C95_defect_copy"], "note": ""},
{"property": "C96", "status": "proved", "theorems": ["TB.HS.C96_apply", "TB.HS.C96_apply_same_place", "TB.HS.C96_points", "TB.HS.C96_nodup", "TB.HS.C96_values", "TB.HS.C96_defect_identity", "TB.HS.C96_defect_rows", "TB.HS.C96_defect_inversion"], "note": ""},
{"property": "C97", "status": "proved", "theorems": ["TB.HS.C97_band_name", "TB.HS.C97_out_of_range", "TB.HS.C97_defect_negative"], "note": ""},
{"property": "C55", "status": "proved", "theorems": ["TB.SC.C55_success_iff", "TB.SC.C55_bloch", "TB.SC.C55_hermitian", "TB.SC.C55_bands", "TB.SC.C55_multiple", "TB.SC.C55_defect_basis", "TB.SC.C55_defect_overlap", "TB.SC.C55_defect_lost", "TB.SC.C55_defect_cartesian"], "note": ""},
{"property": "C98", "status": "proved", "theorems": ["TB.FE.C98_success_iff", "TB.FE.C98_parabola", "TB.FE.C98_limit", "TB.FE.C98_single", "TB.FE.C98_defect_anisotropic"], "note": ""},
{"property": "C99", "status": "proved", "theorems": ["TB.Opt.C99_bs_result", "TB.Opt.C99_bs_kept", "TB.Opt.C99_bs_symmetric", "TB.Opt.C99_bs_restart", "TB.Opt.C99_descent", "TB.Opt.C99_linear", "TB.Opt.C99_minimizer", "TB.Opt.C99_result", "TB.Opt.C99_kept", "TB.Opt.C99_offset", "TB.Opt.C99_precond", "TB.Opt.C99_keep_zeros_defect", "TB.Opt.C99_bs_hamiltonian", "TB.Opt.C99_bs_errors", "TB.Opt.C99_keep_zeros_dense", "TB.Opt.C99_bs_keep_zeros_dense"], "note": ""},
{"property": "C100", "status": "proved", "theorems": ["TB.Opt.C100_train_k0", "TB.Opt.C100_keep_zeros", "TB.Opt.C100_descent", "TB.Opt.C100_exact", "TB.Opt.C100_fit", "TB.Opt.C100_kept", "TB.Opt.C100_result", "TB.Opt.C100_train_k0_f", "TB.Opt.C100_errors", "TB.Opt.C100_train_k0_defect", "TB.Opt.C100_keep_zeros_defect"], "note": ""},
{"property": "C101", "status": "proved", "theorems": ["TB.Opt.C101_descent", "TB.Opt.C101_fit", "TB.Opt.C101_kept", "TB.Opt.C101_result", "TB.Opt.C101_errors", "TB.Opt.C101_train_S_defect", "TB.Opt.C101_keep_zeros_defect", "TB.Opt.C101_batch_overlap_defect"], "note": ""},
{"property": "C102", "status": "proved", "theorems": ["TB.C102_space_group", "TB.C102_point_group", "TB.C102_centred_defect", "TB.C102_ignore_translation", "TB.C102_strict_point_group", "TB.C102_inversion_defect", "TB.C102_transform", "TB.C102_dual", "TB.C102_flag_lost", "TB.C102_translation_defect", "TB.C102_inversion_flag_defect"], "note": ""},
{"property": "C103", "status": "proved", "theorems": ["TB.C103_no_symmetry_defect", "TB.C103_returns_iff", "TB.C103_k_points", "TB.C103_symmetries", "TB.C103_point_group"], "note": ""},
{"property": "C104", "status": "proved", "theorems": ["TB.KPts.C104_cubic", "TB.KPts.C104_square_line", "TB.KPts.C104_hexagonal", "TB.KPts.C104_hexagonal_defect", "TB.KPts.C104_tetragonal", "TB.KPts.C104_tetragonal_state_defect", "TB.KPts.C104_tetragonal_cubic_defect", "TB.KPts.C104_trigonal", "TB.KPts.C104_trigonal_error"], "note": ""},
{"property": "C105", "status": "proved", "theorems": ["TB.C105_constructor", "TB.C105_value", "TB.C105_derivatives", "TB.C105_fourier", "TB.C105_set_from_complex", "TB.C105_params_complex", "TB.C105_set_length", "TB.C105_bands_grad_hess", "TB.C105_errors"], "note": ""},
{"property": "C106", "status": "proved", "theorems": ["TB.Opt.C106_result", "TB.Opt.C106_weights_defect", "TB.Opt.C106_kept", "TB.Opt.C106_one_point", "TB.Opt.C106_descent", "TB.Opt.C106_loss_defect"], "note": ""},
{"property": "C107", "status": "proved", "theorems": ["TB.Dos.C107_samples", "TB.Dos.C107_errors", "TB.Dos.C107_sorted", "TB.Dos.C107_high", "TB.Dos.C107_low", "TB.Dos.C107_stale_defect", "TB.Dos.C107_stale_wrong", "TB.Dos.C107_unsorted", "TB.Dos.C107_full"], "note": ""},
{"property": "C108", "status": "proved", "theorems": ["TB.Dos.C108_seebeck", "TB.Dos.C108_seebeck_errors", "TB.Dos.C108_heat_capacity", "TB.Dos.C108_heat_zero", "TB.Dos.C108_zero_step"], "note": ""},
{"property": "C109", "status": "proved", "theorems": ["TB.Dos.C109_zero", "TB.Dos.C109_warm", "TB.Dos.C109_empty", "TB.Dos.C109_cell_zero", "TB.Dos.C109_cell_warm", "TB.Dos.C109_cell_negative"], "note": ""},
{"property": "C110", "status": "proved", "theorems": ["TB.Dos.C110_energy", "TB.Dos.C110_origin", "TB.Dos.C110_edges", "TB.Dos.C110_errors"], "note": ""},
{"property": "C111", "status": "proved", "theorems": ["TB.C111_average", "TB.C111_consistent", "TB.C111_symmetric", "TB.C111_errors"], "note": ""},
{"property": "C112", "status": "proved", "theorems": ["TB.C112_grid", "TB.C112_periodic", "TB.C112_range_defect", "TB.C112_symmetric", "TB.C112_errors", "TB.C112_key", "TB.C112_not_grid_defect"], "note": ""},
{"property": "C113", "status": "proved", "theorems": ["TB.C113_nearest", "TB.C113_samples", "TB.C113_symmetric", "TB.C113_length_defect"], "note": ""},
{"property": "C114", "status": "proved", "theorems": ["TB.Files.C114_asym_save_format", "TB.Files.C114_load_format", "TB.Files.C114_save_only", "TB.Files.C114_asym_save_failure", "TB.Files.C114_asym_json", "TB.Files.C114_overlap_lost", "TB.Files.C114_bs_save_format", "TB.Files.C114_bs_json", "TB.Files.C114_bs_no_matrices", "TB.Files.C114_bs_json_symmetry", "TB.Files.C114_python", "TB.Files.C114_wannier"], "note": ""},
{"property": "C115", "status": "proved", "theorems": ["TB.InitRef.C115_asym_errors", "TB.InitRef.C115_asym_values", "TB.InitRef.C115_asym_bound", "TB.InitRef.C115_asym_trace", "TB.InitRef.C115_asym_flat", "TB.InitRef.C115_bs_values", "TB.InitRef.C115_bs_errors", "TB.InitRef.C115_bs_exact", "TB.InitRef.C115_bs_trace"], "note": ""},
{"property": "C116", "status": "proved", "theorems": ["TB.Autofit.C116_only_files", "TB.Autofit.C116_checkpoints", "TB.Autofit.C116_duplicate", "TB.Autofit.C116_best", "TB.Autofit.C116_samples", "TB.Autofit.C116_assertions", "TB.Autofit.C116_start_matrix", "TB.Autofit.C116_added_bands", "TB.Autofit.C116_exact_fit", "TB.Autofit.C116_protocol", "TB.Autofit.C116_returns"], "note": ""},
{"property": "C117", "status": "proved", "theorems": ["TB.Phonon.C117_formula", "TB.Phonon.C117_index", "TB.Phonon.C117_same", "TB.Phonon.C117_exchange", "TB.Phonon.C117_bound", "TB.Phonon.C117_phases", "TB.Phonon.C117_velocity", "TB.Phonon.C117_degenerate"], "note": ""},
{"property": "C118", "status": "proved", "theorems": ["TB.FermiSamples.C118_errors", "TB.FermiSamples.C118_bands", "TB.FermiSamples.C118_area", "TB.FermiSamples.C118_band_sum", "TB.FermiSamples.C118_newton", "TB.FermiSamples.C118_newton_samples", "TB.FermiSamples.C118_energy_forgotten", "TB.FermiSamples.C118_gradient_sum", "TB.FermiSamples.C118_gradient_band_sum", "TB.FermiSamples.C118_det", "TB.FermiSamples.C118_scale", "TB.FermiSamples.C118_plane_area", "TB.FermiSamples.C118_cube_gradient", "TB.FermiSamples.C118_coarea", "TB.FermiSamples.C118_left_out"], "note": ""},
{"property": "C119", "status": "proved", "theorems": ["TB.Naive.C119_fermi_count", "TB.Naive.C119_fermi_negative", "TB.Naive.C119_fermi_gap", "TB.Naive.C119_fermi_full", "TB.Naive.C119_fermi_shift", "TB.Naive.C119_energy", "TB.Naive.C119_energy_empty", "TB.Naive.C119_energy_limit"], "note": ""},
{"property": "C120", "status": "proved", "theorems": ["TB.Gauss.C120_gauss_5_df", "TB.Gauss.C120_gauss_7_df", "TB.Gauss.C120_gauss_4_f", "TB.Gauss.C120_gauss_6_f", "TB.Gauss.C120_monotone", "TB.Gauss.C120_degree"], "note": ""},
{"property": "C121", "status": "proved", "theorems": ["TB.Bulk.C121_cubic_formula", "TB.Bulk.C121_sign", "TB.Bulk.C121_isotropic_mass", "TB.Bulk.C121_old", "TB.Bulk.C121_rotation", "TB.Bulk.C121_errors", "TB.Bulk.C121_heat"], "note": ""},
{"property": "C122", "status": "proved", "theorems": ["TB.PropsDosInit.C122_grid", "TB.PropsDosInit.C122_bands", "TB.PropsDosInit.C122_inversion", "TB.PropsDosInit.C122_wrap", "TB.PropsDosInit.C122_arguments", "TB.PropsDosInit.C122_options", "TB.PropsDosInit.C122_kind", "TB.PropsDosInit.C122_check", "TB.PropsDosInit.C122_range_plain", "TB.PropsDosInit.C122_range_newton", "TB.PropsDosInit.C122_parabola", "TB.PropsDosInit.C122_range_misses", "TB.PropsDosInit.C122_units"], "note": ""},
{"property": "C123", "status": "proved", "theorems": ["TB.PropsLipschitz.C123_overlap", "TB.PropsLipschitz.C123_orthogonal", "TB.PropsLipschitz.C123_range"], "note": ""},
{"property": "C124", "status": "proved", "theorems": ["TB.PropsMergeAxes.C124_merge", "TB.PropsMergeAxes.C124_errors", "TB.PropsMergeAxes.C124_default", "TB.PropsMergeAxes.C124_compose"], "note": ""},
{"property": "C125", "status": "proved", "theorems": ["TB.PropsGeigh.C125_geigh", "TB.PropsGeigh.C125_geigvalsh", "TB.PropsGeigh.C125_not_posdef", "TB.PropsGeigh.C125_lengths", "TB.PropsGeigh.C125_single"], "note": ""},
{"property": "C126", "status": "proved", "theorems": ["TB.PropsTbmInit.C126_gamma", "TB.PropsTbmInit.C126_no_symmetry", "TB.PropsTbmInit.C126_returns", "TB.PropsTbmInit.C126_arguments", "TB.PropsTbmInit.C126_trivial", "TB.PropsTbmInit.C126_exact"], "note": ""},
{"property": "C127", "status": "proved", "theorems": ["TB.PropsIco.C127_icosahedral", "TB.PropsIco.C127_defect_axis"], "note": ""},
{"property": "C128", "status": "proved", "theorems": ["TB.PropsCheckSym.C128_check_symmetry", "TB.PropsCheckSym.C128_check_bound", "TB.PropsCheckSym.C128_defect_inversion", "TB.PropsCheckSym.C128_check_neighbors"], "note": ""},
{"property": "C129", "status": "proved", "theorems": ["TB.PropsQeBin.C129_read_wavefunctions", "TB.PropsQeBin.C129_order", "TB.PropsQeBin.C129_no_files", "TB.PropsQeBin.C129_other_lattice", "TB.PropsQeBin.C129_missing_files", "TB.PropsQeBin.C129_defect_polarisation", "TB.PropsQeBin.C129_truncated"], "note": ""},
{"property": "C130", "status": "proved", "theorems": ["TB.PropsQeBin.C130_defect_shift", "TB.PropsQeBin.C130_defect_real_parts", "TB.PropsQeBin.C130_truncated"], "note": ""},
{"property": "C131", "status": "proved", "theorems": ["TB.PropsFromDisk.C131_from_disk", "TB.PropsFromDisk.C131_errors", "TB.PropsFromDisk.C131_defect_units"], "note": ""},
{"property": "C132", "status": "proved", "theorems": ["TB.PropsCards.C132_k_points", "TB.PropsCards.C132_kpath_str", "TB.PropsCards.C132_k_grid", "TB.PropsCards.C132_k_points_wannier", "TB.PropsCards.C132_k_path_wannier", "TB.PropsCards.C132_crystal", "TB.PropsCards.C132_crystal_errors", "TB.PropsCards.C132_crystal_wannier"], "note": ""},
{"property": "C133", "status": "proved", "theorems": ["TB.PropsKCache.C133_history_free", "TB.PropsKCache.C133_defect_order", "TB.PropsKCache.C133_evaluations"], "note": ""},
{"property": "C134", "status": "proved", "theorems": ["TB.PropsQeRead.C134_one_atom", "TB.PropsQeRead.C134_defect_many_atoms", "TB.PropsQeRead.C134_other_index"], "note": ""},
{"property": "C135", "status": "proved", "theorems": ["TB.PropsQeRead.C135_read_projections", "TB.PropsQeRead.C135_too_many", "TB.PropsQeRead.C135_wrong_length"], "note": ""},
{"property": "C136", "status": "proved", "theorems": ["TB.PropsQeRead.C136_read_bandx_raw", "TB.PropsQeRead.C136_errors"], "note": ""},
{"property": "C137", "status": "proved", "theorems": ["TB.PropsQeRead.C137_valence", "TB.PropsQeRead.C137_valence_errors", "TB.PropsQeRead.C137_cutoff"], "note": ""},
{"property": "C138", "status": "proved", "theorems": ["TB.PropsExtraCubes.C138_constructor", "TB.PropsExtraCubes.C138_affine", "TB.PropsExtraCubes.C138_mean", "TB.PropsExtraCubes.C138_derivative", "TB.PropsExtraCubes.C138_limits", "TB.PropsExtraCubes.C138_defect_negative"], "note": ""},
{"property": "C139", "status": "proved", "theorems": ["TB.PropsElements.C139_tables", "TB.PropsElements.C139_mass", "TB.PropsElements.C139_laws", "TB.PropsElements.C139_defect_electrons"], "note": ""},
{"property": "C140", "status": "proved", "theorems": ["TB.PropsQePrepare.C140_dictionary", "TB.PropsQePrepare.C140_nothing_missing", "TB.PropsQePrepare.C140_commands", "TB.PropsQePrepare.C140_defect_injection"], "note": ""},
{"property": "C141", "status": "proved", "theorems": ["TB.PropsObjExport.C141_meshes", "TB.PropsObjExport.C141_exceptions", "TB.PropsObjExport.C141_defect_materials", "TB.PropsObjExport.C141_defect_units"], "note": ""},
{"property": "C142", "status": "proved", "theorems": ["TB.PropsWannierGrid.C142_inferred", "TB.PropsWannierGrid.C142_grid", "TB.PropsWannierGrid.C142_consistent", "TB.PropsWannierGrid.C142_plot", "TB.PropsWannierGrid.C142_defect_order", "TB.PropsWannierGrid.C142_errors"], "note": ""},
{"property": "C143", "status": "proved", "theorems": ["TB.PropsQeShow.C143_orbitals", "TB.PropsQeShow.C143_orbitals_error", "TB.PropsQeShow.C143_orbitals_count", "TB.PropsQeShow.C143_pieces"], "note": ""},
{"property": "C144", "status": "proved", "theorems": ["TB.PropsKPlot.C144_label", "TB.PropsKPlot.C144_labels", "TB.PropsKPlot.C144_offset", "TB.PropsKPlot.C144_colours", "TB.PropsKPlot.C144_block", "TB.PropsKPlot.C144_defect_degenerate"], "note": ""},
{"property": "C145", "status": "proved", "theorems": ["TB.PropsFermiPlot.C145_samples", "TB.PropsFermiPlot.C145_bands", "TB.PropsFermiPlot.C145_defect_places", "TB.PropsFermiPlot.C145_contours", "TB.PropsFermiPlot.C145_planes", "TB.PropsFermiPlot.C145_accelerated", "TB.PropsFermiPlot.C145_defect_degenerate"], "note": ""},
{"property": "C146", "status": "proved", "theorems": ["TB.PropsTetraAll.C146_accuracy", "TB.PropsTetraAll.C146_exact", "TB.PropsTetraAll.C146_derivative", "TB.PropsTetraAll.C146_flat", "TB.PropsTetraAll.C146_cell", "TB.PropsTetraAll.C146_distribution", "TB.PropsTetraAll.C146_cell_derivative", "TB.PropsTetraAll.C146_grid"], "note": ""},
{"property": "C147", "status": "proved", "theorems": ["TB.PropsCubeAll.C147_accuracy", "TB.PropsCubeAll.C147_flat", "TB.PropsCubeAll.C147_cell", "TB.PropsCubeAll.C147_agree", "TB.PropsCubeAll.C147_grid"], "note": ""},
{"property": "C148", "status": "proved", "theorems": ["TB.PropsQeInput.C148_scf", "TB.PropsQeInput.C148_relax", "TB.PropsQeInput.C148_bands", "TB.PropsQeInput.C148_nscf", "TB.PropsQeInput.C148_nscf_nosym", "TB.PropsQeInput.C148_counts", "TB.PropsQeInput.C148_failing", "TB.PropsQeInput.C148_degauss", "TB.PropsQeInput.C148_bandx", "TB.PropsQeInput.C148_dos", "TB.PropsQeInput.C148_projections", "TB.PropsQeInput.C148_overlaps", "TB.PropsQeInput.C148_fermi_surface", "TB.PropsQeInput.C148_dielectric", "TB.PropsQeInput.C148_wannier", "TB.PropsQeInput.C148_absolute"], "note": ""},
{"property": "C149", "status": "proved", "theorems": ["TB.PropsQeOutput.C149_bandx", "TB.PropsQeOutput.C149_bandx_missing", "TB.PropsQeOutput.C149_dos", "TB.PropsQeOutput.C149_dos_hidden", "TB.PropsQeOutput.C149_dos_without", "TB.PropsQeOutput.C149_dos_one", "TB.PropsQeOutput.C149_dos_two_blanks", "TB.PropsQeOutput.C149_dielectric", "TB.PropsQeOutput.C149_dielectric_lengths", "TB.PropsQeOutput.C149_dielectric_one", "TB.PropsQeOutput.C149_version", "TB.PropsQeOutput.C149_version_missing"], "note": ""},
{"property": "C150", "status": "proved", "theorems": ["TB.PropsRandomize.C150_asym", "TB.PropsRandomize.C150_bs", "TB.PropsRandomize.C150_hermitian", "TB.PropsRandomize.C150_normalized", "TB.PropsRandomize.C150_distance", "TB.PropsRandomize.C150_print", "TB.PropsRandomize.C150_print_scale", "TB.PropsRandomize.C150_print_single", "TB.PropsRandomize.C150_norms", "TB.PropsRandomize.C150_norms_hidden"], "note": ""},
{"property": "C151", "status": "proved", "theorems": ["TB.PropsCubeSamples.C151_inside", "TB.PropsCubeSamples.C151_cell", "TB.PropsCubeSamples.C151_affine", "TB.PropsCubeSamples.C151_affine_grads", "TB.PropsCubeSamples.C151_extra", "TB.PropsCubeSamples.C151_count", "TB.PropsCubeSamples.C151_density", "TB.PropsCubeSamples.C151_make"], "note": ""},
{"property": "C152", "status": "proved", "theorems": ["TB.PropsShare.C152_family", "TB.PropsShare.C152_isolated", "TB.PropsShare.C152_frame", "TB.PropsShare.C152_transform", "TB.PropsShare.C152_linked", "TB.PropsShare.C152_defect"], "note": ""}
]}
