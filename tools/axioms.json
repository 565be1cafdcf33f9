{
"propext, Quot.sound": [
"blockdist_partition",
"distributeDimension_gather",
"distribute_gather",
"distributeData_gather",
"distribute_aligned",
"npy_save_eq_serial",
"npy_save_disjoint",
"npy_load_slab",
"npy_save_load_roundtrip",
"pvar_idle_rank_nan",
"reader1_single",
"reader1_single_partial",
"reader1_past_end",
"reader2_dict_tiles",
"cache_save_multivariable_serial_fails",
"cache_save_variable_axis_fails",
"parallel_crash_hole_exact",
"stream_no_overlap_drops",
"stream_dft_entries",
"pvar_nan",
"band_default",
"band_one_bound_ignored",
"modes_matrix",
"extract_exact",
"extract_last_fails",
"extract_minimal_fails",
"inference_fails",
"create_subcomm_grid",
"pr0_once",
"stream_modes_shape_partial",
"gram_shape_partial",
"gram_shape_fails",
"stream_netcdf_never_ends",
"stream_netcdf_no_termination",
"freq_idx_alone_fails",
"freq_idx_with_band_partial",
"modes_matrix_overflow_fails",
"conv_serial_partial",
"conv_parallel_exact",
"pod_modes_exact",
"pod_many_modes_fails",
"data_shape_recognised",
"data_shape_fails",
"real_detection_exact",
"netcdf_few_snapshots_fail",
"fit_ranks_exist",
"error_hangs",
"fit_error_hangs",
"netcdf_error_hangs",
"mat_error_hangs",
"rank_stuck",
"session_fit_calls",
"shared_write_intact",
"shared_write_early_fails",
"shared_inv",
"count_mul_iff",
"mode_pages",
"mode_pages_nodup",
"data_tracer_exact",
"data_tracer_values",
"data_tracer_default_fails",
"tracer_method_fails",
"tracer_method_partial",
"weights_serial_bytes",
"weights_parallel_bytes_exact",
"weights_big_endian_fails",
"weights_native_partial",
"weights_file_eq",
"other_order",
"chdir_mixed_fails",
"session_partial",
"session_absolute_partial",
"coeffs_mixed_fails",
"project_reconstruct_exact",
"project_reconstruct_fails",
"all_modes_copy",
"folders_exact",
"recon_files_exact",
"recon_overwritten_fails",
"crash_projection_fresh",
"fit_inputs_exact",
"params_exact",
"params_partial",
"runs_state",
"chunk_count",
"pieces_local",
"crash_pod_fresh",
"crash_pod_modes_partial"
],
"propext, Classical.choice, Quot.sound": [
"blockdist_balanced",
"npy_load_gather",
"npy_load_default_partial",
"npy_load_default_exact",
"npy_load_default_gather_fails",
"gram_rank_independent",
"pvar_correct",
"pvar_idle_rank_fails",
"reader1_full",
"reader1_distributed",
"assign_slice",
"reader1_complex_partial",
"reader1_complex_fails",
"exists_unique",
"reader2_dict_content",
"reader2_redistribute",
"inputData2_spec",
"mat_reader_order",
"blocks_position",
"blocks_number",
"feasible_iff",
"overlap_spec",
"overlap_ge_hundred",
"getBlocks_correct",
"fit_blocks_two_stage",
"long_time_mean_array",
"long_time_mean_pieces",
"long_time_mean_same",
"mean_type_accepted",
"mean_type_effect",
"blockwise_zero_mean",
"freq_axis_real",
"freq_axis_complex_partial",
"freq_axis_complex_even",
"freq_axis_complex_odd_fails",
"freq_axis_full",
"one_sided_factor_even_partial",
"one_sided_energy_even_partial",
"one_sided_factor_odd_fails",
"crossSpectral_posSemidef",
"eigenvalues_real_nonneg",
"spod_sorted_and_matched",
"saved_modes_leading",
"modes_orthonormal",
"modes_orthonormal_distinct",
"modes_unit_norm",
"total_energy",
"total_energy_reported",
"csd_expansion",
"conf_bounds_partial",
"conf_bounds_fails",
"conf_bounds_exchanged",
"disk2_saved_exactly_once",
"disk2_one_per_pass",
"disk2_file_content",
"disk2_messages_match",
"disk2_file_end_to_end",
"disk2_no_deadlock",
"disk2_terminates",
"blocks_present_iff",
"cache_used_iff_complete_partial",
"reuse_without_savefft_fails",
"cache_reload_serial_partial",
"cache_reload_parallel_partial",
"cache_reload_multivariable_parallel_fails",
"cache_crash_partial",
"cache_crash_fails",
"cache_stale_mixture_fails",
"parallel_crash_hole_fails",
"get_modes_exact",
"get_modes_latest_disk_partial",
"get_modes_latest_disk2_partial",
"get_modes_stale_disk_fails",
"get_modes_stale_mode_fails",
"get_modes_latest_fails",
"names_injective",
"names_ordered",
"names_order_beyond",
"stream_exact",
"stream_blocks_fails",
"stream_count_fails",
"stream_slots",
"stream_mean",
"stream_dft",
"stream_update",
"stream_truncate",
"stream_closed_form",
"stream_orthonormal",
"stream_span_fails",
"stream_repeat_fails",
"modes_saved_exact",
"modes_saved_partial",
"modes_saved_fails",
"first_fit_weights",
"refit_weights_exact",
"refit_weights_partial",
"refit_weights_fails",
"normalization_serial_eq_parallel_partial",
"normalization_nan_differs",
"band_selection",
"op_exact_partial",
"op_independent",
"op_exact_tol_zero",
"op_idempotent",
"op_residual_orthogonal",
"op_truncation_fails",
"projection_parallel",
"projection_files",
"time_idx_named",
"time_idx_list",
"time_idx_default_partial",
"time_idx_default_fails",
"conv_window",
"conv_centred_partial",
"conv_centred_odd_fails",
"pod_eig_energy",
"pod_orthonormal_partial",
"pod_span",
"pod_reconstruct_partial",
"pod_example",
"pod_repeated_fails",
"pod_keeps_partial",
"pod_order_free",
"pod_keeps_fails",
"scaling_real_partial",
"scaling_complex_partial",
"scaling_zero_row_fails",
"scaling_real_row_fails",
"scaling_type_case_fails",
"extract_aligned_partial",
"inference_partial",
"inference_column_partial",
"dLat_spec",
"dLon_spec",
"geo_2d_partial",
"geo_small_fails",
"geo_first_meridian_fails",
"geo_total_exact",
"geo_total_fails",
"geo_3d_flat",
"geo_3d_partial",
"geo_3d_fails",
"l1_error",
"l2_error",
"linf_error",
"rel_errors_partial",
"linf_rel_exact",
"linf_rel_fails",
"rel_zero_reference_fails",
"lErr_unknown",
"errors_degenerate",
"h1_exact",
"h1_partial",
"h1_degenerate",
"h1_fails",
"config_values_partial",
"config_accepts",
"parseYaml_spec",
"config_missing_fails",
"config_second_key_fails",
"nearest_freq",
"nearest_freq_mono",
"nearest_freq_mono_sorted",
"nearest_coords_exact",
"nearest_coords_partial",
"nearest_coords_fails",
"energy_exact",
"energy_even_partial",
"energy_odd_fails",
"energy_missing_fails",
"ortho_call",
"verdict_exact",
"ortho_real_partial",
"ortho_same",
"ortho_parallel",
"ortho_imaginary_fails",
"ortho_int_fails",
"ortho_int_one_point",
"ortho_missing_mode_fails",
"ortho_negative_exact",
"get_all_modes_partial",
"get_all_modes_stale_fails",
"stream_energy",
"stream_weight_fails",
"stream_succeeds_exact",
"fit_succeeds_exact",
"fit_two_ranks_fails",
"stream_ltm_fails",
"stream_fit_rest",
"stream_reads_partial",
"stream_datasets_fails",
"normalize_data_exact",
"normalize_data_partial",
"normalize_data_fails",
"conv_parallel_fails",
"conv_corr_interior_partial",
"conv_corr_fails",
"conv_band_exact",
"conv_full_axis_partial",
"conv_band_fails",
"conv_succeeds_whole_axis",
"convModesFile_eq",
"conv_modes_file_partial",
"conv_modes_file_fails",
"pod_shape_exact",
"pod_shape_nt",
"pod_multivariable_fails",
"load_eq",
"pod_load_partial",
"pod_complex_fails",
"pod_reconstruct_exact",
"pod_reconstruct_weights_fails",
"pod_parallel_corr",
"pod_parallel_coeffs",
"fit_rank_independent",
"fit_two_stage_eq_serial",
"fit_formula",
"fit_solves_spod",
"solver_exists",
"weights_accepted_exact",
"variables_checked",
"data_shape_mismatch",
"default_weights_one",
"weights_applied_partial",
"weights_shape_fails",
"window_gain",
"window_mean",
"hamming_bounds",
"hamming_symm",
"hamming_sum",
"real_detection_partial",
"real_detection_fails",
"folder_injective",
"folder_settings_fails",
"netcdf_fit_exact",
"netcdf_reads_partial",
"netcdf_large_snapshots_fail",
"netcdf_more_variables_fail",
"netcdf_missing_variables_zero",
"netcdf_variables",
"padding_partial",
"padding_fails",
"mat_fit_exact",
"mat_reads_partial",
"mat_reads_small",
"mat_nonfinite_fails",
"mat_shape_not_checked",
"mat_point_broadcast",
"no_deadlock",
"fit_no_deadlock",
"reach_sum",
"mat_error_position",
"uniform_error_ends",
"pass_error_exact",
"stored_blocks_agreed",
"look_inv",
"session_no_deadlock",
"session_no_race",
"session_complete",
"barrier_separates",
"acts_no_deadlock",
"stream_fit_rank_independent",
"stream_fit_formula",
"svd_exists",
"nUpdates_spec",
"newCol_spec",
"project_ser",
"project_par",
"reconstruction_file",
"reconstruction_conv_file",
"reconstruction_no_times_fails",
"roundtrip",
"project_reconstruct",
"coef_svd_exists",
"pipeline_rank_independent",
"reconstruction_real_fails",
"reconstruction_real_partial",
"flat_projection_exact",
"projection_svd_free",
"projection_svd_option",
"mInv_unique",
"pod_fit_files",
"pod_unknown_mean",
"pod_projection_files",
"pod_files_orthonormal_partial",
"eig_solver_exists",
"podExEigs",
"pod_roundtrip_partial",
"pod_reconstruct_given",
"pod_modes_idx_fails",
"plot_data_second",
"plot_data_first_partial",
"plot_data_square_fails",
"plot_default_fails",
"plot_data_accepts",
"plot_one_coordinate",
"video_frame_plot",
"plot_mode_limits",
"plot_mode_limits_first_partial",
"plot_mode_square_fails",
"axis_limits_exact",
"axis_limits_fails",
"axis_limits_margin",
"max_marker_exact",
"max_marker_fails",
"max_marker_tie_fails",
"shift180_partial",
"shift180_odd_fails",
"shift180_first_axis_fails",
"shift180_restored_partial",
"shift180_exception_fails",
"shift180_exception_partial",
"fftshift_drawn",
"shift180_fftshift_fails",
"slice_coords_exact",
"slice_coords_partial",
"slice_cube_fails",
"slice_default_fails",
"tracer_exact",
"tracer_fails",
"tracer_times",
"tracer_rows_exact",
"tracer_rows_used",
"video_times",
"video_exact",
"video_frames",
"video_method_fails",
"video_method_partial",
"data_method",
"report_peaks_partial",
"report_pages_partial",
"report_negative_fails",
"report_period",
"bsearch_spec",
"bsearch_mono",
"report_period_range",
"modes_alias_file",
"modes_alias_fails",
"modes_copy_partial",
"readonly_modes_exact",
"readonly_fails",
"readonly_partial",
"projection_kept_partial",
"projection_overwritten_fails",
"recon_kept_partial",
"folder_same",
"interrupted_at",
"crash_fit_fresh",
"crash_fit_modes",
"crash_fit_mixed",
"crash_fit_mixed_fails",
"params_modes_fails",
"params_savedir_fails",
"pages_files",
"report_files",
"video_files",
"coeffs_files",
"coeffs_files_exact",
"coeffs_open_figure_fails",
"report_then_coeffs_fails",
"session_files_partial",
"open_figures_exact",
"own_figure_lost_fails",
"report_leaks_fails",
"coeffs_size_fails",
"size_partial",
"eigs_inside",
"spectrum_visible_exact",
"spectrum_visible_fails",
"spectrum_position",
"shade_mono",
"shade_injective_exact",
"subplots_exact",
"subplots_blank_fails",
"subplots_constant_fails",
"checkpoint_best",
"checkpoint_stale_fails",
"trained_files",
"inference_loads_exact",
"inference_uses",
"inference_uses_real",
"imag_missing_fails",
"imag_stale_fails",
"names_differ",
"anyImag_iff",
"state_after_inference",
"train_after_init_partial",
"training_order_fails",
"read_data_exact",
"read_npy_fails",
"read_other_raises",
"read_format",
"conv_serial",
"conv_ranks",
"conv_affine",
"conv_affine_ranks",
"conv_energy_exact",
"conv_energy_fails",
"conv_selection_exact",
"conv_order_fails",
"conv_single_fails",
"conv_memory_fails",
"spod_optimal",
"spod_optimal_freq",
"fit_library_independent",
"fit_affine",
"fit_weights_scaled",
"fit_reordered",
"full_spectrum_exact",
"full_spectrum_partial",
"full_spectrum_fails",
"total_variance_partial",
"total_variance_odd_exact",
"total_variance_odd_fails",
"total_variance_full_exact",
"reconstruction_splits_partial",
"best_approximation_partial",
"best_approximation_fails",
"more_frequencies_partial",
"more_frequencies_fails",
"reproject_same",
"reproject_real",
"projection_affine",
"coeffs_zero_mean",
"pod_energy_bound",
"pod_optimal_partial",
"pod_optimal_fails",
"pod_changed_data",
"picture_names",
"picture_files",
"mode_call_files",
"tracer_names",
"data_tracer_names",
"report_pages_exact",
"nearest_self",
"report_ranks_fails",
"report_ranks_partial",
"report_file_last",
"sizes_printed",
"single_frequency_coeffs",
"coeffs_inner_products",
"fit_masked",
"projection_masked",
"saved_modes_prefix",
"fit_blocks_reordered",
"fit_time_reversed",
"unit_of_time",
"freqAxis_units",
"nearest_units",
"band_units",
"accepted_network_fails",
"accepted_network_partial",
"prediction_earlier_fails",
"prediction_earlier_partial",
"reads_written",
"fit_isometry",
"fit_pattern",
"fit_outside_blocks",
"finite_modes_exact",
"finite_modes_rank",
"finite_modes_fails",
"finite_modes_partial",
"finite_steady_fails",
"pod_finite_exact",
"pod_finite_fails",
"norm_runs",
"norm_serial",
"norm_parallel",
"norm_variable_axis_fails",
"norm_idle_rank_fails",
"norm_constant_fails",
"norm_flat_fails",
"norm_dict_fails",
"norm_units",
"stream_norm_exact",
"stream_norm_fails",
"stream_norm_start_fails",
"stream_steady",
"stream_steady_ltm",
"stream_zero_weight",
"stream_finite_partial",
"stream_zero_block_fails",
"stream_rest_fails",
"stream_masked_fails",
"stream_options_fail",
"stream_zero_mean_fails",
"stream_options_partial",
"stream_bounds_fail",
"stream_bounds_shape_fails",
"standard_bounds_partial",
"stream_eig_pos",
"getters_fail",
"getters_partial",
"stream_svd_free",
"stream_isometry",
"stream_scaled",
"slice_shown",
"slice_fftshift",
"slice_default_coords",
"slice_missing_fails",
"slice_first_missing_fails",
"slice_third_missing",
"slice_marker_exact",
"slice_marker_fails",
"stream_error_silent",
"stream_error_zero",
"stream_error_first",
"stream_read_ok",
"stream_ends_partial",
"stream_error_hangs",
"reuse_same_input_partial",
"reuse_exact",
"reuse_energy_exact",
"reuse_other_data_fails",
"one_source_partial",
"reuse_first_fit",
"reuse_mixes_fails",
"fit_triangle",
"fit_noise",
"fit_domain_mono",
"fit_longer",
"fit_repeated",
"stream_truncation",
"pod_triangle",
"pod_noise",
"pod_domain_mono",
"pod_longer",
"pod_repeated",
"reconstruction_energy",
"reconstruction_stable",
"fit_parts",
"fit_uncorrelated",
"pod_error",
"podFour_error",
"pod_left_out",
"pod_closest",
"fit_constraint",
"stream_constraint",
"pod_constraint",
"workflow_constraint",
"reconstruction_constraint",
"reuse_any_grid_exact",
"reuse_other_grid_partial",
"reuse_spread_fails",
"emulate_exact",
"emulate_error",
"emulate_complex_error",
"emulate_remainder_fails",
"emulate_zero_row_fails",
"emulate_real_row_fails",
"pod_given_distance",
"emulated_fields_partial",
"pod_norm_partial",
"pod_norm_constant_fails",
"pod_norm_idle_fails",
"pod_norm_flat_fails",
"pod_norm_units",
"fit_rank",
"fit_points",
"fit_low_rank",
"pod_rank",
"pod_rank_exact",
"pod_parts",
"stream_triangle",
"stream_noise",
"stream_domain_mono",
"stream_parts",
"pod_workflow_constraint",
"pod_reconstruction_energy",
"pod_reconstruction_stable",
"pod_coeffs_zero_mean",
"pod_project_again",
"stream_workflow_constraint",
"stream_single_frequency",
"stream_rank",
"chunk_size_partial",
"chunk_size_fails",
"mat_chunk_size",
"stream_longer",
"pod_crash_file",
"fit_rounding",
"rounding_ranks",
"roundBound_le",
"gram_exact_possible",
"fit_floating",
"pod_floating",
"pod_exact_possible",
"pod_project_floating",
"pod_project_possible",
"reported_floating",
"close_units",
"rank_one_possible",
"rank_one_nan",
"spod_floating",
"hat_near",
"hatBound_le",
"hat_exact_possible",
"fit_periodic",
"mode_unit_norm",
"modes_orthogonal",
"small_mode_lost",
"mode_exact_possible",
"overlap_decimal_fails",
"overlap_whole_partial",
"overlap_any_partial",
"ceilDiv_exact",
"halfCount_exact",
"chunks_exact",
"chunks_mat_exact",
"freqReal_axis",
"freqFull_axis",
"rn_double",
"pvar_rounding",
"nanvar_rounding",
"pvar_nonneg",
"weight_rounding",
"weights_serial_parallel",
"seqStat_possible",
"constant_variance_positive",
"scaling_double",
"scaling_double_inexact",
"scaling_double_zero_row",
"check_unit_norm",
"check_orthogonal",
"check_double",
"check_lost_mode",
"inner_rounding",
"spod_project_floating",
"spod_roundtrip_floating",
"coefficients_rounding",
"reconstruct_rounding",
"orthonormal_energy",
"close_modes_lost",
"spod_project_possible",
"stream_floating",
"column_near",
"stream_possible",
"streamBound_le",
"streaming_fit_floating",
"basis_floating",
"stream_values_floating",
"stream_columns_floating",
"principal_exists",
"first_update_possible",
"conv_floating",
"conv_floating_ranks",
"convBound_le",
"conv_possible",
"normalized_floating_partial",
"normBound_le",
"hat_normalized",
"hat_normalized_possible",
"normalized_floating_fails",
"errors_floating",
"errors_floating_zero",
"errors_floating_two",
"h1_floating",
"errors_possible",
"h1_possible",
"fit_no_overflow",
"data_below_max_overflow",
"hatSize_le",
"pod_no_overflow",
"fluctValue_le",
"corrValue_le",
"modes_no_overflow",
"factorValue_le",
"modeValue_le",
"positive_eigenvalue_overflow",
"pod_reproducible",
"mean_reproducible",
"corr_reproducible",
"order_matters",
"unit_power_two",
"tiny_data_lost",
"rn_scales",
"eigs_real_partial",
"eigs_real_fails",
"modes_real_fails",
"ordered_possible"
],
"none": [
"npy_load_default_fails",
"pod_default_modes_fails",
"modes_method"
],
"propext": [
"npy_load_default_balanced_partial",
"reader1_single_fails",
"one_sided_factor_fullspectrum_fails",
"two_sided_factor_complex",
"stream_first_blocks_partial",
"extract_horizon_zero",
"inference_short",
"complexPredict_parts",
"stream_modes_shape_fails",
"conv_modes_file_wrong",
"options_exact",
"options_partial",
"options_fails",
"dtype_fails",
"padding_exact",
"stored_float_exact",
"stored_float_fails",
"get_all_modes_again",
"get_all_modes_twice_fails",
"method_reconstruct_exact",
"method_project_exact",
"method_project_fails",
"method_reconstruct_fails",
"method_partial",
"crash_projection_exact",
"crash_projection_mixed_fails",
"crash_pod_projection_mixed_fails",
"dtype_same_exact",
"dtype_single_fails",
"methods_exact",
"slice_method_fails",
"stream_error_harmless",
"crash_pod_exact",
"crash_pod_mixed_fails"
]
}