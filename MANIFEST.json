{
 "claims": [
  {
   "property": "C01",
   "status": "proved",
   "theorems": [
    "Verif.Props.blockdist_partition"
   ],
   "note": ""
  },
  {
   "property": "C02",
   "status": "proved",
   "theorems": [
    "Verif.Props.blockdist_balanced"
   ],
   "note": ""
  },
  {
   "property": "C03",
   "status": "proved",
   "theorems": [
    "Verif.Props.distributeDimension_gather",
    "Verif.Props.distribute_gather",
    "Verif.Props.distributeData_gather"
   ],
   "note": ""
  },
  {
   "property": "C04",
   "status": "proved",
   "theorems": [
    "Verif.Props.distribute_aligned"
   ],
   "note": ""
  },
  {
   "property": "C05",
   "status": "proved",
   "theorems": [
    "Verif.Props.npy_save_eq_serial",
    "Verif.Props.npy_save_disjoint"
   ],
   "note": "MPI sub-array/Write_all semantics trusted"
  },
  {
   "property": "C06",
   "status": "proved",
   "theorems": [
    "Verif.Props.npy_load_slab",
    "Verif.Props.npy_save_load_roundtrip",
    "Verif.Props.npy_load_gather"
   ],
   "note": ""
  },
  {
   "property": "C07",
   "status": "partial",
   "theorems": [
    "Verif.Props.npy_load_default_fails",
    "Verif.Props.npy_load_default_partial",
    "Verif.Props.npy_load_default_balanced_partial",
    "Verif.Props.npy_load_default_exact",
    "Verif.Props.npy_load_default_gather_fails"
   ],
   "note": "property violated by the code (operator precedence, parallel.py:288): negation proved, exact condition proved"
  },
  {
   "property": "C08",
   "status": "proved",
   "theorems": [
    "Verif.Props.gram_rank_independent"
   ],
   "note": "exact arithmetic"
  },
  {
   "property": "C09",
   "status": "proved",
   "theorems": [
    "Verif.Props.pvar_correct"
   ],
   "note": ""
  },
  {
   "property": "C10",
   "status": "partial",
   "theorems": [
    "Verif.Props.pvar_idle_rank_nan",
    "Verif.Props.pvar_idle_rank_fails",
    "Verif.Props.pvar_correct"
   ],
   "note": "property violated: idle rank gives NaN"
  },
  {
   "property": "C11",
   "status": "proved",
   "theorems": [
    "Verif.Props.reader1_full",
    "Verif.Props.reader1_distributed",
    "Verif.Props.assign_slice"
   ],
   "note": ""
  },
  {
   "property": "C12",
   "status": "partial",
   "theorems": [
    "Verif.Props.reader1_single",
    "Verif.Props.reader1_single_partial",
    "Verif.Props.reader1_single_fails",
    "Verif.Props.reader1_past_end"
   ],
   "note": "property violated when ts lies past the first dataset (reader.py:100 uses cum_read, not the file start); exact condition proved"
  },
  {
   "property": "C13",
   "status": "partial",
   "theorems": [
    "Verif.Props.reader1_complex_partial",
    "Verif.Props.reader1_complex_fails"
   ],
   "note": "property violated: complex data are cast to the float dtype; negation proved; holds for real data"
  },
  {
   "property": "C14",
   "status": "proved",
   "theorems": [
    "Verif.Props.reader2_dict_tiles",
    "Verif.Props.Tiles.exists_unique",
    "Verif.Props.reader2_dict_content"
   ],
   "note": ""
  },
  {
   "property": "C15",
   "status": "proved",
   "theorems": [
    "Verif.Props.reader2_redistribute",
    "Verif.Props.inputData2_spec"
   ],
   "note": "needs distinct file names and strictly increasing time labels, see reader2_duplicate_labels_fails, reader2_duplicate_file_fails (both proved); the branch with padding (MPI < 4 and 2^31 values or more) always raises, see C89"
  },
  {
   "property": "C16",
   "status": "proved",
   "theorems": [
    "Verif.Props.mat_reader_order"
   ],
   "note": ""
  },
  {
   "property": "C17",
   "status": "proved",
   "theorems": [
    "Verif.Props.blocks_position",
    "Verif.Props.blocks_number",
    "Verif.Props.feasible_iff"
   ],
   "note": ""
  },
  {
   "property": "C18",
   "status": "proved",
   "theorems": [
    "Verif.Props.overlap_spec",
    "Verif.Props.overlap_ge_hundred"
   ],
   "note": ""
  },
  {
   "property": "C19",
   "status": "proved",
   "theorems": [
    "Verif.Props.getBlocks_correct",
    "Verif.Props.fit_blocks_two_stage"
   ],
   "note": "needs a non-empty last piece; the reader makes three pieces per chunk; which records have a non-empty last piece is settled exactly in C89"
  },
  {
   "property": "C20",
   "status": "proved",
   "theorems": [
    "Verif.Props.long_time_mean_array",
    "Verif.Props.long_time_mean_pieces",
    "Verif.Props.long_time_mean_same"
   ],
   "note": ""
  },
  {
   "property": "C21",
   "status": "proved",
   "theorems": [
    "Verif.Props.mean_type_accepted",
    "Verif.Props.mean_type_effect",
    "Verif.Props.blockwise_zero_mean"
   ],
   "note": ""
  },
  {
   "property": "C22",
   "status": "proved",
   "theorems": [
    "Verif.Props.freq_axis_real"
   ],
   "note": ""
  },
  {
   "property": "C23",
   "status": "partial",
   "theorems": [
    "Verif.Props.freq_axis_complex_partial",
    "Verif.Props.freq_axis_complex_even",
    "Verif.Props.freq_axis_complex_odd_fails",
    "Verif.Props.freq_axis_full"
   ],
   "note": "property violated for odd n_dft (base.py:630): negation proved for every odd n>=3, full statement proved for even n"
  },
  {
   "property": "C24",
   "status": "partial",
   "theorems": [
    "Verif.Props.one_sided_factor_even_partial",
    "Verif.Props.one_sided_energy_even_partial",
    "Verif.Props.one_sided_factor_odd_fails",
    "Verif.Props.one_sided_factor_fullspectrum_fails",
    "Verif.Props.two_sided_factor_complex"
   ],
   "note": "property violated for odd n_dft and for real data with fullspectrum: negations proved; even case proved in full"
  },
  {
   "property": "C25",
   "status": "proved",
   "theorems": [
    "Verif.Props.crossSpectral_posSemidef",
    "Verif.Props.eigenvalues_real_nonneg"
   ],
   "note": ""
  },
  {
   "property": "C26",
   "status": "proved",
   "theorems": [
    "Verif.Props.spod_sorted_and_matched",
    "Verif.Props.saved_modes_leading"
   ],
   "note": ""
  },
  {
   "property": "C27",
   "status": "proved",
   "theorems": [
    "Verif.Props.modes_orthonormal",
    "Verif.Props.modes_orthonormal_distinct",
    "Verif.Props.modes_unit_norm"
   ],
   "note": "orthonormal eigenvectors are a hypothesis only for repeated eigenvalues; modes_repeated_eigenvalue_fails shows it is needed"
  },
  {
   "property": "C28",
   "status": "proved",
   "theorems": [
    "Verif.Props.total_energy",
    "Verif.Props.total_energy_reported",
    "Verif.Props.csd_expansion"
   ],
   "note": ""
  },
  {
   "property": "C29",
   "status": "partial",
   "theorems": [
    "Verif.Props.conf_bounds_partial",
    "Verif.Props.conf_bounds_fails",
    "Verif.Props.conf_bounds_exchanged"
   ],
   "note": "property violated for conf_level > 1/2 (the default): names of the bounds are exchanged; negation proved"
  },
  {
   "property": "C30",
   "status": "proved",
   "theorems": [
    "Verif.Props.disk2_saved_exactly_once",
    "Verif.Props.disk2_one_per_pass"
   ],
   "note": ""
  },
  {
   "property": "C31",
   "status": "proved",
   "theorems": [
    "Verif.Props.disk2_file_content",
    "Verif.Props.disk2_messages_match",
    "Verif.Props.disk2_file_end_to_end"
   ],
   "note": "MPI non-overtaking order trusted"
  },
  {
   "property": "C32",
   "status": "proved",
   "theorems": [
    "Verif.Props.disk2_no_deadlock",
    "Verif.Props.disk2_terminates"
   ],
   "note": "worst-case (unbuffered) sends"
  },
  {
   "property": "C33",
   "status": "partial",
   "theorems": [
    "Verif.Props.blocks_present_iff",
    "Verif.Props.cache_used_iff_complete_partial",
    "Verif.Props.reuse_without_savefft_fails"
   ],
   "note": "violated when reuse_blocks is set without savefft (AttributeError): negation proved; full iff proved otherwise"
  },
  {
   "property": "C34",
   "status": "partial",
   "theorems": [
    "Verif.Props.cache_reload_serial_partial",
    "Verif.Props.cache_reload_parallel_partial",
    "Verif.Props.cache_save_multivariable_serial_fails",
    "Verif.Props.cache_reload_multivariable_parallel_fails",
    "Verif.Props.cache_save_variable_axis_fails"
   ],
   "note": "violated for nv>=2 (negations proved for all shapes); proved in full for one variable, any grid, any number of ranks"
  },
  {
   "property": "C35",
   "status": "partial",
   "theorems": [
    "Verif.Props.cache_crash_partial",
    "Verif.Props.cache_crash_fails",
    "Verif.Props.cache_stale_mixture_fails",
    "Verif.Props.parallel_crash_hole_fails",
    "Verif.Props.parallel_crash_hole_exact"
   ],
   "note": "violated: crash in the last file raises later; stale caches are mixed silently; holes of a parallel file read as zeros"
  },
  {
   "property": "C36",
   "status": "partial",
   "theorems": [
    "Verif.Props.get_modes_exact",
    "Verif.Props.get_modes_latest_disk_partial",
    "Verif.Props.get_modes_latest_disk2_partial",
    "Verif.Props.get_modes_stale_disk_fails",
    "Verif.Props.get_modes_stale_mode_fails",
    "Verif.Props.get_modes_latest_fails"
   ],
   "note": "violated after mixed histories: exact result proved for every history"
  },
  {
   "property": "C37",
   "status": "proved",
   "theorems": [
    "Verif.Props.names_injective",
    "Verif.Props.names_ordered",
    "Verif.Props.names_order_beyond"
   ],
   "note": "injective without bound; order for indices below 10^8 as stated"
  },
  {
   "property": "C38",
   "status": "partial",
   "theorems": [
    "Verif.Props.stream_exact",
    "Verif.Props.stream_first_blocks_partial",
    "Verif.Props.stream_blocks_fails",
    "Verif.Props.stream_no_overlap_drops",
    "Verif.Props.stream_count_fails"
   ],
   "note": "violated: from block ceil(n/dn) on, streaming blocks start one snapshot later per turn; exact emission sequence proved for every stream"
  },
  {
   "property": "C39",
   "status": "proved",
   "theorems": [
    "Verif.Props.stream_slots",
    "Verif.Props.stream_exact"
   ],
   "note": ""
  },
  {
   "property": "C40",
   "status": "proved",
   "theorems": [
    "Verif.Props.stream_mean"
   ],
   "note": ""
  },
  {
   "property": "C41",
   "status": "proved",
   "theorems": [
    "Verif.Props.stream_dft",
    "Verif.Props.stream_dft_entries"
   ],
   "note": ""
  },
  {
   "property": "C42",
   "status": "proved",
   "theorems": [
    "Verif.Props.stream_update",
    "Verif.Props.stream_truncate",
    "Verif.Props.stream_closed_form",
    "Verif.Props.stream_orthonormal",
    "Verif.Props.stream_span_fails",
    "Verif.Props.stream_repeat_fails"
   ],
   "note": "for blocks outside the span of the basis (otherwise the code divides by zero: stream_span_fails)"
  },
  {
   "property": "C43",
   "status": "partial",
   "theorems": [
    "Verif.Props.modes_saved_exact",
    "Verif.Props.modes_saved_partial",
    "Verif.Props.modes_saved_fails"
   ],
   "note": "violated: request is lowered permanently; exact result proved for every history"
  },
  {
   "property": "C44",
   "status": "partial",
   "theorems": [
    "Verif.Props.first_fit_weights",
    "Verif.Props.refit_weights_exact",
    "Verif.Props.refit_weights_partial",
    "Verif.Props.refit_weights_fails"
   ],
   "note": "violated with variance normalization: caller's array is divided in place at each fit; exact result proved"
  },
  {
   "property": "C45",
   "status": "partial",
   "theorems": [
    "Verif.Props.normalization_serial_eq_parallel_partial",
    "Verif.Props.normalization_nan_differs",
    "Verif.Props.pvar_nan",
    "Verif.Props.pvar_idle_rank_nan"
   ],
   "note": "false with NaN data or idle ranks"
  },
  {
   "property": "C46",
   "status": "proved",
   "theorems": [
    "Verif.Props.band_selection",
    "Verif.Props.band_default",
    "Verif.Props.band_one_bound_ignored"
   ],
   "note": ""
  },
  {
   "property": "C47",
   "status": "partial",
   "theorems": [
    "Verif.Props.op_exact_partial",
    "Verif.Props.op_independent",
    "Verif.Props.op_exact_tol_zero",
    "Verif.Props.op_idempotent",
    "Verif.Props.op_residual_orthogonal",
    "Verif.Props.op_truncation_fails"
   ],
   "note": "violated at the default tolerance for badly scaled modes (negation proved); proved when no singular value is cut off, in particular for tol=0; idempotence proved for every tolerance"
  },
  {
   "property": "C48",
   "status": "proved",
   "theorems": [
    "Verif.Props.projection_parallel",
    "Verif.Props.projection_files"
   ],
   "note": ""
  },
  {
   "property": "C49",
   "status": "proved",
   "theorems": [
    "Verif.Props.modes_matrix"
   ],
   "note": ""
  },
  {
   "property": "C50",
   "status": "partial",
   "theorems": [
    "Verif.Props.time_idx_named",
    "Verif.Props.time_idx_list",
    "Verif.Props.time_idx_default_partial",
    "Verif.Props.time_idx_default_fails"
   ],
   "note": "violated by the default selection for one snapshot; everything else proved"
  },
  {
   "property": "C51",
   "status": "partial",
   "theorems": [
    "Verif.Props.conv_window",
    "Verif.Props.conv_centred_partial",
    "Verif.Props.conv_centred_odd_fails"
   ],
   "note": "full windows proved; centring violated for odd n_DFT"
  },
  {
   "property": "C52",
   "status": "partial",
   "theorems": [
    "Verif.Props.pod_eig_energy",
    "Verif.Props.pod_orthonormal_partial",
    "Verif.Props.pod_span",
    "Verif.Props.pod_reconstruct_partial",
    "Verif.Props.pod_example",
    "Verif.Props.pod_repeated_fails"
   ],
   "note": "proved for pairwise different positive eigenvalues; violated (non-symmetric eigen-solver) for repeated ones"
  },
  {
   "property": "C53",
   "status": "partial",
   "theorems": [
    "Verif.Props.pod_keeps_partial",
    "Verif.Props.pod_order_free",
    "Verif.Props.pod_keeps_fails"
   ],
   "note": "violated: eigenvalues are not sorted; proved when the solver returns them sorted"
  },
  {
   "property": "C54",
   "status": "partial",
   "theorems": [
    "Verif.Props.scaling_real_partial",
    "Verif.Props.scaling_complex_partial",
    "Verif.Props.scaling_zero_row_fails",
    "Verif.Props.scaling_real_row_fails",
    "Verif.Props.scaling_type_case_fails"
   ],
   "note": "violated for zero rows, purely real rows of complex data and data_type='Complex'; proved for all other data"
  },
  {
   "property": "C55",
   "status": "partial",
   "theorems": [
    "Verif.Props.extract_exact",
    "Verif.Props.extract_aligned_partial",
    "Verif.Props.extract_last_fails",
    "Verif.Props.extract_minimal_fails",
    "Verif.Props.extract_horizon_zero"
   ],
   "note": "violated: the last window is never used; exact result proved for all sizes"
  },
  {
   "property": "C56",
   "status": "partial",
   "theorems": [
    "Verif.Props.inference_partial",
    "Verif.Props.inference_column_partial",
    "Verif.Props.inference_fails",
    "Verif.Props.inference_short",
    "Verif.Props.complexPredict_parts"
   ],
   "note": "violated when n_out does not divide the horizon (ValueError): negation proved; exact result proved otherwise"
  },
  {
   "property": "C57",
   "status": "partial",
   "theorems": [
    "Verif.Props.dLat_spec",
    "Verif.Props.dLon_spec",
    "Verif.Props.geo_2d_partial",
    "Verif.Props.geo_small_fails",
    "Verif.Props.geo_first_meridian_fails",
    "Verif.Props.geo_total_exact",
    "Verif.Props.geo_total_fails",
    "Verif.Props.geo_3d_flat",
    "Verif.Props.geo_3d_partial",
    "Verif.Props.geo_3d_fails"
   ],
   "note": "violated: the first meridian has weight zero, the total is < 4 pi R^2 on every grid, IndexError for fewer than 4 latitudes, wrong 3-D layout for two or more variables; exact total and weights proved"
  },
  {
   "property": "C58",
   "status": "partial",
   "theorems": [
    "Verif.Props.l1_error",
    "Verif.Props.l2_error",
    "Verif.Props.linf_error",
    "Verif.Props.rel_errors_partial",
    "Verif.Props.linf_rel_exact",
    "Verif.Props.linf_rel_fails",
    "Verif.Props.rel_zero_reference_fails",
    "Verif.Props.lErr_unknown",
    "Verif.Props.errors_degenerate",
    "Verif.Props.h1_exact",
    "Verif.Props.h1_partial",
    "Verif.Props.h1_degenerate",
    "Verif.Props.h1_fails"
   ],
   "note": "absolute l1/l2/linf proved (with the triangle inequality); violated: linf_rel can be negative, one zero of the reference makes relative errors nan, the h1 error is zero for fields whose errors cancel in space; exact values proved"
  },
  {
   "property": "C59",
   "status": "partial",
   "theorems": [
    "Verif.Props.config_values_partial",
    "Verif.Props.config_accepts",
    "Verif.Props.parseYaml_spec",
    "Verif.Props.config_missing_fails",
    "Verif.Props.config_second_key_fails"
   ],
   "note": "values and acceptance proved exactly; violated: the result of the required-key check is dropped, the second key of a list item is lost"
  },
  {
   "property": "C60",
   "status": "proved",
   "theorems": [
    "Verif.Props.nearest_freq",
    "Verif.Props.nearest_freq_mono",
    "Verif.Props.nearest_freq_mono_sorted"
   ],
   "note": ""
  },
  {
   "property": "C61",
   "status": "partial",
   "theorems": [
    "Verif.Props.nearest_coords_exact",
    "Verif.Props.nearest_coords_partial",
    "Verif.Props.nearest_coords_fails"
   ],
   "note": "violated: index of the mirrored axis is reported; exact result proved"
  },
  {
   "property": "C62",
   "status": "partial",
   "theorems": [
    "Verif.Props.energy_exact",
    "Verif.Props.energy_even_partial",
    "Verif.Props.energy_odd_fails",
    "Verif.Props.energy_missing_fails"
   ],
   "note": "violated: only the real part of the transform is used, so sine content is invisible; exact value proved, claim proved for time-symmetric signals"
  },
  {
   "property": "C63",
   "status": "partial",
   "theorems": [
    "Verif.Props.ortho_call",
    "Verif.Props.verdict_exact",
    "Verif.Props.ortho_real_partial",
    "Verif.Props.ortho_same",
    "Verif.Props.ortho_parallel",
    "Verif.Props.ortho_imaginary_fails",
    "Verif.Props.ortho_int_fails",
    "Verif.Props.ortho_int_one_point",
    "Verif.Props.ortho_missing_mode_fails",
    "Verif.Props.ortho_negative_exact"
   ],
   "note": "violated: the imaginary part of the inner product is ignored, documented int arguments raise, a mode that was not stored is reported orthogonal; exact meaning proved"
  },
  {
   "property": "C64",
   "status": "proved",
   "theorems": [
    "Verif.Props.create_subcomm_grid",
    "Verif.Props.pr0_once"
   ],
   "note": ""
  },
  {
   "property": "C65",
   "status": "partial",
   "theorems": [
    "Verif.Props.get_all_modes_partial",
    "Verif.Props.get_all_modes_stale_fails"
   ],
   "note": "violated when an earlier fit had more frequencies: stale files included"
  },
  {
   "property": "C66",
   "status": "partial",
   "theorems": [
    "Verif.Props.stream_energy",
    "Verif.Props.stream_closed_form",
    "Verif.Props.stream_weight_fails"
   ],
   "note": "violated: block weights differ from 1/c and eigs holds singular values; exact energies proved"
  },
  {
   "property": "C67",
   "status": "partial",
   "theorems": [
    "Verif.Props.stream_modes_shape_partial",
    "Verif.Props.stream_modes_shape_fails",
    "Verif.Props.stream_succeeds_exact"
   ],
   "note": "violated for one mode; exact condition for the whole fit proved"
  },
  {
   "property": "C68",
   "status": "partial",
   "theorems": [
    "Verif.Props.gram_shape_partial",
    "Verif.Props.gram_shape_fails",
    "Verif.Props.fit_succeeds_exact",
    "Verif.Props.fit_two_ranks_fails"
   ],
   "note": "violated on a rank with a single value; exact condition for the whole fit proved"
  },
  {
   "property": "C69",
   "status": "partial",
   "theorems": [
    "Verif.Props.stream_ltm_fails",
    "Verif.Props.stream_fit_rest"
   ],
   "note": "violated for every stream: the mean of the first snapshot over nt is stored; the general formula is proved"
  },
  {
   "property": "C70",
   "status": "partial",
   "theorems": [
    "Verif.Props.stream_reads_partial",
    "Verif.Props.stream_datasets_fails",
    "Verif.Props.stream_netcdf_never_ends",
    "Verif.Props.stream_netcdf_no_termination"
   ],
   "note": "violated for several datasets and for NetCDF lists; proved for one dataset"
  },
  {
   "property": "C71",
   "status": "partial",
   "theorems": [
    "Verif.Props.normalize_data_exact",
    "Verif.Props.normalize_data_partial",
    "Verif.Props.normalize_data_fails"
   ],
   "note": "violated: divides by the variance; exact result proved"
  },
  {
   "property": "C72",
   "status": "partial",
   "theorems": [
    "Verif.Props.freq_idx_alone_fails",
    "Verif.Props.freq_idx_with_band_partial",
    "Verif.Props.modes_matrix_overflow_fails"
   ],
   "note": "violated: TypeError without a band, IndexError for more indices than the band holds"
  },
  {
   "property": "C73",
   "status": "partial",
   "theorems": [
    "Verif.Props.conv_serial_partial",
    "Verif.Props.conv_parallel_exact",
    "Verif.Props.conv_parallel_fails"
   ],
   "note": "violated: no reduction over ranks; exact condition proved"
  },
  {
   "property": "C74",
   "status": "partial",
   "theorems": [
    "Verif.Props.conv_corr_interior_partial",
    "Verif.Props.conv_corr_fails"
   ],
   "note": "violated at both ends (off by one) for every length"
  },
  {
   "property": "C75",
   "status": "partial",
   "theorems": [
    "Verif.Props.conv_band_exact",
    "Verif.Props.conv_full_axis_partial",
    "Verif.Props.conv_band_fails",
    "Verif.Props.conv_succeeds_whole_axis"
   ],
   "note": "violated for every proper band and for one mode; exact condition proved"
  },
  {
   "property": "C76",
   "status": "partial",
   "theorems": [
    "Verif.Props.convModesFile_eq",
    "Verif.Props.conv_modes_file_partial",
    "Verif.Props.conv_modes_file_fails",
    "Verif.Props.conv_modes_file_wrong"
   ],
   "note": "violated: memory reinterpreted, exact content proved"
  },
  {
   "property": "C77",
   "status": "partial",
   "theorems": [
    "Verif.Props.pod_shape_exact",
    "Verif.Props.pod_shape_nt",
    "Verif.Props.pod_multivariable_fails"
   ],
   "note": "violated: accepted exactly for one variable without variable axis"
  },
  {
   "property": "C78",
   "status": "partial",
   "theorems": [
    "Verif.Props.pod_modes_exact",
    "Verif.Props.pod_default_modes_fails",
    "Verif.Props.pod_many_modes_fails"
   ],
   "note": "violated: default is a float (TypeError), more modes than snapshots raise"
  },
  {
   "property": "C79",
   "status": "partial",
   "theorems": [
    "Verif.Props.load_eq",
    "Verif.Props.pod_load_partial",
    "Verif.Props.pod_complex_fails"
   ],
   "note": "violated for complex data (imaginary part discarded)"
  },
  {
   "property": "C80",
   "status": "partial",
   "theorems": [
    "Verif.Props.pod_reconstruct_exact",
    "Verif.Props.pod_reconstruct_partial",
    "Verif.Props.pod_reconstruct_weights_fails"
   ],
   "note": "violated: weights ignored in the projection; exact result for constant weights"
  },
  {
   "property": "C81",
   "status": "proved",
   "theorems": [
    "Verif.Props.pod_parallel_corr",
    "Verif.Props.pod_parallel_coeffs"
   ],
   "note": ""
  },
  {
   "property": "C82",
   "status": "proved",
   "theorems": [
    "Verif.Props.fit_rank_independent",
    "Verif.Props.fit_two_stage_eq_serial",
    "Verif.Props.fit_succeeds_exact"
   ],
   "note": "the files of fits of flattened data (NetCDF, .mat) are covered by C89, C91; composition of the models of all steps; exact arithmetic; eig/argsort as one deterministic function of the reduced matrix"
  },
  {
   "property": "C83",
   "status": "proved",
   "theorems": [
    "Verif.Props.fit_formula",
    "Verif.Props.fit_solves_spod",
    "Verif.Props.solver_exists"
   ],
   "note": "end-to-end; eig/argsort as a contract that is shown satisfiable for every size"
  },
  {
   "property": "C84",
   "status": "partial",
   "theorems": [
    "Verif.Props.weights_accepted_exact",
    "Verif.Props.variables_checked",
    "Verif.Props.data_shape_recognised",
    "Verif.Props.data_shape_mismatch",
    "Verif.Props.data_shape_fails",
    "Verif.Props.default_weights_one",
    "Verif.Props.weights_applied_partial",
    "Verif.Props.weights_shape_fails"
   ],
   "note": "violated: only the number of entries is checked; placement proved for weights of the data's shape"
  },
  {
   "property": "C85",
   "status": "proved",
   "theorems": [
    "Verif.Props.window_gain",
    "Verif.Props.window_mean",
    "Verif.Props.hamming_bounds",
    "Verif.Props.hamming_symm",
    "Verif.Props.hamming_sum"
   ],
   "note": ""
  },
  {
   "property": "C86",
   "status": "partial",
   "theorems": [
    "Verif.Props.real_detection_exact",
    "Verif.Props.real_detection_partial",
    "Verif.Props.real_detection_fails"
   ],
   "note": "violated: only the first snapshot of the first dataset is looked at"
  },
  {
   "property": "C87",
   "status": "partial",
   "theorems": [
    "Verif.Props.folder_injective",
    "Verif.Props.folder_settings_fails"
   ],
   "note": "violated for mean type, time step, spectrum option, weights; injective in block length, overlap, number of blocks"
  },
  {
   "property": "C88",
   "status": "partial",
   "theorems": [
    "Verif.Props.options_exact",
    "Verif.Props.options_partial",
    "Verif.Props.options_fails",
    "Verif.Props.dtype_fails"
   ],
   "note": "violated: files rejected with default options, misspelt precision means single; exact acceptance proved"
  },
  {
   "property": "C89",
   "status": "partial",
   "theorems": [
    "Verif.Props.netcdf_fit_exact",
    "Verif.Props.netcdf_reads_partial",
    "Verif.Props.netcdf_large_snapshots_fail",
    "Verif.Props.netcdf_few_snapshots_fail",
    "Verif.Props.netcdf_more_variables_fail",
    "Verif.Props.netcdf_missing_variables_zero",
    "Verif.Props.netcdf_variables"
   ],
   "note": "results proved equal whenever the fit succeeds, and success characterised exactly; violated: fewer than 9 snapshots, snapshots of 128 MB per rank or more, normalize_weights, more variables than n_variables raise; missing variables become zero"
  },
  {
   "property": "C90",
   "status": "partial",
   "theorems": [
    "Verif.Props.padding_exact",
    "Verif.Props.padding_partial",
    "Verif.Props.padding_fails"
   ],
   "note": "violated: the branch for MPI < 4 uses a variable that has no value and always raises; exact limit proved"
  },
  {
   "property": "C91",
   "status": "partial",
   "theorems": [
    "Verif.Props.mat_fit_exact",
    "Verif.Props.mat_reads_partial",
    "Verif.Props.mat_reads_small",
    "Verif.Props.mat_nonfinite_fails",
    "Verif.Props.mat_shape_not_checked",
    "Verif.Props.mat_point_broadcast"
   ],
   "note": "results proved equal whenever the fit succeeds, and success characterised exactly; violated: shapes are not compared, a single point is spread over the grid, normalize_weights raises"
  },
  {
   "property": "C92",
   "status": "proved",
   "theorems": [
    "Verif.Props.no_deadlock",
    "Verif.Props.fit_no_deadlock",
    "Verif.Props.fit_ranks_exist",
    "Verif.Props.reach_sum"
   ],
   "note": "collective calls only; the point-to-point exchanges of the two-stage readers are C15, those of the saving step C30-C32"
  },
  {
   "property": "C93",
   "status": "partial",
   "theorems": [
    "Verif.Props.error_hangs",
    "Verif.Props.fit_error_hangs",
    "Verif.Props.netcdf_error_hangs",
    "Verif.Props.mat_error_hangs",
    "Verif.Props.mat_error_position",
    "Verif.Props.rank_stuck",
    "Verif.Props.uniform_error_ends",
    "Verif.Props.pass_error_exact"
   ],
   "note": "violated: an exception on one rank leaves every other rank waiting at the next barrier; proved: errors raised by all ranks at the same point end the run"
  },
  {
   "property": "C94",
   "status": "proved",
   "theorems": [
    "Verif.Props.stored_blocks_agreed",
    "Verif.Props.look_inv"
   ],
   "note": ""
  },
  {
   "property": "C95",
   "status": "proved",
   "theorems": [
    "Verif.Props.session_no_deadlock",
    "Verif.Props.session_no_race",
    "Verif.Props.session_complete",
    "Verif.Props.session_fit_calls",
    "Verif.Props.barrier_separates",
    "Verif.Props.acts_no_deadlock"
   ],
   "note": ""
  },
  {
   "property": "C96",
   "status": "proved",
   "theorems": [
    "Verif.Props.shared_write_intact",
    "Verif.Props.shared_write_early_fails",
    "Verif.Props.shared_inv"
   ],
   "note": "POSIX open/write as contract; all ranks write the same text"
  },
  {
   "property": "C97",
   "status": "proved",
   "theorems": [
    "Verif.Props.stream_fit_rank_independent"
   ],
   "note": "SVD as a deterministic function of the small matrix; ranks with one value: see C68"
  },
  {
   "property": "C98",
   "status": "proved",
   "theorems": [
    "Verif.Props.stream_fit_formula",
    "Verif.Props.stream_fit_rest",
    "Verif.Props.svd_exists",
    "Verif.Props.nUpdates_spec",
    "Verif.Props.newCol_spec"
   ],
   "note": "linear independence of the blocks at the frequency is a hypothesis (otherwise the code divides by zero)"
  },
  {
   "property": "C99",
   "status": "proved",
   "theorems": [
    "Verif.Props.projection_files",
    "Verif.Props.project_ser",
    "Verif.Props.project_par"
   ],
   "note": "SVD/pinv as one deterministic function of the reduced matrix; hypothesis: the list of frequencies is as long as the band (otherwise see C72)"
  },
  {
   "property": "C100",
   "status": "proved",
   "theorems": [
    "Verif.Props.reconstruction_file"
   ],
   "note": "non-empty list of times and grid (see C102)"
  },
  {
   "property": "C101",
   "status": "proved",
   "theorems": [
    "Verif.Props.reconstruction_conv_file"
   ],
   "note": "non-empty list of times and grid (see C102)"
  },
  {
   "property": "C102",
   "status": "partial",
   "theorems": [
    "Verif.Props.reconstruction_no_times_fails",
    "Verif.Props.reconstruction_file",
    "Verif.Props.reconstruction_conv_file"
   ],
   "note": "violated for an empty list of times: one process writes an empty file, every communicator raises; proved for non-empty lists (C100, C101)"
  },
  {
   "property": "C103",
   "status": "proved",
   "theorems": [
    "Verif.Props.roundtrip",
    "Verif.Props.project_reconstruct",
    "Verif.Props.coef_svd_exists"
   ],
   "note": "end to end through the files"
  },
  {
   "property": "C104",
   "status": "proved",
   "theorems": [
    "Verif.Props.pipeline_rank_independent"
   ],
   "note": "hypotheses as in C83 and C99"
  },
  {
   "property": "C105",
   "status": "partial",
   "theorems": [
    "Verif.Props.reconstruction_real_fails",
    "Verif.Props.reconstruction_real_partial",
    "Verif.Props.roundtrip"
   ],
   "note": "violated whenever the phase of a stored mode varies in space; proved for real modes (and for data in the span of the modes: C103)"
  },
  {
   "property": "C106",
   "status": "partial",
   "theorems": [
    "Verif.Props.flat_projection_exact",
    "Verif.Props.count_mul_iff"
   ],
   "note": "violated: exact characterisation - one process, or first axis largest and divided by the number of ranks; otherwise compute_coeffs_op raises"
  },
  {
   "property": "C107",
   "status": "proved",
   "theorems": [
    "Verif.Props.projection_svd_free",
    "Verif.Props.projection_svd_option",
    "Verif.Props.mInv_unique"
   ],
   "note": "exact arithmetic"
  },
  {
   "property": "C108",
   "status": "proved",
   "theorems": [
    "Verif.Props.pod_fit_files",
    "Verif.Props.pod_unknown_mean"
   ],
   "note": "single-variable data without variable axis: the only data the code accepts (C77); number of modes as accepted (C78); exact arithmetic"
  },
  {
   "property": "C109",
   "status": "proved",
   "theorems": [
    "Verif.Props.pod_projection_files"
   ],
   "note": "exact arithmetic"
  },
  {
   "property": "C110",
   "status": "partial",
   "theorems": [
    "Verif.Props.pod_files_orthonormal_partial",
    "Verif.Props.eig_solver_exists",
    "Verif.Props.podExEigs"
   ],
   "note": "proved when the eigenvalues of the stored modes are positive and distinct; for repeated eigenvalues it fails, see pod_repeated_fails (C52)"
  },
  {
   "property": "C111",
   "status": "partial",
   "theorems": [
    "Verif.Props.pod_roundtrip_partial",
    "Verif.Props.pod_reconstruct_given"
   ],
   "note": "proved for unit weights when the non-zero eigenvalues are distinct and come first; with other constant weights it fails (C80)"
  },
  {
   "property": "C112",
   "status": "partial",
   "theorems": [
    "Verif.Props.pod_modes_idx_fails"
   ],
   "note": "violated: the argument is only written into the parameter file"
  },
  {
   "property": "C113",
   "status": "partial",
   "theorems": [
    "Verif.Props.plot_data_second",
    "Verif.Props.plot_data_first_partial",
    "Verif.Props.plot_data_square_fails",
    "Verif.Props.plot_default_fails",
    "Verif.Props.plot_data_accepts",
    "Verif.Props.plot_one_coordinate",
    "Verif.Props.video_frame_plot"
   ],
   "note": "violated for square data with x1 along the first axis (and the default coordinates): drawn transposed; proved otherwise, with the exact condition of acceptance; matplotlib is a contract"
  },
  {
   "property": "C114",
   "status": "partial",
   "theorems": [
    "Verif.Props.plot_mode_limits",
    "Verif.Props.plot_mode_limits_first_partial",
    "Verif.Props.plot_mode_square_fails",
    "Verif.Props.mode_pages",
    "Verif.Props.mode_pages_nodup"
   ],
   "note": "violated for square modes with x1 along the first axis; proved otherwise for every selection of indices"
  },
  {
   "property": "C115",
   "status": "partial",
   "theorems": [
    "Verif.Props.axis_limits_exact",
    "Verif.Props.axis_limits_fails",
    "Verif.Props.axis_limits_margin"
   ],
   "note": "violated when all coordinates are positive (or all negative): exact characterisation"
  },
  {
   "property": "C116",
   "status": "partial",
   "theorems": [
    "Verif.Props.max_marker_exact",
    "Verif.Props.max_marker_fails",
    "Verif.Props.max_marker_tie_fails"
   ],
   "note": "violated: the two coordinates are exchanged, and ties raise"
  },
  {
   "property": "C117",
   "status": "partial",
   "theorems": [
    "Verif.Props.shift180_partial",
    "Verif.Props.shift180_odd_fails",
    "Verif.Props.shift180_first_axis_fails",
    "Verif.Props.shift180_restored_partial",
    "Verif.Props.shift180_exception_fails",
    "Verif.Props.shift180_exception_partial",
    "Verif.Props.fftshift_drawn",
    "Verif.Props.shift180_fftshift_fails"
   ],
   "note": "violated for an odd number of longitudes, for longitudes along the first axis, together with fftshift, and after exceptions; proved for even uniform longitudes along the second axis"
  },
  {
   "property": "C118",
   "status": "partial",
   "theorems": [
    "Verif.Props.slice_coords_exact",
    "Verif.Props.slice_coords_partial",
    "Verif.Props.slice_cube_fails",
    "Verif.Props.slice_default_fails"
   ],
   "note": "violated: exact characterisation by the extents; the default slice is 0"
  },
  {
   "property": "C119",
   "status": "partial",
   "theorems": [
    "Verif.Props.tracer_exact",
    "Verif.Props.tracer_fails",
    "Verif.Props.tracer_times",
    "Verif.Props.tracer_rows_exact",
    "Verif.Props.tracer_rows_used"
   ],
   "note": "violated: the curve oscillates at five times the frequency, and several variables raise; exact"
  },
  {
   "property": "C120",
   "status": "partial",
   "theorems": [
    "Verif.Props.data_tracer_exact",
    "Verif.Props.data_tracer_values",
    "Verif.Props.data_tracer_default_fails",
    "Verif.Props.tracer_method_fails",
    "Verif.Props.tracer_method_partial",
    "Verif.Props.video_times",
    "Verif.Props.video_exact",
    "Verif.Props.video_frames",
    "Verif.Props.video_method_fails",
    "Verif.Props.video_method_partial",
    "Verif.Props.data_method"
   ],
   "note": "violated for the methods with a lower limit above zero, and for the default limits with fewer than ten snapshots; the functions are characterised exactly"
  },
  {
   "property": "C121",
   "status": "partial",
   "theorems": [
    "Verif.Props.report_peaks_partial",
    "Verif.Props.report_pages_partial",
    "Verif.Props.report_negative_fails",
    "Verif.Props.report_period",
    "Verif.Props.bsearch_spec",
    "Verif.Props.bsearch_mono",
    "Verif.Props.report_period_range"
   ],
   "note": "proved for increasing non-negative frequencies (real data, full spectrum); violated for negative frequencies (complex data), where the report raises"
  },
  {
   "property": "C122",
   "status": "partial",
   "theorems": [
    "Verif.Props.weights_serial_bytes",
    "Verif.Props.weights_parallel_bytes_exact",
    "Verif.Props.weights_big_endian_fails",
    "Verif.Props.weights_native_partial",
    "Verif.Props.weights_file_eq",
    "Verif.Props.other_order"
   ],
   "note": "violated for the byte order that is not the machine's when a communicator is given (the bytes are reinterpreted, parallel.py:190); exact characterisation, proved for native byte order"
  },
  {
   "property": "C123",
   "status": "partial",
   "theorems": [
    "Verif.Props.stored_float_exact",
    "Verif.Props.stored_float_fails"
   ],
   "note": "violated: only native double precision is converted; exact characterisation"
  },
  {
   "property": "C124",
   "status": "partial",
   "theorems": [
    "Verif.Props.chdir_mixed_fails",
    "Verif.Props.session_partial",
    "Verif.Props.session_absolute_partial",
    "Verif.Props.get_all_modes_again",
    "Verif.Props.get_all_modes_twice_fails",
    "Verif.Props.coeffs_mixed_fails",
    "Verif.Props.project_reconstruct_exact",
    "Verif.Props.project_reconstruct_fails"
   ],
   "note": "violated for relative paths after get_all_modes (which changes the working directory for good) or os.chdir (some functions resolve against the directory of the import); proved for sessions with absolute paths from the first such call on"
  },
  {
   "property": "C125",
   "status": "partial",
   "theorems": [
    "Verif.Props.modes_alias_file",
    "Verif.Props.modes_alias_fails",
    "Verif.Props.modes_copy_partial",
    "Verif.Props.all_modes_copy"
   ],
   "note": "violated for one file per frequency: the returned array is a writable memory map; proved for one file per mode and for get_all_modes"
  },
  {
   "property": "C126",
   "status": "partial",
   "theorems": [
    "Verif.Props.readonly_modes_exact",
    "Verif.Props.readonly_fails",
    "Verif.Props.readonly_partial"
   ],
   "note": "violated: files are mapped with mode r+; exact characterisation"
  },
  {
   "property": "C127",
   "status": "partial",
   "theorems": [
    "Verif.Props.method_reconstruct_exact",
    "Verif.Props.method_project_exact",
    "Verif.Props.method_project_fails",
    "Verif.Props.method_reconstruct_fails",
    "Verif.Props.method_partial"
   ],
   "note": "violated: the arguments are ignored; exact characterisation over all histories"
  },
  {
   "property": "C128",
   "status": "partial",
   "theorems": [
    "Verif.Props.folders_exact",
    "Verif.Props.projection_kept_partial",
    "Verif.Props.projection_overwritten_fails",
    "Verif.Props.recon_files_exact",
    "Verif.Props.recon_overwritten_fails",
    "Verif.Props.recon_kept_partial",
    "Verif.Props.folder_same"
   ],
   "note": "violated for the same band and savedir; exact characterisation over all histories"
  },
  {
   "property": "C129",
   "status": "partial",
   "theorems": [
    "Verif.Props.crash_projection_fresh",
    "Verif.Props.crash_projection_exact",
    "Verif.Props.crash_projection_mixed_fails",
    "Verif.Props.crash_pod_projection_mixed_fails",
    "Verif.Props.interrupted_at"
   ],
   "note": "proved for a new folder; violated when the folder holds an earlier projection: exact characterisation by crash point"
  },
  {
   "property": "C130",
   "status": "partial",
   "theorems": [
    "Verif.Props.crash_fit_fresh",
    "Verif.Props.fit_inputs_exact",
    "Verif.Props.crash_fit_modes",
    "Verif.Props.crash_fit_mixed",
    "Verif.Props.crash_fit_mixed_fails"
   ],
   "note": "proved for a new folder and for each frequency alone; violated when the folder holds an earlier fit"
  },
  {
   "property": "C131",
   "status": "partial",
   "theorems": [
    "Verif.Props.params_exact",
    "Verif.Props.params_modes_fails",
    "Verif.Props.params_savedir_fails",
    "Verif.Props.params_partial",
    "Verif.Props.runs_state"
   ],
   "note": "violated: objects write savedir and n_modes_save into the caller's dictionary; exact characterisation over all sequences of objects"
  },
  {
   "property": "C132",
   "status": "partial",
   "theorems": [
    "Verif.Props.pages_files",
    "Verif.Props.report_files",
    "Verif.Props.video_files",
    "Verif.Props.coeffs_files",
    "Verif.Props.coeffs_files_exact",
    "Verif.Props.coeffs_open_figure_fails",
    "Verif.Props.report_then_coeffs_fails",
    "Verif.Props.session_files_partial"
   ],
   "note": "violated by plot_coeffs with several coefficients when figures are open (for instance after a report); exact characterisation; proved for sessions without open figures and for all other functions in any state"
  },
  {
   "property": "C133",
   "status": "partial",
   "theorems": [
    "Verif.Props.open_figures_exact",
    "Verif.Props.own_figure_lost_fails",
    "Verif.Props.report_leaks_fails",
    "Verif.Props.pages_files"
   ],
   "note": "violated by plot_coeffs (closes foreign figures), the report (leaves its pages open) and videos (close everything); exact characterisation"
  },
  {
   "property": "C134",
   "status": "partial",
   "theorems": [
    "Verif.Props.coeffs_size_fails",
    "Verif.Props.size_partial",
    "Verif.Props.video_files"
   ],
   "note": "violated: plot_coeffs uses the requested size for the first file only, videos never; proved for the other functions"
  },
  {
   "property": "C135",
   "status": "proved",
   "theorems": [
    "Verif.Props.eigs_inside"
   ],
   "note": "exact arithmetic"
  },
  {
   "property": "C136",
   "status": "partial",
   "theorems": [
    "Verif.Props.spectrum_visible_exact",
    "Verif.Props.spectrum_visible_fails",
    "Verif.Props.spectrum_position",
    "Verif.Props.shade_mono",
    "Verif.Props.shade_injective_exact"
   ],
   "note": "violated: frequencies that are not positive are never shown, forty or more modes share shades; exact characterisation"
  },
  {
   "property": "C137",
   "status": "partial",
   "theorems": [
    "Verif.Props.subplots_exact",
    "Verif.Props.subplots_blank_fails",
    "Verif.Props.subplots_constant_fails"
   ],
   "note": "violated for values outside the range of the first variable, constant first variables, and a third variable without a second; exact characterisation"
  },
  {
   "property": "C138",
   "status": "partial",
   "theorems": [
    "Verif.Props.checkpoint_best",
    "Verif.Props.checkpoint_stale_fails"
   ],
   "note": "exact: best epoch whenever some loss is finite; violated when none is (the old file, or none, stays)"
  },
  {
   "property": "C139",
   "status": "partial",
   "theorems": [
    "Verif.Props.trained_files",
    "Verif.Props.inference_loads_exact",
    "Verif.Props.inference_uses",
    "Verif.Props.inference_uses_real",
    "Verif.Props.imag_missing_fails",
    "Verif.Props.imag_stale_fails",
    "Verif.Props.names_differ",
    "Verif.Props.anyImag_iff"
   ],
   "note": "exact characterisation over all histories; violated for the imaginary part when the last training data of the index were real"
  },
  {
   "property": "C140",
   "status": "partial",
   "theorems": [
    "Verif.Props.state_after_inference",
    "Verif.Props.train_after_init_partial",
    "Verif.Props.training_order_fails"
   ],
   "note": "violated: training starts from whatever weights the object holds, also those loaded by an inference; proved for the real part right after model_initialize"
  },
  {
   "property": "C141",
   "status": "partial",
   "theorems": [
    "Verif.Props.read_data_exact",
    "Verif.Props.read_npy_fails",
    "Verif.Props.read_other_raises",
    "Verif.Props.read_format"
   ],
   "note": "violated: every .npy file raises NameError; exact for file names with an extension"
  },
  {
   "property": "C142",
   "status": "partial",
   "theorems": [
    "Verif.Props.dtype_same_exact",
    "Verif.Props.dtype_single_fails"
   ],
   "note": "violated: np.float64 and unknown strings are single precision in a fit; exact characterisation"
  },
  {
   "property": "C143",
   "status": "partial",
   "theorems": [
    "Verif.Props.conv_serial",
    "Verif.Props.conv_ranks"
   ],
   "note": "proved for one process; on several processes exact: only rank 0's grid points are summed, so the property is violated"
  },
  {
   "property": "C144",
   "status": "proved",
   "theorems": [
    "Verif.Props.conv_affine",
    "Verif.Props.conv_affine_ranks"
   ],
   "note": ""
  },
  {
   "property": "C145",
   "status": "partial",
   "theorems": [
    "Verif.Props.conv_energy_exact",
    "Verif.Props.conv_energy_fails"
   ],
   "note": "violated: the mean is the eigenvalue times (sum of the window)^2 over the fit's normalisation; exact value proved"
  },
  {
   "property": "C146",
   "status": "partial",
   "theorems": [
    "Verif.Props.conv_selection_exact",
    "Verif.Props.conv_order_fails",
    "Verif.Props.conv_single_fails",
    "Verif.Props.conv_memory_fails"
   ],
   "note": "violated: row f pairs the transform of the f-th chosen frequency with the modes of frequency f, and rows of frequencies that were not chosen are uninitialised memory; exact value proved"
  },
  {
   "property": "C147",
   "status": "proved",
   "theorems": [
    "Verif.Props.spod_optimal",
    "Verif.Props.spod_optimal_freq"
   ],
   "note": "the eigen-solver returns a basis of unit eigenvectors (exact arithmetic)"
  },
  {
   "property": "C148",
   "status": "proved",
   "theorems": [
    "Verif.Props.fit_library_independent"
   ],
   "note": ""
  },
  {
   "property": "C149",
   "status": "proved",
   "theorems": [
    "Verif.Props.fit_affine"
   ],
   "note": ""
  },
  {
   "property": "C150",
   "status": "proved",
   "theorems": [
    "Verif.Props.fit_weights_scaled"
   ],
   "note": ""
  },
  {
   "property": "C151",
   "status": "proved",
   "theorems": [
    "Verif.Props.fit_reordered"
   ],
   "note": ""
  },
  {
   "property": "C152",
   "status": "partial",
   "theorems": [
    "Verif.Props.full_spectrum_exact",
    "Verif.Props.full_spectrum_partial",
    "Verif.Props.full_spectrum_fails"
   ],
   "note": "violated at the first positive frequency, reported with twice the eigenvalues of the last entry of the axis; modes and the other frequencies proved"
  },
  {
   "property": "C153",
   "status": "partial",
   "theorems": [
    "Verif.Props.total_variance_partial",
    "Verif.Props.total_variance_odd_exact",
    "Verif.Props.total_variance_odd_fails",
    "Verif.Props.total_variance_full_exact"
   ],
   "note": "proved for one-sided spectra with even n_dft; violated for odd n_dft and full spectra of real data, exact values proved"
  },
  {
   "property": "C154",
   "status": "partial",
   "theorems": [
    "Verif.Props.reconstruction_splits_partial",
    "Verif.Props.best_approximation_partial",
    "Verif.Props.best_approximation_fails"
   ],
   "note": "proved when the tolerance drops no non-zero singular value (always for tol=0, dependent modes included); violated for every tolerance between 0 and 1 by two nearly parallel unit modes"
  },
  {
   "property": "C155",
   "status": "partial",
   "theorems": [
    "Verif.Props.more_frequencies_partial",
    "Verif.Props.more_frequencies_fails"
   ],
   "note": "proved under the same condition on the larger selection; violated for every tolerance between 0 and 1"
  },
  {
   "property": "C156",
   "status": "proved",
   "theorems": [
    "Verif.Props.reproject_same",
    "Verif.Props.reproject_real"
   ],
   "note": "the reconstruction has to be real to be given as data (always for real modes)"
  },
  {
   "property": "C157",
   "status": "proved",
   "theorems": [
    "Verif.Props.projection_affine"
   ],
   "note": "every tolerance"
  },
  {
   "property": "C158",
   "status": "proved",
   "theorems": [
    "Verif.Props.coeffs_zero_mean"
   ],
   "note": ""
  },
  {
   "property": "C159",
   "status": "partial",
   "theorems": [
    "Verif.Props.pod_energy_bound",
    "Verif.Props.pod_optimal_partial",
    "Verif.Props.pod_optimal_fails"
   ],
   "note": "the bound and the energy of each mode are proved for all data; the kept modes are optimal if the solver returns the eigenvalues in decreasing order; violated otherwise (standard.py:52-61 does not sort)"
  },
  {
   "property": "C160",
   "status": "proved",
   "theorems": [
    "Verif.Props.pod_changed_data"
   ],
   "note": "one theorem for all the changes together; modes at eigenvalues that are positive and simple"
  },
  {
   "property": "C161",
   "status": "proved",
   "theorems": [
    "Verif.Props.picture_names",
    "Verif.Props.picture_files",
    "Verif.Props.mode_call_files",
    "Verif.Props.tracer_names",
    "Verif.Props.data_tracer_names"
   ],
   "note": "tracers: for printings of coordinates that are injective and contain no underscore (repr of numbers)"
  },
  {
   "property": "C162",
   "status": "partial",
   "theorems": [
    "Verif.Props.report_pages_exact",
    "Verif.Props.nearest_self"
   ],
   "note": "proved for saved modes and increasing non-negative frequencies; modes beyond the saved ones have the spectrum page only (exact)"
  },
  {
   "property": "C163",
   "status": "partial",
   "theorems": [
    "Verif.Props.report_ranks_fails",
    "Verif.Props.report_ranks_partial",
    "Verif.Props.report_file_last"
   ],
   "note": "violated: all ranks write the same file and only rank 0 draws the modes, so the last rank to finish decides; proved when rank 0 finishes last"
  },
  {
   "property": "C164",
   "status": "partial",
   "theorems": [
    "Verif.Props.methods_exact",
    "Verif.Props.slice_method_fails",
    "Verif.Props.modes_method"
   ],
   "note": "violated: plot_2d_mode_slice_vs_time calls a function that does not exist; proved for the others"
  },
  {
   "property": "C165",
   "status": "proved",
   "theorems": [
    "Verif.Props.sizes_printed"
   ],
   "note": ""
  },
  {
   "property": "C166",
   "status": "proved",
   "theorems": [
    "Verif.Props.single_frequency_coeffs",
    "Verif.Props.coeffs_inner_products"
   ],
   "note": "exact arithmetic"
  },
  {
   "property": "C167",
   "status": "proved",
   "theorems": [
    "Verif.Props.fit_masked",
    "Verif.Props.projection_masked"
   ],
   "note": ""
  },
  {
   "property": "C168",
   "status": "proved",
   "theorems": [
    "Verif.Props.saved_modes_prefix"
   ],
   "note": ""
  },
  {
   "property": "C169",
   "status": "proved",
   "theorems": [
    "Verif.Props.fit_blocks_reordered"
   ],
   "note": ""
  },
  {
   "property": "C170",
   "status": "proved",
   "theorems": [
    "Verif.Props.fit_time_reversed",
    "Verif.Props.hamming_symm"
   ],
   "note": "stated for any symmetric window; hamming_symm shows that the window of the code is one"
  },
  {
   "property": "C171",
   "status": "proved",
   "theorems": [
    "Verif.Props.unit_of_time",
    "Verif.Props.freqAxis_units",
    "Verif.Props.nearest_units",
    "Verif.Props.band_units"
   ],
   "note": "exact arithmetic"
  },
  {
   "property": "C172",
   "status": "partial",
   "theorems": [
    "Verif.Props.accepted_network_fails",
    "Verif.Props.accepted_network_partial"
   ],
   "note": "violated: cnn is accepted, but the model is empty and not compiled, so training always raises; proved for lstm and for other names"
  },
  {
   "property": "C173",
   "status": "partial",
   "theorems": [
    "Verif.Props.prediction_earlier_fails",
    "Verif.Props.prediction_earlier_partial"
   ],
   "note": "violated: one later entry with an imaginary part switches the second network on for all columns; proved for two inputs which both have, or both have not, an imaginary part"
  },
  {
   "property": "C174",
   "status": "proved",
   "theorems": [
    "Verif.Props.reads_written"
   ],
   "note": "files made by the calls of the session; input data files are not part of the model of sessions"
  },
  {
   "property": "C175",
   "status": "proved",
   "theorems": [
    "Verif.Props.fit_isometry"
   ],
   "note": "exact arithmetic"
  },
  {
   "property": "C176",
   "status": "proved",
   "theorems": [
    "Verif.Props.fit_pattern"
   ],
   "note": "exact arithmetic"
  },
  {
   "property": "C177",
   "status": "proved",
   "theorems": [
    "Verif.Props.fit_outside_blocks"
   ],
   "note": ""
  },
  {
   "property": "C178",
   "status": "partial",
   "theorems": [
    "Verif.Props.finite_modes_exact",
    "Verif.Props.finite_modes_rank",
    "Verif.Props.finite_modes_fails",
    "Verif.Props.finite_modes_partial",
    "Verif.Props.finite_steady_fails",
    "Verif.Props.pod_finite_exact",
    "Verif.Props.pod_finite_fails"
   ],
   "note": "false: modes of eigenvalue zero are divided by zero - always with more blocks than points of non-zero weight, and for POD keeping all modes with the long-time mean removed; exact arithmetic (rounding may replace the zero by a tiny number)"
  },
  {
   "property": "C179",
   "status": "partial",
   "theorems": [
    "Verif.Props.norm_runs",
    "Verif.Props.norm_serial",
    "Verif.Props.norm_parallel",
    "Verif.Props.norm_variable_axis_fails",
    "Verif.Props.norm_idle_rank_fails",
    "Verif.Props.norm_constant_fails",
    "Verif.Props.norm_flat_fails",
    "Verif.Props.norm_dict_fails"
   ],
   "note": "false when variables are split among the ranks, with idle ranks, constant variables, flat weights, and data from the two-stage readers; proved otherwise"
  },
  {
   "property": "C180",
   "status": "proved",
   "theorems": [
    "Verif.Props.norm_units"
   ],
   "note": "for data on which the normalisation succeeds (C179); exact arithmetic"
  },
  {
   "property": "C181",
   "status": "partial",
   "theorems": [
    "Verif.Props.stream_norm_exact",
    "Verif.Props.stream_norm_fails",
    "Verif.Props.stream_norm_start_fails"
   ],
   "note": "false: only the first snapshot is used; what is done instead is proved for one process"
  },
  {
   "property": "C182",
   "status": "proved",
   "theorems": [
    "Verif.Props.stream_steady",
    "Verif.Props.stream_steady_ltm"
   ],
   "note": "eigenvalues and modes; the stored mean does follow the field (C69); exact arithmetic"
  },
  {
   "property": "C183",
   "status": "proved",
   "theorems": [
    "Verif.Props.stream_zero_weight"
   ],
   "note": "modes compared at points of non-zero weight; at the others they are not finite (C184); exact arithmetic"
  },
  {
   "property": "C184",
   "status": "partial",
   "theorems": [
    "Verif.Props.stream_finite_partial",
    "Verif.Props.stream_zero_block_fails",
    "Verif.Props.stream_rest_fails",
    "Verif.Props.stream_masked_fails"
   ],
   "note": "false: a block that is a combination of the earlier ones (e.g. a flow starting from rest) divides by zero, and so does a weight that is zero; proved for independent blocks and positive weights"
  },
  {
   "property": "C185",
   "status": "partial",
   "theorems": [
    "Verif.Props.stream_options_fail",
    "Verif.Props.stream_zero_mean_fails",
    "Verif.Props.stream_options_partial"
   ],
   "note": "false: the running mean is always subtracted and the data are never normalised; unknown types of mean are rejected"
  },
  {
   "property": "C186",
   "status": "partial",
   "theorems": [
    "Verif.Props.stream_bounds_fail",
    "Verif.Props.stream_bounds_shape_fails",
    "Verif.Props.standard_bounds_partial",
    "Verif.Props.stream_eig_pos"
   ],
   "note": "false for streaming fits: the bounds stay the zeros of the initialisation, with another shape; proved for standard fits under the contract of gammaincinv"
  },
  {
   "property": "C187",
   "status": "partial",
   "theorems": [
    "Verif.Props.getters_fail",
    "Verif.Props.getters_partial"
   ],
   "note": "false for file_dynamics, freq_idx_lb and freq_idx_ub, which no method ever sets; proved for all others"
  },
  {
   "property": "C188",
   "status": "proved",
   "theorems": [
    "Verif.Props.stream_svd_free"
   ],
   "note": "under the stated conditions; exact arithmetic; contract of numpy.linalg.svd"
  },
  {
   "property": "C189",
   "status": "proved",
   "theorems": [
    "Verif.Props.stream_isometry",
    "Verif.Props.stream_scaled"
   ],
   "note": "under the stated conditions; positive weights; exact arithmetic; contract of numpy.linalg.svd"
  },
  {
   "property": "C190",
   "status": "partial",
   "theorems": [
    "Verif.Props.slice_shown",
    "Verif.Props.slice_fftshift",
    "Verif.Props.slice_default_coords",
    "Verif.Props.slice_missing_fails",
    "Verif.Props.slice_first_missing_fails",
    "Verif.Props.slice_third_missing",
    "Verif.Props.slice_marker_exact",
    "Verif.Props.slice_marker_fails"
   ],
   "note": "values proved; false: the marker is drawn at (x2[column], x1[row]) whichever axes are drawn, or the call raises IndexError; the coordinates of the sliced axis are required across the first and second axis; which coordinates are drawn: exactly C118's condition"
  },
  {
   "property": "C191",
   "status": "partial",
   "theorems": [
    "Verif.Props.stream_error_silent",
    "Verif.Props.stream_error_zero",
    "Verif.Props.stream_error_first",
    "Verif.Props.stream_read_ok"
   ],
   "note": "false: the bare except takes every exception for the end of the data; no exception, and the files hold the results of the snapshots before the error (zeros if before the end of the first block); only an error on the first snapshot is raised"
  },
  {
   "property": "C192",
   "status": "partial",
   "theorems": [
    "Verif.Props.stream_ends_partial",
    "Verif.Props.stream_error_hangs",
    "Verif.Props.stream_error_harmless"
   ],
   "note": "proved when all ranks see the same end of the data (one array); false otherwise: a rank that fails to read goes on to save and waits in a reduction, the others in a barrier, for ever"
  },
  {
   "property": "C193",
   "status": "partial",
   "theorems": [
    "Verif.Props.reuse_same_input_partial",
    "Verif.Props.reuse_exact",
    "Verif.Props.reuse_energy_exact",
    "Verif.Props.reuse_other_data_fails"
   ],
   "note": "one variable, complete files; proved for every history in which all fits have the same snapshots and block settings (any ranks, weights, spectra, flags); false for other data or settings: the old blocks are used silently (exact characterisation)"
  },
  {
   "property": "C194",
   "status": "partial",
   "theorems": [
    "Verif.Props.one_source_partial",
    "Verif.Props.reuse_first_fit",
    "Verif.Props.reuse_mixes_fails"
   ],
   "note": "proved if no fit without reuse_blocks has fewer frequencies than an earlier one; otherwise false: full spectrum, then half spectrum recomputed, then full spectrum reused mixes two data sets in one result"
  },
  {
   "property": "C195",
   "status": "proved",
   "theorems": [
    "Verif.Props.fit_triangle",
    "Verif.Props.fit_noise"
   ],
   "note": "whole fits, one or several ranks, any eigen-solver meeting the LAPACK contract; data not normalised; for fit_noise a window without negative entries"
  },
  {
   "property": "C196",
   "status": "proved",
   "theorems": [
    "Verif.Props.fit_domain_mono"
   ],
   "note": "whole fits; any injection of one grid into another"
  },
  {
   "property": "C197",
   "status": "proved",
   "theorems": [
    "Verif.Props.fit_longer"
   ],
   "note": "whole fits; for the longtime mean the two records must have the same mean"
  },
  {
   "property": "C198",
   "status": "proved",
   "theorems": [
    "Verif.Props.fit_repeated"
   ],
   "note": "whole fits; no overlap and a whole number of blocks"
  },
  {
   "property": "C199",
   "status": "proved",
   "theorems": [
    "Verif.Props.stream_truncation"
   ],
   "note": "whole streaming fits, one or several ranks, any SVD meeting the LAPACK contract; frequencies with independent blocks; the stored eigenvalues are square roots as in streaming.py"
  },
  {
   "property": "C200",
   "status": "proved",
   "theorems": [
    "Verif.Props.pod_triangle",
    "Verif.Props.pod_noise"
   ],
   "note": "whole POD fits, one or several ranks, any eigen-solver meeting the contract; eigenvalues compared after sorting because the code does not sort them (C159)"
  },
  {
   "property": "C201",
   "status": "proved",
   "theorems": [
    "Verif.Props.pod_domain_mono"
   ],
   "note": "whole POD fits; any injection of one grid into another"
  },
  {
   "property": "C202",
   "status": "proved",
   "theorems": [
    "Verif.Props.pod_longer",
    "Verif.Props.pod_repeated"
   ],
   "note": "whole POD fits; for the longtime mean the continuation must have the same mean"
  },
  {
   "property": "C203",
   "status": "proved",
   "theorems": [
    "Verif.Props.reconstruction_energy"
   ],
   "note": "compute_coeffs_op followed by compute_reconstruction of all times; exact arithmetic; any SVD meeting the LAPACK contract"
  },
  {
   "property": "C204",
   "status": "proved",
   "theorems": [
    "Verif.Props.reconstruction_stable"
   ],
   "note": "as C203, for two data sets"
  },
  {
   "property": "C205",
   "status": "proved",
   "theorems": [
    "Verif.Props.fit_parts"
   ],
   "note": "whole fits, one or several ranks; the parts are given by any bijection between grids"
  },
  {
   "property": "C206",
   "status": "proved",
   "theorems": [
    "Verif.Props.fit_uncorrelated"
   ],
   "note": "whole fits; equality of multisets of eigenvalues, with as many zeros as there are blocks"
  },
  {
   "property": "C207",
   "status": "proved",
   "theorems": [
    "Verif.Props.pod_error",
    "Verif.Props.podFour_error",
    "Verif.Props.pod_left_out",
    "Verif.Props.pod_closest"
   ],
   "note": "whole workflow fit, project, reconstruct; exact arithmetic; any eig meeting the LAPACK contract"
  },
  {
   "property": "C208",
   "status": "proved",
   "theorems": [
    "Verif.Props.fit_constraint"
   ],
   "note": "any rank count; exact arithmetic; any eig routine (the relation does not depend on the solver contract)"
  },
  {
   "property": "C209",
   "status": "proved",
   "theorems": [
    "Verif.Props.stream_constraint"
   ],
   "note": "any rank count; SVD by contract; independence of blocks is the same hypothesis as in C184"
  },
  {
   "property": "C210",
   "status": "proved",
   "theorems": [
    "Verif.Props.pod_constraint"
   ],
   "note": "any rank count; eig by contract (EigBasis, real)"
  },
  {
   "property": "C211",
   "status": "proved",
   "theorems": [
    "Verif.Props.workflow_constraint",
    "Verif.Props.reconstruction_constraint"
   ],
   "note": "fit, projection and reconstruction each on any number of ranks; standard fits"
  },
  {
   "property": "C212",
   "status": "partial",
   "theorems": [
    "Verif.Props.reuse_any_grid_exact",
    "Verif.Props.reuse_other_grid_partial",
    "Verif.Props.reuse_spread_fails"
   ],
   "note": "exact: numpy spreads blocks of a grid with fewer axes or axes of one point over the new grid, and the fit succeeds with the other data; all other grids are refused"
  },
  {
   "property": "C213",
   "status": "partial",
   "theorems": [
    "Verif.Props.emulate_exact",
    "Verif.Props.emulate_error",
    "Verif.Props.emulate_complex_error",
    "Verif.Props.emulate_remainder_fails",
    "Verif.Props.emulate_zero_row_fails",
    "Verif.Props.emulate_real_row_fails"
   ],
   "note": "fails if the columns to emulate are not a multiple of n_out (ValueError), for a row that is zero in the training data, and for complex data with a row that is real in the training data (nan)"
  },
  {
   "property": "C214",
   "status": "partial",
   "theorems": [
    "Verif.Props.pod_given_distance",
    "Verif.Props.emulated_fields_partial"
   ],
   "note": "needs stored modes of positive, distinct eigenvalues: for repeated ones la.eig need not return orthogonal vectors"
  },
  {
   "property": "C215",
   "status": "partial",
   "theorems": [
    "Verif.Props.pod_norm_partial",
    "Verif.Props.pod_norm_constant_fails",
    "Verif.Props.pod_norm_idle_fails",
    "Verif.Props.pod_norm_flat_fails"
   ],
   "note": "fails for constant data (division by zero), for more ranks than points on the longest axis (nan) and for weights without variable axis (only the first column is divided)"
  },
  {
   "property": "C216",
   "status": "proved",
   "theorems": [
    "Verif.Props.pod_norm_units"
   ],
   "note": "for weights with variable axis, data of positive variance and no idle ranks (see C215)"
  },
  {
   "property": "C217",
   "status": "proved",
   "theorems": [
    "Verif.Props.fit_rank",
    "Verif.Props.fit_points",
    "Verif.Props.fit_low_rank"
   ],
   "note": "data not normalised for fit_rank and fit_low_rank (normalize_data divides every point of every block by its own variance)"
  },
  {
   "property": "C218",
   "status": "proved",
   "theorems": [
    "Verif.Props.pod_rank",
    "Verif.Props.pod_rank_exact"
   ],
   "note": "pod_rank_exact: long-time mean, no weights, distinct positive eigenvalues of the saved modes (else C52, C53)"
  },
  {
   "property": "C219",
   "status": "proved",
   "theorems": [
    "Verif.Props.pod_parts"
   ],
   "note": "weights not negative; the ordering is that of sizes, as la.eig stores eigenvalues in any order"
  },
  {
   "property": "C220",
   "status": "proved",
   "theorems": [
    "Verif.Props.stream_triangle",
    "Verif.Props.stream_noise"
   ],
   "note": "whole streaming fits; without truncation and with independent blocks (else C184, C199); exact arithmetic; contract of numpy.linalg.svd"
  },
  {
   "property": "C221",
   "status": "proved",
   "theorems": [
    "Verif.Props.stream_domain_mono",
    "Verif.Props.stream_parts"
   ],
   "note": "whole streaming fits; without truncation; the eigenvalues stored are square roots, hence the squares"
  },
  {
   "property": "C222",
   "status": "proved",
   "theorems": [
    "Verif.Props.pod_workflow_constraint"
   ],
   "note": "whole POD fit, projection and reconstruction; any weights"
  },
  {
   "property": "C223",
   "status": "proved",
   "theorems": [
    "Verif.Props.pod_reconstruction_energy",
    "Verif.Props.pod_reconstruction_stable"
   ],
   "note": "whole workflow; without weights; exact arithmetic"
  },
  {
   "property": "C224",
   "status": "proved",
   "theorems": [
    "Verif.Props.pod_coeffs_zero_mean",
    "Verif.Props.pod_project_again"
   ],
   "note": "whole workflow; zero mean with any weights, projection again and Bessel bound without weights"
  },
  {
   "property": "C225",
   "status": "proved",
   "theorems": [
    "Verif.Props.stream_workflow_constraint"
   ],
   "note": "whole streaming fit, projection and reconstruction, each on any ranks; contract of numpy.linalg.svd"
  },
  {
   "property": "C226",
   "status": "proved",
   "theorems": [
    "Verif.Props.stream_single_frequency"
   ],
   "note": "whole streaming fit and projection; eigenvalues positive if enough blocks (C227)"
  },
  {
   "property": "C227",
   "status": "proved",
   "theorems": [
    "Verif.Props.stream_rank"
   ],
   "note": "whole streaming fits, with truncation too; block b starts at b*(nDft-nOvlp) + b/nPar (C38)"
  },
  {
   "property": "C228",
   "status": "partial",
   "theorems": [
    "Verif.Props.chunk_size_partial",
    "Verif.Props.chunk_size_fails",
    "Verif.Props.chunk_count",
    "Verif.Props.mat_chunk_size",
    "Verif.Props.pieces_local"
   ],
   "note": "violated by up to a factor of two (number of chunks rounded down); the bound that holds is proved for both readers"
  },
  {
   "property": "C229",
   "status": "proved",
   "theorems": [
    "Verif.Props.stream_longer"
   ],
   "note": "whole streaming fits with truncation, on any ranks; contract of numpy.linalg.svd"
  },
  {
   "property": "C230",
   "status": "partial",
   "theorems": [
    "Verif.Props.crash_pod_fresh",
    "Verif.Props.crash_pod_exact",
    "Verif.Props.crash_pod_modes_partial",
    "Verif.Props.crash_pod_mixed_fails",
    "Verif.Props.pod_crash_file"
   ],
   "note": "holds for a new folder; violated when the folder holds an earlier fit, exact states proved"
  },
  {
   "property": "C231",
   "status": "proved",
   "theorems": [
    "Verif.Props.fit_rounding",
    "Verif.Props.rounding_ranks",
    "Verif.Props.roundBound_le",
    "Verif.Props.gram_exact_possible"
   ],
   "note": "standard model of floating-point arithmetic (relative error at most u per operation, no underflow or overflow) as contract; any order of additions"
  },
  {
   "property": "C232",
   "status": "proved",
   "theorems": [
    "Verif.Props.fit_floating"
   ],
   "note": "as C231, with errors of the transforms and of the solver as parameters"
  },
  {
   "property": "C233",
   "status": "proved",
   "theorems": [
    "Verif.Props.pod_floating",
    "Verif.Props.pod_exact_possible"
   ],
   "note": "standard model of floating-point arithmetic as contract (as C231)"
  },
  {
   "property": "C234",
   "status": "proved",
   "theorems": [
    "Verif.Props.pod_project_floating",
    "Verif.Props.pod_project_possible"
   ],
   "note": "standard model of floating-point arithmetic as contract (as C231); the modes are those in the folder"
  },
  {
   "property": "C235",
   "status": "proved",
   "theorems": [
    "Verif.Props.reported_floating",
    "Verif.Props.close_units",
    "Verif.Props.rank_one_possible",
    "Verif.Props.rank_one_nan"
   ],
   "note": "standard model of floating-point arithmetic as contract (as C231); scaling, sorting and square roots of the eigenvalues themselves are exact"
  },
  {
   "property": "C236",
   "status": "proved",
   "theorems": [
    "Verif.Props.spod_floating",
    "Verif.Props.hat_near",
    "Verif.Props.hatBound_le",
    "Verif.Props.hat_exact_possible"
   ],
   "note": "standard model of floating-point arithmetic and accuracy of numpy.fft as contracts; the statement is about the reported eigenvalues and the mode factors, not the modes"
  },
  {
   "property": "C237",
   "status": "proved",
   "theorems": [
    "Verif.Props.fit_periodic"
   ],
   "note": "whole fits, on any ranks; exact arithmetic"
  },
  {
   "property": "C238",
   "status": "proved",
   "theorems": [
    "Verif.Props.mode_unit_norm",
    "Verif.Props.modes_orthogonal",
    "Verif.Props.small_mode_lost",
    "Verif.Props.mode_exact_possible"
   ],
   "note": "real, positive eigenvalues (the branch of real_if_close); the errors of the Fourier coefficients themselves are C236 and do not matter here"
  },
  {
   "property": "C239",
   "status": "partial",
   "theorems": [
    "Verif.Props.overlap_decimal_fails",
    "Verif.Props.overlap_whole_partial",
    "Verif.Props.overlap_any_partial"
   ],
   "note": "violated: ceil(fl(fl(n_dft*overlap)/100)) is one too large for some decimal percentages (1000, 16.1); whole percentages are exact and the error is at most one"
  },
  {
   "property": "C240",
   "status": "proved",
   "theorems": [
    "Verif.Props.ceilDiv_exact",
    "Verif.Props.halfCount_exact",
    "Verif.Props.chunks_exact",
    "Verif.Props.chunks_mat_exact",
    "Verif.Props.freqReal_axis",
    "Verif.Props.freqFull_axis",
    "Verif.Props.rn_double"
   ],
   "note": "rounding to double precision as a contract; rounding to nearest meets it (rn_double)"
  },
  {
   "property": "C241",
   "status": "proved",
   "theorems": [
    "Verif.Props.pvar_rounding",
    "Verif.Props.nanvar_rounding",
    "Verif.Props.pvar_nonneg",
    "Verif.Props.weight_rounding",
    "Verif.Props.weights_serial_parallel",
    "Verif.Props.seqStat_possible",
    "Verif.Props.constant_variance_positive"
   ],
   "note": "standard model of rounding (relative error u, no underflow); counts exact; the example uses rounding to nearest of doubles"
  },
  {
   "property": "C242",
   "status": "proved",
   "theorems": [
    "Verif.Props.scaling_double",
    "Verif.Props.scaling_double_inexact",
    "Verif.Props.scaling_double_zero_row"
   ],
   "note": "real data, and real and imaginary parts of complex data, which the code scales separately; rows of zeros are C54"
  },
  {
   "property": "C243",
   "status": "proved",
   "theorems": [
    "Verif.Props.check_unit_norm",
    "Verif.Props.check_orthogonal",
    "Verif.Props.check_double",
    "Verif.Props.check_lost_mode",
    "Verif.Props.inner_rounding"
   ],
   "note": "the product O is a single number (mode indices given as one-element lists, see C63); standard model of rounding"
  },
  {
   "property": "C244",
   "status": "proved",
   "theorems": [
    "Verif.Props.spod_project_floating",
    "Verif.Props.spod_roundtrip_floating",
    "Verif.Props.coefficients_rounding",
    "Verif.Props.reconstruct_rounding",
    "Verif.Props.orthonormal_energy",
    "Verif.Props.close_modes_lost",
    "Verif.Props.spod_project_possible"
   ],
   "note": "standard model of floating-point arithmetic as contract (as C231); the pseudo-inverse of LAPACK enters by the residual it leaves in the computed normal equations; the bound contains the norm of the computed coefficients"
  },
  {
   "property": "C245",
   "status": "proved",
   "theorems": [
    "Verif.Props.stream_floating",
    "Verif.Props.column_near",
    "Verif.Props.stream_possible",
    "Verif.Props.streamBound_le"
   ],
   "note": "standard model of floating-point arithmetic as contract (as C231); the entries of np.fft.fft(identity) are within gamma of the exact ones; real data; column_near gives the error of the weighted column handed on"
  },
  {
   "property": "C246",
   "status": "proved",
   "theorems": [
    "Verif.Props.streaming_fit_floating",
    "Verif.Props.basis_floating",
    "Verif.Props.stream_values_floating",
    "Verif.Props.stream_columns_floating",
    "Verif.Props.principal_exists",
    "Verif.Props.first_update_possible"
   ],
   "note": "standard model of floating-point arithmetic as contract (as C231); LAPACK's SVD by its residual and the distance of its factors from unitary matrices; division of complex numbers and square root with relative error v; orthogonality and lengths of the computed columns are hypotheses (they can be measured with check_orthogonality)"
  },
  {
   "property": "C247",
   "status": "proved",
   "theorems": [
    "Verif.Props.conv_floating",
    "Verif.Props.conv_floating_ranks",
    "Verif.Props.convBound_le",
    "Verif.Props.conv_possible"
   ],
   "note": "standard model of floating-point arithmetic as contract (as C231); numpy's FFT by its error; the window and the data are numbers of the working precision; on several ranks the exact value is the one of C143, summed over the points of rank 0"
  },
  {
   "property": "C248",
   "status": "partial",
   "theorems": [
    "Verif.Props.normalized_floating_partial",
    "Verif.Props.normBound_le",
    "Verif.Props.hat_normalized",
    "Verif.Props.hat_normalized_possible",
    "Verif.Props.normalized_floating_fails"
   ],
   "note": "proved for variances away from the threshold by more than their rounding error (ClearVar); normalized_floating_fails: at the threshold the code violates the claim, for every roundoff above 0. Standard model of floating-point arithmetic as contract (as C231); numpy's FFT by its error, the eigensolver by its backward error (as C236)"
  },
  {
   "property": "C249",
   "status": "proved",
   "theorems": [
    "Verif.Props.errors_floating",
    "Verif.Props.errors_floating_zero",
    "Verif.Props.errors_floating_two",
    "Verif.Props.h1_floating",
    "Verif.Props.errors_possible",
    "Verif.Props.h1_possible"
   ],
   "note": "standard model of floating-point arithmetic as contract (as C231); square roots are rounded correctly up to the relative error u; complex fields and broadcasting are not modelled"
  },
  {
   "property": "C250",
   "status": "proved",
   "theorems": [
    "Verif.Props.fit_no_overflow",
    "Verif.Props.data_below_max_overflow",
    "Verif.Props.hatSize_le"
   ],
   "note": "standard model of floating-point arithmetic as contract (as C231), here for rounding without an upper limit of the exponents: when all values that then occur are at most the largest number, no operation of the limited arithmetic overflows; the values inside the Fourier transform are not modelled, its error is a contract"
  },
  {
   "property": "C251",
   "status": "proved",
   "theorems": [
    "Verif.Props.pod_no_overflow",
    "Verif.Props.fluctValue_le",
    "Verif.Props.corrValue_le"
   ],
   "note": "standard model of floating-point arithmetic as contract (see C250); real data"
  },
  {
   "property": "C252",
   "status": "proved",
   "theorems": [
    "Verif.Props.modes_no_overflow",
    "Verif.Props.factorValue_le",
    "Verif.Props.modeValue_le",
    "Verif.Props.positive_eigenvalue_overflow"
   ],
   "note": "standard model of floating-point arithmetic as contract (see C250); eigenvalues and eigenvectors are those returned by the solver"
  },
  {
   "property": "C253",
   "status": "proved",
   "theorems": [
    "Verif.Props.pod_reproducible",
    "Verif.Props.mean_reproducible",
    "Verif.Props.corr_reproducible",
    "Verif.Props.order_matters"
   ],
   "note": "contract of double precision as in C239 (monotone, exact on 53 bits, relative error 2^-53); products fused with additions are not modelled"
  },
  {
   "property": "C254",
   "status": "proved",
   "theorems": [
    "Verif.Props.unit_power_two",
    "Verif.Props.tiny_data_lost",
    "Verif.Props.rn_scales"
   ],
   "note": "contract: rounding commutes with powers of two (no overflow, no underflow), proved of round-to-nearest with 53 bits and unlimited exponents; tiny_data_lost: rounding that flushes small numbers to zero"
  },
  {
   "property": "C255",
   "status": "partial",
   "theorems": [
    "Verif.Props.eigs_real_partial",
    "Verif.Props.eigs_real_fails",
    "Verif.Props.modes_real_fails",
    "Verif.Props.ordered_possible"
   ],
   "note": "the full statement is false of the code (eigs_real_fails): with weights that are not powers of two the rounded matrix is not symmetric and scipy.linalg.eig is used; proved for weights that are powers of two; products fused with additions are not modelled"
  }
 ]
}