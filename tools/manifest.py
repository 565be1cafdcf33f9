#!/usr/bin/env python3
"""Source of /verif/MANIFEST.json (python3 tools/manifest.py > MANIFEST.json)."""
import json,sys
C=[]
def c(prop,status,thms,note=""):
    C.append({"property":prop,"status":status,"theorems":["Verif.Props."+t for t in thms.split()],"note":note})
c("C01","proved","blockdist_partition")
c("C02","proved","blockdist_balanced")
c("C03","proved","distributeDimension_gather distribute_gather distributeData_gather")
c("C04","proved","distribute_aligned")
c("C05","proved","npy_save_eq_serial npy_save_disjoint","MPI sub-array/Write_all semantics trusted")
c("C06","proved","npy_load_slab npy_save_load_roundtrip npy_load_gather")
c("C07","partial","npy_load_default_fails npy_load_default_partial npy_load_default_balanced_partial npy_load_default_exact npy_load_default_gather_fails","property violated by the code (operator precedence, parallel.py:288): negation proved, exact condition proved")
c("C08","proved","gram_rank_independent","exact arithmetic")
c("C09","proved","pvar_correct")
c("C10","partial","pvar_idle_rank_nan pvar_idle_rank_fails pvar_correct","property violated: idle rank gives NaN")
c("C45","partial","normalization_serial_eq_parallel_partial normalization_nan_differs pvar_nan pvar_idle_rank_nan","false with NaN data or idle ranks")
c("C64","proved","create_subcomm_grid pr0_once")
c("C11","proved","reader1_full reader1_distributed assign_slice")
c("C12","partial","reader1_single reader1_single_partial reader1_single_fails reader1_past_end","property violated when ts lies past the first dataset (reader.py:100 uses cum_read, not the file start); exact condition proved")
c("C13","partial","reader1_complex_partial reader1_complex_fails","property violated: complex data are cast to the float dtype; negation proved; holds for real data")
c("C14","proved","reader2_dict_tiles Tiles.exists_unique reader2_dict_content")
c("C15","proved","reader2_redistribute inputData2_spec","needs distinct file names and strictly increasing time labels, see reader2_duplicate_labels_fails, reader2_duplicate_file_fails (both proved); the branch with padding (MPI < 4 and 2^31 values or more) always raises, see C89")
c("C16","proved","mat_reader_order")
c("C17","proved","blocks_position blocks_number feasible_iff")
c("C18","proved","overlap_spec overlap_ge_hundred")
c("C19","proved","getBlocks_correct fit_blocks_two_stage","needs a non-empty last piece; the reader makes three pieces per chunk; which records have a non-empty last piece is settled exactly in C89")
c("C20","proved","long_time_mean_array long_time_mean_pieces long_time_mean_same")
c("C21","proved","mean_type_accepted mean_type_effect blockwise_zero_mean")
c("C22","proved","freq_axis_real")
c("C23","partial","freq_axis_complex_partial freq_axis_complex_even freq_axis_complex_odd_fails freq_axis_full","property violated for odd n_dft (base.py:630): negation proved for every odd n>=3, full statement proved for even n")
c("C24","partial","one_sided_factor_even_partial one_sided_energy_even_partial one_sided_factor_odd_fails one_sided_factor_fullspectrum_fails two_sided_factor_complex","property violated for odd n_dft and for real data with fullspectrum: negations proved; even case proved in full")
c("C25","proved","crossSpectral_posSemidef eigenvalues_real_nonneg")
c("C26","proved","spod_sorted_and_matched saved_modes_leading")
c("C27","proved","modes_orthonormal modes_orthonormal_distinct modes_unit_norm","orthonormal eigenvectors are a hypothesis only for repeated eigenvalues; modes_repeated_eigenvalue_fails shows it is needed")
c("C28","proved","total_energy total_energy_reported csd_expansion")
c("C29","partial","conf_bounds_partial conf_bounds_fails conf_bounds_exchanged","property violated for conf_level > 1/2 (the default): names of the bounds are exchanged; negation proved")
c("C30","proved","disk2_saved_exactly_once disk2_one_per_pass")
c("C31","proved","disk2_file_content disk2_messages_match disk2_file_end_to_end","MPI non-overtaking order trusted")
c("C32","proved","disk2_no_deadlock disk2_terminates","worst-case (unbuffered) sends")
c("C33","partial","blocks_present_iff cache_used_iff_complete_partial reuse_without_savefft_fails","violated when reuse_blocks is set without savefft (AttributeError): negation proved; full iff proved otherwise")
c("C34","partial","cache_reload_serial_partial cache_reload_parallel_partial cache_save_multivariable_serial_fails cache_reload_multivariable_parallel_fails cache_save_variable_axis_fails","violated for nv>=2 (negations proved for all shapes); proved in full for one variable, any grid, any number of ranks")
c("C35","partial","cache_crash_partial cache_crash_fails cache_stale_mixture_fails parallel_crash_hole_fails parallel_crash_hole_exact","violated: crash in the last file raises later; stale caches are mixed silently; holes of a parallel file read as zeros")
c("C36","partial","get_modes_exact get_modes_latest_disk_partial get_modes_latest_disk2_partial get_modes_stale_disk_fails get_modes_stale_mode_fails get_modes_latest_fails","violated after mixed histories: exact result proved for every history")
c("C37","proved","names_injective names_ordered names_order_beyond","injective without bound; order for indices below 10^8 as stated")
c("C43","partial","modes_saved_exact modes_saved_partial modes_saved_fails","violated: request is lowered permanently; exact result proved for every history")
c("C44","partial","first_fit_weights refit_weights_exact refit_weights_partial refit_weights_fails","violated with variance normalization: caller's array is divided in place at each fit; exact result proved")
c("C65","partial","get_all_modes_partial get_all_modes_stale_fails","violated when an earlier fit had more frequencies: stale files included")
c("C38","partial","stream_exact stream_first_blocks_partial stream_blocks_fails stream_no_overlap_drops stream_count_fails","violated: from block ceil(n/dn) on, streaming blocks start one snapshot later per turn; exact emission sequence proved for every stream")
c("C39","proved","stream_slots stream_exact")
c("C40","proved","stream_mean")
c("C41","proved","stream_dft stream_dft_entries")
c("C42","proved","stream_update stream_truncate stream_closed_form stream_orthonormal stream_span_fails stream_repeat_fails","for blocks outside the span of the basis (otherwise the code divides by zero: stream_span_fails)")
c("C66","partial","stream_energy stream_closed_form stream_weight_fails","violated: block weights differ from 1/c and eigs holds singular values; exact energies proved")
c("C67","partial","stream_modes_shape_partial stream_modes_shape_fails stream_succeeds_exact","violated for one mode; exact condition for the whole fit proved")
c("C68","partial","gram_shape_partial gram_shape_fails fit_succeeds_exact fit_two_ranks_fails","violated on a rank with a single value; exact condition for the whole fit proved")
c("C69","partial","stream_ltm_fails stream_fit_rest","violated for every stream: the mean of the first snapshot over nt is stored; the general formula is proved")
c("C70","partial","stream_reads_partial stream_datasets_fails stream_netcdf_never_ends stream_netcdf_no_termination","violated for several datasets and for NetCDF lists; proved for one dataset")
c("C71","partial","normalize_data_exact normalize_data_partial normalize_data_fails","violated: divides by the variance; exact result proved")
c("C46","proved","band_selection band_default band_one_bound_ignored")
c("C47","partial","op_exact_partial op_independent op_exact_tol_zero op_idempotent op_residual_orthogonal op_truncation_fails","violated at the default tolerance for badly scaled modes (negation proved); proved when no singular value is cut off, in particular for tol=0; idempotence proved for every tolerance")
c("C48","proved","projection_parallel projection_files")
c("C49","proved","modes_matrix")
c("C50","partial","time_idx_named time_idx_list time_idx_default_partial time_idx_default_fails","violated by the default selection for one snapshot; everything else proved")
c("C51","partial","conv_window conv_centred_partial conv_centred_odd_fails","full windows proved; centring violated for odd n_DFT")
c("C60","proved","nearest_freq nearest_freq_mono nearest_freq_mono_sorted")
c("C61","partial","nearest_coords_exact nearest_coords_partial nearest_coords_fails","violated: index of the mirrored axis is reported; exact result proved")
c("C72","partial","freq_idx_alone_fails freq_idx_with_band_partial modes_matrix_overflow_fails","violated: TypeError without a band, IndexError for more indices than the band holds")
c("C73","partial","conv_serial_partial conv_parallel_exact conv_parallel_fails","violated: no reduction over ranks; exact condition proved")
c("C74","partial","conv_corr_interior_partial conv_corr_fails","violated at both ends (off by one) for every length")
c("C75","partial","conv_band_exact conv_full_axis_partial conv_band_fails conv_succeeds_whole_axis","violated for every proper band and for one mode; exact condition proved")
c("C76","partial","convModesFile_eq conv_modes_file_partial conv_modes_file_fails conv_modes_file_wrong","violated: memory reinterpreted, exact content proved")
c("C52","partial","pod_eig_energy pod_orthonormal_partial pod_span pod_reconstruct_partial pod_example pod_repeated_fails","proved for pairwise different positive eigenvalues; violated (non-symmetric eigen-solver) for repeated ones")
c("C53","partial","pod_keeps_partial pod_order_free pod_keeps_fails","violated: eigenvalues are not sorted; proved when the solver returns them sorted")
c("C54","partial","scaling_real_partial scaling_complex_partial scaling_zero_row_fails scaling_real_row_fails scaling_type_case_fails","violated for zero rows, purely real rows of complex data and data_type='Complex'; proved for all other data")
c("C55","partial","extract_exact extract_aligned_partial extract_last_fails extract_minimal_fails extract_horizon_zero","violated: the last window is never used; exact result proved for all sizes")
c("C56","partial","inference_partial inference_column_partial inference_fails inference_short complexPredict_parts","violated when n_out does not divide the horizon (ValueError): negation proved; exact result proved otherwise")
c("C77","partial","pod_shape_exact pod_shape_nt pod_multivariable_fails","violated: accepted exactly for one variable without variable axis")
c("C78","partial","pod_modes_exact pod_default_modes_fails pod_many_modes_fails","violated: default is a float (TypeError), more modes than snapshots raise")
c("C79","partial","load_eq pod_load_partial pod_complex_fails","violated for complex data (imaginary part discarded)")
c("C80","partial","pod_reconstruct_exact pod_reconstruct_partial pod_reconstruct_weights_fails","violated: weights ignored in the projection; exact result for constant weights")
c("C81","proved","pod_parallel_corr pod_parallel_coeffs")
c("C57","partial","dLat_spec dLon_spec geo_2d_partial geo_small_fails geo_first_meridian_fails geo_total_exact geo_total_fails geo_3d_flat geo_3d_partial geo_3d_fails","violated: the first meridian has weight zero, the total is < 4 pi R^2 on every grid, IndexError for fewer than 4 latitudes, wrong 3-D layout for two or more variables; exact total and weights proved")
c("C58","partial","l1_error l2_error linf_error rel_errors_partial linf_rel_exact linf_rel_fails rel_zero_reference_fails lErr_unknown errors_degenerate h1_exact h1_partial h1_degenerate h1_fails","absolute l1/l2/linf proved (with the triangle inequality); violated: linf_rel can be negative, one zero of the reference makes relative errors nan, the h1 error is zero for fields whose errors cancel in space; exact values proved")
c("C59","partial","config_values_partial config_accepts parseYaml_spec config_missing_fails config_second_key_fails","values and acceptance proved exactly; violated: the result of the required-key check is dropped, the second key of a list item is lost")
c("C62","partial","energy_exact energy_even_partial energy_odd_fails energy_missing_fails","violated: only the real part of the transform is used, so sine content is invisible; exact value proved, claim proved for time-symmetric signals")
c("C63","partial","ortho_call verdict_exact ortho_real_partial ortho_same ortho_parallel ortho_imaginary_fails ortho_int_fails ortho_int_one_point ortho_missing_mode_fails ortho_negative_exact","violated: the imaginary part of the inner product is ignored, documented int arguments raise, a mode that was not stored is reported orthogonal; exact meaning proved")
c("C82","proved","fit_rank_independent fit_two_stage_eq_serial fit_succeeds_exact","the files of fits of flattened data (NetCDF, .mat) are covered by C89, C91; composition of the models of all steps; exact arithmetic; eig/argsort as one deterministic function of the reduced matrix")
c("C83","proved","fit_formula fit_solves_spod solver_exists","end-to-end; eig/argsort as a contract that is shown satisfiable for every size")
c("C84","partial","weights_accepted_exact variables_checked data_shape_recognised data_shape_mismatch data_shape_fails default_weights_one weights_applied_partial weights_shape_fails","violated: only the number of entries is checked; placement proved for weights of the data's shape")
c("C85","proved","window_gain window_mean hamming_bounds hamming_symm hamming_sum")
c("C86","partial","real_detection_exact real_detection_partial real_detection_fails","violated: only the first snapshot of the first dataset is looked at")
c("C87","partial","folder_injective folder_settings_fails","violated for mean type, time step, spectrum option, weights; injective in block length, overlap, number of blocks")
c("C88","partial","options_exact options_partial options_fails dtype_fails","violated: files rejected with default options, misspelt precision means single; exact acceptance proved")
c("C89","partial","netcdf_fit_exact netcdf_reads_partial netcdf_large_snapshots_fail netcdf_few_snapshots_fail netcdf_more_variables_fail netcdf_missing_variables_zero netcdf_variables","results proved equal whenever the fit succeeds, and success characterised exactly; violated: fewer than 9 snapshots, snapshots of 128 MB per rank or more, normalize_weights, more variables than n_variables raise; missing variables become zero")
c("C90","partial","padding_exact padding_partial padding_fails","violated: the branch for MPI < 4 uses a variable that has no value and always raises; exact limit proved")
c("C91","partial","mat_fit_exact mat_reads_partial mat_reads_small mat_nonfinite_fails mat_shape_not_checked mat_point_broadcast","results proved equal whenever the fit succeeds, and success characterised exactly; violated: shapes are not compared, a single point is spread over the grid, normalize_weights raises")
c("C92","proved","no_deadlock fit_no_deadlock fit_ranks_exist reach_sum","collective calls only; the point-to-point exchanges of the two-stage readers are C15, those of the saving step C30-C32")
c("C93","partial","error_hangs fit_error_hangs netcdf_error_hangs mat_error_hangs mat_error_position rank_stuck uniform_error_ends pass_error_exact","violated: an exception on one rank leaves every other rank waiting at the next barrier; proved: errors raised by all ranks at the same point end the run")
c("C94","proved","stored_blocks_agreed look_inv")
c("C95","proved","session_no_deadlock session_no_race session_complete session_fit_calls barrier_separates acts_no_deadlock")
c("C96","proved","shared_write_intact shared_write_early_fails shared_inv","POSIX open/write as contract; all ranks write the same text")
c("C97","proved","stream_fit_rank_independent","SVD as a deterministic function of the small matrix; ranks with one value: see C68")
c("C98","proved","stream_fit_formula stream_fit_rest svd_exists nUpdates_spec newCol_spec","linear independence of the blocks at the frequency is a hypothesis (otherwise the code divides by zero)")
c("C99","proved","projection_files project_ser project_par","SVD/pinv as one deterministic function of the reduced matrix; hypothesis: the list of frequencies is as long as the band (otherwise see C72)")
c("C100","proved","reconstruction_file","non-empty list of times and grid (see C102)")
c("C101","proved","reconstruction_conv_file","non-empty list of times and grid (see C102)")
c("C102","partial","reconstruction_no_times_fails reconstruction_file reconstruction_conv_file","violated for an empty list of times: one process writes an empty file, every communicator raises; proved for non-empty lists (C100, C101)")
c("C103","proved","roundtrip project_reconstruct coef_svd_exists","end to end through the files")
c("C104","proved","pipeline_rank_independent","hypotheses as in C83 and C99")
c("C105","partial","reconstruction_real_fails reconstruction_real_partial roundtrip","violated whenever the phase of a stored mode varies in space; proved for real modes (and for data in the span of the modes: C103)")
c("C106","partial","flat_projection_exact count_mul_iff","violated: exact characterisation - one process, or first axis largest and divided by the number of ranks; otherwise compute_coeffs_op raises")
c("C107","proved","projection_svd_free projection_svd_option mInv_unique","exact arithmetic")
c("C108","proved","pod_fit_files pod_unknown_mean","single-variable data without variable axis: the only data the code accepts (C77); number of modes as accepted (C78); exact arithmetic")
c("C109","proved","pod_projection_files","exact arithmetic")
c("C110","partial","pod_files_orthonormal_partial eig_solver_exists podExEigs","proved when the eigenvalues of the stored modes are positive and distinct; for repeated eigenvalues it fails, see pod_repeated_fails (C52)")
c("C111","partial","pod_roundtrip_partial pod_reconstruct_given","proved for unit weights when the non-zero eigenvalues are distinct and come first; with other constant weights it fails (C80)")
c("C112","partial","pod_modes_idx_fails","violated: the argument is only written into the parameter file")
c("C113","partial","plot_data_second plot_data_first_partial plot_data_square_fails plot_default_fails plot_data_accepts plot_one_coordinate video_frame_plot","violated for square data with x1 along the first axis (and the default coordinates): drawn transposed; proved otherwise, with the exact condition of acceptance; matplotlib is a contract")
c("C114","partial","plot_mode_limits plot_mode_limits_first_partial plot_mode_square_fails mode_pages mode_pages_nodup","violated for square modes with x1 along the first axis; proved otherwise for every selection of indices")
c("C115","partial","axis_limits_exact axis_limits_fails axis_limits_margin","violated when all coordinates are positive (or all negative): exact characterisation")
c("C116","partial","max_marker_exact max_marker_fails max_marker_tie_fails","violated: the two coordinates are exchanged, and ties raise")
c("C117","partial","shift180_partial shift180_odd_fails shift180_first_axis_fails shift180_restored_partial shift180_exception_fails shift180_exception_partial fftshift_drawn shift180_fftshift_fails","violated for an odd number of longitudes, for longitudes along the first axis, together with fftshift, and after exceptions; proved for even uniform longitudes along the second axis")
c("C118","partial","slice_coords_exact slice_coords_partial slice_cube_fails slice_default_fails","violated: exact characterisation by the extents; the default slice is 0")
c("C119","partial","tracer_exact tracer_fails tracer_times tracer_rows_exact tracer_rows_used","violated: the curve oscillates at five times the frequency, and several variables raise; exact")
c("C120","partial","data_tracer_exact data_tracer_values data_tracer_default_fails tracer_method_fails tracer_method_partial video_times video_exact video_frames video_method_fails video_method_partial data_method","violated for the methods with a lower limit above zero, and for the default limits with fewer than ten snapshots; the functions are characterised exactly")
c("C121","partial","report_peaks_partial report_pages_partial report_negative_fails report_period bsearch_spec bsearch_mono report_period_range","proved for increasing non-negative frequencies (real data, full spectrum); violated for negative frequencies (complex data), where the report raises")
c("C122","partial","weights_serial_bytes weights_parallel_bytes_exact weights_big_endian_fails weights_native_partial weights_file_eq other_order","violated for the byte order that is not the machine's when a communicator is given (the bytes are reinterpreted, parallel.py:190); exact characterisation, proved for native byte order")
c("C123","partial","stored_float_exact stored_float_fails","violated: only native double precision is converted; exact characterisation")
c("C124","partial","chdir_mixed_fails session_partial session_absolute_partial get_all_modes_again get_all_modes_twice_fails coeffs_mixed_fails project_reconstruct_exact project_reconstruct_fails","violated for relative paths after get_all_modes (which changes the working directory for good) or os.chdir (some functions resolve against the directory of the import); proved for sessions with absolute paths from the first such call on")
c("C125","partial","modes_alias_file modes_alias_fails modes_copy_partial all_modes_copy","violated for one file per frequency: the returned array is a writable memory map; proved for one file per mode and for get_all_modes")
c("C126","partial","readonly_modes_exact readonly_fails readonly_partial","violated: files are mapped with mode r+; exact characterisation")
c("C127","partial","method_reconstruct_exact method_project_exact method_project_fails method_reconstruct_fails method_partial","violated: the arguments are ignored; exact characterisation over all histories")
c("C128","partial","folders_exact projection_kept_partial projection_overwritten_fails recon_files_exact recon_overwritten_fails recon_kept_partial folder_same","violated for the same band and savedir; exact characterisation over all histories")
c("C129","partial","crash_projection_fresh crash_projection_exact crash_projection_mixed_fails crash_pod_projection_mixed_fails interrupted_at","proved for a new folder; violated when the folder holds an earlier projection: exact characterisation by crash point")
c("C130","partial","crash_fit_fresh fit_inputs_exact crash_fit_modes crash_fit_mixed crash_fit_mixed_fails","proved for a new folder and for each frequency alone; violated when the folder holds an earlier fit")
c("C132","partial","pages_files report_files video_files coeffs_files coeffs_files_exact coeffs_open_figure_fails report_then_coeffs_fails session_files_partial","violated by plot_coeffs with several coefficients when figures are open (for instance after a report); exact characterisation; proved for sessions without open figures and for all other functions in any state")
c("C133","partial","open_figures_exact own_figure_lost_fails report_leaks_fails pages_files","violated by plot_coeffs (closes foreign figures), the report (leaves its pages open) and videos (close everything); exact characterisation")
c("C134","partial","coeffs_size_fails size_partial video_files","violated: plot_coeffs uses the requested size for the first file only, videos never; proved for the other functions")
c("C135","proved","eigs_inside","exact arithmetic")
c("C136","partial","spectrum_visible_exact spectrum_visible_fails spectrum_position shade_mono shade_injective_exact","violated: frequencies that are not positive are never shown, forty or more modes share shades; exact characterisation")
c("C137","partial","subplots_exact subplots_blank_fails subplots_constant_fails","violated for values outside the range of the first variable, constant first variables, and a third variable without a second; exact characterisation")
c("C138","partial","checkpoint_best checkpoint_stale_fails","exact: best epoch whenever some loss is finite; violated when none is (the old file, or none, stays)")
c("C139","partial","trained_files inference_loads_exact inference_uses inference_uses_real imag_missing_fails imag_stale_fails names_differ anyImag_iff","exact characterisation over all histories; violated for the imaginary part when the last training data of the index were real")
c("C140","partial","state_after_inference train_after_init_partial training_order_fails","violated: training starts from whatever weights the object holds, also those loaded by an inference; proved for the real part right after model_initialize")
c("C141","partial","read_data_exact read_npy_fails read_other_raises read_format","violated: every .npy file raises NameError; exact for file names with an extension")
c("C142","partial","dtype_same_exact dtype_single_fails","violated: np.float64 and unknown strings are single precision in a fit; exact characterisation")
c("C143","partial","conv_serial conv_ranks","proved for one process; on several processes exact: only rank 0's grid points are summed, so the property is violated")
c("C144","proved","conv_affine conv_affine_ranks")
c("C145","partial","conv_energy_exact conv_energy_fails","violated: the mean is the eigenvalue times (sum of the window)^2 over the fit's normalisation; exact value proved")
c("C146","partial","conv_selection_exact conv_order_fails conv_single_fails conv_memory_fails","violated: row f pairs the transform of the f-th chosen frequency with the modes of frequency f, and rows of frequencies that were not chosen are uninitialised memory; exact value proved")
c("C147","proved","spod_optimal spod_optimal_freq","the eigen-solver returns a basis of unit eigenvectors (exact arithmetic)")
c("C148","proved","fit_library_independent")
c("C149","proved","fit_affine")
c("C150","proved","fit_weights_scaled")
c("C151","proved","fit_reordered")
c("C152","partial","full_spectrum_exact full_spectrum_partial full_spectrum_fails","violated at the first positive frequency, reported with twice the eigenvalues of the last entry of the axis; modes and the other frequencies proved")
c("C153","partial","total_variance_partial total_variance_odd_exact total_variance_odd_fails total_variance_full_exact","proved for one-sided spectra with even n_dft; violated for odd n_dft and full spectra of real data, exact values proved")
c("C154","partial","reconstruction_splits_partial best_approximation_partial best_approximation_fails","proved when the tolerance drops no non-zero singular value (always for tol=0, dependent modes included); violated for every tolerance between 0 and 1 by two nearly parallel unit modes")
c("C155","partial","more_frequencies_partial more_frequencies_fails","proved under the same condition on the larger selection; violated for every tolerance between 0 and 1")
c("C156","proved","reproject_same reproject_real","the reconstruction has to be real to be given as data (always for real modes)")
c("C157","proved","projection_affine","every tolerance")
c("C158","proved","coeffs_zero_mean","")
c("C159","partial","pod_energy_bound pod_optimal_partial pod_optimal_fails","the bound and the energy of each mode are proved for all data; the kept modes are optimal if the solver returns the eigenvalues in decreasing order; violated otherwise (standard.py:52-61 does not sort)")
c("C160","proved","pod_changed_data","one theorem for all the changes together; modes at eigenvalues that are positive and simple")
c("C161","proved","picture_names picture_files mode_call_files tracer_names data_tracer_names","tracers: for printings of coordinates that are injective and contain no underscore (repr of numbers)")
c("C162","partial","report_pages_exact nearest_self","proved for saved modes and increasing non-negative frequencies; modes beyond the saved ones have the spectrum page only (exact)")
c("C163","partial","report_ranks_fails report_ranks_partial report_file_last","violated: all ranks write the same file and only rank 0 draws the modes, so the last rank to finish decides; proved when rank 0 finishes last")
c("C164","partial","methods_exact slice_method_fails modes_method","violated: plot_2d_mode_slice_vs_time calls a function that does not exist; proved for the others")
c("C165","proved","sizes_printed","")
c("C166","proved","single_frequency_coeffs coeffs_inner_products","exact arithmetic")
c("C167","proved","fit_masked projection_masked","")
c("C168","proved","saved_modes_prefix","")
c("C169","proved","fit_blocks_reordered","")
c("C170","proved","fit_time_reversed hamming_symm","stated for any symmetric window; hamming_symm shows that the window of the code is one")
c("C171","proved","unit_of_time freqAxis_units nearest_units band_units","exact arithmetic")
c("C172","partial","accepted_network_fails accepted_network_partial","violated: cnn is accepted, but the model is empty and not compiled, so training always raises; proved for lstm and for other names")
c("C173","partial","prediction_earlier_fails prediction_earlier_partial","violated: one later entry with an imaginary part switches the second network on for all columns; proved for two inputs which both have, or both have not, an imaginary part")
c("C174","proved","reads_written","files made by the calls of the session; input data files are not part of the model of sessions")
c("C175","proved","fit_isometry","exact arithmetic")
c("C176","proved","fit_pattern","exact arithmetic")
c("C177","proved","fit_outside_blocks","")
c("C178","partial","finite_modes_exact finite_modes_rank finite_modes_fails finite_modes_partial finite_steady_fails pod_finite_exact pod_finite_fails","false: modes of eigenvalue zero are divided by zero - always with more blocks than points of non-zero weight, and for POD keeping all modes with the long-time mean removed; exact arithmetic (rounding may replace the zero by a tiny number)")
c("C179","partial","norm_runs norm_serial norm_parallel norm_variable_axis_fails norm_idle_rank_fails norm_constant_fails norm_flat_fails norm_dict_fails","false when variables are split among the ranks, with idle ranks, constant variables, flat weights, and data from the two-stage readers; proved otherwise")
c("C180","proved","norm_units","for data on which the normalisation succeeds (C179); exact arithmetic")
c("C181","partial","stream_norm_exact stream_norm_fails stream_norm_start_fails","false: only the first snapshot is used; what is done instead is proved for one process")
c("C182","proved","stream_steady stream_steady_ltm","eigenvalues and modes; the stored mean does follow the field (C69); exact arithmetic")
c("C183","proved","stream_zero_weight","modes compared at points of non-zero weight; at the others they are not finite (C184); exact arithmetic")
c("C184","partial","stream_finite_partial stream_zero_block_fails stream_rest_fails stream_masked_fails","false: a block that is a combination of the earlier ones (e.g. a flow starting from rest) divides by zero, and so does a weight that is zero; proved for independent blocks and positive weights")
c("C185","partial","stream_options_fail stream_zero_mean_fails stream_options_partial","false: the running mean is always subtracted and the data are never normalised; unknown types of mean are rejected")
c("C186","partial","stream_bounds_fail stream_bounds_shape_fails standard_bounds_partial stream_eig_pos","false for streaming fits: the bounds stay the zeros of the initialisation, with another shape; proved for standard fits under the contract of gammaincinv")
c("C187","partial","getters_fail getters_partial","false for file_dynamics, freq_idx_lb and freq_idx_ub, which no method ever sets; proved for all others")
c("C188","proved","stream_svd_free","under the stated conditions; exact arithmetic; contract of numpy.linalg.svd")
c("C189","proved","stream_isometry stream_scaled","under the stated conditions; positive weights; exact arithmetic; contract of numpy.linalg.svd")
c("C190","partial","slice_shown slice_fftshift slice_default_coords slice_missing_fails slice_first_missing_fails slice_third_missing slice_marker_exact slice_marker_fails","values proved; false: the marker is drawn at (x2[column], x1[row]) whichever axes are drawn, or the call raises IndexError; the coordinates of the sliced axis are required across the first and second axis; which coordinates are drawn: exactly C118's condition")
c("C191","partial","stream_error_silent stream_error_zero stream_error_first stream_read_ok","false: the bare except takes every exception for the end of the data; no exception, and the files hold the results of the snapshots before the error (zeros if before the end of the first block); only an error on the first snapshot is raised")
c("C192","partial","stream_ends_partial stream_error_hangs stream_error_harmless","proved when all ranks see the same end of the data (one array); false otherwise: a rank that fails to read goes on to save and waits in a reduction, the others in a barrier, for ever")
c("C193","partial","reuse_same_input_partial reuse_exact reuse_energy_exact reuse_other_data_fails","one variable, complete files; proved for every history in which all fits have the same snapshots and block settings (any ranks, weights, spectra, flags); false for other data or settings: the old blocks are used silently (exact characterisation)")
c("C194","partial","one_source_partial reuse_first_fit reuse_mixes_fails","proved if no fit without reuse_blocks has fewer frequencies than an earlier one; otherwise false: full spectrum, then half spectrum recomputed, then full spectrum reused mixes two data sets in one result")
c("C195","proved","fit_triangle fit_noise","whole fits, one or several ranks, any eigen-solver meeting the LAPACK contract; data not normalised; for fit_noise a window without negative entries")
c("C196","proved","fit_domain_mono","whole fits; any injection of one grid into another")
c("C197","proved","fit_longer","whole fits; for the longtime mean the two records must have the same mean")
c("C198","proved","fit_repeated","whole fits; no overlap and a whole number of blocks")
c("C199","proved","stream_truncation","whole streaming fits, one or several ranks, any SVD meeting the LAPACK contract; frequencies with independent blocks; the stored eigenvalues are square roots as in streaming.py")
c("C200","proved","pod_triangle pod_noise","whole POD fits, one or several ranks, any eigen-solver meeting the contract; eigenvalues compared after sorting because the code does not sort them (C159)")
c("C201","proved","pod_domain_mono","whole POD fits; any injection of one grid into another")
c("C202","proved","pod_longer pod_repeated","whole POD fits; for the longtime mean the continuation must have the same mean")
c("C203","proved","reconstruction_energy","compute_coeffs_op followed by compute_reconstruction of all times; exact arithmetic; any SVD meeting the LAPACK contract")
c("C204","proved","reconstruction_stable","as C203, for two data sets")
c("C205","proved","fit_parts","whole fits, one or several ranks; the parts are given by any bijection between grids")
c("C206","proved","fit_uncorrelated","whole fits; equality of multisets of eigenvalues, with as many zeros as there are blocks")
c("C207","proved","pod_error podFour_error pod_left_out pod_closest","whole workflow fit, project, reconstruct; exact arithmetic; any eig meeting the LAPACK contract")
c("C208","proved","fit_constraint","any rank count; exact arithmetic; any eig routine (the relation does not depend on the solver contract)")
c("C209","proved","stream_constraint","any rank count; SVD by contract; independence of blocks is the same hypothesis as in C184")
c("C210","proved","pod_constraint","any rank count; eig by contract (EigBasis, real)")
c("C211","proved","workflow_constraint reconstruction_constraint","fit, projection and reconstruction each on any number of ranks; standard fits")
c("C212","partial","reuse_any_grid_exact reuse_other_grid_partial reuse_spread_fails","exact: numpy spreads blocks of a grid with fewer axes or axes of one point over the new grid, and the fit succeeds with the other data; all other grids are refused")
c("C213","partial","emulate_exact emulate_error emulate_complex_error emulate_remainder_fails emulate_zero_row_fails emulate_real_row_fails","fails if the columns to emulate are not a multiple of n_out (ValueError), for a row that is zero in the training data, and for complex data with a row that is real in the training data (nan)")
c("C214","partial","pod_given_distance emulated_fields_partial","needs stored modes of positive, distinct eigenvalues: for repeated ones la.eig need not return orthogonal vectors")
c("C215","partial","pod_norm_partial pod_norm_constant_fails pod_norm_idle_fails pod_norm_flat_fails","fails for constant data (division by zero), for more ranks than points on the longest axis (nan) and for weights without variable axis (only the first column is divided)")
c("C216","proved","pod_norm_units","for weights with variable axis, data of positive variance and no idle ranks (see C215)")
c("C217","proved","fit_rank fit_points fit_low_rank","data not normalised for fit_rank and fit_low_rank (normalize_data divides every point of every block by its own variance)")
c("C218","proved","pod_rank pod_rank_exact","pod_rank_exact: long-time mean, no weights, distinct positive eigenvalues of the saved modes (else C52, C53)")
c("C219","proved","pod_parts","weights not negative; the ordering is that of sizes, as la.eig stores eigenvalues in any order")
c("C220","proved","stream_triangle stream_noise","whole streaming fits; without truncation and with independent blocks (else C184, C199); exact arithmetic; contract of numpy.linalg.svd")
c("C221","proved","stream_domain_mono stream_parts","whole streaming fits; without truncation; the eigenvalues stored are square roots, hence the squares")
c("C222","proved","pod_workflow_constraint","whole POD fit, projection and reconstruction; any weights")
c("C223","proved","pod_reconstruction_energy pod_reconstruction_stable","whole workflow; without weights; exact arithmetic")
c("C224","proved","pod_coeffs_zero_mean pod_project_again","whole workflow; zero mean with any weights, projection again and Bessel bound without weights")
c("C225","proved","stream_workflow_constraint","whole streaming fit, projection and reconstruction, each on any ranks; contract of numpy.linalg.svd")
c("C226","proved","stream_single_frequency","whole streaming fit and projection; eigenvalues positive if enough blocks (C227)")
c("C227","proved","stream_rank","whole streaming fits, with truncation too; block b starts at b*(nDft-nOvlp) + b/nPar (C38)")
c("C228","partial","chunk_size_partial chunk_size_fails chunk_count mat_chunk_size pieces_local","violated by up to a factor of two (number of chunks rounded down); the bound that holds is proved for both readers")
c("C229","proved","stream_longer","whole streaming fits with truncation, on any ranks; contract of numpy.linalg.svd")
c("C230","partial","crash_pod_fresh crash_pod_exact crash_pod_modes_partial crash_pod_mixed_fails pod_crash_file","holds for a new folder; violated when the folder holds an earlier fit, exact states proved")
c("C231","proved","fit_rounding rounding_ranks roundBound_le gram_exact_possible","standard model of floating-point arithmetic (relative error at most u per operation, no underflow or overflow) as contract; any order of additions")
c("C232","proved","fit_floating","as C231, with errors of the transforms and of the solver as parameters")
c("C233","proved","pod_floating pod_exact_possible","standard model of floating-point arithmetic as contract (as C231)")
c("C234","proved","pod_project_floating pod_project_possible","standard model of floating-point arithmetic as contract (as C231); the modes are those in the folder")
c("C235","proved","reported_floating close_units rank_one_possible rank_one_nan","standard model of floating-point arithmetic as contract (as C231); scaling, sorting and square roots of the eigenvalues themselves are exact")
c("C236","proved","spod_floating hat_near hatBound_le hat_exact_possible","standard model of floating-point arithmetic and accuracy of numpy.fft as contracts; the statement is about the reported eigenvalues and the mode factors, not the modes")
c("C237","proved","fit_periodic","whole fits, on any ranks; exact arithmetic")
c("C238","proved","mode_unit_norm modes_orthogonal small_mode_lost mode_exact_possible","real, positive eigenvalues (the branch of real_if_close); the errors of the Fourier coefficients themselves are C236 and do not matter here")
c("C239","partial","overlap_decimal_fails overlap_whole_partial overlap_any_partial","violated: ceil(fl(fl(n_dft*overlap)/100)) is one too large for some decimal percentages (1000, 16.1); whole percentages are exact and the error is at most one")
c("C240","proved","ceilDiv_exact halfCount_exact chunks_exact chunks_mat_exact freqReal_axis freqFull_axis rn_double","rounding to double precision as a contract; rounding to nearest meets it (rn_double)")
c("C241","proved","pvar_rounding nanvar_rounding pvar_nonneg weight_rounding weights_serial_parallel seqStat_possible constant_variance_positive","standard model of rounding (relative error u, no underflow); counts exact; the example uses rounding to nearest of doubles")
c("C242","proved","scaling_double scaling_double_inexact scaling_double_zero_row","real data, and real and imaginary parts of complex data, which the code scales separately; rows of zeros are C54")
c("C243","proved","check_unit_norm check_orthogonal check_double check_lost_mode inner_rounding","the product O is a single number (mode indices given as one-element lists, see C63); standard model of rounding")
c("C244","proved","spod_project_floating spod_roundtrip_floating coefficients_rounding reconstruct_rounding orthonormal_energy close_modes_lost spod_project_possible","standard model of floating-point arithmetic as contract (as C231); the pseudo-inverse of LAPACK enters by the residual it leaves in the computed normal equations; the bound contains the norm of the computed coefficients")
c("C245","proved","stream_floating column_near stream_possible streamBound_le","standard model of floating-point arithmetic as contract (as C231); the entries of np.fft.fft(identity) are within gamma of the exact ones; real data; column_near gives the error of the weighted column handed on")
c("C246","proved","streaming_fit_floating basis_floating stream_values_floating stream_columns_floating principal_exists first_update_possible","standard model of floating-point arithmetic as contract (as C231); LAPACK's SVD by its residual and the distance of its factors from unitary matrices; division of complex numbers and square root with relative error v; orthogonality and lengths of the computed columns are hypotheses (they can be measured with check_orthogonality)")
c("C247","proved","conv_floating conv_floating_ranks convBound_le conv_possible","standard model of floating-point arithmetic as contract (as C231); numpy's FFT by its error; the window and the data are numbers of the working precision; on several ranks the exact value is the one of C143, summed over the points of rank 0")
c("C248","partial","normalized_floating_partial normBound_le hat_normalized hat_normalized_possible normalized_floating_fails","proved for variances away from the threshold by more than their rounding error (ClearVar); normalized_floating_fails: at the threshold the code violates the claim, for every roundoff above 0. Standard model of floating-point arithmetic as contract (as C231); numpy's FFT by its error, the eigensolver by its backward error (as C236)")
c("C249","proved","errors_floating errors_floating_zero errors_floating_two h1_floating errors_possible h1_possible","standard model of floating-point arithmetic as contract (as C231); square roots are rounded correctly up to the relative error u; complex fields and broadcasting are not modelled")
c("C250","proved","fit_no_overflow data_below_max_overflow hatSize_le","standard model of floating-point arithmetic as contract (as C231), here for rounding without an upper limit of the exponents: when all values that then occur are at most the largest number, no operation of the limited arithmetic overflows; the values inside the Fourier transform are not modelled, its error is a contract")
c("C251","proved","pod_no_overflow fluctValue_le corrValue_le","standard model of floating-point arithmetic as contract (see C250); real data")
c("C252","proved","modes_no_overflow factorValue_le modeValue_le positive_eigenvalue_overflow","standard model of floating-point arithmetic as contract (see C250); eigenvalues and eigenvectors are those returned by the solver")
c("C253","proved","pod_reproducible mean_reproducible corr_reproducible order_matters","contract of double precision as in C239 (monotone, exact on 53 bits, relative error 2^-53); products fused with additions are not modelled")
c("C254","proved","unit_power_two tiny_data_lost rn_scales","contract: rounding commutes with powers of two (no overflow, no underflow), proved of round-to-nearest with 53 bits and unlimited exponents; tiny_data_lost: rounding that flushes small numbers to zero")
c("C255","partial","eigs_real_partial eigs_real_fails modes_real_fails ordered_possible","the full statement is false of the code (eigs_real_fails): with weights that are not powers of two the rounded matrix is not symmetric and scipy.linalg.eig is used; proved for weights that are powers of two; products fused with additions are not modelled")
c("C131","partial","params_exact params_modes_fails params_savedir_fails params_partial runs_state","violated: objects write savedir and n_modes_save into the caller's dictionary; exact characterisation over all sequences of objects")
json.dump({"claims":sorted(C,key=lambda d:int(d["property"][1:]))},sys.stdout,indent=1)
