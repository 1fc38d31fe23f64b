# Axioms of the theorems in MANIFEST.json

Generated by `tools/axioms.py` from Lean's `#print axioms`.

## Classical.choice, Quot.sound, propext (651 theorems)

* `RMT.Props.C01_step_array`
* `RMT.Props.C02_step_counts_partial`
* `RMT.Props.C02_refuted`
* `RMT.Props.C02_fails_iff`
* `RMT.Props.C03_step_monotone`
* `RMT.Props.C04_step_array_scalar`
* `RMT.Props.C05_steps`
* `RMT.Props.C05_steps_distinct`
* `RMT.Props.C06_find_first`
* `RMT.Props.C07_line_optimal`
* `RMT.Props.C07_line_unique`
* `RMT.Props.C07_line_recovers`
* `RMT.Props.C08_trapz_affine`
* `RMT.Props.C08_trapz_additive`
* `RMT.Props.C08_trapz_nonneg`
* `RMT.Props.C09_simps_quadratic`
* `RMT.Props.C10_simps_two_nodes`
* `RMT.Props.C10_simps_affine_partial`
* `RMT.Props.C10_refuted`
* `RMT.Props.C11_reported`
* `RMT.Props.C11_sample_nonneg`
* `RMT.Props.C11_sample_error`
* `RMT.Props.C12_sample_invariant`
* `RMT.Props.C12_rigidity_invariant`
* `RMT.Props.C13_delta_budget`
* `RMT.Props.C13_delta_error`
* `RMT.Props.C13_delta_first_stop`
* `RMT.Props.C14_delta_value`
* `RMT.Props.C15_delta_converged`
* `RMT.Props.C16_delta_average_partial`
* `RMT.Props.C16_delta_short_runs`
* `RMT.Props.C16_refuted`
* `RMT.Props.C16_grid`
* `RMT.Props.C17_parallel`
* `RMT.Props.C17_rigidity_explicit`
* `RMT.Props.C17_rigidity_auto`
* `RMT.Props.C18_levelvar_schedule`
* `RMT.Props.C18_rigidity_schedule`
* `RMT.Props.C19_sigma_is_variance`
* `RMT.Props.C20_sigma_budget`
* `RMT.Props.C20_sigma_converged`
* `RMT.Props.C20_sigma_first_stop`
* `RMT.Props.C20_levelvar_explicit`
* `RMT.Props.C20_levelvar_auto`
* `RMT.Props.C21_sigma_shift`
* `RMT.Props.C21_sigma_scale`
* `RMT.Props.C21_levelvar_invariant`
* `RMT.Props.C22_wide_windows`
* `RMT.Props.C23_min_iters_partial`
* `RMT.Props.C23_refuted`
* `RMT.Props.C24_labels`
* `RMT.Props.C24_one_end`
* `RMT.Props.C25_nested_blocks`
* `RMT.Props.C25_empty`
* `RMT.Props.C26_limits`
* `RMT.Props.C26_zero`
* `RMT.Props.C27_best_overall`
* `RMT.Props.C27_inclusive`
* `RMT.Props.C27_trim_indices_partial`
* `RMT.Props.C27_refuted`
* `RMT.Props.C28_counts`
* `RMT.Props.C28_trim_amounts`
* `RMT.Props.C28_trim_amounts_ties`
* `RMT.Props.C29_use_iteration`
* `RMT.Props.C30_duplicates`
* `RMT.Props.C30_percentages`
* `RMT.Props.C30_name_decimals`
* `RMT.Props.C30_columns`
* `RMT.Props.C30_names`
* `RMT.Props.C30_names_distinct`
* `RMT.Props.C30_cells`
* `RMT.Props.C30_gompertz_truthy`
* `RMT.Props.C30_defined`
* `RMT.Props.C31_refuted`
* `RMT.Props.C31_auto_refuted`
* `RMT.Props.C31_positions_partial`
* `RMT.Props.C31_columns_partial`
* `RMT.Props.C32_defined`
* `RMT.Props.C32_no_smoother`
* `RMT.Props.C32_criterion`
* `RMT.Props.C32_choice`
* `RMT.Props.C32_unfold_auto_refuted`
* `RMT.Props.C32_refuted`
* `RMT.Props.C33_members_refuted`
* `RMT.Props.C33_refuted`
* `RMT.Props.C34_sorted`
* `RMT.Props.C34_canonical`
* `RMT.Props.C34_matrix`
* `RMT.Props.C35_constructor`
* `RMT.Props.C36_spacings`
* `RMT.Props.C37_write`
* `RMT.Props.C37_history`
* `RMT.Props.C37_construct`
* `RMT.Props.C37_trim`
* `RMT.Props.C37_unfold`
* `RMT.Props.C37_steps`
* `RMT.Props.C38_steps_partial`
* `RMT.Props.C38_fresh`
* `RMT.Props.C38_refuted`
* `RMT.Props.C39_count`
* `RMT.Props.C40_positions`
* `RMT.Props.C40_ordinary`
* `RMT.Props.C41_errors`
* `RMT.Props.C41_trim`
* `RMT.Props.C41_disjoint`
* `RMT.Props.C41_ordered`
* `RMT.Props.C42_actual`
* `RMT.Props.C42_exceptions`
* `RMT.Props.C42_flat_partial`
* `RMT.Props.C42_refuted`
* `RMT.Props.C43_checks`
* `RMT.Props.C43_sizes`
* `RMT.Props.C43_axes`
* `RMT.Props.C43_threshold`
* `RMT.Props.C43_bad_zeros`
* `RMT.Props.C43_spectrum`
* `RMT.Props.C44_endpoints_partial`
* `RMT.Props.C44_swapped_refuted`
* `RMT.Props.C45_charpoly`
* `RMT.Props.C45_spectrum`
* `RMT.Props.C45_nonneg`
* `RMT.Props.C45_single_series`
* `RMT.Props.C46_correlation`
* `RMT.Props.C46_clip`
* `RMT.Props.C46_covariance`
* `RMT.Props.C47_seeded`
* `RMT.Props.C48_unseeded_partial`
* `RMT.Props.C48_reseed_partial`
* `RMT.Props.C48_poisson`
* `RMT.Props.C48_refuted`
* `RMT.Props.C48_state`
* `RMT.Props.C49_symmetric`
* `RMT.Props.C49_tridiagonal`
* `RMT.Props.C49_full`
* `RMT.Props.C49_kinds`
* `RMT.Props.C49_values`
* `RMT.Props.C49_gue`
* `RMT.Props.C49_goe`
* `RMT.Props.C49_poisson`
* `RMT.Props.C50_full_moment`
* `RMT.Props.C50_tridiagonal_moment`
* `RMT.Props.C50_refuted`
* `RMT.Props.C51_map`
* `RMT.Props.C51_symmetric`
* `RMT.Props.C51_unfold`
* `RMT.Props.C51_goe_unfolded`
* `RMT.Props.C51_dispatch`
* `RMT.Props.C52_closed_form`
* `RMT.Props.C52_nonneg_partial`
* `RMT.Props.C52_unfold_partial`
* `RMT.Props.C52_reversed`
* `RMT.Props.C52_refuted`
* `RMT.Props.C53_default_goe`
* `RMT.Props.C53_default_poisson`
* `RMT.Props.C53_explicit_analytic`
* `RMT.Props.C53_polynomial`
* `RMT.Props.C53_spline`
* `RMT.Props.C53_spline_heuristic`
* `RMT.Props.C53_exponential`
* `RMT.Props.C53_gompertz`
* `RMT.Props.C54_unfold_ascending`
* `RMT.Props.C54_trimmed_partial`
* `RMT.Props.C54_trimmed_refuted`
* `RMT.Props.C55_evaluate`
* `RMT.Props.C55_analytic`
* `RMT.Props.C55_exponential_refuted`
* `RMT.Props.C55_trimmed_refuted`
* `RMT.Props.C56_shifted_partial`
* `RMT.Props.C56_fluctuations`
* `RMT.Props.C56_refuted`
* `RMT.Props.C56_twice_refuted`
* `RMT.Props.C57_linear`
* `RMT.Props.C57_linear_unique`
* `RMT.Props.C57_idempotent`
* `RMT.Props.C57_line_invariant`
* `RMT.Props.C57_line_to_zero`
* `RMT.Props.C57_quadratic`
* `RMT.Props.C57_emd`
* `RMT.Props.C57_mean_detrend`
* `RMT.Props.C58_rows`
* `RMT.Props.C58_correct_rows_partial`
* `RMT.Props.C58_refuted`
* `RMT.Props.C59_difference`
* `RMT.Props.C59_refuted`
* `RMT.Props.C59_difference_partial`
* `RMT.Props.C60_result`
* `RMT.Props.C60_at_most_once`
* `RMT.Props.C60_history`
* `RMT.Props.C61_rows`
* `RMT.Props.C61_dimension`
* `RMT.Props.C61_no_constant_rows`
* `RMT.Props.C62_entries`
* `RMT.Props.C62_metric`
* `RMT.Props.C62_root_triangle`
* `RMT.Props.C63_values`
* `RMT.Props.C63_single_partial`
* `RMT.Props.C63_refuted`
* `RMT.Props.C64_lengths_differ`
* `RMT.Props.C64_lengths_differ_corr`
* `RMT.Props.C64_unlabelled`
* `RMT.Props.C64_success`
* `RMT.Props.C65_points_partial`
* `RMT.Props.C65_gue_points`
* `RMT.Props.C65_explicit`
* `RMT.Props.C65_refuted`
* `RMT.Props.C65_ensemble_compare_raises`
* `RMT.Props.C66_density`
* `RMT.Props.C66_repulsion`
* `RMT.Props.C67_poisson`
* `RMT.Props.C67_goe`
* `RMT.Props.C67_arrays`
* `RMT.Props.C68_interpolates`
* `RMT.Props.C68_density`
* `RMT.Props.C68_cdf`
* `RMT.Props.C69_transform`
* `RMT.Props.C69_arrays`
* `RMT.Props.C69_goe_gt_gue`
* `RMT.Props.C70_curve_partial`
* `RMT.Props.C70_refuted`
* `RMT.Props.C70_inverse_domain`
* `RMT.Props.C70_inverse_exact`
* `RMT.Props.C71_values`
* `RMT.Props.C71_affine`
* `RMT.Props.C71_grid_condition_needed`
* `RMT.Props.C71_quadratic`
* `RMT.Props.C73_bijective`
* `RMT.Props.C74_safe`
* `RMT.Props.C74_parents`
* `RMT.Props.C74_file_in_the_way`
* `RMT.Props.C74_race`
* `RMT.Props.C74_save_partial`
* `RMT.Props.C75_error_antitone`
* `RMT.Props.C75_interpolation`
* `RMT.Props.C75_unfold_interpolation`
* `RMT.Props.C76_mean`
* `RMT.Props.C76_formula`
* `RMT.Props.C76_zero`
* `RMT.Props.C76_sign`
* `RMT.Props.C76_shift`
* `RMT.Props.C76_spacings`
* `RMT.Props.C77_rows`
* `RMT.Props.C77_update`
* `RMT.Props.C78_dispatch`
* `RMT.Props.C78_positive`
* `RMT.Props.C79_members_partial`
* `RMT.Props.C79_refuted`
* `RMT.Props.C80_correlate`
* `RMT.Props.C80_correlate_base`
* `RMT.Props.C80_metric`
* `RMT.Props.C80_metric_lengths`
* `RMT.Props.C80_positive`
* `RMT.Props.C81_values`
* `RMT.Props.C81_refuted`
* `RMT.Props.C81_density_partial`
* `RMT.Props.C82_objective`
* `RMT.Props.C82_minimiser_exists`
* `RMT.Props.C82_refuted`
* `RMT.Props.C82_single_partial`
* `RMT.Props.C83_bounds`
* `RMT.Props.C83_failure`
* `RMT.Props.C83_order`
* `RMT.Props.C83_criterion`
* `RMT.Props.C83_degenerate`
* `RMT.Props.C84_report`
* `RMT.Props.C84_ranges`
* `RMT.Props.C84_ecdf_partial`
* `RMT.Props.C84_ties_refuted`
* `RMT.Props.C85_exponential`
* `RMT.Props.C86_nd_find`
* `RMT.Props.C87_square`
* `RMT.Props.C87_exact`
* `RMT.Props.C87_refuted`
* `RMT.Props.C88_returns_or_diverges`
* `RMT.Props.C88_terminates_partial`
* `RMT.Props.C88_steps_iff`
* `RMT.Props.C88_steps_refuted`
* `RMT.Props.C88_query_nan_iff`
* `RMT.Props.C89_table_partial`
* `RMT.Props.C89_twice_refuted`
* `RMT.Props.C89_refuted`
* `RMT.Props.C89_invalid_metric`
* `RMT.Props.C90_spacing_formula`
* `RMT.Props.C90_spacings`
* `RMT.Props.C90_brody_partial`
* `RMT.Props.C90_brody_refuted`
* `RMT.Props.C90_next_spacings`
* `RMT.Props.C90_rigidity_partial`
* `RMT.Props.C90_rigidity_refuted`
* `RMT.Props.C90_level_variance`
* `RMT.Props.C90_level_variance_at_zero`
* `RMT.Props.C90_observables`
* `RMT.Props.C91_points`
* `RMT.Props.C91_points_level_variance`
* `RMT.Props.C91_columns_refuted`
* `RMT.Props.C91_returned_partial`
* `RMT.Props.C91_returned_refuted`
* `RMT.Props.C92_density`
* `RMT.Props.C92_tridiagonal_partial`
* `RMT.Props.C92_full_refuted`
* `RMT.Props.C92_limits`
* `RMT.Props.C92_matrix`
* `RMT.Props.C93_total_variance`
* `RMT.Props.C93_shift_partial`
* `RMT.Props.C93_shift_refuted`
* `RMT.Props.C94_spread`
* `RMT.Props.C94_universal`
* `RMT.Props.C94_picket_partial`
* `RMT.Props.C94_picket_refuted`
* `RMT.Props.C95_lengths`
* `RMT.Props.C95_all_inliers`
* `RMT.Props.C96_least_squares`
* `RMT.Props.C97_log_refuted`
* `RMT.Props.C97_filter_partial`
* `RMT.Props.C98_direct_shape`
* `RMT.Props.C98_direct_refuted`
* `RMT.Props.C98_poisson`
* `RMT.Props.C98_time_series`
* `RMT.Props.C99_histograms_refuted`
* `RMT.Props.C99_bins`
* `RMT.Props.C100_plot_steps_partial`
* `RMT.Props.C100_refuted`
* `RMT.Props.C101_refuted`
* `RMT.Props.C102_panels_partial`
* `RMT.Props.C102_refuted`
* `RMT.Props.C102_points`
* `RMT.Props.C103_trim_mean_range`
* `RMT.Props.C104_refuted`
* `RMT.Props.C105_mkdirp`
* `RMT.Props.C106_spacing_partial`
* `RMT.Props.C106_refuted`
* `RMT.Props.C107_sample`
* `RMT.Props.C108_shown`
* `RMT.Props.C108_positive_partial`
* `RMT.Props.C108_refuted`
* `RMT.Props.C109_keywords_partial`
* `RMT.Props.C109_unknown`
* `RMT.Props.C109_exact`
* `RMT.Props.C111_points`
* `RMT.Props.C112_panels`
* `RMT.Props.C112_failures`
* `RMT.Props.C113_stripes`
* `RMT.Props.C114_stops`
* `RMT.Props.C114_consistent`
* `RMT.Props.C115_stops`
* `RMT.Props.C115_consistent`
* `RMT.Props.C116_grid`
* `RMT.Props.C116_rigidity`
* `RMT.Props.C117_rigidity_refuted`
* `RMT.Props.C118_rigidity`
* `RMT.Props.C118_level_variance`
* `RMT.Props.C119_partial`
* `RMT.Props.C119_refuted`
* `RMT.Props.C120_polynomial`
* `RMT.Props.C120_spline`
* `RMT.Props.C120_gompertz`
* `RMT.Props.C121_unfold`
* `RMT.Props.C121_reflect`
* `RMT.Props.C121_trimmed`
* `RMT.Props.C121_fit`
* `RMT.Props.C122_moments`
* `RMT.Props.C122_residuals`
* `RMT.Props.C123_correlation`
* `RMT.Props.C123_covariance`
* `RMT.Props.C123_correlate_fast`
* `RMT.Props.C124_iterations`
* `RMT.Props.C124_report`
* `RMT.Props.C124_auto`
* `RMT.Props.C125_iterations`
* `RMT.Props.C125_isolation`
* `RMT.Props.C125_untrimmed`
* `RMT.Props.C126_objects_partial`
* `RMT.Props.C126_unfolded_partial`
* `RMT.Props.C126_refuted`
* `RMT.Props.C128_log`
* `RMT.Props.C129_report`
* `RMT.Props.C129_total_partial`
* `RMT.Props.C129_refuted`
* `RMT.Props.C130_refuted`
* `RMT.Props.C130_constant_partial`
* `RMT.Rounded.Props.C131_kahan_sum`
* `RMT.Rounded.Props.C132_sigma_rounded`
* `RMT.Rounded.Props.C133_delta_rounded`
* `RMT.Rounded.Props.C133_delta_exact`
* `RMT.Props.C134_uncorrelated_partial`
* `RMT.Props.C134_variances`
* `RMT.Props.C134_refuted`
* `RMT.Props.C134_ignored`
* `RMT.Props.C134_arguments`
* `RMT.Props.C134_exceptions`
* `RMT.Props.C135_off`
* `RMT.Props.C135_given`
* `RMT.Props.C135_bad_frame`
* `RMT.Props.C135_missing`
* `RMT.Props.C135_refuted`
* `RMT.Props.C136_symmetric`
* `RMT.Props.C136_content_partial`
* `RMT.Props.C136_real_iff`
* `RMT.Props.C136_imaginary_ignored`
* `RMT.Props.C136_trace`
* `RMT.Props.C136_similar`
* `RMT.Props.C136_triangular`
* `RMT.Props.C136_shape`
* `RMT.Props.C136_refuted`
* `RMT.Props.C137_imports`
* `RMT.Props.C137_windows_partial`
* `RMT.Props.C137_windows_refuted`
* `RMT.Props.C137_order`
* `RMT.Props.C138_percentages`
* `RMT.Props.C138_hundred_partial`
* `RMT.Props.C138_hundred_refuted`
* `RMT.Props.C138_counts`
* `RMT.Props.C139_step`
* `RMT.Props.C139_integration`
* `RMT.Props.C139_sample`
* `RMT.Props.C139_buffers`
* `RMT.Props.C139_derivative`
* `RMT.Props.C139_rows`
* `RMT.Props.C139_rows_refuted`
* `RMT.Props.C139_parallel`
* `RMT.Props.C139_mask`
* `RMT.Props.C140_goe`
* `RMT.Props.C140_gue`
* `RMT.Props.C140_poisson_refuted`
* `RMT.Props.C141_orthogonal`
* `RMT.Props.C141_unitary`
* `RMT.Props.C142_goe`
* `RMT.Props.C142_gue`
* `RMT.Props.C142_poisson`
* `RMT.Props.C142_tridiagonal`
* `RMT.Props.C143_generation`
* `RMT.Props.C143_observables`
* `RMT.Props.C143_seed_partial`
* `RMT.Props.C143_seed_refuted`
* `RMT.Props.C143_schedule_refuted`
* `RMT.Props.C144_draws`
* `RMT.Props.C144_generate`
* `RMT.Props.C144_scale_free`
* `RMT.Props.C145_rigidity`
* `RMT.Props.C145_variance`
* `RMT.Props.C145_spacings`
* `RMT.Props.C145_next`
* `RMT.Props.C146_density`
* `RMT.Props.C146_noise`
* `RMT.Props.C146_time_series`
* `RMT.Props.C147_full`
* `RMT.Props.C147_gue`
* `RMT.Props.C147_tridiagonal`
* `RMT.Props.C148_goe_unfolded`
* `RMT.Props.C148_tridiagonal_partial`
* `RMT.Props.C148_full_refuted`
* `RMT.Props.C149_goe`
* `RMT.Props.C149_gue`
* `RMT.Props.C149_poisson`
* `RMT.Props.C149_tridiagonal`
* `RMT.Props.C149_tridiagonal_ae`
* `RMT.Props.C150_mass`
* `RMT.Props.C150_noise`
* `RMT.Props.C150_time_series`
* `RMT.Props.C151_noise`
* `RMT.Props.C152_generate_gue`
* `RMT.Props.C152_routine`
* `RMT.Props.C152_matrix`
* `RMT.Props.C152_counting`
* `RMT.Props.C152_generate`
* `RMT.Props.C153_returned_partial`
* `RMT.Props.C153_zeros_refuted`
* `RMT.Props.C154_time_series`
* `RMT.Props.C154_gue`
* `RMT.Props.C154_full`
* `RMT.Props.C154_tridiagonal`
* `RMT.Props.C154_noise`
* `RMT.Props.C155_variance`
* `RMT.Props.C155_rigidity`
* `RMT.Props.C155_level_number_variance`
* `RMT.Props.C155_spectral_rigidity`
* `RMT.Props.C156_spacings`
* `RMT.Props.C156_histogram`
* `RMT.Props.C156_next`
* `RMT.Props.C156_means`
* `RMT.Props.C157_variance`
* `RMT.Props.C157_rigidity`
* `RMT.Props.C157_level_number_variance`
* `RMT.Props.C157_spectral_rigidity`
* `RMT.Props.C158_number_variance`
* `RMT.Props.C158_rigidity`
* `RMT.Props.C158_level_number_variance`
* `RMT.Props.C158_spectral_rigidity`
* `RMT.Props.C158_unfold_goe`
* `RMT.Props.C158_matrix`
* `RMT.Props.C158_pipeline`
* `RMT.Props.C159_level_number_variance`
* `RMT.Props.C159_spectral_rigidity`
* `RMT.Props.C160_level_number_variance`
* `RMT.Props.C160_spectral_rigidity`
* `RMT.Props.C161_modes`
* `RMT.Props.C161_common_signal`
* `RMT.Props.C162_closest`
* `RMT.Props.C162_recovery`
* `RMT.Props.C162_mean_spacing`
* `RMT.Props.C162_again`
* `RMT.Props.C163_level_variance`
* `RMT.Props.C163_rigidity`
* `RMT.Props.C163_level_variance_auto`
* `RMT.Props.C163_rigidity_auto`
* `RMT.Props.C163_reads`
* `RMT.Props.C163_generate`
* `RMT.Props.C164_count`
* `RMT.Props.C164_at_most`
* `RMT.Props.C164_noise`
* `RMT.Props.C165_sample`
* `RMT.Props.C165_any`
* `RMT.Props.C165_rigidity`
* `RMT.Props.C166_level_number_variance`
* `RMT.Props.C166_spectral_rigidity`
* `RMT.Props.C167_criterion`
* `RMT.Props.C167_best`
* `RMT.Props.C167_estimates`
* `RMT.Props.C167_brody`
* `RMT.Props.C167_report`
* `RMT.Props.C167_report_brody`
* `RMT.Props.C168_criterion`
* `RMT.Props.C168_report`
* `RMT.Props.C168_metrics`
* `RMT.Props.C169_criterion`
* `RMT.Props.C169_estimates_partial`
* `RMT.Props.C169_refuted`
* `RMT.Props.C170_defined`
* `RMT.Props.C170_choice`
* `RMT.Props.C170_accuracy`
* `RMT.Props.C170_exact`
* `RMT.Props.C170_single`
* `RMT.Props.C170_near_ties`
* `RMT.Props.C171_moments`
* `RMT.Props.C171_score`
* `RMT.Props.C172_exact`
* `RMT.Props.C172_sample`
* `RMT.Props.C172_centres`
* `RMT.Props.C172_delta`
* `RMT.Props.C173_linear`
* `RMT.Props.C173_lower`
* `RMT.Props.C173_steps`
* `RMT.Props.C174_level_variance`
* `RMT.Props.C174_rigidity`
* `RMT.Props.C174_limits`
* `RMT.Props.C174_ranks_level_variance`
* `RMT.Props.C174_ranks_rigidity`
* `RMT.Rounded.Props.C175_grid`
* `RMT.Rounded.Props.C175_sample`
* `RMT.Rounded.Props.C175_reported`
* `RMT.Rounded.Props.C176_domain`
* `RMT.Rounded.Props.C176_shape`
* `RMT.Rounded.Props.C176_accuracy`
* `RMT.Rounded.Props.C177_matrix`
* `RMT.Rounded.Props.C177_returned`
* `RMT.Rounded.Props.C177_total`
* `RMT.Rounded.Props.C178_recognised_partial`
* `RMT.Rounded.Props.C178_constant_refuted`
* `RMT.Props.C179_mean`
* `RMT.Props.C179_report`
* `RMT.Props.C179_sample`
* `RMT.Props.C180_goe`
* `RMT.Props.C180_gue`
* `RMT.Props.C180_poisson`
* `RMT.Props.C180_best`
* `RMT.Props.C180_degree`
* `RMT.Props.C180_tridiagonal`
* `RMT.Props.C181_noise`
* `RMT.Props.C181_best`
* `RMT.Props.C181_degree`
* `RMT.Props.C182_curves`
* `RMT.Props.C182_eigenvalues`
* `RMT.Props.C183_goe`
* `RMT.Props.C183_gue`
* `RMT.Props.C183_tridiagonal`
* `RMT.Props.C183_cubic`
* `RMT.Props.C183_poisson`
* `RMT.Props.C184_goe`
* `RMT.Props.C184_gue`
* `RMT.Props.C184_tridiagonal`
* `RMT.Props.C185_noise`
* `RMT.Props.C185_time_series`
* `RMT.Props.C185_rate`
* `RMT.Props.C185_trim`
* `RMT.Props.C186_goe`
* `RMT.Props.C186_tridiagonal`
* `RMT.Props.C186_gue`
* `RMT.Props.C186_noise`
* `RMT.Props.C186_time_series`
* `RMT.Props.C186_trim`
* `RMT.Props.C187_poisson`
* `RMT.Props.C188_noise`
* `RMT.Props.C188_time_series`
* `RMT.Props.C188_rate`
* `RMT.Props.C188_trim`
* `RMT.Props.C188_computed`
* `RMT.Props.C189_construct`
* `RMT.Props.C189_spacings`
* `RMT.Props.C189_spacing_sign`
* `RMT.Props.C189_step`
* `RMT.Props.C189_kept`
* `RMT.Props.C189_unshifted`
* `RMT.Props.C189_shifted_partial`
* `RMT.Props.C189_shifted_refuted`
* `RMT.Props.C189_infinite`
* `RMT.Props.C189_finite`
* `RMT.Props.C189_no_series`
* `RMT.Props.C189_correlations`
* `RMT.Props.C189_time_series`
* `RMT.Props.C189_untrimmed`
* `RMT.Props.C189_heuristic`
* `RMT.Props.C189_finite_zeros`
* `RMT.Props.C189_matrix`
* `RMT.Props.C189_matrix_infinite`
* `RMT.Props.C189_finite_matrix`
* `RMT.Props.C190_agrees`
* `RMT.Props.C190_raises`
* `RMT.Props.C190_state`
* `RMT.Props.C190_retry`
* `RMT.Props.C191_uniform`
* `RMT.Props.C191_rise`
* `RMT.Props.C191_goe`
* `RMT.Props.C191_gue`
* `RMT.Props.C191_tridiagonal`
* `RMT.Props.C191_methods`
* `RMT.Props.C192_semicircle`
* `RMT.Props.C192_goe_unfolded`
* `RMT.Props.C192_goe`
* `RMT.Props.C192_tridiagonal`
* `RMT.Props.C192_gue`
* `RMT.Props.C193_modes`
* `RMT.Props.C193_agree`
* `RMT.Props.C193_common_signal`
* `RMT.Props.C194_computed`
* `RMT.Props.C194_computed_gue`
* `RMT.Props.C194_computed_tridiagonal`
* `RMT.Props.C194_goe`
* `RMT.Props.C194_gue`
* `RMT.Props.C194_poisson`
* `RMT.Props.C194_degree`
* `RMT.Props.C194_tridiagonal`
* `RMT.Props.C195_semicircle`
* `RMT.Props.C195_normal`
* `RMT.Props.C195_goe`
* `RMT.Props.C195_gue`
* `RMT.Props.C195_poisson`
* `RMT.Props.C195_tridiagonal`
* `RMT.Props.C195_computed`
* `RMT.Props.C195_computed_gue`
* `RMT.Props.C195_computed_tridiagonal`
* `RMT.Props.C196_error`
* `RMT.Props.C196_noise`

## Quot.sound, propext (42 theorems)

* `RMT.Props.C01_step_array_empty`
* `RMT.Props.C04_step_scalar`
* `RMT.Props.C06_find_last`
* `RMT.Props.C09_ascending_ok`
* `RMT.Props.C18_prange`
* `RMT.Props.C19_sigma_empty`
* `RMT.Props.C21_sigma_perm`
* `RMT.Props.C23_min_iters_ignored`
* `RMT.Props.C37_write_effect`
* `RMT.Props.C39_hierarchy`
* `RMT.Props.C39_once`
* `RMT.Props.C53_default_other`
* `RMT.Props.C53_string`
* `RMT.Props.C53_strings`
* `RMT.Props.C53_unknown_string`
* `RMT.Props.C53_polynomial_rejected`
* `RMT.Props.C53_spline_rejected`
* `RMT.Props.C53_spline_smooth_rejected`
* `RMT.Props.C53_callable`
* `RMT.Props.C59_linear_always_raises`
* `RMT.Props.C60_invalid`
* `RMT.Props.C64_construct`
* `RMT.Props.C71_short`
* `RMT.Props.C74_home_refuted`
* `RMT.Props.C87_nonsquare_partial`
* `RMT.Props.C96_variance`
* `RMT.Props.C101_unfolded_partial`
* `RMT.Props.C103_trim_mean_robust`
* `RMT.Props.C109_refuted`
* `RMT.Props.C110_given`
* `RMT.Props.C110_new`
* `RMT.Props.C110_open`
* `RMT.Props.C110_test_partial`
* `RMT.Props.C111_invalid`
* `RMT.Props.C117_level_variance_partial`
* `RMT.Props.C117_spacings_partial`
* `RMT.Props.C127_shapes`
* `RMT.Props.C127_fit`
* `RMT.Props.C127_order`
* `RMT.Rounded.Props.C132_sigma_exact`
* `RMT.Props.C138_results`
* `RMT.Props.C182_smoother`

## propext (13 theorems)

* `RMT.Props.C35_make_1d`
* `RMT.Props.C60_names`
* `RMT.Props.C64_convert`
* `RMT.Props.C72_exact`
* `RMT.Props.C72_error_is_carry`
* `RMT.Props.C73_flatten`
* `RMT.Props.C73_four_dim`
* `RMT.Props.C73_one_dim`
* `RMT.Props.C74_modes`
* `RMT.Props.C105_idempotent`
* `RMT.Props.C105_file`
* `RMT.Props.C110_invalid_mode`
* `RMT.Props.C110_refuted`
