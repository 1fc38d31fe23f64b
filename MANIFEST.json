{
 "claims": [
  {
   "property": "C01",
   "status": "proved",
   "theorems": [
    "RMT.Props.C01_step_array",
    "RMT.Props.C01_step_array_empty"
   ],
   "note": ""
  },
  {
   "property": "C02",
   "status": "partial",
   "theorems": [
    "RMT.Props.C02_step_counts_partial",
    "RMT.Props.C02_refuted",
    "RMT.Props.C02_fails_iff"
   ],
   "note": "False as documented: when the last query equals the smallest eigenvalue the code returns all zeros (C02_refuted; C02_fails_iff says exactly when it fails). C02_step_counts_partial proves it in all other cases."
  },
  {
   "property": "C03",
   "status": "proved",
   "theorems": [
    "RMT.Props.C03_step_monotone"
   ],
   "note": ""
  },
  {
   "property": "C04",
   "status": "proved",
   "theorems": [
    "RMT.Props.C04_step_scalar",
    "RMT.Props.C04_step_array_scalar"
   ],
   "note": ""
  },
  {
   "property": "C05",
   "status": "proved",
   "theorems": [
    "RMT.Props.C05_steps",
    "RMT.Props.C05_steps_distinct"
   ],
   "note": ""
  },
  {
   "property": "C06",
   "status": "proved",
   "theorems": [
    "RMT.Props.C06_find_first",
    "RMT.Props.C06_find_last"
   ],
   "note": ""
  },
  {
   "property": "C07",
   "status": "proved",
   "theorems": [
    "RMT.Props.C07_line_optimal",
    "RMT.Props.C07_line_unique",
    "RMT.Props.C07_line_recovers"
   ],
   "note": ""
  },
  {
   "property": "C08",
   "status": "proved",
   "theorems": [
    "RMT.Props.C08_trapz_affine",
    "RMT.Props.C08_trapz_additive",
    "RMT.Props.C08_trapz_nonneg"
   ],
   "note": ""
  },
  {
   "property": "C09",
   "status": "proved",
   "theorems": [
    "RMT.Props.C09_simps_quadratic",
    "RMT.Props.C09_ascending_ok"
   ],
   "note": ""
  },
  {
   "property": "C10",
   "status": "partial",
   "theorems": [
    "RMT.Props.C10_simps_two_nodes",
    "RMT.Props.C10_simps_affine_partial",
    "RMT.Props.C10_refuted"
   ],
   "note": "False for two-point grids (C10_refuted, exact value in C10_simps_two_nodes); C10_simps_affine_partial proves it for every grid of at least three points."
  },
  {
   "property": "C11",
   "status": "proved",
   "theorems": [
    "RMT.Props.C11_reported",
    "RMT.Props.C11_sample_nonneg",
    "RMT.Props.C11_sample_error"
   ],
   "note": ""
  },
  {
   "property": "C12",
   "status": "proved",
   "theorems": [
    "RMT.Props.C12_sample_invariant",
    "RMT.Props.C12_rigidity_invariant"
   ],
   "note": ""
  },
  {
   "property": "C13",
   "status": "proved",
   "theorems": [
    "RMT.Props.C13_delta_budget",
    "RMT.Props.C13_delta_error",
    "RMT.Props.C13_delta_first_stop"
   ],
   "note": ""
  },
  {
   "property": "C14",
   "status": "proved",
   "theorems": [
    "RMT.Props.C14_delta_value"
   ],
   "note": ""
  },
  {
   "property": "C15",
   "status": "proved",
   "theorems": [
    "RMT.Props.C15_delta_converged"
   ],
   "note": ""
  },
  {
   "property": "C16",
   "status": "partial",
   "theorems": [
    "RMT.Props.C16_delta_average_partial",
    "RMT.Props.C16_delta_short_runs",
    "RMT.Props.C16_refuted",
    "RMT.Props.C16_grid"
   ],
   "note": "False for runs shorter than 1001 iterations, which average in unfilled zero slots (C16_refuted, exact value in C16_delta_short_runs); C16_delta_average_partial proves it for k >= 1001."
  },
  {
   "property": "C17",
   "status": "proved",
   "theorems": [
    "RMT.Props.C17_parallel",
    "RMT.Props.C17_rigidity_explicit",
    "RMT.Props.C17_rigidity_auto"
   ],
   "note": ""
  },
  {
   "property": "C18",
   "status": "proved",
   "theorems": [
    "RMT.Props.C18_levelvar_schedule",
    "RMT.Props.C18_prange",
    "RMT.Props.C18_rigidity_schedule"
   ],
   "note": ""
  },
  {
   "property": "C19",
   "status": "proved",
   "theorems": [
    "RMT.Props.C19_sigma_is_variance",
    "RMT.Props.C19_sigma_empty"
   ],
   "note": ""
  },
  {
   "property": "C20",
   "status": "proved",
   "theorems": [
    "RMT.Props.C20_sigma_budget",
    "RMT.Props.C20_sigma_converged",
    "RMT.Props.C20_sigma_first_stop",
    "RMT.Props.C20_levelvar_explicit",
    "RMT.Props.C20_levelvar_auto"
   ],
   "note": ""
  },
  {
   "property": "C21",
   "status": "proved",
   "theorems": [
    "RMT.Props.C21_sigma_perm",
    "RMT.Props.C21_sigma_shift",
    "RMT.Props.C21_sigma_scale",
    "RMT.Props.C21_levelvar_invariant"
   ],
   "note": ""
  },
  {
   "property": "C22",
   "status": "proved",
   "theorems": [
    "RMT.Props.C22_wide_windows"
   ],
   "note": ""
  },
  {
   "property": "C23",
   "status": "partial",
   "theorems": [
    "RMT.Props.C23_min_iters_ignored",
    "RMT.Props.C23_min_iters_partial",
    "RMT.Props.C23_refuted"
   ],
   "note": "False as documented: min_L_iters is ignored (C23_min_iters_ignored, C23_refuted); C23_min_iters_partial: min_L_iters <= 500 holds."
  },
  {
   "property": "C24",
   "status": "proved",
   "theorems": [
    "RMT.Props.C24_labels",
    "RMT.Props.C24_one_end"
   ],
   "note": ""
  },
  {
   "property": "C25",
   "status": "proved",
   "theorems": [
    "RMT.Props.C25_nested_blocks",
    "RMT.Props.C25_empty"
   ],
   "note": ""
  },
  {
   "property": "C26",
   "status": "proved",
   "theorems": [
    "RMT.Props.C26_limits",
    "RMT.Props.C26_zero"
   ],
   "note": ""
  },
  {
   "property": "C27",
   "status": "partial",
   "theorems": [
    "RMT.Props.C27_best_overall",
    "RMT.Props.C27_inclusive",
    "RMT.Props.C27_trim_indices_partial",
    "RMT.Props.C27_refuted"
   ],
   "note": "False as documented: the end index is inclusive, so eigs[start:end] misses the largest value (C27_refuted). C27_trim_indices_partial / C27_inclusive give what [start:end+1] is."
  },
  {
   "property": "C28",
   "status": "proved",
   "theorems": [
    "RMT.Props.C28_counts",
    "RMT.Props.C28_trim_amounts",
    "RMT.Props.C28_trim_amounts_ties"
   ],
   "note": ""
  },
  {
   "property": "C29",
   "status": "proved",
   "theorems": [
    "RMT.Props.C29_use_iteration"
   ],
   "note": ""
  },
  {
   "property": "C30",
   "status": "proved",
   "theorems": [
    "RMT.Props.C30_duplicates",
    "RMT.Props.C30_percentages",
    "RMT.Props.C30_name_decimals",
    "RMT.Props.C30_columns",
    "RMT.Props.C30_names",
    "RMT.Props.C30_names_distinct",
    "RMT.Props.C30_cells",
    "RMT.Props.C30_gompertz_truthy",
    "RMT.Props.C30_defined"
   ],
   "note": ""
  },
  {
   "property": "C31",
   "status": "partial",
   "theorems": [
    "RMT.Props.C31_refuted",
    "RMT.Props.C31_auto_refuted",
    "RMT.Props.C31_positions_partial",
    "RMT.Props.C31_columns_partial"
   ],
   "note": "False as documented: summary names carry three decimals, unfolding columns two (C31_refuted, C31_auto_refuted: trim_unfold_auto with only heuristic splines never returns). C31_positions_partial: the summary cells themselves are right."
  },
  {
   "property": "C32",
   "status": "partial",
   "theorems": [
    "RMT.Props.C32_defined",
    "RMT.Props.C32_no_smoother",
    "RMT.Props.C32_criterion",
    "RMT.Props.C32_choice",
    "RMT.Props.C32_unfold_auto_refuted",
    "RMT.Props.C32_refuted"
   ],
   "note": "Proved for trim_unfold_auto (C32_choice, C32_defined). False for Trimmed.unfold_auto, which always returns the first smoother (C32_unfold_auto_refuted, witness C32_refuted)."
  },
  {
   "property": "C33",
   "status": "partial",
   "theorems": [
    "RMT.Props.C33_members_refuted",
    "RMT.Props.C33_refuted"
   ],
   "note": "False as documented: get_best_trimmed never returns a value for any argument (C33_refuted); SmoothMethod members, including the default, raise ValueError (C33_members_refuted)."
  },
  {
   "property": "C34",
   "status": "proved",
   "theorems": [
    "RMT.Props.C34_sorted",
    "RMT.Props.C34_canonical",
    "RMT.Props.C34_matrix"
   ],
   "note": ""
  },
  {
   "property": "C35",
   "status": "proved",
   "theorems": [
    "RMT.Props.C35_make_1d",
    "RMT.Props.C35_constructor"
   ],
   "note": ""
  },
  {
   "property": "C36",
   "status": "proved",
   "theorems": [
    "RMT.Props.C36_spacings"
   ],
   "note": ""
  },
  {
   "property": "C37",
   "status": "proved",
   "theorems": [
    "RMT.Props.C37_write",
    "RMT.Props.C37_history",
    "RMT.Props.C37_construct",
    "RMT.Props.C37_trim",
    "RMT.Props.C37_unfold",
    "RMT.Props.C37_write_effect",
    "RMT.Props.C37_steps"
   ],
   "note": ""
  },
  {
   "property": "C38",
   "status": "partial",
   "theorems": [
    "RMT.Props.C38_steps_partial",
    "RMT.Props.C38_fresh",
    "RMT.Props.C38_refuted"
   ],
   "note": "Holds for every history unless the values array is written in place after steps was first read; then the cache is stale (C38_refuted). C38_steps_partial proves the rest."
  },
  {
   "property": "C39",
   "status": "proved",
   "theorems": [
    "RMT.Props.C39_hierarchy",
    "RMT.Props.C39_once",
    "RMT.Props.C39_count"
   ],
   "note": ""
  },
  {
   "property": "C40",
   "status": "proved",
   "theorems": [
    "RMT.Props.C40_positions",
    "RMT.Props.C40_ordinary"
   ],
   "note": ""
  },
  {
   "property": "C41",
   "status": "proved",
   "theorems": [
    "RMT.Props.C41_errors",
    "RMT.Props.C41_trim",
    "RMT.Props.C41_disjoint",
    "RMT.Props.C41_ordered"
   ],
   "note": ""
  },
  {
   "property": "C42",
   "status": "partial",
   "theorems": [
    "RMT.Props.C42_actual",
    "RMT.Props.C42_exceptions",
    "RMT.Props.C42_flat_partial",
    "RMT.Props.C42_refuted"
   ],
   "note": "False: the eigenvalues computed from a matrix are discarded and the comparison is inverted, so the entries of the input below atol are returned. C42_actual says what is returned, C42_flat_partial that a flat input is handled correctly only if empty, C42_refuted gives a witness."
  },
  {
   "property": "C43",
   "status": "proved",
   "theorems": [
    "RMT.Props.C43_checks",
    "RMT.Props.C43_sizes",
    "RMT.Props.C43_axes",
    "RMT.Props.C43_threshold",
    "RMT.Props.C43_bad_zeros",
    "RMT.Props.C43_spectrum"
   ],
   "note": ""
  },
  {
   "property": "C44",
   "status": "partial",
   "theorems": [
    "RMT.Props.C44_endpoints_partial",
    "RMT.Props.C44_swapped_refuted"
   ],
   "note": "The unshifted endpoints are ordered; the shifted ones are stored as (upper, lower) (C44_swapped_refuted: in order exactly if some value is at least N)."
  },
  {
   "property": "C45",
   "status": "proved",
   "theorems": [
    "RMT.Props.C45_charpoly",
    "RMT.Props.C45_spectrum",
    "RMT.Props.C45_nonneg",
    "RMT.Props.C45_single_series"
   ],
   "note": ""
  },
  {
   "property": "C46",
   "status": "proved",
   "theorems": [
    "RMT.Props.C46_correlation",
    "RMT.Props.C46_clip",
    "RMT.Props.C46_covariance"
   ],
   "note": ""
  },
  {
   "property": "C47",
   "status": "proved",
   "theorems": [
    "RMT.Props.C47_seeded"
   ],
   "note": ""
  },
  {
   "property": "C48",
   "status": "partial",
   "theorems": [
    "RMT.Props.C48_unseeded_partial",
    "RMT.Props.C48_reseed_partial",
    "RMT.Props.C48_poisson",
    "RMT.Props.C48_refuted",
    "RMT.Props.C48_state"
   ],
   "note": "Holds for GOE and GUE (C48_unseeded_partial, C48_reseed_partial); for Poisson np.random.seed(None) is called, so the result ignores the global state (C48_poisson, C48_refuted)."
  },
  {
   "property": "C49",
   "status": "proved",
   "theorems": [
    "RMT.Props.C49_symmetric",
    "RMT.Props.C49_tridiagonal",
    "RMT.Props.C49_full",
    "RMT.Props.C49_kinds",
    "RMT.Props.C49_values",
    "RMT.Props.C49_gue",
    "RMT.Props.C49_goe",
    "RMT.Props.C49_poisson"
   ],
   "note": ""
  },
  {
   "property": "C50",
   "status": "partial",
   "theorems": [
    "RMT.Props.C50_full_moment",
    "RMT.Props.C50_tridiagonal_moment",
    "RMT.Props.C50_refuted"
   ],
   "note": "False: the full matrix has twice the expected sum of squared eigenvalues of the tridiagonal one, for every size (C50_refuted). The positive statement, equality in law after multiplying by sqrt 2, is C144."
  },
  {
   "property": "C51",
   "status": "proved",
   "theorems": [
    "RMT.Props.C51_map",
    "RMT.Props.C51_symmetric",
    "RMT.Props.C51_unfold",
    "RMT.Props.C51_goe_unfolded",
    "RMT.Props.C51_dispatch"
   ],
   "note": ""
  },
  {
   "property": "C52",
   "status": "partial",
   "theorems": [
    "RMT.Props.C52_closed_form",
    "RMT.Props.C52_nonneg_partial",
    "RMT.Props.C52_unfold_partial",
    "RMT.Props.C52_reversed",
    "RMT.Props.C52_refuted"
   ],
   "note": "False: the map is N(2-exp(-|x|)), even in x and above N except at 0 (C52_refuted, C52_reversed); on non-negative spectra it preserves order (C52_nonneg_partial, C52_unfold_partial)."
  },
  {
   "property": "C53",
   "status": "proved",
   "theorems": [
    "RMT.Props.C53_default_goe",
    "RMT.Props.C53_default_poisson",
    "RMT.Props.C53_default_other",
    "RMT.Props.C53_string",
    "RMT.Props.C53_strings",
    "RMT.Props.C53_unknown_string",
    "RMT.Props.C53_explicit_analytic",
    "RMT.Props.C53_polynomial",
    "RMT.Props.C53_polynomial_rejected",
    "RMT.Props.C53_spline_rejected",
    "RMT.Props.C53_spline",
    "RMT.Props.C53_spline_heuristic",
    "RMT.Props.C53_exponential",
    "RMT.Props.C53_gompertz",
    "RMT.Props.C53_spline_smooth_rejected",
    "RMT.Props.C53_callable"
   ],
   "note": ""
  },
  {
   "property": "C54",
   "status": "partial",
   "theorems": [
    "RMT.Props.C54_unfold_ascending",
    "RMT.Props.C54_trimmed_partial",
    "RMT.Props.C54_trimmed_refuted"
   ],
   "note": "Proved for Eigenvalues.unfold (C54_unfold_ascending). Trimmed.unfold does not sort: C54_trimmed_refuted, C54_trimmed_partial."
  },
  {
   "property": "C55",
   "status": "partial",
   "theorems": [
    "RMT.Props.C55_evaluate",
    "RMT.Props.C55_analytic",
    "RMT.Props.C55_exponential_refuted",
    "RMT.Props.C55_trimmed_refuted"
   ],
   "note": "Proved for polynomial, spline and Gompertz fits of Eigenvalues.unfold (C55_evaluate) and for the analytic unfoldings (C55_analytic). False for the exponential fit (C55_exponential_refuted) and for Trimmed.unfold (C55_trimmed_refuted)."
  },
  {
   "property": "C56",
   "status": "partial",
   "theorems": [
    "RMT.Props.C56_shifted_partial",
    "RMT.Props.C56_fluctuations",
    "RMT.Props.C56_refuted",
    "RMT.Props.C56_twice_refuted"
   ],
   "note": "False as documented: the output is the detrended sequence shifted by one position (C56_shifted_partial, C56_refuted) and Eigenvalues.unfold detrends twice (C56_twice_refuted)."
  },
  {
   "property": "C57",
   "status": "proved",
   "theorems": [
    "RMT.Props.C57_linear",
    "RMT.Props.C57_linear_unique",
    "RMT.Props.C57_idempotent",
    "RMT.Props.C57_line_invariant",
    "RMT.Props.C57_line_to_zero",
    "RMT.Props.C57_quadratic",
    "RMT.Props.C57_emd",
    "RMT.Props.C57_mean_detrend"
   ],
   "note": ""
  },
  {
   "property": "C58",
   "status": "partial",
   "theorems": [
    "RMT.Props.C58_rows",
    "RMT.Props.C58_correct_rows_partial",
    "RMT.Props.C58_refuted"
   ],
   "note": "False: the code multiplies time by the number of rows m instead of the slope (C58_refuted). C58_rows gives the exact output; C58_correct_rows_partial: a row is detrended correctly iff its least-squares slope equals the number of rows."
  },
  {
   "property": "C59",
   "status": "partial",
   "theorems": [
    "RMT.Props.C59_linear_always_raises",
    "RMT.Props.C59_difference",
    "RMT.Props.C59_refuted",
    "RMT.Props.C59_difference_partial"
   ],
   "note": "False: linear() unpacks five values into two and always raises ValueError; difference() returns n entries, the last one uninitialised (C59_refuted). Proved: the first n-1 entries are the differences (C59_difference_partial)."
  },
  {
   "property": "C60",
   "status": "proved",
   "theorems": [
    "RMT.Props.C60_names",
    "RMT.Props.C60_invalid",
    "RMT.Props.C60_result",
    "RMT.Props.C60_at_most_once",
    "RMT.Props.C60_history"
   ],
   "note": ""
  },
  {
   "property": "C61",
   "status": "proved",
   "theorems": [
    "RMT.Props.C61_rows",
    "RMT.Props.C61_dimension",
    "RMT.Props.C61_no_constant_rows"
   ],
   "note": ""
  },
  {
   "property": "C62",
   "status": "proved",
   "theorems": [
    "RMT.Props.C62_entries",
    "RMT.Props.C62_metric",
    "RMT.Props.C62_root_triangle"
   ],
   "note": ""
  },
  {
   "property": "C63",
   "status": "partial",
   "theorems": [
    "RMT.Props.C63_values",
    "RMT.Props.C63_single_partial",
    "RMT.Props.C63_refuted"
   ],
   "note": "False: the return statement is inside the loop, so only the first curve is compared and the other entries are uninitialised memory (C63_refuted, C63_values). Proved: a single curve (C63_single_partial), which is the case used by ensemble_compare."
  },
  {
   "property": "C64",
   "status": "proved",
   "theorems": [
    "RMT.Props.C64_construct",
    "RMT.Props.C64_convert",
    "RMT.Props.C64_lengths_differ",
    "RMT.Props.C64_lengths_differ_corr",
    "RMT.Props.C64_unlabelled",
    "RMT.Props.C64_success"
   ],
   "note": ""
  },
  {
   "property": "C65",
   "status": "partial",
   "theorems": [
    "RMT.Props.C65_points_partial",
    "RMT.Props.C65_gue_points",
    "RMT.Props.C65_explicit",
    "RMT.Props.C65_refuted",
    "RMT.Props.C65_ensemble_compare_raises"
   ],
   "note": "GUE and GSE ignore the requested number of points (GSE's grid is constant); see the C65 theorems for which ensembles satisfy it."
  },
  {
   "property": "C66",
   "status": "proved",
   "theorems": [
    "RMT.Props.C66_density",
    "RMT.Props.C66_repulsion"
   ],
   "note": ""
  },
  {
   "property": "C67",
   "status": "proved",
   "theorems": [
    "RMT.Props.C67_poisson",
    "RMT.Props.C67_goe",
    "RMT.Props.C67_arrays"
   ],
   "note": ""
  },
  {
   "property": "C68",
   "status": "proved",
   "theorems": [
    "RMT.Props.C68_interpolates",
    "RMT.Props.C68_density",
    "RMT.Props.C68_cdf"
   ],
   "note": ""
  },
  {
   "property": "C69",
   "status": "proved",
   "theorems": [
    "RMT.Props.C69_transform",
    "RMT.Props.C69_arrays",
    "RMT.Props.C69_goe_gt_gue"
   ],
   "note": ""
  },
  {
   "property": "C70",
   "status": "partial",
   "theorems": [
    "RMT.Props.C70_curve_partial",
    "RMT.Props.C70_refuted",
    "RMT.Props.C70_inverse_domain",
    "RMT.Props.C70_inverse_exact"
   ],
   "note": "The curve is as stated (C70_curve_partial); inverse_gompertz gives NaN on every value of gompertz (C70_refuted)."
  },
  {
   "property": "C71",
   "status": "proved",
   "theorems": [
    "RMT.Props.C71_values",
    "RMT.Props.C71_short",
    "RMT.Props.C71_affine",
    "RMT.Props.C71_grid_condition_needed",
    "RMT.Props.C71_quadratic"
   ],
   "note": ""
  },
  {
   "property": "C72",
   "status": "proved",
   "theorems": [
    "RMT.Props.C72_exact",
    "RMT.Props.C72_error_is_carry"
   ],
   "note": ""
  },
  {
   "property": "C73",
   "status": "proved",
   "theorems": [
    "RMT.Props.C73_flatten",
    "RMT.Props.C73_bijective",
    "RMT.Props.C73_four_dim",
    "RMT.Props.C73_one_dim"
   ],
   "note": ""
  },
  {
   "property": "C74",
   "status": "partial",
   "theorems": [
    "RMT.Props.C74_safe",
    "RMT.Props.C74_parents",
    "RMT.Props.C74_file_in_the_way",
    "RMT.Props.C74_home_refuted",
    "RMT.Props.C74_race",
    "RMT.Props.C74_modes",
    "RMT.Props.C74_save_partial"
   ],
   "note": "Safety for all states and refusals (C74_safe), modes (C74_modes); the directories exist afterwards (C74_parents, C74_save_partial) unless the file lies directly in a missing home directory (C74_home_refuted). C74_race: a concurrent creation makes make_directory raise."
  },
  {
   "property": "C75",
   "status": "proved",
   "theorems": [
    "RMT.Props.C75_error_antitone",
    "RMT.Props.C75_interpolation",
    "RMT.Props.C75_unfold_interpolation"
   ],
   "note": ""
  },
  {
   "property": "C76",
   "status": "proved",
   "theorems": [
    "RMT.Props.C76_mean",
    "RMT.Props.C76_formula",
    "RMT.Props.C76_zero",
    "RMT.Props.C76_sign",
    "RMT.Props.C76_shift",
    "RMT.Props.C76_spacings"
   ],
   "note": ""
  },
  {
   "property": "C77",
   "status": "proved",
   "theorems": [
    "RMT.Props.C77_rows",
    "RMT.Props.C77_update"
   ],
   "note": ""
  },
  {
   "property": "C78",
   "status": "proved",
   "theorems": [
    "RMT.Props.C78_dispatch",
    "RMT.Props.C78_positive"
   ],
   "note": ""
  },
  {
   "property": "C79",
   "status": "partial",
   "theorems": [
    "RMT.Props.C79_members_partial",
    "RMT.Props.C79_refuted"
   ],
   "note": "False: strings are accepted by the validation but match no branch, so RuntimeError (C79_refuted); C79_members_partial: members work."
  },
  {
   "property": "C80",
   "status": "proved",
   "theorems": [
    "RMT.Props.C80_correlate",
    "RMT.Props.C80_correlate_base",
    "RMT.Props.C80_metric",
    "RMT.Props.C80_metric_lengths",
    "RMT.Props.C80_positive"
   ],
   "note": ""
  },
  {
   "property": "C81",
   "status": "partial",
   "theorems": [
    "RMT.Props.C81_values",
    "RMT.Props.C81_refuted",
    "RMT.Props.C81_density_partial"
   ],
   "note": "False: GOE.nnnsd on a range integrates to 2; with explicit spacings (and for Poisson) the mean is 1 (C81_refuted). C81_density_partial is what holds."
  },
  {
   "property": "C82",
   "status": "partial",
   "theorems": [
    "RMT.Props.C82_objective",
    "RMT.Props.C82_minimiser_exists",
    "RMT.Props.C82_refuted",
    "RMT.Props.C82_single_partial"
   ],
   "note": "False: the objective is minus the sum of the densities, not of their logarithms. C82_refuted: explicit data for which no minimiser of the objective is a maximum-likelihood estimate (minimisers exist: C82_minimiser_exists). C82_single_partial: true for one spacing."
  },
  {
   "property": "C83",
   "status": "proved",
   "theorems": [
    "RMT.Props.C83_bounds",
    "RMT.Props.C83_failure",
    "RMT.Props.C83_order",
    "RMT.Props.C83_criterion",
    "RMT.Props.C83_degenerate"
   ],
   "note": ""
  },
  {
   "property": "C84",
   "status": "partial",
   "theorems": [
    "RMT.Props.C84_report",
    "RMT.Props.C84_ranges",
    "RMT.Props.C84_ecdf_partial",
    "RMT.Props.C84_ties_refuted"
   ],
   "note": "Ranges and report proved (C84_report, C84_ranges). With tied spacings the ecdf column is not the empirical distribution function (C84_ties_refuted); for distinct spacings it is (C84_ecdf_partial)."
  },
  {
   "property": "C85",
   "status": "proved",
   "theorems": [
    "RMT.Props.C85_exponential"
   ],
   "note": ""
  },
  {
   "property": "C86",
   "status": "proved",
   "theorems": [
    "RMT.Props.C86_nd_find"
   ],
   "note": ""
  },
  {
   "property": "C87",
   "status": "partial",
   "theorems": [
    "RMT.Props.C87_square",
    "RMT.Props.C87_exact",
    "RMT.Props.C87_nonsquare_partial",
    "RMT.Props.C87_refuted"
   ],
   "note": "Proved for square matrices (C87_square, C87_exact). A single row or column is broadcast against its transpose and may be accepted (C87_refuted)."
  },
  {
   "property": "C88",
   "status": "partial",
   "theorems": [
    "RMT.Props.C88_returns_or_diverges",
    "RMT.Props.C88_terminates_partial",
    "RMT.Props.C88_steps_iff",
    "RMT.Props.C88_steps_refuted",
    "RMT.Props.C88_query_nan_iff"
   ],
   "note": "Termination is proved for NaN-free arrays (C88_terminates_partial) and refuted with NaN (C88_steps_refuted); C88_steps_iff and C88_query_nan_iff characterise termination exactly. Comparisons are IEEE; numba compiles with fastmath=True, which lets LLVM assume there is no NaN."
  },
  {
   "property": "C89",
   "status": "partial",
   "theorems": [
    "RMT.Props.C89_table_partial",
    "RMT.Props.C89_twice_refuted",
    "RMT.Props.C89_refuted",
    "RMT.Props.C89_invalid_metric"
   ],
   "note": "The table is characterised for all observables of Poisson and GOE and for rigidity / level variance of all ensembles; GUE / GSE spacings raise and the GOE next-nearest curve has mass 2 (C89_refuted); an observable given twice stays NaN (C89_twice_refuted, part of C89_table_partial). The kernel density estimate is an arbitrary function of data and grid."
  },
  {
   "property": "C90",
   "status": "partial",
   "theorems": [
    "RMT.Props.C90_spacing_formula",
    "RMT.Props.C90_spacings",
    "RMT.Props.C90_brody_partial",
    "RMT.Props.C90_brody_refuted",
    "RMT.Props.C90_next_spacings",
    "RMT.Props.C90_rigidity_partial",
    "RMT.Props.C90_rigidity_refuted",
    "RMT.Props.C90_level_variance",
    "RMT.Props.C90_level_variance_at_zero",
    "RMT.Props.C90_observables"
   ],
   "note": "Spacing curves proved equal to the classes; rigidity curves equal exactly for mean spacing 1 (C90_rigidity_refuted), Brody method ignored (C90_brody_refuted). scipy's sici enters through its limits; quad is the exact integral."
  },
  {
   "property": "C91",
   "status": "partial",
   "theorems": [
    "RMT.Props.C91_points",
    "RMT.Props.C91_points_level_variance",
    "RMT.Props.C91_columns_refuted",
    "RMT.Props.C91_returned_partial",
    "RMT.Props.C91_returned_refuted"
   ],
   "note": "Points and returned pairs proved when nothing is passed in; refuted for data passed to plot_spectral_rigidity (C91_returned_refuted) and for data without flags (C91_columns_refuted)."
  },
  {
   "property": "C92",
   "status": "partial",
   "theorems": [
    "RMT.Props.C92_density",
    "RMT.Props.C92_tridiagonal_partial",
    "RMT.Props.C92_full_refuted",
    "RMT.Props.C92_limits",
    "RMT.Props.C92_matrix"
   ],
   "note": "Proved for the tridiagonal matrices (ratio 1 + 1/N); refuted for the default full matrices (ratio 2 + 2/N). Eigenvalues come from an exact solver; draws are random variables with the moments of the stated distributions."
  },
  {
   "property": "C93",
   "status": "partial",
   "theorems": [
    "RMT.Props.C93_total_variance",
    "RMT.Props.C93_shift_partial",
    "RMT.Props.C93_shift_refuted"
   ],
   "note": "Sum rule proved for both modes and with the transpose trick; the end points of the shifted distribution are proved ordered and non-negative for correlations and refuted for covariances."
  },
  {
   "property": "C94",
   "status": "partial",
   "theorems": [
    "RMT.Props.C94_spread",
    "RMT.Props.C94_universal",
    "RMT.Props.C94_picket_partial",
    "RMT.Props.C94_picket_refuted"
   ],
   "note": "General bounds proved; the picket-fence bound 1/4 holds for interior windows (C94_picket_partial) and fails for windows reaching beyond the ends (C94_picket_refuted)."
  },
  {
   "property": "C95",
   "status": "proved",
   "theorems": [
    "RMT.Props.C95_lengths",
    "RMT.Props.C95_all_inliers"
   ],
   "note": ""
  },
  {
   "property": "C96",
   "status": "proved",
   "theorems": [
    "RMT.Props.C96_variance",
    "RMT.Props.C96_least_squares"
   ],
   "note": ""
  },
  {
   "property": "C97",
   "status": "partial",
   "theorems": [
    "RMT.Props.C97_log_refuted",
    "RMT.Props.C97_filter_partial"
   ],
   "note": "Refuted for every non-empty list of positive spacings (C97_log_refuted gives the exact difference). np.sum of ragged arguments as in numpy 1.23."
  },
  {
   "property": "C98",
   "status": "partial",
   "theorems": [
    "RMT.Props.C98_direct_shape",
    "RMT.Props.C98_direct_refuted",
    "RMT.Props.C98_poisson",
    "RMT.Props.C98_time_series"
   ],
   "note": "Shape of the direct generator, Poisson and time_series_eigs proved; the scale of the direct generator is refuted."
  },
  {
   "property": "C99",
   "status": "partial",
   "theorems": [
    "RMT.Props.C99_histograms_refuted",
    "RMT.Props.C99_bins"
   ],
   "note": "Bin check proved; the histogram helper is refuted. Both are unused by the rest of the package."
  },
  {
   "property": "C100",
   "status": "partial",
   "theorems": [
    "RMT.Props.C100_plot_steps_partial",
    "RMT.Props.C100_refuted"
   ],
   "note": "Proved for two or more grid points and not-all-equal values; refuted otherwise (all-zero curve)."
  },
  {
   "property": "C101",
   "status": "partial",
   "theorems": [
    "RMT.Props.C101_refuted",
    "RMT.Props.C101_unfolded_partial"
   ],
   "note": "Refuted: the drawn step line is one below the step function; the unfolded line is right."
  },
  {
   "property": "C102",
   "status": "partial",
   "theorems": [
    "RMT.Props.C102_panels_partial",
    "RMT.Props.C102_refuted",
    "RMT.Props.C102_points"
   ],
   "note": "Proved except for a single panel (one iteration, width 1), where matplotlib's single Axes makes the code raise."
  },
  {
   "property": "C103",
   "status": "proved",
   "theorems": [
    "RMT.Props.C103_trim_mean_range",
    "RMT.Props.C103_trim_mean_robust"
   ],
   "note": ""
  },
  {
   "property": "C104",
   "status": "partial",
   "theorems": [
    "RMT.Props.C104_refuted"
   ],
   "note": "Refuted: never returns. Rests on matplotlib's documented shape of plt.subplots."
  },
  {
   "property": "C105",
   "status": "proved",
   "theorems": [
    "RMT.Props.C105_mkdirp",
    "RMT.Props.C105_idempotent",
    "RMT.Props.C105_file"
   ],
   "note": ""
  },
  {
   "property": "C106",
   "status": "partial",
   "theorems": [
    "RMT.Props.C106_spacing_partial",
    "RMT.Props.C106_refuted"
   ],
   "note": "Proved for the product over the inner intervals (existence of a minimiser included); refuted for the full criterion with the end intervals."
  },
  {
   "property": "C107",
   "status": "proved",
   "theorems": [
    "RMT.Props.C107_sample"
   ],
   "note": ""
  },
  {
   "property": "C108",
   "status": "partial",
   "theorems": [
    "RMT.Props.C108_shown",
    "RMT.Props.C108_positive_partial",
    "RMT.Props.C108_refuted"
   ],
   "note": "Proved if all values are positive; refuted otherwise (the estimate is fitted to positive values only)."
  },
  {
   "property": "C109",
   "status": "partial",
   "theorems": [
    "RMT.Props.C109_keywords_partial",
    "RMT.Props.C109_refuted",
    "RMT.Props.C109_unknown",
    "RMT.Props.C109_exact"
   ],
   "note": "Proved for keyword arguments; refuted for positional ones (always TypeError)."
  },
  {
   "property": "C110",
   "status": "partial",
   "theorems": [
    "RMT.Props.C110_given",
    "RMT.Props.C110_new",
    "RMT.Props.C110_invalid_mode",
    "RMT.Props.C110_open",
    "RMT.Props.C110_refuted",
    "RMT.Props.C110_test_partial"
   ],
   "note": "Proved for all modes but Test; in mode Test refuted when the figure given is not the current one, proved otherwise."
  },
  {
   "property": "C111",
   "status": "proved",
   "theorems": [
    "RMT.Props.C111_points",
    "RMT.Props.C111_invalid"
   ],
   "note": ""
  },
  {
   "property": "C112",
   "status": "proved",
   "theorems": [
    "RMT.Props.C112_panels",
    "RMT.Props.C112_failures"
   ],
   "note": ""
  },
  {
   "property": "C113",
   "status": "proved",
   "theorems": [
    "RMT.Props.C113_stripes"
   ],
   "note": ""
  },
  {
   "property": "C114",
   "status": "proved",
   "theorems": [
    "RMT.Props.C114_stops",
    "RMT.Props.C114_consistent"
   ],
   "note": ""
  },
  {
   "property": "C115",
   "status": "proved",
   "theorems": [
    "RMT.Props.C115_stops",
    "RMT.Props.C115_consistent"
   ],
   "note": ""
  },
  {
   "property": "C116",
   "status": "proved",
   "theorems": [
    "RMT.Props.C116_grid",
    "RMT.Props.C116_rigidity"
   ],
   "note": ""
  },
  {
   "property": "C117",
   "status": "partial",
   "theorems": [
    "RMT.Props.C117_level_variance_partial",
    "RMT.Props.C117_spacings_partial",
    "RMT.Props.C117_rigidity_refuted"
   ],
   "note": "Level variance and spacings proved; the rigidity part is refuted, on values which Trimmed.unfold returns for a genuine least-squares fit."
  },
  {
   "property": "C118",
   "status": "proved",
   "theorems": [
    "RMT.Props.C118_rigidity",
    "RMT.Props.C118_level_variance"
   ],
   "note": ""
  },
  {
   "property": "C119",
   "status": "partial",
   "theorems": [
    "RMT.Props.C119_partial",
    "RMT.Props.C119_refuted"
   ],
   "note": "Refuted for prioritize_smoother=False (ignored); the smoother-first order is proved for both values."
  },
  {
   "property": "C120",
   "status": "proved",
   "theorems": [
    "RMT.Props.C120_polynomial",
    "RMT.Props.C120_spline",
    "RMT.Props.C120_gompertz"
   ],
   "note": ""
  },
  {
   "property": "C121",
   "status": "proved",
   "theorems": [
    "RMT.Props.C121_unfold",
    "RMT.Props.C121_reflect",
    "RMT.Props.C121_trimmed",
    "RMT.Props.C121_fit"
   ],
   "note": ""
  },
  {
   "property": "C122",
   "status": "proved",
   "theorems": [
    "RMT.Props.C122_moments",
    "RMT.Props.C122_residuals"
   ],
   "note": ""
  },
  {
   "property": "C123",
   "status": "proved",
   "theorems": [
    "RMT.Props.C123_correlation",
    "RMT.Props.C123_covariance",
    "RMT.Props.C123_correlate_fast"
   ],
   "note": ""
  },
  {
   "property": "C124",
   "status": "proved",
   "theorems": [
    "RMT.Props.C124_iterations",
    "RMT.Props.C124_report",
    "RMT.Props.C124_auto"
   ],
   "note": ""
  },
  {
   "property": "C125",
   "status": "proved",
   "theorems": [
    "RMT.Props.C125_iterations",
    "RMT.Props.C125_isolation",
    "RMT.Props.C125_untrimmed"
   ],
   "note": ""
  },
  {
   "property": "C126",
   "status": "partial",
   "theorems": [
    "RMT.Props.C126_objects_partial",
    "RMT.Props.C126_unfolded_partial",
    "RMT.Props.C126_refuted"
   ],
   "note": "Proved for Eigenvalues, Trimmed and Eigenvalues.unfold unless the last query is the least value, where the exact (zero) result is proved (C126_objects_partial, C126_unfolded_partial); refuted for Trimmed.unfold (C126_refuted)."
  },
  {
   "property": "C127",
   "status": "proved",
   "theorems": [
    "RMT.Props.C127_shapes",
    "RMT.Props.C127_fit",
    "RMT.Props.C127_order"
   ],
   "note": ""
  },
  {
   "property": "C128",
   "status": "proved",
   "theorems": [
    "RMT.Props.C128_log"
   ],
   "note": ""
  },
  {
   "property": "C129",
   "status": "partial",
   "theorems": [
    "RMT.Props.C129_report",
    "RMT.Props.C129_total_partial",
    "RMT.Props.C129_refuted"
   ],
   "note": "Every report returned is that of the kept iterations (C129_report), and no difference exists if the fits of blocks succeed (C129_total_partial); a failing fit of a discarded trim makes the call raise (C129_refuted)."
  },
  {
   "property": "C130",
   "status": "partial",
   "theorems": [
    "RMT.Props.C130_refuted",
    "RMT.Props.C130_constant_partial"
   ],
   "note": "False: C130_refuted gives the array formed and the exact difference of its sum from the correlation; C130_constant_partial: zero for constant series. Python semantics; numba rejects the call."
  },
  {
   "property": "C131",
   "status": "proved",
   "theorems": [
    "RMT.Rounded.Props.C131_kahan_sum"
   ],
   "note": ""
  },
  {
   "property": "C132",
   "status": "proved",
   "theorems": [
    "RMT.Rounded.Props.C132_sigma_rounded",
    "RMT.Rounded.Props.C132_sigma_exact"
   ],
   "note": ""
  },
  {
   "property": "C133",
   "status": "proved",
   "theorems": [
    "RMT.Rounded.Props.C133_delta_rounded",
    "RMT.Rounded.Props.C133_delta_exact"
   ],
   "note": ""
  },
  {
   "property": "C134",
   "status": "partial",
   "theorems": [
    "RMT.Props.C134_uncorrelated_partial",
    "RMT.Props.C134_variances",
    "RMT.Props.C134_refuted",
    "RMT.Props.C134_ignored",
    "RMT.Props.C134_arguments",
    "RMT.Props.C134_exceptions"
   ],
   "note": "Refuted for every pair of correlated series (C134_refuted, with a routine exact on triangular matrices); C134_variances says what is computed; proved for uncorrelated series. The behaviour of ARPACK on non-symmetric input is a hypothesis of the theorem."
  },
  {
   "property": "C135",
   "status": "partial",
   "theorems": [
    "RMT.Props.C135_off",
    "RMT.Props.C135_given",
    "RMT.Props.C135_bad_frame",
    "RMT.Props.C135_missing",
    "RMT.Props.C135_refuted"
   ],
   "note": "Proved when a column of iterations exists (C135_given); plot_level_variance(sigma=..., show_iters=True) always raises (C135_refuted)."
  },
  {
   "property": "C136",
   "status": "partial",
   "theorems": [
    "RMT.Props.C136_symmetric",
    "RMT.Props.C136_content_partial",
    "RMT.Props.C136_real_iff",
    "RMT.Props.C136_imaginary_ignored",
    "RMT.Props.C136_trace",
    "RMT.Props.C136_similar",
    "RMT.Props.C136_triangular",
    "RMT.Props.C136_shape",
    "RMT.Props.C136_refuted"
   ],
   "note": "C136_content_partial is the full characterisation for square matrices; C136_refuted: a rotation and a Hermitian matrix with exact routines. Exactness of LAPACK is a hypothesis."
  },
  {
   "property": "C137",
   "status": "partial",
   "theorems": [
    "RMT.Props.C137_imports",
    "RMT.Props.C137_windows_partial",
    "RMT.Props.C137_windows_refuted",
    "RMT.Props.C137_order"
   ],
   "note": "Proved for every platform but Windows (C137_imports, C137_order); C137_windows_partial says exactly which modules can be imported on Windows, C137_windows_refuted that Eigenvalues cannot. Imports of third-party packages are assumed to succeed."
  },
  {
   "property": "C138",
   "status": "partial",
   "theorems": [
    "RMT.Props.C138_results",
    "RMT.Props.C138_percentages",
    "RMT.Props.C138_hundred_partial",
    "RMT.Props.C138_hundred_refuted",
    "RMT.Props.C138_counts"
   ],
   "note": "Results, monotonicity, bounds and number of lines proved for all schedules. \"Ends with 100\": C138_hundred_partial characterises exactly when 100 is printed, C138_hundred_refuted shows it need not be (a zero value, or a number of L values that is not one more than a multiple of the interval). The percentage is the floor of the exact quotient."
  },
  {
   "property": "C139",
   "status": "partial",
   "theorems": [
    "RMT.Props.C139_step",
    "RMT.Props.C139_integration",
    "RMT.Props.C139_sample",
    "RMT.Props.C139_buffers",
    "RMT.Props.C139_derivative",
    "RMT.Props.C139_rows",
    "RMT.Props.C139_rows_refuted",
    "RMT.Props.C139_parallel",
    "RMT.Props.C139_mask"
   ],
   "note": "Proved for non-empty arrays of matching lengths; C139_rows_refuted: an output array with fewer rows than the signals is written outside. For empty arrays, empty grids and derivatives of fewer than two points the theorems say the first access is outside."
  },
  {
   "property": "C140",
   "status": "partial",
   "theorems": [
    "RMT.Props.C140_goe",
    "RMT.Props.C140_gue",
    "RMT.Props.C140_poisson_refuted"
   ],
   "note": "GOE and GUE proved in full; C140_poisson_refuted gives the density which generate(2, \"poisson\") has instead. The normal draws are assumed independent and the eigenvalue routine exact."
  },
  {
   "property": "C141",
   "status": "proved",
   "theorems": [
    "RMT.Props.C141_orthogonal",
    "RMT.Props.C141_unitary"
   ],
   "note": "For the full GOE matrix (sizes up to 500, and larger without use_tridiagonal; the tridiagonal matrix has a basis of its own). Normal draws assumed independent; real arithmetic."
  },
  {
   "property": "C142",
   "status": "proved",
   "theorems": [
    "RMT.Props.C142_goe",
    "RMT.Props.C142_gue",
    "RMT.Props.C142_poisson",
    "RMT.Props.C142_tridiagonal"
   ],
   "note": "All four matrices generate uses. Tridiagonal: chi-square draws assumed independent of the normal draws; nothing else about them is needed."
  },
  {
   "property": "C143",
   "status": "partial",
   "theorems": [
    "RMT.Props.C143_generation",
    "RMT.Props.C143_observables",
    "RMT.Props.C143_seed_partial",
    "RMT.Props.C143_seed_refuted",
    "RMT.Props.C143_schedule_refuted"
   ],
   "note": "Non-interference in both directions for all histories (C143_generation, C143_observables); seeding reproduces what is generated (C143_seed_partial) but not observables (C143_seed_refuted), which also depend on the thread schedule (C143_schedule_refuted). That np.random.seed does not reach numba is a fact about numba, built into the model."
  },
  {
   "property": "C144",
   "status": "proved",
   "theorems": [
    "RMT.Props.C144_draws",
    "RMT.Props.C144_generate",
    "RMT.Props.C144_scale_free"
   ],
   "note": ""
  },
  {
   "property": "C145",
   "status": "proved",
   "theorems": [
    "RMT.Props.C145_rigidity",
    "RMT.Props.C145_variance",
    "RMT.Props.C145_spacings",
    "RMT.Props.C145_next"
   ],
   "note": ""
  },
  {
   "property": "C146",
   "status": "proved",
   "theorems": [
    "RMT.Props.C146_density",
    "RMT.Props.C146_noise",
    "RMT.Props.C146_time_series"
   ],
   "note": ""
  },
  {
   "property": "C147",
   "status": "proved",
   "theorems": [
    "RMT.Props.C147_full",
    "RMT.Props.C147_gue",
    "RMT.Props.C147_tridiagonal"
   ],
   "note": ""
  },
  {
   "property": "C148",
   "status": "partial",
   "theorems": [
    "RMT.Props.C148_goe_unfolded",
    "RMT.Props.C148_tridiagonal_partial",
    "RMT.Props.C148_full_refuted"
   ],
   "note": "Holds for goe_unfolded(n) and for generate(n, 'goe', use_tridiagonal=True).unfold_goe(). False for the default generate(n, 'goe').unfold_goe(): its levels are larger by sqrt(2) than unfold_goe assumes, so the fraction of unfolded values which are exactly 0 tends to 1/4 - 1/(2 pi) (C148_full_refuted gives the whole limit law)."
  },
  {
   "property": "C149",
   "status": "proved",
   "theorems": [
    "RMT.Props.C149_goe",
    "RMT.Props.C149_gue",
    "RMT.Props.C149_poisson",
    "RMT.Props.C149_tridiagonal",
    "RMT.Props.C149_tridiagonal_ae"
   ],
   "note": ""
  },
  {
   "property": "C150",
   "status": "proved",
   "theorems": [
    "RMT.Props.C150_mass",
    "RMT.Props.C150_noise",
    "RMT.Props.C150_time_series"
   ],
   "note": ""
  },
  {
   "property": "C151",
   "status": "proved",
   "theorems": [
    "RMT.Props.C151_noise"
   ],
   "note": ""
  },
  {
   "property": "C152",
   "status": "proved",
   "theorems": [
    "RMT.Props.C152_generate_gue",
    "RMT.Props.C152_routine",
    "RMT.Props.C152_matrix",
    "RMT.Props.C152_counting",
    "RMT.Props.C152_generate"
   ],
   "note": ""
  },
  {
   "property": "C153",
   "status": "partial",
   "theorems": [
    "RMT.Props.C153_returned_partial",
    "RMT.Props.C153_zeros_refuted"
   ],
   "note": "What is returned and what may be lost is fully described (C153_returned_partial). False: that trimming removes the values representing zero eigenvalues. However small the routine's error is, there is a backward stable routine for which neither heuristic removes anything (C153_zeros_refuted): both look at the sign of the smallest value only."
  },
  {
   "property": "C154",
   "status": "proved",
   "theorems": [
    "RMT.Props.C154_time_series",
    "RMT.Props.C154_gue",
    "RMT.Props.C154_full",
    "RMT.Props.C154_tridiagonal",
    "RMT.Props.C154_noise"
   ],
   "note": ""
  },
  {
   "property": "C155",
   "status": "proved",
   "theorems": [
    "RMT.Props.C155_variance",
    "RMT.Props.C155_rigidity",
    "RMT.Props.C155_level_number_variance",
    "RMT.Props.C155_spectral_rigidity"
   ],
   "note": ""
  },
  {
   "property": "C156",
   "status": "proved",
   "theorems": [
    "RMT.Props.C156_spacings",
    "RMT.Props.C156_histogram",
    "RMT.Props.C156_next",
    "RMT.Props.C156_means"
   ],
   "note": ""
  },
  {
   "property": "C157",
   "status": "proved",
   "theorems": [
    "RMT.Props.C157_variance",
    "RMT.Props.C157_rigidity",
    "RMT.Props.C157_level_number_variance",
    "RMT.Props.C157_spectral_rigidity"
   ],
   "note": ""
  },
  {
   "property": "C158",
   "status": "proved",
   "theorems": [
    "RMT.Props.C158_number_variance",
    "RMT.Props.C158_rigidity",
    "RMT.Props.C158_level_number_variance",
    "RMT.Props.C158_spectral_rigidity",
    "RMT.Props.C158_unfold_goe",
    "RMT.Props.C158_matrix",
    "RMT.Props.C158_pipeline"
   ],
   "note": ""
  },
  {
   "property": "C159",
   "status": "proved",
   "theorems": [
    "RMT.Props.C159_level_number_variance",
    "RMT.Props.C159_spectral_rigidity"
   ],
   "note": ""
  },
  {
   "property": "C160",
   "status": "proved",
   "theorems": [
    "RMT.Props.C160_level_number_variance",
    "RMT.Props.C160_spectral_rigidity"
   ],
   "note": ""
  },
  {
   "property": "C161",
   "status": "proved",
   "theorems": [
    "RMT.Props.C161_modes",
    "RMT.Props.C161_common_signal"
   ],
   "note": ""
  },
  {
   "property": "C162",
   "status": "proved",
   "theorems": [
    "RMT.Props.C162_closest",
    "RMT.Props.C162_recovery",
    "RMT.Props.C162_mean_spacing",
    "RMT.Props.C162_again"
   ],
   "note": ""
  },
  {
   "property": "C163",
   "status": "proved",
   "theorems": [
    "RMT.Props.C163_level_variance",
    "RMT.Props.C163_rigidity",
    "RMT.Props.C163_level_variance_auto",
    "RMT.Props.C163_rigidity_auto",
    "RMT.Props.C163_reads",
    "RMT.Props.C163_generate"
   ],
   "note": ""
  },
  {
   "property": "C164",
   "status": "proved",
   "theorems": [
    "RMT.Props.C164_count",
    "RMT.Props.C164_at_most",
    "RMT.Props.C164_noise"
   ],
   "note": ""
  },
  {
   "property": "C165",
   "status": "proved",
   "theorems": [
    "RMT.Props.C165_sample",
    "RMT.Props.C165_any",
    "RMT.Props.C165_rigidity"
   ],
   "note": ""
  },
  {
   "property": "C166",
   "status": "proved",
   "theorems": [
    "RMT.Props.C166_level_number_variance",
    "RMT.Props.C166_spectral_rigidity"
   ],
   "note": ""
  },
  {
   "property": "C167",
   "status": "proved",
   "theorems": [
    "RMT.Props.C167_criterion",
    "RMT.Props.C167_best",
    "RMT.Props.C167_estimates",
    "RMT.Props.C167_brody",
    "RMT.Props.C167_report",
    "RMT.Props.C167_report_brody"
   ],
   "note": ""
  },
  {
   "property": "C168",
   "status": "proved",
   "theorems": [
    "RMT.Props.C168_criterion",
    "RMT.Props.C168_report",
    "RMT.Props.C168_metrics"
   ],
   "note": ""
  },
  {
   "property": "C169",
   "status": "partial",
   "theorems": [
    "RMT.Props.C169_criterion",
    "RMT.Props.C169_estimates_partial",
    "RMT.Props.C169_refuted"
   ],
   "note": "False as documented: fit_brody_mle sums densities, not log-densities. Proved: the limit of the criterion and of the estimates for every distribution of spacings (C169_criterion, C169_estimates_partial); refuted: for some parameter the estimates stay away from it almost surely (C169_refuted)."
  },
  {
   "property": "C170",
   "status": "proved",
   "theorems": [
    "RMT.Props.C170_defined",
    "RMT.Props.C170_choice",
    "RMT.Props.C170_accuracy",
    "RMT.Props.C170_exact",
    "RMT.Props.C170_single",
    "RMT.Props.C170_near_ties"
   ],
   "note": ""
  },
  {
   "property": "C171",
   "status": "proved",
   "theorems": [
    "RMT.Props.C171_moments",
    "RMT.Props.C171_score"
   ],
   "note": ""
  },
  {
   "property": "C172",
   "status": "proved",
   "theorems": [
    "RMT.Props.C172_exact",
    "RMT.Props.C172_sample",
    "RMT.Props.C172_centres",
    "RMT.Props.C172_delta"
   ],
   "note": ""
  },
  {
   "property": "C173",
   "status": "proved",
   "theorems": [
    "RMT.Props.C173_linear",
    "RMT.Props.C173_lower",
    "RMT.Props.C173_steps"
   ],
   "note": ""
  },
  {
   "property": "C174",
   "status": "proved",
   "theorems": [
    "RMT.Props.C174_level_variance",
    "RMT.Props.C174_rigidity",
    "RMT.Props.C174_limits",
    "RMT.Props.C174_ranks_level_variance",
    "RMT.Props.C174_ranks_rigidity"
   ],
   "note": ""
  },
  {
   "property": "C175",
   "status": "proved",
   "theorems": [
    "RMT.Rounded.Props.C175_grid",
    "RMT.Rounded.Props.C175_sample",
    "RMT.Rounded.Props.C175_reported"
   ],
   "note": ""
  },
  {
   "property": "C176",
   "status": "proved",
   "theorems": [
    "RMT.Rounded.Props.C176_domain",
    "RMT.Rounded.Props.C176_shape",
    "RMT.Rounded.Props.C176_accuracy"
   ],
   "note": ""
  },
  {
   "property": "C177",
   "status": "proved",
   "theorems": [
    "RMT.Rounded.Props.C177_matrix",
    "RMT.Rounded.Props.C177_returned",
    "RMT.Rounded.Props.C177_total"
   ],
   "note": ""
  },
  {
   "property": "C178",
   "status": "partial",
   "theorems": [
    "RMT.Rounded.Props.C178_recognised_partial",
    "RMT.Rounded.Props.C178_constant_refuted"
   ],
   "note": "False in every binary precision: C178_constant_refuted gives a constant series of three points whose computed mean is off by one unit, so that copies of it are reported as perfectly correlated (eigenvalue 2 for two of them). Proved: constants whose multiples up to T are representable have computed variance exactly 0, hence NaN correlations (C178_recognised_partial)."
  },
  {
   "property": "C179",
   "status": "proved",
   "theorems": [
    "RMT.Props.C179_mean",
    "RMT.Props.C179_report",
    "RMT.Props.C179_sample"
   ],
   "note": ""
  },
  {
   "property": "C180",
   "status": "proved",
   "theorems": [
    "RMT.Props.C180_goe",
    "RMT.Props.C180_gue",
    "RMT.Props.C180_poisson",
    "RMT.Props.C180_best",
    "RMT.Props.C180_degree",
    "RMT.Props.C180_tridiagonal"
   ],
   "note": ""
  },
  {
   "property": "C181",
   "status": "proved",
   "theorems": [
    "RMT.Props.C181_noise",
    "RMT.Props.C181_best",
    "RMT.Props.C181_degree"
   ],
   "note": ""
  },
  {
   "property": "C182",
   "status": "proved",
   "theorems": [
    "RMT.Props.C182_curves",
    "RMT.Props.C182_smoother",
    "RMT.Props.C182_eigenvalues"
   ],
   "note": ""
  },
  {
   "property": "C183",
   "status": "proved",
   "theorems": [
    "RMT.Props.C183_goe",
    "RMT.Props.C183_gue",
    "RMT.Props.C183_tridiagonal",
    "RMT.Props.C183_cubic",
    "RMT.Props.C183_poisson"
   ],
   "note": ""
  },
  {
   "property": "C184",
   "status": "proved",
   "theorems": [
    "RMT.Props.C184_goe",
    "RMT.Props.C184_gue",
    "RMT.Props.C184_tridiagonal"
   ],
   "note": ""
  },
  {
   "property": "C185",
   "status": "proved",
   "theorems": [
    "RMT.Props.C185_noise",
    "RMT.Props.C185_time_series",
    "RMT.Props.C185_rate",
    "RMT.Props.C185_trim"
   ],
   "note": ""
  },
  {
   "property": "C186",
   "status": "proved",
   "theorems": [
    "RMT.Props.C186_goe",
    "RMT.Props.C186_tridiagonal",
    "RMT.Props.C186_gue",
    "RMT.Props.C186_noise",
    "RMT.Props.C186_time_series",
    "RMT.Props.C186_trim"
   ],
   "note": ""
  },
  {
   "property": "C187",
   "status": "proved",
   "theorems": [
    "RMT.Props.C187_poisson"
   ],
   "note": ""
  },
  {
   "property": "C188",
   "status": "proved",
   "theorems": [
    "RMT.Props.C188_noise",
    "RMT.Props.C188_time_series",
    "RMT.Props.C188_rate",
    "RMT.Props.C188_trim",
    "RMT.Props.C188_computed"
   ],
   "note": ""
  },
  {
   "property": "C189",
   "status": "partial",
   "theorems": [
    "RMT.Props.C189_construct",
    "RMT.Props.C189_spacings",
    "RMT.Props.C189_spacing_sign",
    "RMT.Props.C189_step",
    "RMT.Props.C189_kept",
    "RMT.Props.C189_unshifted",
    "RMT.Props.C189_shifted_partial",
    "RMT.Props.C189_shifted_refuted",
    "RMT.Props.C189_infinite",
    "RMT.Props.C189_finite",
    "RMT.Props.C189_no_series",
    "RMT.Props.C189_correlations",
    "RMT.Props.C189_time_series",
    "RMT.Props.C189_untrimmed",
    "RMT.Props.C189_heuristic",
    "RMT.Props.C189_finite_zeros",
    "RMT.Props.C189_matrix",
    "RMT.Props.C189_matrix_infinite",
    "RMT.Props.C189_finite_matrix"
   ],
   "note": "False for trim_marchenko_pastur(use_shifted=True): one NaN makes both cut points NaN and every value is removed (C189_shifted_partial, refutation C189_shifted_refuted); an infinite value moves the cut points to minus infinity (C189_infinite). Everything else of the claim is proved; the functions compiled with fastmath=True may assume that there is no NaN and are outside this model."
  },
  {
   "property": "C190",
   "status": "proved",
   "theorems": [
    "RMT.Props.C190_agrees",
    "RMT.Props.C190_raises",
    "RMT.Props.C190_state",
    "RMT.Props.C190_retry"
   ],
   "note": ""
  },
  {
   "property": "C191",
   "status": "proved",
   "theorems": [
    "RMT.Props.C191_uniform",
    "RMT.Props.C191_rise",
    "RMT.Props.C191_goe",
    "RMT.Props.C191_gue",
    "RMT.Props.C191_tridiagonal",
    "RMT.Props.C191_methods"
   ],
   "note": ""
  },
  {
   "property": "C192",
   "status": "proved",
   "theorems": [
    "RMT.Props.C192_semicircle",
    "RMT.Props.C192_goe_unfolded",
    "RMT.Props.C192_goe",
    "RMT.Props.C192_tridiagonal",
    "RMT.Props.C192_gue"
   ],
   "note": ""
  },
  {
   "property": "C193",
   "status": "proved",
   "theorems": [
    "RMT.Props.C193_modes",
    "RMT.Props.C193_agree",
    "RMT.Props.C193_common_signal"
   ],
   "note": ""
  },
  {
   "property": "C194",
   "status": "proved",
   "theorems": [
    "RMT.Props.C194_computed",
    "RMT.Props.C194_computed_gue",
    "RMT.Props.C194_computed_tridiagonal",
    "RMT.Props.C194_goe",
    "RMT.Props.C194_gue",
    "RMT.Props.C194_poisson",
    "RMT.Props.C194_degree",
    "RMT.Props.C194_tridiagonal"
   ],
   "note": ""
  },
  {
   "property": "C195",
   "status": "proved",
   "theorems": [
    "RMT.Props.C195_semicircle",
    "RMT.Props.C195_normal",
    "RMT.Props.C195_goe",
    "RMT.Props.C195_gue",
    "RMT.Props.C195_poisson",
    "RMT.Props.C195_tridiagonal",
    "RMT.Props.C195_computed",
    "RMT.Props.C195_computed_gue",
    "RMT.Props.C195_computed_tridiagonal"
   ],
   "note": ""
  },
  {
   "property": "C196",
   "status": "proved",
   "theorems": [
    "RMT.Props.C196_error",
    "RMT.Props.C196_noise"
   ],
   "note": ""
  }
 ]
}