{
 "C02": {
  "note": "False as documented: when the last query equals the smallest eigenvalue the code returns all zeros (C02_refuted; C02_fails_iff says exactly when it fails). C02_step_counts_partial proves it in all other cases."
 },
 "C10": {
  "note": "False for two-point grids (C10_refuted, exact value in C10_simps_two_nodes); C10_simps_affine_partial proves it for every grid of at least three points."
 },
 "C16": {
  "note": "False for runs shorter than 1001 iterations, which average in unfilled zero slots (C16_refuted, exact value in C16_delta_short_runs); C16_delta_average_partial proves it for k >= 1001."
 },
 "C23": {
  "note": "False as documented: min_L_iters is ignored (C23_min_iters_ignored, C23_refuted); C23_min_iters_partial: min_L_iters <= 500 holds."
 },
 "C27": {
  "note": "False as documented: the end index is inclusive, so eigs[start:end] misses the largest value (C27_refuted). C27_trim_indices_partial / C27_inclusive give what [start:end+1] is."
 },
 "C31": {
  "note": "False as documented: summary names carry three decimals, unfolding columns two (C31_refuted, C31_auto_refuted: trim_unfold_auto with only heuristic splines never returns). C31_positions_partial: the summary cells themselves are right."
 },
 "C32": {
  "note": "Proved for trim_unfold_auto (C32_choice, C32_defined). False for Trimmed.unfold_auto, which always returns the first smoother (C32_unfold_auto_refuted, witness C32_refuted)."
 },
 "C33": {
  "note": "False as documented: get_best_trimmed never returns a value for any argument (C33_refuted); SmoothMethod members, including the default, raise ValueError (C33_members_refuted)."
 },
 "C54": {
  "note": "Proved for Eigenvalues.unfold (C54_unfold_ascending). Trimmed.unfold does not sort: C54_trimmed_refuted, C54_trimmed_partial."
 },
 "C55": {
  "note": "Proved for polynomial, spline and Gompertz fits of Eigenvalues.unfold (C55_evaluate) and for the analytic unfoldings (C55_analytic). False for the exponential fit (C55_exponential_refuted) and for Trimmed.unfold (C55_trimmed_refuted)."
 },
 "C56": {
  "note": "False as documented: the output is the detrended sequence shifted by one position (C56_shifted_partial, C56_refuted) and Eigenvalues.unfold detrends twice (C56_twice_refuted)."
 },
 "C79": {
  "note": "False: strings are accepted by the validation but match no branch, so RuntimeError (C79_refuted); C79_members_partial: members work."
 },
 "C38": {
  "note": "Holds for every history unless the values array is written in place after steps was first read; then the cache is stale (C38_refuted). C38_steps_partial proves the rest."
 },
 "C42": {
  "note": "False: the eigenvalues computed from a matrix are discarded and the comparison is inverted, so the entries of the input below atol are returned. C42_actual says what is returned, C42_flat_partial that a flat input is handled correctly only if empty, C42_refuted gives a witness."
 },
 "C44": {
  "note": "The unshifted endpoints are ordered; the shifted ones are stored as (upper, lower) (C44_swapped_refuted: in order exactly if some value is at least N)."
 },
 "C48": {
  "note": "Holds for GOE and GUE (C48_unseeded_partial, C48_reseed_partial); for Poisson np.random.seed(None) is called, so the result ignores the global state (C48_poisson, C48_refuted)."
 },
 "C50": {
  "note": "False: the full matrix has twice the expected sum of squared eigenvalues of the tridiagonal one, for every size (C50_refuted). The positive statement, equality in law after multiplying by sqrt 2, is C144."
 },
 "C58": {
  "note": "False: the code multiplies time by the number of rows m instead of the slope (C58_refuted). C58_rows gives the exact output; C58_correct_rows_partial: a row is detrended correctly iff its least-squares slope equals the number of rows."
 },
 "C59": {
  "note": "False: linear() unpacks five values into two and always raises ValueError; difference() returns n entries, the last one uninitialised (C59_refuted). Proved: the first n-1 entries are the differences (C59_difference_partial)."
 },
 "C63": {
  "note": "False: the return statement is inside the loop, so only the first curve is compared and the other entries are uninitialised memory (C63_refuted, C63_values). Proved: a single curve (C63_single_partial), which is the case used by ensemble_compare."
 },
 "C65": {
  "note": "GUE and GSE ignore the requested number of points (GSE's grid is constant); see the C65 theorems for which ensembles satisfy it."
 },
 "C81": {
  "note": "False: GOE.nnnsd on a range integrates to 2; with explicit spacings (and for Poisson) the mean is 1 (C81_refuted). C81_density_partial is what holds."
 },
 "C87": {
  "note": "Proved for square matrices (C87_square, C87_exact). A single row or column is broadcast against its transpose and may be accepted (C87_refuted)."
 },
 "C70": {
  "note": "The curve is as stated (C70_curve_partial); inverse_gompertz gives NaN on every value of gompertz (C70_refuted)."
 },
 "C52": {
  "note": "False: the map is N(2-exp(-|x|)), even in x and above N except at 0 (C52_refuted, C52_reversed); on non-negative spectra it preserves order (C52_nonneg_partial, C52_unfold_partial)."
 },
 "C82": {
  "note": "False: the objective is minus the sum of the densities, not of their logarithms. C82_refuted: explicit data for which no minimiser of the objective is a maximum-likelihood estimate (minimisers exist: C82_minimiser_exists). C82_single_partial: true for one spacing."
 },
 "C84": {
  "note": "Ranges and report proved (C84_report, C84_ranges). With tied spacings the ecdf column is not the empirical distribution function (C84_ties_refuted); for distinct spacings it is (C84_ecdf_partial)."
 },
 "C74": {
  "note": "Safety for all states and refusals (C74_safe), modes (C74_modes); the directories exist afterwards (C74_parents, C74_save_partial) unless the file lies directly in a missing home directory (C74_home_refuted). C74_race: a concurrent creation makes make_directory raise."
 },
 "C88": {
  "note": "Termination is proved for NaN-free arrays (C88_terminates_partial) and refuted with NaN (C88_steps_refuted); C88_steps_iff and C88_query_nan_iff characterise termination exactly. Comparisons are IEEE; numba compiles with fastmath=True, which lets LLVM assume there is no NaN."
 },
 "C89": {
  "note": "The table is characterised for all observables of Poisson and GOE and for rigidity / level variance of all ensembles; GUE / GSE spacings raise and the GOE next-nearest curve has mass 2 (C89_refuted); an observable given twice stays NaN (C89_twice_refuted, part of C89_table_partial). The kernel density estimate is an arbitrary function of data and grid."
 },
 "C90": {
  "note": "Spacing curves proved equal to the classes; rigidity curves equal exactly for mean spacing 1 (C90_rigidity_refuted), Brody method ignored (C90_brody_refuted). scipy's sici enters through its limits; quad is the exact integral."
 },
 "C91": {
  "note": "Points and returned pairs proved when nothing is passed in; refuted for data passed to plot_spectral_rigidity (C91_returned_refuted) and for data without flags (C91_columns_refuted)."
 },
 "C92": {
  "note": "Proved for the tridiagonal matrices (ratio 1 + 1/N); refuted for the default full matrices (ratio 2 + 2/N). Eigenvalues come from an exact solver; draws are random variables with the moments of the stated distributions."
 },
 "C93": {
  "note": "Sum rule proved for both modes and with the transpose trick; the end points of the shifted distribution are proved ordered and non-negative for correlations and refuted for covariances."
 },
 "C94": {
  "note": "General bounds proved; the picket-fence bound 1/4 holds for interior windows (C94_picket_partial) and fails for windows reaching beyond the ends (C94_picket_refuted)."
 },
 "C97": {
  "note": "Refuted for every non-empty list of positive spacings (C97_log_refuted gives the exact difference). np.sum of ragged arguments as in numpy 1.23."
 },
 "C98": {
  "note": "Shape of the direct generator, Poisson and time_series_eigs proved; the scale of the direct generator is refuted."
 },
 "C99": {
  "note": "Bin check proved; the histogram helper is refuted. Both are unused by the rest of the package."
 },
 "C100": {
  "note": "Proved for two or more grid points and not-all-equal values; refuted otherwise (all-zero curve)."
 },
 "C101": {
  "note": "Refuted: the drawn step line is one below the step function; the unfolded line is right."
 },
 "C102": {
  "note": "Proved except for a single panel (one iteration, width 1), where matplotlib's single Axes makes the code raise."
 },
 "C104": {
  "note": "Refuted: never returns. Rests on matplotlib's documented shape of plt.subplots."
 },
 "C106": {
  "note": "Proved for the product over the inner intervals (existence of a minimiser included); refuted for the full criterion with the end intervals."
 },
 "C108": {
  "note": "Proved if all values are positive; refuted otherwise (the estimate is fitted to positive values only)."
 },
 "C109": {
  "note": "Proved for keyword arguments; refuted for positional ones (always TypeError)."
 },
 "C110": {
  "note": "Proved for all modes but Test; in mode Test refuted when the figure given is not the current one, proved otherwise."
 },
 "C117": {
  "note": "Level variance and spacings proved; the rigidity part is refuted, on values which Trimmed.unfold returns for a genuine least-squares fit."
 },
 "C119": {
  "note": "Refuted for prioritize_smoother=False (ignored); the smoother-first order is proved for both values."
 },
 "C126": {
  "note": "Proved for Eigenvalues, Trimmed and Eigenvalues.unfold unless the last query is the least value, where the exact (zero) result is proved (C126_objects_partial, C126_unfolded_partial); refuted for Trimmed.unfold (C126_refuted)."
 },
 "C129": {
  "note": "Every report returned is that of the kept iterations (C129_report), and no difference exists if the fits of blocks succeed (C129_total_partial); a failing fit of a discarded trim makes the call raise (C129_refuted)."
 },
 "C130": {
  "note": "False: C130_refuted gives the array formed and the exact difference of its sum from the correlation; C130_constant_partial: zero for constant series. Python semantics; numba rejects the call."
 },
 "C134": {
  "note": "Refuted for every pair of correlated series (C134_refuted, with a routine exact on triangular matrices); C134_variances says what is computed; proved for uncorrelated series. The behaviour of ARPACK on non-symmetric input is a hypothesis of the theorem."
 },
 "C135": {
  "note": "Proved when a column of iterations exists (C135_given); plot_level_variance(sigma=..., show_iters=True) always raises (C135_refuted)."
 },
 "C136": {
  "note": "C136_content_partial is the full characterisation for square matrices; C136_refuted: a rotation and a Hermitian matrix with exact routines. Exactness of LAPACK is a hypothesis."
 },
 "C137": {
  "note": "Proved for every platform but Windows (C137_imports, C137_order); C137_windows_partial says exactly which modules can be imported on Windows, C137_windows_refuted that Eigenvalues cannot. Imports of third-party packages are assumed to succeed."
 },
 "C138": {
  "note": "Results, monotonicity, bounds and number of lines proved for all schedules. \"Ends with 100\": C138_hundred_partial characterises exactly when 100 is printed, C138_hundred_refuted shows it need not be (a zero value, or a number of L values that is not one more than a multiple of the interval). The percentage is the floor of the exact quotient."
 },
 "C139": {
  "note": "Proved for non-empty arrays of matching lengths; C139_rows_refuted: an output array with fewer rows than the signals is written outside. For empty arrays, empty grids and derivatives of fewer than two points the theorems say the first access is outside."
 },
 "C140": {
  "note": "GOE and GUE proved in full; C140_poisson_refuted gives the density which generate(2, \"poisson\") has instead. The normal draws are assumed independent and the eigenvalue routine exact."
 },
 "C141": {
  "note": "For the full GOE matrix (sizes up to 500, and larger without use_tridiagonal; the tridiagonal matrix has a basis of its own). Normal draws assumed independent; real arithmetic."
 },
 "C142": {
  "note": "All four matrices generate uses. Tridiagonal: chi-square draws assumed independent of the normal draws; nothing else about them is needed."
 },
 "C143": {
  "note": "Non-interference in both directions for all histories (C143_generation, C143_observables); seeding reproduces what is generated (C143_seed_partial) but not observables (C143_seed_refuted), which also depend on the thread schedule (C143_schedule_refuted). That np.random.seed does not reach numba is a fact about numba, built into the model."
 },
 "C148": {
  "note": "Holds for goe_unfolded(n) and for generate(n, 'goe', use_tridiagonal=True).unfold_goe(). False for the default generate(n, 'goe').unfold_goe(): its levels are larger by sqrt(2) than unfold_goe assumes, so the fraction of unfolded values which are exactly 0 tends to 1/4 - 1/(2 pi) (C148_full_refuted gives the whole limit law)."
 },
 "C153": {
  "note": "What is returned and what may be lost is fully described (C153_returned_partial). False: that trimming removes the values representing zero eigenvalues. However small the routine's error is, there is a backward stable routine for which neither heuristic removes anything (C153_zeros_refuted): both look at the sign of the smallest value only."
 },
 "C169": {
  "note": "False as documented: fit_brody_mle sums densities, not log-densities. Proved: the limit of the criterion and of the estimates for every distribution of spacings (C169_criterion, C169_estimates_partial); refuted: for some parameter the estimates stay away from it almost surely (C169_refuted)."
 },
 "C178": {
  "note": "False in every binary precision: C178_constant_refuted gives a constant series of three points whose computed mean is off by one unit, so that copies of it are reported as perfectly correlated (eigenvalue 2 for two of them). Proved: constants whose multiples up to T are representable have computed variance exactly 0, hence NaN correlations (C178_recognised_partial)."
 },
 "C189": {
  "note": "False for trim_marchenko_pastur(use_shifted=True): one NaN makes both cut points NaN and every value is removed (C189_shifted_partial, refutation C189_shifted_refuted); an infinite value moves the cut points to minus infinity (C189_infinite). Everything else of the claim is proved; the functions compiled with fastmath=True may assume that there is no NaN and are outside this model."
 }
}