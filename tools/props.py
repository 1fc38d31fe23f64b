#!/usr/bin/env python3
"""Source of /verif/properties.jsonl (run: python3 tools/props.py > properties.jsonl)."""
import json
P = []
def p(id, title, statement, quantifier, why, anchors):
    P.append(dict(id=id, title=title, statement=statement, quantifier=quantifier, why_tests_cant=why, anchors=anchors))

ST = "empyricalRMT/observables/step.py"
RI = "empyricalRMT/observables/rigidity.py"
LV = "empyricalRMT/observables/levelvariance.py"
TR = "empyricalRMT/trim.py"
EI = "empyricalRMT/eigenvalues.py"
EV = "empyricalRMT/_eigvals.py"
UN = "empyricalRMT/unfold.py"
SM = "empyricalRMT/smoother.py"
CO = "empyricalRMT/compare.py"
EN = "empyricalRMT/ensemble.py"
BR = "empyricalRMT/brody.py"
CN = "empyricalRMT/construct.py"
CR = "empyricalRMT/correlater.py"
DT = "empyricalRMT/detrend.py"
SD = "empyricalRMT/signalproc/detrend.py"
SC = "empyricalRMT/signalproc/clean.py"
EX = "empyricalRMT/exponentials.py"
UT = "empyricalRMT/utils.py"
PL = "empyricalRMT/plot.py"
VA = "empyricalRMT/_validate.py"
TY = "empyricalRMT/_types.py"

p("C01", "Array step function: exact meaning for every query order",
  "For ascending eigenvalues and any non-empty array of query points, in any order, step_values / step_function returns at position k the number of eigenvalues that are <= at least one of the queries x[0..k] (i.e. <= the running maximum of the queries), unless the last query is <= the smallest eigenvalue, in which case it returns all zeros. The result has the length of x.",
  "every linearly ordered value type, every non-empty ascending spectrum (ties allowed), every non-empty query array",
  "the algorithm is a two-pointer sweep whose correctness depends on every interleaving of ties, gaps and overlaps between two arrays of any length; tests sample random overlaps",
  [ST + ":_step_function_fast", ST + ":step_values", EV + ":EigVals.step_function"])
p("C02", "Step function counts eigenvalues <= x (documented contract)",
  "For ascending eigenvalues and ascending queries, the array step function returns, for each query, the number of eigenvalues <= that query, like the slow reference implementation.",
  "all ascending spectra and ascending query arrays",
  "the only failing case is an exact tie between the last query and the first eigenvalue, which random float tests hit with probability zero",
  [ST + ":_step_function_fast", ST + ":_step_function_correct"])
p("C03", "Step function is a monotone counting function",
  "Whatever the query order, the values returned by the array step function are non-decreasing along the array and lie between 0 and the number of eigenvalues.",
  "all ascending spectra, all query arrays",
  "universally quantified over both arrays",
  [ST + ":_step_function_fast"])
p("C04", "Scalar step_values is exact and argument types are policed",
  "step_values(eigs, x) with a float x returns exactly the number of eigenvalues <= x for any (even unsorted) eigs; with a non-float, non-array x it raises ValueError; with an array it agrees entrywise with the scalar form except in the tie case of C02.",
  "all spectra, all query values, all argument kinds",
  "needs every spectrum and every tie pattern",
  [ST + ":step_values"])
p("C05", "steps ranks the spectrum",
  "For an object holding n >= 2 distinct ascending values, .steps is exactly 1..n; with ties each value gets the rank of its last duplicate, provided not all values are equal; if all values are equal (in particular n = 1) .steps is all zeros.",
  "all ascending spectra",
  "tie patterns of every shape and size",
  [EV + ":EigVals.steps", ST + ":_step_function_fast"])
p("C06", "find_first / find_last",
  "find_first returns the least index holding the value and find_last the greatest, and both return -1 exactly when the value does not occur.",
  "all arrays and values", "all lengths and all occurrence patterns",
  [UT + ":find_first", UT + ":find_last"])
p("C07", "Least-squares line is optimal",
  "The (slope, intercept) pair used for the spectral rigidity minimises the sum of squared deviations over all straight lines, including the degenerate case in which all abscissae coincide; if the data lie on a line and the abscissae are not all equal, that line is returned.",
  "all data arrays of equal non-zero length, all competing lines, exact real arithmetic",
  "minimality ranges over a continuum of competing lines",
  [RI + ":_slope", RI + ":_intercept", UT + ":slope", UT + ":intercept"])
p("C08", "Trapezoid rule is exact on straight lines",
  "The 'trapz' integrator returns the exact integral of any affine function over any grid (any spacing, any order), is additive over splitting the grid at a node, is non-negative for non-negative values on ascending grids.",
  "all grids, all affine functions", "continuum of grids and functions",
  [RI + ":_integrate_fast"])
p("C09", "Simpson rule is exact on quadratics for every grid of >= 3 points",
  "The 'simps' integrator returns the exact integral of every quadratic polynomial on every grid of at least three points whose nodes at most two places apart are distinct, uniform or not, with an odd or an even number of points.",
  "all grids with >= 3 nodes and nodes at most two places apart distinct, all quadratics",
  "the even-point correction term is not exercised by the tests (they use 1001 points) and non-uniform grids are a continuum",
  [RI + ":_int_simps_nonunif"])
p("C10", "Simpson rule handles every grid size accepted by spectral_rigidity",
  "For every gridsize >= 2 the 'simps' integrator integrates constants and straight lines exactly.",
  "all grid sizes >= 2, all affine functions",
  "the defect is at one grid size (2), which is never tested",
  [RI + ":_int_simps_nonunif"])
p("C11", "Every rigidity sample is non-negative",
  "For every spectrum, centre, positive L and gridsize >= 1, with either integrator, one Monte-Carlo sample of delta_3 is >= 0; hence so is every reported delta.",
  "all spectra, centres, L > 0, grid sizes >= 1, both integrators, all random streams",
  "Simpson weights can be negative on general grids; positivity needs a proof for all uniform grids",
  [RI + ":delta_L", RI + ":_int_simps_nonunif", RI + ":_sq_lin_deviation"])
p("C12", "Rigidity is invariant under shifting and rescaling the spectrum",
  "Shifting the spectrum and the centre by the same amount leaves a delta_3 sample unchanged; multiplying spectrum, centre and L by the same positive factor leaves it unchanged.",
  "all spectra, centres, L, shifts and positive factors",
  "continuum of shifts and scales, and every grid size",
  [RI + ":delta_L", ST + ":_step_function_fast"])
p("C13", "Rigidity iteration count and budget",
  "For every stream of random centres, delta_L terminates; the reported iteration count is at least 2 and at most max(2, max_iters); it stops before the budget only at a multiple of 1000 greater than min_iters and then reports converged; if it reports not converged, it used the whole budget.",
  "all random streams, budgets, tolerances", "all random streams",
  [RI + ":delta_L"])
p("C14", "Rigidity running mean is the arithmetic mean of the samples",
  "After k iterations the (Kahan-compensated) running mean equals the arithmetic mean of the first k delta_3 samples, and the 1000-slot window holds the running means of the last 1000 iterations once k >= 1001.",
  "all sample streams and all k (exact arithmetic)", "all streams, all k",
  [RI + ":delta_L", UT + ":kahan_add"])
p("C15", "Rigidity convergence flag is sound",
  "If delta_L reports converged then the returned value is within tol of the final running mean and (once k >= 1001) any two of the last 1000 running means differ by less than tol.",
  "all random streams, tolerances and budgets", "all random streams",
  [RI + ":delta_L"])
p("C16", "Rigidity value is an average of running means (for every max_iters)",
  "The value returned for an L is an average of running means of the samples: in particular if all samples equal d the value returned is d.",
  "all sample streams, all max_iters >= 1",
  "needs max_iters below the hidden window length of 1000; tests use the automatic budget",
  [RI + ":delta_L"])
p("C17", "spectral_rigidity output shape, order and failure",
  "spectral_rigidity returns the L array unchanged together with value, converged flag and iteration count per L in the same order; with max_iters > 0 it never raises ConvergenceError; with max_iters <= 0 it raises ConvergenceError exactly when the pilot run at the largest L does not converge, and otherwise every per-L budget is twice the pilot's iteration count. Any integration name other than 'trapz' selects Simpson.",
  "all spectra, L arrays, random streams, integration names", "all random streams",
  [RI + ":spectral_rigidity", UN + ":Unfolded.spectral_rigidity"])
p("C18", "Parallel per-L loops are schedule-independent",
  "Given the per-L random streams, the arrays produced by the parallel loops of delta_parallel, sigma_parallel, fill_mask and mean_detrend do not depend on the order in which the iterations run.",
  "all execution orders (permutations) of the iterations, all sizes", "n! schedules",
  [RI + ":delta_parallel", LV + ":sigma_parallel", SC + ":fill_mask", SD + ":mean_detrend"])
p("C19", "Level variance is a population variance",
  "After k iterations the reported sigma equals the population variance of the counts of the k most recent windows (the very first window is discarded), hence is >= 0; each count is the number of unfolded values in the closed window [c-L/2, c+L/2].",
  "all spectra, L, random streams, k (exact arithmetic)", "all random streams",
  [LV + ":sigma_L", UT + ":kahan_add"])
p("C20", "Level variance convergence flag and budget",
  "For every random stream sigma_L terminates with 1 <= iters <= max(1, max_iters); it stops early only at a multiple of 500 above min_iters and then reports converged; if converged, the returned value is within tol of every sigma of the last min(k+1,1000) iterations; if not converged the budget was used up.",
  "all random streams, budgets, tolerances", "all random streams",
  [LV + ":sigma_L"])
p("C21", "Level variance ignores the order of the unfolded values and is shift/scale invariant",
  "Permuting the unfolded values does not change level_variance; shifting values (and window centres) or rescaling values, centres and L by a positive factor does not change it.",
  "all permutations, shifts and scales", "continuum / n! cases",
  [LV + ":sigma_L"])
p("C22", "Windows wider than the spectrum have zero level variance",
  "If L/2 >= max(unfolded) - min(unfolded) then every window contains all values and the level variance is exactly 0 and is reported converged (for tol > 0).",
  "all spectra, all such L, all random streams", "all random streams",
  [LV + ":sigma_L"])
p("C23", "level_variance honours min_L_iters",
  "Unfolded.level_variance(min_L_iters=m) performs at least min(m, max_L_iters) iterations for each L.",
  "all spectra, L, m, random streams", "depends on the random stream and on an argument that tests never vary against the result",
  [UN + ":Unfolded.level_variance", LV + ":level_number_variance"])
p("C24", "Outlier labels mark only one end of the spectrum",
  "For any output of the outlier detector, the final labels mark as outliers either nothing, or a proper initial run, or a proper final run of the sorted spectrum; the inliers are therefore a non-empty contiguous block; if both ends are flagged only the lower end is removed.",
  "all detector outputs of any non-zero length", "2^n detector outputs",
  [TR + ":_get_outlier_labels"])
p("C25", "Trim iterations are nested contiguous blocks",
  "Every trim iteration of a TrimReport holds a non-empty contiguous block of the sorted input; each is contained in the previous one; the first is the whole input.",
  "all inputs, all outlier detectors, all max_trim / max_iters", "detector behaviour is arbitrary",
  [TR + ":TrimReport._TrimReport__get_trim_iters", TR + ":TrimIter.next_iter"])
p("C26", "max_trim and max_iters are respected",
  "No trim iteration after the first removes more than the fraction max_trim of the input; there are at most max_iters + 1 iterations, numbered consecutively from 0; max_iters = 0 gives exactly the untrimmed iteration.",
  "all inputs, detectors, parameters", "all histories of the detector",
  [TR + ":TrimReport", TR + ":TrimIter.proportion_removed"])
p("C27", "trim_indices slice back to the trimmed eigenvalues",
  "TrimReport.trim_indices returns (start, end) such that eigs[start:end] are the trimmed eigenvalues, as documented.",
  "all inputs and iterations", "an off-by-one for all inputs plus tie cases",
  [TR + ":TrimReport.trim_indices", TR + ":TrimIter.trim_indices"])
p("C28", "Lower and upper trim amounts add up",
  "For distinct eigenvalues the number trimmed below plus the number trimmed above plus the number kept equals the total.",
  "all distinct inputs, all iterations", "all detectors",
  [TR + ":TrimIter.lower_percent_removed", TR + ":TrimIter.upper_percent_removed", TR + ":TrimIter.percent_removed"])
p("C29", "use_trim_iteration",
  "use_trim_iteration(i) returns the eigenvalues of iteration i for 0 <= i < number of iterations and raises ValueError for larger i; negative i counts from the end like Python indexing.",
  "all reports and indices", "all iteration counts",
  [TR + ":TrimReport.use_trim_iteration"])
p("C30", "Summary table layout",
  "In the TrimReport summary the cell in row i under column '<smoother>--<statistic>' is that statistic of that smoother at trim iteration i; with non-heuristic smoothing parameters the column names used for the summary are the column names of the unfoldings, in the same order, and distinct parameters (3 decimals) give distinct names; parameters which name a smoother twice (a repeated degree, or two smoothing factors with the same three decimals) are rejected: no report is built from them.",
  "all lists of polynomial degrees, spline smooths and degrees, gompertz flag, all numbers of iterations", "all parameter lists",
  [TR + ":TrimReport._TrimReport__iters_to_dataframe", SM + ":Smoother._get_smoother_names", SM + ":Smoother.fit_all"])
p("C31", "Heuristic spline columns can be looked up",
  "With spline_smooths='heuristic' the smoother names in the summary are names of columns of the unfoldings, so that the automatic unfolding can retrieve the winner.",
  "all spline degree lists", "string formatting of every parameter",
  [SM + ":Smoother._get_smoother_names", SM + ":Smoother.fit_all", TR + ":TrimReport._get_autounfold_vals"])
p("C32", "Automatic unfolding chooses the best score",
  "trim_unfold_auto / unfold_auto pick, among the candidate smoothers, one with the smallest (trimmed) mean absolute GOE score, then the trim with the smallest absolute score for it; the original and unfolded values returned come from the same trim iteration and have equal length.",
  "all score tables", "all tables of real scores",
  [TR + ":TrimReport._get_autounfold_vals", TR + ":Trimmed.unfold_auto", EI + ":Eigenvalues.trim_unfold_auto"])
p("C33", "get_best_trimmed works for each SmoothMethod",
  "get_best_trimmed accepts the documented smoothers given as SmoothMethod members (its default) and returns a trimmed spectrum.",
  "all smoother arguments", "the contract is over all argument values; the failing test is not part of a green suite",
  [EI + ":Eigenvalues.get_best_trimmed", TR + ":TrimReport.best_overall"])
p("C34", "Constructed spectra are the sorted input",
  "Eigenvalues / Trimmed hold exactly the input values (with multiplicity) in ascending order, for every 1-D input; original_values and values agree.",
  "all input arrays", "all permutations and tie patterns",
  [EV + ":EigVals.__init__"])
p("C35", "Array arguments: accepted shapes",
  "make_1d_array accepts exactly the arrays whose total size equals their first dimension and returns the values in row-major order as a fresh copy; other shapes raise ValueError and 0-dimensional values raise TypeError; EigVals raises ValueError for None and for more than two dimensions.",
  "all shapes of any dimension", "infinitely many shapes",
  [VA + ":make_1d_array", EV + ":EigVals.__init__"])
p("C36", "Spacings",
  "For any object with n values, spacings has n-1 entries, all >= 0, summing to max - min; it does not depend on the order of the stored values.",
  "all value arrays", "all arrays",
  [EV + ":EigVals.spacings"])
p("C37", "Objects do not share storage",
  "After any sequence of constructions, trims and in-place writes by the caller through arrays it holds, a write through an array belonging to the caller or to one object never changes the values of another object.",
  "all histories of operations", "all histories",
  [EV + ":EigVals.__init__", EI + ":Eigenvalues.trim_manually", TR + ":TrimReport"])
p("C38", "steps reflects the current values",
  "The .steps attribute always equals the step function of the current .values.",
  "all histories of reads and in-place writes", "all histories",
  [EV + ":EigVals.steps"])
p("C39", "Small-spectrum warning is issued once",
  "Over any sequence of Eigenvalues constructions the warning about fewer than 50 eigenvalues is issued exactly once if some construction has fewer than 50, at the first such one, and otherwise never.",
  "all construction histories", "all histories",
  [EI + ":Eigenvalues.__init__"])
p("C40", "trim_manually is Python slicing",
  "trim_manually(start, end) returns values[start:end] (with Python's negative-index and clamping rules), already ascending; for 0 <= start <= end <= n it has end - start entries.",
  "all spectra, all integers start, end", "all integer pairs",
  [EI + ":Eigenvalues.trim_manually"])
p("C41", "Marchenko-Pastur trimming",
  "trim_marchenko_pastur raises ValueError exactly when a series size is neither passed nor stored or there are no eigenvalues; otherwise, for positive sizes, largest=True returns exactly the values above trim_max, largest=False exactly those strictly between the cut points, in order; the two results are disjoint; the unshifted cut points satisfy 0 <= trim_min <= trim_max, and the shifted ones satisfy trim_min <= trim_max iff max(values) <= N.",
  "all spectra, all N, T >= 1", "continuum of inputs",
  [EI + ":Eigenvalues.trim_marchenko_pastur"])
p("C42", "from_correlations returns the eigenvalues that are not numerically zero",
  "from_correlations(data) returns the eigenvalues of the matrix (or the passed eigenvalues) with those of absolute value below atol removed.",
  "all matrices and vectors, all atol", "no test calls it",
  [EI + ":Eigenvalues.from_correlations"])
p("C43", "from_time_series zero trimming and argument checks",
  "from_time_series raises ValueError for non-2D data and for time_axis not in {0,1}; with trim_zeros every returned eigenvalue exceeds the documented threshold (0, the given float, or 100*|min| / 0 for 'heuristic') and every computed eigenvalue above it is returned; stored N, T are the numbers of series and time points for either time_axis.",
  "all data shapes, thresholds, eigenvalue lists", "continuum of eigenvalue lists",
  [EI + ":Eigenvalues.from_time_series"])
p("C44", "Stored Marchenko-Pastur endpoints are ordered",
  "The Marchenko-Pastur endpoints and shifted endpoints stored by from_time_series are (lower, upper) pairs.",
  "all N, T, spectra", "continuum",
  [EI + ":Eigenvalues.from_time_series"])
p("C45", "Transposed computation gives the same non-zero eigenvalues",
  "For N > T, the matrix whose eigenvalues are computed after transposition has exactly the non-zero eigenvalues (with multiplicity) of the N x N covariance matrix, resp. correlation matrix when no series is constant: their characteristic polynomials differ by the factor X^(N-T).",
  "all real N x T data matrices with N > T >= 2", "continuum of matrices; tests use random 1000x250",
  [EI + ":_eigs_via_transpose", CR + ":correlate_fast"])
p("C46", "Correlation matrix is well-formed",
  "correlate_fast returns a symmetric matrix with entries in [-1, 1], unit diagonal for non-constant rows, independent of ddof, on which the final clipping has no effect; it is positive semi-definite.",
  "all real data matrices without constant rows, all ddof < T", "Cauchy-Schwarz over all matrices",
  [CR + ":correlate_fast"])
p("C47", "Seeded generation is reproducible",
  "Eigenvalues.generate with a seed returns the same eigenvalues whatever happened to the global random state before, for every kind.",
  "all prior random states / histories, all kinds, sizes", "all histories",
  [EI + ":Eigenvalues.generate", CN + ":_generate_GOE_matrix", CN + ":_generate_GOE_tridiagonal"])
p("C48", "Unseeded generation is controlled by the global random state",
  "Eigenvalues.generate with seed=None is a function of the global numpy random state, so that calling np.random.seed beforehand makes it reproducible for every kind.",
  "all kinds and random states", "all states",
  [EI + ":Eigenvalues.generate"])
p("C49", "Generated matrices are symmetric / Hermitian and of the requested kind",
  "For every random draw, the GOE matrix is symmetric, the GUE matrix Hermitian, the tridiagonal matrix symmetric and zero off the three central diagonals; the tridiagonal path is used exactly for GOE with matsize > 500 and use_tridiagonal; kind strings are accepted exactly if they are 'goe', 'gue', 'poisson', 'uniform', and 'uniform' raises NotImplementedError.",
  "all draws, sizes and kind arguments", "all random draws",
  [CN + ":_generate_GOE_matrix", CN + ":_generate_GOE_tridiagonal", EI + ":Eigenvalues.generate", TY + ":MatrixKind.validate"])
p("C50", "Tridiagonal GOE matrices have the same spectrum scale as full ones",
  "The tridiagonal matrix has the same eigenvalue distribution as the full GOE matrix of the same size; in particular the same expected sum of squared eigenvalues.",
  "all sizes", "statement about expectations for every size",
  [CN + ":_generate_GOE_matrix", CN + ":_generate_GOE_tridiagonal"])
p("C51", "Semicircle unfolding is order-preserving with values in [0, N]",
  "unfold_goe maps eigenvalues by a non-decreasing function with values in [0, N], constant 0 below -sqrt(2N) and N above sqrt(2N); hence the sorted unfolded values are in correspondence with the sorted eigenvalues.",
  "all spectra (exact quadrature)", "continuum",
  [EI + ":Eigenvalues.unfold_goe", CN + ":goe_unfolded"])
p("C52", "Poisson unfolding is order-preserving with values in [0, N]",
  "unfold_poisson maps eigenvalues by a non-decreasing function (an integrated density) with values in [0, N].",
  "all spectra (exact quadrature)", "continuum",
  [EI + ":Eigenvalues.unfold_poisson"])
p("C53", "unfold dispatch",
  "Eigenvalues.unfold with smoother=None uses the semicircle for GOE-generated, the Poisson unfolding for Poisson-generated, and the degree-7 polynomial otherwise; a string is accepted exactly when it names a SmoothMethod; GOE / Poisson select the analytic unfoldings whatever the kind; polynomial degrees below 3 and spline degrees above 5 are rejected with ValueError.",
  "all kinds, smoother arguments, degrees", "all argument combinations",
  [EI + ":Eigenvalues.unfold", SM + ":Smoother.fit", SM + ":Smoother._Smoother__validate_args"])
p("C54", "Unfolded values are ascending",
  "Eigenvalues.unfold returns ascending values whatever smoother is used, as does Trimmed.unfold.",
  "all smoothers and spectra", "arbitrary (non-monotone) smoothers",
  [EI + ":Eigenvalues.unfold", TR + ":Trimmed.unfold"])
p("C55", "evaluate_smoother reproduces the unfolding",
  "evaluate_smoother(original_values) gives back the (sorted) unfolded values, or raises NotImplementedError if no smoother is stored.",
  "all spectra, smoothers", "arbitrary smoothers",
  [UN + ":Unfolded.evaluate_smoother", SM + ":Smoother.fit", TR + ":Trimmed.unfold"])
p("C56", "EMD detrending removes exactly the trend",
  "emd_detrend returns the unfolded values minus the EMD trend of the fluctuations, entry by entry; with a zero trend it returns its input; unfold(detrend=True) applies it once.",
  "all unfolded arrays, all trends", "arbitrary trend functions",
  [DT + ":emd_detrend", EI + ":Eigenvalues.unfold"])
p("C57", "Linear detrending leaves residuals orthogonal to constants and time",
  "detrend(series, 'linear') returns residuals with zero mean and zero correlation with time, is idempotent, and maps straight lines to zero; mean_detrend gives rows of zero mean.",
  "all series (exact arithmetic)", "continuum",
  [SD + ":detrend", SD + ":mean_detrend"])
p("C58", "linear_detrend removes the least-squares line of each row",
  "signalproc.linear_detrend replaces each row by its least-squares residuals.",
  "all signal matrices", "continuum; no test",
  [SD + ":linear_detrend"])
p("C59", "Detrend helper class",
  "Detrend().difference(series) returns the n-1 first differences; Detrend().linear(series) returns least-squares residuals.",
  "all series", "no test; uninitialised memory",
  [SD + ":Detrend.difference", SD + ":Detrend.linear"])
p("C60", "An Eigenvalues object is detrended at most once",
  "Calling detrend on the result of detrend raises ValueError, for every method; method names are accepted exactly if they are 'emd', 'linear' or 'quadratic'.",
  "all method arguments and histories", "all histories",
  [EI + ":Eigenvalues.detrend", SD + ":DetrendMethod.validate"])
p("C61", "get_signals keeps exactly the usable rows",
  "get_signals keeps, in order, exactly the rows whose variance and norm exceed the threshold, and raises for non-2D input.",
  "all matrices and thresholds", "continuum",
  [SC + ":get_signals", SC + ":fill_mask"])
p("C62", "Compare: pairwise difference matrices are metrics-like",
  "Without a base curve, mean_sq_difference and mean_abs_difference return symmetric non-negative matrices with zero diagonal whose (i, j) entry is the mean squared / absolute difference of curves i and j, zero iff the curves are equal; the mean absolute difference and the root of the mean squared difference satisfy the triangle inequality, and the square of the former is at most the mean squared difference.",
  "all lists of equally long curves", "continuum",
  [CO + ":Compare.mean_sq_difference", CO + ":Compare.mean_abs_difference"])
p("C63", "Compare: base-curve comparison covers every curve",
  "With a base curve, mean_sq_difference / mean_abs_difference return for every curve its difference from the base curve.",
  "all lists of curves", "entries beyond the first are uninitialised memory, which tests only check for shape",
  [CO + ":Compare.mean_sq_difference", CO + ":Compare.mean_abs_difference"])
p("C64", "Compare: validation",
  "Constructing a Compare raises ValueError exactly when there are no curves, or one curve and no base curve, or the numbers of curves and labels differ; the comparison methods additionally raise ValueError when curve lengths differ (among themselves or, with a labelled base, from the base).",
  "all curve / label lists", "all lengths",
  [CO + ":Compare.__init__", CO + ":Compare._Compare__validate_curve_lengths"])
p("C65", "Ensemble curves have the requested number of points",
  "nnsd(spacings_range, n_points) of every ensemble returns n_points values over the requested range, so that ensemble_compare can compare them with the estimated density.",
  "all ranges and n_points, all ensembles", "all sizes",
  [EN + ":Poisson.nnsd", EN + ":GOE.nnsd", EN + ":GUE.nnsd", EN + ":GSE.nnsd", UN + ":Unfolded.ensemble_compare"])
p("C66", "Spacing densities are probability densities with unit mean",
  "The nearest-neighbour densities of Poisson, GOE, GUE and GSE are non-negative, integrate to 1 over [0, inf) and have mean 1.",
  "all s >= 0 (integral over the half line)", "improper integrals",
  [EN + ":Poisson.nnsd", EN + ":GOE.nnsd", EN + ":GUE.nnsd", EN + ":GSE.nnsd"])
p("C67", "CDFs are the integrals of the densities",
  "nnsd_cdf of Poisson and GOE is 0 for s <= 0, non-decreasing, tends to 1, and its derivative at every s > 0 is nnsd(s).",
  "all s", "continuum",
  [EN + ":Poisson.nnsd_cdf", EN + ":GOE.nnsd_cdf"])
p("C68", "Brody family interpolates Poisson and GOE",
  "brody_dist(s, 0) is the Poisson density, brody_dist(s, 1) the GOE density, brody_cdf is an antiderivative of brody_dist, 0 at 0 and increasing to 1 for every beta >= 0.",
  "all s > 0, all beta >= 0", "continuum",
  [BR + ":brody_dist", BR + ":brody_cdf"])
p("C69", "Theoretical rigidity and level-variance curves are mutually consistent",
  "For Poisson, GOE, GUE and GSE the spectral_rigidity curve is the standard integral transform 2/L^4 * int_0^L (L^3 - 2 L^2 r + r^3) Sigma2(r) dr of the level_variance curve.",
  "all L > 0, all four ensembles", "integral identity for all L",
  [EN + ":Poisson", EN + ":GOE", EN + ":GUE", EN + ":GSE"])
p("C70", "Gompertz and its inverse",
  "gompertz(x, a, b, c) is increasing with values in (0, a) for a, b, c > 0, and inverse_gompertz inverts it.",
  "all x, a, b, c > 0", "continuum",
  [EX + ":gompertz", EX + ":inverse_gompertz"])
p("C71", "Numerical derivative",
  "derivative(x, y) is exact for affine data on every grid with at least two points whose neighbours and second neighbours are distinct (e.g. every strictly monotone grid), and exact at interior points for quadratics on symmetric neighbours; output has the length of the input.",
  "all grids", "continuum",
  [EX + ":derivative"])
p("C72", "kahan_add computes exact sums",
  "In exact arithmetic repeated kahan_add from zero carry yields the plain sum and a zero carry; with rounded additions, whenever the subtractions are exact, sum minus carry is the exact sum after any number of updates.",
  "all sequences of updates", "all sequences",
  [UT + ":kahan_add"])
p("C73", "flatten_4D is a bijective re-indexing",
  "flatten_4D puts voxel (i, j, k) in row (i*J + j)*K + k and keeps its time course; distinct voxels go to distinct rows and every row is hit.",
  "all 4-D shapes", "all shapes",
  [UT + ":flatten_4D"])
p("C74", "Plot saving creates the parent directories",
  "When saving a plot, every ancestor directory of the output file exists afterwards, existing entries are kept, and nothing outside the chain of ancestors is created; Save without outfile raises ValueError; unknown modes raise ValueError.",
  "all file-system states and paths, all modes", "all file-system states",
  [UT + ":make_parent_directories", UT + ":make_directory", PL + ":_handle_plot_mode"])
p("C75", "Polynomial unfolding: fit quality",
  "The mean squared error reported for a polynomial smoother does not increase with the degree, and if the number of distinct eigenvalues is at most degree + 1 and there are no ties the unfolded values are exactly 1..n (least-squares fits, exact arithmetic).",
  "all spectra and degrees", "continuum",
  [SM + ":Smoother.fit", SM + ":Smoother.fit_all"])
p("C76", "GOE score",
  "The GOE score of an unfolding depends on the spacings only through their mean, which equals (last - first)/(n - 1), and their sample variance, and is zero exactly on the documented weighted combination var_norm = -mean_norm/2; for mean 1 and variance 0.286 it is 0; it is invariant under shifting the unfolded values.",
  "all unfolded arrays with at least 3 values", "continuum",
  [TR + ":TrimReport._TrimReport__evaluate_unfolding"])
p("C77", "correlated_eigs selects rows correctly",
  "correlated_eigs introduces correlations only in rows other than row 0, in floor(percent*n/100) distinct rows (at most n-1), and leaves the other rows unchanged.",
  "all permutations, percents, shapes", "all random permutations",
  [CN + ":correlated_eigs"])
p("C78", "fit_brody method dispatch",
  "fit_brody accepts exactly 'spacing', 'spacings' and 'mle' in any letter case and raises ValueError otherwise; Unfolded.fit_brody passes only positive spacings.",
  "all method strings, all spectra", "all strings",
  [BR + ":fit_brody", UN + ":Unfolded.fit_brody"])
p("C79", "Trimmed.unfold accepts the documented smoother names",
  "Trimmed.unfold accepts the documented smoothers 'poly', 'spline' and 'gompertz' given as strings, as Eigenvalues.unfold does.",
  "all strings, degrees, smoothing factors, spectra", "all combinations of arguments",
  [TR + ":Trimmed.unfold", SM + ":Smoother.fit"])
p("C80", "Compare.correlate and the metrics of ensemble_compare",
  "correlate returns the Pearson correlations of the curves (with each other, a symmetric and positive semidefinite table, or of every curve with the base curve); the comparison used by ensemble_compare returns the mean absolute difference, mean squared difference or correlation named by the metric, and raises ValueError for another metric or for different lengths.",
  "all lists of curves, all metrics", "continuum; all lengths",
  [CO + ":Compare.correlate", UN + ":Unfolded.ensemble_compare"])
p("C81", "Next-nearest-neighbour densities are probability densities",
  "nnnsd of Poisson and GOE, as a function of the spacing, is non-negative, integrates to 1 and has mean 2 (the mean next-nearest-neighbour spacing of an unfolded spectrum), whether the grid is given by a range or by explicit spacings; GUE and GSE raise NotImplementedError.",
  "all spacings", "continuum (integrals over the half line)",
  [EN + ":Poisson.nnnsd", EN + ":GOE.nnnsd", EN + ":GUE.nnnsd", EN + ":GSE.nnnsd"])
p("C82", "fit_brody('mle') maximises the likelihood",
  "The estimate returned by fit_brody with method 'mle' minimises the negative log-likelihood of the Brody distribution.",
  "all spacings and parameters", "statement about an argmin over a continuum",
  [BR + ":fit_brody_mle"])
p("C83", "fit_brody stays within its bounds and its criterion is well defined",
  "fit_brody returns a parameter in [1e-5, 1 - 1e-5] or raises RuntimeError when the optimiser fails; the maximum-spacing criterion is non-negative for every parameter and does not depend on the order of the spacings.",
  "all spacings, all optimisers that respect their bounds", "arbitrary optimiser results",
  [BR + ":fit_brody_max_spacing", BR + ":fit_brody_mle"])
p("C84", "brody_fit_evaluate compares the two CDFs at the data",
  "brody_fit_evaluate reports, for the sorted spacings, the empirical CDF and the Brody CDF with the fitted beta; mad and msqd are in [0, 1] and msqd <= mad.",
  "all positive spacings", "continuum; ties",
  [BR + ":brody_fit_evaluate"])
p("C85", "exponential is an increasing saturating curve",
  "For a, c, d > 0, exponential(x, a, b, c, d) increases strictly on x >= 0 from b - a at 0 and stays below its asymptote b, taking every value in between.",
  "all x >= 0 and all parameters", "continuum",
  [EX + ":exponential"])
p("C86", "nd_find returns the first occurrence",
  "nd_find(arr, value) returns None exactly when the value does not occur, and otherwise the multi-index of the first occurrence in C order.",
  "arrays of every shape, all values", "all shapes",
  [UT + ":nd_find"])
p("C87", "is_symmetric",
  "is_symmetric(a) is True exactly when a is square and mirrored entries agree within the tolerances; non-square input is rejected.",
  "all matrices and non-negative tolerances", "all sizes; broadcasting of a row against its transpose",
  [UT + ":is_symmetric"])
p("C88", "The step function terminates",
  "A call of the array step function, and of an object's counting curve (`steps`), terminates for every non-empty array of floats. (False with NaN: "
  "if the input of an object contains a NaN, reading its counting curve runs forever; with NaN-free eigenvalues a NaN query makes the call run "
  "forever unless the last query is at most the least eigenvalue or an earlier query is at least the greatest.)",
  "all non-empty arrays of floats, including NaN, in any order",
  "Non-termination is a statement about infinite executions: a test that hangs cannot distinguish slow from endless, and no finite set of arrays covers "
  "every position of a NaN.",
  ["empyricalRMT/observables/step.py:_step_function_fast", "empyricalRMT/_eigvals.py:steps"])

p("C89", "ensemble_compare fills the table of metrics and observables",
  "Unfolded.ensemble_compare(ensemble, observables, metrics) returns a table whose cell (metric, observable) is that metric between the observable of the "
  "unfolded values (kernel density estimate of the spacings or next-nearest spacings, rigidity, level variance) and the ensemble's curve at the same grid "
  "or L values; cells of unknown observables stay NaN; an invalid metric raises ValueError. (False for the spacings of GUE and GSE, which raise, and the "
  "next-nearest-neighbour curve of GOE is not a density; an observable given twice is left NaN.)",
  "all spectra, ensembles, grids, L arrays and lists of metrics and observables",
  "The cells are functions of arbitrary real curves and of every combination of observables and metrics; tests can only sample grids of one size.",
  ["empyricalRMT/unfold.py:Unfolded.ensemble_compare", "empyricalRMT/unfold.py:Unfolded.__get_kde_values"])
p("C90", "Plotted theory curves are those of the ensemble classes",
  "The expected curves drawn in the spacing, next-nearest spacing, rigidity and level-variance plots are the curves of the ensemble classes at the drawn "
  "abscissae, the histogram shows exactly the spacings not above the trim value, and the Brody curve is fitted with the requested method. (False: the "
  "rigidity curves are those of L divided by the mean spacing, equal to the class exactly for unit mean spacing; the requested Brody method is ignored; the "
  "GOE level variance below L = 10 is the exact formula, which agrees with the class only in the limit.)",
  "all spectra, all L, all trim values and ensembles lists",
  "Equality of real functions over a continuum and a limit for L to infinity; tests compare rendered pictures or finitely many points.",
  ["empyricalRMT/plot.py:_spacings", "empyricalRMT/plot.py:_next_spacings", "empyricalRMT/plot.py:_spectral_rigidity", "empyricalRMT/plot.py:_level_number_variance"])
p("C91", "Observable plots show and return the data",
  "The rigidity and level-variance plots show every data point exactly once, as converged or not according to its flag, and plot_spectral_rigidity / "
  "plot_level_variance return the L values together with the values at these L. (False: with data passed in, plot_spectral_rigidity returns the L argument "
  "instead of the L values of the data; data without convergence flags raise AttributeError.)",
  "all data frames with the documented columns, all L arrays",
  "Ranges over all data of every length with every pattern of flags, including mismatched lengths of L and data.",
  ["empyricalRMT/unfold.py:Unfolded.plot_spectral_rigidity", "empyricalRMT/unfold.py:Unfolded.plot_level_variance", "empyricalRMT/plot.py:_spectral_rigidity", "empyricalRMT/plot.py:_level_number_variance"])

p("C92", "Generated GOE matrices have the scale that unfold_goe assumes",
  "The eigenvalues of generated GOE matrices have, on average, the second moment of the level density with which unfold_goe (and goe_unfolded) unfold them. "
  "(True in the limit for the tridiagonal matrices: the ratio is 1 + 1/N. False for the full matrices generate uses by default: the ratio is 2 + 2/N.)",
  "all sizes N and all probability spaces carrying independent standard normal (and chi-square) entries",
  "An expectation over a continuous distribution and a limit in N; a sampled test cannot separate a factor 1 + 1/N from sampling error and covers finitely many sizes.",
  ["empyricalRMT/construct.py:_generate_GOE_matrix", "empyricalRMT/construct.py:_generate_GOE_tridiagonal", "empyricalRMT/eigenvalues.py:Eigenvalues.unfold_goe"])
p("C93", "Eigenvalues of a time series add up to its total variance",
  "The eigenvalues of from_time_series add up to the sum of the variances of the series (covariance) or to the number of series (correlation), and the shifted "
  "Marchenko-Pastur end points are non-negative and ordered. (The last part is false for covariances: once the mean variance exceeds the number of series the end points are negative.)",
  "all non-constant series of all lengths, with and without the transpose trick, all exact eigenvalue solvers",
  "An identity over all real matrices of all shapes.",
  ["empyricalRMT/eigenvalues.py:Eigenvalues.from_time_series"])
p("C94", "Level variance lies between its bounds",
  "level_number_variance of any spectrum of n values is between 0 and n^2/4, and of an equally spaced spectrum at most 1/4. (The last part is false for windows "
  "reaching beyond the spectrum, which are drawn: the variance is then unbounded.)",
  "all spectra, all L, all random draws, all numbers of iterations",
  "Quantifies over every sequence of random draws and every length of the sampling loop.",
  ["empyricalRMT/observables/levelvariance.py:sigma_L", "empyricalRMT/observables/levelvariance.py:level_number_variance"])

p("C95", "Lengths and proportions of a trim iteration",
  "In every trim iteration inlier_length + outlier_length is the number of its eigenvalues, inlier_length is the number of values handed to the next iteration and is positive, and "
  "proportion_kept lies in (0, 1] and equals one minus the proportion_removed of the next iteration.",
  "all spectra, all outlier detectors, all trim limits and numbers of iterations",
  "Ranges over every flag pattern an outlier detector can return in every iteration.",
  ["empyricalRMT/trim.py:TrimIter.inlier_length", "empyricalRMT/trim.py:TrimIter.outlier_length", "empyricalRMT/trim.py:TrimIter.proportion_kept"])
p("C96", "Statistics helpers",
  "variance(arr) is the unbiased sample variance (and raises for one value); slope and intercept give the least-squares line, the only one if the abscissae are not all equal.",
  "all non-empty arrays", "Optimality among all lines, for all data.",
  ["empyricalRMT/utils.py:variance", "empyricalRMT/utils.py:slope", "empyricalRMT/utils.py:intercept"])
p("C97", "log_brody is the logarithm of the Brody density",
  "log_brody(s, beta) gives the logarithm of brody_dist at the positive spacings. (False: the exponent enters with the wrong sign; for every positive spacing the result is too large by 2 alpha s^(beta+1).)",
  "all positive spacings and all beta >= 0", "Continuum of spacings and parameters.",
  ["empyricalRMT/brody.py:log_brody", "empyricalRMT/brody.py:brody_dist"])
p("C98", "Further generators",
  "_generate_GOE_tridiagonal_direct returns n interior eigenvalues of a matrix of the same ensemble as _generate_GOE_tridiagonal; _generate_poisson has its draws as eigenvalues; time_series_eigs returns the "
  "eigenvalues of the correlation matrix of its draws, which add up to n. (The first part is false: the off-diagonal is not divided by sqrt 2, so that the expected sum of squared eigenvalues is m^2 instead of (m^2 + m)/2.)",
  "all sizes, all random generators and states", "Expectations over continuous distributions, for all sizes.",
  ["empyricalRMT/construct.py:_generate_GOE_tridiagonal_direct", "empyricalRMT/construct.py:_generate_poisson", "empyricalRMT/construct.py:time_series_eigs"])
p("C99", "Bin counts",
  "_validate_bin_sizes warns exactly if one of the bins - 1 equal intervals holds more than 40% of the values; the histogram helper of Compare counts every value once. (The last part is false: with one bin it always raises, and its "
  "counts start from 0, 1, 2, ... and skip the first value of each bin.)",
  "all non-empty arrays and all numbers of bins", "All arrays and bin numbers, including values on bin edges.",
  ["empyricalRMT/plot.py:_validate_bin_sizes", "empyricalRMT/compare.py:Compare.__histograms"])

p("C100", "plot_steps draws the step function",
  "The curve of plot_steps has gridsize points, equally spaced from the least to the greatest value, and its height at each abscissa is the number of values up to it. (False with one grid point or if all values are equal: "
  "the curve is then zero everywhere.)",
  "all sorted spectra with repeated values, all gridsizes", "All spectra and grids, including ties between grid points and values.",
  ["empyricalRMT/plot.py:_step_function", "empyricalRMT/_eigvals.py:EigVals.plot_steps"])
p("C101", "plot_fit compares the unfolded values with the step function",
  "The line which plot_fit labels 'Step Function' passes through the step function at every eigenvalue, so that an exact unfolding is drawn with differences 0. (False: the line starts at 0 and lies one below everywhere.)",
  "all spectra of distinct values and all unfoldings of them", "All spectra of every length.",
  ["empyricalRMT/plot.py:_unfolded_fit", "empyricalRMT/unfold.py:Unfolded.plot_fit"])
p("C102", "plot_trim_steps shows every iteration once",
  "The plot of the trim iterations shows every iteration in exactly one panel, in order, with each eigenvalue, its count and its label; left-over panels are deleted and fewer than the width. (False for a single panel: it raises AttributeError.)",
  "all numbers of iterations and all widths", "All combinations of the number of iterations and the width.",
  ["empyricalRMT/trim.py:TrimReport.plot_trim_steps"])
p("C103", "Trimmed mean in the trim summary",
  "The trimmed mean of the summaries lies between the least and greatest entry, does not depend on the order of the entries, and does not depend on the values of the floor(n/5) smallest and floor(n/5) largest entries.",
  "all non-empty arrays", "Robustness to arbitrary replacement of the outermost fifth of the data.",
  ["empyricalRMT/trim.py:TrimIter.to_dataframe"])
p("C104", "plot_brody_fit draws and returns",
  "plot_brody_fit returns a figure for every unfolded spectrum. (False: it indexes the array of axes with one index and always raises.)",
  "all spectra, fits, options", "All inputs and every behaviour of the optimiser.",
  ["empyricalRMT/plot.py:_brody_fit", "empyricalRMT/unfold.py:Unfolded.plot_brody_fit"])
p("C105", "mkdirp",
  "mkdirp creates the directory and all its ancestors, also if some exist or are created at the same time by other programs; a second call changes nothing; if the path is a file it raises and changes nothing.",
  "all file systems, paths, and interleavings with other programs that only create directories",
  "Ranges over every file-system state and over what other programs do between any two steps.",
  ["empyricalRMT/utils.py:mkdirp"])

p("C106", "fit_brody(method='spacing') is the maximum-spacing estimate",
  "With an exact optimiser, fit_brody(s, 'spacing') returns a parameter maximising the product of the probabilities of all intervals into which the spacings divide [0, infinity). (False: the two end intervals are left out. What is "
  "maximised is the product over the intervals between neighbouring different spacings; for a single spacing every parameter is optimal.)",
  "all non-empty lists of positive spacings, all exact optimisers, all parameters between the bounds",
  "Optimality over a continuum of parameters, for all data and every optimiser.",
  [BR + ":fit_brody_max_spacing"])

p("C107","Rigidity samples converge to the Dyson-Mehta statistic",
  "As gridsize grows, one rigidity sample (the quantity spectral_rigidity averages over random window centres) converges to the Dyson-Mehta statistic of the window: the least value, over all straight lines, of (1/L) times the integral over the window of the squared difference between the level counting function and the line; this minimum exists. With both integration rules.",
  "every non-empty sorted spectrum (ties allowed), every window length L > 0, every window centre (also outside the spectrum or exactly on a level), both integration rules, every tolerance",
  "A test fixes one spectrum, window and grid; that the discretised regression plus quadrature has the right limit for every spectrum, despite the discontinuities of the counting function and the special case of the step function at its first level, is a limit statement over infinitely many grids.",
  ["empyricalRMT/observables/rigidity.py:delta_L","empyricalRMT/observables/rigidity.py:_slope","empyricalRMT/observables/rigidity.py:_intercept","empyricalRMT/observables/rigidity.py:_sq_lin_deviation","empyricalRMT/observables/rigidity.py:_int_simps_nonunif","empyricalRMT/observables/rigidity.py:_integrate_fast","empyricalRMT/observables/step.py:_step_function_fast"])

p("C108","plot_distribution: histogram and density curve show the same values",
  "plot_distribution shows a histogram of all values; with kde, the curve is the kernel density estimate of those values on 10000 equally spaced points from the least to the greatest. (True of the code only if all values are positive: the estimate is fitted to the positive values alone, and with no positive value there is no curve.)",
  "every non-empty array of real values, every kernel density estimator (a function of the values fitted)",
  "A test looks at one spectrum and a rendered figure; which values enter the estimate must hold for every spectrum, including those with both signs, which tests with positive data never show.",
  ["empyricalRMT/plot.py:_raw_eig_dist","empyricalRMT/plot.py:_kde_plot","empyricalRMT/_eigvals.py:EigVals.plot_distribution"])
p("C109","Plotting methods accept their documented arguments",
  "plot_sorted, plot_distribution, plot_steps and plot_spacings call the plotting function with the values of the object and the arguments the caller passed. (True for keyword arguments; every positional argument raises TypeError.)",
  "every object, every list of positional arguments, every dictionary of keyword arguments, the four methods",
  "Which calls are accepted ranges over every combination of positional and keyword arguments; the test-suite passes keywords only.",
  ["empyricalRMT/_eigvals.py:EigVals.plot_sorted","empyricalRMT/_eigvals.py:EigVals.plot_distribution","empyricalRMT/_eigvals.py:EigVals.plot_steps","empyricalRMT/_eigvals.py:EigVals.plot_spacings"])
p("C110","Plots are drawn on the axes given and nowhere else",
  "If a figure and axes are passed, a plotting function adds its items to these axes, changes no other axes, creates no figure and closes no other figure; if one of them is missing it creates exactly one figure and draws there; the figure is closed exactly by a successful call in mode save or test. The result is the figure and axes drawn on. (False in mode test with a figure that is not the current one: the current figure is erased.)",
  "every state of pyplot (open figures, their axes and contents, which one is current), every plotting function and mode, also calls that fail while drawing or saving",
  "The state of pyplot is a global history of arbitrary earlier plots; a test starts from one state.",
  ["empyricalRMT/plot.py:_setup_plotting","empyricalRMT/plot.py:_handle_plot_mode"])
p("C111","plot_sorted shows every eigenvalue at its index, or raises for an unknown kind",
  "With kind scatter or line the plot shows each eigenvalue exactly once, at its index. For any other kind ValueError is raised and nothing is drawn on any axes.",
  "every list of eigenvalues, every string as kind, every state of pyplot, every mode",
  "Ranges over every string and every array.",
  ["empyricalRMT/plot.py:_raw_eig_sorted"])
p("C112","plot_observables draws four panels with the data of this object",
  "plot_observables creates exactly one figure with four axes which show the unfolding fit, the spacing distribution, the spectral rigidity and the level variance of this object, and changes no other figure. If the rigidity or level variance cannot be computed the exception is raised and no figure is created.",
  "every unfolded object, every result of the two Monte-Carlo observables, every list of ensembles, every state of pyplot, every mode but test",
  "The panels depend on global pyplot state and on stochastic results; a test sees one run.",
  ["empyricalRMT/unfold.py:Unfolded.plot_observables","empyricalRMT/plot.py:_unfolded_fit","empyricalRMT/plot.py:_spacings","empyricalRMT/plot.py:_spectral_rigidity","empyricalRMT/plot.py:_level_number_variance"])
p("C113","Colour legend stripes tile the legend box",
  "For every number of stripes, the stripes of the colour-map legend cover the legend box from edge to edge without gaps or overlap, and each has the colour of its midpoint.",
  "every number of stripes n >= 1, every position and width",
  "Ranges over all n, positions and widths; the off-by-one cases are at the ends.",
  ["empyricalRMT/plot.py:HandlerColormap"])

p("C114","Spectral rigidity is a consistent Monte-Carlo estimate",
  "With independent uniform draws, with probability one: every result of spectral_rigidity that used enough iterations is as close as desired to the average of the rigidity sample over all window centres between the least and the greatest level; and the convergence criterion of the loop is met after finitely many iterations for every tolerance > 0. With tol <= 0 the whole budget is used, so results converge as the budget grows.",
  "every non-empty sorted spectrum, list of positive window lengths, grid size, integration rule, tolerance, budget and execution order of the parallel loop; almost every infinite sequence of draws",
  "A statement about the probability distribution of infinite runs of the random generator: a test sees one finite run with one seed, and cannot distinguish bias from noise.",
  ["empyricalRMT/observables/rigidity.py:spectral_rigidity","empyricalRMT/observables/rigidity.py:delta_parallel","empyricalRMT/observables/rigidity.py:delta_L"])
p("C115","Level number variance is a consistent Monte-Carlo estimate",
  "With independent uniform draws, with probability one: every result of level_number_variance that used enough iterations is as close as desired to the number variance, that is the mean squared deviation of the number of levels in a window of length L from its mean, over all window centres between the least and greatest level; and the convergence criterion of the loop is met after finitely many iterations for every tolerance > 0.",
  "every non-empty spectrum (sorted or not), list of window lengths, tolerance, budget and execution order; almost every infinite sequence of draws",
  "A statement about the probability distribution of infinite runs of the random generator: a test sees one finite run with one seed, and cannot distinguish bias (e.g. dividing by k-1, or dropping a sample) from noise.",
  ["empyricalRMT/observables/levelvariance.py:level_number_variance","empyricalRMT/observables/levelvariance.py:sigma_parallel","empyricalRMT/observables/levelvariance.py:sigma_L"])
p("C116","Spectral rigidity estimates the mean Dyson-Mehta statistic",
  "With independent uniform draws, on every sufficiently fine grid, with probability one, every result of spectral_rigidity that used enough iterations is as close as desired to the average over all window centres of the Dyson-Mehta statistic: the least value over all straight lines of (1/L) times the integral over the window of the squared difference between the level counting function and the line.",
  "every non-empty sorted spectrum (ties allowed), list of positive window lengths, both integration rules, every tolerance, budget and execution order; almost every sequence of draws",
  "Combines a limit in the grid with a limit in the number of samples, for all spectra; no finite computation shows either.",
  ["empyricalRMT/observables/rigidity.py:spectral_rigidity","empyricalRMT/observables/rigidity.py:delta_L","empyricalRMT/observables/step.py:_step_function_fast"])

p("C117","Observables do not depend on the order of the unfolded values",
  "For an Unfolded object the level variance, the spacings and the spectral rigidity are functions of which unfolded values occur and how often: reordering the values changes nothing. (True of level variance and spacings. False of the spectral rigidity, and Trimmed.unfold does return values that are not in ascending order.)",
  "every pair of Unfolded objects whose values are permutations of each other, all arguments, draws and execution orders",
  "Quantifies over all orders of all spectra; unit tests use sorted values, for which the rigidity is right.",
  ["empyricalRMT/unfold.py:Unfolded.spectral_rigidity","empyricalRMT/unfold.py:Unfolded.level_variance","empyricalRMT/_eigvals.py:EigVals.spacings","empyricalRMT/observables/rigidity.py:delta_L","empyricalRMT/trim.py:Trimmed.unfold"])
p("C118","From eigenvalues to observables",
  "For every way of calling Eigenvalues.unfold that returns, spectral_rigidity and level_variance of the returned object give a frame whose L column is the requested one and whose values, with probability one and with enough iterations (and a fine enough grid), are as close as desired to the average Dyson-Mehta statistic, resp. the number variance, of the unfolded values.",
  "every spectrum in every order, matrix kind, smoother, fitting routine, detrending; every list of positive window lengths, integration rule, tolerance, budget, execution order; almost every sequence of draws",
  "Composes three stages over all inputs, with a limit statement at the end.",
  ["empyricalRMT/eigenvalues.py:Eigenvalues.unfold","empyricalRMT/unfold.py:Unfolded.spectral_rigidity","empyricalRMT/unfold.py:Unfolded.level_variance"])
p("C119","prioritize_smoother chooses the order of selection",
  "trim_unfold_auto(prioritize_smoother=True) selects the smoother first and then the trim region; with prioritize_smoother=False it selects the trim region with the best mean score across smoothers first, and then the best smoother for that region. (False: the argument has no effect.)",
  "every spectrum, outlier detector, fitting routine and set of smoothers",
  "The two orders agree on most spectra; only for some tables of scores do they differ.",
  ["empyricalRMT/eigenvalues.py:Eigenvalues.trim_unfold_auto","empyricalRMT/trim.py:TrimReport._get_autounfold_vals"])
p("C120","Unfoldings in a trim report are reproducible by hand",
  "For each trim iteration i of a report and each requested smoother, report.use_trim_iteration(i).unfold(...) with that smoother succeeds, and the column of report.unfoldings[i] with the smoother's name holds exactly its values in ascending order.",
  "every spectrum, outlier detector, fitting routine, trim limits, list of polynomial degrees, spline degrees and smoothing factors, with and without Gompertz and detrending; every iteration",
  "Relates two separate code paths for all inputs, including the naming of columns.",
  ["empyricalRMT/trim.py:TrimReport.unfoldings","empyricalRMT/trim.py:TrimReport.use_trim_iteration","empyricalRMT/trim.py:Trimmed.unfold","empyricalRMT/smoother.py:Smoother.fit_all","empyricalRMT/eigenvalues.py:Eigenvalues.trim_report"])

p("C121", "Polynomial unfolding does not depend on the units of energy",
  "If the least-squares routine is exact, unfolding a·e + b with a > 0 by a polynomial gives the same unfolded values, spacings and mean squared error as unfolding e, through Eigenvalues.unfold, Trimmed.unfold and the smoothing summary, and (with more than `degree` distinct values) the stored smoothers agree at corresponding energies; with a < 0 the unfolded values u become n + 1 - u in reversed order.",
  "all spectra, all degrees, all affine changes of units, every least-squares solver", "relates two runs for every spectrum and every change of units, with a fitting routine that may return any of the minimisers",
  [EI + ":Eigenvalues.unfold", TR + ":Trimmed.unfold", SM + ":Smoother.fit", SM + ":Smoother.fit_all"])
p("C122", "Polynomial unfolding preserves the mean of the counting function",
  "If the least-squares routine is exact, the values unfolded by a polynomial sum to 1 + 2 + ... + n, the sum of their squares is 1² + ... + n² minus n times the mean squared error of the fit, and the residuals are orthogonal to every power of the energy up to the degree.",
  "all spectra, all degrees, every least-squares solver", "identity for every spectrum and every minimiser, not only for sampled ones",
  [EI + ":Eigenvalues.unfold", SM + ":Smoother.fit", SM + ":Smoother.fit_all"])
p("C123", "from_time_series does not depend on units, signs or order",
  "With an exact eigenvalue routine, from_time_series(covariance=False) on series that are not constant returns the same object (or raises the same exception) when each series is multiplied by its own non-zero factor and shifted, and the series and the time points are reordered; with covariance=True the same holds for shifts and reorderings. correlate_fast keeps each correlation under a positive rescaling and flips its sign if exactly one of the two factors is negative.",
  "all matrices of series, all factors, shifts and permutations, all zero-trimming options", "relates two runs for every data set and every group element",
  [EI + ":Eigenvalues.from_time_series", EI + ":_eigs_via_transpose", "empyricalRMT/correlater.py:correlate_fast"])
p("C124", "Trimming and automatic unfolding do not depend on the units of energy",
  "If the outlier detector's verdicts do not depend on a strictly increasing change of scale, neither do the trim iterations; with least-squares polynomial fits and an affine change a·e + b (a > 0) the trim report has the same summary and the same unfoldings, and trim_unfold_auto returns the same unfolded values and the corresponding original values.",
  "all spectra, all detectors with that invariance, all trim limits, degrees and affine changes", "relates two runs of the whole pipeline for every detector and every spectrum",
  [EI + ":Eigenvalues.trim_report", EI + ":Eigenvalues.trim_unfold_auto", TR + ":TrimReport", TR + ":TrimIter"])
p("C125", "A trim report keeps what it computed",
  "After TrimReport(arr, ...) has returned, report.use_trim_iteration(i) gives the same values for ever, whatever is later written into arr, into report.untrimmed, or into the values of any object, including objects obtained from the report; report.untrimmed holds the sorted values from the construction until it is written itself; and no array the caller can name is changed by making or using a report or by writing through another reference.",
  "every history of operations (creating arrays and objects, trimming, unfolding, reading attributes, writing), every point of construction, every outlier detector", "aliasing bugs appear only for particular interleavings of writes and reads",
  [TR + ":TrimReport.untrimmed", TR + ":TrimReport.use_trim_iteration", TR + ":TrimReport.__get_trim_iters", TR + ":TrimIter"])
p("C126", "step_function of an object counts its values",
  "obj.step_function(x) gives, for ascending queries x, the number of values of obj up to each query, for Eigenvalues, Trimmed and Unfolded objects made from arrays in any order. (False if the last query is the least value: zero everywhere; and false for objects from Trimmed.unfold, whose values need not be ascending.)",
  "every array of values, every ascending array of queries, every smoother", "holds or fails depending on ties with the least value and on the monotonicity of a fit",
  ["empyricalRMT/_eigvals.py:EigVals.step_function", TR + ":Trimmed.unfold", EI + ":Eigenvalues.unfold"])
p("C127", "Smoother accepts one-dimensional data in any order",
  "Smoother(a) accepts exactly the arrays whose first dimension is the number of their entries, with ValueError for other shapes and TypeError for a number; the result of fit depends only on which values a holds and how often.",
  "every array shape and contents, every smoother and argument, every fitting routine", "quantifies over all shapes and all permutations of the data",
  [SM + ":Smoother.__init__", SM + ":Smoother.fit"])
p("C128", "plot_trim_steps logs every iteration",
  "plot_trim_steps(log_info=True) prints one line per trim iteration, in order, with its number, the percentage removed, the first and last index of its values and the trimmed means of the statistics of its unfoldings, then the legend, and draws exactly what it draws with log_info=False, which prints nothing.",
  "every list of non-empty trim iterations, every width", "quantifies over all reports",
  [TR + ":TrimReport.plot_trim_steps", TR + ":TrimIter.summary"])
p("C129", "A discarded trim has no effect",
  "A trim iteration which is discarded because it removes more than max_trim does not influence the outcome of TrimReport. (True of the contents of every report that is returned. False of the exceptions: all smoothers are fitted to the discarded values too, and if that raises, no report is returned.)",
  "every spectrum, outlier detector, fitting routine, trim limit and set of smoothers", "needs a spectrum on which only the discarded trim is too short for a fit",
  [TR + ":TrimReport.__get_trim_iters", TR + ":TrimIter.__init__", TR + ":TrimIter.next_iter"])
p("C130", "fast_r is the correlation coefficient",
  "utils.fast_r(x, y) returns Pearson's correlation of the two series, and 0 if one of them is constant. (False: the sum over the products is missing, so that an array is formed; even its sum is the correlation only if one of the means is zero.)",
  "all pairs of series of equal length", "an identity for all series",
  ["empyricalRMT/utils.py:fast_r"])
p("C131", "kahan_add sums accurately in floating point",
  "With any rounding of relative error eps <= 1/1000, adding n <= 1/eps numbers with kahan_add from (0, 0) gives their sum up to (8 eps + 15 n eps^2) times the sum of their absolute values.",
  "every rounding operation within the standard model of floating-point arithmetic, every sequence of numbers", "a bound for all sequences and all roundings; a test sees single sums on one machine",
  [UT + ":kahan_add"])
p("C132", "sigma_L is accurate in floating point after any number of iterations",
  "With every operation rounded (relative error eps <= 1/1000), sigma_L with a budget of at most 1/eps iterations returns a value within 300 eps N^2 of the population variance of the counts in the windows drawn, N being the number of levels: the error does not grow with the number of iterations. It stops early only at a multiple of 500 above min_iters, and when it reports convergence the last 1000 variances differ by less than tol/(1-eps) + 600 eps N^2. Without rounding it is the sigma_L of C19-C21.",
  "every rounding operation, spectrum, window length, budget, tolerance and stream of draws", "accumulation of rounding errors over up to 10^9 iterations",
  ["empyricalRMT/observables/levelvariance.py:sigma_L", UT + ":kahan_add"])
p("C133", "delta_L is accurate in floating point after any number of iterations",
  "With every operation of the averaging loop rounded (relative error eps <= 1/4000) and samples bounded by B, delta_L with a budget of at most 1/eps iterations returns a value within 2200 eps B of the value in exact arithmetic for the same number of samples, in whatever order the final mean is summed; when it reports convergence after more than 1000 samples the last 1000 running means differ by less than tol/(1-eps) + 128 eps B. Without rounding it is the delta_L of C13-C16.",
  "every rounding operation, sequence of samples, budget, tolerance and association of the final sum", "accumulation of rounding errors over up to 10^9 iterations; compiler freedom (fastmath) in the final sum",
  ["empyricalRMT/observables/rigidity.py:delta_L", UT + ":kahan_add"])
p("C134", "use_sparse changes how many eigenvalues are returned, not which matrix they belong to",
  "from_time_series(data, use_sparse=True, k=k, return_eigenvectors=False) returns k eigenvalues of the covariance (or correlation) matrix. (True if the series are pairwise uncorrelated. False otherwise: only the lower triangle is handed to eigsh, so that a routine which is exact on what it gets returns variances, and ones for correlations. With more series than time points use_sparse and sp_args are ignored; otherwise not passing return_eigenvectors=False raises ValueError and k >= N, e.g. the default 6 for up to six series, TypeError.)",
  "every data matrix, every eigenvalue routine, every k", "quantifies over all matrices; the wrong values look like plausible eigenvalues",
  [EI + ":Eigenvalues.from_time_series"])
p("C135", "show_iters adds the iteration counts and changes nothing else",
  "With show_iters=True, plot_spectral_rigidity and plot_level_variance draw the same points and curves on the same axes as without it, and add exactly one further axes object to that figure, showing the number of iterations at every L, converged or not. (False for plot_level_variance(sigma=...): there are no iteration counts, and it raises ValueError after drawing the points.)",
  "every state of pyplot, figure, axes, plot mode, data and set of ensembles", "quantifies over all states of pyplot's global registry",
  ["empyricalRMT/plot.py:_spectral_rigidity", "empyricalRMT/plot.py:_level_number_variance", "empyricalRMT/unfold.py:Unfolded.plot_level_variance"])
p("C136", "Eigenvalues(matrix) holds the eigenvalues of the matrix",
  "For a square matrix the object holds its n eigenvalues, with multiplicities, in ascending order. (True for real matrices with real eigenvalues, in particular symmetric and triangular ones, and the same for similar matrices. Otherwise it holds the real parts of the eigenvalues of the entrywise real part of the matrix: imaginary parts of entries and of eigenvalues are dropped, so for Hermitian matrices and rotations the values are not eigenvalues. The sum is always the real part of the trace. A matrix that is not square raises LinAlgError.)",
  "every matrix of every shape, exact eigenvalue routines", "quantifies over all matrices; the tests use real symmetric ones",
  [EV + ":EigVals.__init__", EI + ":Eigenvalues.__init__"])
p("C137", "Modules can be imported in any order on any platform",
  "After any sequence of imports of modules of the package, successful or not, `from m import x` succeeds exactly if m defines x; each needed module is executed exactly once and the loaded namespaces do not depend on the order of imports. (False on Windows: _constants.py does not define ITER_COUNT there, so observables.levelvariance, observables.rigidity, unfold, construct, trim and eigenvalues can never be imported.)",
  "every history of imports, every platform", "quantifies over all import orders and platforms; a test process has one import order and one platform",
  ["empyricalRMT/_constants.py", "empyricalRMT/observables/rigidity.py", "empyricalRMT/observables/levelvariance.py", "empyricalRMT/eigenvalues.py"])
p("C138", "Progress output never changes a result, and runs from 0 to 100 percent",
  "spectral_rigidity and level_number_variance return the same arrays with show_progress=True as without. The percentages printed start at 0, never decrease, never exceed 100, are at most 101 in number, and end with 100 (the last is false: 100 is printed only if every value counts as computed and the last L values stored fall on a report). With a single L, the counts printed are 0, then twice the iteration number at each multiple of the reporting interval, then the number of iterations done.",
  "Every spectrum, every list of L values, every sequence of random draws and every interleaving of the parallel iterations.",
  "The percentages are computed from arrays other threads are writing; a test sees the interleavings of one run, and monotonicity must hold in all of them.",
  ["empyricalRMT/observables/rigidity.py: _spectral_iter_rigidity, delta_L", "empyricalRMT/observables/levelvariance.py: _sigma_iter_converge, sigma_L", "empyricalRMT/_constants.py"])
p("C139", "Compiled code never touches memory outside its arrays",
  "The functions compiled without bounds checking (step function, integration rules, convergence buffers, derivative, detrending of rows, masks) read and write only entries of the arrays they are given: replacing every subscript by a checked one changes no result and raises nothing. (Not for empty arrays or grids, derivatives of fewer than two points, and an output array with fewer rows than the signals.)",
  "Every content of the arrays, including NaN for the step function, every length, every number of iterations, every order of the parallel iterations.",
  "Out-of-bounds accesses of compiled code are silent: a test passes as long as the neighbouring memory happens to be harmless.",
  ["empyricalRMT/observables/step.py: _step_function_fast", "empyricalRMT/observables/rigidity.py: _integrate_fast, _int_simps_nonunif, _sq_lin_deviation, delta_L", "empyricalRMT/observables/levelvariance.py: sigma_L", "empyricalRMT/exponentials.py: derivative", "empyricalRMT/signalproc/detrend.py: mean_detrend, linear_detrend", "empyricalRMT/signalproc/clean.py: fill_mask"])
p("C140", "Generated two-level spectra have the ensemble's spacing distribution",
  "For generate(2, kind) with independent normal draws, the spacing of the two levels divided by its mean has exactly the density kind.nnsd; for GOE the probability that it is at most s is GOE.nnsd_cdf(s), and the mean spacings are sqrt(2 pi) for GOE and 4/sqrt(pi) for GUE. (False for 'poisson': the values are sorted normal draws, not uniform ones, and their scaled spacing has density (2/pi) exp(-s^2/pi), not exp(-s).)",
  "Every probability space and generator whose normal draws are independent, every exact eigenvalue routine, every s >= 0.",
  "A statement about a probability distribution; a test can only look at a finite sample, and with a tolerance.",
  [EI + ":Eigenvalues.generate", "empyricalRMT/construct.py:_generate_GOE_matrix", "empyricalRMT/ensemble.py:GOE.nnsd", "empyricalRMT/ensemble.py:GUE.nnsd", "empyricalRMT/ensemble.py:GOE.nnsd_cdf"])
p("C141", "The generated ensembles have no preferred basis",
  "The full GOE matrix of any size has the same joint distribution of entries as its conjugate by any orthogonal matrix, and the GUE matrix as its conjugate by any unitary matrix: this is what the O and the U stand for.",
  "Every size, every orthogonal or unitary matrix, every generator whose normal draws are independent.",
  "An equality of probability distributions on matrix space, for a continuum of conjugations.",
  [EI + ":Eigenvalues.generate", "empyricalRMT/construct.py:_generate_GOE_matrix"])
p("C142", "Generated spectra are symmetric about zero and have a normal sum",
  "For independent draws the levels returned by generate are random variables, in ascending order, the joint distribution of the levels equals that of the levels of the spectrum reflected at 0, and the sum of the levels is normal with mean 0 and variance 2n for the full GOE matrix, n for GUE, Poisson and the tridiagonal GOE matrix.",
  "Every size, every kind, every generator with independent draws, every exact eigenvalue routine.",
  "An equality of probability distributions, including measurability of sorted eigenvalues; sampling shows neither.",
  [EI + ":Eigenvalues.generate", "empyricalRMT/construct.py:_generate_GOE_matrix", "empyricalRMT/construct.py:_generate_GOE_tridiagonal"])
p("C143", "Randomness over a session: seeding, generation and observables",
  "Over any session, what generate and other NumPy code draw is not changed by computing observables in between, and observables are not changed by generating or by np.random.seed; after np.random.seed(k) everything generated is reproducible, and so are the observables. (The last is false: the observables draw from the generator of the compiled code, which the seed does not reach; and even with the same states of all its threads, the values depend on which thread runs which iteration.)",
  "Every history of calls, every state of the generators, every assignment of parallel iterations to threads.",
  "Quantifies over all histories and thread schedules; a test sees the one schedule its run happens to get.",
  [EI + ":Eigenvalues.generate", "empyricalRMT/observables/levelvariance.py:sigma_parallel", "empyricalRMT/observables/rigidity.py:delta_parallel", "empyricalRMT/unfold.py:Unfolded.level_variance", "empyricalRMT/unfold.py:Unfolded.spectral_rigidity"])
p("C144", "The tridiagonal GOE spectrum is the full GOE spectrum up to one scale",
  "For n > 500, the levels generate(n, 'goe', use_tridiagonal=True) returns, multiplied by sqrt(2), have the same joint distribution as the levels it returns with use_tridiagonal=False; hence every statistic of the levels that does not depend on their scale has the same distribution with both.",
  "All sizes above 500, all generators whose normal draws are independent standard normal and whose chi-square draws are independent with the degrees of freedom asked for, all measurable scale-free statistics; exact eigenvalue routines.",
  "An equality of joint distributions for every size; a sample of spectra compares a few moments of a few sizes.",
  [CN + ":_generate_GOE_matrix", CN + ":_generate_GOE_tridiagonal", EI + ":Eigenvalues.generate"])
p("C145", "The Poisson theory curves are those of the spectra generate makes",
  "For spectra generate(n, 'poisson') unfolded with the exact staircase n Phi(x): the expected spectral rigidity over an interval of length L is exactly Poisson.spectral_rigidity(L) for every size; the number of levels in an interval of length L has mean L and a variance within L^2/n of Poisson.level_variance(L); the expected fraction of spacings above s is (1 - s/n)^n, which tends to 1 - Poisson.nnsd_cdf(s). The expected fraction of halved next-nearest spacings above s tends to (1 + 2s) exp(-2s), so Poisson.nnnsd, documented as a heuristic, is not their density.",
  "All sizes n, all intervals within [0, n], all s >= 0, all generators whose normal draws are independent and standard normal.",
  "Statements about expectations over all random spectra of every size, and limits; simulations sample a few.",
  [EI + ":Eigenvalues.generate", EN + ":Poisson.nnsd_cdf", EN + ":Poisson.nnnsd", EN + ":Poisson.spectral_rigidity", EN + ":Poisson.level_variance"])
p("C146", "Spectra of noise have the first two Marchenko-Pastur moments",
  "For N >= 2 series of T >= 2 independent standard normal draws, `Eigenvalues.from_time_series` (correlations or covariances, with or without the default trimming) almost surely succeeds, and with the removed zeros counted, the expected mean of its eigenvalues equals the first moment of the Marchenko-Pastur density on the stored endpoints, and the expected mean of their squares equals its second moment up to exactly (N - T)/(T(T-1)) for correlations and (N + T)/(T(T-1)) for covariances. The same holds for the eigenvalues of `time_series_eigs(n, t)`, which add up to n.",
  "all N, T >= 2, both matrices, both trimming options, all generators with independent normal draws, all exact eigenvalue routines",
  "an expected value over all random series cannot be computed by a test; a sample mean for one N and T only estimates it and cannot tell N/T from (N-1)/(T-1)",
  [EI + ":Eigenvalues.from_time_series", EI + ":_eigs_via_transpose", CR + ":correlate_fast", CN + ":time_series_eigs"])

p("C147", "Generated GOE and GUE levels follow Wigner's semicircle law",
  "As n grows, for every a, the fraction of the levels returned by generate(n, 'goe') or generate(n, 'gue') which are at most a*sqrt(n) tends in the mean to the probability of (-inf, a] under Wigner's semicircle law on [-2, 2]; with use_tridiagonal=True (n > 500) the same holds with a*sqrt(n/2), the radius sqrt(2n) which unfold_goe and goe_unfolded assume.",
  "All generators whose normal draws are independent standard normal and whose chi-square draws are independent with the degrees of freedom asked for, all a, all sequences of random states, one per size; exact eigenvalue routines; the limit of all sizes.",
  "A law of large numbers about a limit of matrix sizes: any finite sample of random matrices only gives evidence, and a wrong variance of the diagonal does not show in it at all.",
  [EI + ":Eigenvalues.generate", CN + ":_generate_GOE_matrix", CN + ":_generate_GOE_tridiagonal"])
p("C148", "Semicircle unfolding makes GOE levels evenly spread with mean spacing 1",
  "As n grows, the values of goe_unfolded(n), and those unfold_goe() returns for generated GOE levels, fill [0, n] evenly: for each t in [0, 1] the fraction of values at most t*n tends in the mean to t, and the mean spacing tends to 1.",
  "All generators with independent normal and chi-square draws, all t in [0, 1], one random state per size; exact eigenvalue routines and quadrature; the limit of all sizes.",
  "It is a statement about the limit of all sizes and about the distribution of random spectra; the tests only unfold single spectra and check no distribution.",
  [CN + ":goe_unfolded", EI + ":Eigenvalues.unfold_goe", EI + ":Eigenvalues.generate"])

p("C149", "Generated spectra have no repeated level",
  "Almost surely all levels returned by generate(n, kind) are different, for kind 'goe', 'gue' and 'poisson' and every n, so that .steps of the result is exactly 1..n. With use_tridiagonal and n > 500 this holds for every random state whose chi-square draws are positive, whatever the other draws are.",
  "All sizes, all kinds generate can make, all generators with independent standard normal draws (and positive chi-square draws for tridiagonal matrices); exact eigenvalue routines.",
  "A coincidence of levels has probability 0 and never shows in a test; that it has probability 0 for every size, and why, is a statement about all draws.",
  [EI + ":Eigenvalues.generate", CN + ":_generate_GOE_matrix", CN + ":_generate_GOE_tridiagonal", CN + ":_generate_poisson", EV + ":EigVals.steps"])

p("C150", "Spectra of noise follow the Marchenko-Pastur law",
  "For N series of T independent normal values, as N and T grow with N/T tending to q > 0, the number of eigenvalues from_time_series returns above any a >= 0, divided by N, tends in probability to the integral over (a, inf) of the Marchenko-Pastur density for q, for correlations and covariances, with and without trim_zeros; the same holds for time_series_eigs. The density has mass min(1, 1/q), which is the limiting fraction of non-zero eigenvalues.",
  "All q > 0, all sequences of sizes with N/T tending to q, all bounds a >= 0, all independent normal data, both kinds of matrix; exact eigenvalue routines; the limit of all sizes.",
  "It is a limit theorem about random matrices of growing size: a test can only compare a histogram with the density for one size and seed, and cannot tell a correct law from one with slightly wrong edges or normalisation.",
  [EI + ":Eigenvalues.from_time_series", CR + ":correlate_fast", CN + ":time_series_eigs"])
p("C151", "Marchenko-Pastur trimming separates signal from noise: pure noise has no signal",
  "On the eigenvalues of noise (as in C150) trim_marchenko_pastur almost surely succeeds; with largest=True the number of values it keeps, divided by the number of series, tends to 0 in probability; with largest=False it tends to min(1, 1/q), the fraction of non-zero eigenvalues. Both hold with the shifted and with the unshifted cut points.",
  "All q > 0, all sequences of sizes with N/T tending to q, all independent normal data, correlations and covariances, trimmed or untrimmed zeros, both values of largest and use_shifted; the limit of all sizes.",
  "This is the purpose of the function, but it is a property of the distribution of its result for growing random input; the tests only run the function on one input.",
  [EI + ":Eigenvalues.trim_marchenko_pastur", EI + ":Eigenvalues.from_time_series"])

p("C152", "Computed spectra are stable",
  "With an eigenvalue routine that is backward stable (the guarantee of LAPACK: it returns the exact eigenvalues of a matrix within d of the given one), the object made from a real symmetric matrix, and the spectra of generate(n, 'goe') and generate(n, 'gue'), hold one value for each eigenvalue and the k-th value is within d of the k-th eigenvalue in ascending order; the number of values up to x lies between the numbers of eigenvalues up to x - d and up to x + d. Two symmetric matrices that differ by e in operator norm (or Frobenius norm, or entrywise by e/n) give objects whose k-th values differ by at most e plus the two errors of the routine.",
  "All sizes, all real symmetric matrices and pairs of them, all backward stable routines and error bounds, all indices k and bounds x; all generator states for generate.",
  "Tests compare computed eigenvalues with a fixed tolerance on a few matrices; that rounding can neither lose, duplicate nor displace a level by more than the routine's error is a statement about all matrices.",
  [EI + ":Eigenvalues.__init__", EI + ":Eigenvalues.generate", CN + ":_generate_GOE_matrix"])
p("C153", "Zero trimming in from_time_series under rounding errors",
  "With a backward stable eigenvalue routine with error d, from_time_series returns approximations within d of the largest eigenvalues of the covariance or correlation matrix, each one once; every eigenvalue above d (zeros='negative'), above 101 d ('heuristic'), or above max(0, z + d) (a number z) is represented, and without trimming all positive eigenvalues are. It is expected, and false, that trimming removes the values which represent zero eigenvalues.",
  "All series with at least two time points (non-constant for correlations), all backward stable routines, all trimming modes.",
  "The result depends on the rounding errors of a library routine; a test only sees the errors of one LAPACK build on one input.",
  [EI + ":Eigenvalues.from_time_series", EI + ":_eigs_via_transpose"])
p("C154", "The semicircle and Marchenko-Pastur laws hold for computed spectra",
  "C147 and C150 do not need an exact eigenvalue routine: if the routine is backward stable with relative error c(n) on n x n matrices and c(n) sqrt(n) tends to 0, then the fraction of levels of generate(n, 'goe') and generate(n, 'gue') up to a sqrt(n) (up to a sqrt(n/2) with use_tridiagonal) tends in probability to the semicircle law, and the number of eigenvalues above a > 0 from_time_series or time_series_eigs returns for noise, divided by the number of series, to the Marchenko-Pastur law.",
  "All backward stable routines with such error bounds, all a, all sequences of sizes, all normal draws; the limit of all sizes.",
  "It is a limit theorem which must hold whatever the rounding errors are; tests see one size and one set of errors.",
  [EI + ":Eigenvalues.generate", EI + ":Eigenvalues.from_time_series", CN + ":time_series_eigs"])

p("C155", "level_number_variance and spectral_rigidity of one generated Poisson spectrum approach the Poisson curves",
  "For one spectrum of generate(n, 'poisson'), unfolded with the exact staircase n Phi(x): as n grows the number variance over all windows of length L between the least and the greatest level tends in probability to Poisson.level_variance(L), and the average rigidity over all such windows to Poisson.spectral_rigidity(L). Hence for every list of L and every error, with probability tending to 1 the spectrum is such that every result of level_number_variance, or of spectral_rigidity on a sufficiently fine grid, obtained with sufficiently many iterations is within the error of the curve, almost surely over the window centres and for every tolerance, budget and order of execution.",
  "All lists of window lengths L >= 0 (L > 0 for the rigidity), all errors, both integration rules, all orders of the parallel loop, all tolerances and budgets, all generators with independent normal draws; the limit of all sizes and of all iteration numbers.",
  "It is the reason why users compare an observed curve with the theoretical one, but it is a limit in the size of a random spectrum and in the number of random windows; a test draws one spectrum and a few windows and must allow a tolerance larger than many errors.",
  [EI + ":Eigenvalues.generate", LV + ":level_number_variance", RI + ":spectral_rigidity", EN + ":Poisson.level_variance", EN + ":Poisson.spectral_rigidity"])
p("C156", "The spacings of one generated Poisson spectrum follow the Poisson spacing law",
  "For one spectrum of generate(n, 'poisson'), unfolded with the exact staircase: as n grows, the greatest difference between the empirical distribution function of the nearest-neighbour spacings and Poisson.nnsd_cdf tends to 0 in probability; the fraction of spacings in a histogram bin tends to the difference of the curve at its ends, uniformly over all bins, whichever ends belong to the bin; the distribution function of the halved next-nearest spacings tends uniformly to 1 - (1 + 2s) exp(-2s); the mean of every bounded continuous function of the spacings tends in probability to its mean under the density of Poisson.nnsd.",
  "All errors, all spacings and all bins at once, all generators whose normal draws are independent and standard normal; the limit of all sizes.",
  "A uniform law of large numbers for dependent quantities (the spacings of one spectrum): a test compares one histogram with the curve by eye or with a loose tolerance.",
  [EI + ":Eigenvalues.generate", EN + ":Poisson.nnsd_cdf", EN + ":Poisson.nnsd", UN + ":Unfolded.plot_nnsd"])
p("C157", "Calibration: the observables of equally spaced levels have the classical closed forms",
  "On the levels 0, 1, ..., n, the most rigid spectrum of unit spacing: as n grows the number variance over all windows of length L tends to f(1 - f) where f is the fractional part of L (so 0 for integer L), and the average Dyson-Mehta statistic to a value between 1/12 - 1/(4 L^2) and 1/12, which is exactly 1/12 - 1/(60 L^2) for integer L. Hence for every list of L and every error, for all sufficiently large n, almost surely over the window centres, every result of level_number_variance, or of spectral_rigidity on a sufficiently fine grid, obtained with sufficiently many iterations is within the error of those values, for every tolerance, budget and order of execution.",
  "All lists of window lengths L >= 0 (L > 0 for the rigidity), all errors, both integration rules, all orders of the parallel loop, all tolerances and budgets; the limit of all sizes and of all iteration numbers.",
  "The reference values of a calibration run are limits in the number of levels, the number of random windows and the fineness of the grid; a test can only look at one combination with a tolerance.",
  [LV + ":level_number_variance", RI + ":spectral_rigidity"])
p("C158", "The observables depend continuously on the levels",
  "Small errors in the levels have small effects: for every non-constant spectrum, list of window lengths and error e > 0 there is a d > 0 such that for every list of levels whose entries differ from the given ones by at most d, the number variance and the average rigidity (over windows between the least and greatest level of each list) differ by less than e, and every result of level_number_variance, or of spectral_rigidity on a sufficiently fine grid, on the perturbed levels that used sufficiently many iterations is, almost surely, within e of the observable of the unperturbed levels. unfold_goe enlarges errors by at most the factor sqrt(2N)/pi. Together: for every symmetric matrix there is a d such that with every backward stable eigenvalue routine whose error is at most d, the level variance of the computed and unfolded eigenvalues is within e of that of the exact ones.",
  "All lists of levels (sorted or not, repeated levels allowed), all window lengths, all errors, all perturbed lists, all symmetric matrices and backward stable routines; all tolerances, budgets, orders of execution; almost all draws.",
  "Counting levels in a window is discontinuous in the levels, and whether rounding errors can matter is a statement about all perturbations; a test perturbs one spectrum once and sees a random estimate.",
  [LV + ":level_number_variance", RI + ":spectral_rigidity", EI + ":Eigenvalues.unfold_goe"])

p("C159", "The error of the Monte-Carlo observables after a given number of iterations",
  "With a tolerance that is never met (0), so that the whole budget of k iterations is used: level_number_variance reports k iterations, and its value has the expected value (1 - 1/k) times the number variance, a mean absolute error of at most K S / sqrt(k) + S^2 / k where S^2 is the number variance and K bounds the number of levels in a window, and an error of at least t with probability at most 1/t times that. spectral_rigidity reports not-converged and k iterations; for k >= 1001 its value is unbiased, has a mean squared error of at most s^2 / (k - 999), where s^2 is the mean squared deviation of the rigidity of single windows, and an error of at least t with probability at most s^2 / ((k - 999) t^2). For k <= 999 the expected value of spectral_rigidity is k/1000 times the average rigidity: the value is too small by the factor k/1000.",
  "All lists of levels, window lengths, budgets k, tolerances <= 0, grid sizes, integration rules, orders of execution, and all random sources whose draws are uniform and pairwise independent.",
  "How many iterations are needed for a given accuracy is a statement about the distribution of the estimate for every spectrum; a test sees one random value per run.",
  [LV + ":level_number_variance", LV + ":sigma_L", RI + ":spectral_rigidity", RI + ":delta_L"])

p("C160", "The Monte-Carlo observables are accurate under every stopping rule",
  "Whatever the tolerance, the budget (automatic or explicit), the draws of the probe that sets the automatic budget, and the order of execution: with S^2 the number variance for a window length L and K a bound for the number of levels in a window, the probability that there is any run of level_number_variance on the given random draws whose value for L was computed from at least m iterations and is off by t or more is at most (16 K^2/t^2 + 8/t) S^2 / m. With the automatic budget or a budget of at least 500 every value is computed from at least 500 iterations. Likewise for spectral_rigidity: with s^2 the mean squared deviation of the rigidity of single windows, values computed from at least m + 999 iterations are off by t or more with probability at most 4 s^2 / (m t^2), and with the automatic budget or a budget of at least 2000 every value is computed from exactly 1000 or from at least 2000 iterations.",
  "All lists of levels, window lengths, tolerances, budgets, grid sizes, integration rules, orders of execution, probe draws; all random sources whose draws are independent and uniform.",
  "Stopping when the recent values look stable could systematically stop at wrong values; that it does not is a statement about the distribution over all random sequences and all stopping rules at once.",
  [LV + ":level_number_variance", LV + ":sigma_L", RI + ":spectral_rigidity", RI + ":delta_L"])

p("C161", "Marchenko-Pastur trimming keeps exactly the collective modes of the series",
  "With an exact eigenvalue routine, trim_marchenko_pastur(largest=True) on the object of from_time_series keeps exactly as many values as there are independent combinations of the series (standardised for covariance=False) all of whose combinations have a variance above trim_max times the sum of the squared weights; the values kept are the variances of uncorrelated combinations with orthonormal weights. In particular a common signal is kept: if the average correlation r between N series of T points satisfies 1 + (N - 1) r > (1 + sqrt(N/T))^2, then at least one value is kept, shifted or not, and the largest is at least 1 + (N - 1) r.",
  "All data (non-constant series for correlations), all numbers of series and time points (at least 2), covariances and correlations, trimmed and untrimmed zeros, shifted and unshifted cut points with trim_max >= 0.",
  "That the values above the cut point are the genuine collective modes, none missing and none invented, is a statement about all subspaces of weights for all data.",
  [EI + ":Eigenvalues.trim_marchenko_pastur", EI + ":Eigenvalues.from_time_series"])

p("C162", "Polynomial unfolding is as good as the best polynomial description of the level density",
  "With a least-squares polyfit and degree d, Eigenvalues.unfold returns values at least as close to 1, ..., n (sum of squares) as p(levels) for every polynomial p of degree at most d, hence exactly 1, ..., n if the counting function is such a polynomial; if p is nondecreasing along the levels the values differ from the true unfolding p(levels) by at most its own fluctuation around 1, ..., n; the distance from first to last value differs from n - 1 by at most the square root of twice that fluctuation, so the mean spacing is one up to it; and unfolding the unfolded values again never moves them away from 1, ..., n.",
  "All spectra, all degrees at least 3, all polynomials up to that degree, all least-squares fitting routines; also the second unfolding with another degree.",
  "The claim compares the result with every polynomial of the degree, for every spectrum, and the values are sorted after the fit, which could spoil it.",
  [EI + ":Eigenvalues.unfold", SM + ":Smoother.fit"])

p("C163", "Every random number is used once: calls continue the generators where the previous call stopped",
  "Each observable takes its random numbers consecutively from the states of the threads: the run for one length starts right after the numbers taken by the earlier runs on the same thread, takes one more number than the iterations it reports (level_variance) or exactly as many (spectral_rigidity), and its result depends on no other number; afterwards each thread has advanced by exactly the numbers taken, NumPy's state is as before, and with automatic max_iters the pilot run comes first on the calling thread. Likewise code that draws from NumPy after generate continues right after the draws of the matrix, and a failed generate changes nothing.",
  "All states of the generators, all schedules and assignments of the parallel runs to threads, all spectra, lengths, tolerances and budgets, all kinds and sizes of matrices.",
  "Whether two calls share random numbers (and so give correlated errors) depends on the history and on the schedule; it does not show in any single result.",
  [LV + ":sigma_parallel", RI + ":delta_parallel", UN + ":Unfolded.level_variance", UN + ":Unfolded.spectral_rigidity", EI + ":Eigenvalues.generate"])

p("C164", "How many eigenvalues from_time_series returns",
  "The number of positive values from_time_series returns (all values, with zeros trimmed) is the number of linearly independent series once each has its average over time subtracted, for covariances and for correlations; it is never more than min(N, T - 1), so with at least as many series as time points an untrimmed spectrum always contains a zero; and for series of independent normal draws it is almost surely exactly min(N, T - 1), with no value repeated.",
  "All data of all sizes with at least two time points (no series constant for correlations); almost every outcome of independent normal draws; all exact eigenvalue routines; trimmed or not.",
  "Tests use a few data sets, where rank deficiency and ties do not occur or are hidden by rounding; the count for all data is a statement about ranks and the exact one about a set of data of measure one.",
  [EI + ":Eigenvalues.from_time_series", EI + ":_eigs_via_transpose", CR + ":correlate_fast"])


p("C165", "Accuracy of a rigidity sample for a given grid",
  "For every window the rigidity sample spectral_rigidity computes on a grid of g points differs from the Dyson-Mehta statistic of the window (the least mean square deviation of the counting function from a line) by at most 57 K^2 / (g - 1), K the number of levels in the window, and by at most 12 D (4 K + 11 D) / (g - 1) if the counting function stays within D of some line there; so for a run of k >= 1001 iterations the expected value is within that of the average of the statistic over all window centres, and larger errors have a probability that falls like 1/k.",
  "All non-empty ascending spectra, all window lengths and centres, both integration rules, all grids of at least three points; all pairwise independent uniform draws, budgets of at least 1001 iterations, execution orders.",
  "Tests compare results for one grid with loose tolerances or with other code; how the error depends on the grid, for every spectrum and window, needs a proof.",
  [RI + ":_slope", RI + ":spectral_rigidity", RI + ":_integrate_fast", RI + ":_int_simps_nonunif", RI + ":delta_L"])


p("C166", "Errors of the Monte-Carlo observables have exponentially small probability",
  "With independent uniform draws, the probability that any run of level_number_variance on these draws (any tolerance, budget or automatic budget, order of execution) returns for any of n window lengths a value computed from m iterations that is off the number variance by t or more is at most 4 n exp(-m t^2 / (2 K^4)), K the greatest number of levels in a window, and at most 1 + 2 K^4 / t^2 times that for values computed from m or more iterations. For spectral_rigidity the probability of an error of t + e or more in a value computed from m + 999 iterations, e the error of the grid (C165), is at most 2 n exp(-2 m t^2 / (D^2 + e)^2), D the greatest deviation of the counting function from a line on a window, with the corresponding bound for m + 999 or more iterations.",
  "All non-empty spectra (ascending for the rigidity), lists of window lengths, error thresholds, numbers of iterations, tolerances, budgets, execution orders, grids of at least three points, integration rules, and all sequences of independent uniform draws.",
  "A test sees single runs; the probability of a large error over all draws, all window lengths and all stopping rules at once can only be bounded by a proof.",
  [LV + ":level_number_variance", LV + ":sigma_L", RI + ":spectral_rigidity", RI + ":delta_L"])


p("C167", "The Brody fit is consistent",
  "For spacings drawn independently from any distribution on the positive numbers (without atoms, with a mean logarithm and a third moment) exactly one parameter in [1e-5, 1 - 1e-5] has the largest mean log-likelihood, and the estimates of fit_brody with the default method 'spacing' (and every near-minimiser of its criterion) converge to it almost surely as the number of spacings grows; for spacings from the Brody distribution with parameter beta in [0, 1] it is beta, moved into the bounds. For a spectrum with such spacings, its levels given in any order, the beta, mad and msqd reported by Unfolded.fit_brody converge almost surely to this parameter and to the mean absolute and mean squared difference of the two distribution functions: to beta, 0 and 0 for a Brody distribution inside the bounds.",
  "All distributions of spacings without atoms, with a mean logarithm and a third moment; all sequences of pairwise independent draws from them, almost surely; all optimisers that return a minimiser when they report success; all starting points and orders of the levels.",
  "A test fits a few samples of a few sizes; convergence is a statement about the limit of all sizes, for almost every sample and every distribution of spacings.",
  [BR + ":fit_brody", BR + ":fit_brody_max_spacing", BR + ":brody_fit_evaluate", UN + ":Unfolded.fit_brody"])

p("C168", "The Brody fit recognises a generated Poisson spectrum",
  "For one spectrum of Eigenvalues.generate(n, 'poisson'), unfolded exactly, the parameter reported by Unfolded.fit_brody with the default method 'spacing' and an exact optimiser tends in probability to 1e-5, the lower bound of the fit (0 would be exact Poisson statistics), as n grows; with probability tending to 1 all spacings are positive, a minimiser exists, and every parameter at which the criterion is nearly minimal is near the lower bound. The mean absolute and mean squared deviations it reports tend in probability to the mean absolute and mean squared difference, under the Poisson spacing law, of Poisson.nnsd_cdf and the fitted distribution function at 1e-5.",
  "All sizes n in the limit; all generators whose draws are independent standard normal variables; all optimisers that return a minimiser when they report success; every tolerance.",
  "The spacings of a spectrum are neither independent nor exactly exponential, and the claim is about the probability over all draws in the limit of large sizes; a test fits a few generated spectra.",
  [EI + ":Eigenvalues.generate", UN + ":Unfolded.fit_brody", BR + ":fit_brody", BR + ":fit_brody_max_spacing"])
p("C169", "The Brody 'mle' fit is consistent",
  "For spacings drawn independently from the Brody distribution with a parameter beta inside the bounds of the fit, the estimates of fit_brody with method 'mle' converge almost surely to beta. (False: what is maximised is the sum of the densities, not of their logarithms. For spacings from any distribution it tends, per spacing and uniformly, to the mean density, and the estimates tend to its largest value; for some beta in [1/3, 1/2] they stay away from beta by a fixed distance, almost surely.)",
  "All distributions of spacings without atoms, with a mean logarithm and a third moment; all sequences of pairwise independent draws from them, almost surely; all optimisers that return a minimiser when they report success.",
  "A test fits samples of a few sizes from a few parameters, where the bias is hidden by the scatter; convergence and its failure are statements about the limit for almost every sample.",
  [BR + ":fit_brody", BR + ":fit_brody_mle"])


p("C170", "Automatic unfolding is right up to single precision",
  "The scores from which trim_unfold_auto chooses are rounded to single precision when the report stores them. It returns an unfolding with the smallest stored absolute score of its smoother, the least trimmed one in case of a tie, and no smoother has a better criterion in stored scores; so the absolute score returned exceeds the best of that smoother by at most a factor (1 + 2^-24) / (1 - 2^-24), and is exactly the best if rounding keeps different scores of the table different. (Scores that agree to single precision are taken as equal: then the exactly best trim may be passed over.)",
  "All spectra, outlier detectors, fitting routines and sets of smoothers; every rounding of the stored values (order-preserving or not), and rounding to 24 binary digits in particular.",
  "The cases that matter are near-ties between scores, which no test suite enumerates; the bound must hold for every table of scores and every rounding.",
  [EI + ":Eigenvalues.trim_unfold_auto", TR + ":TrimReport._get_autounfold_vals", TR + ":TrimReport"])


p("C171", "The spacing statistics and the GOE score of a generated Poisson spectrum",
  "For one spectrum of generate(n, 'poisson'), unfolded with the exact staircase, as n grows the mean of the k-th powers of the nearest-neighbour spacings tends in probability to k!, for every k; the mean spacing and the sample variance of the spacings of the trim summary tend to 1, and the GOE score to 357/143, about 2.5; with probability tending to 1 the score is positive, as documented for spectra with too much variability, and tells the spectrum from one with GOE spacings.",
  "All generators whose normal draws are independent and standard normal, all powers, all error thresholds; the limit of all sizes.",
  "A test sees one sample of one size; convergence in probability is a statement about all draws in the limit of large sizes, and the powers of the spacings are unbounded.",
  [EI + ":Eigenvalues.generate", TR + ":TrimReport"])


p("C172", "Rigidity samples and delta_L are numerically consistent in floating point",
  "For every window whose grid points avoid the levels (all but finitely many centres), every grid size and both integration rules, the rigidity sample computed with every operation rounded tends to the sample in exact arithmetic as the relative error of the rounding tends to 0, uniformly over all rounding functions and all associations of the sums; and the value of a whole run of delta_L with every operation rounded, samples included, tends to what exact arithmetic gives for the same number of samples. Without rounding the two computations agree exactly.",
  "All non-empty ascending spectra, window lengths, centres off the finite exceptional set, grids of at least three points, both rules, all rounding functions of a given relative error, all associations of the sums, all budgets and tolerances.",
  "A test runs one floating-point format on a few inputs; the claim is a limit over all formats, inputs and compiler choices.",
  [RI + ":delta_L", RI + ":_slope", RI + ":_intercept", RI + ":_sq_lin_deviation", RI + ":_int_simps_nonunif", RI + ":_integrate_fast"])

p("C173", "The step function takes linear time",
  "Evaluating the array step function for n eigenvalues and m query points, without NaN and in any order, makes at most n + 3m + 3 loop tests, so reading `steps` of an object with n values makes at most 4n + 3; m tests are necessary in general. The result is the one described by C01-C04.",
  "All non-empty arrays without NaN, ascending or not, all sizes.",
  "A timing test measures a few sizes on one machine; a bound for every size and every arrangement of the entries needs a potential argument over all executions of the loops.",
  [ST + ":_step_function_fast", EV + ":EigVals.steps"])

p("C174", "ensemble_compare recognises Poisson spectra",
  "For one spectrum of generate(n, 'poisson'), unfolded with the exact staircase, as n grows: with probability tending to 1 the spectrum is such that, almost surely over the window centres, every cell of the columns 'levelvar' and 'rigidity' of ensemble_compare computed with sufficiently many iterations (and, for the rigidity, on a sufficiently fine grid) is within any given error of the metric between the ensemble's curve and the Poisson curve at the same L. For Poisson itself these limits are 0 (mad, msqd) and 1 (corr); with three different L the values of mad and msqd are smaller for Poisson than for GOE, GUE and GSE.",
  "All generators with independent normal draws, all ensembles, lists of metrics and of window lengths, all errors, all orders of the parallel loop, tolerances and budgets, both integration rules; the limit of all sizes and of all iteration numbers.",
  "A test compares a few random spectra; the claim is a limit over all sizes and all draws, for every list of window lengths.",
  [UN + ":Unfolded.ensemble_compare", EI + ":Eigenvalues.generate", LV + ":level_number_variance", RI + ":spectral_rigidity"])

p("C175", "Rigidities are non-negative in floating point",
  "In floating-point arithmetic every sample of the spectral rigidity is non-negative, with the trapezoidal rule and with Simpson's rule (whose weights are negative for strongly uneven grids), whatever the order in which the sums of the line fit are evaluated, as long as the arithmetic resolves the grid: the grid spacing is at least 640 times the rounding error of a number of the size of the window's far end. So is the rigidity reported after any number of iterations. In double precision the condition holds for the default grid, windows of length at least 1 and levels up to ten million.",
  "All rounding functions of a given relative error, all associations of the sums, non-empty level lists, window lengths, centres, grids of at least three points, both rules, all budgets and tolerances.",
  "A test sees a few windows in one format; a rounded grid is never exactly uniform, and the sign of Simpson's weights for every rounding of every grid needs an argument.",
  [RI + ":delta_L", RI + ":_int_simps_nonunif", RI + ":_integrate_fast", RI + ":_sq_lin_deviation"])

p("C176", "The semicircle density in floating point",
  "The level density used for unfolding GOE spectra never evaluates the square root of a negative number, even at the rounded edge of its support, in any arithmetic with monotone rounding; its value is non-negative, even in x, non-increasing in |x|, and within 2*sqrt(eps*N) of the exact semicircle density.",
  "All sizes N, all numbers of the arithmetic, all monotone, idempotent, odd rounding functions.",
  "A test tries some points near the edge in double precision; whether the guard protects the square root depends on how three roundings interact at every point.",
  [EI + ":Eigenvalues.unfold_goe", CN + ":goe_unfolded"])

p("C177", "Covariances, correlations and their eigenvalues are numerically consistent in floating point",
  "For every data set and every error there is a precision such that in every arithmetic of that precision, whatever the association of the sums and with or without fused multiply-adds, the computed covariance matrix, and for series without constants the computed correlation matrix, are within the error of the exact ones, no standard deviation is 0 or NaN and no correlation leaves [-1, 1]; and from_time_series with any backward stable eigenvalue routine, reading the lower triangle, returns approximations, within that error plus the routine's, of the largest eigenvalues of the exact matrix, losing only those documented for the trimming mode; without trimming it returns min(N, T) values. This holds for the direct and the transposed computation.",
  "All data matrices with at least two time points, all rounding functions of a given relative error, all associations of all sums, all fused products, all backward stable routines, all trimming modes.",
  "A test compares one BLAS and one format on some matrices; the claim is a limit over all formats, evaluation orders and routines.",
  [EI + ":Eigenvalues.from_time_series", EI + ":_eigs_via_transpose", CR + ":correlate_fast"])

p("C178", "Constant series have no correlations",
  "A constant series has undefined correlations: from_time_series with covariance=False does not present eigenvalues for it as if it were correlated with other series.",
  "All constant series, sizes and floating-point formats.",
  "A test tries a few constants, for which the mean is usually exact; the claim is about every constant in every format.",
  [EI + ":Eigenvalues.from_time_series", CR + ":correlate_fast"])

p("C179", "The 'mle' Brody fit also recognises a Poisson spectrum",
  "Over the Poisson spacing law the mean Brody density strictly decreases in the parameter, so although the 'mle' method does not maximise the likelihood, on one spectrum of generate(n, \"poisson\") unfolded exactly the parameter it reports tends in probability to the lower bound 1e-5 of the fit, as with the 'spacing' method; so do, almost surely, its estimates from independent draws of the Poisson law.",
  "All seeds and random streams giving independent normal draws, all sizes in the limit, all exact optimisers, all tolerances.",
  "A test fits some generated spectra; the claim is a limit in probability over the generator.",
  [BR + ":fit_brody_mle", BR + ":fit_brody", EI + ":Eigenvalues.generate"])

p("C180", "What polynomial unfolding of a generated spectrum converges to",
  "If polyfit is least squares, polynomial unfolding with a fixed degree of one spectrum of generate(n, kind) converges: the stored smoother, at the energy x times the scale of the spectrum and divided by n, tends in probability, uniformly for x in bounded sets, to the polynomial of that degree closest in the mean square to the distribution function of the limiting law (the semicircle law for GOE, tridiagonal GOE and GUE, the standard normal law for Poisson), and the reported mean squared error divided by n^2 tends to the error of that polynomial, which is positive for every degree and, for the semicircle, as small as wanted for large degrees.",
  "All degrees from 3 on, all seeds and random streams giving independent draws, all sizes in the limit, all exact eigenvalue routines, all least-squares routines.",
  "A test looks at a few sizes, degrees and seeds; the claim is a limit in probability over the generator, and says that no fixed degree is right for large spectra.",
  [EI + ":Eigenvalues.unfold", EI + ":Eigenvalues.generate", SM + ":Smoother.fit"])

p("C181", "What polynomial unfolding of a noise spectrum converges to",
  "If polyfit is least squares, polynomial unfolding with a fixed degree of the eigenvalues from_time_series returns for n series of T > n independent normal values converges as n grows with n/T tending to q in (0, 1]: the stored smoother divided by n tends in probability, uniformly on bounded sets of energies, to the polynomial of that degree closest in the mean square to the distribution function of the Marchenko-Pastur law for q, and the reported mean squared error divided by n^2 to its error, for correlations and covariances, with and without trimming of zeros. The limit polynomial is unique; its error is positive for every degree and tends to 0 as the degree grows.",
  "All degrees from 3 on, all ratios q in (0, 1] and sequences of sizes, all independent normal data, both kinds of matrix, trimmed or not, all exact eigenvalue routines, all least-squares routines.",
  "A test looks at a few sizes, degrees and data sets; the claim is a limit in probability over all noise, and compares the fit with the best one among all polynomials.",
  [EI + ":Eigenvalues.from_time_series", EI + ":Eigenvalues.unfold", SM + ":Smoother.fit"])

p("C182", "Inputs are converted without loss or rejected",
  "Whatever nested list or tuple is passed as a curve of a comparison, as input of a Smoother or as eigenvalues: it is accepted as a one-dimensional array exactly if it is rectangular, contains only numbers, is at most 32 levels deep and has as many leaves as elements (a flat list, or a column of one-element lists), and then the array consists of exactly its numbers in their order (sorted by Smoother and by the eigenvalue classes). Everything else raises: ValueError for curves and smoothers (TypeError for a bare number); the eigenvalue classes raise ValueError for ragged input and for three or more levels, and the element's own exception for an element that is not a number. Sequences of the same shape with the same numbers are treated alike.",
  "All nested sequences of numbers and other values, of any depth, length and raggedness.",
  "The claim ranges over all finite nestings; a test tries a handful of lists.",
  [VA + ":make_1d_array", EV + ":EigVals.__init__", SM + ":Smoother.__init__", CO + ":Compare.__init__"])

p("C183", "The mean spacing after polynomial unfolding",
  "As a spectrum from generate grows, its mean spacing after unfolding with a polynomial does not tend to 1, as unfolding promises, but, in probability, to the largest rise on [-2, 2] of the polynomial of that degree which is best for the semicircle law (GOE, full or tridiagonal, and GUE); for degree 3 this is 15872/(1575 pi^2), more than 1.02. For Poisson spectra and every degree it grows beyond every bound.",
  "All degrees from 3 on, all least-squares routines, all generators that draw independent normal (and chi-square) numbers, exact eigenvalue routines; limits as n grows.",
  "The claim is about limits in probability over random spectra of growing size; a test sees a few sizes and a few samples.",
  [EI + ":Eigenvalues.generate", EI + ":Eigenvalues.unfold", SM + ":Smoother.fit", UN + ":Unfolded.spacings"])

p("C184", "Generated GOE and GUE spectra end at twice the square root of the size",
  "The spectrum of generate(n, 'goe') or generate(n, 'gue') lies in [-b sqrt(n), b sqrt(n)], for every b > 2, except with a probability that is exponentially small in n; its largest level divided by sqrt(n) tends in probability to 2, its smallest to -2, and its mean spacing times sqrt(n) to 4. With use_tridiagonal=True the GOE levels are smaller by the factor sqrt(2).",
  "All generators that draw independent normal (and chi-square) numbers, all b > 2, exact eigenvalue routines; limits as n grows.",
  "The claim is about the extreme values of random spectra of every large size and about exponentially rare events, which samples never show.",
  [EI + ":Eigenvalues.generate", CN + ":_generate_GOE_matrix", CN + ":_generate_GOE_tridiagonal", EV + ":EigVals.spacings"])

p("C185", "Spectra of noise end at the upper Marchenko-Pastur edge",
  "Let from_time_series be called on N series of T independent standard normal samples (correlations or covariances, zeros trimmed or not), N and T growing so that N/T tends to q > 0. With a probability tending to 1 no value is larger than b, for every b > (1 + sqrt(q))^2, and the largest value is within any epsilon of (1 + sqrt(q))^2; for covariances the probability of a larger value is exponentially small in N. The cut points trim_marchenko_pastur reports on these values tend in probability to (1 - sqrt(q))^2 and (1 + sqrt(q))^2, and with a probability tending to 1 no value kept with largest=True is further than epsilon above the reported upper cut point. The same edge holds for time_series_eigs.",
  "All q > 0, all sequences of sizes with N/T tending to q, all independent normal data, correlations and covariances, trimmed or untrimmed zeros, shifted and unshifted cut points, all b and epsilon; the limit of all sizes.",
  "The claim is about the extreme value of random spectra of every large size, that is about the events the user calls signal; samples of a few sizes cannot bound the probability of a false signal.",
  [EI + ":Eigenvalues.from_time_series", EI + ":Eigenvalues.trim_marchenko_pastur", CN + ":time_series_eigs"])

p("C186", "Computed spectra end at the same edges",
  "C184, C185 and the count of C151 do not need an exact eigenvalue routine. If the routine is backward stable with relative error c(n) on n x n matrices and c(n) sqrt(n) tends to 0, the computed spectra of generate(n, 'goe') and generate(n, 'gue') end at -2 sqrt(n) and 2 sqrt(n) in the sense of C184, including the exponentially small probability of a level further out and the mean spacing; the values from_time_series and time_series_eigs return for noise end at (1 + sqrt(q))^2; and trim_marchenko_pastur on them succeeds almost surely, with cut points tending to (1 - sqrt(q))^2 and (1 + sqrt(q))^2, no value kept with largest=True further than epsilon above the upper one, and the fraction of values kept tending to 0 (largest=True) or min(1, 1/q).",
  "All backward stable routines with such error bounds, all independent normal draws, all q > 0 and sequences of sizes with N/T tending to q, correlations and covariances, all options of the trimming, all b and epsilon; the limit of all sizes.",
  "The claim is about the extreme value of random spectra of every large size and every stable eigenvalue routine.",
  [EI + ":Eigenvalues.generate", EI + ":Eigenvalues.from_time_series", EI + ":Eigenvalues.trim_marchenko_pastur", CN + ":time_series_eigs"])

p("C187", "Poisson spectra end at the square root of 2 log n",
  "The spectrum of generate(n, 'poisson') lies in [-b sqrt(2 log n), b sqrt(2 log n)] except with a probability of at most 2 n^(1 - b^2), for every n >= 1 and b >= 0; its largest level divided by sqrt(2 log n) tends in probability to 1, its smallest to -1, and its mean spacing times n / sqrt(2 log n) to 2. So the mean spacing of the generated levels is not 1: it tends to 0, and the levels must be unfolded before they are compared with the Poisson curves.",
  "All generators that draw independent normal numbers, all n and b; limits as n grows.",
  "The claim bounds the probability of rare levels for every size and states limits of random quantities; a sample cannot show either.",
  [EI + ":Eigenvalues.generate", CN + ":_generate_poisson"])

p("C188", "Spectra of noise end at the lower Marchenko-Pastur edge",
  "Let from_time_series be called on N series of T independent standard normal samples (correlations or covariances, zeros trimmed or not), N and T growing so that N/T tends to q > 0. With a probability tending to 1 no nonzero value is at or below b, for every b < (1 - sqrt(q))^2, and the smallest nonzero value is within any epsilon of (1 - sqrt(q))^2; if q < 1 no value at all is at or below b; for covariances the probability of a nonzero value at or below b is exponentially small in N. With a probability tending to 1 every nonzero value trim_marchenko_pastur removes with largest=False is within epsilon of one of the reported cut points: the trimming of pure noise loses values next to the edges only. The same edge holds for time_series_eigs, and for q < 1 with backward stable eigenvalue routines.",
  "All q > 0, all sequences of sizes with N/T tending to q, all independent normal data, correlations and covariances, trimmed or untrimmed zeros, shifted and unshifted cut points, all b and epsilon; the limit of all sizes.",
  "The claim is about the smallest nonzero value of random spectra of every large size; samples of a few sizes cannot bound the probability that noise has values below the cut point.",
  [EI + ":Eigenvalues.from_time_series", EI + ":Eigenvalues.trim_marchenko_pastur", CN + ":time_series_eigs"])

p("C189", "Missing and infinite values",
  "Eigenvalues(values) accepts NaN and infinities in a one-dimensional array: the stored values are the others in ascending order followed by the NaNs; spacings are those of the values that are not NaN followed by NaNs, and none is negative. step_values(eigs, x) for a number x ignores missing values. trim_marchenko_pastur never keeps a NaN, and a missing value does not change what is kept of the others. from_correlations returns finite values only. from_time_series with trim_zeros=True never returns a NaN and raises ValueError if all computed eigenvalues are NaN. Eigenvalues(matrix) raises LinAlgError for every matrix with a NaN entry, symmetric or not, and for every unsymmetric one with an infinite entry. On finite input all this is the behaviour of C34, C36, C41, C43 and C136.",
  "All arrays of finite, infinite and NaN values of every length, all options, all results of the eigenvalue routines.",
  "The claim ranges over all positions and numbers of missing values; no test passes one.",
  [EV + ":EigVals.__init__", EV + ":EigVals.spacings", ST + ":step_values", EI + ":Eigenvalues.trim_marchenko_pastur", EI + ":Eigenvalues.from_correlations", EI + ":Eigenvalues.from_time_series"])

p("C190", "Which calls of generate fail, and what a failing call leaves behind",
  "Eigenvalues.generate(matsize, kind, seed) with integer arguments raises ValueError for an unknown kind, then NotImplementedError for 'uniform', then ValueError for a seed outside 0 .. 2^32 - 1, then ValueError for a negative size, and in no other case: otherwise it returns an object of the requested kind. A failing call draws no random number and leaves NumPy's global random state unchanged, except that with a negative size as the only fault the seeding has already happened. So a failing unseeded call of 'goe' or 'gue' can be caught without any effect on the following calls.",
  "All integer sizes and seeds, all kinds, all generators and random states.",
  "The claim is about every combination of faulty arguments and every random state before the call.",
  [EI + ":Eigenvalues.generate", CN + ":_generate_GOE_matrix", CN + ":_generate_GOE_tridiagonal"])

p("C191", "Polynomial unfolding of large GOE and GUE spectra is nearly right, the more so the higher the degree",
  "Unfolding a spectrum from generate(n, 'goe') or generate(n, 'gue') with a polynomial of degree d is, with a probability that tends to 1 as n grows, right up to an error of order d^-3: at every energy of the bulk the stored smoother, divided by n, is within 8/(3d(d+1)(d+2)) of the fraction of levels that the semicircle law puts below that energy, and the mean spacing of the unfolded values is within 16/(3d(d+1)(d+2)) of 1 (1.1 % for the default degree 7). For GOE spectra made with use_tridiagonal=True the polynomial and the level count used by unfold_goe() agree up to that error.",
  "All degrees from 3 on, all least-squares routines, all generators that draw independent normal (and chi-square) numbers, exact eigenvalue routines, all energies of the bulk at once; limits as n grows.",
  "The claim bounds, for every degree, a limit in probability over random spectra of growing size; a test sees a few degrees, sizes and samples.",
  [EI + ":Eigenvalues.generate", EI + ":Eigenvalues.unfold", SM + ":Smoother.fit", UN + ":Unfolded.spacings", UN + ":Unfolded.evaluate_smoother", EI + ":Eigenvalues.unfold_goe"])

p("C192", "Unfolding of computed spectra",
  "C148, C180, C183 and C191 do not need an exact eigenvalue routine. If the routine is backward stable with relative error c(n) on n x n matrices and c(n) sqrt(n) tends to 0, then polynomial unfolding of the computed spectra of generate(n, 'goe') and generate(n, 'gue') has the same limits: the stored smoother, the reported mean squared error and the mean spacing tend in probability to the values for the best polynomial of the semicircle law, and are within O(d^-3) of perfect unfolding; and goe_unfolded(n) and unfold_goe() on tridiagonal GOE spectra give values that fill [0, n] evenly, with a mean spacing tending to 1.",
  "All backward stable routines with such error bounds, all degrees from 3 on, all least-squares routines, all independent normal (and chi-square) draws; limits as n grows.",
  "The claim is about limits in probability for every routine with small errors; a test runs one routine on a few matrices.",
  [EI + ":Eigenvalues.generate", EI + ":Eigenvalues.unfold", SM + ":Smoother.fit", UN + ":Unfolded.spacings", EI + ":Eigenvalues.unfold_goe", CN + ":goe_unfolded", CN + ":_generate_GOE_matrix"])

p("C193", "Collective modes found with an inexact eigenvalue routine",
  "C161 needs no exact eigenvalue routine. If the routine returns the exact eigenvalues of a matrix within d of the one it is given, then trim_marchenko_pastur(largest=True) on from_time_series keeps at least as many values as there are independent combinations of the (standardised) series with variance above trim_max + d, and no more than there are with variance above trim_max - d; if no exact eigenvalue is within d of trim_max, it keeps exactly the right number. A common signal with 1 + (N - 1) r > (1 + sqrt(N/T))^2 + d is always kept, as a value of at least 1 + (N - 1) r - d.",
  "All data of two or more points without constant series, covariances and correlations, shifted or not, all backward stable routines, d up to the cut point (up to 1 for the common signal).",
  "The claim is about every data matrix and every routine with small errors; a test runs one routine on a few data sets.",
  [EI + ":Eigenvalues.trim_marchenko_pastur", EI + ":Eigenvalues.from_time_series", CR + ":correlate_fast"])

p("C194", "Polynomial unfolding of trimmed spectra",
  "Let trim_manually(K, K + m) keep m of the N levels of one spectrum from generate(N, 'goe'), 'gue' or 'poisson', N and m growing, with the fraction cut off below tending to the weight of the limiting law (semicircle or normal) below u, and the fraction kept tending to its weight on [u, v]. Then Trimmed.unfold with a polynomial of fixed degree converges in probability: each unfolded value divided by m is, uniformly, near the polynomial of that degree closest in the mean square to the distribution function of the law conditioned on [u, v], at the rescaled level, and the mean spacing tends to the rise of that polynomial from u to v. So for Poisson spectra trimming gives the mean spacing a finite limit, which it does not have untrimmed (C183), and the mean square error of the best polynomial tends to 0 as the degree grows.",
  "All u < v (inside (-2, 2) for GOE and GUE), all sequences of sizes and cuts with these fractions, all degrees from 3 on, all least-squares routines, all independent normal (and chi-square) draws, eigenvalue routines that are exact or backward stable with a relative error c n such that c n sqrt(n) tends to 0; limits as m grows.",
  "The claim is about limits in probability for every pair of trim fractions; a test sees a few sizes and samples.",
  [EI + ":Eigenvalues.generate", EI + ":Eigenvalues.trim_manually", TR + ":Trimmed.unfold", SM + ":Smoother.fit", UN + ":Unfolded.spacings"])

p("C195", "Polynomial unfolding of trimmed spectra is right up to an error that falls geometrically with the degree",
  "For all u < v (inside (-2, 2) for GOE and GUE, anywhere for Poisson) there are b < 1 and k such that, for spectra from generate() trimmed with trim_manually() as in C194 and every degree d from 3 on, Trimmed.unfold with a polynomial of degree d is right up to k b^d, with a probability that tends to 1 as the number m of kept levels grows: every unfolded value, divided by m, is within k b^d + eps of the weight that the law of the kept levels puts below that level, and the mean spacing is within 2 k b^d + eps of 1. So trimming makes polynomial unfolding right for Poisson spectra as well, and raising the degree helps much faster than for whole GOE spectra (C191: d^-3).",
  "All u < v, all sequences of sizes and cuts with the fractions of C194, all degrees from 3 on, all eps > 0, all least-squares routines, all independent normal (and chi-square) draws, eigenvalue routines that are exact or backward stable with a relative error c n such that c n sqrt(n) tends to 0; limits as m grows.",
  "The claim is about limits in probability and all degrees; a test sees a few sizes, degrees and samples.",
  [EI + ":Eigenvalues.generate", EI + ":Eigenvalues.trim_manually", TR + ":Trimmed.unfold", SM + ":Smoother.fit", UN + ":Unfolded.spacings"])

p("C196", "Polynomial unfolding of trimmed noise spectra",
  "Let Eigenvalues.from_time_series be given n series of T > n independent standard normal values, n growing with n/T tending to q in (0, 1], and let trim_manually(K, K + m) keep m of the eigenvalues, with the fraction cut off below tending to the weight of the Marchenko-Pastur law for q below u, and the fraction kept to its weight on [u, v], u < v inside the support. Then Trimmed.unfold with a polynomial of degree d from 3 on converges in probability to the polynomial of that degree closest in the mean square to the distribution function of the law of the kept eigenvalues, and is right up to k b^d for some b < 1 and k that depend on q, u and v only: every unfolded value, divided by m, is within k b^d + eps of the weight below that eigenvalue, and the mean spacing is within 2 k b^d + eps of 1.",
  "All ratios q in (0, 1], all u < v inside the support, all sequences of sizes and cuts with these fractions, all degrees from 3 on, all eps > 0, both kinds of matrix, with and without trimming of zeros, all independent normal data, all exact eigenvalue routines, all least-squares routines; limits as m grows.",
  "The claim is about limits in probability and all degrees; a test sees a few sizes, degrees and samples.",
  [EI + ":Eigenvalues.from_time_series", EI + ":Eigenvalues.trim_manually", TR + ":Trimmed.unfold", SM + ":Smoother.fit", UN + ":Unfolded.spacings"])

if __name__ == "__main__":
    from why import WHY
    for r in P:
        r["why_tests_cant"] = WHY.get(r["id"], r["why_tests_cant"])
        print(json.dumps(r, ensure_ascii=False))
