# Formal model of empyricalRMT in Lean 4 — design

`/repo` is stfxecutables/empyricalRMT at the pinned commit; it was read as text, never run.
`properties.jsonl` lists the properties (C01…), `MANIFEST.json` maps them to theorem names,
`seeded/LOG.jsonl` records mutation experiments on the model.

## Layout (`lean/Verif/`)

| directory | contents |
|---|---|
| `Py.lean` | the Python layer: exceptions as values (`Except PyErr`), Python indexing/slicing |
| `Model/*.lean` | the model, function by function; each definition cites file and lines in `/repo` |
| `Spec/*.lean` | small independent specifications (counting, variance, least squares, …) |
| `Lemmas/*.lean` | helper lemmas |
| `Props/*.lean` | property theorems only, each beside a non-vacuity `example` |

Conventions.
* Code that only compares values (step function, searching, labels, trimming) is modelled over an
  arbitrary linear order: that is exact for NaN-free floats.
* Arithmetic code is modelled over an arbitrary linearly ordered field (executable at ℚ): exact
  arithmetic instead of IEEE rounding. Code using exp/log/sqrt/integrals is modelled over ℝ.
* External calls are parameters: random draws are streams or draw functions of an abstract RNG
  state, the HBOS outlier detector is an arbitrary function `List K → List Bool`, scipy/numpy
  eigen-solvers, spline/curve fits and EMD are function parameters, `np.empty` memory is a `junk`
  parameter, and `prange` loops are arbitrary permutations of the index writes.
* Every Python `raise` reachable from the modelled code is an `Except.error` value; the theorems
  say exactly when it happens.
* A property which the code violates gets (a) a theorem characterising what the code does,
  (b) a refutation with a concrete witness, (c) a `_partial` theorem with the part that holds.
  In the manifest it is `partial`, never `proved`.

## Trusted base

* Lean 4.33.0's kernel and, through Mathlib, the axioms `propext`, `Quot.sound`,
  `Classical.choice` (checked with `#print axioms`; no axiom is added).
* The reading of the Python source into `Model/*.lean`.
* Rounding is modelled for `kahan_add` and the averaging loops of `sigma_L` and `delta_L` (C72, C131–C133:
  `Model/Rounded.lean`, every operation followed by an arbitrary rounding of bounded relative error,
  no over- or underflow); elsewhere arithmetic is exact.
* NaN and infinities are modelled for the constructors, spacings, `step_values` and the Marchenko-Pastur and zero trimming (C189: `Model/Missing.lean`); elsewhere data are finite.
* Not modelled: IEEE-754 rounding and NaN elsewhere, overflow; numba/LLVM compilation (`fastmath`,
  `cache`, the real scheduler); the numerics inside numpy, scipy, pandas, pyod, EMD-signal,
  statsmodels; matplotlib rasterisation; progress bars; type annotations.
  `AXIOMS.md` lists the axioms of every theorem in the manifest (generated by `tools/axioms.py`);
  `COVERAGE.md` lists every function of the package with the definitions that model it
  (generated by `tools/coverage.py --md`).

### What the model assumes about libraries

| library call | assumption |
|---|---|
| `np.sort`, `np.unique`, slicing, boolean masks, `np.diff`, `np.linspace`, `np.histogram` inputs | defined in the model as their documented meaning on NaN-free data; `np.sort` is proved to be the unique ascending permutation |
| `np.empty` | arbitrary contents (`junk`), universally quantified |
| `np.polyfit`, `scipy.optimize.curve_fit`, `UnivariateSpline` | function parameters; theorems which need more say so as a hypothesis (`LeastSquaresFit`, `IsPolyLS`: the returned coefficients minimise the sum of squares), and an exact least-squares solver is exhibited as witness |
| `np.linalg.eigvalsh`, `scipy.linalg.eigvals`, `eigh_tridiagonal` | `ExactSolver`: the returned list is the multiset of roots of the characteristic polynomial |
| `scipy.optimize.minimize_scalar` | `MinimisesInBounds`: result inside the bounds and, where optimality is claimed, a minimiser on them |
| `scipy.integrate.quad`, `scipy.special.sici` | exact integrals over ℝ (sici through its defining integrals and limits) |
| statsmodels `ECDF`, `KDEUnivariate` | ECDF: right-continuous counting function; KDE: function parameter |
| pyod `HBOS` | arbitrary function from data to labels; C124 additionally assumes that it commutes with affine changes of unit |
| EMD-signal | function parameter; theorems quantify over every list of modes |
| `np.random` | streams or an abstract `Rng σ`; probability statements (C107, C114–C116) assume pairwise independent, identically distributed uniform draws and use Mathlib's strong law |
| `prange` | every permutation of the loop indices |
| pathlib/os | a finite-map file-system model |
| matplotlib/seaborn | a world of figures, axes and drawn artists with pyplot's current-figure stack; the artists carry the data passed to them |
| pandas `DataFrame` | column-name to list-of-cells tables; missing cells as `none` |
| `fastmath=True` | exact arithmetic; in C133 the final sum may be associated in any way; otherwise reassociation, and the licence to assume there are no NaNs, are not modelled |

Functions whose body is only `raise NotImplementedError` (`generate_uniform`, `tracy_widom_eigs`
after its docstring, `trim_interactively`, `TrimReport.evaluate`, `TrimReport.unfold_trimmed`,
`EigVals.values/vals`, the methods of the abstract class `Ensemble`) have nothing to prove beyond
the fact that they always raise.`utils.fast_r` is modelled with the
meaning of its Python source (C130); numba cannot type `np.float64(array)`, so the compiled function raises instead.


## Plan per property

| id | modelled | proof |
|---|---|---|
| C01–C03 | `_step_function_fast` with its two early returns, skip loop, two-pointer loop and tail fill, as loops over an output buffer | loop invariant by functional induction; spec = counting; C02 false when last query = smallest eigenvalue: refutation + partial |
| C04 | `step_values`, `_step_function_correct`, argument kinds as a sum type | case analysis + C01 |
| C05 | `.steps` = step function on own values | from C01 |
| C06 | `find_first`, `find_last` | induction |
| C07 | `_slope`, `_intercept` | completion of squares (optimality over all lines) |
| C08 | `_integrate_fast` loop | induction on the grid |
| C09, C10 | `_int_simps_nonunif` with Python negative index | induction two nodes at a time; C10 false for 2 points: refutation |
| C11, C12 | `_delta_grid`, step, `_sq_lin_deviation`, integrators | weights ≥ 0; invariance by substitution |
| C13–C16 | `delta_L` Monte-Carlo loop, state machine with sample stream, Kahan sums, 1000-slot buffer | fuelled loop = bounded iteration, invariants over iterations; C16 false (zeros averaged in) |
| C17 | `spectral_rigidity` driver | case analysis; relies on C13 |
| C18 | `prange` loops as arbitrary orders of index writes | permutation invariance of writes to distinct slots |
| C19–C23 | `sigma_L`, `level_number_variance`, `Unfolded.level_variance` | as C13–C16; C23 false |
| C24–C29 | `_get_outlier_labels`, `TrimIter`, `__get_trim_iters`, `use_trim_iteration` | list lemmas, induction on iterations; C27 false |
| C30–C32 | name generation, summary table, `_get_autounfold_vals` | list indexing; C31 false; C32 false for one-row tables |
| C33 | `get_best_trimmed`, `best_overall` as decision logic | always raises: refutation |
| C34–C36 | `EigVals`, `make_1d_array`, spacings | sorting lemmas |
| C37, C38 | heap model of arrays and aliases, histories of operations | invariant over all histories; C38 false |
| C39 | warning flag as class state | induction on histories |
| C40, C41 | `trim_manually`, `trim_marchenko_pastur` | slices/filters; real algebra |
| C42–C44 | `from_correlations`, `from_time_series` | case analysis; C42, C44 false |
| C45, C46 | `_eigs_via_transpose`, `correlate_fast` over ℝ matrices | Mathlib charpoly of AB vs BA; Cauchy–Schwarz |
| C47–C50 | generators over an abstract RNG; matrix constructions | state threading; C48, C50 false |
| C51, C52 | `unfold_goe`, `unfold_poisson` with exact integrals | monotonicity of integrals; C52 false |
| C53–C55 | `unfold`, `Smoother.fit`, `Unfolded` dispatch | case analysis; C54, C55 partly false |
| C56–C60 | `emd_detrend`, `signalproc/detrend.py`, `Eigenvalues.detrend` | least squares; C56, C58, C59 false |
| C61, C73 | `get_signals`, `fill_mask`, `flatten_4D` | filter lemmas, index arithmetic |
| C62–C64 | `Compare` | sums; C63 false |
| C65 | `nnsd` output lengths | C65 false for GUE, GSE |
| C66–C69 | densities, CDFs, Brody, rigidity/variance curves over ℝ | Mathlib calculus |
| C70, C71 | Gompertz, `derivative` | monotonicity; inverse is false; algebra |
| C72 | `kahan_add` | induction; abstract rounding |
| C74 | `_handle_plot_mode`, `make_directory` over a file-system model | induction on ancestors |
| C75 | least-squares polynomial fits | minimiser monotonicity, Lagrange interpolation |
| C76 | `__evaluate_unfolding` | algebra |
| C77 | `correlated_eigs` row selection | permutation prefix |
| C78 | `fit_brody` | case analysis on lower-cased strings |
| C79 | `Trimmed.unfold` argument checks, enum membership | case analysis; C79 false for documented names |
| C80 | `Compare.correlate`, metric dispatch of `ensemble_compare` | lists of lists, symmetry |
| C81 | next-nearest-neighbour densities over ℝ | Gaussian integrals; false for one ensemble |
| C82, C83, C106 | `fit_brody` criteria (likelihood, spacings), bounds | real analysis: existence of minimisers, refutation of the estimator |
| C84 | `brody_fit_evaluate` with ECDF specification | counting; false under ties |
| C85 | `exponential` | monotone real functions |
| C86, C87 | `nd_find`, `is_symmetric` on n-d arrays | induction on flattened index; false for non-square |
| C88 | step function as a small-step machine | machine either returns the fold of C01 or diverges, iff condition on inputs |
| C89 | table of `ensemble_compare` | table cells; refuted cases |
| C90, C91 | data handed to the plotting calls | equality with the ensemble classes; refuted cases |
| C92 | matrix scale of the generators and the semicircle of `unfold_goe` | exact second moments over independent entries |
| C93, C123 | trace, units, signs, order of `from_time_series` | trace/charpoly identities |
| C94 | bounds on the level variance | counting in windows |
| C95, C96, C103 | `TrimIter` properties, statistics helpers, `trim_mean` | list algebra |
| C97 | `log_brody` | refuted by evaluation at a point |
| C98 | remaining generators | shapes and state threading |
| C99–C102, C104, C108–C113 | plotting functions over the pyplot world model | case analysis, invariants of the world |
| C105 | `mkdirp` | file-system model |
| C107, C114–C116 | samples and means of the Monte-Carlo observables | integrals over windows, strong law of large numbers |
| C117, C118 | observables and the pipeline eigenvalues → unfolding → observable | composition of the earlier theorems |
| C119, C120 | `prioritize_smoother`, reproducing a report cell by hand | composition |
| C121, C122 | least-squares polynomial unfolding | uniqueness of the least-squares polynomial, composition with affine maps, normal equations |
| C125 | `TrimReport` in the heap model, all histories | invariant: the arrays of the iterations are named by no reference |
| C126–C128 | `step_function`, `Smoother.__init__`, `plot_trim_steps` | C01/C02, sorting, induction over the iterations |
| C129 | constructor of `TrimReport` with the fits interleaved | simulation against the two-phase model; refuted for exceptions |
| C130 | `fast_r` (Python semantics) | algebra; refuted |
| C131 | `kahan_add` with rounding | standard model of rounding; induction with explicit constants |
| C132, C133 | the loops of `sigma_L`, `delta_L` with every operation rounded; final sum in any association | invariant on sum − carry; refinement to the exact model for the identity rounding |
| C124 | trimming and automatic unfolding under a change of unit | simulation of the trim loop |
| C134 | `from_time_series(use_sparse=True)`; `eigsh` as an oracle with its argument checks | characteristic polynomial of triangular matrices; refuted |
| C135 | `show_iters`: a second axes object in the pyplot model | case analysis over all pyplot states; refuted for given `sigma` |
| C136 | `EigVals.__init__` for complex matrices; `eigvalsh`, `eigvals` as exact oracles | roots of characteristic polynomials; refuted |
| C137 | the import statements of all modules, `sys.modules`, failed imports | induction on the nesting of imports, over a rank of the import graph; refuted on Windows |
| C138 | the parallel loops as schedules of stores and reports; `delta_L`, `sigma_L` with the list of numbers printed | induction over schedules and iterations; "ends with 100" refuted |
| C139 | every subscript of the compiled loops checked (`pyGet`, `pySet` raise), beside the unchecked models | equality of the two models, by induction over the loops; refuted for too small outputs |
| C140 | `generate` with random initial states; the law of the draws as hypothesis (`Spec.NormalDraws`) | the spacing is a multiple of the norm of a Gaussian vector in dimension 2, 3 or 1; polar coordinates; Poisson refuted |
| C141 | the matrices of `generate` as functions of the draws | conjugation is an isometry of the space of draws, which preserves the Gaussian measure |
| C142 | `generate` with exact eigenvalue routines, full and tridiagonal | sorted eigenvalues are measurable functions of the power sums; reflection of the draws; laws of linear functions of Gaussian vectors |
| C143 | a session as a list of calls on NumPy's state and one state per thread of the compiled code | induction over the session; reproducibility of observables refuted by a seed and by a schedule |
| C144 | `generate` for GOE, full and tridiagonal, with the laws of the normal and chi-square draws as hypotheses (`Spec.NormalDraws`, `Spec.ChiSquareDraws`) | Householder reduction of a Gaussian matrix in law, by induction on the size: the first column is rotated to its norm, and the rest keeps its law |
| C145 | `generate` for Poisson and the four Poisson curves; rigidity as the least mean squared deviation from a line (`Spec.delta3`), the law of the draws as hypothesis | normal draws taken through their distribution function are independent and uniform; moments of sums over the levels; the number of wide spacings is counted by windows to the right of each level |
| C146 | `from_time_series` and `time_series_eigs` on rows of normal draws (`Spec.NormalDraws`), against `Spec.mpDensity` | centring is a coisometry; the squared correlation is a squared cosine, with mean 1/(T−1) by rotation invariance; traces of squares |
| C147 | `generate` for GOE, full and tridiagonal, and GUE, with the laws of the draws as hypotheses; `Spec.semicircleLaw` by its density | moments of the traces of powers by Gaussian integration by parts (loop equations), whose limits are the Catalan numbers; variances vanish; Weierstrass approximation of indicators; the tridiagonal case by C144; the GUE by loop equations for complex polynomials |
| C148 | all of `goe_unfolded`, and `unfold_goe` on generated levels | the unfolding function is n times the distribution function of the semicircle law; C147; the refutation evaluates the limit at the edge |
| C149 | `generate` for all kinds with the law of the draws as hypothesis | the determinant of the matrix of power sums is a nonzero polynomial in the draws, and the zeros of a nonzero polynomial have probability 0 (induction on the number of draws); an eigenvector of a tridiagonal matrix with nonzero off-diagonal is determined by its first entry |
| C150 | `from_time_series` and `time_series_eigs` on rows of normal draws, against `Spec.mpDensity`, convergence as `Spec.InProbability` | loop equations for the traces of powers of X Q Xᵀ with Q the centring projection; the limits are the moments of a shifted semicircle law weighted by 1/x; weighted moment method; correlation matrices by comparing inertias of C and D^(-1/2) C D^(-1/2) on the event that all variances are near 1 (fourth moments); the mass from the Catalan generating function |
| C151 | `trim_marchenko_pastur` on the object returned by `from_time_series` on noise | C150, C41; the largest eigenvalue is o(N) because E tr M² = O(N); continuity of the limit at the edges |
| C152 | `Eigenvalues(matrix)`, `generate(n, "goe")` and `generate(n, "gue")` with a routine that satisfies `Spec.BackwardStable` (`Spec.BackwardStableC`) | Weyl's inequality from the inertia lemma (counting eigenvalues above x by dimensions of definite subspaces), with multiplicities |
| C153 | `from_time_series` with all trimming modes and a backward stable routine | C152 for the matrix the routine is given, the characteristic polynomial of the transposed computation, filters of ascending lists; the refutation is a routine that shifts the spectrum by t |
| C154 | `generate(n, "goe")`, `generate(n, "gue")` and `from_time_series` on noise with a backward stable routine | C147 and C150 for an exact routine, C152 to sandwich the counts, and E tr M² to bound the Frobenius norm |
| C155 | `generate(n, "poisson")`, `level_number_variance` and `spectral_rigidity` on the exactly unfolded levels, convergence as `Spec.InProbability` | the average over windows of a local statistic of independent uniform levels: mean by exchanging integrals, variance from pair sums (second moments of counts in windows); windows near the ends of the spectrum are negligible; then the consistency theorems C115 and C116 for the loops |
| C156 | `generate(n, "poisson")` and the spacings of the exactly unfolded levels, against `poissonCdf` | Efron-Stein inequality (variance of a function with bounded differences of independent variables, by induction on their number): moving one level changes at most 4m of the m-th neighbour spacings; means from C145; monotonicity makes the limit uniform; means by weak convergence (Lévy metrics of the empirical law) |
| C157 | `level_number_variance` and `spectral_rigidity` on the levels 0, 1, ..., n | the count in a window is a periodic function of the centre up to the ends of the spectrum; the rigidity of the counting function is the rigidity of the sawtooth 1/2 - {t}, computed in closed form by integration by parts; then the consistency theorems C115 and C116 |
| C158 | `level_number_variance`, `spectral_rigidity`, `unfold_goe` on perturbed levels (`EntriesWithin`), and `Eigenvalues(matrix)` with a backward stable routine | averages written over relative window positions; the count is continuous in the levels at almost every position, so dominated convergence applies; the rigidity is a continuous function (sum of pair kernels); derivative of the semicircle staircase; then C115, C116 and C152 |
| C159 | `level_number_variance` and `spectral_rigidity` with a given budget and a tolerance that is never met | the value is the sample variance of the counts (C14, C20), or the mean of the last 1000 running means of the samples (C14); variance of a sum of pairwise independent variables, the identity between sample variance and true variance, Cauchy-Schwarz, Markov and Chebyshev inequalities |
| C160 | `level_number_variance` and `spectral_rigidity` with every tolerance and budget | sums of independent centred draws: their squares are a submartingale, Doob's maximal inequality gives Kolmogorov's inequality, summed over dyadic blocks it bounds all running means of length at least m at once; the value returned is a sample variance or an average of running means of such lengths (C13, C14, C17, C20) |
| C161 | `from_time_series` followed by `trim_marchenko_pastur(largest=True)` | the kept values are the eigenvalues above the cut point (C41, C43, C45); Courant-Fischer: their number is the largest dimension of a space on which the quadratic form is above the bound; the form is the variance of the combination of series; for the common signal the form at equal weights |
| C162 | `Eigenvalues.unfold` with the polynomial smoother, polyfit as an arbitrary least-squares routine | normal equations and Pythagoras for the fitted values; rearrangement inequality for the final sort; existence of least-squares polynomials over any ordered field from the rank of the Gram matrix |
| C163 | the session of C143 | induction over the schedule for the streams of the threads; the loops of the observables read exactly the draws they report, by induction on the remaining budget |
| C164 | `from_time_series` (covariances, correlations; direct and transposed paths) | the positive eigenvalues of a positive semidefinite matrix are counted by its rank, which is that of the centred data; for noise the determinant of the differences to the last time point and the Hankel determinant of the power sums are polynomials in the draws, not zero at the identity and at the incidence matrix of a path (tridiagonal products), hence almost surely not zero |
| C165 | the rigidity sample on a given grid; `spectral_rigidity` with a given budget and a tolerance that is never met | the squared deviation from a line is a difference of monotone functions, for which both integration rules and the mean over the grid are within their variation divided by the number of intervals of the integral; the least squares lines on grid and window are within `3 D` of the counts; the grid line is the best on the grid; then C159 |
| C166 | `level_number_variance` and `spectral_rigidity` with independent uniform draws, every stopping rule | Hoeffding's lemma for the bounded samples; the running variance is a mean of squared deviations less the squared deviation of the mean; an average of running means is a weighted sum with squared weights summing to at most `1/m`; unions over window lengths and numbers of iterations (geometric series); the range of the rigidity samples from C165 |
| C167 | `fit_brody(method='spacing')`, `Unfolded.fit_brody` on samples of growing size | the probability of a gap between neighbouring spacings is close to density times length, and the lengths cancel in differences of the criterion, so the criterion is an average log-likelihood up to `O(max (|log s| + s^2) / n)`; laws of large numbers, uniform in the parameter by a Lipschitz bound; the log-density is strictly concave in the parameter (Euler's limit for the Gamma function, perspectives of concave functions), Gibbs' inequality; Glivenko–Cantelli for `mad` and `msqd` |
| C168 | `generate(n, "poisson")`, exact unfolding, `Unfolded.fit_brody(method='spacing')` | a sum over spacings is bounded below by an integral of their counting function (Stieltjes), so the uniform limit of C156 bounds the gain of the lower bound over one other parameter; concavity of the log-density in the parameter extends this to all larger ones; the criterion is near the likelihood (C167) because the spacings are almost surely distinct (independence) and with high probability between `exp(-n^(1/4))` and `n^(1/4)` (mean counts, Markov); deviations: ranks are near the distribution function (C156), the fitted column is Lipschitz in the parameter with third moments (C171), and the mean is one of a bounded continuous function |
| C169 | `fit_brody(method='mle')` on samples of growing size | a law of large numbers uniform over a family Lipschitz in the parameter (convex functions are Lipschitz); refutation: if every parameter were the best for its own spacings, the mean density of a distribution under itself would change by at most `C (b - c)^2` and so be constant, but its values at 1/3 and 1/2 (Gamma integral, reflection formula) differ |
| C170 | `trim_unfold_auto` on the summary table as stored: every entry rounded by an arbitrary function `st`, and by `single` (24 binary digits, ties to even) in particular | the argument of C32 on the stored columns; first minimum of a list; relative-error algebra; near-tie witness with scores -1 and -(1 - 2^-31) |
| C171 | `generate(n, "poisson")`, exact unfolding, `TrimReport.__evaluate_unfolding` | layer-cake formula for the powers cut off at B, which the uniform limit of the distribution function (C156) controls; the excess over the cut-off is bounded by the numbers of spacings above the integers, whose expectations are `(n - 1)(1 - j/n)^n` (C145), so by the tail of a convergent series (Markov); Gamma integral; continuous mapping for the variance and the score |
| C172 | `delta_L` with the computation of each sample: `np.linspace`, step counts, `_slope`, `_intercept`, `_sq_lin_deviation`, both integration rules, all operations rounded by an arbitrary function (`Model/RoundedSample.lean`) | every operation followed by a rounding of vanishing relative error is continuous, arbitrary associations of sums included; the counts are eventually constant off the grid; the averaging loop by C133 |
| C173 | `_step_function_fast` as a machine that executes one loop test at a time (`Model/StepMachine.lean`) | a potential that falls with every test; after a failed comparison in the main loop the look-ahead loop advances at least once |
| C174 | `ensemble_compare` (`Model/EnsembleCompare.lean`) with the modelled estimators of rigidity and level variance, on the spectra of `Model/Generate.lean` | the metrics are continuous functions of the curve, so C155 gives their limits; the curves of the other ensembles are strictly concave in L and meet the Poisson line in at most two points |
| C175 | rigidity samples and `delta_L` with every operation rounded (`Model/RoundedSample.lean`), `Spec.RelRounding` (relative error; no overflow or underflow) | the rounded grid spacings stay within 1% of their exact value if the arithmetic resolves the grid, so the weights of both rules stay positive; rounding keeps signs; induction over the loops |
| C176 | `__R1` with every operation rounded (`Model/RoundedDensity.lean`), the square root of a negative number as `none`; `Spec.FloatRounding` (monotone, idempotent, odd) and `Spec.RelRounding` | monotonicity: a number of the format below the rounded root is below the root; error algebra for the accuracy; instance: binary rounding toward zero |
| C177 | `np.cov`, `correlate_fast`, `_eigs_via_transpose`, the trimming of `from_time_series` with every operation rounded (`Model/RoundedSeries.lean`), sums associated arbitrarily, products fused arbitrarily | limits of rounded computations along the filter of precisions; the lower triangle of a nearly symmetric matrix; Frobenius norm and Weyl's inequality; filters of ascending lists (C153) |
| C178 | the same model on constant rows | induction over the association of the sum of equal terms if the multiples are representable; refuted: with `p + 1` bits the mean of three copies of `2^(p+1) - 1` is too small by one, all centred entries are 1 and all correlations 1 |
| C179 | `fit_brody_mle` with an exact optimiser on the spacings of `generate(n, "poisson")` | by parts the mean density is `1 - ∫ e^{-s} S_b`; the survival functions have equal integrals and cross once: strict decrease; equicontinuity in the parameter and a finite net make the limit of C156 uniform |
| C180 | `Eigenvalues.unfold` / `Smoother.fit` with `poly` and a least-squares `polyfit` on the spectra of `generate` | the sum of squares is a quadratic form in the coefficients whose entries are means over the levels; these converge (C147, moments, truncation), the limit is positive definite because the law has no atoms, and minimisers of close quadratics are close |
| C181 | `from_time_series` on normal noise, then `unfold` with `poly` and a least-squares `polyfit` | as C180, with the Marchenko-Pastur law: all its moments are limits of the moments of the spectra (Wishart loop equations for covariances; for correlations the ordered eigenvalues are compared by inertia) |
| C182 | `np.array(d, dtype=float64)` on nested Python sequences (`Model/Convert.lean`: shape discovery by the first element, conversion of the leaves from left to right), `make_1d_array`, `Smoother.__init__`, `EigVals.__init__` | mutual induction over the nesting: discovery succeeds exactly on rectangular sequences (`Spec/Nested.lean`) and lists the leaves in order; `None` and complex elements are not covered |
| C183 | `Eigenvalues.unfold` with `poly` on the spectra of `generate`, mean of the spacings | lower bound: the mean gap of an ascending list is at least the distance of any two members divided by their number, and near every point of the support there is a level (C147), where the smoother is near the best polynomial (C180); upper bound: no level outside (C184) and uniform continuity; the best polynomial of the normal law is not constant, the best cubic of the semicircle law is computed by parts |
| C184 | spectra of `generate` (GOE full and tridiagonal, GUE), extreme levels and mean spacing | expected traces of powers `2k` with `k` proportional to `n`: for the tridiagonal matrix by Gershgorin and exponential moments of the chi-square law, for the full GOE by C144, for the GUE because its loop equations have fewer (non-negative) terms; Markov's inequality |
| C185 | `Eigenvalues.from_time_series`, `trim_marchenko_pastur`, `time_series_eigs` on normal noise: largest value | rotations reduce a normal `N x T` array to a bidiagonal one with chi-distributed entries (`Lemmas/BidiagonalLaw`); row sums and exponential moments of the chi-square law bound the expected traces of powers proportional to `N`; centring only lowers them (the loop equations are monotone in the trace of the projection); correlations differ from covariances by variances near 1 (C150); the lower bound is C150 |
| C186 | C184, C185 and C151 with backward stable eigenvalue routines | Weyl's inequality moves each level by at most the error; while the exact levels are bounded by `b sqrt(n)` the Frobenius norm is at most `b n`, so the error is a vanishing multiple of `sqrt(n)`; for noise the mean of the squared norm bounds the error in probability (C154) |
| C187 | `generate(n, 'poisson')`: extreme levels and mean spacing | Chernoff's bound and the union bound above; independence and the density one unit further out below; the mean spacing telescopes |
| C188 | `from_time_series`, `time_series_eigs` on noise: the smallest nonzero value; what `trim_marchenko_pastur` removes | the centred Gaussian matrix has the singular values of a Gaussian matrix with one column fewer, and those of its bidiagonal reduction; Chernoff bounds for the chi-square entries and the union bound put all entries near their means, and then no vector is made short; transposition for `q > 1`; the diagonal scaling tends to 1 for correlations; the law of levels (C151) gives a level near the edge |
| C189 | constructors, `spacings`, scalar `step_values`, `trim_marchenko_pastur`, `from_correlations`, zero trimming of `from_time_series` on values with NaN and infinities (`Model/Missing.lean`) | floats as a linear order with NaN last (for `np.sort`) and IEEE comparisons; sorting splits into the values and the NaNs; agreement with the models over the reals on finite input; false for the shifted cut points |
| C190 | `Eigenvalues.generate` with arbitrary integer size and seed (`Model/GenerateArgs.lean`) | case analysis in the order of the statements; agreement with the model of C47 for accepted arguments |
| C191 | polynomial unfolding of `generate(n, "goe" / "gue")` (model of C180, C183): distance to the semicircle law for each degree | the best polynomials are partial sums in the Chebyshev polynomials of the second kind (substitution `x = 2 cos t`, orthogonality); explicit coefficients of the distribution function; telescoping sum; mean-square convergence (C180) and continuity make the bound uniform |
| C192 | the same for a backward stable eigenvalue routine (`BackwardStable`, `RelativeError` of C152, C154) | Weyl's inequality moves each level by at most the error, which is small on the event that the exact spectrum is bounded (C184); so the moments move little; fractions and ends from C154 and C186; then the proofs of C180, C183, C191 apply; for semicircle unfolding the law of C154 and the pointwise bound behind C148 |
| C193 | `from_time_series` and `trim_marchenko_pastur` with a backward stable routine (`BackwardStable` of C152) | the number of computed values above a level lies between the numbers of exact ones above level ± d (`series_within`); C161 counts those as dimensions of subspaces |
| C194 | `generate`, `trim_manually` and `Trimmed.unfold` with polynomials on growing spectra (model of C40, C54, C180) | the kept levels follow the law conditioned on [u, v] (`Lemmas/TrimLimit`: the count in a slice of an ascending list is a clamped count of the whole list; moments from weak convergence, as the kept levels are bounded with probability tending to 1); then the least-squares limit of C180 and the positions of the first and last kept level; for inexact routines, the limits known for computed spectra (C192) |
| C195 | the same pipeline as C194 | `Lemmas/TrimUniform`: values of a polynomial of degree d are bounded by its mean square times (d+1)^3 (Chebyshev polynomials, orthonormal for the semicircle law, moved to [u, v]); the densities are sums of power series (binomial and exponential), so their partial sums give approximants with geometric error, and best polynomials are as good up to the factor (d+1)^3; then C194 |
| C196 | `from_time_series`, `trim_manually` and `Trimmed.unfold` with polynomials on growing noise | the eigenvalues follow the Marchenko-Pastur law (C163, C181); its density inside the support is a product of three shifted binomial series (`Lemmas/TrimNoise`), so C195 applies |
