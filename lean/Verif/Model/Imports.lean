import Verif.Py

/-!
# Model of importing the package

Python's import of a module: a module found in `sys.modules` is not executed again (even if its execution has not finished); otherwise an empty module is
registered, its top-level statements are executed in order, and if one of them raises, the module is removed from `sys.modules` again, while the modules it imported before stay. A
`from m import x` raises `ImportError` if `m` does not define `x` at that moment.
-/

namespace RMT
namespace Imports

/-- A top-level statement of a module, as far as its effect on the namespace goes. `fromImport m [(x, y), …]` is `from m import x as y, …`; `importAs m y` is `import m as y`; `bind xs` stands for
definitions of the names `xs`. -/
inductive Stmt (M : Type) where
  | fromImport (m : M) (names : List (String × String))
  | importAs (m : M) (as : String)
  | bind (names : List String)

/-- `sys.modules` with the namespaces of the modules, and the modules whose execution was started, in order (latest first). -/
structure State (M : Type) where
  ns : M → Option (List String)
  started : List M

/-- The state of a fresh interpreter. -/
def State.fresh {M : Type} : State M := ⟨fun _ => none, []⟩

section
variable {M : Type} [DecidableEq M]

/-- Setting or removing an entry of `sys.modules`. -/
def State.set (s : State M) (m : M) (v : Option (List String)) : State M :=
  { s with ns := fun k => if k = m then v else s.ns k }

/-- Adding names to the namespace of `m`. -/
def State.addNames (s : State M) (m : M) (names : List String) : State M := s.set m (some ((s.ns m).getD [] ++ names))

/-- Executing statements in the namespace of `m`; `imp` imports a module and says whether that succeeded. -/
def runBody (imp : M → State M → State M × Bool) (m : M) : List (Stmt M) → State M → State M × Bool
  | [], s => (s, true)
  | .bind names :: rest, s => runBody imp m rest (s.addNames m names)
  | .importAs d as :: rest, s =>
    match imp d s with
    | (s', false) => (s', false)
    | (s', true) => runBody imp m rest (s'.addNames m [as])
  | .fromImport d names :: rest, s =>
    match imp d s with
    | (s', false) => (s', false)
    | (s', true) =>
      if names.all (fun x => ((s'.ns d).getD []).contains x.1) then runBody imp m rest (s'.addNames m (names.map Prod.snd))
      else (s', false)

/-- Importing module `m`; the first argument bounds the nesting of imports (Python's recursion limit). -/
def importMod (body : M → List (Stmt M)) : Nat → M → State M → State M × Bool
  | 0, _, s => (s, false)
  | fuel + 1, m, s =>
    match s.ns m with
    | some _ => (s, true)
    | none =>
      match runBody (importMod body fuel) m (body m) ⟨(s.set m (some [])).ns, m :: s.started⟩ with
      | (s', true) => (s', true)
      | (s', false) => (s'.set m none, false)

/-- A statement `from m import names` of a user; whether it succeeds. -/
def userImport (body : M → List (Stmt M)) (fuel : Nat) (s : State M) (u : M × List String) : State M × Bool :=
  match importMod body fuel u.1 s with
  | (s', false) => (s', false)
  | (s', true) => (s', u.2.all fun x => ((s'.ns u.1).getD []).contains x)

/-- Several such statements; failures are caught by the user. The results, and the final state. -/
def userImports (body : M → List (Stmt M)) (fuel : Nat) : State M → List (M × List String) → State M × List Bool
  | s, [] => (s, [])
  | s, u :: us =>
    let r := userImport body fuel s u
    let rest := userImports body fuel r.1 us
    (rest.1, r.2 :: rest.2)

end

/-- The modules of the package (the three `__init__.py` import nothing and bind at most `__version__`). -/
inductive Mod where
  | constants
  | eigvals
  | types
  | validate
  | brody
  | compare
  | construct
  | correlater
  | detrend
  | eigenvalues
  | ensemble
  | exponentials
  | levelvariance
  | rigidity
  | step
  | plot
  | clean
  | spDetrend
  | smoother
  | trim
  | unfold
  | utils
  deriving DecidableEq, Repr

/-- The top-level statements of each file, in order: _constants.py lines 1-42; _eigvals.py lines 6-11; _types.py lines 10-23; _validate.py lines 6-6; brody.py lines 7-7; compare.py lines 10-11; construct.py lines 11-13; correlater.py lines 5-5; detrend.py lines 4-4; eigenvalues.py lines 15-25; ensemble.py lines 9-9; exponentials.py lines 4-4; observables/levelvariance.py lines 9-20; observables/rigidity.py lines 9-21; observables/step.py lines 7-7; plot.py lines 23-27; signalproc/clean.py lines 6-6; signalproc/detrend.py lines 15-17; smoother.py lines 16-25; trim.py lines 30-44; unfold.py lines 14-26; utils.py lines 10-23 and the definitions below them. Imports of other packages are left out; plot.py lines 29-30 are under `TYPE_CHECKING`. -/
def body (windows : Bool) : Mod → List (Stmt Mod)
  | .constants =>
    [ .bind ["EXPECTED_GOE_VARIANCE", "EXPECTED_GOE_MEAN", "DEFAULT_POLY_DEGREE", "DEFAULT_SPLINE_SMOOTH", "DEFAULT_SPLINE_DEGREE", "DEFAULT_POLY_DEGREES", "DEFAULT_SPLINE_SMOOTHS", "DEFAULT_SPLINE_DEGREES"]
    , .bind (if windows then ["PROG", "PROG_FREQUENCY", "CONVERG_PROG_INTERVAL", "LEVELVAR_PROG", "RIGIDITY_PROG", "CONVERG_PROG", "PERCENT"] else ["PROG", "PROG_FREQUENCY", "CONVERG_PROG_INTERVAL", "LEVELVAR_PROG", "RIGIDITY_PROG", "CONVERG_PROG", "PERCENT", "ITER_COUNT"])
    , .bind ["MIN_ITERS", "RIGIDITY_GRID", "AUTO_MAX_ITERS"] ]
  | .eigvals =>
    [ .fromImport .types [("fArr", "fArr"), ("iArr", "iArr")]
    , .fromImport .validate [("make_1d_array", "make_1d_array")]
    , .fromImport .step [("_step_function_fast", "_step_function_fast")]
    , .fromImport .plot [("PlotResult", "PlotResult"), ("_raw_eig_dist", "_raw_eig_dist"), ("_raw_eig_sorted", "_raw_eig_sorted")]
    , .fromImport .plot [("_spacings", "plotSpacings")]
    , .fromImport .plot [("_step_function", "_step_function")]
    , .bind ["EigVals"] ]
  | .types =>
    [ .bind ["PyInt", "PyFloat", "PyBool", "fArr", "iArr", "uArr", "bArr", "Smoother", "MatrixKind"] ]
  | .validate =>
    [ .fromImport .types [("fArr", "fArr")]
    , .bind ["make_1d_array"] ]
  | .brody =>
    [ .fromImport .types [("fArr", "fArr")]
    , .bind ["brody_dist", "brody_cdf", "log_brody", "fit_brody", "fit_brody_mle", "fit_brody_max_spacing", "brody_fit_evaluate"] ]
  | .compare =>
    [ .fromImport .types [("fArr", "fArr")]
    , .fromImport .validate [("make_1d_array", "make_1d_array")]
    , .bind ["Metric", "Compare"] ]
  | .construct =>
    [ .fromImport .types [("MatrixKind", "MatrixKind"), ("fArr", "fArr")]
    , .fromImport .correlater [("correlate_fast", "correlate_fast")]
    , .fromImport .unfold [("Unfolded", "Unfolded")]
    , .bind ["goe_unfolded", "correlated_eigs", "tracy_widom_eigs", "time_series_eigs", "generate_uniform", "_generate_GOE_matrix", "_generate_GOE_tridiagonal", "_generate_GOE_tridiagonal_direct", "_generate_poisson"] ]
  | .correlater =>
    [ .fromImport .types [("fArr", "fArr")]
    , .bind ["correlate_fast"] ]
  | .detrend =>
    [ .fromImport .types [("fArr", "fArr")]
    , .bind ["emd_detrend"] ]
  | .eigenvalues =>
    [ .fromImport .constants [("DEFAULT_POLY_DEGREE", "DEFAULT_POLY_DEGREE"), ("DEFAULT_POLY_DEGREES", "DEFAULT_POLY_DEGREES"), ("DEFAULT_SPLINE_SMOOTH", "DEFAULT_SPLINE_SMOOTH")]
    , .fromImport .eigvals [("EigVals", "EigVals")]
    , .fromImport .types [("MatrixKind", "MatrixKind"), ("fArr", "fArr")]
    , .fromImport .construct [("_generate_GOE_matrix", "_generate_GOE_matrix"), ("_generate_GOE_tridiagonal", "_generate_GOE_tridiagonal")]
    , .fromImport .correlater [("correlate_fast", "correlate_fast")]
    , .fromImport .detrend [("emd_detrend", "emd_detrend")]
    , .fromImport .spDetrend [("DetrendMethod", "DetrendMethod")]
    , .fromImport .spDetrend [("detrend", "_detrend")]
    , .fromImport .smoother [("Smoother", "Smoother"), ("SmoothMethod", "SmoothMethod")]
    , .fromImport .trim [("Trimmed", "Trimmed"), ("TrimReport", "TrimReport")]
    , .fromImport .unfold [("Unfolded", "Unfolded")]
    , .bind ["Eigenvalues", "_eigs_via_transpose"] ]
  | .ensemble =>
    [ .fromImport .types [("fArr", "fArr")]
    , .bind ["Ensemble", "Poisson", "GOE", "GUE", "GSE", "GDE"] ]
  | .exponentials =>
    [ .fromImport .types [("fArr", "fArr")]
    , .bind ["derivative", "inverse_gompertz", "gompertz", "exponential"] ]
  | .levelvariance =>
    [ .fromImport .constants [("AUTO_MAX_ITERS", "AUTO_MAX_ITERS"), ("CONVERG_PROG", "CONVERG_PROG"), ("CONVERG_PROG_INTERVAL", "CONVERG_PROG_INTERVAL"), ("ITER_COUNT", "ITER_COUNT"), ("LEVELVAR_PROG", "LEVELVAR_PROG"), ("MIN_ITERS", "MIN_ITERS"), ("PERCENT", "PERCENT"), ("PROG_FREQUENCY", "PROG_FREQUENCY")]
    , .fromImport .types [("bArr", "bArr"), ("fArr", "fArr"), ("uArr", "uArr")]
    , .fromImport .utils [("ConvergenceError", "ConvergenceError"), ("kahan_add", "kahan_add")]
    , .bind ["level_number_variance", "sigma_parallel", "sigma_L"] ]
  | .rigidity =>
    [ .fromImport .constants [("AUTO_MAX_ITERS", "AUTO_MAX_ITERS"), ("CONVERG_PROG", "CONVERG_PROG"), ("CONVERG_PROG_INTERVAL", "CONVERG_PROG_INTERVAL"), ("ITER_COUNT", "ITER_COUNT"), ("MIN_ITERS", "MIN_ITERS"), ("PERCENT", "PERCENT"), ("RIGIDITY_GRID", "RIGIDITY_GRID"), ("RIGIDITY_PROG", "RIGIDITY_PROG")]
    , .fromImport .types [("bArr", "bArr"), ("fArr", "fArr"), ("iArr", "iArr")]
    , .fromImport .step [("_step_function_fast", "_step_function_fast")]
    , .fromImport .utils [("ConvergenceError", "ConvergenceError"), ("kahan_add", "kahan_add")]
    , .bind ["spectral_rigidity", "delta_parallel", "delta_L", "_delta_grid", "_slope", "_intercept", "_integrate_fast", "_sq_lin_deviation", "_int_simps_nonunif"] ]
  | .step =>
    [ .fromImport .types [("fArr", "fArr"), ("iArr", "iArr")]
    , .bind ["step_values", "_step_function_fast", "_step_function_correct"] ]
  | .plot =>
    [ .fromImport .types [("fArr", "fArr")]
    , .fromImport .brody [("brody_dist", "brody_dist"), ("brody_fit_evaluate", "brody_fit_evaluate"), ("fit_brody", "fit_brody")]
    , .fromImport .ensemble [("GOE", "GOE"), ("Poisson", "Poisson")]
    , .fromImport .step [("_step_function_fast", "_step_function_fast")]
    , .fromImport .utils [("make_parent_directories", "make_parent_directories")]
    , .bind ["PlotResult", "PlotMode", "PLOTTING_READY", "_raw_eig_dist", "_step_function", "_raw_eig_sorted", "_unfolded_dist", "_unfolded_fit", "_spacings", "_brody_fit", "_next_spacings", "_spectral_rigidity", "_level_number_variance", "_observables", "_plot_trim_iters", "_setup_plotting", "_kde_plot", "_handle_plot_mode", "_validate_bin_sizes", "HandlerColormap"] ]
  | .clean =>
    [ .fromImport .types [("bArr", "bArr"), ("fArr", "fArr")]
    , .bind ["get_signals", "fill_mask"] ]
  | .spDetrend =>
    [ .fromImport .types [("fArr", "fArr")]
    , .fromImport .exponentials [("gompertz", "gompertz"), ("inverse_gompertz", "inverse_gompertz")]
    , .fromImport .utils [("intercept", "intercept"), ("slope", "slope")]
    , .bind ["DetrendMethod", "_DetrendMethod", "detrend", "Detrend", "linear_detrend", "mean_detrend"] ]
  | .smoother =>
    [ .fromImport .constants [("DEFAULT_POLY_DEGREE", "DEFAULT_POLY_DEGREE"), ("DEFAULT_SPLINE_DEGREE", "DEFAULT_SPLINE_DEGREE"), ("DEFAULT_SPLINE_DEGREES", "DEFAULT_SPLINE_DEGREES"), ("DEFAULT_SPLINE_SMOOTH", "DEFAULT_SPLINE_SMOOTH"), ("DEFAULT_SPLINE_SMOOTHS", "DEFAULT_SPLINE_SMOOTHS")]
    , .fromImport .types [("fArr", "fArr")]
    , .fromImport .detrend [("emd_detrend", "emd_detrend")]
    , .fromImport .exponentials [("gompertz", "gompertz")]
    , .bind ["SPLINE_DICT", "SmoothMethod", "SmoothArg", "_spline_name", "Smoother"] ]
  | .trim =>
    [ .importAs .eigvals "_eigvals"
    , .fromImport .constants [("DEFAULT_POLY_DEGREE", "DEFAULT_POLY_DEGREE"), ("DEFAULT_POLY_DEGREES", "DEFAULT_POLY_DEGREES"), ("DEFAULT_SPLINE_DEGREES", "DEFAULT_SPLINE_DEGREES"), ("DEFAULT_SPLINE_SMOOTH", "DEFAULT_SPLINE_SMOOTH"), ("DEFAULT_SPLINE_SMOOTHS", "DEFAULT_SPLINE_SMOOTHS"), ("EXPECTED_GOE_MEAN", "EXPECTED_GOE_MEAN"), ("EXPECTED_GOE_VARIANCE", "EXPECTED_GOE_VARIANCE")]
    , .fromImport .types [("fArr", "fArr")]
    , .fromImport .plot [("PlotMode", "PlotMode"), ("PlotResult", "PlotResult"), ("_plot_trim_iters", "_plot_trim_iters")]
    , .fromImport .smoother [("Smoother", "Smoother"), ("SmoothMethod", "SmoothMethod")]
    , .fromImport .unfold [("Unfolded", "Unfolded")]
    , .fromImport .utils [("find_first", "find_first"), ("find_last", "find_last")]
    , .bind ["Trimmed", "TrimReport", "TrimIter", "_get_outlier_labels"] ]
  | .unfold =>
    [ .importAs .plot "plot"
    , .fromImport .constants [("RIGIDITY_GRID", "RIGIDITY_GRID")]
    , .fromImport .eigvals [("EigVals", "EigVals")]
    , .fromImport .types [("Smoother", "Smoother"), ("fArr", "fArr")]
    , .fromImport .validate [("make_1d_array", "make_1d_array")]
    , .fromImport .brody [("brody_fit_evaluate", "brody_fit_evaluate")]
    , .fromImport .compare [("Compare", "Compare"), ("Metric", "Metric")]
    , .fromImport .ensemble [("Ensemble", "Ensemble")]
    , .fromImport .levelvariance [("level_number_variance", "level_number_variance")]
    , .fromImport .rigidity [("spectral_rigidity", "_spectral_rigidity")]
    , .fromImport .plot [("PlotMode", "PlotMode"), ("PlotResult", "PlotResult"), ("_brody_fit", "_brody_fit"), ("_next_spacings", "_next_spacings"), ("_observables", "_observables")]
    , .fromImport .plot [("_spacings", "_plot_spacings")]
    , .fromImport .plot [("_unfolded_fit", "_unfolded_fit")]
    , .bind ["Observables", "Unfolded"] ]
  | .utils =>
    [ .bind ["ConvergenceError", "res", "eprint", "log", "is_symmetric", "mkdirp", "make_directory", "make_parent_directories", "kahan_add", "nd_find", "find_first", "find_last", "flatten_4D", "slope", "variance", "intercept", "fast_r"] ]

end Imports
end RMT
