import Verif.Model.Step
import Verif.Model.Report
import Verif.Model.PlotData
import Verif.Model.Files
import Verif.Model.Brody

/-!
# Model of further plots (`plot.py`), of the summary of a trim iteration and of `mkdirp`

The data handed to the plotting library, not the rendering.
-/

namespace RMT
namespace Plots
open EigValsM Step Trim Smooth

section Field
variable {K : Type} [Field K] [LinearOrder K]

/-- plot.py lines 165-168, `_step_function` (called by `EigVals.plot_steps` with the values of the object, _eigvals.py lines 76-77): abscissae and ordinates of the curve. -/
def plotSteps (eigs : List K) (gridsize : Nat) : Py (List K × List Nat) := do
  let lo ← npMin eigs
  let hi ← npMax eigs
  let grid := linspace lo hi gridsize
  let steps ← stepFunctionFast eigs grid
  return (grid, steps)

/-- What `_unfolded_fit` draws: the two lines and the sizes of the points. -/
structure FitPlot (K : Type) where
  stepLine : List K
  unfoldedLine : List K
  sizes : List K

/-- plot.py lines 354-370, `_unfolded_fit` (called by `Unfolded.plot_fit`, unfold.py lines 349-365, and in the first panel of `_observables`). The argument `eigs` is not used. -/
def unfoldedFit (_eigs unfolded : List K) : FitPlot K :=
  let stepVals : List K := (List.range unfolded.length).map fun (i : Nat) => (i : K)
  { stepLine := stepVals, unfoldedLine := unfolded, sizes := List.zipWith (fun a b => |a - b|) stepVals unfolded }

/-- `scipy.stats.trim_mean(l, 0.2)` of a non-empty array: the mean without the `int(0.2 * n)` smallest and as many largest values. -/
def trimMean (l : List K) : K :=
  let cut := l.length / 5
  mean (((npSort l).take (l.length - cut)).drop cut)

/-- The numbers in the summary line of a trim iteration. -/
structure IterSummary (K : Type) where
  id : Nat
  percent : ℚ
  start : Int
  stop : Int
  mean : K
  var : K
  msqe : K

/-- trim.py lines 745-759, `TrimIter.summary`, with the numbers before formatting; `cols` are the unfoldings of the iteration (at least one). -/
def iterSummary (t : Iter K) (cols : List (Col K)) : Py (IterSummary K) := do
  let se ← t.trimIndices
  return ⟨t.id, Report.percentRemoved t, se.1, se.2, trimMean (cols.map fun c => RMT.mean c.spacings),
    trimMean (cols.map fun c => varSample c.spacings), trimMean (cols.map fun c => c.msqe)⟩

/-- One panel of the plot of the trim iterations: the points (eigenvalue, count, label) and the removed percentage (`none`: "No trim"). -/
structure Panel (K : Type) where
  points : List (K × Nat × Bool)
  percent : Option ℚ

/-- plot.py lines 1136-1150: the panel of one iteration. -/
def panelOf (t : Iter K) : Panel K :=
  { points := t.eigs.zip (((List.range t.eigs.length).map fun (i : Nat) => i + 1).zip t.clusters),
    percent := if t.id = 0 then none else some (Report.percentRemoved t) }

/-- plot.py line 1132: `int(np.ceil(n / width))`. -/
def panelRows (n width : Nat) : Nat := (n + width - 1) / width

/-- plot.py lines 1131-1170, `_plot_trim_iters` for a width that is a non-negative integer: the panels in row-major order (`none`: deleted). `plt.subplots(0, width)` raises `ValueError`;
`plt.subplots(1, 1)` returns a single `Axes` object, which has no attribute `flat`. -/
def plotTrimIters (trims : List (Iter K)) (width : Nat) : Py (List (Option (Panel K))) :=
  if width = 0 then .error .zeroDivisionError
  else
    let height := panelRows trims.length width
    if height = 0 then .error .valueError
    else if height = 1 ∧ width = 1 then .error .attributeError
    else .ok ((List.range (height * width)).map fun (i : Nat) => (trims[i]?).map panelOf)

end Field

/-- The `axes` argument of the private plotting functions: a matplotlib `Axes` or an array of them. -/
inductive AxesArg where
  | one | array

open PlotData in
/-- plot.py lines 479-540, `_spacings` with explicit `fig` and `axes`: seaborn's `histplot` (line 489) uses attributes of `Axes` which arrays do not have. -/
noncomputable def spacingsOn (fit : String → List ℝ → Py ℝ) (ax : AxesArg) (unfolded : List ℝ) (trim : ℝ) (kde trimKde brody : Bool) (brodyFit : String)
    (ensembles : List String) : Py SpacingPlot :=
  match ax with
  | .one => plotSpacings fit unfolded trim kde trimKde brody brodyFit ensembles
  | .array => do
    let kept := trimSpacings (diff (npSort unfolded)) trim
    let _lo ← npMin kept
    let _hi ← npMax kept
    .error .attributeError

/-- What `plot_brody_fit` is to show: the densities and the two distribution functions. -/
structure BrodyPlot where
  density : PlotData.SpacingPlot
  eval : Brody.Eval

/-- plot.py lines 546-596, `_brody_fit` (called by `Unfolded.plot_brody_fit`, unfold.py lines 203-231): `axes = plt.subplots(1, 2, squeeze=False)` has shape `(1, 2)`, so the argument `axes[0]` (line 578) is an
array. `evaluate` is `brody_fit_evaluate`. -/
noncomputable def plotBrodyFit (fit : String → List ℝ → Py ℝ) (evaluate : List ℝ → String → Py Brody.Eval) (unfolded : List ℝ) (method : String)
    (trim : ℝ) (kde trimKde : Bool) (ensembles : List String) : Py BrodyPlot := do
  let d ← spacingsOn fit .array unfolded trim kde trimKde true method ensembles
  let e ← evaluate ((diff unfolded).filter fun x => decide (0 < x)) method
  return ⟨d, e⟩

end Plots

namespace Files

/-- `os.makedirs(path, exist_ok=True)` (CPython's `os.py`): an error of `mkdir` is ignored if the path is a directory afterwards. `interfere` is what other programs do before each `mkdir`. -/
def makedirsOk (deny : Path → Bool) (interfere : FS → FS) (fs : FS) : Path → Out
  | [] =>
    let fs := interfere fs
    if fs [] = some .dir then (fs, .ok ()) else (fs, .error .fileExistsError)
  | n :: parent =>
    let finish (fs : FS) : Out :=
      match mkdir deny (interfere fs) (n :: parent) with
      | (fs', .ok ()) => (fs', .ok ())
      | (fs', .error e) => if fs' (n :: parent) = some .dir then (fs', .ok ()) else (fs', .error e)
    if fs parent = none then
      match makedirsOk deny interfere fs parent with
      | (fs', .error .fileExistsError) => finish fs'
      | (fs', .error e) => (fs', .error e)
      | (fs', .ok ()) => finish fs'
    else finish fs

/-- utils.py lines 44-54, `mkdirp` (the messages on stderr are not modelled; the exception is raised again). -/
def mkdirp (deny : Path → Bool) (interfere : FS → FS) (fs : FS) (p : Path) : Out := makedirsOk deny interfere fs p

end Files
end RMT
