import Verif.Model.Plots
import Verif.Model.Unfold
import Verif.Model.Helpers
import Mathlib.Analysis.Real.Sqrt

/-!
# Model of further methods of the public objects

`Smoother.__init__`, `EigVals.step_function`, `TrimReport.plot_trim_steps` with its console output, the order of fitting in the constructor of `TrimReport`, and
`utils.fast_r`.
-/

namespace RMT
namespace Objects
open EigValsM Step Trim Smooth Unfold Report Plots

section order
variable {α : Type} [LinearOrder α]

/-- _eigvals.py lines 67-68, `obj.step_function(x)` of an `Eigenvalues` or `Trimmed` object (`vals`: eigenvalues.py lines 287-306, trim.py lines 63-69). -/
def stepFunctionOf (o : Obj α) (x : List α) : Py (List Nat) := stepFunctionFast o.vals x

/-- smoother.py lines 57-72, `Smoother.__init__`, on an array already converted to `float64` (the conversion failure, a `ValueError`, is not modelled): the array kept in the object. `len` of a 0-dimensional array
raises `TypeError`. -/
def initSmoother (a : NDArr α) : Py (List α) :=
  match a.shape with
  | [] => .error .typeError
  | d :: _ => if d ≠ a.data.length then .error .valueError else .ok (npSort a.data)

end order

section field
variable {K : Type} [Field K] [LinearOrder K]

/-- _eigvals.py lines 67-68, `step_function(x)` of an `Unfolded` object (`vals`: unfold.py lines 46-48). -/
def unfoldedStepFunction (u : Unfolded K) (x : List K) : Py (List Nat) := stepFunctionFast u.vals x

/-- `Smoother(eigenvalues).fit(...)`: smoother.py lines 57-72 and 74-174. -/
def smootherFit (F : Fitters K) (a : NDArr K) (smoother degree splineSmooth : PyVal) (detrend returnCallable : Bool) : Py (FitResult K) := do
  let eigs ← initSmoother a
  fit F eigs smoother degree splineSmooth detrend returnCallable

/-- What `plot_trim_steps` prints: a summary line for an iteration, or the legend. -/
inductive Printed (K : Type) where
  | line (s : IterSummary K)
  | legend

/-- trim.py lines 493-495, the loop printing one line per iteration: what was printed, and the exception raised, if any. -/
def printLines : List (Iter K × List (Col K)) → List (Printed K) × Py Unit
  | [] => ([], .ok ())
  | p :: ps =>
    match iterSummary p.1 p.2 with
    | .error e => ([], .error e)
    | .ok s => let r := printLines ps; (.line s :: r.1, r.2)

/-- trim.py lines 456-501, `TrimReport.plot_trim_steps`: what is printed, and the panels drawn (or the exception). `its` are the iterations with their unfoldings. -/
def plotTrimSteps (its : List (Iter K × List (Col K))) (width : Nat) (logInfo : Bool) : List (Printed K) × Py (List (Option (Panel K))) :=
  if logInfo then
    let r := printLines its
    match r.2 with
    | .error e => (r.1, .error e)
    | .ok () =>
      match its with
      | [] => (r.1, .error .indexError)
      | p :: _ =>
        match iterSummary p.1 p.2 with
        | .error e => (r.1, .error e)
        | .ok _ => (r.1 ++ [.legend], plotTrimIters (its.map (·.1)) width)
  else ([], plotTrimIters (its.map (·.1)) width)

/-- trim.py lines 683-695, `TrimIter.__init__` with the fits: labels first, then all smoothers. -/
def mkIterFit (hbos : List K → List Bool) (F : Fitters K) (a : FitArgs) (origs eigs : List K) : Py (Iter K × List (Col K)) := do
  let t ← mkIter hbos origs eigs
  let cols ← fitAll F (npSort eigs) a
  return (t, cols)

/-- trim.py lines 569-578 with the fits made when an iteration is constructed, also for one that is then discarded because it removes too much. -/
def trimLoopFit (hbos : List K → List Bool) (F : Fitters K) (a : FitArgs) (maxTrim : ℚ) : Nat → Iter K → Py (List (Iter K × List (Col K)))
  | 0, _ => .ok []
  | n + 1, last =>
    match mkIterFit hbos F a last.origs last.inliers with
    | .error e => .error e
    | .ok (t', cols) =>
      let t := { t' with id := last.id + 1 }
      if t.proportionRemoved > maxTrim then .ok []
      else if t.isAllInliers then .ok [(t, cols)]
      else match trimLoopFit hbos F a maxTrim n t with
        | .error e => .error e
        | .ok l => .ok ((t, cols) :: l)

/-- trim.py lines 228-251 and 567-579, the constructor of `TrimReport` with the fits in the order of the code. -/
def mkReportFit (hbos : List K → List Bool) (F : Fitters K) (eigenvalues : List K) (maxTrim : ℚ) (maxIters : Nat) (a : FitArgs) : Py (TrimReport K) := do
  let sorted := npSort eigenvalues
  let t0 ← mkIterFit hbos F a sorted sorted
  let rest ← trimLoopFit hbos F a maxTrim maxIters t0.1
  let its := t0 :: rest
  let names := smootherNames a
  let rows ← mapPy (fun p => summaryRow (names.length * 4 + 3) p.1 p.2) its
  .ok { iters := its.map (·.1), unfoldings := its.map (·.2), names := summaryNames names, rows := rows }

end field

/-- The result of `fast_r` under Python semantics: a number, or an array. -/
inductive NumOrArray where
  | num (v : ℝ)
  | array (l : List ℝ)

/-- utils.py lines 166-173, `fast_r(x, y)`, for arrays of equal length, with the meaning of the Python code: `x * y` is the entrywise product. (Numba cannot type `np.float64(array)`, so that with compilation enabled the
call raises instead; see DESIGN.md.) -/
noncomputable def fastR (x y : List ℝ) : Py NumOrArray := do
  let n : ℝ := x.length
  let num := (List.zipWith (· * ·) x y).map fun p => p - n * mean x * mean y
  let vx ← Helpers.variance x
  let vy ← Helpers.variance y
  let denom := (n - 1) * Real.sqrt vx * Real.sqrt vy
  if denom = 0 then return .num 0
  else return .array (num.map (· / denom))

end Objects
end RMT
