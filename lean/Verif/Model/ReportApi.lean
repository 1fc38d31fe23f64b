import Verif.Model.Unfold

/-!
# Model of the methods which build and read trim reports

`hbos tol` is the outlier detector with tolerance `tol`.
-/

namespace RMT
namespace ReportApi
open Smooth Trim Report Unfold EigValsM

variable {K : Type} [Field K] [LinearOrder K]

/-- eigenvalues.py lines 315-391, `Eigenvalues.trim_report`; console output is not modelled. -/
def trimReport (hbos : ℚ → List K → List Bool) (F : Fitters K) (vals : List K) (maxTrim : ℚ) (maxIters : Nat) (polyDegrees : List Int) (splineSmooths : SmoothsArg) (splineDegrees : List Int)
    (gompertz : Flag) (detrend : Bool) (outlierTol : ℚ) : Py (TrimReport K) :=
  mkReport (hbos outlierTol) F vals maxTrim maxIters ⟨polyDegrees, splineSmooths, splineDegrees, gompertz, detrend⟩

/-- eigenvalues.py lines 594-718, `Eigenvalues.trim_unfold_auto` with all its arguments: `prioritize_smoother` is accepted and not used, and no `detrend` is passed on (so it is `False`). -/
def trimUnfoldAutoCall (hbos : ℚ → List K → List Bool) (F : Fitters K) (vals : List K) (maxTrim : ℚ) (maxIters : Nat) (polyDegrees : List Int) (splineSmooths : SmoothsArg) (splineDegrees : List Int)
    (gompertz : Flag) (_prioritizeSmoother : Bool) (outlierTol : ℚ) : Py (Unfolded K) :=
  trimUnfoldAuto (hbos outlierTol) F vals maxTrim maxIters ⟨polyDegrees, splineSmooths, splineDegrees, gompertz, false⟩

/-- trim.py lines 303-315, the property `unfoldings`, and column selection on one of its frames: `report.unfoldings[i][name]` (the list index is a Python index). -/
def unfoldingColumn (r : TrimReport K) (i : Int) (name : String) : Py (List K) := do
  let cols ← pyGet r.unfoldings i
  let c ← getCol cols name
  .ok c.unfolded

end ReportApi
end RMT
