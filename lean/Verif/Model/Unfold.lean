import Verif.Model.Report

/-!
# Model of `Eigenvalues.unfold`, `Trimmed.unfold`, the automatic unfoldings and `Unfolded`

The analytic unfoldings (`unfold_goe`, `unfold_poisson`) are modelled over the reals in `Model/Analytic.lean`; here they are
functions from the eigenvalues to the unfolded values.
-/

namespace RMT
namespace Unfold
open Smooth Trim EigValsM Report

variable {K : Type} [Field K] [LinearOrder K]

/-- `_types.py` lines 23-28, `MatrixKind` (`GDE` and `Poisson` are the same member). -/
inductive MatrixKind where
  | goe | gue | poisson | uniform
  deriving DecidableEq, Repr

/-- The values of the members. -/
def MatrixKind.value : MatrixKind → String
  | .goe => "goe" | .gue => "gue" | .poisson => "poisson" | .uniform => "uniform"

/-- The members in order. -/
def allKinds : List MatrixKind := [.goe, .gue, .poisson, .uniform]

/-- `_types.py` lines 30-38, `MatrixKind.validate` of a string. -/
def validateKind (s : String) : Py MatrixKind :=
  match allKinds.find? (fun m => m.value == s) with
  | some m => .ok m
  | none => .error .valueError

/-- unfold.py lines 31-40, an `Unfolded` object. -/
structure Unfolded (K : Type) where
  originals : List K
  vals : List K
  smoother : Closure K

/-- unfold.py lines 31-40, the constructor on 1-D arrays. -/
def mkUnfolded (originals unfolded : List K) (smoother : Closure K) : Py (Unfolded K) := do
  let o ← initEigVals1d originals
  .ok { originals := o.construct, vals := unfolded, smoother := smoother }

/-- unfold.py lines 50-56, `evaluate_smoother`; the result `none` models the Python value `None`. -/
def evaluateSmoother (u : Unfolded K) (x : List K) : Py (Option (List K)) :=
  match u.smoother with
  | .none => .error .notImplementedError
  | .unary f => .ok (f x)
  | .ternary _ => .error .typeError

/-- eigenvalues.py lines 720-808, `Eigenvalues.unfold`; `vals` are the stored eigenvalues, `goe` and `poisson` the analytic
unfoldings (lines 810-877, before sorting). -/
def unfold (F : Fitters K) (goe poisson : List K → List K) (kind : Option MatrixKind) (vals : List K)
    (smoother degree splineSmooth : PyVal) (detrend : Bool) : Py (Unfolded K) :=
  let unfoldGoe := mkUnfolded vals (npSort (goe vals)) .none
  let unfoldPoisson := mkUnfolded vals (npSort (poisson vals)) .none
  let rest := fun (sm : PyVal) => do
    let sm' ← validate sm                                                -- line 788
    if sm' = .method .goe then unfoldGoe
    else if sm' = .method .poisson then unfoldPoisson
    else
      let r ← fit F (npSort vals) sm' degree splineSmooth detrend true    -- lines 795-801
      let u := if detrend then emdDetrend F.trend r.unfolded else r.unfolded
      mkUnfolded vals (npSort u) r.func                                   -- lines 804-808
  if smoother = .none then
    if kind = some .goe then unfoldGoe
    else if kind = some .poisson then unfoldPoisson
    else rest (.method .polynomial)
  else rest smoother

/-- trim.py lines 71-107, `Trimmed.unfold`. -/
def trimmedUnfold (F : Fitters K) (vals : List K) (smoother degree splineSmooth : PyVal)
    (detrend : Bool) : Py (Unfolded K) := do
  let r ← fit F (npSort vals) smoother degree splineSmooth detrend false
  mkUnfolded vals r.unfolded r.func

/-- eigenvalues.py lines 594-718, `trim_unfold_auto`. -/
def trimUnfoldAuto (hbos : List K → List Bool) (F : Fitters K) (vals : List K) (maxTrim : ℚ)
    (maxIters : Nat) (a : FitArgs) : Py (Unfolded K) := do
  let r ← mkReport hbos F vals maxTrim maxIters a
  let p ← autounfoldVals r
  mkUnfolded p.1 p.2 .none

/-- trim.py lines 109-167, `Trimmed.unfold_auto`: one trim iteration, no trimming. -/
def unfoldAuto (hbos : List K → List Bool) (F : Fitters K) (vals : List K) (a : FitArgs) :
    Py (Unfolded K) := do
  let r ← mkReport hbos F vals 0 0 a
  let p ← autounfoldVals r
  mkUnfolded p.1 p.2 .none

end Unfold
end RMT
