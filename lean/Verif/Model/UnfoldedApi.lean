import Verif.Model.Unfold
import Verif.Model.Rigidity
import Verif.Model.LevelVariance

/-!
# Model of the observables of an `Unfolded` object
-/

namespace RMT
namespace UnfoldedApi
open Unfold Rigidity LevelVar

variable {K : Type} [Field K] [LinearOrder K]

/-- The DataFrame returned by `Unfolded.spectral_rigidity` and `Unfolded.level_variance`: four columns; `value` is the column `delta`, resp. `sigma`. -/
structure Frame (K : Type) where
  L : List K
  value : List K
  converged : List Bool
  iters : List Nat

/-- `pd.DataFrame({"L": …, …})` of four arrays: `ValueError` unless all have the same length. -/
def mkFrame (L value : List K) (converged : List Bool) (iters : List Nat) : Py (Frame K) :=
  if value.length = L.length ∧ converged.length = L.length ∧ iters.length = L.length then .ok ⟨L, value, converged, iters⟩
  else .error .valueError

/-- unfold.py lines 58-112, `Unfolded.spectral_rigidity` (argument order of the method: `L, max_iters, gridsize, tol, integration`; progress output is not modelled). The random draws are as in `Rigidity.spectralRigidity`. -/
def rigidity (order : List Nat) (Upilot : Nat → K) (U : Nat → Nat → K) (u : Unfolded K) (L : List K) (maxIters : Int) (gridsize : Nat) (tol : K) (integration : String) : Py (Frame K) := do
  let r ← spectralRigidity order u.vals L tol maxIters gridsize integration Upilot U
  mkFrame r.1 r.2.1 r.2.2.1 r.2.2.2

/-- unfold.py lines 114-168, `Unfolded.level_variance` (arguments `L, tol, max_L_iters, min_L_iters`). -/
def levelVar (order : List Nat) (Upilot : Nat → K) (U : Nat → Nat → K) (junk : Nat) (u : Unfolded K) (L : List K) (tol : K) (maxLIters : Int) (minLIters : Nat) : Py (Frame K) := do
  let r ← levelVariance order u.vals L tol maxLIters minLIters Upilot U junk
  mkFrame r.1 r.2.1 r.2.2.1 r.2.2.2

end UnfoldedApi
end RMT
