import Verif.Model.Unfold
import Verif.Model.Format
import Mathlib.Data.Int.Log
import Mathlib.Data.Rat.Floor

/-!
# Model of the single-precision summary table of a trim report

`empyricalRMT/trim.py` line 631 allocates the table with `dtype=np.float32`, so every entry is rounded when it is stored, and lines 507-514 choose from the stored entries. `Model/Report.lean` keeps the table exact; here the
rounding of the stored values is a parameter. The mean and the quantile which pandas computes from the stored values are exact here.
-/

namespace RMT
namespace Stored
open Smooth Trim Report Unfold Format

variable {K : Type} [Field K] [LinearOrder K]

/-- trim.py lines 631-651: the table after every entry has been rounded by `st`. -/
def storeReport (st : K → K) (r : TrimReport K) : TrimReport K := { r with rows := r.rows.map (List.map st) }

/-- eigenvalues.py lines 594-718, `trim_unfold_auto`, with trim.py lines 507-514 reading the stored table. -/
def trimUnfoldAutoStored (st : K → K) (hbos : List K → List Bool) (F : Fitters K) (vals : List K) (maxTrim : ℚ)
    (maxIters : Nat) (a : FitArgs) : Py (Unfolded K) := do
  let r ← mkReport hbos F vals maxTrim maxIters a
  let p ← autounfoldVals (storeReport st r)
  mkUnfolded p.1 p.2 .none

/-- Assignment of a `float64` to an entry of a `float32` array (trim.py lines 636-651): round to 24 significant binary digits, ties to even. Overflow and underflow are not modelled. -/
def single (x : ℚ) : ℚ :=
  let u : ℚ := 2 ^ (Int.log 2 |x| - 23)
  if x < 0 then -(roundHalfEven (|x| / u) * u) else roundHalfEven (|x| / u) * u

end Stored
end RMT
