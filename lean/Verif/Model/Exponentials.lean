import Verif.Model.Smoother
import Mathlib.Analysis.SpecialFunctions.Log.Basic
import Mathlib.Analysis.SpecialFunctions.Pow.Real

/-!
# Model of `empyricalRMT/exponentials.py`
-/

namespace RMT
namespace Exponentials

/-- Assignment `res[start:start+len(vals)] = vals` to a slice of the same length. -/
def setSlice {α : Type} (res : List α) (start : Nat) (vals : List α) : List α :=
  res.take start ++ vals ++ res.drop (start + vals.length)

/-- exponentials.py lines 7-19, `derivative(x, y)`, in exact arithmetic, for `x` and `y` of the same length, given as the list of the points
`(x[i], y[i])`. `junk` is the uninitialised memory of `np.empty`. For fewer than two points the code reads outside the arrays (numba does
not check); the model raises `IndexError`. -/
def derivative {K : Type} [Field K] (junk : Nat → K) (pts : List (K × K)) : Py (List K) :=
  let L := pts.length
  let x := fun i => (pts.getD i (0, 0)).1
  let y := fun i => (pts.getD i (0, 0)).2
  if L < 2 then .error .indexError
  else
    let res := (List.range L).map junk                                                             -- line 9
    let res := setSlice res 1 ((List.range (L - 2)).map fun (i : Nat) => (y (i + 2) - y i) / (x (i + 2) - x i))  -- line 15
    let res := res.set 0 ((y 1 - y 0) / (x 1 - x 0))                                               -- line 16
    let res := res.set (L - 1) ((y (L - 1) - y (L - 2)) / (x (L - 1) - x (L - 2)))                 -- line 17
    .ok res

open Real

/-- exponentials.py lines 46-48, `gompertz`, of one real number. -/
noncomputable def gompertz (x a b c : ℝ) : ℝ := Smooth.gompertzFn exp a b c x

/-- `np.log` of one number: NaN (here `none`) for negative numbers, minus infinity (also `none`, not a number of the model) for zero. -/
noncomputable def npLog (x : ℝ) : Option ℝ := if 0 < x then some (log x) else none

/-- exponentials.py lines 22-43, `inverse_gompertz`, of one real number, `a ≠ 0`, `c ≠ 0`; NaN is contagious. -/
noncomputable def inverseGompertz (x a b c : ℝ) : Option ℝ := do
  let lb ← npLog b
  let l1 ← npLog (-x / a)
  let l2 ← npLog l1
  let l3 ← npLog (lb - l2)
  some (l3 / c)

/-- exponentials.py lines 51-54, `exponential`, of one real number `x ≥ 0` (the power of a negative number is NaN in numpy unless the
exponent is an integer). -/
noncomputable def exponential (x a b c d : ℝ) : ℝ := b - a * exp (-c * x ^ (1 / d))

end Exponentials
end RMT
