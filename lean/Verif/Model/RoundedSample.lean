import Verif.Model.Rounded

/-!
# One rigidity sample in rounded arithmetic

The computation of one sample of `delta_L` with every float operation followed by a rounding `fl`. Sums made by `np.sum` and `np.mean` are compiled by numba with `fastmath`, which may
associate them in any way (`assoc`, as in `Model/Rounded.lean`); all other operations are made in the order written. Fusing operations and replacing a division by a multiplication with the reciprocal, which
`fastmath` also permits, are not modelled. Comparisons, counts and their conversion to floats are exact.
-/

namespace RMT
namespace Rounded
open Utils Rigidity Step

variable {K : Type} [Field K] [LinearOrder K]

/-- `np.linspace(a, b, n)` as compiled by numba: `a + i * ((b - a) / (n - 1))`, the last entry (for `n > 1`) set to `b`. -/
def linspaceFl (fl : K → K) (a b : K) (n : Nat) : List K :=
  (List.range n).map fun (i : Nat) => if i + 1 = n ∧ 1 < n then b else fl (a + fl ((i : K) * fl (fl (b - a) / ((n : K) - 1))))

/-- `np.sum` of an array. -/
def sumFl (fl : K → K) (assoc : List K → SumTree K) (l : List K) : K := if l = [] then 0 else (assoc l).evalFl fl

/-- `np.mean` of an array. -/
def meanFl (fl : K → K) (assoc : List K → SumTree K) (l : List K) : K := fl (sumFl fl assoc l / (l.length : K))

/-- rigidity.py lines 323-334, `_slope(x, y)`. -/
def slopeFl (fl : K → K) (assoc : List K → SumTree K) (x y : List K) : K :=
  let xDev := x.map fun v => fl (v - meanFl fl assoc x)
  let yDev := y.map fun v => fl (v - meanFl fl assoc y)
  let cov := sumFl fl assoc (List.zipWith (fun a b => fl (a * b)) xDev yDev)
  let var := sumFl fl assoc (List.zipWith (fun a b => fl (a * b)) xDev xDev)
  if var = 0 then 0 else fl (cov / var)

/-- rigidity.py lines 337-339, `_intercept(x, y, slope)`. -/
def interceptFl (fl : K → K) (assoc : List K → SumTree K) (x y : List K) (k : K) : K := fl (meanFl fl assoc y - fl (k * meanFl fl assoc x))

/-- rigidity.py lines 358-389, `_sq_lin_deviation(eigs, steps, K, w, grid)`. -/
def sqLinDeviationFl (fl : K → K) (steps : List K) (k w : K) (grid : List K) : List K :=
  List.zipWith (fun n g => fl (fl (fl (n - fl (k * g)) - w) * fl (fl (n - fl (k * g)) - w))) steps grid

/-- rigidity.py lines 348-351: the loop of `_integrate_fast` from index `i` on. -/
def trapzFromFl (fl : K → K) (grid values : List K) (i : Nat) (integral : K) : K :=
  if i + 1 < grid.length then
    let w := fl (nth grid (i + 1) - nth grid i)
    let h := fl (nth values i + nth values (i + 1))
    trapzFromFl fl grid values (i + 1) (fl (integral + fl (fl (w * h) / 2)))
  else integral
termination_by grid.length - i

/-- rigidity.py lines 342-352, `_integrate_fast(grid, values)`. -/
def integrateFastFl (fl : K → K) (grid values : List K) : K := trapzFromFl fl grid values 0 0

/-- `x**3`, by multiplication. -/
def cubeFl (fl : K → K) (x : K) : K := fl (fl (x * x) * x)

/-- `x**2`. -/
def squareFl (fl : K → K) (x : K) : K := fl (x * x)

/-- rigidity.py lines 417-421: the loop of `_int_simps_nonunif` from `i` on. -/
def simpsFromFl (fl : K → K) (h vals : List K) (N : Nat) (i : Nat) (result : K) : K :=
  if i < N then
    let h1 := nth h i
    let h0 := nth h ((i : Int) - 1)
    let hph := fl (h1 + h0)
    let r1 := fl (result + fl (fl (nth vals i * fl (fl (cubeFl fl h1 + cubeFl fl h0) + fl (fl (fl (3 * h1) * h0) * hph))) / fl (fl (6 * h1) * h0)))
    let r2 := fl (r1 + fl (fl (nth vals ((i : Int) - 1) * fl (fl (fl (2 * cubeFl fl h0) - cubeFl fl h1) + fl (fl (3 * h1) * squareFl fl h0))) / fl (fl (6 * h0) * hph)))
    let r3 := fl (r2 + fl (fl (nth vals ((i : Int) + 1) * fl (fl (fl (2 * cubeFl fl h1) - cubeFl fl h0) + fl (fl (3 * h0) * squareFl fl h1))) / fl (fl (6 * h1) * hph)))
    simpsFromFl fl h vals N (i + 2) r3
  else result
termination_by N - i

/-- rigidity.py lines 394-427, `_int_simps_nonunif(grid, vals)`, for a non-empty grid. -/
def intSimpsNonunifFl (fl : K → K) (grid vals : List K) : K :=
  let N := grid.length - 1
  let h := (diff grid).map fl
  let result := simpsFromFl fl h vals N 1 0
  if (N + 1) % 2 = 0 then
    let hl := nth h ((N : Int) - 1)
    let hp := nth h ((N : Int) - 2)
    let r1 := fl (result + fl (fl (nth vals N * fl (fl (2 * squareFl fl hl) + fl (fl (3 * hp) * hl))) / fl (6 * fl (hp + hl))))
    let r2 := fl (r1 + fl (fl (nth vals ((N : Int) - 1) * fl (squareFl fl hl + fl (fl (3 * hl) * hp))) / fl (6 * hp)))
    fl (r2 - fl (fl (nth vals ((N : Int) - 2) * cubeFl fl hl) / fl (fl (6 * hp) * fl (hp + hl))))
  else result

/-- rigidity.py lines 254-264: one sample `d3` of the rigidity for the window centre `start`. -/
def d3SampleFl (fl : K → K) (assoc : List K → SumTree K) (unfolded : List K) (L : K) (gridsize : Nat) (useSimpson : Bool) (start : K) : Py K := do
  let grid := linspaceFl fl (fl (start - fl (L / 2))) (fl (start + fl (L / 2))) gridsize
  let stepsN ← stepFunctionFast unfolded grid
  let steps := stepsN.map (fun n : Nat => (n : K))
  let k := slopeFl fl assoc grid steps
  let w := interceptFl fl assoc grid steps k
  let yVals := sqLinDeviationFl fl steps k w grid
  let delta3c := if useSimpson then intSimpsNonunifFl fl grid yVals else integrateFastFl fl grid yVals
  return fl (delta3c / L)

end Rounded
end RMT
