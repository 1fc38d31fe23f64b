import Verif.Model.Numeric
import Verif.Model.Step
import Verif.Model.Utils

/-!
# Model of `empyricalRMT/observables/rigidity.py`

Exact arithmetic over a linearly ordered field `K` (executable at `ℚ`).  Random numbers: the stream
`U : Nat → K` lists the successive draws from `[0, 1)` underlying `np.random.uniform`.
-/

namespace RMT
namespace Rigidity
open Step Utils

/-- `_constants.py` line 40. -/
def MIN_ITERS : Nat := 100
/-- `_constants.py` line 41. -/
def RIGIDITY_GRID : Nat := 100
/-- `_constants.py` line 42. -/
def AUTO_MAX_ITERS : Nat := 1000000000
/-- rigidity.py line 240, `buf = 1000`. -/
def BUF : Nat := 1000

variable {K : Type} [Field K] [LinearOrder K]

/-- rigidity.py lines 323-334, `_slope(x, y)`. -/
def slope (x y : List K) : K :=
  let xDev := x.map (· - mean x)
  let yDev := y.map (· - mean y)
  let cov := (List.zipWith (· * ·) xDev yDev).sum
  let var := (List.zipWith (· * ·) xDev xDev).sum
  if var = 0 then 0 else cov / var

/-- rigidity.py lines 337-339, `_intercept(x, y, slope)`. -/
def intercept (x y : List K) (k : K) : K := mean y - k * mean x

/-- rigidity.py lines 348-351: the loop body from index `i` on (`grid` and `values` have the same
length, so the reads are in range). -/
def trapzFrom (grid values : List K) (i : Nat) (integral : K) : K :=
  if i + 1 < grid.length then
    let w := nth grid (i + 1) - nth grid i
    let h := nth values i + nth values (i + 1)
    trapzFrom grid values (i + 1) (integral + w * h / 2)
  else integral
termination_by grid.length - i

/-- rigidity.py lines 342-352, `_integrate_fast(grid, values)`. -/
def integrateFast (grid values : List K) : K := trapzFrom grid values 0 0

/-- rigidity.py lines 358-389, `_sq_lin_deviation(eigs, steps, K, w, grid)` (`eigs` is unused). -/
def sqLinDeviation (steps : List K) (k w : K) (grid : List K) : List K :=
  List.zipWith (fun n g => (n - k * g - w) * (n - k * g - w)) steps grid

/-- rigidity.py lines 417-421: the loop `for i in range(1, N, 2)` from `i` on. -/
def simpsFrom (h vals : List K) (N : Nat) (i : Nat) (result : K) : K :=
  if i < N then
    let h1 := nth h i
    let h0 := nth h ((i : Int) - 1)
    let hph := h1 + h0
    let r1 := result + nth vals i * (h1 ^ 3 + h0 ^ 3 + 3 * h1 * h0 * hph) / (6 * h1 * h0)
    let r2 := r1 + nth vals ((i : Int) - 1) * (2 * h0 ^ 3 - h1 ^ 3 + 3 * h1 * h0 ^ 2) / (6 * h0 * hph)
    let r3 := r2 + nth vals ((i : Int) + 1) * (2 * h1 ^ 3 - h0 ^ 3 + 3 * h0 * h1 ^ 2) / (6 * h1 * hph)
    simpsFrom h vals N (i + 2) r3
  else result
termination_by N - i

/-- rigidity.py lines 394-427, `_int_simps_nonunif(grid, vals)`, for a non-empty grid (`N ≥ 0`).
For two points (`N = 1`) the reads `h[N-2]`, `vals[N-2]` are `h[-1]`, `vals[-1]` and wrap around,
as in the code. -/
def intSimpsNonunif (grid vals : List K) : K :=
  let N := grid.length - 1
  let h := diff grid
  let result := simpsFrom h vals N 1 0
  if (N + 1) % 2 = 0 then
    let hl := nth h ((N : Int) - 1)
    let hp := nth h ((N : Int) - 2)
    let r1 := result + nth vals N * (2 * hl ^ 2 + 3 * hp * hl) / (6 * (hp + hl))
    let r2 := r1 + nth vals ((N : Int) - 1) * (hl ^ 2 + 3 * hl * hp) / (6 * hp)
    r2 - nth vals ((N : Int) - 2) * hl ^ 3 / (6 * hp * (hp + hl))
  else result

/-- rigidity.py lines 255-264 (and 310-319 of `_delta_grid`): one sample `d3` of the rigidity for the
window centre `start`. Raises `IndexError` (unchecked read in numba) for an empty spectrum or grid. -/
def d3Sample (unfolded : List K) (L : K) (gridsize : Nat) (useSimpson : Bool) (start : K) : Py K := do
  let grid := linspace (start - L / 2) (start + L / 2) gridsize
  let stepsN ← stepFunctionFast unfolded grid
  let steps := stepsN.map (fun n : Nat => (n : K))
  let k := slope grid steps
  let w := intercept grid steps k
  let yVals := sqLinDeviation steps k w grid
  let delta3c := if useSimpson then intSimpsNonunif grid yVals else integrateFast grid yVals
  return delta3c / L

/-- rigidity.py lines 304-320, `_delta_grid`: mean of the samples at the given centres. -/
def deltaGrid (unfolded starts : List K) (L : K) (gridsize : Nat) (useSimpson : Bool) : Py K := do
  let delta3s ← starts.mapM (d3Sample unfolded L gridsize useSimpson)
  return mean delta3s

/-- `np.abs(np.max(b) - np.min(b)) < tol` for the (non-empty) buffer `b`,
rigidity.py lines 291 and 297, levelvariance.py lines 266 and 274. -/
def rangeBelow (b : List K) (tol : K) : Bool :=
  match b with
  | [] => false
  | a :: l => decide (|maxOf a l - minOf a l| < tol)

/-- rigidity.py lines 251-293: the `while True` loop of `delta_L`, entered with counter `k`,
compensation `c`, running mean `m` and buffer `b`; `d j` is the sample computed by the `j`-th pass
(`j = 0, 1, …`; the pass entered with counter `k` is pass number `k`). Returns the
final counter, mean and buffer. -/
def deltaLoop (d : Nat → Py K) (maxIters minIters : Nat) (tol : K) (k : Nat) (c m : K)
    (b : List K) : Py (Nat × K × List K) :=
  match d k with
  | .error e => .error e
  | .ok d3 =>
    if _h0 : k = 0 then                                        -- lines 265-269
      deltaLoop d maxIters minIters tol 1 c d3 (b.set 0 d3)
    else
      let k' := k + 1                                         -- lines 252-253
      let update := (d3 - m) / (k' : K)                       -- line 276
      let mc := kahanAdd m update c                           -- line 277
      let b' := b.set (k' % BUF) mc.1                         -- line 282
      if _hmax : k' ≥ maxIters then                            -- lines 286-287
        .ok (k', mc.1, b')
      else if k' > minIters ∧ k' % BUF = 0 ∧ rangeBelow b' tol = true then   -- lines 288-293
        .ok (k', mc.1, b')
      else
        deltaLoop d maxIters minIters tol k' mc.2 mc.1 b'
termination_by if k = 0 then maxIters + 1 else maxIters - k
decreasing_by
  · simp [_h0]
  · simp [_h0]; omega

/-- rigidity.py lines 229-301, `delta_L`; progress output is not modelled. `U` is the stream of
draws used by `np.random.uniform(unfolded[0], unfolded[-1])` (line 254). Returns
`(value, converged, iterations)`. -/
def deltaL (unfolded : List K) (L : K) (gridsize maxIters minIters : Nat) (tol : K)
    (useSimpson : Bool) (U : Nat → K) : Py (K × Bool × Nat) := do
  let lo ← pyGet unfolded 0
  let hi ← pyGet unfolded (-1)
  let r ← deltaLoop (fun j => d3Sample unfolded L gridsize useSimpson (uniform lo hi (U j)))
    maxIters minIters tol 0 0 0 (List.replicate BUF 0)
  let converged := rangeBelow r.2.2 tol                       -- line 297
  return (mean r.2.2, converged, r.1)                         -- line 301

/-- rigidity.py lines 189-223, `delta_parallel`: `order` is the order in which the `prange` loop
executes, `U i` the stream of draws of iteration `i`. The three output arrays are modelled as one array
of triples. -/
def deltaParallel (order : List Nat) (unfolded Lvals : List K) (gridsize maxIters minIters : Nat)
    (tol : K) (useSimpson : Bool) (U : Nat → Nat → K) : Py (List (K × Bool × Nat)) :=
  prangeWrite order
    (fun i => deltaL unfolded (nth Lvals i) gridsize maxIters minIters tol useSimpson (U i))
    (List.replicate Lvals.length (0, false, 0))

/-- rigidity.py lines 52-186, `spectral_rigidity`. `Upilot` is the stream of draws of the pilot run.
Returns `(L, delta3, converged, iters)`. -/
def spectralRigidity (order : List Nat) (unfolded L : List K) (tol : K) (maxIters : Int)
    (gridsize : Nat) (integration : String) (Upilot : Nat → K) (U : Nat → Nat → K) :
    Py (List K × List K × List Bool × List Nat) := do
  let useSimpson := integration != "trapz"
  let budget ← (if maxIters ≤ 0 then do                       -- lines 150-174
      let Lmax ← npMax L
      let r ← deltaL unfolded Lmax RIGIDITY_GRID AUTO_MAX_ITERS (10 * MIN_ITERS) tol useSimpson Upilot
      if r.2.1 then pure (r.2.2 * 2) else Except.error .convergenceError
    else pure maxIters.toNat : Py Nat)
  let res ← deltaParallel order unfolded L gridsize budget MIN_ITERS tol useSimpson U
  return (L, res.map (·.1), res.map (·.2.1), res.map (·.2.2))

end Rigidity
end RMT
