import Verif.Model.Trim
import Verif.Model.Brody
import Verif.Model.Generate

/-!
# Model of smaller helpers

The statistics of `utils.py`, the lengths of `TrimIter`, `_validate_bin_sizes` of `plot.py`, `Compare.__histograms`, `log_brody`, and the remaining
generators of `construct.py`. Exact arithmetic.
-/

namespace RMT
namespace Helpers
open EigValsM

section Field
variable {K : Type} [Field K] [LinearOrder K]

/-- utils.py lines 136-146, `slope(x, y)`, for non-empty arrays of equal length. -/
def slope (x y : List K) : K :=
  let xDev := x.map (· - mean x)
  let yDev := y.map (· - mean y)
  let cov := (List.zipWith (· * ·) xDev yDev).sum
  let var := (List.zipWith (· * ·) xDev xDev).sum
  if var = 0 then 0 else cov / var

/-- utils.py lines 161-163, `intercept(x, y, slope)`. -/
def intercept (x y : List K) (k : K) : K := mean y - k * mean x

/-- utils.py lines 149-158, `variance(arr)`: the division `1.0 / (n - 1.0)` raises `ZeroDivisionError` in numba's default error model for one value. -/
def variance (arr : List K) : Py K :=
  if arr.length = 1 then .error .zeroDivisionError
  else
    let scale := 1 / ((arr.length : K) - 1)
    let diffs := arr.map (· - mean arr)
    let squares := diffs.map (· ^ 2)
    .ok (scale * squares.sum)

/-- plot.py lines 1273-1278: the loop of `_validate_bin_sizes` from the end point number `i` on; `counts` are the counts written so far. -/
def binCountsFrom (vals : List K) (counts : List Int) : List K → List Int
  | [] => counts
  | e :: es =>
    let below : Int := (vals.filter fun v => decide (v < e)).length
    let c := if counts.length = 0 then below else below - counts.sum
    binCountsFrom vals (counts ++ [c]) es

/-- plot.py lines 1269-1281, `_validate_bin_sizes(vals, bins)`: the counts and whether a warning is issued. An empty array raises `IndexError`. -/
def validateBinSizes (vals : List K) (bins : Nat) : Py (List Int × Bool) := do
  let vals := npSort vals
  let lo ← pyGet vals 0
  let hi ← pyGet vals (-1)
  let ends := (linspace lo hi bins).drop 1
  let counts := binCountsFrom vals [] ends
  .ok (counts, counts.any fun c => decide ((4 : ℚ) / 10 < (c : ℚ) / (vals.length : ℚ)))

/-- compare.py lines 150-156 (and 158-164): the counting loop of `__histograms` over the sorted values `vs`, entered with bin `n`. -/
def histLoop (endpoints : List K) : List K → Nat → List Int → Py (List Int)
  | [], _, counts => .ok counts
  | v :: vs, n, counts =>
    let below := decide (v < endpoints.getD n 0)
    let counts' := if below then counts.set n (counts.getD n 0 + 1) else counts
    let n' := if below then n else n + 1
    if n' ≥ counts'.length then .error .runtimeError
    else histLoop endpoints vs n' counts'

/-- compare.py lines 129-166, `Compare.__histograms(curve1, curve2, n_bins)`: `(endpoints, counts1, counts2)`. The counts start from `np.arange(n_bins)`. -/
def histograms (curve1 curve2 : List K) (nBins : Nat) : Py (List K × List Int × List Int) := do
  let v1 := npSort curve1
  let v2 := npSort curve2
  let a1 ← pyGet v1 0
  let a2 ← pyGet v2 0
  let b1 ← pyGet v1 (-1)
  let b2 ← pyGet v2 (-1)
  let endpoints := linspace (min a1 a2) (max b1 b2) (nBins + 1)
  let start := (List.range nBins).map fun (i : Nat) => (i : Int)
  let c1 ← histLoop endpoints v1 0 start
  let c2 ← histLoop endpoints v2 0 start
  .ok (endpoints, c1, c2)

end Field

section Trim
variable {α : Type}
open Trim

/-- trim.py lines 697-699, `inlier_length`. -/
def inlierLength (t : Iter α) : Nat := (t.clusters.filter fun b => !b).length

/-- trim.py lines 701-703, `outlier_length`. -/
def outlierLength (t : Iter α) : Nat := (t.clusters.filter fun b => b).length

/-- trim.py lines 705-707, `proportion_kept`; `ZeroDivisionError` for empty `origs`. -/
def proportionKept (t : Iter α) : Py ℚ :=
  if t.origs.length = 0 then .error .zeroDivisionError
  else .ok ((inlierLength t : ℚ) / (t.origs.length : ℚ))

end Trim

section Reals
open Real Ensembles Gen EigM

/-- brody.py lines 28-37, `log_brody(s, beta)`. `np.sum([t1, t2, t3])` of a number and two arrays adds elementwise in numpy 1.23 (newer versions
raise `ValueError`). -/
noncomputable def logBrody (s : List ℝ) (beta : ℝ) : List ℝ :=
  let b1 := beta + 1
  let alpha := Gamma ((beta + 2) / b1) ^ b1
  let s := s.filter fun x => 0 < x
  let t1 := log (b1 * alpha)
  s.map fun x => t1 + beta * log x + alpha * x ^ b1

/-- construct.py lines 203-206: the tridiagonal matrix of `_generate_GOE_tridiagonal_direct`, with diagonal and off-diagonal from the draws. Unlike in
`_generate_GOE_tridiagonal` the off-diagonal is not divided by `√2`. -/
noncomputable def directMatrix (size : Nat) (chi2 z : List ℝ) : Matrix (Fin size) (Fin size) ℝ := fun i j =>
  if i.val = j.val then (√2 * z.getD i.val 0) / √2
  else if i.val = j.val + 1 then √(chi2.getD j.val 0)
  else if j.val = i.val + 1 then √(chi2.getD i.val 0)
  else 0

/-- construct.py lines 187-219, `_generate_GOE_tridiagonal_direct(size)`: `eigvalsh_tridiagonal` with `select="i"` and `select_range=(1, size - 2)` returns the ascending eigenvalues with
these (0-based, inclusive) indices, for the size increased by 2. -/
noncomputable def generateDirect {σ : Type} (R : Rng σ) (eigvalsh : EigSolver) (n : Nat) (seed : Option Nat) (s : σ) : List ℝ × σ :=
  let size := n + 2
  let c := chisquares R (chiRange size) (seedIfGiven R seed s)
  let d := normals R size c.2
  (((npSort (eigvalsh size (directMatrix size c.1 d.1))).drop 1).take (size - 2), d.2)

/-- construct.py lines 222-225, `_generate_poisson`: a diagonal matrix. -/
noncomputable def generatePoisson {σ : Type} (R : Rng σ) (n : Nat) (seed : Option Nat) (s : σ) : Matrix (Fin n) (Fin n) ℝ × σ :=
  let d := normals R n (seedIfGiven R seed s)
  (Matrix.diagonal fun i => d.1.getD i.val 0, d.2)

/-- construct.py lines 142-155, `time_series_eigs(n, t, dist)`: for another `dist` than `"normal"` the variable `M_time` is unbound. Calls with a single row, for which `np.cov` is 0-dimensional,
raise `ValueError` (indexing in `correlate_fast`). -/
noncomputable def timeSeriesEigs {σ : Type} (R : Rng σ) (eigvalsh : EigSolver) (n t : Nat) (dist : String) (s : σ) : Py (List ℝ) × σ :=
  if dist = "normal" then
    let d := normals R (n * t) s
    let X : Matrix (Fin n) (Fin t) ℝ := fun i j => d.1.getD (i.val * t + j.val) 0
    if n = 1 then (.error .valueError, d.2)
    else (.ok (eigvalsh n (correlateFast X 0)), d.2)
  else (.error .unboundLocalError, s)

end Reals
end Helpers
end RMT
