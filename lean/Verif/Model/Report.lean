import Verif.Model.Trim
import Verif.Model.Smoother

/-!
# Model of the summary and selection part of `empyricalRMT/trim.py`, and of `Eigenvalues.get_best_trimmed`

Exact arithmetic (the summary table is stored as float32 by the code; `Model/Stored.lean` models that).  The frames produced by pandas are
lists of named columns.
-/

namespace RMT
namespace Report
open Smooth Trim EigValsM Format Utils

variable {K : Type} [Field K] [LinearOrder K]

/-- trim.py lines 662-676, `__evaluate_unfolding`: mean and sample variance of the spacings, and the GOE
score. Constants from `_constants.py` lines 5-6. -/
def evaluateUnfolding (u : List K) : K × K × K :=
  let spacings := List.zipWith (fun b a => b - a) (u.drop 1) (u.take (u.length - 1))
  let m := mean spacings
  let v := varSample spacings
  let expectedMean : K := 1
  let expectedVar : K := 286 / 1000
  let meanWeight : K := 1 / 2
  let meanNorm := (m - expectedMean) / expectedMean
  let varNorm := (v - expectedVar) / expectedVar
  (m, v, varNorm + meanWeight * meanNorm)

/-- `arr[i, k] = v` on one row of the array. -/
def writeCell (row : List K) (k : Nat) (v : K) : Py (List K) :=
  if k < row.length then .ok (row.set k v) else .error .indexError

/-- trim.py lines 636-647: the inner loop over the columns of `trim.unfolds`, starting with column number
`j`. `dup name`: the frames have more than one column of that name. Then `trim.msqes[col]` is a frame and not a single
number, and storing it in one cell (line 646) raises `ValueError`; the (different) mean and variance stored before are lost. -/
def fillCols (dup : String → Bool) (j : Nat) (cols : List (Col K)) (row : List K) : Py (List K) :=
  match cols with
  | [] => .ok row
  | c :: cs => do
    let e := evaluateUnfolding c.unfolded
    let r1 ← writeCell row (4 * j + 3) e.1
    let r2 ← writeCell r1 (4 * j + 4) e.2.1
    if dup c.name then .error .valueError else
    let r3 ← writeCell r2 (4 * j + 5) c.msqe
    let r4 ← writeCell r3 (4 * j + 6) e.2.2
    fillCols dup (j + 1) cs r4

/-- trim.py lines 713-715, `percent_removed`. -/
def percentRemoved (t : Iter K) : ℚ :=
  round1 (100 - 100 * (t.eigs.length : ℚ) / (t.origs.length : ℚ))

/-- trim.py lines 717-720, `lower_percent_removed`. -/
def lowerPercentRemoved (t : Iter K) : Py ℚ := do
  let k ← t.lowerTrimLength
  .ok (round1 (100 * (k : ℚ) / (t.origs.length : ℚ)))

/-- trim.py lines 722-725, `upper_percent_removed`. -/
def upperPercentRemoved (t : Iter K) : Py ℚ := do
  let k ← t.upperTrimLength
  .ok (round1 (100 * (k : ℚ) / (t.origs.length : ℚ)))

/-- trim.py lines 628-647: one row of the summary array. -/
def summaryRow (width : Nat) (t : Iter K) (cols : List (Col K)) : Py (List K) := do
  let r0 := List.replicate width (0 : K)
  let r1 ← writeCell r0 0 (percentRemoved t : K)
  let lo ← lowerPercentRemoved t
  let r2 ← writeCell r1 1 (lo : K)
  let hi ← upperPercentRemoved t
  let r3 ← writeCell r2 2 (hi : K)
  fillCols (fun n => decide (1 < (cols.map (·.name)).count n)) 0 cols r3

/-- trim.py lines 649-656: the column names of the summary. -/
def summaryNames (names : List String) : List String :=
  ["trim_percent", "trim_low", "trim_high"] ++ names.flatMap fun n =>
    [n ++ "--mean_spacing", n ++ "--var_spacing", n ++ "--msqe", n ++ "--score"]

/-- A `TrimReport`: iterations, the unfoldings of each, and the summary (column names and rows). -/
structure TrimReport (K : Type) where
  iters : List (Iter K)
  unfoldings : List (List (Col K))
  names : List String
  rows : List (List K)

/-- trim.py lines 229-251 and 581-660, the constructor of `TrimReport`. Simplification: the fits are
computed after the trimming; in the code each iteration is fitted when it is constructed, including a
last one that may then be discarded, so exceptions of the fitting routines may appear earlier (`Objects.mkReportFit` models that order; C129 compares the two). -/
def mkReport (hbos : List K → List Bool) (F : Fitters K) (eigenvalues : List K)
    (maxTrim : ℚ) (maxIters : Nat) (a : FitArgs) : Py (TrimReport K) := do
  let iters ← trimIters hbos eigenvalues maxTrim maxIters
  let unfoldings ← mapPy (fun t => fitAll F (npSort t.eigs) a) iters
  let names := smootherNames a
  let rows ← mapPy (fun p => summaryRow (names.length * 4 + 3) p.1 p.2) (iters.zip unfoldings)
  .ok { iters := iters, unfoldings := unfoldings, names := summaryNames names, rows := rows }

/-- `df[name]` for a frame given by its column names, at one row. The columns of a report which has
been built have distinct names (C30), so the first of that name is the only one. -/
def cell (names : List String) (row : List K) (name : String) : Py K :=
  match names.idxOf? name with
  | none => .error .keyError
  | some k => match row[k]? with
    | some v => .ok v
    | none => .error .keyError

/-- `unfolding[name]`: the column of that name. -/
def getCol (cols : List (Col K)) (name : String) : Py (Col K) :=
  match cols.find? (fun c => c.name == name) with
  | none => .error .keyError
  | some c => .ok c

/-- `"score"` occurs in the column name (`filter(regex="score")`). -/
def isScoreName (s : String) : Bool := decide ("score".toList <:+: s.toList)

/-- trim.py line 508: the score columns, absolute values: name and one entry per row. -/
def scoreCols (r : TrimReport K) : List (String × List K) :=
  (r.names.zipIdx.filter fun p => isScoreName p.1).map fun p =>
    (p.1, r.rows.map fun row => |row.getD p.2 0|)

/-- pandas `quantile(q)` of a non-empty column, linear interpolation. -/
def quantile (q : ℚ) (l : List K) : K :=
  let s := npSort l
  let h : ℚ := (s.length - 1 : ℚ) * q
  let k := h.floor.toNat
  let frac : ℚ := h - k
  s.getD k 0 + (s.getD (k + 1) (s.getD k 0) - s.getD k 0) * (frac : K)

/-- trim.py line 509, `scores[scores < scores.quantile(0.9)].mean()` for one column: the mean of
the entries below the 0.9 quantile, NaN (`none`) if there are none. -/
def maskedMean (l : List K) : Option K :=
  let kept := l.filter fun x => decide (x < quantile (9 / 10) l)
  if kept.length = 0 then none else some (mean kept)

/-- Order of `sort_values()`: NaN last. -/
def leNaN : Option K → Option K → Bool
  | some a, some b => decide (a ≤ b)
  | some _, none => true
  | none, some _ => false
  | none, none => true

/-- trim.py line 509: `mean_best[0]`, the name of the first column after `sort_values` (ties are
resolved here by column order). -/
def bestScoreCol (cols : List (String × List K)) : Py (String × List K) :=
  match cols.mergeSort (fun a b => leNaN (maskedMean a.2) (maskedMean b.2)) with
  | [] => .error .indexError
  | c :: _ => .ok c

/-- `idxmin` of a column: the first position of the smallest value. -/
def idxMin (l : List K) : Py Nat :=
  match l with
  | [] => .error .valueError
  | a :: as => .ok (l.idxOf (minOf a as))

/-- `s.replace("--score", "")` for a name ending in `--score`. -/
def dropScore (s : String) : String := String.ofList (s.toList.take (s.toList.length - 7))

/-- A pattern matches the beginning of a string: `.` matches any character (`re`, for patterns whose only metacharacter is `.`;
names contain no line breaks). -/
def dotPrefix : List Char → List Char → Bool
  | [], _ => true
  | _ :: _, [] => false
  | p :: ps, c :: cs => (p == '.' || p == c) && dotPrefix ps cs

/-- `re.search(p, s)` succeeds (`filter(regex=p)` on one column name). -/
def dotSearch (p s : List Char) : Bool := s.tails.any (dotPrefix p)

/-- trim.py line 510, `self.summary.filter(regex=pat)` and `abs()` (line 511): the selected columns. -/
def regexCols (r : TrimReport K) (pat : String) : List (List K) :=
  (r.names.zipIdx.filter fun p => dotSearch pat.toList p.1.toList).map fun p =>
    r.rows.map fun row => |row.getD p.2 0|

/-- `Series.item()`: the single entry, `ValueError` otherwise. -/
def item {α : Type} (l : List α) : Py α :=
  match l with
  | [a] => .ok a
  | _ => .error .valueError

/-- trim.py lines 507-514, `_get_autounfold_vals`. -/
def autounfoldVals (r : TrimReport K) : Py (List K × List K) := do
  let best ← bestScoreCol (scoreCols r)
  let ids ← mapPy idxMin (regexCols r best.1)
  let id ← item ids
  let unf ← pyGet r.unfoldings id
  let c ← getCol unf (dropScore best.1)
  let t ← pyGet r.iters id
  .ok (t.eigs, c.unfolded)

/-- trim.py lines 394-399: names of (at most) the three score columns with the smallest minimum. -/
def bestCols (r : TrimReport K) : List (String × List K) :=
  ((scoreCols r).mergeSort fun a b => decide (a.2.foldl min (a.2.headD 0) ≤ b.2.foldl min (b.2.headD 0))).take 3

/-- `list.index`; raises `ValueError` if absent. -/
def listIndex (l : List K) (x : K) : Py Nat :=
  match l.idxOf? x with
  | none => .error .valueError
  | some k => .ok k

/-- trim.py lines 412-417: the pair of indices `best_overall` computes for the kept values `eigs` of one iteration. -/
def bestIndices (untrimmed eigs : List K) : Py (Nat × Nat) := do
  let s ← pyGet eigs 0
  let e ← pyGet eigs (-1)
  let i ← listIndex untrimmed s
  let j ← listIndex untrimmed e
  .ok (i, j + 1)

/-- trim.py lines 355-451, `best_overall`: returns the best trim indices (the other results, computed after the
loop over `best_smoother_cols`, are never returned: the loop raises, see C33). -/
def bestOverall (untrimmed : List K) (r : TrimReport K) : Py (List (Nat × Nat)) := do
  let best := bestCols r
  let _rows ← mapPy (fun c => idxMin c.2) best                                     -- line 401
  let _unf ← mapPy (fun cols => mapPy (fun c => getCol cols (dropScore c.1)) best) r.unfoldings   -- 403-404
  let means := r.rows.zipIdx.map fun p =>                                         -- lines 408-409
    (mean ((scoreCols r).map fun c => c.2.getD p.2 0), p.2)
  let best3 := (means.mergeSort fun a b => decide (a.1 ≤ b.1)).take 3
  let idx ← mapPy (fun p => do                                                    -- lines 411-418
    let t ← pyGet r.iters p.2
    bestIndices untrimmed t.eigs) best3
  let _items ← mapPy (fun c => do                                                  -- lines 423-436
    let i ← idxMin c.2
    let row ← pyGet r.rows i
    let base := String.ofList (c.1.toList.take (c.1.toList.length - 5))
    let cells ← mapPy (cell r.names row)
      ["trim_percent", "trim_low", "trim_high", base ++ "mean_spacing", base ++ "var_spacing", c.1]
    item cells) best
  .ok idx

/-- eigenvalues.py lines 586-589, `trim_manually`: the values of the returned `Trimmed`. -/
def trimManually (vals : List K) (start stop : Int) : Py (List K) := do
  let o ← initEigVals1d (pySlice vals start stop)
  .ok o.vals

/-- eigenvalues.py lines 393-486, `get_best_trimmed`: comparisons `smoother == "poly"` are `False` for
members of `SmoothMethod` (a plain `Enum`). -/
def getBestTrimmed (hbos : List K → List Bool) (F : Fitters K) (vals : List K) (smoother : PyVal)
    (degree : Int) (splineSmooth : ℚ) (maxIters : Nat) (maxTrim : ℚ) (detrend : Bool) :
    Py (List K) := do
  let report ← (
    if smoother = .str "poly" then
      mkReport hbos F vals maxTrim maxIters ⟨[degree], .list [], [], .pyFalse, detrend⟩
    else if smoother = .str "spline" then
      mkReport hbos F vals maxTrim maxIters ⟨[], .list [splineSmooth], [degree], .pyFalse, detrend⟩
    else if smoother = .str "gompertz" then
      mkReport hbos F vals maxTrim maxIters ⟨[], .list [], [], .pyTrue, detrend⟩
    else .error .valueError)
  let best ← bestOverall (npSort vals) report
  let b0 ← pyGet best 0
  trimManually vals b0.1 b0.2

end Report
end RMT
