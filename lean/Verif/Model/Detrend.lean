import Verif.Model.Rigidity
import Verif.Model.EigVals
import Mathlib.Analysis.Real.Sqrt

/-!
# Model of `empyricalRMT/signalproc/detrend.py`, `empyricalRMT/signalproc/clean.py` and `Eigenvalues.detrend`

Exact arithmetic over an ordered field `K` (`get_signals`, which takes square roots, over `ℝ`). The library fits are
parameters: PyEMD's decomposition (a list of components), numpy's `Polynomial.fit(…, deg=2)` (a function of one variable) and the
correlation coefficient, p-value and standard error computed by scipy's `linregress` besides slope and intercept.
-/

namespace RMT
namespace Detrending
open EigValsM

variable {K : Type}

/-- signalproc/detrend.py lines 20-23, the members of `DetrendMethod`. -/
inductive Method where
  | emd | linear | quadratic
  deriving DecidableEq, Repr

/-- The values of the members (signalproc/detrend.py lines 21-23). -/
def Method.value : Method → String
  | .emd => "emd"
  | .linear => "linear"
  | .quadratic => "quadratic"

/-- A Python value passed as `method`: a string, a member, `None` or something else. -/
inductive MethodArg where
  | str (s : String)
  | member (m : Method)
  | none
  | other
  deriving DecidableEq, Repr

/-- signalproc/detrend.py lines 28-36, `DetrendMethod.validate`: strings are converted to members or rejected with `ValueError`, anything else is
returned as it is. -/
def validate : MethodArg → Py MethodArg
  | .str s => match [Method.emd, .linear, .quadratic].find? (fun m => m.value == s) with
    | some m => .ok (.member m)
    | Option.none => .error .valueError
  | v => .ok v

/-- `np.arange(0, n)`. -/
def arange [NatCast K] (n : Nat) : List K := (List.range n).map fun (i : Nat) => (i : K)

/-- The library routines. -/
structure Lib (K : Type) where
  /-- `EMD().emd(y)`: the components, the last one being the trend. -/
  emd : List K → List (List K)
  /-- `Polynomial.fit(x, y, deg=2)` as a function. -/
  quad : List K → List K → K → K
  /-- `rvalue`, `pvalue` and `stderr` of `scipy.stats.linregress`. -/
  regressRest : List K → List K → K × K × K

section Field
variable [Field K]

/-- An entry of `np.cov(x, y, bias=1)`. -/
def covBias (x y : List K) : K :=
  (List.zipWith (· * ·) (x.map (· - mean x)) (y.map (· - mean y))).sum / (x.length : K)

/-- Elementwise difference of two arrays. -/
def sub (y t : List K) : List K := List.zipWith (· - ·) y t

end Field

section Ordered
variable [Field K] [LinearOrder K]

/-- `scipy.stats.linregress(x, y)` for arrays of the same length, as the tuple of its five components. Empty arrays and several points with the same abscissa
raise `ValueError`. (A single point gives NaN in the library; the theorems are about at least two points.) -/
def linregress (lib : Lib K) (x y : List K) : Py (List K) :=
  if x = [] ∨ y = [] then .error .valueError
  else if 1 < x.length ∧ ∀ a ∈ x, a = x.headD 0 then .error .valueError
  else
    let k := covBias x y / covBias x x
    let b := mean y - k * mean x
    let r := lib.regressRest x y
    .ok [k, b, r.1, r.2.1, r.2.2]

/-- `m, b = t` for a tuple `t`: `ValueError` unless it has exactly two components. -/
def unpack2 : List K → Py (K × K)
  | [m, b] => .ok (m, b)
  | _ => .error .valueError

/-- `t[-1]` for the list of components. -/
def lastComponent (t : List (List K)) : Py (List K) := pyGet t (-1)

/-- signalproc/detrend.py lines 46-52: the trend. If `method` is not a member the local variable `trend` is unbound (line 67). -/
def trendOf (lib : Lib K) (y : List K) : MethodArg → Py (List K)
  | .member .emd => lastComponent (lib.emd y)
  | .member .linear => do
    let t ← linregress lib (arange y.length) y
    let (m, b) ← unpack2 (t.take 2)
    .ok ((arange y.length).map fun t => m * t + b)
  | .member .quadratic => .ok ((arange y.length).map (lib.quad (arange y.length) y))
  | _ => .error .unboundLocalError

/-- signalproc/detrend.py lines 42-67, `detrend(eigs, method)`. -/
def detrend (lib : Lib K) (y : List K) (method : MethodArg) : Py (List K) := do
  let m ← validate method
  let trend ← trendOf lib y m
  .ok (sub y trend)

/-- signalproc/detrend.py lines 74-80, `Detrend.linear`: all five components are unpacked into two variables. -/
def detrendLinear (lib : Lib K) (y : List K) : Py (List K) := do
  let t ← linregress lib (arange y.length) y
  let (m, b) ← unpack2 t
  .ok (sub y ((arange y.length).map fun t => m * t + b))

/-- signalproc/detrend.py lines 82-86, `Detrend.emd`. -/
def detrendEmd (lib : Lib K) (y : List K) : Py (List K) := do
  let trend ← lastComponent (lib.emd y)
  .ok (sub y trend)

end Ordered

/-- signalproc/detrend.py lines 88-93, `Detrend.difference`: `len(series - 1)` is the length of the series, so the array made by `np.empty` (contents
`junk`) is one entry too long and the last entry is never written. -/
def difference [Field K] (y junk : List K) : List K :=
  (List.range (y.length - 1)).foldl (fun out i => out.set i (nth y (i + 1) - nth y i)) junk

/-- signalproc/detrend.py lines 102-107: the body of `linear_detrend` for one row, `m` being the number of rows. -/
def linearDetrendRow [Field K] [LinearOrder K] (m : Nat) (y : List K) : List K :=
  let x : List K := arange y.length
  let a := Rigidity.slope x y
  let b := Rigidity.intercept x y a
  let fitted := x.map fun t => (m : K) * t + b
  sub y fitted

/-- signalproc/detrend.py lines 96-107, `linear_detrend(signals, ret)`; `order` is the order in which the `prange` iterations run. -/
def linearDetrend [Field K] [LinearOrder K] (order : List Nat) (signals ret : List (List K)) :
    Py (List (List K)) :=
  prangeWrite order (fun i => .ok (linearDetrendRow signals.length (signals.getD i []))) ret

/-- signalproc/detrend.py lines 110-115, `mean_detrend(signals, ret)`. -/
def meanDetrend [Field K] (order : List Nat) (signals ret : List (List K)) : Py (List (List K)) :=
  prangeWrite order
    (fun i => let y := signals.getD i []; .ok (y.map fun v => v - mean y)) ret

/-! ## `Eigenvalues.detrend` -/

/-- An `Eigenvalues` object with its attribute `deterending` (eigenvalues.py line 59). -/
structure DetObj (K : Type) where
  obj : Obj K
  detrending : MethodArg

/-- `Eigenvalues(values)` (eigenvalues.py lines 34-59): no detrending. -/
def newEigenvalues [LinearOrder K] (l : List K) (m : MethodArg) : Py (DetObj K) := do
  let o ← initEigVals1d l
  .ok ⟨o, m⟩

/-- eigenvalues.py lines 308-313, `Eigenvalues.detrend`. -/
def eigenvaluesDetrend [Field K] [LinearOrder K] (lib : Lib K) (o : DetObj K) (method : MethodArg) :
    Py (DetObj K) :=
  if o.detrending ≠ .none then .error .valueError
  else do
    let d ← detrend lib o.obj.vals method
    newEigenvalues d method

/-! ## `get_signals` -/

/-- `np.var(row)`. -/
noncomputable def npVar (row : List ℝ) : ℝ := mean (row.map fun v => (v - mean row) ^ 2)

/-- `np.linalg.norm(row)`. -/
noncomputable def norm2 (row : List ℝ) : ℝ := Real.sqrt (row.map fun v => v ^ 2).sum

/-- clean.py lines 26-29: the mask entry after the body for one row, starting from `old`. -/
noncomputable def maskBody (threshold : ℝ) (row : List ℝ) (old : Bool) : Bool :=
  let m1 := if npVar row ≤ threshold then false else old
  if norm2 row ≤ threshold then false else m1

/-- clean.py lines 22-29, `fill_mask`. -/
noncomputable def fillMask (order : List Nat) (mask : List Bool) (rows : List (List ℝ)) (threshold : ℝ) :
    Py (List Bool) :=
  prangeWrite order (fun i => .ok (maskBody threshold (rows.getD i []) (mask.getD i true))) mask

/-- The argument of `get_signals`: the rows of a 2-D array, or an array of another dimension. -/
inductive SignalArg where
  | dim2 (rows : List (List ℝ))
  | other

/-- `arr2d[mask == 1]`. -/
def selectRows {α : Type} (rows : List α) (mask : List Bool) : List α :=
  ((rows.zip mask).filter fun p => p.2).map Prod.fst

/-- clean.py lines 9-19, `get_signals`. -/
noncomputable def getSignals (order : List Nat) (a : SignalArg) (threshold : ℝ) : Py (List (List ℝ)) :=
  match a with
  | .other => .error .exception
  | .dim2 rows => do
    let mask ← fillMask order (List.replicate rows.length true) rows threshold
    .ok (selectRows rows mask)

end Detrending
end RMT
