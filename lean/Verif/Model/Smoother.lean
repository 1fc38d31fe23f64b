import Verif.Model.EigVals
import Verif.Model.Format
import Mathlib.Data.Rat.Cast.Defs

/-!
# Model of `empyricalRMT/smoother.py` and `empyricalRMT/detrend.py`

Exact arithmetic over an ordered field `K`.  Library fits are arbitrary functions collected in
`Fitters`: `numpy`'s `polyfit`, scipy's `UnivariateSpline` and `curve_fit`, the exponential function, the
float power, and the last component ("trend") of PyEMD's decomposition.
-/

namespace RMT
namespace Smooth
open EigValsM Format

/-- smoother.py lines 30-36, the members of `SmoothMethod`. -/
inductive SmoothMethod where
  | polynomial | spline | exponential | gompertz | goe | poisson
  deriving DecidableEq, Repr

/-- The values of the members (smoother.py lines 31-36). -/
def SmoothMethod.value : SmoothMethod → String
  | .polynomial => "poly"
  | .spline => "spline"
  | .exponential => "exp"
  | .gompertz => "gompertz"
  | .goe => "goe"
  | .poisson => "poisson"

/-- `list(SmoothMethod)`. -/
def allMethods : List SmoothMethod :=
  [.polynomial, .spline, .exponential, .gompertz, .goe, .poisson]

/-- Python values that can be passed as `smoother`, `degree` or `spline_smooth`. -/
inductive PyVal where
  | none
  | bool (b : Bool)
  | int (i : Int)
  | float (q : ℚ)
  | str (s : String)
  | method (m : SmoothMethod)
  | callable
  | other
  deriving DecidableEq, Repr

/-- smoother.py lines 38-46, `SmoothMethod.validate`: strings are converted to members or rejected with
`ValueError`; anything else is returned as it is. -/
def validate : PyVal → Py PyVal
  | .str s => match allMethods.find? (fun m => m.value == s) with
    | some m => .ok (.method m)
    | .none => .error .valueError
  | v => .ok v

/-- `isinstance(v, int)` with its value (`bool` is a subclass of `int`). -/
def PyVal.asInt : PyVal → Option Int
  | .int i => some i
  | .bool b => some (if b then 1 else 0)
  | _ => Option.none

/-- `float(v)` for `v` not `None`, not "heuristic" (smoother.py line 361). Numeric strings are not distinguished from other
strings (`ValueError`): `fit` rejects them with the same exception in lines 139-140. -/
def PyVal.floatConv : PyVal → Py Unit
  | .int _ | .bool _ | .float _ => .ok ()
  | .str _ => .error .valueError
  | _ => .error .typeError

/-- smoother.py lines 331-382, `__validate_args`. (`fit` passes no `detrend` and no `method`, so lines 376-382 do nothing.
Warnings are not modelled.) -/
def validateArgs (smoother degree splineSmooth : PyVal) : Py Unit := do
  let s ← validate smoother
  match s with
  | .method .polynomial => match degree.asInt with
    | none => .error .valueError
    | some d => if d < 3 then .error .valueError else .ok ()
  | .method .spline => match degree.asInt with
    | none => .error .valueError
    | some d =>
      if d > 5 then .error .valueError
      else if splineSmooth = .none ∨ splineSmooth = .str "heuristic" then .ok ()
      else splineSmooth.floatConv
  | .method _ => .ok ()
  | .callable => .error .notImplementedError
  | _ => .error .valueError

/-- Library routines used for fitting. -/
structure Fitters (K : Type) where
  /-- `numpy.polynomial.polynomial.polyfit(x, y, deg)`: coefficients, lowest degree first -/
  polyfit : List K → List K → Int → Py (List K)
  /-- `UnivariateSpline(x, y, k=, s=)`, evaluated at one point -/
  spline : List K → List K → Int → K → Py (K → K)
  /-- `curve_fit` of `a * exp(-b t)` -/
  fitExp : List K → List K → Py (K × K)
  /-- `curve_fit` of `gompertz` -/
  fitGompertz : List K → List K → Py (K × K × K)
  /-- `np.exp` -/
  exp : K → K
  /-- `n ** s` for an integer `n` and a float `s` -/
  pow : Nat → ℚ → ℚ
  /-- `EMD().emd(x)[-1]` -/
  trend : List K → List K

variable {K : Type} [Field K] [LinearOrder K]

/-- `numpy.polynomial.polynomial.polyval` at one point (Horner's scheme, coefficients lowest degree
first). -/
def polyval (c : List K) (x : K) : K := c.foldr (fun a acc => a + acc * x) 0

/-- exponentials.py lines 46-48, `gompertz`. -/
def gompertzFn (exp : K → K) (a b c x : K) : K := a * exp (-b * exp (-c * x))

/-- smoother.py line 154. -/
def exponentialFn (exp : K → K) (t a b : K) : K := a * exp (-b * t)

/-- `np.var(l, ddof=1)` (for fewer than two values numpy gives NaN; here 0). -/
def varSample (l : List K) : K :=
  (l.map fun x => (x - mean l) ^ 2).sum / ((l.length : K) - 1)

/-- The third component returned by `fit`. -/
inductive Closure (K : Type) where
  /-- `None` -/
  | none
  /-- a function of one array, returning an array or `None` -/
  | unary (f : List K → Option (List K))
  /-- a function of three arguments (smoother.py line 154) -/
  | ternary (f : K → K → K → K)

/-- The result of `fit`. -/
structure FitResult (K : Type) where
  unfolded : List K
  steps : List K
  func : Closure K

/-- detrend.py lines 29-36: the fluctuations `delta_n`. -/
def emdDelta (u : List K) : List K :=
  let sp := diff u
  let sav := mean sp
  let si := sp.map (· - sav)
  (List.range u.length).map fun (n : Nat) => (si.take n).sum

/-- detrend.py lines 10-51, `emd_detrend`. (For a single value the mean spacing is NaN in numpy, but it
is not used then; empty input is not modelled: PyEMD raises.) -/
def emdDetrend (trend : List K → List K) (u : List K) : List K :=
  let sav := mean (diff u)
  let deltaN := emdDelta u
  let tr := trend deltaN
  let detrended := List.zipWith (· - ·) deltaN tr
  (List.range u.length).map fun (i : Nat) =>
    if i = 0 then u.getD 0 0
    else detrended.getD (i - 1) 0 + u.getD 0 0 + ((i : K) - 1) * sav

/-- smoother.py line 117: `np.arange(0, len(eigs)) + 1`. -/
def stepsOf (n : Nat) : List K := (List.range n).map fun (i : Nat) => (i : K) + 1

/-- smoother.py lines 74-174, `Smoother.fit`; `eigs` is `self._eigs` (sorted). -/
def fit (F : Fitters K) (eigs : List K) (smoother degree splineSmooth : PyVal)
    (detrend returnCallable : Bool) : Py (FitResult K) := do
  let steps := stepsOf eigs.length
  validateArgs smoother degree splineSmooth                                       -- line 118
  let post := fun (u : List K) => if detrend then emdDetrend F.trend u else u
  match smoother with
  | .method .polynomial =>                                                        -- lines 120-126
    match degree.asInt with
    | none => .error .typeError
    | some d =>
      let coef ← F.polyfit eigs steps d
      let unfolded := eigs.map (polyval coef)
      .ok { unfolded := post unfolded, steps := steps,
            func := .unary fun xs => if returnCallable then some (xs.map (polyval coef)) else none }
  | .method .spline =>                                                            -- lines 128-151
    match degree.asInt with
    | none => .error .typeError
    | some k =>
      let s ← (match splineSmooth with
        | .str "heuristic" => .ok ((eigs.length : K) * varSample eigs)
        | .float q => .ok (q : K)
        | _ => .error .valueError : Py K)
      let spl ← F.spline eigs steps k s
      .ok { unfolded := post (eigs.map spl), steps := steps,
            func := if returnCallable then .unary fun xs => some (xs.map spl) else .none }
  | .method .exponential => do                                                    -- lines 153-164
    let (a, b) ← F.fitExp eigs steps
    .ok { unfolded := post (eigs.map fun t => exponentialFn F.exp t a b), steps := steps,
          func := .ternary (exponentialFn F.exp) }
  | .method .gompertz => do                                                       -- lines 166-173
    let (a, b, c) ← F.fitGompertz eigs steps
    .ok { unfolded := post (eigs.map (gompertzFn F.exp a b c)), steps := steps,
          func := .unary fun xs =>
            if returnCallable then some (xs.map (gompertzFn F.exp a b c)) else none }
  | _ => .error .runtimeError                                                     -- line 174

/-- smoother.py lines 52-53, `_spline_name`. -/
def splineName (d : Int) : String :=
  if d = 3 then "cubic" else if d = 4 then "quartic" else if d = 5 then "quintic"
  else "deg" ++ pyStrInt d

/-- smoother.py lines 227 and 301: `f"poly_{d}"`. -/
def polyName (d : Int) : String := "poly_" ++ pyStrInt d

/-- smoother.py lines 258, 322: the name of a spline column, `k` decimals. -/
def splineCol (k : Nat) (d : Int) (s : ℚ) : String := splineName d ++ "-spline_" ++ fmtFixed k s

/-- smoother.py lines 241 (`k = 2`) and 310 (`k = 3`): heuristic spline column. -/
def splineColHeur (k : Nat) (d : Int) (s : ℚ) : String := splineCol k d s ++ "_heuristic"

/-- `_constants.py` line 13, `DEFAULT_SPLINE_SMOOTHS` (exact values; the floats differ from them by
rounding errors that do not affect the formatted names). -/
def defaultSplineSmooths : List ℚ :=
  [2 / 5, 1 / 2, 3 / 5] ++ (List.range 16).map fun (i : Nat) => 7 / 10 + (i : ℚ) / 60

/-- The argument `spline_smooths`: a list of floats or the string "heuristic". -/
inductive SmoothsArg where
  | heuristic
  | list (l : List ℚ)

/-- The argument `gompertz`: only `True` satisfies `gompertz is True`; other values are truthy or
falsy. -/
inductive Flag where
  | pyTrue | pyFalse | otherTruthy | otherFalsy
  deriving DecidableEq

/-- `if gompertz:` -/
def Flag.truthy : Flag → Bool
  | .pyTrue | .otherTruthy => true
  | _ => false

/-- `gompertz is True` -/
def Flag.isTrue : Flag → Bool
  | .pyTrue => true
  | _ => false

/-- The smoother arguments of `fit_all`. -/
structure FitArgs where
  polyDegrees : List Int
  smooths : SmoothsArg
  splineDegrees : List Int
  gompertz : Flag
  detrend : Bool

/-- One column of the frames returned by `fit_all`. -/
structure Col (K : Type) where
  name : String
  unfolded : List K
  spacings : List K
  msqe : K
  closure : Closure K

/-- smoother.py lines 228-236 (and the identical 242-253, 259-270, 273-281): one fit of `fit_all`. -/
def fitOne (F : Fitters K) (eigs : List K) (detrend : Bool) (name : String)
    (smoother degree splineSmooth : PyVal) : Py (Col K) := do
  let r ← fit F eigs smoother degree splineSmooth detrend true
  let unfolded := npSort r.unfolded
  .ok { name := name
        msqe := mean ((List.zipWith (· - ·) r.unfolded r.steps).map (· ^ 2))
        unfolded := unfolded
        spacings := diff unfolded
        closure := r.func }

/-- A Python `for` loop appending results: stops at the first exception. -/
def mapPy {α β : Type} (f : α → Py β) : List α → Py (List β)
  | [] => .ok []
  | a :: l => match f a with
    | .error e => .error e
    | .ok b => match mapPy f l with
      | .error e => .error e
      | .ok bs => .ok (b :: bs)

/-- The pending calls of `fit` made by `fit_all`, in order: column name, smoother, degree and smoothing factor
(smoother.py lines 226-281). Defaults: degree 7, `spline_smooth` 1.4 (`_constants.py` lines 8-9). -/
def fitCalls (F : Fitters K) (n : Nat) (a : FitArgs) : List (String × PyVal × PyVal × PyVal) :=
  (a.polyDegrees.map fun (d : Int) => (polyName d, .method .polynomial, .int d, .float (7 / 5))) ++
  (match a.smooths with
    | .heuristic => defaultSplineSmooths.flatMap fun s => a.splineDegrees.map fun (d : Int) =>
        (splineColHeur 2 d s, .method .spline, .int d, .float (F.pow n s))
    | .list l => l.flatMap fun s => a.splineDegrees.map fun (d : Int) =>
        (splineCol 3 d s, .method .spline, .int d, .float s)) ++
  (if a.gompertz.truthy then [("gompertz", .method .gompertz, .int 7, .float (7 / 5))] else [])

/-- smoother.py lines 176-285, `fit_all`: the columns of the returned frames. -/
def fitAll (F : Fitters K) (eigs : List K) (a : FitArgs) : Py (List (Col K)) :=
  mapPy (fun c => fitOne F eigs a.detrend c.1 c.2.1 c.2.2.1 c.2.2.2) (fitCalls F eigs.length a)

/-- smoother.py lines 287-329, `_get_smoother_names` (arguments of the documented types, so no `ValueError`). -/
def smootherNames (a : FitArgs) : List String :=
  (a.polyDegrees.map polyName) ++
  (match a.smooths with
    | .heuristic => defaultSplineSmooths.flatMap fun s => a.splineDegrees.map fun (d : Int) =>
        splineColHeur 3 d s
    | .list l => l.flatMap fun s => a.splineDegrees.map fun (d : Int) => splineCol 3 d s) ++
  (if a.gompertz.isTrue then ["gompertz"] else [])

end Smooth
end RMT
