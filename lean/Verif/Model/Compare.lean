import Verif.Model.EigVals
import Verif.Model.Eigenvalues

/-!
# Model of `empyricalRMT/compare.py` and of the comparison in `Unfolded.ensemble_compare`

Exact arithmetic over an ordered field `K` (`correlate` over `ℝ`).  The unused private method `__histograms` is not modelled here.
-/

namespace RMT
namespace Comparing
open EigValsM EigM

variable {K : Type}

/-- A `Compare` object (compare.py lines 47-54; the attribute `dict` is never read). -/
structure Comp (K : Type) where
  curves : List (List K)
  labels : List String
  base : Option (List K)
  baseLabel : Option String

/-- A `pandas.DataFrame`: rows, row labels, column labels. -/
structure Frame (K : Type) where
  data : List (List K)
  index : List String
  columns : List (Option String)

/-- compare.py lines 175-180: the checks done in every case. -/
def validateCounts (c : Comp K) : Py Unit :=
  if c.curves.length < 1 then .error .valueError
  else if c.curves.length = 1 ∧ c.base = none then .error .valueError
  else if c.curves.length ≠ c.labels.length then .error .valueError
  else .ok ()

/-- compare.py line 182, `all_equal`. -/
def allSameLength (curves : List (List K)) : Bool :=
  curves.all fun c => c.length == (curves.headD []).length

/-- compare.py lines 184-186: the base curve is compared with the first curve only if there is a base label. -/
def baseMismatch (c : Comp K) : Bool :=
  match c.base, c.baseLabel with
  | some b, some _ => (c.curves.headD []).length != b.length
  | _, _ => false

/-- compare.py lines 168-188, `__validate_curve_lengths`. -/
def validateLengths (c : Comp K) (checkAllEqual : Bool) : Py Unit := do
  validateCounts c
  if checkAllEqual then
    if baseMismatch c then .error .valueError
    else if !allSameLength c.curves then .error .valueError
    else .ok ()
  else .ok ()

/-- compare.py lines 49-51: conversion of the optional base curve. -/
def convertBase (base : Option (NDArr K)) : Py (Option (List K)) :=
  match base with
  | none => .ok none
  | some b => match make1dArray b with
    | .ok l => .ok (some l)
    | .error e => .error e

/-- compare.py line 47: conversion of the curves. -/
def convertCurves : List (NDArr K) → Py (List (List K))
  | [] => .ok []
  | a :: as => match make1dArray a with
    | .error e => .error e
    | .ok l => match convertCurves as with
      | .error e => .error e
      | .ok ls => .ok (l :: ls)

/-- compare.py lines 19-54, `Compare.__init__`. -/
def initCompare (curves : List (NDArr K)) (labels : List String) (base : Option (NDArr K))
    (baseLabel : Option String) : Py (Comp K) :=
  match convertCurves curves with
  | .error e => .error e
  | .ok cs => match convertBase base with
    | .error e => .error e
    | .ok b => match validateLengths ⟨cs, labels, b, baseLabel⟩ false with
      | .error e => .error e
      | .ok _ => .ok ⟨cs, labels, b, baseLabel⟩

/-- numpy's `a - b` for 1-D arrays: arrays of length 1 are broadcast, other different lengths raise `ValueError`. -/
def bsub [Sub K] (a b : List K) : Py (List K) :=
  if a.length = b.length then .ok (List.zipWith (· - ·) a b)
  else match a, b with
    | [x], b => .ok (b.map fun y => x - y)
    | a, [y] => .ok (a.map fun x => x - y)
    | _, _ => .error .valueError

section Field
variable [Field K]

/-- `np.mean((a - b) ** 2)` for arrays of the same length. -/
def meanSq (a b : List K) : K := mean (List.zipWith (fun x y => (x - y) ^ 2) a b)

/-- `np.mean(np.abs(a - b))` for arrays of the same length. -/
def meanAbs [LinearOrder K] (a b : List K) : K := mean (List.zipWith (fun x y => |x - y|) a b)

/-- compare.py lines 109-117 and 119-127: `__fast_msqd` and `__fast_mad`: the loops store `f(curves[i], curves[j])` in the entry `(i, j)`. -/
def grid (f : List K → List K → K) (curves : List (List K)) : List (List K) :=
  (List.range curves.length).map fun (i : Nat) => (List.range curves.length).map fun (j : Nat) =>
    f (curves.getD i []) (curves.getD j [])

/-- compare.py lines 81-84 and 99-102: the loop over the curves for a base curve. The `return` is inside the loop: the array made by `np.empty` (contents `junk`) is
returned after its first entry is written. -/
def baseLoop (g : List K → K) (curves : List (List K)) (b : List K) (junk : List K) : Py (List K) :=
  match curves with
  | [] => .ok junk
  | c :: _ => match bsub b c with
    | .error e => .error e
    | .ok d => .ok (junk.set 0 (g d))

/-- compare.py lines 70-86 and 88-104: `mean_sq_difference` and `mean_abs_difference`; `g` computes the mean from the differences (with a base curve), `f` from two curves. -/
def differences (g : List K → K) (f : List K → List K → K) (c : Comp K) (junk : List K) : Py (Frame K) :=
  match validateLengths c true with
  | .error e => .error e
  | .ok _ => match c.base with
    | none => .ok ⟨grid f c.curves, c.labels, c.labels.map some⟩
    | some b => match baseLoop g c.curves b junk with
      | .error e => .error e
      | .ok v => .ok ⟨v.map fun x => [x], c.labels, [c.baseLabel]⟩

/-- compare.py lines 70-86, `mean_sq_difference`. -/
def meanSqDifference (c : Comp K) (junk : List K) : Py (Frame K) :=
  differences (fun d => mean (d.map fun x => x ^ 2)) meanSq c junk

/-- compare.py lines 88-104, `mean_abs_difference`. -/
def meanAbsDifference [LinearOrder K] (c : Comp K) (junk : List K) : Py (Frame K) :=
  differences (fun d => mean (d.map fun x => |x|)) meanAbs c junk

end Field

/-! ## Correlations -/

/-- A list of curves of length `T` as a matrix. -/
def toMatrix (curves : List (List ℝ)) (T : Nat) : Matrix (Fin curves.length) (Fin T) ℝ :=
  fun i t => (curves.getD i []).getD t 0

/-- `np.corrcoef(curves)`: numpy computes the covariances with `ddof = 1`, divides by the standard deviations and clips, like
`correlate_fast` (correlater.py lines 8-17). -/
noncomputable def corrcoef (curves : List (List ℝ)) : List (List ℝ) :=
  List.ofFn fun i => List.ofFn fun j => correlateFast (toMatrix curves (curves.headD []).length) 1 i j

/-- compare.py lines 56-68, `correlate`. With a base curve of another length the concatenation in `np.corrcoef(base, curves)` raises `ValueError`. -/
noncomputable def correlate (c : Comp ℝ) : Py (Frame ℝ) :=
  match validateLengths c true with
  | .error e => .error e
  | .ok _ => match c.base with
    | none => .ok ⟨corrcoef c.curves, c.labels, c.labels.map some⟩
    | some b =>
      if b.length ≠ (c.curves.headD []).length then .error .valueError
      else .ok ⟨(((corrcoef (b :: c.curves)).headD []).drop 1).map fun x => [x], c.labels, [c.baseLabel]⟩

/-! ## `ensemble_compare` -/

/-- `res["exp"][name]` for the frame of a comparison with one curve. -/
def frameEntry (f : Frame ℝ) : Py ℝ :=
  match f.data with
  | [[x]] => .ok x
  | _ => .error .keyError

/-- unfold.py lines 304-314, the local function `compare` of `ensemble_compare`. -/
noncomputable def ensembleMetric (expected curve junk : List ℝ) (name metric : String) : Py ℝ := do
  let comp ← initCompare [arr1d curve] [name] (some (arr1d expected)) (some "exp")
  let res ← (if metric = "mad" then meanAbsDifference comp junk
    else if metric = "msqd" then meanSqDifference comp junk
    else if metric = "corr" then correlate comp
    else .error .valueError)
  frameEntry res

end Comparing
end RMT
