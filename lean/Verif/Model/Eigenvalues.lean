import Verif.Model.EigVals
import Mathlib.Analysis.Real.Sqrt
import Mathlib.Data.Matrix.Mul

/-!
# Model of the constructors of `Eigenvalues` and of its Marchenko-Pastur and manual trimming

`empyricalRMT/eigenvalues.py`, `empyricalRMT/correlater.py`. Numbers are reals (square roots). LAPACK's `eigvalsh` is a
parameter `eigvalsh : Matrix → List ℝ`; the sparse solver (`use_sparse=True`) is in `Model/Sparse.lean`.
-/

namespace RMT
namespace EigM
open EigValsM

/-! ## The class flag -/

/-- The own attribute `_Eigenvalues__WARNED_SMALL` of each class that is true (eigenvalues.py line 31); classes are numbered, `0` is `Eigenvalues` itself and
positive numbers are its subclasses. -/
abbrev Flags := Nat → Bool

/-- A construction in a history: the class and the number of eigenvalues, or `none` if `EigVals.__init__`
raised. -/
structure Construction where
  cls : Nat
  size : Option Nat

/-- Reading `self.__class__.__WARNED_SMALL`: the attribute of the first class in the method resolution order `mro cls` that has one; own
attributes are only ever set to `True`, apart from the initial `False` of `Eigenvalues`, the last in the order. -/
def readFlag (mro : Nat → List Nat) (f : Flags) (c : Nat) : Bool := (mro c).any f

/-- eigenvalues.py lines 49-57: one construction; returns the new flags and whether `warn` was called. -/
def constructWarn (mro : Nat → List Nat) (f : Flags) (c : Construction) : Flags × Bool :=
  match c.size with
  | none => (f, false)
  | some n =>
    if n < 50 && !readFlag mro f c.cls then (fun k => if k = c.cls then true else f k, true)
    else (f, false)

/-- A sequence of constructions: for each, whether it warned. -/
def warnings (mro : Nat → List Nat) (f : Flags) : List Construction → List Bool
  | [] => []
  | c :: cs => (constructWarn mro f c).2 :: warnings mro (constructWarn mro f c).1 cs

/-- A new process. -/
def noFlags : Flags := fun _ => false

/-! ## Trimming -/

/-- eigenvalues.py lines 567-584: the trimming with known sizes. Returns the `Trimmed` object and the cut points. Division of two Python
integers by zero raises `ZeroDivisionError`; `N = 0` with `use_shifted` (a numpy division giving infinities) is outside
the model. -/
noncomputable def marchenkoPasturWith (N T : Nat) (vals : List ℝ) (largest useShifted : Bool) :
    Py (Obj ℝ × ℝ × ℝ) := do
  let eigMax ← npMax vals
  if T = 0 then .error .zeroDivisionError
  else
    let shift := 1 - eigMax / N
    let q := Real.sqrt ((N : ℝ) / T)
    let trims := if useShifted then (shift * (1 - q) ^ 2, shift * (1 + q) ^ 2)
      else ((1 - q) ^ 2, (1 + q) ^ 2)
    let kept := if largest then vals.filter (fun v => decide (v > trims.2))
      else vals.filter (fun v => decide (v > trims.1) && decide (v < trims.2))
    let o ← initEigVals1d kept
    .ok (o, trims)

/-- eigenvalues.py lines 558-559: the passed size, or the stored one if `None` was passed. -/
def passedOrStored : Option Nat → Option Nat → Option Nat
  | none, stored => stored
  | some n, _ => some n

/-- eigenvalues.py lines 558-584, `trim_marchenko_pastur`; `storedN`, `storedT` are the attributes set by `from_time_series`. -/
noncomputable def trimMarchenkoPastur (storedN storedT : Option Nat) (vals : List ℝ)
    (seriesLength nSeries : Option Nat) (largest useShifted : Bool) : Py (Obj ℝ × ℝ × ℝ) :=
  match passedOrStored nSeries storedN, passedOrStored seriesLength storedT with
  | some N, some T => marchenkoPasturWith N T vals largest useShifted
  | _, _ => .error .valueError

/-! ## Correlations -/

/-- eigenvalues.py lines 134-169, `from_correlations` (the values of the resulting object). `eigvalsh` is only called for its
exceptions (lines 165-166): line 167 overwrites its result. -/
noncomputable def fromCorrelations (eigvalsh : NDArr ℝ → Py (List ℝ)) (data : NDArr ℝ) (atol : ℝ) :
    Py (Obj ℝ) :=
  if data.shape.length > 2 then .error .valueError
  else do
    if data.shape.length = 2 ∧ 1 < data.shape.foldl min (data.shape.headD 0) then
      let _ ← eigvalsh data
    let eigs := data.data
    initEigVals1d (eigs.filter fun e => decide (|e| < atol))

/-! ## Time series -/

variable {N T : ℕ}

/-- `np.mean(M, axis=1)`. -/
noncomputable def rowMean (X : Matrix (Fin N) (Fin T) ℝ) (i : Fin N) : ℝ := (∑ t, X i t) / T

/-- `M - np.mean(M, axis=1, keepdims=True)`. -/
noncomputable def center (X : Matrix (Fin N) (Fin T) ℝ) : Matrix (Fin N) (Fin T) ℝ :=
  fun i t => X i t - rowMean X i

/-- `np.cov(data, ddof=ddof)`: `dot(X, X.T)` of the centred rows, divided by `T - ddof`. -/
noncomputable def npCov (X : Matrix (Fin N) (Fin T) ℝ) (ddof : ℕ) : Matrix (Fin N) (Fin N) ℝ :=
  fun i j => (∑ t, center X i t * center X j t) * (1 / ((T : ℝ) - ddof))

/-- `np.std(M, axis=1, ddof=1)`. -/
noncomputable def rowStd (X : Matrix (Fin N) (Fin T) ℝ) (i : Fin N) : ℝ :=
  Real.sqrt ((∑ t, (center X i t) ^ 2) / ((T : ℝ) - 1))

/-- correlater.py lines 8-17, `correlate_fast` (the final `np.clip` included). -/
noncomputable def correlateFast (X : Matrix (Fin N) (Fin T) ℝ) (ddof : ℕ) : Matrix (Fin N) (Fin N) ℝ :=
  let c := npCov X ddof
  let sd := fun i => Real.sqrt (c i i)
  fun i j => min 1 (max (-1) (c i j / sd i / sd j))

/-- eigenvalues.py lines 951-956: the matrix whose eigenvalues `_eigs_via_transpose` computes. -/
noncomputable def transposedMatrix (X : Matrix (Fin N) (Fin T) ℝ) (covariance : Bool) :
    Matrix (Fin T) (Fin T) ℝ :=
  let r : ℝ := 1 / ((T : ℝ) - 1)
  let Z : Matrix (Fin N) (Fin T) ℝ := fun i t =>
    if covariance then center X i t else center X i t / rowStd X i
  Matrix.transpose Z * (r • Z)

/-- An eigenvalue routine for symmetric matrices of every size. -/
abbrev EigSolver := (n : ℕ) → Matrix (Fin n) (Fin n) ℝ → List ℝ

/-- eigenvalues.py lines 948-970, `_eigs_via_transpose`; `1 / (T - 1)` is a division of Python integers. -/
noncomputable def eigsViaTranspose (eigvalsh : EigSolver) (X : Matrix (Fin N) (Fin T) ℝ)
    (covariance : Bool) : Py (List ℝ) :=
  if N ≤ T then .error .valueError
  else if T = 1 then .error .zeroDivisionError
  else .ok (eigvalsh T (transposedMatrix X covariance))

/-- The argument `zeros`: a string or a number. -/
inductive Zeros where
  | str (s : String)
  | num (x : ℝ)

/-- eigenvalues.py lines 253-270: the zero trimming; `float` is Python's `float` on strings (`none` if it raises `ValueError`). -/
noncomputable def trimZeros (float : String → Option ℝ) (eigs : List ℝ) : Zeros → Py (List ℝ)
  | .num z => .ok (eigs.filter fun e => decide (e > z))
  | .str s =>
    if s = "heuristic" then do
      let eMin ← npMin eigs
      let minval := if eMin ≤ 0 then -100 * eMin else 0
      .ok (eigs.filter fun e => decide (e > minval))
    else if s = "negative" then .ok (eigs.filter fun e => decide (e > 0))
    else match float s with
      | none => .error .valueError
      | some z => .ok (eigs.filter fun e => decide (e > z))

/-- The attributes `from_time_series` sets (lines 272-280). -/
structure SeriesEigs where
  obj : Obj ℝ
  seriesN : ℕ
  seriesT : ℕ
  marchenko : ℝ × ℝ
  marchenkoShifted : ℝ × ℝ

/-- eigenvalues.py lines 234-251: the eigenvalues before trimming; the rows of `X` are the series. `np.cov` of a single row is 0-dimensional, on which
`eigvalsh` raises `LinAlgError`, and `np.diag` in `correlate_fast` raises `ValueError`. `use_sparse=True` is in `Model/Sparse.lean`. -/
noncomputable def computedEigs (eigvalsh : EigSolver) (X : Matrix (Fin N) (Fin T) ℝ) (covariance : Bool) :
    Py (List ℝ) :=
  if N ≤ T then
    if N = 1 then .error (if covariance then .linAlgError else .valueError)
    else .ok (if covariance then eigvalsh N (npCov X 1) else eigvalsh N (correlateFast X 1))
  else eigsViaTranspose eigvalsh X covariance

/-- eigenvalues.py lines 272-285: the resulting object, from the trimmed eigenvalues and their maximum `m`. -/
noncomputable def mkSeriesEigs (N T : ℕ) (o : Obj ℝ) (m : ℝ) : SeriesEigs :=
  let shift := 1 - m / N
  let r := Real.sqrt ((N : ℝ) / T)
  { obj := o
    seriesN := N
    seriesT := T
    marchenko := ((1 - r) ^ 2, (1 + r) ^ 2)
    marchenkoShifted := (shift * (1 + r) ^ 2, shift * (1 - r) ^ 2) }

/-- eigenvalues.py lines 234-285, `from_time_series` after the argument checks and the transposition: the rows of `X` are the series. -/
noncomputable def fromSeries (eigvalsh : EigSolver) (float : String → Option ℝ)
    (X : Matrix (Fin N) (Fin T) ℝ) (covariance doTrim : Bool) (zeros : Zeros) : Py SeriesEigs := do
  let eigs ← computedEigs eigvalsh X covariance
  let eigs' ← (if doTrim then trimZeros float eigs zeros else .ok eigs)
  let o ← initEigVals1d eigs'
  let m ← npMax eigs'
  .ok (mkSeriesEigs N T o m)

/-- The `data` argument of `from_time_series`: a matrix, or an array of another dimension. -/
inductive SeriesData where
  | dim2 (N T : ℕ) (X : Matrix (Fin N) (Fin T) ℝ)
  | other

/-- eigenvalues.py lines 173-285, `from_time_series`. -/
noncomputable def fromTimeSeries (eigvalsh : EigSolver) (float : String → Option ℝ) (data : SeriesData)
    (covariance doTrim : Bool) (zeros : Zeros) (timeAxis : Int) : Py SeriesEigs :=
  match data with
  | .other => .error .valueError
  | .dim2 _ _ X =>
    if timeAxis ≠ 0 ∧ timeAxis ≠ 1 then .error .valueError
    else if timeAxis = 0 then fromSeries eigvalsh float (Matrix.transpose X) covariance doTrim zeros
    else fromSeries eigvalsh float X covariance doTrim zeros

end EigM
end RMT
