import Verif.Model.Eigenvalues

/-!
# Model of `Eigenvalues.from_time_series(..., use_sparse=True, **sp_args)`

`empyricalRMT/eigenvalues.py` lines 234-285. ARPACK is a parameter: `solver n M k` is the list of `k` eigenvalues that
`scipy.sparse.linalg.eigsh(M, k, return_eigenvectors=False, ...)` returns for an `n × n` sparse matrix `M`; the remaining keyword arguments
(`which`, `sigma`, `v0`, ...) are fixed inside it.
-/

namespace RMT
namespace EigM
open EigValsM

variable {N T : ℕ}

/-- The keyword arguments of `eigsh` that the code or the shape of its result depends on: the number `k` of eigenvalues (6 by default) and `return_eigenvectors` (`none`: not passed; scipy's
default is `True`). -/
structure SpArgs where
  k : Int := 6
  returnEigenvectors : Option Bool := none

/-- The routine behind `eigsh`. -/
abbrev SparseSolver := (n : ℕ) → Matrix (Fin n) (Fin n) ℝ → ℕ → List ℝ

/-- `scipy.sparse.tril(M)` (eigenvalues.py line 241): the entries on and below the diagonal; the others become zero. -/
def tril {n : ℕ} (M : Matrix (Fin n) (Fin n) ℝ) : Matrix (Fin n) (Fin n) ℝ := fun i j => if j ≤ i then M i j else 0

/-- `scipy.sparse.linalg.eigsh` on a sparse `n × n` matrix: `k ≤ 0` raises `ValueError` and `k ≥ n` `TypeError`. `Sum.inl`: the eigenvalues; `Sum.inr`: the pair
of eigenvalues and eigenvectors, of which only the fact that it is a pair matters. -/
def eigsh (solver : SparseSolver) {n : ℕ} (M : Matrix (Fin n) (Fin n) ℝ) (sp : SpArgs) : Py (List ℝ ⊕ List ℝ) :=
  if sp.k ≤ 0 then .error .valueError
  else if (n : Int) ≤ sp.k then .error .typeError
  else if sp.returnEigenvectors = some false then .ok (.inl (solver n M sp.k.toNat))
  else .ok (.inr (solver n M sp.k.toNat))

/-- eigenvalues.py lines 240-248 with `use_sparse=True`, for `M` already computed. `np.array` of the pair `(eigenvalues, eigenvectors)` is an object array of two arrays; comparing it with
a number (lines 257-270) and converting it to `float64` (`_eigvals.py` line 31) both raise `ValueError`, so the model raises it at once. -/
def sparseEigs (solver : SparseSolver) {n : ℕ} (M : Matrix (Fin n) (Fin n) ℝ) (sp : SpArgs) : Py (List ℝ) :=
  if sp.returnEigenvectors = some true then .error .valueError
  else do
    match ← eigsh solver (tril M) sp with
    | .inl e => .ok e
    | .inr _ => .error .valueError

/-- eigenvalues.py lines 234-251 with `use_sparse=True`. Of a single series `np.cov` is 0-dimensional: `correlate_fast` then raises `ValueError` in `np.diag`, and `tril` makes a `1 × 1` matrix of the
variance. For more series than time points `use_sparse` and `sp_args` are not looked at. -/
noncomputable def computedEigsSparse (eigvalsh : EigSolver) (solver : SparseSolver) (X : Matrix (Fin N) (Fin T) ℝ)
    (covariance : Bool) (sp : SpArgs) : Py (List ℝ) :=
  if N ≤ T then
    if covariance then sparseEigs solver (npCov X 1) sp
    else if N = 1 then .error .valueError
    else sparseEigs solver (correlateFast X 1) sp
  else eigsViaTranspose eigvalsh X covariance

/-- eigenvalues.py lines 253-285: trimming and construction, as in `fromSeries`. -/
noncomputable def finishSeries (N T : ℕ) (float : String → Option ℝ) (eigs : List ℝ) (doTrim : Bool) (zeros : Zeros) :
    Py SeriesEigs := do
  let eigs' ← (if doTrim then trimZeros float eigs zeros else .ok eigs)
  let o ← initEigVals1d eigs'
  let m ← npMax eigs'
  .ok (mkSeriesEigs N T o m)

/-- eigenvalues.py lines 234-285 with `use_sparse=True`; the rows of `X` are the series. -/
noncomputable def fromSeriesSparse (eigvalsh : EigSolver) (solver : SparseSolver) (float : String → Option ℝ)
    (X : Matrix (Fin N) (Fin T) ℝ) (covariance doTrim : Bool) (zeros : Zeros) (sp : SpArgs) : Py SeriesEigs := do
  let eigs ← computedEigsSparse eigvalsh solver X covariance sp
  finishSeries N T float eigs doTrim zeros

/-- eigenvalues.py lines 173-285, `from_time_series` with the argument `use_sparse`. -/
noncomputable def fromTimeSeriesOpt (eigvalsh : EigSolver) (solver : SparseSolver) (float : String → Option ℝ) (data : SeriesData)
    (covariance doTrim : Bool) (zeros : Zeros) (timeAxis : Int) (useSparse : Bool) (sp : SpArgs) : Py SeriesEigs :=
  if useSparse then
    match data with
    | .other => .error .valueError
    | .dim2 _ _ X =>
      if timeAxis ≠ 0 ∧ timeAxis ≠ 1 then .error .valueError
      else if timeAxis = 0 then fromSeriesSparse eigvalsh solver float (Matrix.transpose X) covariance doTrim zeros sp
      else fromSeriesSparse eigvalsh solver float X covariance doTrim zeros sp
  else fromTimeSeries eigvalsh float data covariance doTrim zeros timeAxis

end EigM
end RMT
