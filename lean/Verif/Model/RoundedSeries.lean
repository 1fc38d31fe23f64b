import Verif.Model.Eigenvalues
import Verif.Model.RoundedSample

/-!
# Covariance and correlation matrices in rounded arithmetic
-/

namespace RMT
namespace Rounded
open EigM

/-- How NumPy and the linear algebra library evaluate the sums of `np.cov`, `np.mean`, `np.std` and `np.matmul`: the rounding, the association of the sums over row `i` and of those for entry `(i, j)` of a product, and which products
of two entries are fused into the addition that follows (`fma` instructions round only once). -/
structure Evaluation where
  fl : ℝ → ℝ
  mean : ℕ → List ℝ → SumTree ℝ
  std : ℕ → List ℝ → SumTree ℝ
  dot : ℕ → ℕ → List ℝ → SumTree ℝ
  fused : ℕ → ℕ → ℕ → Bool

variable {N T : ℕ}

/-- `np.mean(M, axis=1)` (in `np.cov`: `np.average(X, axis=1)`), rounded; the number of time points is exact. -/
noncomputable def rowMeanFl (E : Evaluation) (X : Matrix (Fin N) (Fin T) ℝ) (i : Fin N) : ℝ := E.fl (sumFl E.fl (E.mean i) (List.ofFn (X i)) / T)

/-- `M - np.mean(M, axis=1, keepdims=True)` (in `np.cov`: `X -= avg[:, None]`), rounded. -/
noncomputable def centerFl (E : Evaluation) (X : Matrix (Fin N) (Fin T) ℝ) : Matrix (Fin N) (Fin T) ℝ := fun i t => E.fl (X i t - rowMeanFl E X i)

/-- Entry `(i, j)` of a matrix product: the sum of the products of `x` and `y`, rounded unless fused. -/
noncomputable def dotFl (E : Evaluation) {m : ℕ} (i j : ℕ) (x y : Fin m → ℝ) : ℝ :=
  sumFl E.fl (E.dot i j) (List.ofFn fun t : Fin m => if E.fused i j t then x t * y t else E.fl (x t * y t))

/-- `np.cov(data, ddof=ddof)` of NumPy 1.23: `dot(X, X.T)` of the centred rows, times `np.true_divide(1, fact)` with `fact = T - ddof`, rounded. -/
noncomputable def npCovFl (E : Evaluation) (X : Matrix (Fin N) (Fin T) ℝ) (ddof : ℕ) : Matrix (Fin N) (Fin N) ℝ :=
  fun i j => E.fl (dotFl E i j (centerFl E X i) (centerFl E X j) * E.fl (1 / ((T : ℝ) - ddof)))

/-- correlater.py lines 8-17, `correlate_fast`, rounded; clipping is exact. -/
noncomputable def correlateFastFl (E : Evaluation) (X : Matrix (Fin N) (Fin T) ℝ) (ddof : ℕ) : Matrix (Fin N) (Fin N) ℝ :=
  let c := npCovFl E X ddof
  let sd := fun i => E.fl (Real.sqrt (c i i))
  fun i j => min 1 (max (-1) (E.fl (E.fl (c i j / sd i) / sd j)))

/-- `np.std(M, axis=1, ddof=1)`, rounded. -/
noncomputable def rowStdFl (E : Evaluation) (X : Matrix (Fin N) (Fin T) ℝ) (i : Fin N) : ℝ :=
  E.fl (Real.sqrt (E.fl (sumFl E.fl (E.std i) (List.ofFn fun t => E.fl (centerFl E X i t * centerFl E X i t)) / ((T : ℝ) - 1))))

/-- eigenvalues.py lines 951-956: the matrix whose eigenvalues `_eigs_via_transpose` computes, rounded. -/
noncomputable def transposedMatrixFl (E : Evaluation) (X : Matrix (Fin N) (Fin T) ℝ) (covariance : Bool) : Matrix (Fin T) (Fin T) ℝ :=
  let r := E.fl (1 / ((T : ℝ) - 1))
  let Z : Matrix (Fin N) (Fin T) ℝ := fun i t => if covariance then centerFl E X i t else E.fl (centerFl E X i t / rowStdFl E X i)
  fun s t => dotFl E s t (fun i => Z i s) (fun i => E.fl (r * Z i t))

/-- `np.linalg.eigvalsh` (with the default `UPLO='L'`) reads the lower triangle of its argument only. -/
def lowerSymm {n : ℕ} (M : Matrix (Fin n) (Fin n) ℝ) : Matrix (Fin n) (Fin n) ℝ := fun i j => if j ≤ i then M i j else M j i

/-- eigenvalues.py lines 234-251: the computed matrix handed to `eigvalsh`, of size `N` or `T`. -/
noncomputable def handedFl (E : Evaluation) (X : Matrix (Fin N) (Fin T) ℝ) (covariance : Bool) : (n : ℕ) × Matrix (Fin n) (Fin n) ℝ :=
  if N ≤ T then ⟨N, if covariance then npCovFl E X 1 else correlateFastFl E X 1⟩ else ⟨T, transposedMatrixFl E X covariance⟩

/-- eigenvalues.py lines 234-251: the eigenvalues before trimming, with the exceptions of the exact model (`computedEigs`). -/
noncomputable def computedEigsFl (E : Evaluation) (eigvalsh : EigSolver) (X : Matrix (Fin N) (Fin T) ℝ) (covariance : Bool) : Py (List ℝ) :=
  if N ≤ T ∧ N = 1 then .error (if covariance then .linAlgError else .valueError)
  else if ¬ N ≤ T ∧ T = 1 then .error .zeroDivisionError
  else .ok (eigvalsh (handedFl E X covariance).1 (lowerSymm (handedFl E X covariance).2))

/-- eigenvalues.py lines 253-270: the zero trimming, rounded. -/
noncomputable def trimZerosFl (E : Evaluation) (float : String → Option ℝ) (eigs : List ℝ) : Zeros → Py (List ℝ)
  | .num z => .ok (eigs.filter fun e => decide (e > z))
  | .str s =>
    if s = "heuristic" then do
      let eMin ← npMin eigs
      let minval := if eMin ≤ 0 then E.fl (-100 * eMin) else 0
      .ok (eigs.filter fun e => decide (e > minval))
    else if s = "negative" then .ok (eigs.filter fun e => decide (e > 0))
    else match float s with
      | none => .error .valueError
      | some z => .ok (eigs.filter fun e => decide (e > z))

/-- eigenvalues.py lines 234-285, `from_time_series` after the argument checks: the eigenvalues of the returned object; the rows of `X` are the series. -/
noncomputable def seriesValuesFl (E : Evaluation) (eigvalsh : EigSolver) (float : String → Option ℝ) (X : Matrix (Fin N) (Fin T) ℝ) (covariance doTrim : Bool) (zeros : Zeros) : Py (List ℝ) := do
  let eigs ← computedEigsFl E eigvalsh X covariance
  let eigs' ← (if doTrim then trimZerosFl E float eigs zeros else .ok eigs)
  let o ← EigValsM.initEigVals1d eigs'
  let _ ← npMax eigs'
  .ok o.vals

end Rounded
end RMT
