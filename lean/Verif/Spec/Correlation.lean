import Mathlib.Analysis.Real.Sqrt
import Mathlib.Data.Matrix.Mul

/-!
# Specification: sample covariance and Pearson correlation

By the textbook formulas with raw sums, without centring.
-/

namespace RMT.Spec

variable {N T : ℕ}

/-- Unbiased sample covariance of two series of length `T`. -/
noncomputable def sampleCov (x y : Fin T → ℝ) : ℝ :=
  (∑ t, x t * y t - (∑ t, x t) * (∑ t, y t) / T) / ((T : ℝ) - 1)

/-- Pearson's correlation coefficient. -/
noncomputable def pearson (x y : Fin T → ℝ) : ℝ :=
  (T * ∑ t, x t * y t - (∑ t, x t) * (∑ t, y t)) /
    (Real.sqrt (T * ∑ t, x t ^ 2 - (∑ t, x t) ^ 2) * Real.sqrt (T * ∑ t, y t ^ 2 - (∑ t, y t) ^ 2))

/-- The covariance matrix of the rows. -/
noncomputable def covMatrix (X : Matrix (Fin N) (Fin T) ℝ) : Matrix (Fin N) (Fin N) ℝ :=
  fun i j => sampleCov (X i) (X j)

/-- The correlation matrix of the rows. -/
noncomputable def corrMatrix (X : Matrix (Fin N) (Fin T) ℝ) : Matrix (Fin N) (Fin N) ℝ :=
  fun i j => pearson (X i) (X j)

/-- The series takes two different values. -/
def NonConstant (x : Fin T → ℝ) : Prop := ∃ s t, x s ≠ x t

end RMT.Spec
