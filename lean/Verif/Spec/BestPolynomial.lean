import Mathlib.MeasureTheory.Integral.Bochner.Basic
import Mathlib.Algebra.Polynomial.Eval.Degree

/-!
# Best polynomial approximations of a distribution function
-/

namespace RMT.Spec
open MeasureTheory

/-- The mean squared distance, under the law `μ`, between the distribution function of `μ` and a polynomial. -/
noncomputable def cdfError (μ : Measure ℝ) (p : Polynomial ℝ) : ℝ := ∫ x, (μ.real (Set.Iic x) - p.eval x) ^ 2 ∂μ

/-- `q` approximates the distribution function of `μ` best among the polynomials of degree at most `d`. -/
def IsBestPoly (μ : Measure ℝ) (d : ℕ) (q : Polynomial ℝ) : Prop :=
  q.natDegree ≤ d ∧ ∀ p : Polynomial ℝ, p.natDegree ≤ d → cdfError μ q ≤ cdfError μ p

end RMT.Spec
