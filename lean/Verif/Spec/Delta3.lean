import Mathlib.MeasureTheory.Integral.IntervalIntegral.Basic

/-! # Specification: the spectral rigidity of a counting function over an interval -/

namespace RMT.Spec
open MeasureTheory

/-- The mean squared deviation of `f` over `[a, b]` from the straight line with slope `p` and intercept `q`. -/
noncomputable def deviation (f : ℝ → ℝ) (a b p q : ℝ) : ℝ := 1 / (b - a) * ∫ t in a..b, (f t - (p * t + q)) ^ 2

/-- The spectral rigidity (`Δ₃`) of `f` over `[a, b]`: the least mean squared deviation from a straight line. -/
noncomputable def delta3 (f : ℝ → ℝ) (a b : ℝ) : ℝ := ⨅ l : ℝ × ℝ, deviation f a b l.1 l.2

end RMT.Spec
