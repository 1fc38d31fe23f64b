import Mathlib.MeasureTheory.Integral.IntervalIntegral.Basic

/-! # Specification: probability densities on the half line, and the rigidity transform -/

namespace RMT.Spec
open MeasureTheory Set

/-- `p` is a probability density on `[0, ∞)`. -/
def IsDensity (p : ℝ → ℝ) : Prop := (∀ s, 0 ≤ s → 0 ≤ p s) ∧ ∫ s in Ioi (0 : ℝ), p s = 1

/-- The mean of the density `p` is `m`. -/
def HasMean (p : ℝ → ℝ) (m : ℝ) : Prop := ∫ s in Ioi (0 : ℝ), s * p s = m

/-- The standard integral transform from the number variance to the spectral rigidity. -/
noncomputable def rigidityTransform (var : ℝ → ℝ) (L : ℝ) : ℝ :=
  2 / L ^ 4 * ∫ r in (0 : ℝ)..L, (L ^ 3 - 2 * L ^ 2 * r + r ^ 3) * var r

end RMT.Spec
