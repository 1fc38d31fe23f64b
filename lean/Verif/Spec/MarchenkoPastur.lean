import Mathlib.Analysis.SpecialFunctions.Trigonometric.Basic
import Mathlib.Analysis.Real.Sqrt

/-! # Specification: the Marchenko-Pastur density -/

namespace RMT.Spec

/-- The Marchenko-Pastur density of the eigenvalues of correlation matrices of noise, for `q` series per time point, on the interval from `(1 - √q)²` to `(1 + √q)²`. -/
noncomputable def mpDensity (q x : ℝ) : ℝ := √(((1 + √q) ^ 2 - x) * (x - (1 - √q) ^ 2)) / (2 * Real.pi * q * x)

end RMT.Spec
