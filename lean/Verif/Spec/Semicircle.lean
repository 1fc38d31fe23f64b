import Mathlib.MeasureTheory.Measure.Lebesgue.Basic
import Mathlib.MeasureTheory.Measure.WithDensity
import Mathlib.Analysis.Real.Pi.Bounds

/-! # Specification: Wigner's semicircle law -/

namespace RMT.Spec
open MeasureTheory

/-- Wigner's semicircle law with radius `r`: the density at `x` is `2 √(r² - x²) / (π r²)` for `|x| ≤ r` and 0 outside (where the square root is that of a negative number, which is 0 in Lean). -/
noncomputable def semicircleLaw (r : ℝ) : Measure ℝ :=
  volume.withDensity fun x => ENNReal.ofReal (2 * √(r ^ 2 - x ^ 2) / (Real.pi * r ^ 2))

end RMT.Spec
