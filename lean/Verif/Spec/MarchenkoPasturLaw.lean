import Verif.Spec.MarchenkoPastur
import Mathlib.MeasureTheory.Measure.WithDensity
import Mathlib.MeasureTheory.Measure.Lebesgue.Basic

/-! # The Marchenko-Pastur law for a ratio `q ≤ 1` of series to time points -/

namespace RMT.Spec
open MeasureTheory

/-- The measure on `(0, ∞)` with the Marchenko-Pastur density (a probability measure for `0 < q ≤ 1`). -/
noncomputable def mpLaw (q : ℝ) : Measure ℝ := (volume.restrict (Set.Ioi 0)).withDensity fun x => ENNReal.ofReal (mpDensity q x)

end RMT.Spec
