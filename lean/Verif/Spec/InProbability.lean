import Mathlib.MeasureTheory.Measure.MeasureSpace
import Mathlib.Data.Real.Basic
import Mathlib.Topology.Instances.ENNReal.Lemmas

/-! # Specification: convergence in probability, and counting values above a bound -/

namespace RMT.Spec
open MeasureTheory Filter Topology

/-- `X n` tends to `c` in probability: each deviation of at least `ε` becomes improbable. (The measure of a set which is not measurable is its outer measure, so that nothing is assumed about `X`.) -/
def InProbability {Ω : Type} [MeasurableSpace Ω] (P : ℕ → Measure Ω) (X : ℕ → Ω → ℝ) (c : ℝ) : Prop :=
  ∀ ε > 0, Tendsto (fun n => P n {ω | ε ≤ |X n ω - c|}) atTop (𝓝 0)

/-- The number of values above `a`. -/
noncomputable def countGT (l : List ℝ) (a : ℝ) : ℕ := (l.filter fun x => decide (a < x)).length

end RMT.Spec
