import Mathlib.Probability.Independence.Basic
import Mathlib.MeasureTheory.Measure.Lebesgue.Basic
import Mathlib.MeasureTheory.Integral.IntegrableOn

/-! # Specification: samples from a distribution of spacings -/

namespace RMT.Spec
open MeasureTheory ProbabilityTheory Set

/-- `X 0, X 1, …` are pairwise independent and all have the distribution `μ`. -/
structure IsSample {Ω : Type} [MeasurableSpace Ω] (P : Measure Ω) (X : ℕ → Ω → ℝ) (μ : Measure ℝ) : Prop where
  measurable : ∀ i, Measurable (X i)
  indep : Pairwise fun i j => IndepFun (X i) (X j) P
  law : ∀ i, P.map (X i) = μ

/-- The distribution on the positive numbers with the density `p`. -/
noncomputable def densityLaw (p : ℝ → ℝ) : Measure ℝ := (volume.restrict (Ioi (0 : ℝ))).withDensity fun s => ENNReal.ofReal (p s)

/-- A distribution of spacings: of positive numbers, without atoms, with a mean logarithm and a third moment. -/
structure SpacingLaw (μ : Measure ℝ) : Prop where
  prob : IsProbabilityMeasure μ
  pos : ∀ᵐ s ∂μ, 0 < s
  noAtoms : ∀ s, μ {s} = 0
  log : Integrable (fun s => Real.log s) μ
  cube : Integrable (fun s => s ^ 3) μ

end RMT.Spec
