import Mathlib.Probability.Distributions.Gaussian.Real
import Mathlib.Probability.Independence.Basic

/-! # Specification: independent standard normal draws -/

namespace RMT.Spec
open MeasureTheory ProbabilityTheory

/-- `X 0, X 1, …` are independent random variables with the standard normal distribution. -/
structure NormalDraws {Ω : Type} [MeasurableSpace Ω] (P : Measure Ω) (X : Nat → Ω → ℝ) : Prop where
  /-- each draw is a random variable -/
  measurable : ∀ k, Measurable (X k)
  /-- the draws are independent -/
  indep : iIndepFun X P
  /-- the law of each draw has mean 0 and variance 1 -/
  law : ∀ k, P.map (X k) = gaussianReal 0 1

end RMT.Spec
