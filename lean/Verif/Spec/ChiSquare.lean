import Mathlib.Probability.Distributions.Gaussian.Real
import Mathlib.Probability.Independence.Basic
import Mathlib.MeasureTheory.Constructions.Pi

/-! # Specification: independent chi-square draws -/

namespace RMT.Spec
open MeasureTheory ProbabilityTheory

/-- The chi-square law with `d` degrees of freedom: the law of the sum of the squares of `d` independent standard normal variables. -/
noncomputable def chiSquared (d : Nat) : Measure ℝ := (Measure.pi fun _ : Fin d => gaussianReal 0 1).map fun x => ∑ i, x i ^ 2

/-- `X 0, X 1, …` are independent random variables, and the first `m` have the chi-square laws with `m`, `m - 1`, …, 1 degrees of freedom. -/
structure ChiSquareDraws {Ω : Type} [MeasurableSpace Ω] (P : Measure Ω) (m : Nat) (X : Nat → Ω → ℝ) : Prop where
  /-- each draw is a random variable -/
  measurable : ∀ k, Measurable (X k)
  /-- the draws are independent -/
  indep : iIndepFun X P
  /-- draw `k` has `m - k` degrees of freedom -/
  law : ∀ k, k < m → P.map (X k) = chiSquared (m - k)

end RMT.Spec
