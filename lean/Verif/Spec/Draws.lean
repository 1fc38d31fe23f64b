import Mathlib.Probability.StrongLaw
import Mathlib.MeasureTheory.Integral.IntervalIntegral.Basic

/-! # Specification: independent uniform draws; averages over an interval -/

namespace RMT.Spec
open MeasureTheory ProbabilityTheory

/-- `U 0, U 1, …` are independent and uniformly distributed on `[0, 1)`. -/
structure UniformDraws {Ω : Type} [MeasurableSpace Ω] (P : Measure Ω) (U : Nat → Ω → ℝ) : Prop where
  /-- each draw is a random variable -/
  measurable : ∀ j, Measurable (U j)
  /-- any two draws are independent -/
  indep : Pairwise fun i j => IndepFun (U i) (U j) P
  /-- the law of each draw is Lebesgue measure on `[0, 1)` -/
  law : ∀ j, P.map (U j) = volume.restrict (Set.Ico 0 1)

/-- The average of `f` over the interval from `a` to `b`; `f a` if `a = b`. -/
noncomputable def average (a b : ℝ) (f : ℝ → ℝ) : ℝ :=
  if a = b then f a else 1 / (b - a) * ∫ x in a..b, f x

end RMT.Spec
