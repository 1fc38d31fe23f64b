import Verif.Spec.Draws

/-!
# Independent uniform draws

`UniformDraws` asks for pairwise independence only; here the whole sequence is independent.
-/

namespace RMT
namespace Spec
open MeasureTheory ProbabilityTheory

/-- Draws of `np.random.uniform(0, 1)`: independent, each uniform on `[0, 1)`. -/
structure IndependentDraws {Ω : Type} [MeasurableSpace Ω] (P : Measure Ω) (U : Nat → Ω → ℝ) : Prop where
  /-- each draw is a random variable -/
  measurable : ∀ j, Measurable (U j)
  /-- the draws are independent -/
  indep : iIndepFun U P
  /-- the law of each draw is Lebesgue measure on `[0, 1)` -/
  law : ∀ j, P.map (U j) = volume.restrict (Set.Ico 0 1)

end Spec
end RMT
