import Verif.Spec.Variance

/-! # Specification: the standard model of rounded arithmetic -/

namespace RMT.Spec

/-- `fl` rounds with relative error at most `ε` (for `float64` without over- and underflow: `ε = 2⁻⁵³`). -/
def RelRounding {K : Type} [Field K] [LinearOrder K] (fl : K → K) (ε : K) : Prop := ∀ x, |fl x - x| ≤ ε * |x|

/-- `fl` rounds to the numbers of a floating-point format: it is monotone, leaves the numbers of the format (its values) alone and respects signs. (True of IEEE rounding to nearest, without overflow.) -/
structure FloatRounding {K : Type} [Field K] [LinearOrder K] (fl : K → K) : Prop where
  mono : Monotone fl
  idem : ∀ x, fl (fl x) = fl x
  odd : ∀ x, fl (-x) = -fl x

end RMT.Spec
