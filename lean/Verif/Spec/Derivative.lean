import Mathlib.Algebra.Field.Basic

/-! # Specification: slope of a chord -/

namespace RMT.Spec

/-- The slope of the chord between two points. -/
def chord {K : Type} [Field K] (p q : K × K) : K := (q.2 - p.2) / (q.1 - p.1)

end RMT.Spec
