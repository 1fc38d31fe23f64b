import Verif.Imports

/-! # Specification: least-squares lines -/

namespace RMT.Spec

variable {K : Type} [Field K]

/-- Sum of squared deviations of the data `(x i, y i)` from the line `t ↦ a * t + b`. -/
def sse (x y : List K) (a b : K) : K :=
  (List.zipWith (fun xi yi => (yi - (a * xi + b)) ^ 2) x y).sum

/-- All entries are equal. -/
def AllEqual (x : List K) : Prop := ∀ a ∈ x, ∀ b ∈ x, a = b

end RMT.Spec
