import Verif.Imports

/-!
# Specification: residuals of a least-squares line over time

Times are `0, 1, …, n - 1`.
-/

namespace RMT.Spec
open Finset

variable {K : Type} [Field K]

/-- `r` are residuals of `y` with respect to a straight line. -/
def IsLineResidual (y r : List K) : Prop :=
  r.length = y.length ∧ ∃ a b : K, ∀ i < y.length, r.getD i 0 = y.getD i 0 - (a * (i : K) + b)

/-- The mean of the entries is zero (for a non-empty list). -/
def ZeroSum (r : List K) : Prop := ∑ i ∈ range r.length, r.getD i 0 = 0

/-- The scalar product with the times `0, 1, …, n-1` is zero. -/
def OrthTime (r : List K) : Prop := ∑ i ∈ range r.length, (i : K) * r.getD i 0 = 0

/-- `r` are the least-squares residuals: no line has a smaller sum of squared residuals. -/
def IsLeastResidual [LinearOrder K] (y r : List K) : Prop :=
  IsLineResidual y r ∧
  ∀ r', IsLineResidual y r' → ∑ i ∈ range r.length, r.getD i 0 ^ 2 ≤ ∑ i ∈ range r'.length, r'.getD i 0 ^ 2

end RMT.Spec
