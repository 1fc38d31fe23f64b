import Mathlib.Data.Real.Basic

/-! # Specification: the largest and the smallest value of a list -/

namespace RMT.Spec

/-- `m` is the largest value of the list. -/
def IsLargest (l : List ℝ) (m : ℝ) : Prop := m ∈ l ∧ ∀ x ∈ l, x ≤ m

/-- `m` is the smallest value of the list. -/
def IsSmallest (l : List ℝ) (m : ℝ) : Prop := m ∈ l ∧ ∀ x ∈ l, m ≤ x

end RMT.Spec
