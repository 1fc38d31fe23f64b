import Verif.Spec.RunningMean

/-! # Specification: population variance of a stream of samples; windows -/

namespace RMT.Spec
open Finset

/-- Population variance (mean squared deviation from the mean) of the samples `d 0, …, d (k-1)`. -/
def runVar {K : Type} [Field K] (d : Nat → K) (k : Nat) : K :=
  (∑ j ∈ range k, (d j - runMean d k) ^ 2) / (k : K)

/-- The number of entries `e` with `lo ≤ e ≤ hi`. -/
def countIn {K : Type} [LinearOrder K] (l : List K) (lo hi : K) : Nat :=
  l.countP fun e => decide (lo ≤ e ∧ e ≤ hi)

/-- `a` is the smallest entry. -/
def IsMin {K : Type} [LinearOrder K] (l : List K) (a : K) : Prop := a ∈ l ∧ ∀ x ∈ l, a ≤ x

/-- `a` is the largest entry. -/
def IsMax {K : Type} [LinearOrder K] (l : List K) (a : K) : Prop := a ∈ l ∧ ∀ x ∈ l, x ≤ a

end RMT.Spec
