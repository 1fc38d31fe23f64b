import Verif.Imports

/-! # Specification: differences of two curves -/

namespace RMT.Spec
open Finset

variable {K : Type} [Field K]

/-- Mean squared difference of the first `T` values. -/
def msqd (T : Nat) (a b : List K) : K := (∑ t ∈ range T, (a.getD t 0 - b.getD t 0) ^ 2) / (T : K)

/-- Mean absolute difference of the first `T` values. -/
def mad [LinearOrder K] (T : Nat) (a b : List K) : K :=
  (∑ t ∈ range T, |a.getD t 0 - b.getD t 0|) / (T : K)

/-- The differences of the entries two places apart: `l[i+2] - l[i]` for `i = 0, …, n - 3`. -/
def lagTwo {K : Type} [Sub K] [Zero K] (l : List K) : List K := (List.range (l.length - 2)).map fun (i : Nat) => l.getD (i + 2) 0 - l.getD i 0

end RMT.Spec
