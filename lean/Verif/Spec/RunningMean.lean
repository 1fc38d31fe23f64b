import Verif.Imports

/-!
# Specification: running means of a sample stream and the window of recent values

`d 0, d 1, …` are the successive Monte-Carlo samples.
-/

namespace RMT.Spec
open Finset

variable {K : Type} [Field K]

/-- Arithmetic mean of the first `k` samples `d 0, …, d (k-1)`. -/
def runMean (d : Nat → K) (k : Nat) : K := (∑ j ∈ range k, d j) / (k : K)

/-- Contents of slot `s` of the 1000-slot buffer after `k` samples (`k ≥ 1`): the running mean of the most recent
iteration congruent to `s` modulo 1000, except that slot 0 holds the first running mean until
iteration 1000, slot 1 stays `0` until iteration 1001, and slots not yet reached are `0`. -/
def windowSlot (d : Nat → K) (k s : Nat) : K :=
  if s = 0 ∧ k < 1000 then runMean d 1
  else if s = 1 ∧ k ≤ 1000 then 0
  else if k < s then 0
  else runMean d (k - (k - s) % 1000)

/-- The 1000-slot buffer after `k` samples. -/
def window (d : Nat → K) (k : Nat) : List K := (List.range 1000).map fun s : Nat => windowSlot d k s

end RMT.Spec
