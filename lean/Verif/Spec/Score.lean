import Verif.Imports

/-! # Specification: GOE score and trimmed means -/

namespace RMT.Spec

variable {K : Type} [Field K]

/-- Spacings `u[i+1] - u[i]`. -/
def gaps (u : List K) : List K :=
  (List.range (u.length - 1)).map fun (i : Nat) => u.getD (i + 1) 0 - u.getD i 0

/-- Arithmetic mean. -/
def avg (l : List K) : K := l.sum / (l.length : K)

/-- Sample variance (divisor `n - 1`). -/
def sampleVar (l : List K) : K := (l.map fun x => (x - avg l) ^ 2).sum / ((l.length : K) - 1)

/-- The documented GOE score: relative excess of the spacing variance over 0.286 plus half the excess
of the mean spacing over 1. -/
def goeScore (u : List K) : K :=
  (sampleVar (gaps u) - 286 / 1000) / (286 / 1000) + (avg (gaps u) - 1) / 2

/-- The mean of the entries that are not the largest; `none` if all entries are equal. -/
def meanBelowMax [LinearOrder K] (l : List K) : Option K :=
  let kept := l.filter fun x => l.any fun y => decide (x < y)
  if kept = [] then none else some (avg kept)

/-- `a` is at least as good as `b` when small values are good and a missing value is worst. -/
def AtLeastAsGood [LinearOrder K] (a b : Option K) : Prop :=
  ∀ y, b = some y → ∃ x, a = some x ∧ x ≤ y

end RMT.Spec
