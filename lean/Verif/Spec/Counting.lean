import Verif.Imports

/-!
# Specification: counting

What "number of eigenvalues `≤ q`" means, without reference to the implementation.
-/

namespace RMT.Spec

variable {α : Type} [LinearOrder α]

/-- Ascending (ties allowed). -/
abbrev Ascending (l : List α) : Prop := l.Pairwise (· ≤ ·)

/-- Number of entries `≤ q` (with multiplicity). -/
def countLE (l : List α) (q : α) : Nat := l.countP (fun e => decide (e ≤ q))

/-- Number of entries (with multiplicity) that are `≤` at least one of the queries
`x[0], …, x[k]`. -/
def countReached (l x : List α) (k : Nat) : Nat :=
  l.countP (fun e => (x.take (k + 1)).any fun q => decide (e ≤ q))

end RMT.Spec
