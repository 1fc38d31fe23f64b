import Verif.Model.Convert

/-!
# Specification: nested sequences

When a nested Python sequence is rectangular, and which leaves it has, in order.
-/

namespace RMT
namespace Spec
open EigValsM

/-- The nested sequence is rectangular with this shape: a leaf has no dimension, an empty sequence has shape `[0]`, and a non-empty one has as many entries as it has elements, all of one shape. -/
inductive Rectangular {α : Type} : PyData α → List Nat → Prop
  | num (x : α) : Rectangular (.num x) []
  | other (e : PyErr) : Rectangular (.other e) []
  | empty : Rectangular (.seq []) [0]
  | items (l : List (PyData α)) (s : List Nat) (hne : l ≠ []) (h : ∀ x ∈ l, Rectangular x s) : Rectangular (.seq l) (l.length :: s)

mutual
/-- The leaves, from left to right: the numbers, or the exception raised by converting something that is not a number. -/
def leaves {α : Type} : PyData α → List (Except PyErr α)
  | .num x => [.ok x]
  | .other e => [.error e]
  | .seq l => leavesAll l
/-- The leaves of the elements, from left to right. -/
def leavesAll {α : Type} : List (PyData α) → List (Except PyErr α)
  | [] => []
  | x :: xs => leaves x ++ leavesAll xs
end

end Spec
end RMT
