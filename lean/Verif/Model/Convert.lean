import Verif.Model.EigVals
import Verif.Model.Objects

/-!
# Model of the conversion of inputs to arrays

_validate.py lines 9-19, _eigvals.py lines 17-35, smoother.py lines 57-72: what happens to a Python value (a number, a nested list or tuple, something else) that is passed as eigenvalues or as a curve. `None` and complex
numbers as elements are not covered (`None` becomes NaN; `Smoother` drops imaginary parts).
-/

namespace RMT
namespace EigValsM
open Objects

/-- A Python value passed where an array is expected: a number (or a string denoting one), a value that is neither a number nor a sequence (`float` of it raises `err`), or a sequence. -/
inductive PyData (α : Type) where
  | num (x : α)
  | other (err : PyErr)
  | seq (l : List (PyData α))

mutual
/-- NumPy's discovery of the shape of a nested sequence: the first element determines the shape all others must have. The shape and the leaves in order, or `none` if the sequence is ragged. -/
def discover {α : Type} : PyData α → Option (List Nat × List (Except PyErr α))
  | .num x => some ([], [.ok x])
  | .other e => some ([], [.error e])
  | .seq [] => some ([0], [])
  | .seq (x :: xs) => match discover x with
    | none => none
    | some (s, l) => match discoverRest s xs with
      | none => none
      | some r => some ((xs.length + 1) :: s, l ++ r)
/-- The elements after the first: each must have shape `s`. -/
def discoverRest {α : Type} (s : List Nat) : List (PyData α) → Option (List (Except PyErr α))
  | [] => some []
  | x :: xs => match discover x with
    | none => none
    | some (s', l) => if s' = s then (match discoverRest s xs with
        | none => none
        | some r => some (l ++ r)) else none
end

/-- The entries are converted from left to right; the first failing one raises. -/
def convertLeaves {α : Type} : List (Except PyErr α) → Py (List α)
  | [] => .ok []
  | x :: xs => do
    let v ← x
    let vs ← convertLeaves xs
    .ok (v :: vs)

/-- `np.array(d, dtype=np.float64)` (NumPy 1.23): ragged sequences and more than 32 dimensions raise `ValueError`. -/
def npArray {α : Type} (d : PyData α) : Py (NDArr α) :=
  match discover d with
  | none => .error .valueError
  | some (s, l) => if 32 < s.length then .error .valueError else do
    let v ← convertLeaves l
    .ok ⟨s, v⟩

/-- _validate.py lines 9-19, `make_1d_array(d)`: every exception of the conversion becomes `ValueError`. -/
def make1dOf {α : Type} (d : PyData α) : Py (List α) :=
  match npArray d with
  | .error _ => .error .valueError
  | .ok a => make1dArray a

/-- smoother.py lines 57-72, `Smoother(d)`: the array kept. Every exception of the conversion becomes `ValueError` (line 68); for a ragged sequence line 66 makes an array of objects, whose conversion to floats fails. -/
def smootherOf {α : Type} [LinearOrder α] (d : PyData α) : Py (List α) :=
  match npArray d with
  | .error _ => .error .valueError
  | .ok a => initSmoother a

/-- _eigvals.py lines 17-35, `EigVals(d)` for a value other than `None`: the conversion in line 20 is not guarded. -/
def eigValsOf {α : Type} [LinearOrder α] (isSymm : NDArr α → Bool) (eigvalsh eigvals : NDArr α → Py (List α)) (d : PyData α) : Py (Obj α) :=
  match npArray d with
  | .error e => .error e
  | .ok a => initEigVals isSymm eigvalsh eigvals (some a)

end EigValsM
end RMT
