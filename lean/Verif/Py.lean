/-!
# The Python layer

Exceptions as values and Python indexing.  These definitions model the Python language and numpy
conventions rather than code in `/repo`; every use in `Verif/Model` cites the code it models.
-/

namespace RMT

/-- The Python exceptions that the modelled code can raise (messages are not modelled). -/
inductive PyErr where
  | valueError
  | typeError
  | indexError
  | keyError
  | attributeError
  | zeroDivisionError
  | notImplementedError
  | runtimeError
  | unboundLocalError
  | convergenceError
  | linAlgError
  | fileExistsError
  | notADirectoryError
  | fileNotFoundError
  | exception
  deriving DecidableEq, Repr

/-- A Python computation: a value or a raised exception. -/
abbrev Py (α : Type _) := Except PyErr α

/-- `raise e` -/
def pyRaise {α} (e : PyErr) : Py α := Except.error e

/-- Position addressed by the Python index `i` in a sequence of length `n` (negative indices count
from the end), or `none` if out of range. -/
def pyIdx (n : Nat) (i : Int) : Option Nat :=
  if 0 ≤ i then (if i < n then some i.toNat else none)
  else (if 0 ≤ (n : Int) + i then some ((n : Int) + i).toNat else none)

/-- `l[i]` with a Python index. -/
def pyGet {α} (l : List α) (i : Int) : Py α :=
  match pyIdx l.length i with
  | none => Except.error .indexError
  | some k => match l[k]? with
    | some a => Except.ok a
    | none => Except.error .indexError

/-- Normalisation of a slice bound: negative bounds count from the end, then clamp to `[0, n]`. -/
def pyBound (n : Nat) (i : Int) : Nat :=
  let k := if i < 0 then i + n else i
  if k < 0 then 0 else if (n : Int) < k then n else k.toNat

/-- `l[a:b]` for integers `a`, `b` (Python slice, step 1). -/
def pySlice {α} (l : List α) (a b : Int) : List α :=
  (l.take (pyBound l.length b)).drop (pyBound l.length a)

end RMT
