import Verif.Model.EigVals

/-!
# Arrays in memory: a model of histories of operations on `Eigenvalues`, `Trimmed` and `Unfolded` objects

Arrays live at addresses; several references may denote the same array.  The caller can create arrays, construct objects from
arrays it holds, read attributes (which return the internal arrays themselves) and write into any array it can
name.  `np.array(x)` and `np.sort(x)` allocate a new array (numpy's default `copy=True`).
-/

namespace RMT
namespace Memory
open Step EigValsM

/-- Attributes of an object (`_eigvals.py` lines 33-35, 57-61): the addresses of the float arrays `__construct_vals` and `_vals`, and of the
integer array `_steps` if it was computed. -/
structure PyObj where
  construct : Nat
  vals : Nat
  steps : Option Nat

/-- The memory: float arrays and integer arrays (addressed by position), the objects in order of creation, and the arrays created by
the caller. -/
structure St (α : Type) where
  floats : List (List α)
  ints : List (List Nat)
  objs : List PyObj
  caller : List Nat

/-- An empty memory. -/
def St.empty {α : Type} : St α := ⟨[], [], [], []⟩

/-- References to float arrays: the `k`-th array created by the caller, the array returned by `obj.values` (also `vals`, `eigs`, `eigenvalues`;
eigenvalues.py lines 287-306, trim.py lines 63-69, unfold.py lines 42-48), and the one returned by
`obj.original_values` (`_eigvals.py` lines 37-47). -/
inductive Ref where
  | mine (k : Nat)
  | values (o : Nat)
  | originals (o : Nat)
  deriving DecidableEq

/-- The address a reference denotes. -/
def St.addr {α : Type} (s : St α) : Ref → Option Nat
  | .mine k => s.caller[k]?
  | .values o => s.objs[o]?.map (·.vals)
  | .originals o => s.objs[o]?.map (·.construct)

/-- The contents of the array a reference denotes. -/
def St.read {α : Type} (s : St α) (r : Ref) : Option (List α) :=
  match s.addr r with
  | none => none
  | some a => s.floats[a]?

/-- Operations of a client program. -/
inductive Op (α : Type) where
  /-- create an array -/
  | newArray (l : List α)
  /-- `Eigenvalues(arr)` or `Trimmed(arr)` for a 1-D array -/
  | construct (r : Ref)
  /-- `Unfolded(originals, unfolded)` -/
  | constructUnfolded (r1 r2 : Ref)
  /-- `obj.trim_manually(start, stop)` -/
  | trimManually (o : Nat) (start stop : Int)
  /-- `obj.unfold(...)`: `u` are the values computed by the smoother -/
  | unfold (o : Nat) (u : List α)
  /-- `obj.steps` -/
  | readSteps (o : Nat)
  /-- `arr[i] = v` -/
  | write (r : Ref) (i : Nat) (v : α)
  /-- `obj.steps[i] = v` -/
  | writeSteps (o : Nat) (i v : Nat)

variable {α : Type} [LinearOrder α]

/-- Allocate an object with the given original values and values. -/
def St.alloc (s : St α) (orig vals : List α) : St α :=
  { s with floats := s.floats ++ [orig, vals]
           objs := s.objs ++ [⟨s.floats.length, s.floats.length + 1, none⟩] }

/-- One operation. Operations on references that do not exist change nothing, nor do index errors. `_eigvals.py` lines 17-35 (`construct`),
unfold.py lines 31-40 (`constructUnfolded`), eigenvalues.py lines 586-589 (`trimManually`), 804-808 (`unfold`),
`_eigvals.py` lines 57-61 (`readSteps`). -/
def St.step (s : St α) : Op α → St α
  | .newArray l => { s with floats := s.floats ++ [l], caller := s.caller ++ [s.floats.length] }
  | .construct r => match s.read r with
    | none => s
    | some l => s.alloc (npSort l) (npSort l)
  | .constructUnfolded r1 r2 => match s.read r1, s.read r2 with
    | some l1, some l2 => s.alloc (npSort l1) l2
    | _, _ => s
  | .trimManually o a b => match s.read (.values o) with
    | none => s
    | some l => s.alloc (npSort (pySlice l a b)) (npSort (pySlice l a b))
  | .unfold o u => match s.read (.values o) with
    | none => s
    | some l => s.alloc (npSort l) u
  | .readSteps o => match s.objs[o]? with
    | none => s
    | some ob => match ob.steps with
      | some _ => s
      | none => match s.floats[ob.vals]? with
        | none => s
        | some l => match stepFunctionFast l l with
          | .error _ => s
          | .ok st => { s with ints := s.ints ++ [st]
                               objs := s.objs.set o { ob with steps := some s.ints.length } }
  | .write r i v => match s.addr r with
    | none => s
    | some a => match s.floats[a]? with
      | none => s
      | some l => { s with floats := s.floats.set a (l.set i v) }
  | .writeSteps o i v => match s.objs[o]?.bind (·.steps) with
    | none => s
    | some a => match s.ints[a]? with
      | none => s
      | some l => { s with ints := s.ints.set a (l.set i v) }

/-- A history of operations. -/
def run (ops : List (Op α)) : St α := ops.foldl St.step St.empty

/-- What `obj.steps` returns (the first call computes and caches it). -/
def St.stepsOf (s : St α) (o : Nat) : Option (Py (List Nat)) :=
  match s.objs[o]? with
  | none => none
  | some ob => match ob.steps with
    | some a => s.ints[a]?.map Except.ok
    | none => s.floats[ob.vals]?.map fun l => stepFunctionFast l l

end Memory
end RMT
