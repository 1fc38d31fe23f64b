import Verif.Model.Step
import Verif.Model.Numeric

/-!
# Model of `empyricalRMT/_eigvals.py` and `empyricalRMT/_validate.py`

Values range over a linear order (NaN-free floats). `np.sort` is the merge sort of the standard library: any
sorting algorithm gives the same array of values. Array arguments that numpy can convert to `float64` are described by
`NDArr`: a shape and the entries in row-major order.
-/

namespace RMT
namespace EigValsM
open Step

/-- A converted numpy array: shape and entries in row-major order. -/
structure NDArr (α : Type) where
  shape : List Nat
  data : List α

/-- The number of entries agrees with the shape. -/
def NDArr.WF {α : Type} (a : NDArr α) : Prop := a.data.length = a.shape.prod

/-- `np.sort` of a 1-D array. -/
def npSort {α : Type} [LinearOrder α] (l : List α) : List α := l.mergeSort (fun a b => decide (a ≤ b))

/-- `_validate.py` lines 9-19, `make_1d_array`, applied to an array already converted to `float64`
(the conversion failure, a `ValueError`, is not modelled). `len` of a 0-dimensional array raises
`TypeError`. -/
def make1dArray {α : Type} (a : NDArr α) : Py (List α) :=
  match a.shape with
  | [] => .error .typeError
  | d :: _ => if a.data.length ≠ d then .error .valueError else .ok a.data

/-- The state of an `EigVals` object: constructor values, current values and the cache of `steps`. -/
structure Obj (α : Type) where
  construct : List α
  vals : List α
  cache : Option (List Nat)

/-- `_eigvals.py` lines 17-35, `EigVals.__init__`; `None` models the Python `None`. `eigvalsh`, `eigvals` are the
LAPACK eigenvalue routines (with conversion to float), applied to a 2-D array according to whether it
equals its transpose (`isSymm`). -/
def initEigVals {α : Type} [LinearOrder α] (isSymm : NDArr α → Bool)
    (eigvalsh eigvals : NDArr α → Py (List α)) (values : Option (NDArr α)) : Py (Obj α) := do
  match values with
  | none => .error .valueError                                    -- lines 18-19
  | some a =>
    if a.shape.length > 2 then .error .valueError                 -- lines 21-22
    else
      let eigs ← (if a.shape.length = 2 then                       -- lines 23-28
          (if isSymm a then eigvalsh a else eigvals a)
        else make1dArray a)                                       -- line 30
      let sorted := npSort eigs                                   -- line 31
      .ok { construct := sorted, vals := npSort sorted, cache := none }   -- lines 33-35

/-- A 1-D array. -/
def arr1d {α : Type} (l : List α) : NDArr α := ⟨[l.length], l⟩

/-- The constructor of `EigVals` (and `Trimmed`, trim.py lines 51-61) on a 1-D array. -/
def initEigVals1d {α : Type} [LinearOrder α] (l : List α) : Py (Obj α) :=
  initEigVals (fun _ => false) (fun _ => .error .runtimeError) (fun _ => .error .runtimeError)
    (some (arr1d l))

/-- `_eigvals.py` lines 57-61, the property `steps`: returns the cached array or computes and caches
it; returns the steps and the new object state. -/
def getSteps {α : Type} [LinearOrder α] (o : Obj α) : Py (List Nat × Obj α) :=
  match o.cache with
  | some s => .ok (s, o)
  | none => match stepFunctionFast o.vals o.vals with
    | .error e => .error e
    | .ok s => .ok (s, { o with cache := some s })

/-- `_eigvals.py` lines 63-65, the property `spacings`. -/
def spacings {α : Type} [LinearOrder α] [Sub α] (o : Obj α) : List α := diff (npSort o.vals)

end EigValsM
end RMT
