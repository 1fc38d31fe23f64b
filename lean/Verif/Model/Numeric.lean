import Verif.Imports
import Verif.Py

/-!
# numpy primitives used by the model

These model numpy rather than code in `/repo` (exact arithmetic over an ordered field).
-/

namespace RMT

variable {K : Type}

/-- numpy indexing `l[i]` (negative indices wrap) as a total function; out-of-range reads give `0`.
Every use cites why the read is in range, or is guarded by an explicit error branch. -/
def nth [Zero K] (l : List K) (i : Int) : K :=
  match pyIdx l.length i with
  | some k => l.getD k 0
  | none => 0

/-- `np.mean` of a non-empty array (`sum / len`). -/
def mean [Field K] (l : List K) : K := l.sum / (l.length : K)

/-- `np.diff`: first differences. -/
def diff [Sub K] : List K → List K
  | a :: b :: l => (b - a) :: diff (b :: l)
  | _ => []

/-- `np.linspace(a, b, n)`. For `n = 1` it is `[a]` (division by zero gives the factor `0`). -/
def linspace [Field K] (a b : K) (n : Nat) : List K :=
  (List.range n).map fun (i : Nat) => a + (i : K) * ((b - a) / ((n : K) - 1))

/-- `np.max` of a non-empty array (`a` is the first entry). -/
def maxOf [LinearOrder K] (a : K) (l : List K) : K := l.foldl max a

/-- `np.min` of a non-empty array (`a` is the first entry). -/
def minOf [LinearOrder K] (a : K) (l : List K) : K := l.foldl min a

/-- `np.max(l)`; raises `ValueError` on an empty array. -/
def npMax [LinearOrder K] : List K → Py K
  | [] => .error .valueError
  | a :: l => .ok (maxOf a l)

/-- `np.min(l)`; raises `ValueError` on an empty array. -/
def npMin [LinearOrder K] : List K → Py K
  | [] => .error .valueError
  | a :: l => .ok (minOf a l)

/-- `np.random.uniform(lo, hi)` for the underlying draw `u` from `[0, 1)`. -/
def uniform [Field K] (lo hi u : K) : K := lo + (hi - lo) * u

/-- A `prange` loop: the body is run once for each index, in the order `order` (any permutation of the
index range may occur); the body computes a value for its index or raises, and stores it in
its own slot of the output array. -/
def prangeWrite {β : Type} (order : List Nat) (f : Nat → Py β) (out : List β) : Py (List β) :=
  match order with
  | [] => .ok out
  | i :: is => match f i with
    | .error e => .error e
    | .ok v => prangeWrite is f (out.set i v)

end RMT
