import Verif.Imports
import Verif.Py

/-!
# Model of `empyricalRMT/observables/step.py`

Values range over an arbitrary linear order: the code only compares them, so this is exact for
floats other than NaN.  Result arrays (`np.int64`) are lists of natural numbers (counts are bounded by
the length of the spectrum, so no overflow).
-/

namespace RMT
namespace Step

variable {α : Type} [LinearOrder α]

/-- step.py lines 50-52: `j = 0; while j < len(x) and x[j] < eigs[0]: j += 1`. -/
def skipLoop (e0 : α) (x : List α) (j : Nat) : Nat :=
  if h : j < x.length then
    if x[j] < e0 then skipLoop e0 x (j + 1) else j
  else j
termination_by x.length - j

/-- step.py lines 62-64: `while j < len(x) and x[j] < eigs[i]: ret[j] = count; j += 1`
(`e` is `eigs[i]`). Returns the new `j` and the new buffer. -/
def lookAhead (e : α) (x : List α) (count : Nat) (j : Nat) (ret : List Nat) : Nat × List Nat :=
  if h : j < x.length then
    if x[j] < e then lookAhead e x count (j + 1) (ret.set j count) else (j, ret)
  else (j, ret)
termination_by x.length - j

theorem lookAhead_ge (e : α) (x : List α) (count j : Nat) (ret : List Nat) :
    j ≤ (lookAhead e x count j ret).1 := by
  fun_induction lookAhead e x count j ret with
  | case1 => omega
  | case2 => simp
  | case3 => simp

theorem lookAhead_gt (e : α) (x : List α) (count j : Nat) (ret : List Nat) (h : j < x.length)
    (hx : x[j] < e) : j < (lookAhead e x count j ret).1 := by
  rw [lookAhead, dif_pos h, if_pos hx]
  exact lookAhead_ge e x count (j + 1) _

/-- step.py lines 55-64: the main loop with pointers `i` into `eigs` and `j` into `x`.
Returns `(j, count, ret)` at loop exit. -/
def mainLoop (eigs x : List α) (i j count : Nat) (ret : List Nat) : Nat × Nat × List Nat :=
  if h : j < x.length ∧ i < eigs.length then
    if eigs[i]'h.2 ≤ x[j]'h.1 then
      mainLoop eigs x (i + 1) j (count + 1) ret
    else
      mainLoop eigs x i (lookAhead (eigs[i]'h.2) x count j ret).1 count
        (lookAhead (eigs[i]'h.2) x count j ret).2
  else (j, count, ret)
termination_by (eigs.length - i) + (x.length - j)
decreasing_by
  · omega
  · have := lookAhead_gt (eigs[i]'h.2) x count j ret h.1 (not_le.mp (by assumption))
    omega

/-- step.py lines 66-68: `while j < len(x): ret[j] = count; j += 1`. -/
def tailLoop (n : Nat) (count : Nat) (j : Nat) (ret : List Nat) : List Nat :=
  if j < n then tailLoop n count (j + 1) (ret.set j count) else ret
termination_by n - j

/-- step.py lines 44-45: `for i in range(len(ret)): ret[i] = n`. -/
def fillLoop (n : Nat) (i : Nat) (ret : List Nat) : List Nat :=
  if i < ret.length then fillLoop n (i + 1) (ret.set i n) else ret
termination_by ret.length - i
decreasing_by simp; omega

/-- step.py lines 36-70, `_step_function_fast`. The indexing `x[-1]`, `eigs[0]` of an empty array
is an `IndexError` here (numba performs an unchecked read there). -/
def stepFunctionFast (eigs x : List α) : Py (List Nat) := do
  let ret := List.replicate x.length 0                       -- line 39
  let xLast ← pyGet x (-1)
  let e0 ← pyGet eigs 0
  if xLast ≤ e0 then return ret                              -- lines 40-41
  let x0 ← pyGet x 0
  let eLast ← pyGet eigs (-1)
  if x0 > eLast then                                         -- lines 42-46
    return fillLoop eigs.length 0 ret
  let j := skipLoop e0 x 0                                   -- lines 50-52
  let r := mainLoop eigs x 0 j 0 ret                         -- lines 55-64
  return tailLoop x.length r.2.1 r.1 r.2.2                   -- lines 66-70

/-- step.py lines 73-81, `_step_function_correct` (counts stored as floats; the parallel loop
writes disjoint slots, see C18). -/
def stepFunctionCorrect (eigs x : List α) : List Nat :=
  x.map fun q => (eigs.filter fun e => e ≤ q).length

/-- The kinds of argument `x` that `step_values` distinguishes (step.py lines 28-31). -/
inductive StepArg (α : Type) where
  /-- a Python / numpy `float` -/
  | float (x : α)
  /-- an `ndarray` -/
  | array (x : List α)
  /-- anything else (ints, lists, strings, …) -/
  | other

/-- A float or an integer array, the two result kinds of `step_values`. -/
inductive StepRes where
  | float (n : Nat)
  | array (l : List Nat)
  deriving DecidableEq, Repr

/-- step.py lines 10-32, `step_values`. -/
def stepValues (eigs : List α) : StepArg α → Py StepRes
  | .float x => .ok (.float (eigs.filter fun e => e ≤ x).length)   -- lines 28-29
  | .other => .error .valueError                                   -- lines 30-31
  | .array x => (stepFunctionFast eigs x).map .array               -- line 32

end Step
end RMT
