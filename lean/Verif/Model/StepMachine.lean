import Verif.Model.Step

/-!
# `_step_function_fast` as a machine, on floats that may be NaN

`Model/Step.lean` models the loops of `empyricalRMT/observables/step.py` as functions, which is possible only because they terminate on
NaN-free arrays. Here the same loops are a machine that executes one loop test at a time, so that a run may be infinite; array entries
may be NaN (`none`), which makes every comparison false. Simplification: the
function is compiled with `fastmath=True` (line 35), which allows the compiler to assume that no operand is NaN; the machine has IEEE comparisons.
-/

namespace RMT
namespace StepMachine

variable {α : Type} [LinearOrder α]

/-- IEEE `a < b`: false if an operand is NaN. -/
def flt : Option α → Option α → Bool
  | some a, some b => decide (a < b)
  | _, _ => false

/-- IEEE `a <= b`: false if an operand is NaN. -/
def fle : Option α → Option α → Bool
  | some a, some b => decide (a ≤ b)
  | _, _ => false

/-- The loop whose test is executed next: the skip loop (step.py lines 50-52), the main loop (55-61), the look-ahead loop (62-64), the
last loop (66-68); or the function has returned (41, 46, 70). -/
inductive PC where
  | skip | main | look | tail | done
  deriving DecidableEq, Repr

/-- The local variables of `_step_function_fast`. -/
structure St where
  pc : PC
  i : Nat
  j : Nat
  count : Nat
  ret : List Nat

/-- One loop test with the statements up to the next one (step.py lines 50-70). Reads are in range where they are used. -/
def step (eigs x : List (Option α)) (s : St) : St :=
  match s.pc with
  | .skip =>
    if s.j < x.length ∧ flt (x.getD s.j none) (eigs.getD 0 none) = true then { s with j := s.j + 1 }
    else { s with pc := .main }
  | .main =>
    if s.j < x.length ∧ s.i < eigs.length then
      if fle (eigs.getD s.i none) (x.getD s.j none) = true then { s with i := s.i + 1, count := s.count + 1 }
      else { s with pc := .look }
    else { s with pc := .tail }
  | .look =>
    if s.j < x.length ∧ flt (x.getD s.j none) (eigs.getD s.i none) = true then
      { s with ret := s.ret.set s.j s.count, j := s.j + 1 }
    else { s with pc := .main }
  | .tail =>
    if s.j < x.length then { s with ret := s.ret.set s.j s.count, j := s.j + 1 }
    else { s with pc := .done }
  | .done => s

/-- The state in which the function has returned `ret`. -/
def returned (ret : List Nat) : St := ⟨.done, 0, 0, 0, ret⟩

/-- step.py lines 36-49: the early exits and the start of the skip loop. Empty arrays are an `IndexError` (numba reads outside the
array). -/
def start (eigs x : List (Option α)) : Py St := do
  let ret := List.replicate x.length 0
  let xLast ← pyGet x (-1)
  let e0 ← pyGet eigs 0
  if fle xLast e0 = true then return returned ret                          -- lines 40-41
  let x0 ← pyGet x 0
  let eLast ← pyGet eigs (-1)
  if flt eLast x0 = true then return returned (List.replicate x.length eigs.length)   -- lines 42-46
  return ⟨.skip, 0, 0, 0, ret⟩

/-- The state after `n` steps. -/
def runFrom (eigs x : List (Option α)) : Nat → St → St
  | 0, s => s
  | n + 1, s => runFrom eigs x n (step eigs x s)

/-- `_step_function_fast(eigs, x)` returns `r`. -/
def Returns (eigs x : List (Option α)) (r : List Nat) : Prop :=
  ∃ s, start eigs x = .ok s ∧ ∃ n, (runFrom eigs x n s).pc = .done ∧ (runFrom eigs x n s).ret = r

/-- `_step_function_fast(eigs, x)` runs forever. -/
def Diverges (eigs x : List (Option α)) : Prop :=
  ∃ s, start eigs x = .ok s ∧ ∀ n, (runFrom eigs x n s).pc ≠ .done

/-- `_eigvals.py` lines 31-35: the values of an object constructed from `l`: `np.sort` puts the NaN entries last. -/
def sortNaN (l : List (Option α)) : List (Option α) :=
  ((l.filterMap id).mergeSort (fun a b => decide (a ≤ b))).map some ++ List.replicate (l.count none) none

end StepMachine
end RMT
