import Verif.Model.Rigidity
import Verif.Model.LevelVariance

/-!
# Model of the progress output

`Model/Rigidity.lean` and `Model/LevelVariance.lean` leave out what is printed. Here the parallel loops are schedules of writes and reports, and the loops of `delta_L` and `sigma_L` keep the list of
numbers they print (the texts around the numbers are constants of `_constants.py`).
-/

namespace RMT
namespace Progress
open Rigidity LevelVar Utils

variable {K : Type}

/-- rigidity.py lines 200-202 and levelvariance.py lines 145-147 (with `PROG_FREQUENCY = 50`): the interval between reports. -/
def progInterval (n : Nat) : Nat := if n / 50 = 0 then 1 else n / 50

/-- What an iteration of the `prange` loop does: store the results for index `i`; print a percentage. -/
inductive Ev where
  | write (i : Nat)
  | report (i : Nat)
  deriving DecidableEq, Repr

/-- The output arrays (as one array of triples) and the numbers printed so far. -/
structure PState (K : Type) where
  out : List (K × Bool × Nat)
  lines : List Nat

/-- rigidity.py line 222, levelvariance.py line 163: `int(100 * np.sum(P(values)) / len(values))`, where `P` is `!= 0` or `> 0`. The quotient is exact here. -/
def percent (P : K → Bool) (out : List (K × Bool × Nat)) : Nat := 100 * (out.filter fun r => P r.1).length / out.length

/-- One event; `f i` are the results for index `i`. -/
def exec (P : K → Bool) (f : Nat → K × Bool × Nat) (s : PState K) : Ev → PState K
  | .write i => { s with out := s.out.set i (f i) }
  | .report _ => { s with lines := s.lines ++ [percent P s.out] }

/-- rigidity.py lines 203-223, levelvariance.py lines 152-166 with `show_progress=True`, for a schedule of the events: the arrays start as zeros (`junk` being the uninitialised counts of
levelvariance.py line 142, zero in rigidity.py), the first line printed shows 0. -/
def runProgress [Zero K] (P : K → Bool) (f : Nat → K × Bool × Nat) (n junk : Nat) (evs : List Ev) : PState K :=
  evs.foldl (exec P f) ⟨List.replicate n (0, false, junk), [0]⟩

/-- The index stored by an event, if any. -/
def Ev.written : Ev → Option Nat
  | .write i => some i
  | .report _ => none

/-- The index reported on by an event, if any. -/
def Ev.reported : Ev → Option Nat
  | .write _ => none
  | .report i => some i

/-- The reports of index `i` come after its write, all the writes occur once, and the reports once for every `progInterval`-th index: what `prange` guarantees. -/
structure Schedule (n : Nat) (evs : List Ev) : Prop where
  writes : (evs.filterMap Ev.written).Perm (List.range n)
  reports : (evs.filterMap Ev.reported).Perm ((List.range n).filter fun i => i % progInterval n = 0)
  ordered : ∀ pre post i, evs = pre ++ .report i :: post → .write i ∈ pre

/-- The schedule of a single thread: index after index. -/
def sequential (n : Nat) : List Ev :=
  (List.range n).flatMap fun i => if i % progInterval n = 0 then [.write i, .report i] else [.write i]

section Loops
variable [Field K] [LinearOrder K]

/-- rigidity.py lines 251-293: the loop of `delta_L` as in `Rigidity.deltaLoop`, with the numbers printed so far; `interval` is `prog_interval` (lines 241-243). -/
def deltaLoopP (interval : Nat) (d : Nat → Py K) (maxIters minIters : Nat) (tol : K) (k : Nat) (c m : K) (b : List K) (log : List Nat) :
    Py ((Nat × K × List K) × List Nat) :=
  match d k with
  | .error e => .error e
  | .ok d3 =>
    if _h0 : k = 0 then
      deltaLoopP interval d maxIters minIters tol 1 c d3 (b.set 0 d3) log
    else
      let k' := k + 1
      let update := (d3 - m) / (k' : K)
      let mc := kahanAdd m update c
      let b' := b.set (k' % BUF) mc.1
      let log' := if k' % interval = 0 then log ++ [k' * 2] else log       -- lines 284-285
      if _hmax : k' ≥ maxIters then .ok ((k', mc.1, b'), log')
      else if k' > minIters ∧ k' % BUF = 0 ∧ rangeBelow b' tol = true then .ok ((k', mc.1, b'), log')
      else deltaLoopP interval d maxIters minIters tol k' mc.2 mc.1 b' log'
termination_by if k = 0 then maxIters + 1 else maxIters - k
decreasing_by
  · simp [_h0]
  · simp [_h0]; omega

/-- levelvariance.py lines 245-269: the loop of `sigma_L` as in `LevelVar.sigmaLoop`, with the numbers printed so far. -/
def sigmaLoopP (interval : Nat) (n : Nat → Nat) (maxIters minIters : Nat) (tol : K) (k : Nat) (cm cs m sq : K) (b : List K) (log : List Nat) :
    (K × List K × Nat) × List Nat :=
  let k' := k + 1
  let nw := n k'
  let nsq := nw * nw
  let mUpd := ((nw : K) - m) / (k' : K)
  let sUpd := ((nsq : K) - sq) / (k' : K)
  let mk := kahanAdd m mUpd cm
  let sk := kahanAdd sq sUpd cs
  let sigma := sk.1 - mk.1 * mk.1
  let b' := b.set (k' % 1000) sigma
  let log' := if k' % interval = 0 then log ++ [k' * 2] else log           -- lines 264-265
  if k' > minIters ∧ k' % 500 = 0 ∧ rangeBelow b' tol = true then ((sigma, b', k'), log')
  else if _h : k' ≥ maxIters then ((sigma, b', k'), log')
  else sigmaLoopP interval n maxIters minIters tol k' mk.2 sk.2 mk.1 sk.1 b' log'
termination_by maxIters - k

/-- rigidity.py lines 229-301, `delta_L(..., show_progress=True)`: the result and the numbers printed (lines 250, 285, 296). -/
def deltaLP (interval : Nat) (unfolded : List K) (L : K) (gridsize maxIters minIters : Nat) (tol : K) (useSimpson : Bool) (U : Nat → K) :
    Py ((K × Bool × Nat) × List Nat) := do
  let lo ← pyGet unfolded 0
  let hi ← pyGet unfolded (-1)
  let r ← deltaLoopP interval (fun j => d3Sample unfolded L gridsize useSimpson (uniform lo hi (U j))) maxIters minIters tol 0 0 0 (List.replicate BUF 0) [0]
  .ok ((mean r.1.2.2, rangeBelow r.1.2.2 tol, r.1.1), r.2 ++ [r.1.1])

/-- levelvariance.py lines 171-275, `sigma_L(..., show_progress=True)`: the result and the numbers printed (lines 242, 265, 272). -/
def sigmaLP (interval : Nat) (unfolded : List K) (L : K) (maxIters : Nat) (tol : K) (minIters : Nat) (U : Nat → K) : Py ((K × Bool × Nat) × List Nat) := do
  let mn ← npMin unfolded
  let mx ← npMax unfolded
  let n := fun j => nWithin unfolded L (uniform mn mx (U j))
  let m0 : K := (n 0 : Nat)
  let sq0 : K := (n 0 * n 0 : Nat)
  let sigma0 := sq0 - m0 * m0
  let b := (List.replicate 1000 (0 : K)).set 0 sigma0
  let r := sigmaLoopP interval n maxIters minIters tol 0 0 0 m0 sq0 b [0]
  .ok ((r.1.1, rangeBelow r.1.2.1 tol, r.1.2.2), r.2 ++ [r.1.2.2])

end Loops

end Progress
end RMT
