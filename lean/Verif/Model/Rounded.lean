import Verif.Model.LevelVariance

/-!
# The Monte-Carlo loops of `delta_L` and `sigma_L` in rounded arithmetic

Every arithmetic operation of the loops is followed by a rounding `fl : K → K` (for `float64`: round to nearest). Integers (`n_within`, `n_within_sq`, `k`)
are converted exactly. Comparisons, `np.max` and `np.min` are exact on the rounded values. `np.mean` of the buffer is compiled by numba with
`fastmath`, which may associate the sum in any way: the association is a parameter (`SumTree`).
-/

namespace RMT
namespace Rounded
open Utils Rigidity LevelVar

variable {K : Type} [Field K] [LinearOrder K]

/-- `np.abs(np.max(b) - np.min(b)) < tol`, rigidity.py lines 291 and 297, levelvariance.py lines 266 and 274, with a rounded subtraction. -/
def rangeBelowFl (fl : K → K) (b : List K) (tol : K) : Bool :=
  match b with
  | [] => false
  | a :: l => decide (|fl (maxOf a l - minOf a l)| < tol)

/-- levelvariance.py lines 245-269: the `while True` loop of `sigma_L`, all float operations rounded; arguments as for `LevelVar.sigmaLoop`. -/
def sigmaLoopFl (fl : K → K) (n : Nat → Nat) (maxIters minIters : Nat) (tol : K) (k : Nat) (cm cs m sq : K) (b : List K) : K × List K × Nat :=
  let k' := k + 1                                                     -- line 246
  let nw := n k'
  let nsq := nw * nw                                                  -- line 250 (integers)
  let mUpd := fl (fl ((nw : K) - m) / (k' : K))                       -- line 251
  let sUpd := fl (fl ((nsq : K) - sq) / (k' : K))                     -- line 252
  let mk := kahanAddFl fl m mUpd cm                                   -- lines 253-255
  let sk := kahanAddFl fl sq sUpd cs                                  -- lines 256-258
  let sigma := fl (sk.1 - fl (mk.1 * mk.1))                           -- line 262
  let b' := b.set (k' % 1000) sigma                                   -- line 263
  if k' > minIters ∧ k' % 500 = 0 ∧ rangeBelowFl fl b' tol = true then     -- lines 266-267
    (sigma, b', k')
  else if _h : k' ≥ maxIters then                                      -- lines 268-269
    (sigma, b', k')
  else
    sigmaLoopFl fl n maxIters minIters tol k' mk.2 sk.2 mk.1 sk.1 b'
termination_by maxIters - k

/-- levelvariance.py lines 231-232 and 248-249: the number of values in the closed window `[c - L/2, c + L/2]`, its ends rounded. -/
def nWithinFl (fl : K → K) (unfolded : List K) (L c : K) : Nat :=
  (unfolded.filter fun e => decide (e ≥ fl (c - fl (L / 2))) && decide (e ≤ fl (c + fl (L / 2)))).length

/-- levelvariance.py lines 171-275, `sigma_L` in rounded arithmetic; `C j` is the value of the `j`-th call `np.random.uniform(mn, mx)`.
Returns `(sigma, converged, iterations)`. -/
def sigmaLFl (fl : K → K) (unfolded : List K) (L : K) (maxIters : Nat) (tol : K) (minIters : Nat) (C : Nat → K) : Py (K × Bool × Nat) := do
  let _mn ← npMin unfolded
  let _mx ← npMax unfolded
  let n := fun j => nWithinFl fl unfolded L (C j)
  let m0 : K := (n 0 : Nat)
  let sq0 : K := (n 0 * n 0 : Nat)
  let sigma0 := fl (sq0 - fl (m0 * m0))                               -- line 235
  let b := (List.replicate 1000 (0 : K)).set 0 sigma0
  let r := sigmaLoopFl fl n maxIters minIters tol 0 0 0 m0 sq0 b
  return (r.1, rangeBelowFl fl r.2.1 tol, r.2.2)

/-- rigidity.py lines 251-293: the `while True` loop of `delta_L`, all float operations rounded; `d j` is the (rounded) sample `delta3_c / L` of pass `j`;
arguments as for `Rigidity.deltaLoop`. -/
def deltaLoopFl (fl : K → K) (d : Nat → K) (maxIters minIters : Nat) (tol : K) (k : Nat) (c m : K) (b : List K) : Nat × K × List K :=
  if _h0 : k = 0 then                                        -- lines 265-269
    deltaLoopFl fl d maxIters minIters tol 1 c (d k) (b.set 0 (d k))
  else
    let k' := k + 1                                         -- lines 252-253
    let update := fl (fl (d k - m) / (k' : K))              -- line 276
    let mc := kahanAddFl fl m update c                      -- line 277
    let b' := b.set (k' % BUF) mc.1                         -- line 282
    if _hmax : k' ≥ maxIters then                            -- lines 286-287
      (k', mc.1, b')
    else if k' > minIters ∧ k' % BUF = 0 ∧ rangeBelowFl fl b' tol = true then   -- lines 288-293
      (k', mc.1, b')
    else
      deltaLoopFl fl d maxIters minIters tol k' mc.2 mc.1 b'
termination_by if k = 0 then maxIters + 1 else maxIters - k
decreasing_by
  · simp [_h0]
  · simp [_h0]; omega

/-- A way of associating (and ordering) a sum: the leaves are the summands. -/
inductive SumTree (K : Type) : Type
  | leaf : K → SumTree K
  | node : SumTree K → SumTree K → SumTree K

/-- The summands from left to right. -/
def SumTree.leaves : SumTree K → List K
  | .leaf x => [x]
  | .node l r => l.leaves ++ r.leaves

/-- The sum computed along the tree, every addition rounded. -/
def SumTree.evalFl (fl : K → K) : SumTree K → K
  | .leaf x => x
  | .node l r => fl (l.evalFl fl + r.evalFl fl)

/-- rigidity.py lines 229-301, `delta_L` in rounded arithmetic, given its samples: `np.mean(delta_running)` (line 301) is the sum of the buffer, associated
by `assoc` (a tree whose leaves are a permutation of the buffer), divided by its length. -/
def deltaLFl (fl : K → K) (assoc : List K → SumTree K) (d : Nat → K) (maxIters minIters : Nat) (tol : K) : K × Bool × Nat :=
  let r := deltaLoopFl fl d maxIters minIters tol 0 0 0 (List.replicate BUF 0)
  (fl ((assoc r.2.2).evalFl fl / (BUF : K)), rangeBelowFl fl r.2.2 tol, r.1)

end Rounded
end RMT
