import Verif.Model.Rigidity

/-!
# Model of `empyricalRMT/observables/levelvariance.py` and `Unfolded.level_variance`

Exact arithmetic over a linearly ordered field; `U : Nat → K` is the stream of draws from `[0, 1)`
underlying `np.random.uniform`.
-/

namespace RMT
namespace LevelVar
open Utils Rigidity

variable {K : Type} [Field K] [LinearOrder K]

/-- levelvariance.py lines 231-232 and 248-249: the number of values in the closed window
`[c - L/2, c + L/2]`. -/
def nWithin (unfolded : List K) (L c : K) : Nat :=
  (unfolded.filter fun e => decide (e ≥ c - L / 2) && decide (e ≤ c + L / 2)).length

/-- levelvariance.py lines 245-269: the `while True` loop of `sigma_L`, entered with counter `k`, the
Kahan carries `cm` (`c_mean`), `cs` (`c_sq`), the running means `m`, `sq` and the buffer `b`; `n j` is the
count of the `j`-th window. Returns the final `sigma`, buffer and counter. -/
def sigmaLoop (n : Nat → Nat) (maxIters minIters : Nat) (tol : K) (k : Nat) (cm cs m sq : K)
    (b : List K) : K × List K × Nat :=
  let k' := k + 1                                                     -- line 246
  let nw := n k'
  let nsq := nw * nw                                                  -- line 250
  let mUpd := ((nw : K) - m) / (k' : K)                               -- line 251
  let sUpd := ((nsq : K) - sq) / (k' : K)                             -- line 252
  let mk := kahanAdd m mUpd cm                                        -- lines 253-255
  let sk := kahanAdd sq sUpd cs                                       -- lines 256-258
  let sigma := sk.1 - mk.1 * mk.1                                     -- line 262
  let b' := b.set (k' % 1000) sigma                                   -- line 263
  if k' > minIters ∧ k' % 500 = 0 ∧ rangeBelow b' tol = true then     -- lines 266-267
    (sigma, b', k')
  else if _h : k' ≥ maxIters then                                      -- lines 268-269
    (sigma, b', k')
  else
    sigmaLoop n maxIters minIters tol k' mk.2 sk.2 mk.1 sk.1 b'
termination_by maxIters - k

/-- levelvariance.py lines 171-275, `sigma_L`; progress output is not modelled. Window `j` is centred
at `np.random.uniform(mn, mx)` with the `j`-th draw; window 0 initialises the means (lines 230-236).
`np.min`/`np.max` of an empty array raise `ValueError`. Returns `(sigma, converged, iterations)`. -/
def sigmaL (unfolded : List K) (L : K) (maxIters : Nat) (tol : K) (minIters : Nat) (U : Nat → K) :
    Py (K × Bool × Nat) := do
  let mn ← npMin unfolded
  let mx ← npMax unfolded
  let n := fun j => nWithin unfolded L (uniform mn mx (U j))
  let m0 : K := (n 0 : Nat)
  let sq0 : K := (n 0 * n 0 : Nat)
  let sigma0 := sq0 - m0 * m0
  let b := (List.replicate 1000 (0 : K)).set 0 sigma0
  let r := sigmaLoop n maxIters minIters tol 0 0 0 m0 sq0 b
  return (r.1, rangeBelow r.2.1 tol, r.2.2)

/-- levelvariance.py lines 95-168, `sigma_parallel`: `order` is the execution order of the `prange`
loop, `U i` the stream of iteration `i`. The uninitialised `iters` array (`np.empty_like`) is represented by
`junk`. -/
def sigmaParallel (order : List Nat) (unfolded Lvals : List K) (tol : K) (maxIters minIters : Nat)
    (U : Nat → Nat → K) (junk : Nat) : Py (List (K × Bool × Nat)) :=
  prangeWrite order
    (fun i => sigmaL unfolded (nth Lvals i) maxIters tol minIters (U i))
    (List.replicate Lvals.length (0, false, junk))

/-- levelvariance.py lines 23-91, `level_number_variance`. Returns `(L, sigma, converged, iters)`. -/
def levelNumberVariance (order : List Nat) (unfolded L : List K) (tol : K) (maxIters : Int)
    (Upilot : Nat → K) (U : Nat → Nat → K) (junk : Nat) :
    Py (List K × List K × List Bool × List Nat) := do
  let budget ← (if maxIters ≤ 0 then do                               -- lines 59-84
      let Lmax ← npMax L
      let r ← sigmaL unfolded Lmax AUTO_MAX_ITERS tol (MIN_ITERS * 10) Upilot
      if r.2.1 then pure (r.2.2 * 2) else Except.error .convergenceError
    else pure maxIters.toNat : Py Nat)
  let res ← sigmaParallel order unfolded L tol budget MIN_ITERS U junk
  return (L, res.map (·.1), res.map (·.2.1), res.map (·.2.2))

/-- unfold.py lines 114-168, `Unfolded.level_variance(L, tol, max_L_iters, min_L_iters)`: the argument
`min_L_iters` is accepted but not passed on. -/
def levelVariance (order : List Nat) (unfolded L : List K) (tol : K) (maxLIters : Int)
    (_minLIters : Nat) (Upilot : Nat → K) (U : Nat → Nat → K) (junk : Nat) :
    Py (List K × List K × List Bool × List Nat) :=
  levelNumberVariance order unfolded L tol maxLIters Upilot U junk

end LevelVar
end RMT
