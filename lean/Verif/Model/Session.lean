import Verif.Model.Generate
import Verif.Model.LevelVariance
import Verif.Model.Rigidity
import Mathlib.Logic.Function.Basic

/-!
# Model: random state over a session

There are two families of random states. Python code (`eigenvalues.py` lines 105-122, `construct.py`) draws from NumPy's global state, which `np.random.seed` sets. The functions
compiled with numba's `jit(nopython=True)` (`levelvariance.py` lines 95-275, `rigidity.py` lines 189-301) draw from numba's own generator, which has one state per thread and is not reached by `np.random.seed` called
from Python (numba documentation, "Deviations from Python semantics", "Random"). A session is a list of calls; a call takes the states and returns a result and new states.
-/

namespace RMT
namespace Session
open Gen Rigidity LevelVar

variable {σ τ : Type}

/-- The generator of the compiled code: the next draw of `np.random.uniform(0, 1)` and the new state. -/
structure Compiled (τ : Type) where
  next : τ → ℝ × τ

/-- The state after `j` draws. -/
def Compiled.after (N : Compiled τ) (s : τ) : Nat → τ
  | 0 => s
  | j + 1 => (N.next (N.after s j)).2

/-- The `j`-th draw from state `s`. -/
def Compiled.draw (N : Compiled τ) (s : τ) (j : Nat) : ℝ := (N.next (N.after s j)).1

/-- levelvariance.py line 158 and rigidity.py line 208, `for i in prange(len(L_vals))`: thread `assign i` executes iteration `i`; `order` lists the iterations by start, so iterations on one thread follow each other and
those on different threads share no state. `used i d` is the number of draws which iteration `i` uses if its stream is `d`. Returns the stream of each iteration and the final states. -/
def streams (N : Compiled τ) (assign : Nat → Nat) (used : Nat → (Nat → ℝ) → Nat) : List Nat → (Nat → τ) → (Nat → Nat → ℝ) → (Nat → Nat → ℝ) × (Nat → τ)
  | [], th, U => (U, th)
  | i :: is, th, U =>
    let s := th (assign i)
    let d := N.draw s
    streams N assign used is (Function.update th (assign i) (N.after s (used i d))) (Function.update U i d)

/-- levelvariance.py lines 230 and 247: `sigma_L` draws once before the loop and once per iteration. An exception (from line 228, for an empty array) comes before the first draw. -/
noncomputable def sigmaUsed (unfolded : List ℝ) (L : ℝ) (maxIters : Nat) (tol : ℝ) (minIters : Nat) (d : Nat → ℝ) : Nat :=
  match sigmaL unfolded L maxIters tol minIters d with
  | .ok r => r.2.2 + 1
  | .error _ => 0

/-- rigidity.py line 254: `delta_L` draws once per iteration. The state after an exception is not modelled. -/
noncomputable def deltaUsed (unfolded : List ℝ) (L : ℝ) (gridsize maxIters minIters : Nat) (tol : ℝ) (useSimpson : Bool) (d : Nat → ℝ) : Nat :=
  match deltaL unfolded L gridsize maxIters minIters tol useSimpson d with
  | .ok r => r.2.2
  | .error _ => 0

/-- levelvariance.py lines 23-91, `level_number_variance`, with the states of the threads; the pilot run (lines 59-84) is on the calling thread, 0. -/
noncomputable def runLevelVariance (N : Compiled τ) (order : List Nat) (assign : Nat → Nat) (unfolded L : List ℝ) (tol : ℝ) (maxIters : Int) (junk : Nat) (th : Nat → τ) :
    Py (List ℝ × List ℝ × List Bool × List Nat) × (Nat → τ) :=
  let pilot := N.draw (th 0)
  if maxIters ≤ 0 then
    match npMax L with
    | .error e => (.error e, th)
    | .ok m =>
      let th1 := Function.update th 0 (N.after (th 0) (sigmaUsed unfolded m AUTO_MAX_ITERS tol (MIN_ITERS * 10) pilot))
      match sigmaL unfolded m AUTO_MAX_ITERS tol (MIN_ITERS * 10) pilot with
      | .error e => (.error e, th1)
      | .ok r =>
        let us := if r.2.1 then streams N assign (fun i => sigmaUsed unfolded (nth L i) (r.2.2 * 2) tol MIN_ITERS) order th1 fun _ _ => 0 else (fun _ _ => 0, th1)
        (levelNumberVariance order unfolded L tol maxIters pilot us.1 junk, us.2)
  else
    let us := streams N assign (fun i => sigmaUsed unfolded (nth L i) maxIters.toNat tol MIN_ITERS) order th fun _ _ => 0
    (levelNumberVariance order unfolded L tol maxIters pilot us.1 junk, us.2)

/-- rigidity.py lines 52-186, `spectral_rigidity`, with the states of the threads. -/
noncomputable def runRigidity (N : Compiled τ) (order : List Nat) (assign : Nat → Nat) (unfolded L : List ℝ) (tol : ℝ) (maxIters : Int) (gridsize : Nat) (integration : String) (th : Nat → τ) :
    Py (List ℝ × List ℝ × List Bool × List Nat) × (Nat → τ) :=
  let useSimpson := integration != "trapz"
  let pilot := N.draw (th 0)
  if maxIters ≤ 0 then
    match npMax L with
    | .error e => (.error e, th)
    | .ok m =>
      let th1 := Function.update th 0 (N.after (th 0) (deltaUsed unfolded m RIGIDITY_GRID AUTO_MAX_ITERS (10 * MIN_ITERS) tol useSimpson pilot))
      match deltaL unfolded m RIGIDITY_GRID AUTO_MAX_ITERS (10 * MIN_ITERS) tol useSimpson pilot with
      | .error e => (.error e, th1)
      | .ok r =>
        let us := if r.2.1 then streams N assign (fun i => deltaUsed unfolded (nth L i) gridsize (r.2.2 * 2) MIN_ITERS tol useSimpson) order th1 fun _ _ => 0 else (fun _ _ => 0, th1)
        (spectralRigidity order unfolded L tol maxIters gridsize integration pilot us.1, us.2)
  else
    let us := streams N assign (fun i => deltaUsed unfolded (nth L i) gridsize maxIters.toNat MIN_ITERS tol useSimpson) order th fun _ _ => 0
    (spectralRigidity order unfolded L tol maxIters gridsize integration pilot us.1, us.2)

/-- NumPy's global state and the states of numba's threads. -/
structure World (σ τ : Type) where
  np : σ
  nb : Nat → τ

/-- One call of a session. -/
inductive Call (σ : Type) where
  /-- any other code which draws from NumPy's global generator: the user's, `np.random.seed`, the functions of construct.py -/
  | numpy (f : σ → List ℝ × σ)
  /-- `Eigenvalues.generate`; `entropy` is the state which the operating system's entropy would give -/
  | generate (n : Nat) (kind : KindArg) (seed : Option Nat) (tri : Bool) (entropy : σ)
  /-- `Unfolded.level_variance` -/
  | levelVariance (order : List Nat) (assign : Nat → Nat) (unfolded L : List ℝ) (tol : ℝ) (maxIters : Int) (junk : Nat)
  /-- `Unfolded.spectral_rigidity` -/
  | rigidity (order : List Nat) (assign : Nat → Nat) (unfolded L : List ℝ) (tol : ℝ) (maxIters : Int) (gridsize : Nat) (integration : String)

/-- The result of a call. -/
inductive Out where
  | numpy (l : List ℝ)
  | generated (g : Generated)
  | observable (r : Py (List ℝ × List ℝ × List Bool × List Nat))

/-- `np.random.seed(k)`. -/
def npSeed (R : Rng σ) (k : Nat) : Call σ := .numpy fun _ => ([], R.seed k)

/-- eigenvalues.py lines 66-132, unfold.py lines 53-168: one call. -/
noncomputable def step (R : Rng σ) (eh : EigM.EigSolver) (ehC : (n : Nat) → Matrix (Fin n) (Fin n) ℂ → List ℝ) (N : Compiled τ) (w : World σ τ) : Call σ → Out × World σ τ
  | .numpy f => (.numpy (f w.np).1, ⟨(f w.np).2, w.nb⟩)
  | .generate n kind seed tri entropy =>
    let r := generate R eh ehC n kind seed tri entropy w.np
    (.generated r.1, ⟨r.2, w.nb⟩)
  | .levelVariance order assign unfolded L tol maxIters junk =>
    let r := runLevelVariance N order assign unfolded L tol maxIters junk w.nb
    (.observable r.1, ⟨w.np, r.2⟩)
  | .rigidity order assign unfolded L tol maxIters gridsize integration =>
    let r := runRigidity N order assign unfolded L tol maxIters gridsize integration w.nb
    (.observable r.1, ⟨w.np, r.2⟩)

/-- The results of a session. -/
noncomputable def results (R : Rng σ) (eh : EigM.EigSolver) (ehC : (n : Nat) → Matrix (Fin n) (Fin n) ℂ → List ℝ) (N : Compiled τ) : World σ τ → List (Call σ) → List Out
  | _, [] => []
  | w, c :: cs => (step R eh ehC N w c).1 :: results R eh ehC N (step R eh ehC N w c).2 cs

end Session
end RMT
