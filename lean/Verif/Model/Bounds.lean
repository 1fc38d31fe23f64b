import Verif.Model.StepMachine
import Verif.Model.Rigidity
import Verif.Model.LevelVariance
import Verif.Model.Exponentials
import Verif.Model.Detrend

/-!
# The compiled loops with checked array accesses

numba compiles subscripts without bounds checks: an index outside `-n … n-1` reads or overwrites foreign memory. Here the loops of the compiled functions are written with
every subscript checked (`IndexError` if it is out of range), so that "the checked program does not raise" means that the compiled program stays inside its
arrays.
-/

namespace RMT
namespace Bounds
open Step StepMachine Rigidity LevelVar Utils Detrending

/-- `l[i] = v` with a bounds check. -/
def pySet {β : Type} (l : List β) (i : Int) (v : β) : Py (List β) :=
  match pyIdx l.length i with
  | none => .error .indexError
  | some k => .ok (l.set k v)

section Machine
variable {α : Type} [LinearOrder α]

/-- step.py lines 50-70: as `StepMachine.step`, each subscript checked when it is evaluated (`and` evaluates its second operand only if the first is true). -/
def stepC (eigs x : List (Option α)) (s : St) : Py St :=
  match s.pc with
  | .skip =>
    if s.j < x.length then do
      let xj ← pyGet x s.j
      let e0 ← pyGet eigs 0
      if flt xj e0 = true then .ok { s with j := s.j + 1 } else .ok { s with pc := .main }
    else .ok { s with pc := .main }
  | .main =>
    if s.j < x.length ∧ s.i < eigs.length then do
      let xj ← pyGet x s.j
      let ei ← pyGet eigs s.i
      if fle ei xj = true then .ok { s with i := s.i + 1, count := s.count + 1 } else .ok { s with pc := .look }
    else .ok { s with pc := .tail }
  | .look =>
    if s.j < x.length then do
      let xj ← pyGet x s.j
      let ei ← pyGet eigs s.i
      if flt xj ei = true then do
        let ret ← pySet s.ret s.j s.count
        .ok { s with ret := ret, j := s.j + 1 }
      else .ok { s with pc := .main }
    else .ok { s with pc := .main }
  | .tail =>
    if s.j < x.length then do
      let ret ← pySet s.ret s.j s.count
      .ok { s with ret := ret, j := s.j + 1 }
    else .ok { s with pc := .done }
  | .done => .ok s

/-- step.py lines 44-45: `for i in range(len(ret)): ret[i] = n`, from `i` on. -/
def fillC (n : Nat) : Nat → Nat → List Nat → Py (List Nat)
  | 0, _, ret => .ok ret
  | todo + 1, i, ret => do
    let ret ← pySet ret i n
    fillC n todo (i + 1) ret

/-- step.py lines 36-49 with checked subscripts. -/
def startC (eigs x : List (Option α)) : Py St := do
  let ret := List.replicate x.length 0
  let xLast ← pyGet x (-1)
  let e0 ← pyGet eigs 0
  if fle xLast e0 = true then .ok (returned ret)
  else do
    let x0 ← pyGet x 0
    let eLast ← pyGet eigs (-1)
    if flt eLast x0 = true then do
      let ret ← fillC eigs.length ret.length 0 ret
      .ok (returned ret)
    else .ok ⟨.skip, 0, 0, 0, ret⟩

/-- `n` loop tests of `_step_function_fast`, with checked subscripts. -/
def runC (eigs x : List (Option α)) : Nat → St → Py St
  | 0, s => .ok s
  | n + 1, s => do
    let s ← stepC eigs x s
    runC eigs x n s

end Machine

section Numeric
variable {K : Type} [Field K] [LinearOrder K]

/-- rigidity.py lines 348-351, `_integrate_fast`, from `i` on, with checked subscripts. -/
def trapzC (grid values : List K) : Nat → Nat → K → Py K
  | 0, _, integral => .ok integral
  | todo + 1, i, integral => do
    let g1 ← pyGet grid ((i : Int) + 1)
    let g0 ← pyGet grid i
    let v0 ← pyGet values i
    let v1 ← pyGet values ((i : Int) + 1)
    trapzC grid values todo (i + 1) (integral + (g1 - g0) * (v0 + v1) / 2)

/-- rigidity.py lines 342-352, `_integrate_fast`. -/
def integrateC (grid values : List K) : Py K := trapzC grid values (grid.length - 1) 0 0

/-- rigidity.py lines 384-389, `_sq_lin_deviation`: the loop from `i` on, filling `ret`. -/
def sqLinC (steps grid : List K) (k w : K) : Nat → Nat → List K → Py (List K)
  | 0, _, ret => .ok ret
  | todo + 1, i, ret => do
    let n ← pyGet steps i
    let g ← pyGet grid i
    let ret ← pySet ret i ((n - k * g - w) * (n - k * g - w))
    sqLinC steps grid k w todo (i + 1) ret

/-- rigidity.py lines 417-421, the loop of `_int_simps_nonunif` from `i` on, with checked subscripts. -/
def simpsC (h vals : List K) (N : Nat) (i : Nat) (result : K) : Py K :=
  if i < N then do
    let h1 ← pyGet h i
    let h0 ← pyGet h ((i : Int) - 1)
    let v1 ← pyGet vals i
    let v0 ← pyGet vals ((i : Int) - 1)
    let v2 ← pyGet vals ((i : Int) + 1)
    let hph := h1 + h0
    let r1 := result + v1 * (h1 ^ 3 + h0 ^ 3 + 3 * h1 * h0 * hph) / (6 * h1 * h0)
    let r2 := r1 + v0 * (2 * h0 ^ 3 - h1 ^ 3 + 3 * h1 * h0 ^ 2) / (6 * h0 * hph)
    let r3 := r2 + v2 * (2 * h1 ^ 3 - h0 ^ 3 + 3 * h0 * h1 ^ 2) / (6 * h1 * hph)
    simpsC h vals N (i + 2) r3
  else .ok result
termination_by N - i

/-- rigidity.py lines 394-427, `_int_simps_nonunif`, with checked subscripts; for an empty grid `N = -1`. -/
def intSimpsC (grid vals : List K) : Py K := do
  let N : Int := (grid.length : Int) - 1
  let h := diff grid
  let result ← simpsC h vals N.toNat 1 0
  if (N + 1) % 2 = 0 then do
    let vN ← pyGet vals N
    let hl ← pyGet h (N - 1)
    let hp ← pyGet h (N - 2)
    let vl ← pyGet vals (N - 1)
    let vp ← pyGet vals (N - 2)
    let r1 := result + vN * (2 * hl ^ 2 + 3 * hp * hl) / (6 * (hp + hl))
    let r2 := r1 + vl * (hl ^ 2 + 3 * hl * hp) / (6 * hp)
    .ok (r2 - vp * hl ^ 3 / (6 * hp * (hp + hl)))
  else .ok result

/-- rigidity.py lines 255-264: one sample, with checked subscripts in all parts (the step function reads outside empty arrays only, see `startC`). -/
def d3SampleC (junk : Nat → K) (unfolded : List K) (L : K) (gridsize : Nat) (useSimpson : Bool) (start : K) : Py K := do
  let grid := linspace (start - L / 2) (start + L / 2) gridsize
  let stepsN ← stepFunctionFast unfolded grid
  let steps := stepsN.map (fun n : Nat => (n : K))
  let k := Rigidity.slope grid steps
  let w := Rigidity.intercept grid steps k
  let yVals ← sqLinC steps grid k w grid.length 0 ((List.range grid.length).map junk)
  let delta3c ← (if useSimpson then intSimpsC grid yVals else integrateC grid yVals)
  .ok (delta3c / L)

/-- rigidity.py lines 251-293: the loop of `delta_L` as in `Rigidity.deltaLoop`, with the writes to the buffer checked. -/
def deltaLoopC (d : Nat → Py K) (maxIters minIters : Nat) (tol : K) (k : Nat) (c m : K) (b : List K) : Py (Nat × K × List K) :=
  match d k with
  | .error e => .error e
  | .ok d3 =>
    if _h0 : k = 0 then
      match pySet b 0 d3 with
      | .error e => .error e
      | .ok b' => deltaLoopC d maxIters minIters tol 1 c d3 b'
    else
      let k' := k + 1
      let update := (d3 - m) / (k' : K)
      let mc := kahanAdd m update c
      match pySet b ((k' % BUF : Nat) : Int) mc.1 with
      | .error e => .error e
      | .ok b' =>
        if _hmax : k' ≥ maxIters then .ok (k', mc.1, b')
        else if k' > minIters ∧ k' % BUF = 0 ∧ rangeBelow b' tol = true then .ok (k', mc.1, b')
        else deltaLoopC d maxIters minIters tol k' mc.2 mc.1 b'
termination_by if k = 0 then maxIters + 1 else maxIters - k
decreasing_by
  · simp [_h0]
  · simp [_h0]; omega

/-- levelvariance.py lines 245-269: the loop of `sigma_L` as in `LevelVar.sigmaLoop`, with the writes to the buffer checked. -/
def sigmaLoopC (n : Nat → Nat) (maxIters minIters : Nat) (tol : K) (k : Nat) (cm cs m sq : K) (b : List K) : Py (K × List K × Nat) :=
  let k' := k + 1
  let nw := n k'
  let nsq := nw * nw
  let mUpd := ((nw : K) - m) / (k' : K)
  let sUpd := ((nsq : K) - sq) / (k' : K)
  let mk := kahanAdd m mUpd cm
  let sk := kahanAdd sq sUpd cs
  let sigma := sk.1 - mk.1 * mk.1
  match pySet b ((k' % 1000 : Nat) : Int) sigma with
  | .error e => .error e
  | .ok b' =>
    if k' > minIters ∧ k' % 500 = 0 ∧ rangeBelow b' tol = true then .ok (sigma, b', k')
    else if _h : k' ≥ maxIters then .ok (sigma, b', k')
    else sigmaLoopC n maxIters minIters tol k' mk.2 sk.2 mk.1 sk.1 b'
termination_by maxIters - k

/-- exponentials.py lines 7-19, `derivative(x, y)` with checked subscripts, for `x` and `y` of the same length. Slices never leave the array, and for arrays of the same length those in line 15 have the same
length (none of them an entry if there are fewer than three points). -/
def derivativeC (junk : Nat → K) (x y : List K) : Py (List K) := do
  let L := x.length
  let res := (List.range L).map junk
  let dy := List.zipWith (· - ·) (y.drop 2) (y.take (L - 2))
  let dx := List.zipWith (· - ·) (x.drop 2) (x.take (L - 2))
  let res := if L < 3 then res else Exponentials.setSlice res 1 (List.zipWith (· / ·) dy dx)
  let y1 ← pyGet y 1
  let ya ← pyGet y 0
  let x1 ← pyGet x 1
  let xa ← pyGet x 0
  let res ← pySet res 0 ((y1 - ya) / (x1 - xa))
  let yl ← pyGet y (-1)
  let yp ← pyGet y (-2)
  let xl ← pyGet x (-1)
  let xp ← pyGet x (-2)
  pySet res (-1) ((yl - yp) / (xl - xp))

end Numeric

section Parallel
variable {K β : Type} [Field K] [LinearOrder K]

/-- rigidity.py lines 208-218 and levelvariance.py lines 158-165: a `prange` loop in the order `order`, with the read of `L_vals[i]` and the writes to the output arrays (one array of triples, as in
`Rigidity.deltaParallel`) checked; `body i L` is the call of `delta_L` or `sigma_L`. -/
def prangeC (order : List Nat) (Lvals : List K) (body : Nat → K → Py β) (out : List β) : Py (List β) :=
  match order with
  | [] => .ok out
  | i :: is => do
    let L ← pyGet Lvals i
    let v ← body i L
    let out ← pySet out i v
    prangeC is Lvals body out

/-- rigidity.py lines 189-223, `delta_parallel`, with checked subscripts. -/
def deltaParallelC (order : List Nat) (unfolded Lvals : List K) (gridsize maxIters minIters : Nat) (tol : K) (useSimpson : Bool) (U : Nat → Nat → K) : Py (List (K × Bool × Nat)) :=
  prangeC order Lvals (fun i L => deltaL unfolded L gridsize maxIters minIters tol useSimpson (U i)) (List.replicate Lvals.length (0, false, 0))

/-- levelvariance.py lines 95-168, `sigma_parallel`, with checked subscripts. -/
def sigmaParallelC (order : List Nat) (unfolded Lvals : List K) (tol : K) (maxIters minIters : Nat) (U : Nat → Nat → K) (junk : Nat) : Py (List (K × Bool × Nat)) :=
  prangeC order Lvals (fun i L => sigmaL unfolded L maxIters tol minIters (U i)) (List.replicate Lvals.length (0, false, junk))

end Parallel

section Rows
variable {K : Type} [Field K] [LinearOrder K]

/-- signalproc/detrend.py lines 110-115, `mean_detrend(signals, ret)` with the row subscripts checked; the rows of `ret` have the length of those of `signals`. -/
def meanDetrendC (order : List Nat) (signals ret : List (List K)) : Py (List (List K)) :=
  match order with
  | [] => .ok ret
  | i :: is => do
    let y ← pyGet signals i
    let ret ← pySet ret i (y.map fun v => v - mean y)
    meanDetrendC is signals ret

/-- signalproc/detrend.py lines 96-107, `linear_detrend(signals, ret)` with the row subscripts checked; the rows of `ret` have the length of those of `signals`. -/
def linearDetrendC (order : List Nat) (signals ret : List (List K)) : Py (List (List K)) :=
  match order with
  | [] => .ok ret
  | i :: is => do
    let y ← pyGet signals i
    let ret ← pySet ret i (linearDetrendRow signals.length y)
    linearDetrendC is signals ret

end Rows

/-- clean.py lines 22-29, `fill_mask(mask, arr2d, threshold)` with checked subscripts. -/
noncomputable def fillMaskC (order : List Nat) (mask : List Bool) (rows : List (List ℝ)) (threshold : ℝ) : Py (List Bool) :=
  match order with
  | [] => .ok mask
  | i :: is => do
    let row ← pyGet rows i
    let old ← pyGet mask i
    let mask ← pySet mask i (maskBody threshold row old)
    fillMaskC is mask rows threshold

end Bounds
end RMT
