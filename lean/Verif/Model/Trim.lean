import Verif.Model.Utils
import Verif.Model.EigVals

/-!
# Model of the trimming part of `empyricalRMT/trim.py`

The outlier detector (pyod's HBOS, fitted to the eigenvalues and their indices) is an arbitrary function
`hbos` from the eigenvalues to one flag per eigenvalue. Label `"outlier"` is `true`, `"inlier"` is `false`.
The unfoldings stored with each iteration (`Smoother.fit_all`) are modelled in `Model/Smoother.lean`; they do not influence
the trimming.
-/

namespace RMT
namespace Trim
open Utils EigValsM

/-- trim.py lines 774-775 and 778-779: `for i in range(lo, hi): is_outlier[i] = False` with Python (wrapping)
index `i`. -/
def clearRange (flags : List Bool) (lo hi : Int) : List Bool :=
  if lo < hi then
    clearRange (match pyIdx flags.length lo with
      | some k => flags.set k false
      | none => flags) (lo + 1) hi
  else flags
termination_by (hi - lo).toNat

/-- trim.py lines 772-775. -/
def clearAfterPrefix (flags : List Bool) : Py (List Bool) := do
  let first ← pyGet flags 0
  if first then return clearRange flags (findFirst flags false) flags.length
  else return flags

/-- trim.py lines 776-779. -/
def clearBeforeSuffix (flags : List Bool) : Py (List Bool) := do
  let last ← pyGet flags (-1)
  if last then return clearRange flags 0 (findLast flags false)
  else return flags

/-- trim.py lines 780-781. -/
def clearIfInterior (flags : List Bool) : Py (List Bool) := do
  let first ← pyGet flags 0
  let last ← pyGet flags (-1)
  if !first && !last then return List.replicate flags.length false
  else return flags

/-- trim.py lines 762-783, `_get_outlier_labels`, after the detector has produced `flags`. -/
def outlierLabels (flags : List Bool) : Py (List Bool) := do
  let f1 ← clearAfterPrefix flags
  let f2 ← clearBeforeSuffix f1
  clearIfInterior f2

/-- The state of a `TrimIter` (trim.py lines 683-695) without the unfoldings. -/
structure Iter (α : Type) where
  id : Nat
  origs : List α
  eigs : List α
  clusters : List Bool

variable {α : Type} [LinearOrder α]

/-- trim.py lines 683-695, `TrimIter.__init__`. -/
def mkIter (hbos : List α → List Bool) (origs eigs : List α) : Py (Iter α) := do
  let labels ← outlierLabels (hbos eigs)
  return { id := 0, origs, eigs, clusters := labels }

/-- trim.py lines 733-735, `inliers`: the eigenvalues whose label is "inlier". -/
def Iter.inliers (t : Iter α) : List α :=
  ((t.eigs.zip t.clusters).filter fun p => !p.2).map (·.1)

/-- trim.py lines 709-711, `proportion_removed`. -/
def Iter.proportionRemoved (t : Iter α) : ℚ := 1 - (t.eigs.length : ℚ) / (t.origs.length : ℚ)

/-- trim.py lines 737-738, `is_all_inliers`. -/
def Iter.isAllInliers (t : Iter α) : Bool := t.clusters.all fun b => !b

/-- trim.py lines 740-743, `next_iter`. -/
def Iter.nextIter (hbos : List α → List Bool) (t : Iter α) : Py (Iter α) := do
  let t' ← mkIter hbos t.origs t.inliers
  return { t' with id := t.id + 1 }

/-- trim.py lines 727-731, `trim_indices`. -/
def Iter.trimIndices (t : Iter α) : Py (Int × Int) := do
  let first ← pyGet t.eigs 0
  let last ← pyGet t.eigs (-1)
  return (findFirst t.origs first, findLast t.origs last)

/-- trim.py lines 717-720, the number trimmed below (the property divides it by the length and
rounds the percentage). -/
def Iter.lowerTrimLength (t : Iter α) : Py Int := do
  let first ← pyGet t.eigs 0
  return findFirst t.origs first

/-- trim.py lines 722-725, the number trimmed above. -/
def Iter.upperTrimLength (t : Iter α) : Py Int := do
  let last ← pyGet t.eigs (-1)
  return (t.origs.length : Int) - 1 - findLast t.origs last

/-- trim.py lines 570-578: the loop over `range(max_iters)`, `n` iterations remaining, `last` being
`trim_iters[-1]`. Returns the iterations appended. -/
def trimLoop (hbos : List α → List Bool) (maxTrim : ℚ) : Nat → Iter α → Py (List (Iter α))
  | 0, _ => .ok []
  | n + 1, last =>
    match last.nextIter hbos with
    | .error e => .error e
    | .ok t =>
      if t.proportionRemoved > maxTrim then .ok []
      else if t.isAllInliers then .ok [t]
      else match trimLoop hbos maxTrim n t with
        | .error e => .error e
        | .ok l => .ok (t :: l)

/-- trim.py lines 229-243 and 516-579: the trim iterations of `TrimReport(eigenvalues, max_trim, max_iters)`. -/
def trimIters (hbos : List α → List Bool) (eigenvalues : List α) (maxTrim : ℚ) (maxIters : Nat) :
    Py (List (Iter α)) := do
  let sorted := npSort eigenvalues
  let t0 ← mkIter hbos sorted sorted
  let rest ← trimLoop hbos maxTrim maxIters t0
  return t0 :: rest

/-- trim.py lines 317-336, `use_trim_iteration`: the values of the returned `Trimmed` object. -/
def useTrimIteration (iters : List (Iter α)) (iteration : Int) : Py (List α) := do
  if iteration > (iters.length : Int) - 1 then .error .valueError
  else
    let t ← pyGet iters iteration
    let o ← initEigVals1d t.eigs
    return o.vals

end Trim
end RMT
