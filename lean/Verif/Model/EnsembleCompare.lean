import Verif.Model.Ensemble
import Verif.Model.Compare
import Verif.Model.Rigidity
import Verif.Model.LevelVariance

/-!
# Model of `Unfolded.ensemble_compare`

unfold.py lines 231-347 and 857-873. The kernel density estimate of statsmodels is the function argument `kde`: the spacings it is fitted to and the grid it is evaluated on to the
values. The rigidity and level-variance estimates are functions of the `L` values (they are the modelled methods with their other arguments fixed).
-/

namespace RMT
namespace EnsembleCmp
open Ensembles Comparing EigValsM

/-- `vals[2:] - vals[:-2]`. -/
def lag2 {K : Type} [Sub K] (vals : List K) : List K := List.zipWith (fun a b => a - b) (vals.drop 2) (vals.take (vals.length - 2))

/-- unfold.py lines 857-873, `__get_kde_values`. -/
noncomputable def kdeValues (kde : List ℝ → List ℝ → List ℝ) (vals : List ℝ) (range : ℝ × ℝ) (nnnsd : Bool) (gridsize : Nat) : List ℝ :=
  kde (if nnnsd then npSort (lag2 vals) else diff (npSort vals)) (linspace range.1 range.2 gridsize)

/-- The frame: `pd.DataFrame(index=metrics, columns=observables)`, `none` is NaN (a cell that was not assigned); rows of one label have the same entries. -/
structure Table where
  index : List String
  columns : List String
  cell : String → String → Option ℝ

/-- `df[col][row] = v` (chained assignment as in pandas before version 3). All rows of the label are set. If two columns have the label, `df[col]` is a new frame: it gets a new column, which is dropped, and the
table is unchanged. -/
def Table.assign (t : Table) (col row : String) (v : ℝ) : Table :=
  if 1 < t.columns.count col then t
  else { t with cell := fun c r => if c = col ∧ r = row then some v else t.cell c r }

/-- The loop `for metric in metrics: df[name][metric] = compare(expected, curve, name, metric)` (unfold.py lines 320-321, 328-329, 336-337, 345-346). -/
noncomputable def fillMetrics (junk : String → String → List ℝ) (expected curve : List ℝ) (name : String) : List String → Table → Py Table
  | [], t => .ok t
  | m :: ms, t => do
    let v ← ensembleMetric expected curve (junk name m) name m
    fillMetrics junk expected curve name ms (t.assign name m v)

/-- One block `if name in observables:` (unfold.py lines 317-321, 323-329, 331-337, 339-346): the observed curve is computed before the expected one. -/
noncomputable def block (junk : String → String → List ℝ) (observables metrics : List String) (name : String)
    (curve expected : Py (List ℝ)) (t : Table) : Py Table :=
  if name ∈ observables then do
    let c ← curve
    let e ← expected
    fillMetrics junk e c name metrics t
  else .ok t

/-- unfold.py lines 231-347, `ensemble_compare`. `junk` is the uninitialised memory of the comparisons. -/
noncomputable def ensembleCompare (kde : List ℝ → List ℝ → List ℝ) (rigidity levelvar : List ℝ → Py (List ℝ)) (junk : String → String → List ℝ)
    (e : Ens) (vals : List ℝ) (observables metrics : List String) (range : ℝ × ℝ) (gridsize : Nat) (Lr Ll : List ℝ) : Py Table := do
  let t0 : Table := ⟨metrics, observables, fun _ _ => none⟩                                   -- line 316
  let t1 ← block junk observables metrics "nnsd" (.ok (kdeValues kde vals range false gridsize)) (.ok (e.nnsd range gridsize none)) t0
  let t2 ← block junk observables metrics "nnnsd" (.ok (kdeValues kde vals range true gridsize)) (e.nnnsd range gridsize none) t1
  let t3 ← block junk observables metrics "rigidity" (rigidity Lr) (.ok (e.spectralRigidity 0.5 20 50 (some Lr))) t2
  block junk observables metrics "levelvar" (levelvar Ll) (.ok (e.levelVariance 0.5 20 50 (some Ll))) t3

end EnsembleCmp
end RMT
