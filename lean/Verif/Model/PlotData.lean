import Verif.Model.EnsembleCompare
import Mathlib.MeasureTheory.Integral.IntegralEqImproper
import Mathlib.Analysis.SpecialFunctions.Trigonometric.Basic

/-!
# Model of the data drawn by the plotting functions

`empyricalRMT/plot.py` `_spacings` (479-540), `_next_spacings` (679-735), `_spectral_rigidity` (796-866), `_level_number_variance` (922-1014) and the
methods of `Unfolded` that call them (unfold.py lines 366-560, 577-791). Modelled is what is computed and handed to matplotlib / seaborn (the points of each curve and
the values of the histogram), not the rendering.
-/

namespace RMT
namespace PlotData
open Ensembles EnsembleCmp EigValsM Real

/-- The arguments `ensembles` are strings; unknown strings draw nothing. -/
def ensName : Ens → String
  | .poisson => "poisson"
  | .goe => "goe"
  | .gue => "gue"
  | .gse => "gse"

/-- A curve: x values and y values handed to `axes.plot`. -/
structure Curve where
  x : List ℝ
  y : List ℝ

/-- plot.py lines 501-517: the expected density drawn for an ensemble, entry for `s`. -/
noncomputable def spacingFormula : Ens → ℝ → ℝ
  | .poisson => fun s => exp (-s)
  | .goe => fun s => ((π * s) / 2) * exp (-(π / 4) * s * s)
  | .gue => fun s => (32 / π ^ 2) * (s * s) * exp (-(4 * s * s) / π)
  | .gse => fun s => (2 ^ 18 / (3 ^ 6 * π ^ 3)) * (s ^ 4) * exp (-((64 / (9 * π)) * (s * s)))

/-- What a spacing plot shows: the values of the histogram, the theory curves in drawing order, the values the kernel density estimate is fitted to (`none`: not drawn),
and the Brody curve. -/
structure SpacingPlot where
  hist : List ℝ
  theory : List (Ens × Curve)
  kdeFit : Option (List ℝ)
  brody : Option Curve

/-- The spacings that are kept: `_spacings[_spacings <= trim]` if `trim > 0.0` (plot.py lines 483-484, 683-684). -/
noncomputable def trimSpacings (s : List ℝ) (trim : ℝ) : List ℝ := if 0 < trim then s.filter fun x => decide (x ≤ trim) else s

/-- plot.py lines 1216-1220: the values the density estimate is fitted to; nothing is drawn if no value is positive. -/
noncomputable def kdeInput (s : List ℝ) : Option (List ℝ) :=
  if s.all (fun x => decide (x ≤ 0)) then none else some (s.filter fun x => decide (0 < x))

/-- plot.py lines 479-540, `_spacings` (up to `_handle_plot_mode`). `fit method s` is `fit_brody(s, method)`; the requested method `_brodyFit` is not passed on (line 526), so the
default "spacing" is used. -/
noncomputable def plotSpacings (fit : String → List ℝ → Py ℝ) (unfolded : List ℝ) (trim : ℝ) (kde trimKde brody : Bool) (_brodyFit : String)
    (ensembles : List String) : Py SpacingPlot := do
  let all := diff (npSort unfolded)
  let kept := trimSpacings all trim
  let lo ← npMin kept                                     -- line 487
  let hi ← npMax kept
  let s := linspace lo hi 10000
  let theory := ([Ens.poisson, .goe, .gue, .gse].filter fun e => decide (ensName e ∈ ensembles)).map fun e => (e, ⟨s, s.map (spacingFormula e)⟩)
  let kdeFit := if kde then (if trimKde then kdeInput kept else kdeInput all) else none
  let br ← (if brody then do
      let beta ← fit "spacing" kept
      pure (some ⟨s, s.map fun x => brodyDist x beta⟩)
    else pure none : Py (Option Curve))
  return ⟨kept, theory, kdeFit, br⟩

/-- plot.py lines 679-735, `_next_spacings`, with unfold.py lines 470-566, `Unfolded.plot_next_nnsd`, which passes its arguments and the unfolded values on, and lines 568-570, the alias `plot_nnnsd`. -/
noncomputable def plotNextSpacings (fit : String → List ℝ → Py ℝ) (unfolded : List ℝ) (trim : ℝ) (kde trimKde brody : Bool) (_brodyFit : String)
    (ensembles : List String) : Py SpacingPlot := do
  let all := npSort ((lag2 unfolded).map fun d => d / 2)
  let kept := trimSpacings all trim
  let lo ← npMin kept
  let hi ← npMax kept
  let s := linspace lo hi 10000
  let kdeFit := if kde then (if trimKde then kdeInput kept else kdeInput all) else none
  let br ← (if brody then do
      let beta ← fit "spacing" kept
      pure (some ⟨s, s.map fun x => brodyDist x beta⟩)
    else pure none : Py (Option Curve))
  let theory := (if "goe" ∈ ensembles then [(Ens.goe, (⟨s, goeNnnsd (0, 3) 1000 (some s)⟩ : Curve))] else []) ++
    (if "poisson" ∈ ensembles then [(Ens.poisson, (⟨s, poissonNnnsd (0, 4) 1000 (some s)⟩ : Curve))] else [])
  return ⟨kept, theory, kdeFit, br⟩

/-- plot.py lines 841: the scaled values `s` (`unfolded` is never `None` when called from the methods). -/
noncomputable def scaledL (unfolded : List ℝ) (L : ℝ) : ℝ := L / mean (List.zipWith (fun a b => a - b) (unfolded.drop 1) (unfolded.take (unfolded.length - 1)))

/-- plot.py lines 843-860: the expected rigidity drawn at `L`; `s` is the scaled value. -/
noncomputable def rigidityFormula : Ens → ℝ → ℝ → ℝ
  | .poisson => fun L _ => L / 15
  | .goe => fun _ s => (1 / (π ^ 2)) * (log (2 * π * s) + eulerMascheroniConstant - 5 / 4 - (π ^ 2) / 8)
  | .gue => fun _ s => (1 / (2 * (π ^ 2))) * (log (2 * π * s) + eulerMascheroniConstant - 5 / 4)
  | .gse => fun _ s => (1 / (4 * (π ^ 2))) * (log (4 * π * s) + eulerMascheroniConstant - 5 / 4 + (π ^ 2) / 8)

/-- A DataFrame with columns `L` and the observable, and optionally `converged` and `sigma`; `none`: the column is absent. -/
structure Data where
  L : Option (List ℝ)
  delta : Option (List ℝ)
  sigma : Option (List ℝ)
  converged : Option (List Bool)

/-- What a plot of rigidity or level variance shows: converged and non-converged points, theory curves. -/
structure ObsPlot where
  good : List (ℝ × ℝ)
  bad : List (ℝ × ℝ)
  theory : List (Ens × Curve)

/-- `df.loc[mask]` for the points `(L, y)`. -/
def locate (L y : List ℝ) (mask : List Bool) (b : Bool) : List (ℝ × ℝ) :=
  (((L.zip y).zip mask).filter fun p => p.2 == b).map (·.1)

/-- plot.py lines 796-866, `_spectral_rigidity`. Without a `converged` column, line 801 reads the attribute `sigma` of the frame: `AttributeError` if there is no such column.
`show_iters` is in `Model/Iters.lean`. -/
noncomputable def plotRigidity (unfolded : List ℝ) (d : Data) (ensembles : List String) : Py ObsPlot := do
  match d.L, d.delta with
  | some L, some y =>
    let conv ← (match d.converged with
      | some c => pure c
      | none => match d.sigma with
        | some s => pure (s.map fun _ => true)
        | none => Except.error .attributeError : Py (List Bool))
    let theory := ([Ens.poisson, .goe, .gue, .gse].filter fun e => decide (ensName e ∈ ensembles)).map fun e =>
      (e, (⟨L, L.map fun l => rigidityFormula e l (scaledL unfolded l)⟩ : Curve))
    return ⟨locate L y conv true, locate L y conv false, theory⟩
  | _, _ => .error .runtimeError

/-- plot.py lines 974-990: `exact`, the exact level variance of the GOE. `si`, `ci` are the two results of scipy's `sici`, `siInf` is `sici(np.inf)[0]`; `quad` is the exact integral. -/
noncomputable def goeExact (si ci : ℝ → ℝ) (siInf : ℝ) (x : ℝ) : ℝ :=
  (4 * x / π) * (∫ r in Set.Ioi (π * x), (sin r / r) ^ 2) + (2 / π ^ 2) * (eulerMascheroniConstant + log (2 * π * x) - ci (2 * π * x)) - 0.25 +
    ((2 / π ^ 2) / 2) * (siInf - si (π * x)) ^ 2

/-- plot.py lines 992-1014: the expected level variance drawn at `L`. -/
noncomputable def levelVarFormula (si ci : ℝ → ℝ) (siInf : ℝ) : Ens → ℝ → ℝ
  | .poisson => fun L => L
  | .goe => fun L => if L < 10 then goeExact si ci siInf L
      else (2 / (π ^ 2)) * (log (2 * π * L) + eulerMascheroniConstant + 1 - (π ^ 2) / 8)
  | .gue => fun L => (1 / (π ^ 2)) * (log (2 * π * L) + eulerMascheroniConstant + 1)
  | .gse => fun L => (1 / (2 * (π ^ 2))) * (log (4 * π * L) + eulerMascheroniConstant + 1 + (π ^ 2) / 8)

/-- plot.py lines 922-1018, `_level_number_variance`. -/
noncomputable def plotLevelVar (si ci : ℝ → ℝ) (siInf : ℝ) (d : Data) (ensembles : List String) : Py ObsPlot := do
  match d.L, d.sigma with
  | some L, some y =>
    let conv := match d.converged with
      | some c => c
      | none => y.map fun _ => true
    let theory := ([Ens.poisson, .goe, .gue, .gse].filter fun e => decide (ensName e ∈ ensembles)).map fun e =>
      (e, (⟨L, L.map fun l => levelVarFormula si ci siInf e l⟩ : Curve))
    return ⟨locate L y conv true, locate L y conv false, theory⟩
  | _, _ => .error .runtimeError

/-- unfold.py lines 643-674, `plot_spectral_rigidity`. `compute L` is `_spectral_rigidity(unfolded, L=L, ...)`: the L values, the rigidity values and the convergence flags.
Returns `(L, data["delta"], plot)`. -/
noncomputable def plotSpectralRigidity (compute : List ℝ → Py (List ℝ × List ℝ × List Bool)) (unfolded : List ℝ) (data : Option Data) (L : List ℝ)
    (ensembles : List String) : Py (List ℝ × List ℝ × ObsPlot) := do
  let d ← (match data with
    | some d => pure d
    | none => do
      let r ← compute L
      pure ⟨some r.1, some r.2.1, none, some r.2.2⟩ : Py Data)
  let p ← plotRigidity unfolded d ensembles
  match d.delta with
  | some y => return (L, y, p)
  | none => .error .keyError

/-- unfold.py lines 745-791, `plot_level_variance`: `sigma` may be passed in; the frame of `L` and `sigma` needs equal lengths. -/
noncomputable def plotLevelVariance (si ci : ℝ → ℝ) (siInf : ℝ) (compute : List ℝ → Py (List ℝ × List ℝ × List Bool)) (L : List ℝ) (sigma : Option (List ℝ))
    (ensembles : List String) : Py (List ℝ × List ℝ × ObsPlot) := do
  match sigma with
  | some y =>
    if L.length ≠ y.length then .error .valueError
    else do
      let p ← plotLevelVar si ci siInf ⟨some L, none, some y, some (y.map fun _ => true)⟩ ensembles
      return (L, y, p)
  | none =>
    let r ← compute L
    if L.length ≠ r.2.1.length then .error .valueError
    else do
      let p ← plotLevelVar si ci siInf ⟨some L, none, some r.2.1, some r.2.2⟩ ensembles
      return (r.1, r.2.1, p)

end PlotData
end RMT
