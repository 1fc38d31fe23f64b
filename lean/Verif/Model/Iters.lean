import Verif.Model.Figures

/-!
# Model of `show_iters` in `plot_spectral_rigidity` and `plot_level_variance`

`empyricalRMT/plot.py` lines 795-867 and 922-1018, `unfold.py` lines 642-680 and 748-790. Colours, labels and the logarithmic scale are not
modelled.
-/

namespace RMT
namespace Figures
open Files PlotData Ensembles

/-- What is drawn: the converged and the non-converged points, the numbers of iterations, the theory curves. -/
inductive ObsItem where
  | good (ps : List (ℝ × ℝ))
  | bad (ps : List (ℝ × ℝ))
  | iters (ps : List (ℝ × ℝ))
  | theory (cs : List (Ens × Curve))

variable {Item : Type}

/-- `axes.twinx()` (plot.py lines 824, 953): a further, empty axes object on the figure of `axes`. -/
def twinx (w : World Item) (f : Nat) : Nat × World Item :=
  (w.axesOf f, { w with axesOf := fun g => if g = f then w.axesOf f + 1 else w.axesOf g,
                        content := fun g b => if g = f ∧ b = w.axesOf f then [] else w.content g b })

/-- plot.py lines 804-867 / 933-1018 after the column checks, on figure `f` and axes `a`: the points, then the iterations if asked for (seaborn raises `ValueError` for
a missing column `iters`, after the axes were created), then the curves, then the mode. -/
def obsDraw (w : World ObsItem) (f : Nat) (a : Nat × Nat) (mode : ModeArg) (saved : Py Unit) (p : ObsPlot) (L : List ℝ)
    (iters : Option (List ℝ)) (showIters : Bool) : Py (Nat × (Nat × Nat)) × World ObsItem :=
  let w1 := draw w a.1 a.2 [.good p.good, .bad p.bad]
  if showIters then
    let t := twinx w1 a.1
    match iters with
    | none => (.error .valueError, t.2)
    | some it => finish (draw (draw t.2 a.1 t.1 [.iters (L.zip it)]) a.1 a.2 [.theory p.theory]) mode saved f a
  else finish (draw w1 a.1 a.2 [.theory p.theory]) mode saved f a

/-- plot.py lines 795-867, `_spectral_rigidity`, and 922-1018, `_level_number_variance`: `plotted` is the outcome of the column checks and the values to draw (`plotRigidity`, `plotLevelVar`). -/
def obsCall (w : World ObsItem) (fig : Option Nat) (axes : Option (Nat × Nat)) (mode : ModeArg) (saved : Py Unit) (plotted : Py ObsPlot) (L : List ℝ)
    (iters : Option (List ℝ)) (showIters : Bool) : Py (Nat × (Nat × Nat)) × World ObsItem :=
  let r := setupPlotting w fig axes
  match plotted with
  | .error e => (.error e, r.2)
  | .ok p => obsDraw r.2 r.1.1 r.1.2 mode saved p L iters showIters

/-- unfold.py lines 748-765, `plot_level_variance(L, sigma=y, show_iters=...)` with values computed before: the frame has no column `iters`. Frames with columns of different lengths
raise `ValueError` before anything is drawn. -/
noncomputable def levelVarianceGiven (w : World ObsItem) (fig : Option Nat) (axes : Option (Nat × Nat)) (mode : ModeArg) (saved : Py Unit)
    (si ci : ℝ → ℝ) (siInf : ℝ) (L y : List ℝ) (ensembles : List String) (showIters : Bool) : Py (List ℝ × List ℝ × (Nat × (Nat × Nat))) × World ObsItem :=
  if L.length ≠ y.length then (.error .valueError, w)
  else
    let r := obsCall w fig axes mode saved (plotLevelVar si ci siInf ⟨some L, none, some y, some (y.map fun _ => true)⟩ ensembles) L none showIters
    (r.1.map fun x => (L, y, x), r.2)

end Figures
end RMT
