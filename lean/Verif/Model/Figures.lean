import Verif.Model.PlotData
import Verif.Model.Plots
import Verif.Model.Files

/-!
# Model of where the plotting functions draw (`plot.py`), of `plot_distribution`, `plot_sorted`, `plot_observables`, and of the argument passing in `_eigvals.py`

Pyplot's state: the open figures (most recent, i.e. current, first), their axes, and what each axes object contains. Rendering is not modelled.
-/

namespace RMT
namespace Figures
open Files PlotData

/-- The state of pyplot: `opened` are the open figures, the current one first; `next` is the number of the next figure; `axesOf f` is the number of axes of figure `f`, and `content f a` is what has been
drawn on axes `a` of figure `f`. -/
structure World (Item : Type) where
  opened : List Nat
  next : Nat
  axesOf : Nat → Nat
  content : Nat → Nat → List Item

variable {Item : Type}

/-- `plt.subplots(r, c)` with `n = r * c`: a new figure with `n` empty axes becomes the current one. -/
def subplots (w : World Item) (n : Nat) : Nat × World Item :=
  (w.next, { opened := w.next :: w.opened, next := w.next + 1,
             axesOf := fun f => if f = w.next then n else w.axesOf f,
             content := fun f a => if f = w.next then [] else w.content f a })

/-- Drawing on axes `a` of figure `f`. -/
def draw (w : World Item) (f a : Nat) (items : List Item) : World Item :=
  { w with content := fun g b => if g = f ∧ b = a then w.content g b ++ items else w.content g b }

/-- `plt.clf(); plt.cla()`: the current figure (a new one if none is open) loses all its axes; then it gets one empty axes object. -/
def clearCurrent (w : World Item) : World Item :=
  match w.opened with
  | [] => (subplots w 1).2
  | f :: _ => { w with axesOf := fun g => if g = f then 1 else w.axesOf g, content := fun g a => if g = f then [] else w.content g a }

/-- `plt.close(fig)`. -/
def close (w : World Item) (f : Nat) : World Item := { w with opened := w.opened.filter fun g => g ≠ f }

/-- plot.py lines 1176-1184, `_setup_plotting`; an `Axes` argument is a pair (figure, index). -/
def setupPlotting (w : World Item) (fig : Option Nat) (axes : Option (Nat × Nat)) : (Nat × (Nat × Nat)) × World Item :=
  match fig, axes with
  | some f, some a => ((f, a), w)
  | _, _ => let r := subplots w 1; ((r.1, (r.1, 0)), r.2)

/-- plot.py lines 1237-1266, `_handle_plot_mode`, as far as it concerns the figures; `saved` is the outcome of writing the file (see `Files.handlePlotMode`). -/
def finish (w : World Item) (mode : ModeArg) (saved : Py Unit) (f : Nat) (a : Nat × Nat) : Py (Nat × (Nat × Nat)) × World Item :=
  match mode with
  | .member .block => (.ok (f, a), w)
  | .member .noBlock => (.ok (f, a), w)
  | .member .test => (.ok (f, a), close (clearCurrent w) f)
  | .member .save =>
    match saved with
    | .error e => (.error e, w)
    | .ok () => (.ok (f, a), close w f)
  | .member .ret => (.ok (f, a), w)
  | .other => (.error .valueError, w)

/-- The common form of the plotting functions: set up, draw, handle the mode. `body` is what is drawn, and the exception raised after drawing it, if any. plot.py lines 101-118 (`_raw_eig_dist`), 165-175
(`_step_function`), 225-233 (`_raw_eig_sorted`), 290-307 (`_unfolded_dist`), 360-394 (`_unfolded_fit`), 479-542 (`_spacings`), 679-735 (`_next_spacings`), 795-867 (`_spectral_rigidity`), 923-1017
(`_level_number_variance`; for `show_iters` see `Model/Iters.lean`). -/
def plotCall (w : World Item) (fig : Option Nat) (axes : Option (Nat × Nat)) (mode : ModeArg) (saved : Py Unit) (body : List Item × Py Unit) : Py (Nat × (Nat × Nat)) × World Item :=
  let r := setupPlotting w fig axes
  let w1 := draw r.2 r.1.2.1 r.1.2.2 body.1
  match body.2 with
  | .error e => (.error e, w1)
  | .ok () => finish w1 mode saved r.1.1 r.1.2

/-! ### The values drawn by `plot_sorted` and `plot_distribution` -/

/-- plot.py lines 225-232, `_raw_eig_sorted` (called by `EigVals.plot_sorted`, _eigvals.py lines 70-71): the points (index, eigenvalue), or `ValueError`. `true` is a scatter plot. -/
def sortedBody {K : Type} (eigs : List K) (kind : String) : List (Bool × List (Nat × K)) × Py Unit :=
  if kind = "scatter" then ([(true, (List.range eigs.length).zip eigs)], .ok ())
  else if kind = "line" then ([(false, (List.range eigs.length).zip eigs)], .ok ())
  else ([], .error .valueError)

/-- A plotted distribution: the values of the histogram and the curve of the density estimate. -/
structure DistPlot where
  hist : List ℝ
  curve : Option Curve

/-- plot.py lines 101-118, `_raw_eig_dist` (`EigVals.plot_distribution`, _eigvals.py lines 73-74), and plot.py lines 290-307, `_unfolded_dist`, for at least one value. `kde vals x` is the estimate fitted to `vals`, evaluated at `x`;
line 1216-1220: it is fitted to the positive values. -/
noncomputable def plotDist (kde : List ℝ → ℝ → ℝ) (eigs : List ℝ) (showKde : Bool) : Py DistPlot := do
  if showKde then
    let lo ← npMin eigs
    let hi ← npMax eigs
    let grid := linspace lo hi 10000
    return ⟨eigs, (kdeInput eigs).map fun vals => ⟨grid, grid.map (kde vals)⟩⟩
  else return ⟨eigs, none⟩

/-! ### `plot_observables` -/

/-- A drawing of one panel. -/
inductive Panel where
  | fit (p : Plots.FitPlot ℝ)
  | spacings (p : SpacingPlot)
  | rigidity (p : ObsPlot)
  | levelvar (p : ObsPlot)

/-- The body of a panel: one item, or an exception. -/
def panelBody (r : Py Panel) : List Panel × Py Unit :=
  match r with
  | .ok p => ([p], .ok ())
  | .error e => ([], .error e)

/-- plot.py lines 1068-1097: the panels in drawing order, each on its own axes of the figure. -/
def drawPanels (w : World Panel) (f : Nat) : List (Nat × Py Panel) → Py Unit × World Panel
  | [] => (.ok (), w)
  | (a, p) :: rest =>
    match plotCall w (some f) (some (f, a)) (.member .ret) (.ok ()) (panelBody p) with
    | (.error e, w') => (.error e, w')
    | (.ok _, w') => drawPanels w' f rest

/-- plot.py lines 1020-1098, `_observables`, with unfold.py lines 793-855, `plot_observables`: `rigidity` and `levelvar` are the frames computed from the unfolded values (or their exceptions), `fitBrody` is not called.
The axes `[0, 0], [0, 1], [1, 0], [1, 1]` are numbered 0 to 3. The default trim of `_spacings` is 5.0 (line 403), with the density estimate. -/
noncomputable def plotObservables (si ci : ℝ → ℝ) (siInf : ℝ) (fitBrody : String → List ℝ → Py ℝ) (w : World Panel) (mode : ModeArg) (saved : Py Unit)
    (originals unfolded : List ℝ) (rigidity levelvar : Py Data) (ensembles : List String) : Py (Nat × (Nat × Nat)) × World Panel :=
  match rigidity, levelvar with
  | .error e, _ => (.error e, w)
  | .ok _, .error e => (.error e, w)
  | .ok rd, .ok ld =>
    let r := subplots w 4
    let panels : List (Nat × Py Panel) :=
      [(0, .ok (.fit (Plots.unfoldedFit originals unfolded))),
       (1, (plotSpacings fitBrody unfolded 5 true false false "spacing" ensembles).map .spacings),
       (2, (plotRigidity unfolded rd ensembles).map .rigidity),
       (3, (plotLevelVar si ci siInf ld ensembles).map .levelvar)]
    match drawPanels r.2 r.1 panels with
    | (.error e, w') => (.error e, w')
    | (.ok (), w') => finish w' mode saved r.1 (r.1, 0)

/-! ### Argument passing -/

/-- Python's binding of a call to a function with the parameters `params` (no `*args`, no `**kwargs`): positional arguments fill the parameters from the left; `TypeError` for too many positional arguments, for an unknown keyword, for a
keyword that repeats a positional argument, and for a repeated keyword. -/
def bindCall {V : Type} (params : List String) (pos : List V) (kw : List (String × V)) : Py (List (String × V)) :=
  if params.length < pos.length then .error .typeError
  else if ¬ (kw.map (·.1)).Nodup then .error .typeError
  else if kw.any (fun p => decide (p.1 ∉ params)) then .error .typeError
  else if kw.any (fun p => decide (p.1 ∈ params.take pos.length)) then .error .typeError
  else .ok ((params.take pos.length).zip pos ++ kw)

/-- plot.py lines 178-186, 47-56, 121-129, 397-414: the parameters of the functions behind `plot_sorted`, `plot_distribution`, `plot_steps`, `plot_spacings`. -/
def params : String → List String
  | "plot_sorted" => ["eigs", "title", "mode", "outfile", "kind", "fig", "axes"]
  | "plot_distribution" => ["eigs", "bins", "kde", "title", "mode", "outfile", "fig", "axes"]
  | "plot_steps" => ["eigs", "gridsize", "title", "mode", "outfile", "fig", "axes"]
  | _ => ["unfolded", "bins", "kde", "trim", "trim_kde", "kde_bw", "brody", "brody_fit", "title", "mode", "outfile", "ensembles", "fig", "axes"]

/-- _eigvals.py lines 70-80: `plot_sorted(*args, **kwargs)` calls `_raw_eig_sorted(eigs=self.values, *args, **kwargs)`, and the same for the other three: the bound arguments. -/
def plotMethod {V : Type} (name : String) (values : V) (args : List V) (kwargs : List (String × V)) : Py (List (String × V)) :=
  bindCall (params name) args (((params name).head?.getD "", values) :: kwargs)

/-! ### The legend of colours -/

/-- plot.py lines 1287-1295, `HandlerColormap.__init__` (the colour map and the number of stripes), and lines 1297-1311, `HandlerColormap.create_artists`: left edge, width and colour position of each stripe. -/
def stripes {K : Type} [Field K] (xdescent width : K) (n : Nat) : List (K × K × K) :=
  (List.range n).map fun (i : Nat) => (xdescent + i * width / n, width / n, (2 * (i : K) + 1) / (2 * n))

end Figures
end RMT
