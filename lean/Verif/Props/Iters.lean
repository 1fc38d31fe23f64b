import Verif.Model.Iters
import Verif.Props.Figures
import Verif.Props.PlotData

/-!
# Property C135: `show_iters`
-/

namespace RMT
namespace Props
open Files PlotData Figures

/-- **C135 (switched off).** With `show_iters=False` the plot is that of C110: the points and the curves on one axes object. -/
theorem C135_off (w : World ObsItem) (fig : Option Nat) (axes : Option (Nat × Nat)) (mode : ModeArg) (saved : Py Unit) (p : ObsPlot) (L : List ℝ) (it : Option (List ℝ)) :
    obsCall w fig axes mode saved (.ok p) L it false = plotCall w fig axes mode saved ([.good p.good, .bad p.bad, .theory p.theory], .ok ()) := by
  have h : ∀ (w : World ObsItem) f a, draw (draw w f a [.good p.good, .bad p.bad]) f a [.theory p.theory] = draw w f a [.good p.good, .bad p.bad, .theory p.theory] := by
    intro w f a
    simp only [draw, World.mk.injEq, true_and]
    funext g b
    by_cases hgb : g = f ∧ b = a <;> simp [hgb]
  simp [obsCall, obsDraw, plotCall, h]

/-- **C135 (on given axes).** With `show_iters=True`, a column of iterations, a figure and one of its axes, in every mode but `Test`: the axes given receive the same items as without `show_iters`, the figure gets exactly one further axes object,
whose only content is the number of iterations at each `L`, converged or not; everything else is unchanged, no figure is created, and what is returned is the figure and axes given. -/
theorem C135_given (w : World ObsItem) (f a : Nat) (ha : a < w.axesOf f) (mode : ModeArg) (hm : Keeps mode) (saved : Py Unit) (p : ObsPlot) (L it : List ℝ) :
    let r := obsCall w (some f) (some (f, a)) mode saved (.ok p) L (some it) true
    (∀ g b, r.2.content g b = if g = f ∧ b = a then w.content g b ++ [.good p.good, .bad p.bad, .theory p.theory]
      else if g = f ∧ b = w.axesOf f then [.iters (L.zip it)] else w.content g b) ∧
    (∀ g, r.2.axesOf g = if g = f then w.axesOf f + 1 else w.axesOf g) ∧ r.2.next = w.next ∧
    (∀ g, g ≠ f → (g ∈ r.2.opened ↔ g ∈ w.opened)) ∧ (∀ x, r.1 = .ok x → x = (f, (f, a))) := by
  simp only [obsCall, obsDraw, setupPlotting, if_true]
  generalize hw : draw (draw (twinx (draw w f a [.good p.good, .bad p.bad]) f).2 f (twinx (draw w f a [.good p.good, .bad p.bad]) f).1 [.iters (L.zip it)]) f a [.theory p.theory] = w2
  obtain ⟨h1, h2, h3, h4⟩ := finish_content w2 mode hm saved f (f, a)
  refine ⟨fun g b => ?_, fun g => ?_, ?_, fun g hg => ?_, fun x h => finish_ok _ _ _ _ _ x h⟩
  · show (finish w2 mode saved f (f, a)).2.content g b = _
    rw [h1, ← hw]
    simp only [draw, twinx]
    have hne : a ≠ w.axesOf f := by omega
    by_cases hg : g = f
    · by_cases hb : b = a
      · subst hg hb
        simp [hne]
      · by_cases hb' : b = w.axesOf f
        · simp [hg, hb', hne.symm]
        · simp [hg, hb, hb']
    · simp [hg]
  · show (finish w2 mode saved f (f, a)).2.axesOf g = _
    rw [h3, ← hw]
    simp only [draw, twinx]
  · show (finish w2 mode saved f (f, a)).2.next = _
    rw [h2, ← hw]
    simp only [draw, twinx]
  · rw [h4 g hg]
    simp only [← hw, draw, twinx]

/-- **C135 (bad frames).** If the frame lacks a column that is needed, the exception raised and the state of pyplot left behind do not depend on `show_iters`: they are those of a plotting function that raises before it draws anything (C110). In
particular no axes change if a figure and axes are given, and otherwise one figure with one empty axes object stays open. -/
theorem C135_bad_frame (w : World ObsItem) (fig : Option Nat) (axes : Option (Nat × Nat)) (mode : ModeArg) (saved : Py Unit) (e : PyErr) (L : List ℝ) (it : Option (List ℝ)) (showIters : Bool) :
    let r := obsCall w fig axes mode saved (.error e) L it showIters
    r.1 = .error e ∧ (∀ f a, fig = some f → axes = some a → r.2 = w) ∧
    (fig = none ∨ axes = none → r.2.next = w.next + 1 ∧ (∀ g, r.2.axesOf g = if g = w.next then 1 else w.axesOf g) ∧ r.2.opened = w.next :: w.opened ∧
      ∀ g b, r.2.content g b = if g = w.next then [] else w.content g b) := by
  refine ⟨rfl, ?_, ?_⟩
  · rintro f a rfl rfl
    rfl
  · intro h
    have hs : (obsCall w fig axes mode saved (.error e) L it showIters).2 = (subplots w 1).2 := by
      rcases h with h | h <;> subst h
      · rfl
      · cases fig <;> rfl
    rw [hs]
    refine ⟨rfl, fun g => rfl, rfl, fun g b => rfl⟩

/-- **C135 (no iterations to show).** Without a column of iterations `show_iters=True` raises `ValueError`; the points are then already drawn and the figure has a further, empty axes object, but no curve is drawn. -/
theorem C135_missing (w : World ObsItem) (f a : Nat) (ha : a < w.axesOf f) (mode : ModeArg) (saved : Py Unit) (p : ObsPlot) (L : List ℝ) :
    let r := obsCall w (some f) (some (f, a)) mode saved (.ok p) L none true
    r.1 = .error .valueError ∧
    (∀ g b, r.2.content g b = if g = f ∧ b = a then w.content g b ++ [.good p.good, .bad p.bad] else if g = f ∧ b = w.axesOf f then [] else w.content g b) ∧
    (∀ g, r.2.axesOf g = if g = f then w.axesOf f + 1 else w.axesOf g) ∧ r.2.opened = w.opened := by
  refine ⟨rfl, fun g b => ?_, fun g => rfl, rfl⟩
  simp only [obsCall, obsDraw, setupPlotting, if_true, twinx, draw]
  have hne : a ≠ w.axesOf f := by omega
  by_cases hg : g = f
  · by_cases hb : b = a
    · subst hg hb
      simp [hne]
    · by_cases hb' : b = w.axesOf f <;> simp [hg, hb, hb']
      intro h; exact absurd h.symm hne
  · simp [hg]

/-- **C135 (refuted for `sigma` given).** `plot_level_variance(L, sigma=..., show_iters=True)` raises `ValueError` for all values, whatever figure and mode are passed, although it returns the plot
with `show_iters=False`. -/
theorem C135_refuted (w : World ObsItem) (fig : Option Nat) (axes : Option (Nat × Nat)) (mode : ModeArg) (saved : Py Unit) (si ci : ℝ → ℝ) (siInf : ℝ) (L y : List ℝ) (ens : List String) :
    (levelVarianceGiven w fig axes mode saved si ci siInf L y ens true).1 = .error .valueError ∧
    (L.length = y.length → ∃ x, (levelVarianceGiven w fig axes (.member .ret) saved si ci siInf L y ens false).1 = .ok (L, y, x)) := by
  obtain ⟨hp, -⟩ : (∃ p, plotLevelVar si ci siInf ⟨some L, none, some y, some (y.map fun _ => true)⟩ ens = .ok p) ∧ True := by
    simp only [plotLevelVar, pure, Except.pure]
    exact ⟨⟨_, rfl⟩, trivial⟩
  obtain ⟨p, hp⟩ := hp
  constructor
  · unfold levelVarianceGiven
    split_ifs
    · rfl
    · simp only [obsCall, hp, obsDraw, Except.map, if_true]
  · intro h
    simp only [levelVarianceGiven, h, ne_eq, not_true_eq_false, if_false, hp, C135_off]
    refine ⟨(setupPlotting w fig axes).1, ?_⟩
    simp [plotCall, finish, Except.map]

/-- An open figure with one empty axes object. -/
def oneFigure : World ObsItem := ⟨[0], 1, fun f => if f = 0 then 1 else 0, fun _ _ => []⟩

-- figure 0 has axes 0, and the second panel gets the iterations
example : 0 < oneFigure.axesOf 0 ∧ Keeps (.member .ret) ∧
    (obsCall oneFigure (some 0) (some (0, 0)) (.member .ret) (.ok ()) (.ok ⟨[(2, 1)], [(3, 5)], []⟩) [2, 3] (some [100, 200]) true).2.content 0 1 = [.iters [(2, 100), (3, 200)]] := by
  refine ⟨by simp [oneFigure], by simp [Keeps], ?_⟩
  rw [(C135_given oneFigure 0 0 (by simp [oneFigure]) (.member .ret) (by simp [Keeps]) (.ok ()) _ _ _).1]
  simp [oneFigure]

end Props
end RMT
