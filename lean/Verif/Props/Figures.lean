import Verif.Model.Figures
import Verif.Lemmas.Eigenvalues
import Verif.Spec.Variance

/-!
# Properties C108-C113: where plots are drawn and what they show
-/

namespace RMT
namespace Props
open Figures Files PlotData EigValsM

/-! ## C108: the density estimate of `plot_distribution` -/

/-- **C108 (what is shown).** For every non-empty array of values: the histogram shows all values; the curve is drawn exactly if some value is positive, on 10000 equally spaced points from the smallest to the largest value, and is the density
estimate of the positive values alone. Without `kde` there is no curve. -/
theorem C108_shown (kde : List ℝ → ℝ → ℝ) (vals : List ℝ) (hne : vals ≠ []) :
    (∃ lo hi p, Spec.IsMin vals lo ∧ Spec.IsMax vals hi ∧ plotDist kde vals true = .ok p ∧ p.hist = vals ∧
      ((∃ v ∈ vals, 0 < v) → p.curve = some ⟨linspace lo hi 10000, (linspace lo hi 10000).map (kde (vals.filter fun v => decide (0 < v)))⟩) ∧
      ((∀ v ∈ vals, v ≤ 0) → p.curve = none)) ∧
    plotDist kde vals false = .ok ⟨vals, none⟩ := by
  obtain ⟨lo, h1, h2, h3⟩ := EigM.npMin_ok hne
  obtain ⟨hi, g1, g2, g3⟩ := EigM.npMax_ok hne
  refine ⟨⟨lo, hi, ⟨vals, (kdeInput vals).map fun v => ⟨linspace lo hi 10000, (linspace lo hi 10000).map (kde v)⟩⟩, ⟨h2, h3⟩, ⟨g2, g3⟩, ?_, rfl, ?_, ?_⟩, rfl⟩
  · simp only [plotDist, if_true, h1, g1, bind, Except.bind, pure, Except.pure]
  · rintro ⟨v, hv, hp⟩
    have : vals.all (fun x => decide (x ≤ 0)) = false := by
      rw [Bool.eq_false_iff]
      intro h
      rw [List.all_eq_true] at h
      have := h v hv
      simp only [decide_eq_true_eq] at this
      linarith
    simp [kdeInput, this]
  · intro h
    have : vals.all (fun x => decide (x ≤ 0)) = true := by
      rw [List.all_eq_true]
      intro x hx
      simpa using h x hx
    simp [kdeInput, this]

/-- **C108 (partial).** If all values are positive, the curve is the density estimate of the values shown in the histogram. -/
theorem C108_positive_partial (kde : List ℝ → ℝ → ℝ) (vals : List ℝ) (hne : vals ≠ []) (hp : ∀ v ∈ vals, 0 < v) :
    ∃ p c, plotDist kde vals true = .ok p ∧ p.hist = vals ∧ p.curve = some c ∧ c.y = c.x.map (kde vals) := by
  obtain ⟨⟨lo, hi, p, -, -, h1, h2, h3, -⟩, -⟩ := C108_shown kde vals hne
  obtain ⟨v, l, rfl⟩ := List.exists_cons_of_ne_nil hne
  have hf : (v :: l).filter (fun v => decide (0 < v)) = v :: l := by
    rw [List.filter_eq_self]
    intro x hx
    simpa using hp x hx
  rw [hf] at h3
  have h4 := h3 ⟨v, by simp, hp v (by simp)⟩
  generalize linspace lo hi 10000 = g at h4
  exact ⟨p, _, h1, h2, h4, rfl⟩

/-- **C108 (refuted).** For every spectrum with a non-positive and a positive value, and every density estimate that depends on the number of values, the curve differs from the density estimate of the values shown: e.g. if `kde` of `n` values is at
every point the number `n`. For spectra without positive values there is no curve at all. -/
theorem C108_refuted :
    (∀ vals : List ℝ, (∃ v ∈ vals, v ≤ 0) → (∃ v ∈ vals, 0 < v) → ∃ p c, plotDist (fun l _ => (l.length : ℝ)) vals true = .ok p ∧ p.hist = vals ∧ p.curve = some c ∧ ∀ y ∈ c.y, y < vals.length) ∧
    ∀ (kde : List ℝ → ℝ → ℝ) (vals : List ℝ), vals ≠ [] → (∀ v ∈ vals, v ≤ 0) → plotDist kde vals true = .ok ⟨vals, none⟩ := by
  constructor
  · rintro vals ⟨u, hu, hu0⟩ hv
    obtain ⟨⟨lo, hi, p, -, -, h1, h2, h3, -⟩, -⟩ := C108_shown (fun l _ => (l.length : ℝ)) vals (List.ne_nil_of_mem hu)
    have h4 := h3 hv
    generalize linspace lo hi 10000 = g at h4
    refine ⟨p, _, h1, h2, h4, ?_⟩
    intro y hy
    obtain ⟨x, -, rfl⟩ := List.mem_map.mp hy
    have : (vals.filter fun v => decide (0 < v)).length < vals.length := by
      rw [List.length_filter_lt_length_iff_exists]
      exact ⟨u, hu, by simpa using hu0⟩
    exact_mod_cast this
  · intro kde vals hne h
    obtain ⟨⟨lo, hi, p, -, -, h1, h2, -, h4⟩, -⟩ := C108_shown kde vals hne
    rw [h1]
    have := h4 h
    obtain ⟨a, b⟩ := p
    simp only at h2 this
    rw [h2, this]

/-- Non-vacuity of C108: spectra with both signs, and positive ones. -/
example : ((∃ v ∈ [(-1 : ℝ), 2], v ≤ 0) ∧ (∃ v ∈ [(-1 : ℝ), 2], 0 < v)) ∧ (∀ v ∈ [(1 : ℝ), 2], 0 < v) := by
  constructor
  · exact ⟨⟨-1, by simp, by norm_num⟩, ⟨2, by simp, by norm_num⟩⟩
  · intro v hv
    simp at hv
    rcases hv with rfl | rfl <;> norm_num

/-! ## C109: arguments of the plotting methods -/

/-- The four methods. -/
def PlotMethodName (name : String) : Prop := name = "plot_sorted" ∨ name = "plot_distribution" ∨ name = "plot_steps" ∨ name = "plot_spacings"

/-- **C109 (partial).** With keyword arguments only, each name of a parameter other than the first, and no name twice: the function is called with the values of the object and these arguments. -/
theorem C109_keywords_partial {V : Type} (name : String) (hn : PlotMethodName name) (values : V) (kwargs : List (String × V)) (hk : (kwargs.map (·.1)).Nodup)
    (hp : ∀ p ∈ kwargs, p.1 ∈ (params name).tail) :
    plotMethod name values [] kwargs = .ok (((params name).head?.getD "", values) :: kwargs) := by
  have hpar : ∃ a l, params name = a :: l ∧ a ∉ l := by
    rcases hn with rfl | rfl | rfl | rfl
    · exact ⟨_, _, rfl, by decide⟩
    · exact ⟨_, _, rfl, by decide⟩
    · exact ⟨_, _, rfl, by decide⟩
    · exact ⟨_, _, rfl, by decide⟩
  obtain ⟨a, l, e, hal⟩ := hpar
  rw [e] at hp
  simp only [List.tail_cons] at hp
  simp only [plotMethod, e, List.head?_cons, Option.getD_some, bindCall, List.length_nil, List.take_zero, List.not_mem_nil, decide_false, List.zip_nil_left, List.nil_append]
  have h1 : (((a, values) :: kwargs).map (·.1)).Nodup := by
    rw [List.map_cons, List.nodup_cons]
    refine ⟨fun h => ?_, hk⟩
    obtain ⟨p, hp1, hp2⟩ := List.mem_map.mp h
    have := hp p hp1
    simp only at hp2
    rw [hp2] at this
    exact hal this
  have h2 : ((a, values) :: kwargs).any (fun p => decide (p.1 ∉ a :: l)) = false := by
    rw [List.any_eq_false]
    intro p hp1
    simp only [decide_eq_true_eq, not_not]
    rcases List.mem_cons.mp hp1 with rfl | h
    · simp
    · exact List.mem_cons_of_mem _ (hp p h)
  rw [if_neg (by simp), if_neg (not_not.mpr h1), h2]
  simp

/-- **C109 (refuted).** Every positional argument is refused: `plot_sorted("title")` and the like raise `TypeError`, whatever the argument is and whatever else is passed. -/
theorem C109_refuted {V : Type} (name : String) (hn : PlotMethodName name) (values : V) (args : List V) (ha : args ≠ []) (kwargs : List (String × V)) :
    plotMethod name values args kwargs = .error .typeError := by
  have hpar : ∃ a l, params name = a :: l := by
    rcases hn with rfl | rfl | rfl | rfl <;> exact ⟨_, _, rfl⟩
  obtain ⟨a, l, e⟩ := hpar
  obtain ⟨v, args, rfl⟩ := List.exists_cons_of_ne_nil ha
  simp only [plotMethod, e, List.head?_cons, Option.getD_some, bindCall]
  have h4 : ((a, values) :: kwargs).any (fun p => decide (p.1 ∈ List.take (v :: args).length (a :: l))) = true := by simp
  rw [if_pos h4]
  simp only [ite_self]

/-- **C109 (unknown keywords).** A keyword that is not a parameter, or that names the first parameter, raises `TypeError`. -/
theorem C109_unknown {V : Type} (name : String) (hn : PlotMethodName name) (values : V) (kwargs : List (String × V)) (p : String × V) (hp : p ∈ kwargs) (hu : p.1 ∉ (params name).tail) :
    plotMethod name values [] kwargs = .error .typeError := by
  have hpar : ∃ a l, params name = a :: l := by
    rcases hn with rfl | rfl | rfl | rfl <;> exact ⟨_, _, rfl⟩
  obtain ⟨a, l, e⟩ := hpar
  rw [e] at hu
  simp only [plotMethod, e, List.head?_cons, Option.getD_some, bindCall]
  by_cases h1 : (((a, values) :: kwargs).map (·.1)).Nodup
  · have hne : p.1 ≠ a := by
      intro h
      rw [List.map_cons, List.nodup_cons] at h1
      exact h1.1 (List.mem_map.mpr ⟨p, hp, h⟩)
    have h2 : ((a, values) :: kwargs).any (fun p => decide (p.1 ∉ a :: l)) = true := by
      rw [List.any_eq_true]
      refine ⟨p, List.mem_cons_of_mem _ hp, ?_⟩
      simp only [List.mem_cons, decide_eq_true_eq, not_or]
      exact ⟨hne, hu⟩
    rw [if_neg (by simp), if_neg (not_not.mpr h1), if_pos h2]
  · rw [if_neg (by simp), if_pos h1]

/-- The keywords the four methods are documented to take. -/
def documentedKeywords : String → List String
  | "plot_sorted" => ["title", "mode", "outfile", "kind", "fig", "axes"]
  | "plot_distribution" => ["bins", "kde", "title", "mode", "outfile", "fig", "axes"]
  | "plot_steps" => ["gridsize", "title", "mode", "outfile", "fig", "axes"]
  | "plot_spacings" => ["bins", "kde", "trim", "trim_kde", "kde_bw", "brody", "brody_fit", "title", "mode", "outfile", "ensembles", "fig", "axes"]
  | _ => []

/-- **C109 (exact).** Keywords are accepted exactly if no name is given twice and all are documented; the values of the object are then passed as `eigs`, or as `unfolded` to `plot_spacings`. -/
theorem C109_exact {V : Type} (name : String) (hn : PlotMethodName name) (values : V) (kwargs : List (String × V)) (b : List (String × V)) :
    plotMethod name values [] kwargs = .ok b ↔
      (kwargs.map (·.1)).Nodup ∧ (∀ p ∈ kwargs, p.1 ∈ documentedKeywords name) ∧ b = (if name = "plot_spacings" then "unfolded" else "eigs", values) :: kwargs := by
  have hd : (params name).tail = documentedKeywords name ∧ (params name).head?.getD "" = (if name = "plot_spacings" then "unfolded" else "eigs") ∧ (params name).head? ≠ none := by
    rcases hn with rfl | rfl | rfl | rfl <;> exact ⟨rfl, rfl, by simp [params]⟩
  constructor
  · intro h
    have hall : ∀ p ∈ kwargs, p.1 ∈ documentedKeywords name := by
      intro p hp
      by_contra hc
      rw [← hd.1] at hc
      rw [C109_unknown name hn values kwargs p hp hc] at h
      cases h
    have hk : (kwargs.map (·.1)).Nodup := by
      by_contra hc
      have h1 : ¬ ((((params name).head?.getD "", values) :: kwargs).map (·.1)).Nodup := fun h2 => hc (by
        rw [List.map_cons, List.nodup_cons] at h2
        exact h2.2)
      rw [plotMethod, bindCall, if_neg (by simp), if_pos h1] at h
      cases h
    rw [C109_keywords_partial name hn values kwargs hk (by rw [hd.1]; exact hall), hd.2.1] at h
    injection h with h
    exact ⟨hk, hall, h.symm⟩
  · rintro ⟨hk, hall, rfl⟩
    rw [C109_keywords_partial name hn values kwargs hk (by rw [hd.1]; exact hall), hd.2.1]

/-- Non-vacuity of C109. -/
example : plotMethod "plot_sorted" 0 [] [("kind", 1)] = .ok [("eigs", 0), ("kind", 1)] ∧ plotMethod "plot_sorted" 0 [1] [] = .error .typeError := by decide

/-! ## C110: plots are drawn on the axes given -/

section Worlds
variable {Item : Type}

/-- The modes which do not clear figures. -/
def Keeps (mode : ModeArg) : Prop := mode ≠ .member .test

theorem finish_content (w : World Item) (mode : ModeArg) (hm : Keeps mode) (saved : Py Unit) (f : Nat) (a : Nat × Nat) :
    (finish w mode saved f a).2.content = w.content ∧ (finish w mode saved f a).2.next = w.next ∧ (finish w mode saved f a).2.axesOf = w.axesOf ∧
      (∀ g, g ≠ f → (g ∈ (finish w mode saved f a).2.opened ↔ g ∈ w.opened)) := by
  rcases mode with ⟨m⟩ | _
  · cases m with
    | test => exact absurd rfl hm
    | save =>
      cases saved with
      | error e => exact ⟨rfl, rfl, rfl, fun _ _ => Iff.rfl⟩
      | ok u =>
        refine ⟨rfl, rfl, rfl, fun g hg => ?_⟩
        simp [finish, close, hg]
    | block => exact ⟨rfl, rfl, rfl, fun _ _ => Iff.rfl⟩
    | noBlock => exact ⟨rfl, rfl, rfl, fun _ _ => Iff.rfl⟩
    | ret => exact ⟨rfl, rfl, rfl, fun _ _ => Iff.rfl⟩
  · exact ⟨rfl, rfl, rfl, fun _ _ => Iff.rfl⟩

theorem finish_ok (w : World Item) (mode : ModeArg) (saved : Py Unit) (f : Nat) (a : Nat × Nat) (r : Nat × (Nat × Nat)) (h : (finish w mode saved f a).1 = .ok r) : r = (f, a) := by
  rcases mode with ⟨m⟩ | _
  · cases m <;> simp only [finish] at h
    all_goals first | exact (Except.ok.inj h).symm | skip
    cases saved with
    | error e => cases h
    | ok u => exact (Except.ok.inj h).symm
  · cases h

/-- **C110 (figure and axes given).** For every plotting function, every state of pyplot, and every mode but `Test`: the items are added to the axes given, no other axes change (on any figure), no figure is created, no other figure is closed, and
whatever is returned is the figure and axes given. The same holds if the function raises while drawing. -/
theorem C110_given (w : World Item) (f : Nat) (a : Nat × Nat) (mode : ModeArg) (hm : Keeps mode) (saved : Py Unit) (body : List Item × Py Unit) :
    let r := plotCall w (some f) (some a) mode saved body
    (∀ g b, r.2.content g b = if (g, b) = a then w.content g b ++ body.1 else w.content g b) ∧ r.2.next = w.next ∧ r.2.axesOf = w.axesOf ∧
      (∀ g, g ≠ f → (g ∈ r.2.opened ↔ g ∈ w.opened)) ∧ ∀ x, r.1 = .ok x → x = (f, a) := by
  simp only [plotCall, setupPlotting]
  have hc : ∀ g b, (draw w a.1 a.2 body.1).content g b = if (g, b) = a then w.content g b ++ body.1 else w.content g b := by
    intro g b
    simp only [draw, Prod.ext_iff]
  cases hb : body.2 with
  | error e => exact ⟨hc, rfl, rfl, fun _ _ => Iff.rfl, fun x h => by cases h⟩
  | ok u =>
    obtain ⟨h1, h2, h3, h4⟩ := finish_content (draw w a.1 a.2 body.1) mode hm saved f a
    refine ⟨fun g b => by simp only [h1]; exact hc g b, h2, h3, h4, fun x h => finish_ok _ _ _ _ _ x h⟩

/-- **C110 (not both given).** If the figure or the axes are missing, exactly one figure is created, with one axes object which receives the items; all axes of all other figures are unchanged, and no other figure is closed; an axes or figure argument passed alone is not
used. -/
theorem C110_new (w : World Item) (fig : Option Nat) (axes : Option (Nat × Nat)) (hmiss : fig = none ∨ axes = none) (mode : ModeArg) (hm : Keeps mode) (saved : Py Unit) (body : List Item × Py Unit) :
    let r := plotCall w fig axes mode saved body
    (∀ g b, r.2.content g b = if g = w.next then (if b = 0 then body.1 else []) else w.content g b) ∧ r.2.next = w.next + 1 ∧
      (∀ g, r.2.axesOf g = if g = w.next then 1 else w.axesOf g) ∧ (∀ g, g ≠ w.next → (g ∈ r.2.opened ↔ g ∈ w.opened)) ∧ ∀ x, r.1 = .ok x → x = (w.next, (w.next, 0)) := by
  have hs : setupPlotting w fig axes = ((w.next, (w.next, 0)), (subplots w 1).2) := by
    rcases hmiss with rfl | rfl
    · rfl
    · cases fig <;> rfl
  simp only [plotCall, hs]
  have hc : ∀ g b, (draw (subplots w 1).2 w.next 0 body.1).content g b = if g = w.next then (if b = 0 then body.1 else []) else w.content g b := by
    intro g b
    simp only [draw, subplots]
    by_cases h : g = w.next
    · by_cases h2 : b = 0 <;> simp [h, h2]
    · simp [h]
  have ho : ∀ g, g ≠ w.next → (g ∈ (draw (subplots w 1).2 w.next 0 body.1).opened ↔ g ∈ w.opened) := by
    intro g hg
    simp [draw, subplots, hg]
  cases hb : body.2 with
  | error e => exact ⟨hc, rfl, fun g => rfl, ho, fun x h => by cases h⟩
  | ok u =>
    obtain ⟨h1, h2, h3, h4⟩ := finish_content (draw (subplots w 1).2 w.next 0 body.1) mode hm saved w.next (w.next, 0)
    refine ⟨fun g b => by simp only [h1]; exact hc g b, h2, fun g => by simp only [h3]; rfl, fun g hg => (h4 g hg).trans (ho g hg), fun x h => finish_ok _ _ _ _ _ x h⟩

/-- **C110 (invalid modes).** A mode that is none of the five raises `ValueError`, after everything has been drawn: what is drawn stays, and a figure made by the call stays open. -/
theorem C110_invalid_mode (w : World Item) (fig : Option Nat) (axes : Option (Nat × Nat)) (saved : Py Unit) (items : List Item) :
    (plotCall w fig axes .other saved (items, .ok ())).1 = .error .valueError ∧
      (plotCall w fig axes .other saved (items, .ok ())).2 = (plotCall w fig axes (.member .ret) saved (items, .ok ())).2 := ⟨rfl, rfl⟩

/-- **C110 (which figure stays open).** After a successful call in mode `Save` or `Test` the figure drawn on is not open; in the other modes it is open if it was, and a figure created by the call is. A call that fails — while drawing, saving, or
because the mode is invalid — leaves it open. -/
theorem C110_open (w : World Item) (fig : Option Nat) (axes : Option (Nat × Nat)) (mode : ModeArg) (saved : Py Unit) (body : List Item × Py Unit) (f : Nat)
    (hf : f = if fig.isSome ∧ axes.isSome then fig.getD 0 else w.next) (hopen : fig.isSome ∧ axes.isSome → f ∈ w.opened) :
    let r := plotCall w fig axes mode saved body
    (f ∈ r.2.opened ↔ ¬ ((∃ x, r.1 = .ok x) ∧ (mode = .member .save ∨ mode = .member .test))) := by
  have main : ∀ (w1 : World Item) (a : Nat × Nat), f ∈ w1.opened →
      let r : Py (Nat × (Nat × Nat)) × World Item := match body.2 with
        | .error e => (.error e, w1)
        | .ok () => finish w1 mode saved f a
      (f ∈ r.2.opened ↔ ¬ ((∃ x, r.1 = .ok x) ∧ (mode = .member .save ∨ mode = .member .test))) := by
    intro w1 a h1
    cases hb : body.2 with
    | error e => simp [h1]
    | ok u =>
      rcases mode with ⟨m⟩ | _
      · cases m with
        | test => simp [finish, close]
        | save => cases saved <;> simp [finish, close, h1]
        | block => simp [finish, h1]
        | noBlock => simp [finish, h1]
        | ret => simp [finish, h1]
      · simp [finish, h1]
  cases fig with
  | none =>
    simp only [Option.isSome_none, Bool.false_eq_true, false_and, if_false] at hf
    subst hf
    exact main (draw (subplots w 1).2 w.next 0 body.1) (w.next, 0) (by simp [draw, subplots])
  | some g =>
    cases axes with
    | none =>
      simp only [Option.isSome_none, Bool.false_eq_true, and_false, if_false] at hf
      subst hf
      exact main (draw (subplots w 1).2 w.next 0 body.1) (w.next, 0) (by simp [draw, subplots])
    | some a =>
      simp only [Option.isSome_some, and_self, if_true, Option.getD_some] at hf
      subst hf
      exact main (draw w a.1 a.2 body.1) a (hopen (by simp))

/-- **C110 (mode `Test`, refuted).** If a figure and axes are given and another figure is the current one, mode `Test` erases everything on that other figure. -/
theorem C110_refuted (w : World Item) (f cur : Nat) (rest : List Nat) (ho : w.opened = cur :: rest) (_hf : f ≠ cur) (b : Nat) (saved : Py Unit) (items : List Item) :
    ∀ c, (plotCall w (some f) (some (f, b)) (.member .test) saved (items, .ok ())).2.content cur c = [] := by
  intro c
  have : (draw w f b items).opened = cur :: rest := ho
  simp [plotCall, setupPlotting, finish, close, clearCurrent, this]

/-- **C110 (mode `Test`, partial).** If the figure is a new one, or the current one, no other figure changes. -/
theorem C110_test_partial (w : World Item) (fig : Option Nat) (axes : Option (Nat × Nat)) (saved : Py Unit) (body : List Item × Py Unit)
    (h : (fig = none ∨ axes = none) ∨ ∃ f b rest, fig = some f ∧ axes = some (f, b) ∧ w.opened = f :: rest) (g : Nat) (hg : g ≠ fig.getD w.next) (hg' : g ≠ w.next) (b : Nat) :
    (plotCall w fig axes (.member .test) saved body).2.content g b = w.content g b ∧ (g ∈ (plotCall w fig axes (.member .test) saved body).2.opened ↔ g ∈ w.opened) := by
  rcases h with hmiss | ⟨f, c, rest, rfl, rfl, ho⟩
  · have hs : setupPlotting w fig axes = ((w.next, (w.next, 0)), (subplots w 1).2) := by
      rcases hmiss with rfl | rfl
      · rfl
      · cases fig <;> rfl
    simp only [plotCall, hs]
    cases hb : body.2 with
    | error e => simp [draw, subplots, hg']
    | ok u => simp [finish, close, clearCurrent, draw, subplots, hg']
  · simp only [Option.getD_some] at hg
    simp only [plotCall, setupPlotting]
    cases hb : body.2 with
    | error e => simp [draw, hg]
    | ok u =>
      have : (draw w f c body.1).opened = f :: rest := ho
      simp [finish, close, clearCurrent, hg, draw, ho]

/-- Non-vacuity of C110: two open figures; drawing on the older one in mode `Test` erases the newer one, in mode `Return` it does not. -/
example :
    let w : World Nat := ⟨[1, 0], 2, fun _ => 1, fun f _ => [f + 10]⟩
    (plotCall w (some 0) (some (0, 0)) (.member .test) (.ok ()) ([7], .ok ())).2.content 1 0 = [] ∧
    (plotCall w (some 0) (some (0, 0)) (.member .ret) (.ok ()) ([7], .ok ())).2.content 1 0 = [11] ∧
    (plotCall w (some 0) (some (0, 0)) (.member .ret) (.ok ()) ([7], .ok ())).2.content 0 0 = [10, 7] ∧
    (plotCall w (some 0) none (.member .ret) (.ok ()) ([7], .ok ())).2.content 2 0 = [7] := by decide

/-! ## C111: `plot_sorted` -/

/-- **C111 (points).** With kind "scatter" or "line", the plot shows every eigenvalue once, at its index, in the requested style. -/
theorem C111_points {K : Type} (eigs : List K) (kind : String) (hk : kind = "scatter" ∨ kind = "line") :
    ∃ pts, sortedBody eigs kind = ([(decide (kind = "scatter"), pts)], .ok ()) ∧ pts.length = eigs.length ∧ ∀ i (h : i < eigs.length), pts[i]? = some (i, eigs[i]) := by
  refine ⟨(List.range eigs.length).zip eigs, ?_, by simp, ?_⟩
  · rcases hk with rfl | rfl <;> simp [sortedBody]
  · intro i h
    rw [List.getElem?_eq_getElem (by simpa using h)]
    simp

/-- **C111 (other kinds).** For any other kind a `ValueError` is raised, in every state of pyplot and every mode, and nothing is drawn on any axes; if not both a figure and axes are given, an empty figure is left open. -/
theorem C111_invalid {K : Type} (eigs : List K) (kind : String) (hk : kind ≠ "scatter" ∧ kind ≠ "line") (w : World (Bool × List (Nat × K))) (fig : Option Nat) (axes : Option (Nat × Nat)) (mode : ModeArg)
    (saved : Py Unit) (hw : ∀ b, w.content w.next b = []) :
    let r := plotCall w fig axes mode saved (sortedBody eigs kind)
    r.1 = .error .valueError ∧ (∀ g b, r.2.content g b = w.content g b) ∧
      r.2.opened = if fig.isSome ∧ axes.isSome then w.opened else w.next :: w.opened := by
  have hb : sortedBody eigs kind = ([], .error .valueError) := by simp [sortedBody, hk.1, hk.2]
  rw [hb]
  have hnew : ∀ g b, (draw (subplots w 1).2 w.next 0 []).content g b = w.content g b := by
    intro g b
    simp only [draw, subplots, List.append_nil, ite_self]
    split_ifs with h
    · rw [h, hw]
    · rfl
  cases fig with
  | none => exact ⟨rfl, hnew, by simp [plotCall, setupPlotting, draw, subplots]⟩
  | some f =>
    cases axes with
    | none => exact ⟨rfl, hnew, by simp [plotCall, setupPlotting, draw, subplots]⟩
    | some a => exact ⟨rfl, fun g b => by simp [plotCall, setupPlotting, draw], by simp [plotCall, setupPlotting, draw]⟩

/-- Non-vacuity of C111. -/
example : sortedBody [3, 5] "line" = ([(false, [(0, 3), (1, 5)])], .ok ()) ∧ sortedBody [3, 5] "bar" = ([], .error .valueError) := by decide

end Worlds

/-! ## C112: `plot_observables` -/

/-- **C112 (four panels).** If the rigidity and level variance could be computed and each of the four plots can be drawn: exactly one figure is created, with four axes, each showing exactly one plot: the unfolding fit, the spacing distribution, the spectral rigidity, and the
level variance, each with the data of this object; no other axes change, and in mode `Return` the new figure is returned. -/
theorem C112_panels (si ci : ℝ → ℝ) (siInf : ℝ) (fitBrody : String → List ℝ → Py ℝ) (w : World Panel) (mode : ModeArg) (hm : Keeps mode) (saved : Py Unit)
    (originals unfolded : List ℝ) (rd ld : Data) (ensembles : List String) (sp : SpacingPlot) (rp lp : ObsPlot)
    (hs : plotSpacings fitBrody unfolded 5 true false false "spacing" ensembles = .ok sp) (hr : plotRigidity unfolded rd ensembles = .ok rp)
    (hl : plotLevelVar si ci siInf ld ensembles = .ok lp) :
    let r := plotObservables si ci siInf fitBrody w mode saved originals unfolded (.ok rd) (.ok ld) ensembles
    r.2.content w.next 0 = [.fit (Plots.unfoldedFit originals unfolded)] ∧ r.2.content w.next 1 = [.spacings sp] ∧ r.2.content w.next 2 = [.rigidity rp] ∧
      r.2.content w.next 3 = [.levelvar lp] ∧ r.2.axesOf w.next = 4 ∧ (∀ g, g ≠ w.next → ∀ b, r.2.content g b = w.content g b) ∧ r.2.next = w.next + 1 ∧
      (mode = .member .ret → r.1 = .ok (w.next, (w.next, 0))) := by
  have key : ∃ w', drawPanels (subplots w 4).2 w.next
      [(0, .ok (.fit (Plots.unfoldedFit originals unfolded))), (1, .ok (.spacings sp)), (2, .ok (.rigidity rp)), (3, .ok (.levelvar lp))] = (.ok (), w') ∧
      w'.content w.next 0 = [.fit (Plots.unfoldedFit originals unfolded)] ∧ w'.content w.next 1 = [.spacings sp] ∧ w'.content w.next 2 = [.rigidity rp] ∧
      w'.content w.next 3 = [.levelvar lp] ∧ w'.axesOf w.next = 4 ∧ (∀ g, g ≠ w.next → ∀ b, w'.content g b = w.content g b) ∧ w'.next = w.next + 1 := by
    refine ⟨_, rfl, ?_, ?_, ?_, ?_, ?_, ?_, ?_⟩ <;> simp [plotCall, setupPlotting, panelBody, finish, draw, subplots]
    intro g hg b
    simp [hg]
  obtain ⟨w', h1, k0, k1, k2, k3, k4, k5, k6⟩ := key
  have e : plotObservables si ci siInf fitBrody w mode saved originals unfolded (.ok rd) (.ok ld) ensembles = finish w' mode saved w.next (w.next, 0) := by
    simp only [plotObservables, hs, hr, hl, Except.map]
    rw [show (subplots w 4).1 = w.next from rfl, h1]
  obtain ⟨f1, f2, f3, f4⟩ := finish_content w' mode hm saved w.next (w.next, 0)
  simp only [e, f1, f2, f3]
  refine ⟨k0, k1, k2, k3, k4, k5, k6, ?_⟩
  rintro rfl
  rfl

/-- **C112 (failures).** If the rigidity or the level variance cannot be computed, its exception is raised and no figure is created or changed. -/
theorem C112_failures (si ci : ℝ → ℝ) (siInf : ℝ) (fitBrody : String → List ℝ → Py ℝ) (w : World Panel) (mode : ModeArg) (saved : Py Unit) (originals unfolded : List ℝ) (rigidity levelvar : Py Data)
    (ensembles : List String) (e : PyErr) (h : rigidity = .error e ∨ (∃ d, rigidity = .ok d) ∧ levelvar = .error e) :
    plotObservables si ci siInf fitBrody w mode saved originals unfolded rigidity levelvar ensembles = (.error e, w) := by
  rcases h with rfl | ⟨⟨d, rfl⟩, rfl⟩ <;> rfl

/-- Non-vacuity of C112: the hypotheses hold for an unfolded spectrum of three values, with frames of one row. -/
example : ∃ sp rp lp, plotSpacings (fun _ _ => .ok 0) [0, 1, 3] 5 true false false "spacing" ["goe"] = .ok sp ∧
    plotRigidity [0, 1, 3] ⟨some [2], some [1], none, some [true]⟩ ["goe"] = .ok rp ∧ plotLevelVar id id 0 ⟨some [2], none, some [1], some [true]⟩ ["goe"] = .ok lp := by
  have hk : ∃ x l, trimSpacings (diff (npSort [(0 : ℝ), 1, 3])) 5 = x :: l := by
    have : npSort [(0 : ℝ), 1, 3] = [0, 1, 3] := npSort_of_ascending _ (by simp [Spec.Ascending])
    rw [this]
    refine ⟨1, [2], ?_⟩
    simp [diff, trimSpacings]
    norm_num
  obtain ⟨x, l, hk⟩ := hk
  obtain ⟨lo, h1, -⟩ := EigM.npMin_ok (l := x :: l) (by simp)
  obtain ⟨hi, h2, -⟩ := EigM.npMax_ok (l := x :: l) (by simp)
  have : ∃ sp, plotSpacings (fun _ _ => .ok 0) [0, 1, 3] 5 true false false "spacing" ["goe"] = .ok sp := by
    simp only [plotSpacings, hk, h1, h2, bind, Except.bind, pure, Except.pure]
    exact ⟨_, rfl⟩
  obtain ⟨sp, hsp⟩ := this
  exact ⟨sp, _, _, hsp, rfl, rfl⟩

/-! ## C113: the colour legend -/

/-- **C113.** For every number of stripes `n ≥ 1` and every position and width: the stripes start at the left edge of the box, each starts where the previous one ends, the last one ends at the right edge, and the colour positions are those of the midpoints of the stripes, strictly
increasing inside `(0, 1)`. -/
theorem C113_stripes {K : Type} [Field K] [LinearOrder K] [IsStrictOrderedRing K] (x width : K) (n : Nat) (hn : 1 ≤ n) :
    ∃ h : (stripes x width n).length = n,
      (stripes x width n)[0].1 = x ∧
      (∀ i (hi : i + 1 < n), (stripes x width n)[i].1 + (stripes x width n)[i].2.1 = (stripes x width n)[i + 1].1) ∧
      (stripes x width n)[n - 1].1 + (stripes x width n)[n - 1].2.1 = x + width ∧
      (∀ i (hi : i < n), 0 < (stripes x width n)[i].2.2 ∧ (stripes x width n)[i].2.2 < 1) ∧
      (∀ i (hi : i < n), x + width * (stripes x width n)[i].2.2 = (stripes x width n)[i].1 + (stripes x width n)[i].2.1 / 2) ∧
      ∀ i j (hi : i < n) (hj : j < n), i < j → (stripes x width n)[i].2.2 < (stripes x width n)[j].2.2 := by
  have hl : (stripes x width n).length = n := by simp [stripes]
  have hn0 : (0 : K) < n := by exact_mod_cast hn
  have hnn : (n : K) ≠ 0 := hn0.ne'
  have h2n : (0 : K) < 2 * n := by linarith
  refine ⟨hl, ?_, ?_, ?_, ?_, ?_, ?_⟩
  · simp [stripes]
  · intro i hi
    simp only [stripes, List.getElem_map, List.getElem_range]
    push_cast
    field_simp
    ring
  · simp only [stripes, List.getElem_map, List.getElem_range]
    rw [Nat.cast_sub hn]
    field_simp
    push_cast
    ring
  · intro i hi
    simp only [stripes, List.getElem_map, List.getElem_range]
    have : (i : K) + 1 ≤ n := by exact_mod_cast hi
    have hi0 : (0 : K) ≤ i := Nat.cast_nonneg i
    constructor
    · exact div_pos (by linarith) h2n
    · rw [div_lt_one h2n]; linarith
  · intro i hi
    simp only [stripes, List.getElem_map, List.getElem_range]
    field_simp
    ring
  · intro i j hi hj hij
    simp only [stripes, List.getElem_map, List.getElem_range]
    have : (i : K) < j := by exact_mod_cast hij
    exact (div_lt_div_iff_of_pos_right h2n).mpr (by linarith)

/-- Non-vacuity of C113. -/
example : stripes (1 : ℚ) 4 2 = [(1, 2, 1 / 4), (3, 2, 3 / 4)] := by decide +kernel

end Props
end RMT
