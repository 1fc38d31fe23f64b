import Verif.Model.Objects
import Verif.Props.Pipeline
import Verif.Props.Plots
import Verif.Props.Helpers
import Verif.Props.TrimInvariance
import Verif.Lemmas.Sort
import Verif.Spec.Correlation

/-! # Properties C126 - C130: further methods of the public objects -/

namespace RMT
namespace Props
open EigValsM Step Trim Smooth Unfold Report Plots Objects Spec

/-! ## C126: `obj.step_function` -/

section order
variable {α : Type} [LinearOrder α]

theorem countLE_perm {l l' : List α} (h : l.Perm l') (q : α) : countLE l q = countLE l' q := h.countP_eq _

/-- **C126 (objects).** For an `Eigenvalues` or `Trimmed` object constructed from a non-empty array `l` in any order, and ascending queries, `obj.step_function(x)` is the number of entries of `l` up to each query, unless the last query is the
least entry of `l`, in which case it is zero everywhere. -/
theorem C126_objects_partial (l x : List α) (hl : l ≠ []) (hx : x ≠ []) (hxs : Ascending x) (o : Obj α) (ho : initEigVals1d l = .ok o) :
    (¬ Spec.IsMin l (x.getLast hx) → stepFunctionOf o x = .ok (x.map (countLE l))) ∧
    (Spec.IsMin l (x.getLast hx) → stepFunctionOf o x = .ok (List.replicate x.length 0)) := by
  rw [initEigVals1d_ok] at ho
  cases ho
  have hne : npSort l ≠ [] := by
    intro h
    have := (npSort_perm l).length_eq
    rw [h] at this
    exact hl (List.length_eq_zero_iff.mp this.symm)
  have hmin : Spec.IsMin l ((npSort l).head hne) := by
    refine ⟨(npSort_perm l).mem_iff.mp (List.head_mem hne), fun y hy => ?_⟩
    have hy' : y ∈ npSort l := (npSort_perm l).mem_iff.mpr hy
    have hasc := npSort_ascending l
    generalize npSort l = m at hne hy' hasc
    match m, hne, hy', hasc with
    | a :: t, _, hy', hasc =>
      rcases List.mem_cons.mp hy' with rfl | h
      · exact le_refl _
      · exact (List.pairwise_cons.mp hasc).1 y h
  constructor
  · intro hn
    have h1 : x.getLast hx ≠ (npSort l).head hne := fun h => hn (h ▸ hmin)
    have := (C02_step_counts_partial (npSort l) x hne hx (npSort_ascending l) hxs h1).1
    simp only [stepFunctionOf]
    rw [this]
    congr 1
    exact List.map_congr_left fun q _ => countLE_perm (npSort_perm l) q
  · intro hm
    obtain ⟨ret, h1, h2, h3⟩ := C01_step_array (npSort l) x hne hx (npSort_ascending l)
    simp only [stepFunctionOf]
    rw [h1]
    congr 1
    apply List.ext_getElem (by simpa using h2)
    intro k hk hk'
    rw [h3 k hk, if_pos (hm.2 _ hmin.1), List.getElem_replicate]

end order

section field
variable {K : Type} [Field K] [LinearOrder K]

/-- **C126 (unfolded).** The same for the object returned by `Eigenvalues.unfold`, with its unfolded values. -/
theorem C126_unfolded_partial (F : Fitters K) (goe poisson : List K → List K) (hg : ∀ l, (goe l).length = l.length) (hp : ∀ l, (poisson l).length = l.length)
    (kind : Option MatrixKind) (vals : List K) (smoother degree ss : PyVal) (detrend : Bool) (r : Unfolded K)
    (h : unfold F goe poisson kind vals smoother degree ss detrend = .ok r) (hv : vals ≠ []) (x : List K) (hx : x ≠ []) (hxs : Ascending x)
    (hn : ¬ Spec.IsMin r.vals (x.getLast hx)) :
    unfoldedStepFunction r x = .ok (x.map (countLE r.vals)) := by
  obtain ⟨h1, h2, -, -⟩ := C54_unfold_ascending F goe poisson hg hp kind vals smoother degree ss detrend r h
  have hne : r.vals ≠ [] := by
    intro h
    rw [h] at h2
    exact hv (List.length_eq_zero_iff.mp h2.symm)
  have := (C126_objects_partial r.vals x hne hx hxs ⟨npSort r.vals, npSort r.vals, none⟩ (initEigVals1d_ok _)).1 hn
  simp only [stepFunctionOf, npSort_of_ascending _ h1] at this
  exact this

end field

/-- **C126 (refuted).** `Trimmed.unfold` returns objects whose `step_function` does not count: a genuine least-squares cubic fit, and a query at which the
count is 2 and the step function of the object gives 1. -/
theorem C126_refuted : ∃ (F : Fitters ℚ) (c : List ℚ) (r : Unfolded ℚ) (q : ℚ),
    F.polyfit (npSort wiggleEigs) (stepsOf 7) 3 = .ok c ∧ IsPolyLS c (npSort wiggleEigs) (stepsOf 7) 3 ∧
    trimmedUnfold F wiggleEigs (.method .polynomial) (.int 3) (.float (7 / 5)) false = .ok r ∧
    ¬ Spec.IsMin r.vals q ∧ countLE r.vals q = 2 ∧ unfoldedStepFunction r [q] = .ok [1] := by
  have h : npSort wiggleEigs = wiggleEigs := npSort_of_ascending _ (by decide +kernel)
  refine ⟨constFitters wiggleCoef, wiggleCoef,
    ⟨npSort wiggleEigs, wiggleVals, .unary fun xs =>
      if false then some (xs.map (polyval wiggleCoef)) else none⟩, 252 / 103, rfl, by rw [h]; exact wiggle_ls, ?_, ?_, ?_, ?_⟩
  · simp [trimmedUnfold, fit, validateArgs, validate, PyVal.asInt, bind, Except.bind, mkUnfolded_eq, h,
      constFitters, wiggleVals]
  · simp only [wiggleVals_eq]
    intro hm
    have := hm.2 (599 / 618) (by simp)
    norm_num at this
  · simp only [wiggleVals_eq]
    decide +kernel
  · simp only [unfoldedStepFunction, wiggleVals_eq]
    decide +kernel

-- C126: an object from unsorted values and queries which are not all below them
example : ¬ Spec.IsMin [(3 : ℚ), 1, 2] ([0, 1, (2 : ℚ)].getLast (by simp)) ∧ [0, 1, (2 : ℚ)].map (countLE [3, 1, 2]) = [0, 1, 2] ∧
    Spec.IsMin [(3 : ℚ), 1, 2] ([0, (1 : ℚ)].getLast (by simp)) := by
  refine ⟨fun h => ?_, by decide +kernel, by simp, by simp⟩
  have := h.2 1 (by simp)
  norm_num at this

/-! ## C127: `Smoother(eigenvalues)` -/

section field
variable {K : Type} [Field K] [LinearOrder K]

omit [Field K] in
/-- **C127 (shapes).** `Smoother(a)` accepts an array exactly if its first dimension is the number of its entries (so `(n,)`, `(n, 1)`, and any array without entries whose first dimension is 0), and keeps its entries in ascending order; it raises `ValueError` for
every other shape and `TypeError` for a number. -/
theorem C127_shapes (a : NDArr K) (hwf : a.WF) :
    (a.shape = [] → initSmoother a = .error .typeError) ∧
    (∀ d ds, a.shape = d :: ds → d = d * ds.prod → ∃ l, initSmoother a = .ok l ∧ l.Perm a.data ∧ Ascending l) ∧
    (∀ d ds, a.shape = d :: ds → d ≠ d * ds.prod → initSmoother a = .error .valueError) := by
  refine ⟨fun h => by simp [initSmoother, h], fun d ds h he => ⟨npSort a.data, ?_, npSort_perm _, npSort_ascending _⟩, fun d ds h he => ?_⟩
  · have hl : a.data.length = d * ds.prod := by rw [hwf, h, List.prod_cons]
    simp only [initSmoother, h, hl, ← he, ne_eq, not_true_eq_false, if_false]
  · have hl : a.data.length = d * ds.prod := by rw [hwf, h, List.prod_cons]
    simp only [initSmoother, h, hl, if_pos he]

/-- **C127 (fit).** `Smoother(a).fit(...)` is the fit of the values of `a` in ascending order, with each argument in its place (C53 and C55 say what such a fit is). -/
theorem C127_fit (F : Fitters K) (a : NDArr K) (ha : ∃ d ds, a.shape = d :: ds ∧ a.data.length = d) (l : List K) (hp : l.Perm a.data) (hl : Ascending l)
    (smoother degree ss : PyVal) (detrend rc : Bool) :
    smootherFit F a smoother degree ss detrend rc = fit F l smoother degree ss detrend rc := by
  obtain ⟨d, ds, h1, h2⟩ := ha
  simp only [smootherFit, initSmoother, h1, h2, ne_eq, not_true_eq_false, if_false, bind, Except.bind, npSort_unique hp hl]

/-- **C127 (order).** The result of `Smoother(a).fit(...)` - unfolded values, steps and callable, or exception - depends only on which values `a` holds and how often: it is the same for every order of the values, and for
`(n,)` and `(n, 1)` arrays. -/
theorem C127_order (F : Fitters K) (a b : NDArr K) (ha : ∃ d ds, a.shape = d :: ds ∧ a.data.length = d) (hb : ∃ d ds, b.shape = d :: ds ∧ b.data.length = d)
    (hp : a.data.Perm b.data) (smoother degree ss : PyVal) (detrend rc : Bool) :
    smootherFit F a smoother degree ss detrend rc = smootherFit F b smoother degree ss detrend rc := by
  obtain ⟨d, ds, h1, h2⟩ := ha
  obtain ⟨d', ds', h1', h2'⟩ := hb
  simp only [smootherFit, initSmoother, h1, h1', h2, h2', ne_eq, not_true_eq_false, if_false, bind, Except.bind, npSort_eq_of_perm hp]

end field

example : (⟨[3, 1], [5, 1, 2]⟩ : NDArr ℚ).WF ∧ (3 : Nat) = 3 * [1].prod ∧ ([5, 1, (2 : ℚ)]).Perm [1, 2, 5] ∧
    (⟨[2, 2], [1, 2, 3, 4]⟩ : NDArr ℚ).WF ∧ (2 : Nat) ≠ 2 * [2].prod :=
  ⟨rfl, rfl, by decide, rfl, by decide⟩

/-! ## C128: the console output of `plot_trim_steps` -/

section field
variable {K : Type} [Field K] [LinearOrder K]

/-- **C128 (output).** If no iteration is empty, `plot_trim_steps(log_info=True)` prints one line for each iteration, in their order, with its number, the percentage removed, the first and last index of its values and the trimmed means (C103) of the means and variances of the spacings and of the squared errors of its unfoldings, then the legend, and then draws (or raises) exactly as with
`log_info=False`, which prints nothing. -/
theorem C128_log (its : List (Iter K × List (Col K))) (hne : its ≠ []) (hits : ∀ p ∈ its, p.1.eigs ≠ []) (width : Nat) :
    ∃ lines : List (IterSummary K), (plotTrimSteps its width true).1 = lines.map .line ++ [.legend] ∧ lines.length = its.length ∧
      (∀ j (h : j < lines.length) (h' : j < its.length), lines[j].id = its[j].1.id ∧ lines[j].percent = percentRemoved its[j].1 ∧
        its[j].1.trimIndices = .ok (lines[j].start, lines[j].stop) ∧ lines[j].mean = trimMean (its[j].2.map fun c => Spec.avg c.spacings) ∧
        lines[j].var = trimMean (its[j].2.map fun c => Spec.sampleVar c.spacings) ∧ lines[j].msqe = trimMean (its[j].2.map fun c => c.msqe)) ∧
      (plotTrimSteps its width true).2 = (plotTrimSteps its width false).2 ∧ (plotTrimSteps its width false).1 = [] := by
  have hsum : ∀ p ∈ its, ∃ s, iterSummary p.1 p.2 = .ok s ∧ s.id = p.1.id ∧ s.percent = percentRemoved p.1 ∧ p.1.trimIndices = .ok (s.start, s.stop) ∧ s.mean = trimMean (p.2.map fun c => Spec.avg c.spacings) ∧
      s.var = trimMean (p.2.map fun c => Spec.sampleVar c.spacings) ∧ s.msqe = trimMean (p.2.map fun c => c.msqe) := by
    intro p hp
    have hpos : 0 < p.1.eigs.length := List.length_pos_iff.mpr (hits p hp)
    have ht : ∃ se, p.1.trimIndices = .ok se := by
      simp only [Iter.trimIndices, pyGet_zero _ hpos, pyGet_neg_one _ hpos, bind, Except.bind, pure, Except.pure]
      exact ⟨_, rfl⟩
    obtain ⟨se, hse⟩ := ht
    simp only [iterSummary, hse, bind, Except.bind, pure, Except.pure]
    exact ⟨_, rfl, rfl, rfl, rfl, rfl, rfl, rfl⟩
  have key : ∀ l : List (Iter K × List (Col K)), (∀ p ∈ l, p ∈ its) → ∃ lines : List (IterSummary K), printLines l = (lines.map .line, .ok ()) ∧ lines.length = l.length ∧
      ∀ j (h : j < lines.length) (h' : j < l.length), lines[j].id = l[j].1.id ∧ lines[j].percent = percentRemoved l[j].1 ∧
        l[j].1.trimIndices = .ok (lines[j].start, lines[j].stop) ∧ lines[j].mean = trimMean (l[j].2.map fun c => Spec.avg c.spacings) ∧
        lines[j].var = trimMean (l[j].2.map fun c => Spec.sampleVar c.spacings) ∧ lines[j].msqe = trimMean (l[j].2.map fun c => c.msqe) := by
    intro l
    induction l with
    | nil => exact fun _ => ⟨[], rfl, rfl, fun j h => absurd h (by simp)⟩
    | cons p ps ih =>
      intro hl
      obtain ⟨lines, h1, h2, h3⟩ := ih fun q hq => hl q (by simp [hq])
      obtain ⟨s, hs, hs'⟩ := hsum p (hl p (by simp))
      refine ⟨s :: lines, by simp [printLines, hs, h1], by simp [h2], ?_⟩
      intro j h h'
      cases j with
      | zero => exact hs'
      | succ j => exact h3 j (by simpa using h) (by simpa using h')
  obtain ⟨lines, h1, h2, h3⟩ := key its fun p hp => hp
  refine ⟨lines, ?_, h2, h3, ?_, by simp [plotTrimSteps]⟩
  · match its, hne, hsum, h1 with
    | p :: ps, _, hsum, h1 =>
      obtain ⟨s, hs, -⟩ := hsum p (by simp)
      simp [plotTrimSteps, h1, hs]
  · match its, hne, hsum, h1 with
    | p :: ps, _, hsum, h1 =>
      obtain ⟨s, hs, -⟩ := hsum p (by simp)
      simp [plotTrimSteps, h1, hs]

end field

-- C128: two iterations
example : ∀ p ∈ ([(⟨0, [1, 2, 9], [1, 2, 9], [false, false, true]⟩, []), (⟨1, [1, 2, 9], [1, 2], [false, false]⟩, [])] : List (Iter ℚ × List (Col ℚ))), p.1.eigs ≠ [] := by
  simp

/-! ## C129: the fits of a discarded trim -/

section field
variable {K : Type} [Field K] [LinearOrder K]

theorem trimLoopFit_ok (hbos : List K → List Bool) (F : Fitters K) (a : FitArgs) (maxTrim : ℚ) (n : Nat) (last : Iter K) (l : List (Iter K × List (Col K)))
    (h : trimLoopFit hbos F a maxTrim n last = .ok l) :
    trimLoop hbos maxTrim n last = .ok (l.map (·.1)) ∧ ∀ p ∈ l, fitAll F (npSort p.1.eigs) a = .ok p.2 := by
  induction n generalizing last l with
  | zero =>
    simp only [trimLoopFit, Except.ok.injEq] at h
    subst h
    exact ⟨rfl, by simp⟩
  | succ n ih =>
    simp only [trimLoopFit, mkIterFit, bind, Except.bind, pure, Except.pure] at h
    simp only [trimLoop, Iter.nextIter, bind, Except.bind, pure, Except.pure]
    rcases hm : mkIter hbos last.origs last.inliers with e | t
    · simp [hm] at h
    · have he : t.eigs = last.inliers := by
        simp only [mkIter, bind, Except.bind, pure, Except.pure] at hm
        split at hm
        · cases hm
        · cases hm; rfl
      simp only [hm] at h
      rcases hf : fitAll F (npSort last.inliers) a with e | cols
      · simp [hf] at h
      · simp only [hf] at h
        split_ifs at h with h1 h2
        · cases h
          simp [h1]
        · cases h
          simp only [h1, h2, if_false, if_true, List.map_cons, List.map_nil, List.mem_singleton, forall_eq, true_and]
          rw [← he] at hf
          exact hf
        · rcases hr : trimLoopFit hbos F a maxTrim n { t with id := last.id + 1 } with e | l'
          · simp [hr] at h
          · simp only [hr, Except.ok.injEq] at h
            subst h
            obtain ⟨g1, g2⟩ := ih _ _ hr
            simp only [h1, h2, if_false, g1, List.map_cons, List.mem_cons, forall_eq_or_imp]
            refine ⟨rfl, ?_, g2⟩
            rw [← he] at hf
            exact hf

theorem mapPy_fit_ok {β γ : Type} (f : β → Py γ) (l : List (β × γ)) (h : ∀ p ∈ l, f p.1 = .ok p.2) : mapPy f (l.map (·.1)) = .ok (l.map (·.2)) := by
  induction l with
  | nil => rfl
  | cons p l ih =>
    simp only [List.map_cons, mapPy, h p (by simp), ih fun q hq => h q (by simp [hq])]

/-- **C129 (reports).** A report that is returned is the one determined by its trim iterations: `TrimReport(...)` fits every smoother to each iteration when it is made, and if this raises no exception, the result is what fitting the kept iterations
afterwards gives. -/
theorem C129_report (hbos : List K → List Bool) (F : Fitters K) (vals : List K) (maxTrim : ℚ) (maxIters : Nat) (a : FitArgs) (r : TrimReport K)
    (h : mkReportFit hbos F vals maxTrim maxIters a = .ok r) : mkReport hbos F vals maxTrim maxIters a = .ok r := by
  simp only [mkReportFit, mkIterFit, bind, Except.bind, pure, Except.pure] at h
  rcases hm : mkIter hbos (npSort vals) (npSort vals) with e | t0
  · simp [hm] at h
  · simp only [hm] at h
    have he : t0.eigs = npSort vals := by
      simp only [mkIter, bind, Except.bind, pure, Except.pure] at hm
      split at hm
      · cases hm
      · cases hm; rfl
    rcases hf : fitAll F (npSort (npSort vals)) a with e | c0
    · simp [hf] at h
    · simp only [hf] at h
      rcases hr : trimLoopFit hbos F a maxTrim maxIters t0 with e | rest
      · simp [hr] at h
      · simp only [hr] at h
        obtain ⟨g1, g2⟩ := trimLoopFit_ok hbos F a maxTrim maxIters t0 rest hr
        have hall : ∀ p ∈ (t0, c0) :: rest, fitAll F (npSort p.1.eigs) a = .ok p.2 := by
          intro p hp
          rcases List.mem_cons.mp hp with rfl | hp
          · rw [he]; exact hf
          · exact g2 p hp
        have hfits := mapPy_fit_ok (fun t : Iter K => fitAll F (npSort t.eigs) a) ((t0, c0) :: rest) hall
        simp only [mkReport, trimIters, bind, Except.bind, pure, Except.pure, hm, g1]
        simp only [List.map_cons] at hfits
        simp only [hfits]
        have hz : (t0 :: rest.map (·.1)).zip (c0 :: rest.map (·.2)) = (t0, c0) :: rest := by
          rw [List.zip_cons_cons]
          congr 1
          clear hr g1 g2 hall hfits h
          induction rest with
          | nil => rfl
          | cons p rest ih => simp [ih]
        rw [hz]
        exact h

/-- If no fit of a block raises, the order of fitting does not matter. -/
theorem trimLoopFit_total (hbos : List K → List Bool) (hlen : ∀ l, (hbos l).length = l.length) (F : Fitters K) (a : FitArgs) (all : List K) (hasc : Ascending all)
    (hF : ∀ block, block ≠ [] → block <:+: all → ∃ c, fitAll F block a = .ok c) (maxTrim : ℚ) (n : Nat) (last : Iter K) (hg : Good hbos last) (hb : last.eigs <:+: all) :
    ∃ l', trimLoopFit hbos F a maxTrim n last = .ok l' := by
  induction n generalizing last with
  | zero => exact ⟨[], rfl⟩
  | succ n ih =>
    obtain ⟨lo, keep, hi, hk, -, hs, hin, -⟩ := inliers_block hbos hlen last hg
    have hne : last.inliers ≠ [] := by
      rw [hin]
      intro h
      have := congrArg List.length h
      simp at this
      omega
    have hinf : last.inliers <:+: all := by
      rw [hin]
      exact ((List.take_prefix _ _).isInfix.trans (List.drop_suffix _ _).isInfix).trans hb
    have hia : Ascending last.inliers := hasc.sublist hinf.sublist
    obtain ⟨c, hc⟩ := hF _ hne hinf
    rw [← npSort_of_ascending _ hia] at hc
    obtain ⟨t, h1, h2, h3, h4, h5⟩ := mkIter_ok hbos hlen last.origs last.inliers hne
    simp only [trimLoopFit, mkIterFit, bind, Except.bind, pure, Except.pure, h1, hc]
    split_ifs
    · exact ⟨_, rfl⟩
    · exact ⟨_, rfl⟩
    · obtain ⟨l', hl'⟩ := ih { t with id := last.id + 1 } ⟨h5.ne, h5.labels⟩ (by rw [← h4] at hinf; exact hinf)
      simp only [hl']
      exact ⟨_, rfl⟩

/-- **C129 (partial: no failing fit).** If the fits raise no exception for any contiguous block of the sorted values, the constructor returns, and it returns the report of the kept iterations (and by `C30_defined` there is one, for a boolean `gompertz` and distinct smoothers). -/
theorem C129_total_partial (hbos : List K → List Bool) (hlen : ∀ l, (hbos l).length = l.length) (F : Fitters K) (vals : List K) (hne : vals ≠ []) (maxTrim : ℚ) (maxIters : Nat) (a : FitArgs)
    (hF : ∀ block, block ≠ [] → block <:+: npSort vals → ∃ c, fitAll F block a = .ok c) :
    mkReportFit hbos F vals maxTrim maxIters a = mkReport hbos F vals maxTrim maxIters a := by
  have hsne : npSort vals ≠ [] := by
    intro h
    have := (npSort_perm vals).length_eq
    rw [h] at this
    exact hne (List.length_eq_zero_iff.mp this.symm)
  obtain ⟨c, hc⟩ := hF (npSort vals) hsne (List.infix_refl _)
  obtain ⟨t0, hm, h2, h3, h4, h5⟩ := mkIter_ok hbos hlen (npSort vals) (npSort vals) hsne
  obtain ⟨l', hl'⟩ := trimLoopFit_total hbos hlen F a (npSort vals) (npSort_ascending _) hF maxTrim maxIters t0 h5 (by rw [h4])
  obtain ⟨g1, g2⟩ := trimLoopFit_ok hbos F a maxTrim maxIters t0 l' hl'
  have hall : ∀ p ∈ (t0, c) :: l', fitAll F (npSort p.1.eigs) a = .ok p.2 := by
    intro p hp
    rcases List.mem_cons.mp hp with rfl | hp
    · rw [h4, npSort_of_ascending _ (npSort_ascending _)]; exact hc
    · exact g2 p hp
  have hfits := mapPy_fit_ok (fun t : Iter K => fitAll F (npSort t.eigs) a) ((t0, c) :: l') hall
  simp only [List.map_cons] at hfits
  have hz : (t0 :: l'.map (·.1)).zip (c :: l'.map (·.2)) = (t0, c) :: l' := by
    rw [List.zip_cons_cons]
    congr 1
    clear hl' g1 g2 hall hfits
    induction l' with
    | nil => rfl
    | cons p rest ih => simp [ih]
  simp only [mkReportFit, mkIterFit, mkReport, trimIters, bind, Except.bind, pure, Except.pure, hm, npSort_of_ascending _ (npSort_ascending vals), hc, hl', g1, hfits, hz,
    List.map_cons]

end field

/-- Fitters whose splines need more points than their degree, as scipy's do. -/
def splineFitters : Fitters ℚ where
  polyfit := fun _ _ _ => .ok []
  spline := fun x _ k _ => if (x.length : Int) ≤ k then .error .valueError else .ok id
  fitExp := fun _ _ => .error .runtimeError
  fitGompertz := fun _ _ => .error .runtimeError
  exp := id
  pow := fun _ q => q
  trend := id

/-- A detector which flags the last of four values. -/
def flagFourth (l : List ℚ) : List Bool := l.mapIdx fun i _ => decide (i = 3)

/-- **C129 (refuted).** A discarded trim can make the call fail: with four values, cubic splines and `max_trim=0.2`, the only candidate for a further iteration has three values and removes too much; the report of the kept iteration
exists, but the constructor raises because the cubic spline cannot be fitted to the three values. -/
theorem C129_refuted : ∃ (r : TrimReport ℚ) (a : FitArgs), a = ⟨[], .list [1], [3], .pyFalse, false⟩ ∧
    mkReport flagFourth splineFitters [1, 2, 3, 9] (1 / 5) 7 a = .ok r ∧ r.iters.length = 1 ∧
    mkReportFit flagFourth splineFitters [1, 2, 3, 9] (1 / 5) 7 a = .error .valueError := by
  have hs : npSort [(1 : ℚ), 2, 3, 9] = [1, 2, 3, 9] := npSort_of_ascending _ (by decide)
  have hs3 : npSort [(1 : ℚ), 2, 3] = [1, 2, 3] := npSort_of_ascending _ (by decide)
  have h0 : outlierLabels (flagFourth [(1 : ℚ), 2, 3, 9]) = .ok [false, false, false, true] := by
    have e : flagFourth [(1 : ℚ), 2, 3, 9] = [false, false, false, true] := by decide
    have h : Utils.findLast [false, false, false, true] false = 2 := by decide +kernel
    have c : clearRange [false, false, false, true] 0 2 = [false, false, false, true] := by
      rw [clearRange, if_pos (by decide), clearRange, if_pos (by decide), clearRange, if_neg (by decide)]
      decide
    rw [e]
    simp [outlierLabels, clearAfterPrefix, clearBeforeSuffix, clearIfInterior, pyGet, pyIdx, bind, Except.bind, pure, Except.pure, h, c]
  have h1 : outlierLabels (flagFourth [(1 : ℚ), 2, 3]) = .ok [false, false, false] := by
    have e : flagFourth [(1 : ℚ), 2, 3] = [false, false, false] := by decide
    rw [e]
    simp [outlierLabels, clearAfterPrefix, clearBeforeSuffix, clearIfInterior, pyGet, pyIdx, bind, Except.bind, pure, Except.pure]
  have m0 : mkIter flagFourth [(1 : ℚ), 2, 3, 9] [1, 2, 3, 9] = .ok ⟨0, [1, 2, 3, 9], [1, 2, 3, 9], [false, false, false, true]⟩ := by
    simp [mkIter, h0, bind, Except.bind, pure, Except.pure]
  have m1 : mkIter flagFourth [(1 : ℚ), 2, 3, 9] [1, 2, 3] = .ok ⟨0, [1, 2, 3, 9], [1, 2, 3], [false, false, false]⟩ := by
    simp [mkIter, h1, bind, Except.bind, pure, Except.pure]
  have hin : (⟨0, [1, 2, 3, 9], [1, 2, 3, 9], [false, false, false, true]⟩ : Iter ℚ).inliers = [1, 2, 3] := by decide
  have f0 : ∃ c, fitAll splineFitters [(1 : ℚ), 2, 3, 9] ⟨[], .list [1], [3], .pyFalse, false⟩ = .ok [c] := by
    simp [fitAll, fitCalls, mapPy, fitOne, fit, validateArgs, validate, PyVal.asInt, PyVal.floatConv, splineFitters, Flag.truthy, bind, Except.bind]
  have f1 : fitAll splineFitters [(1 : ℚ), 2, 3] ⟨[], .list [1], [3], .pyFalse, false⟩ = .error .valueError := by
    simp [fitAll, fitCalls, mapPy, fitOne, fit, validateArgs, validate, PyVal.asInt, PyVal.floatConv, splineFitters, Flag.truthy, bind, Except.bind]
  obtain ⟨c, f0⟩ := f0
  have hr : ∃ r : TrimReport ℚ, mkReport flagFourth splineFitters [1, 2, 3, 9] (1 / 5) 7 ⟨[], .list [1], [3], .pyFalse, false⟩ = .ok r ∧ r.iters.length = 1 := by
    have ht : trimIters flagFourth [(1 : ℚ), 2, 3, 9] (1 / 5) 7 = .ok [⟨0, [1, 2, 3, 9], [1, 2, 3, 9], [false, false, false, true]⟩] := by
      simp only [trimIters, hs, m0, trimLoop, Iter.nextIter, hin, m1, bind, Except.bind, pure, Except.pure]
      norm_num [Iter.proportionRemoved]
    simp only [mkReport, ht, bind, Except.bind, mapPy, hs, f0, List.zip_cons_cons, List.zip_nil_right]
    have hw : ∀ (row : List ℚ) k v, k < row.length → writeCell row k v = .ok (row.set k v) := by
      intro row k v h; simp [writeCell, h]
    have hrow : ∀ t : Iter ℚ, t.eigs ≠ [] → ∃ row, summaryRow ((smootherNames ⟨[], .list [1], [3], .pyFalse, false⟩).length * 4 + 3) t [c] = .ok row := by
      intro t ht
      have hpos : 0 < t.eigs.length := List.length_pos_iff.mpr ht
      simp only [summaryRow, bind, Except.bind, lowerPercentRemoved, upperPercentRemoved, Iter.lowerTrimLength, Iter.upperTrimLength,
        pyGet_zero _ hpos, pyGet_neg_one _ hpos, pure, Except.pure]
      rw [hw _ _ _ (by simp)]
      simp only
      rw [hw _ _ _ (by simp)]
      simp only
      rw [hw _ _ _ (by simp)]
      exact fillCols_isOk _ 0 _ _ (by simp [smootherNames, Flag.isTrue]) (by simp)
    obtain ⟨row, hrow⟩ := hrow ⟨0, [1, 2, 3, 9], [1, 2, 3, 9], [false, false, false, true]⟩ (by simp)
    simp only [hrow]
    exact ⟨_, rfl, rfl⟩
  obtain ⟨r, hr1, hr2⟩ := hr
  refine ⟨r, _, rfl, hr1, hr2, ?_⟩
  simp only [mkReportFit, mkIterFit, hs, m0, f0, trimLoopFit, hin, m1, hs3, f1, bind, Except.bind, pure, Except.pure]

-- C129: fits which never raise, on the blocks of a spectrum of four values
example : ∀ block, block ≠ [] → block <:+: npSort [(1 : ℚ), 2, 3, 9] → ∃ c, fitAll lsFitters block cubicOnly = .ok c := by
  intro block _ hb
  rw [npSort_of_ascending [(1 : ℚ), 2, 3, 9] (by decide)] at hb
  exact cubic_fits block (List.Nodup.sublist hb.sublist (by decide)) (by simpa using hb.length_le)

/-! ## C130: `fast_r` -/

theorem sum_sq_dev_ofFn (n : ℕ) (hn : 2 ≤ n) (x : Fin n → ℝ) :
    Helpers.variance (List.ofFn x) = .ok ((∑ i, (x i - (∑ j, x j) / n) ^ 2) / ((n : ℝ) - 1)) ∧
    (n : ℝ) * ∑ i, x i ^ 2 - (∑ i, x i) ^ 2 = n * ∑ i, (x i - (∑ j, x j) / n) ^ 2 := by
  have hn0 : (n : ℝ) ≠ 0 := by positivity
  constructor
  · rw [Helpers.variance, if_neg (by simp; omega)]
    simp only [RMT.mean, List.length_ofFn, List.sum_ofFn, List.map_ofFn, Function.comp_def]
    congr 1
    ring
  · have h : ∀ i, (x i - (∑ j, x j) / n) ^ 2 = x i ^ 2 - 2 * ((∑ j, x j) / n) * x i + ((∑ j, x j) / n) ^ 2 := fun i => by ring
    simp only [h, Finset.sum_add_distrib, Finset.sum_sub_distrib, ← Finset.mul_sum, Finset.sum_const, Finset.card_univ, Fintype.card_fin, nsmul_eq_mul]
    field_simp
    ring

theorem sum_sq_dev_pos (n : ℕ) (x : Fin n → ℝ) (m : ℝ) (hx : NonConstant x) : 0 < ∑ i, (x i - m) ^ 2 := by
  obtain ⟨s, t, hst⟩ := hx
  have : ∃ k, x k ≠ m := by
    by_contra hc
    push Not at hc
    exact hst ((hc s).trans (hc t).symm)
  obtain ⟨k, hk⟩ := this
  exact Finset.sum_pos' (fun i _ => sq_nonneg _) ⟨k, Finset.mem_univ _, by have := sub_ne_zero.mpr hk; positivity⟩

/-- **C130 (refuted).** For series of equal length which are not constant, `fast_r` as written gives an array, not a number: its entries are the entrywise products minus `n` times the product of the means, over the right denominator. The sum over the
products is missing; the sum of the entries differs from Pearson's correlation by `n` times the product of the means over the product of the standard deviations, so it is the correlation only if one of the means is zero. -/
theorem C130_refuted (n : ℕ) (hn : 2 ≤ n) (x y : Fin n → ℝ) (hx : NonConstant x) (hy : NonConstant y) :
    ∃ (l : List ℝ) (sx sy : ℝ), fastR (List.ofFn x) (List.ofFn y) = .ok (.array l) ∧ l.length = n ∧ 0 < sx ∧ 0 < sy ∧
      l.sum = pearson x y - n * ((∑ i, x i) / n) * ((∑ i, y i) / n) / (sx * sy) ∧
      (l.sum = pearson x y ↔ ∑ i, x i = 0 ∨ ∑ i, y i = 0) := by
  have hn0 : (0 : ℝ) < n := by positivity
  have hn1 : (0 : ℝ) < (n : ℝ) - 1 := by
    have : (2 : ℝ) ≤ n := by exact_mod_cast hn
    linarith
  obtain ⟨vx, ex⟩ := sum_sq_dev_ofFn n hn x
  obtain ⟨vy, ey⟩ := sum_sq_dev_ofFn n hn y
  have px := sum_sq_dev_pos n x ((∑ j, x j) / n) hx
  have py := sum_sq_dev_pos n y ((∑ j, y j) / n) hy
  set qx := ∑ i, (x i - (∑ j, x j) / n) ^ 2 with hqx
  set qy := ∑ i, (y i - (∑ j, y j) / n) ^ 2 with hqy
  have sx : 0 < Real.sqrt (qx / ((n : ℝ) - 1)) := Real.sqrt_pos.mpr (by positivity)
  have sy : 0 < Real.sqrt (qy / ((n : ℝ) - 1)) := Real.sqrt_pos.mpr (by positivity)
  set a := Real.sqrt (qx / ((n : ℝ) - 1)) with ha
  set b := Real.sqrt (qy / ((n : ℝ) - 1)) with hb
  have hd : ((n : ℝ) - 1) * a * b ≠ 0 := by positivity
  have hp : pearson x y = (∑ i, x i * y i - (∑ i, x i) * (∑ i, y i) / n) / (((n : ℝ) - 1) * a * b) := by
    have e1 : Real.sqrt (n * ∑ t, x t ^ 2 - (∑ t, x t) ^ 2) = Real.sqrt (n * ((n : ℝ) - 1)) * a := by
      rw [ex, ha, ← Real.sqrt_mul (by positivity)]
      congr 1
      field_simp
    have e2 : Real.sqrt (n * ∑ t, y t ^ 2 - (∑ t, y t) ^ 2) = Real.sqrt (n * ((n : ℝ) - 1)) * b := by
      rw [ey, hb, ← Real.sqrt_mul (by positivity)]
      congr 1
      field_simp
    have e3 : Real.sqrt (n * ((n : ℝ) - 1)) * a * (Real.sqrt (n * ((n : ℝ) - 1)) * b) = n * ((n : ℝ) - 1) * a * b := by
      have := Real.mul_self_sqrt (show (0 : ℝ) ≤ n * ((n : ℝ) - 1) by positivity)
      calc _ = (Real.sqrt (n * ((n : ℝ) - 1)) * Real.sqrt (n * ((n : ℝ) - 1))) * a * b := by ring
        _ = _ := by rw [this]
    rw [pearson, e1, e2, e3]
    field_simp
  have hz : List.zipWith (· * ·) (List.ofFn x) (List.ofFn y) = List.ofFn fun i => x i * y i := by
    apply List.ext_getElem (by simp)
    intro k h1 h2
    simp
  refine ⟨List.ofFn fun i => (x i * y i - n * ((∑ j, x j) / n) * ((∑ j, y j) / n)) / (((n : ℝ) - 1) * a * b), a, b, ?_, by simp, sx, sy, ?_⟩
  · simp only [fastR, vx, vy, bind, Except.bind, List.length_ofFn, ← ha, ← hb, if_neg hd, pure, Except.pure, hz, List.map_ofFn, RMT.mean, List.sum_ofFn]
    rfl
  · have hsum : (List.ofFn fun i => (x i * y i - n * ((∑ j, x j) / n) * ((∑ j, y j) / n)) / (((n : ℝ) - 1) * a * b)).sum =
        pearson x y - n * ((∑ i, x i) / n) * ((∑ i, y i) / n) / (a * b) := by
      rw [List.sum_ofFn, hp, ← Finset.sum_div, Finset.sum_sub_distrib, Finset.sum_const, Finset.card_univ, Fintype.card_fin, nsmul_eq_mul]
      field_simp
      ring
    refine ⟨hsum, ?_⟩
    rw [hsum, sub_eq_self, div_eq_zero_iff]
    have hab : a * b ≠ 0 := by positivity
    simp [hab, hn0.ne', mul_eq_zero, div_eq_zero_iff]

/-- **C130 (partial).** If one of the series is constant, `fast_r` gives zero; for series of one value it raises. -/
theorem C130_constant_partial (x y : List ℝ) (hl : x.length = y.length) (hn : 2 ≤ x.length) (hc : (∀ a ∈ x, ∀ b ∈ x, a = b) ∨ (∀ a ∈ y, ∀ b ∈ y, a = b)) :
    fastR x y = .ok (.num 0) := by
  have hmean : ∀ (l : List ℝ) (c : ℝ), l ≠ [] → (∀ a ∈ l, a = c) → RMT.mean l = c := by
    intro l c hne hc
    have hl : (l.length : ℝ) ≠ 0 := by
      have := List.length_pos_iff.mpr hne
      positivity
    have : l.sum = l.length * c := by
      rw [← nsmul_eq_mul]
      exact List.sum_eq_card_nsmul l c hc
    rw [RMT.mean, this]
    field_simp
  have hvar : ∀ l : List ℝ, 2 ≤ l.length → (∀ a ∈ l, ∀ b ∈ l, a = b) → Helpers.variance l = .ok 0 := by
    intro l h2 hc
    have hne : l ≠ [] := by rintro rfl; simp at h2
    rw [Helpers.variance, if_neg (by omega)]
    have hm := hmean l (l.head hne) hne fun a ha => hc a ha _ (List.head_mem hne)
    have : ((l.map (· - RMT.mean l)).map (· ^ 2)).sum = 0 := by
      apply List.sum_eq_zero
      intro v hv
      simp only [List.map_map, List.mem_map, Function.comp_apply] at hv
      obtain ⟨u, hu, rfl⟩ := hv
      rw [hm, hc u hu _ (List.head_mem hne)]
      simp
    simp only [this, mul_zero]
  have hok : ∀ l : List ℝ, 2 ≤ l.length → ∃ v, Helpers.variance l = .ok v := by
    intro l h2
    rw [Helpers.variance, if_neg (by omega)]
    exact ⟨_, rfl⟩
  rcases hc with hc | hc
  · obtain ⟨v, hv⟩ := hok y (by omega)
    simp [fastR, hvar x hn hc, hv, bind, Except.bind, pure, Except.pure]
  · obtain ⟨v, hv⟩ := hok x hn
    simp [fastR, hvar y (by omega) hc, hv, bind, Except.bind, pure, Except.pure]

example : NonConstant (![1, 2] : Fin 2 → ℝ) := ⟨0, 1, by norm_num⟩

end Props
end RMT
