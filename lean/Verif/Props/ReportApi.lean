import Verif.Model.ReportApi
import Verif.Props.AutoUnfold
import Verif.Props.Trim

/-!
# Properties C119, C120: `prioritize_smoother`, and the unfoldings of a report
-/

namespace RMT
namespace Props
open Smooth Trim Report Unfold EigValsM Spec ReportApi

section unfoldings
variable {K : Type} [Field K] [LinearOrder K]

omit [Field K] in
theorem use_eq (iters : List (Iter K)) (i : Nat) (hi : i < iters.length) : useTrimIteration iters i = .ok (npSort iters[i].eigs) := by
  unfold useTrimIteration
  rw [if_neg (by omega)]
  simp [pyGet, pyIdx, hi, bind, Except.bind, initEigVals1d_ok, pure, Except.pure]

theorem mapPy_mem {α β : Type} (f : α → Py β) (l : List α) (r : List β) (h : mapPy f l = .ok r) (a : α) (ha : a ∈ l) : ∃ b ∈ r, f a = .ok b := by
  obtain ⟨h1, h2⟩ := mapPy_ok f l r h
  obtain ⟨i, hi, rfl⟩ := List.mem_iff_getElem.mp ha
  exact ⟨r[i], List.getElem_mem _, h2 i hi⟩

omit [LinearOrder K] in
/-- The values computed by `fit` do not depend on `return_callable`. -/
theorem fit_callable (F : Fitters K) (eigs : List K) (sm d ss : PyVal) (detrend : Bool) (q : FitResult K) (h : fit F eigs sm d ss detrend true = .ok q) :
    ∃ q', fit F eigs sm d ss detrend false = .ok q' ∧ q'.unfolded = q.unfolded := by
  simp only [fit, bind, Except.bind] at h ⊢
  rcases hv : validateArgs sm d ss with e | _
  · simp [hv] at h
  · simp only [hv] at h ⊢
    split at h
    · split at h
      · cases h
      · split at h
        · cases h
        · cases h; exact ⟨_, rfl, rfl⟩
    · split at h
      · cases h
      · split at h
        · cases h
        · split at h
          · cases h
          · cases h; exact ⟨_, rfl, rfl⟩
    · split at h
      · cases h
      · cases h; exact ⟨_, rfl, rfl⟩
    · split at h
      · cases h
      · cases h; exact ⟨_, rfl, rfl⟩
    · cases h

theorem report_column (hbos : List K → List Bool) (F : Fitters K) (vals : List K) (maxTrim : ℚ) (maxIters : Nat) (a : FitArgs) (ha : PlainArgs a)
    (r : TrimReport K) (h : mkReport hbos F vals maxTrim maxIters a = .ok r) (i : Nat) (hi : i < r.iters.length) (name : String) (sm d ss : PyVal)
    (hc : (name, sm, d, ss) ∈ fitCalls F (npSort r.iters[i].eigs).length a) :
    ∃ (t : List K) (u : Unfolded K), useTrimIteration r.iters i = .ok t ∧ trimmedUnfold F t sm d ss a.detrend = .ok u ∧ unfoldingColumn r i name = .ok (npSort u.vals) := by
  obtain ⟨-, -, hu, hr, hall⟩ := report_ok hbos F vals maxTrim maxIters a r h
  obtain ⟨c, hcm, hce⟩ := mapPy_mem _ _ _ (hall i hi).1 _ hc
  simp only [fitOne, bind, Except.bind] at hce
  rcases hf : fit F (npSort r.iters[i].eigs) sm d ss a.detrend true with e | q
  · simp [hf] at hce
  simp only [hf] at hce
  obtain ⟨q', h1, h2⟩ := fit_callable F _ sm d ss a.detrend q hf
  refine ⟨npSort r.iters[i].eigs, ⟨npSort (npSort r.iters[i].eigs), q'.unfolded, q'.func⟩, use_eq _ i hi, ?_, ?_⟩
  · simp only [trimmedUnfold, npSort_of_ascending _ (npSort_ascending _), h1, bind, Except.bind, mkUnfolded_eq]
  · obtain ⟨l, hl, -⟩ := ha.listSmooths
    have hcols := C30_names F _ a l hl ha.boolGompertz _ (hall i hi).1
    have hnd : ((r.unfoldings[i]).map (·.name)).Nodup := by rw [hcols]; exact ha.nodup
    obtain ⟨j, hj, rfl⟩ := List.mem_iff_getElem.mp hcm
    have hget := getCol_nodup _ hnd j hj
    have hpu : pyGet r.unfoldings (i : Int) = .ok (r.unfoldings[i]) := by
      have h2 : i < r.unfoldings.length := by omega
      simp [pyGet, pyIdx, h2]
    have e1 : (r.unfoldings[i][j]).name = name := by rw [← Except.ok.inj hce]
    have e2 : (r.unfoldings[i][j]).unfolded = npSort q.unfolded := by rw [← Except.ok.inj hce]
    rw [e1] at hget
    simp only [unfoldingColumn, hpu, hget, bind, Except.bind, e2, h2]

/-- **C120 (polynomials).** The unfoldings stored in a trim report are those obtained by hand: for each trim iteration `i` and each requested degree `d`, `report.use_trim_iteration(i).unfold(Polynomial, degree=d, detrend=…)` succeeds and
`report.unfoldings[i]["poly_d"]` contains its values in ascending order. For every spectrum, detector, fitting routine and trimming limits. -/
theorem C120_polynomial (hbos : ℚ → List K → List Bool) (F : Fitters K) (vals : List K) (maxTrim : ℚ) (maxIters : Nat) (polyDegrees : List Int) (smooths : SmoothsArg) (splineDegrees : List Int) (gompertz : Flag)
    (detrend : Bool) (tol : ℚ) (ha : PlainArgs ⟨polyDegrees, smooths, splineDegrees, gompertz, detrend⟩) (r : TrimReport K)
    (h : trimReport hbos F vals maxTrim maxIters polyDegrees smooths splineDegrees gompertz detrend tol = .ok r) (i : Nat) (hi : i < r.iters.length) (d : Int) (hd : d ∈ polyDegrees) :
    ∃ t u, useTrimIteration r.iters i = .ok t ∧ trimmedUnfold F t (.method .polynomial) (.int d) (.float (7 / 5)) detrend = .ok u ∧
      unfoldingColumn r i ("poly_" ++ Format.pyStrInt d) = .ok (npSort u.vals) := by
  refine report_column (hbos tol) F vals maxTrim maxIters _ ha r h i hi _ _ _ _ ?_
  simp only [fitCalls, List.mem_append]
  left; left
  exact List.mem_map.mpr ⟨d, hd, rfl⟩

/-- **C120 (splines).** The same for each smoothing factor and spline degree. -/
theorem C120_spline (hbos : ℚ → List K → List Bool) (F : Fitters K) (vals : List K) (maxTrim : ℚ) (maxIters : Nat) (polyDegrees : List Int) (smooths : List ℚ) (splineDegrees : List Int) (gompertz : Flag)
    (detrend : Bool) (tol : ℚ) (ha : PlainArgs ⟨polyDegrees, .list smooths, splineDegrees, gompertz, detrend⟩) (r : TrimReport K)
    (h : trimReport hbos F vals maxTrim maxIters polyDegrees (.list smooths) splineDegrees gompertz detrend tol = .ok r) (i : Nat) (hi : i < r.iters.length)
    (d : Int) (hd : d ∈ splineDegrees) (s : ℚ) (hs : s ∈ smooths) :
    ∃ t u, useTrimIteration r.iters i = .ok t ∧ trimmedUnfold F t (.method .spline) (.int d) (.float s) detrend = .ok u ∧
      unfoldingColumn r i (splineCol 3 d s) = .ok (npSort u.vals) := by
  refine report_column (hbos tol) F vals maxTrim maxIters _ ha r h i hi _ _ _ _ ?_
  simp only [fitCalls, List.mem_append]
  left; right
  exact List.mem_flatMap.mpr ⟨s, hs, List.mem_map.mpr ⟨d, hd, rfl⟩⟩

/-- **C120 (Gompertz).** The same for the Gompertz smoother. -/
theorem C120_gompertz (hbos : ℚ → List K → List Bool) (F : Fitters K) (vals : List K) (maxTrim : ℚ) (maxIters : Nat) (polyDegrees : List Int) (smooths : SmoothsArg) (splineDegrees : List Int)
    (detrend : Bool) (tol : ℚ) (ha : PlainArgs ⟨polyDegrees, smooths, splineDegrees, .pyTrue, detrend⟩) (r : TrimReport K)
    (h : trimReport hbos F vals maxTrim maxIters polyDegrees smooths splineDegrees .pyTrue detrend tol = .ok r) (i : Nat) (hi : i < r.iters.length) :
    ∃ t u, useTrimIteration r.iters i = .ok t ∧ trimmedUnfold F t (.method .gompertz) (.int 7) (.float (7 / 5)) detrend = .ok u ∧
      unfoldingColumn r i "gompertz" = .ok (npSort u.vals) := by
  refine report_column (hbos tol) F vals maxTrim maxIters _ ha r h i hi _ _ _ _ ?_
  simp [fitCalls, Flag.truthy]

end unfoldings

/-! ## C119: `prioritize_smoother` -/

/-- Fits whose slopes depend on the number of eigenvalues and the degree. -/
def slopeFits : Fitters ℚ where
  polyfit := fun x _ d => .ok [0, if x.length = 5 then (if d = 3 then 5 else 23) else (if d = 3 then 13 else 7)]
  spline := fun _ _ _ _ => .ok id
  fitExp := fun _ _ => .ok (1, 1)
  fitGompertz := fun _ _ => .ok (1, 1, 1)
  exp := id
  pow := fun _ _ => 1
  trend := fun l => l.map fun _ => 0

/-- A detector which flags the last of five values. -/
def lastOfFive (l : List ℚ) : List Bool := l.zipIdx.map fun p => decide (l.length = 5) && decide (p.2 = 4)

theorem sort12345 : npSort [1, 2, 3, 4, (5 : ℚ)] = [1, 2, 3, 4, 5] := npSort_unique (by decide) (by decide)

theorem labels5 : outlierLabels [false, false, false, false, true] = .ok [false, false, false, false, true] := by
  have h : Utils.findLast [false, false, false, false, true] false = 3 := by decide +kernel
  have c : clearRange [false, false, false, false, true] 0 3 = [false, false, false, false, true] := by
    rw [clearRange, if_pos (by decide), clearRange, if_pos (by decide), clearRange, if_pos (by decide), clearRange, if_neg (by decide)]
    decide
  simp [outlierLabels, clearAfterPrefix, clearBeforeSuffix, clearIfInterior, pyGet, pyIdx, bind, Except.bind, pure, Except.pure, h, c]
theorem labels4 : outlierLabels [false, false, false, false] = .ok [false, false, false, false] := by
  simp [outlierLabels, clearAfterPrefix, clearBeforeSuffix, clearIfInterior, pyGet, pyIdx, bind, Except.bind, pure, Except.pure]

theorem slope_iter0 : mkIter lastOfFive [1, 2, 3, 4, 5] [1, 2, 3, 4, 5] = .ok ⟨0, [1, 2, 3, 4, 5], [1, 2, 3, 4, 5], [false, false, false, false, true]⟩ := by
  have : lastOfFive [1, 2, 3, 4, 5] = [false, false, false, false, true] := by decide
  simp only [mkIter, this, labels5, bind, Except.bind, pure, Except.pure]

theorem slope_iter1 : mkIter lastOfFive [1, 2, 3, 4, 5] [1, 2, 3, 4] = .ok ⟨0, [1, 2, 3, 4, 5], [1, 2, 3, 4], [false, false, false, false]⟩ := by
  have : lastOfFive [1, 2, 3, 4] = [false, false, false, false] := by decide
  simp only [mkIter, this, labels4, bind, Except.bind, pure, Except.pure]

/-- The two trim iterations. -/
def slope0 : Iter ℚ := ⟨0, [1, 2, 3, 4, 5], [1, 2, 3, 4, 5], [false, false, false, false, true]⟩

/-- The second one. -/
def slope1 : Iter ℚ := ⟨1, [1, 2, 3, 4, 5], [1, 2, 3, 4], [false, false, false, false]⟩

theorem slope_iters : trimIters lastOfFive [1, 2, 3, 4, 5] (1 / 2) 1 = .ok [slope0, slope1] := by
  have hin : Iter.inliers (⟨0, [1, 2, 3, 4, 5], [1, 2, 3, 4, 5], [false, false, false, false, true]⟩ : Iter ℚ) = [1, 2, 3, 4] := by decide +kernel
  have hp : ¬ (Iter.proportionRemoved (⟨1, [1, 2, 3, 4, 5], [1, 2, 3, 4], [false, false, false, false]⟩ : Iter ℚ) > 1 / 2) := by decide +kernel
  have hall : Iter.isAllInliers (⟨1, [1, 2, 3, 4, 5], [1, 2, 3, 4], [false, false, false, false]⟩ : Iter ℚ) = true := by decide +kernel
  simp only [trimIters, sort12345, slope_iter0, bind, Except.bind, trimLoop, Iter.nextIter, hin, slope_iter1, pure, Except.pure, zero_add, hp, hall, if_true, if_false, slope0, slope1]

theorem slope_cols0 : ∃ c3 c4 : Col ℚ, fitAll slopeFits [1, 2, 3, 4, 5] twoDegrees = .ok [c3, c4] ∧ c3.name = "poly_3" ∧ c4.name = "poly_4" ∧ |goeScore c3.unfolded| = 1 ∧ |goeScore c4.unfolded| = 10 := by
  refine ⟨_, _, rfl, by decide, by decide, ?_, ?_⟩
  · have : npSort ([1, 2, 3, 4, 5].map (polyval [0, (5 : ℚ)])) = [5, 10, 15, 20, 25] := npSort_unique (by decide +kernel) (by decide +kernel)
    show |goeScore (npSort ([1, 2, 3, 4, 5].map (polyval [0, (5 : ℚ)])))| = 1
    rw [this]
    decide +kernel
  · have : npSort ([1, 2, 3, 4, 5].map (polyval [0, (23 : ℚ)])) = [23, 46, 69, 92, 115] := npSort_unique (by decide +kernel) (by decide +kernel)
    show |goeScore (npSort ([1, 2, 3, 4, 5].map (polyval [0, (23 : ℚ)])))| = 10
    rw [this]
    decide +kernel

theorem slope_cols1 : ∃ c3 c4 : Col ℚ, fitAll slopeFits [1, 2, 3, 4] twoDegrees = .ok [c3, c4] ∧ c3.name = "poly_3" ∧ c4.name = "poly_4" ∧ |goeScore c3.unfolded| = 5 ∧ |goeScore c4.unfolded| = 2 := by
  refine ⟨_, _, rfl, by decide, by decide, ?_, ?_⟩
  · have : npSort ([1, 2, 3, 4].map (polyval [0, (13 : ℚ)])) = [13, 26, 39, 52] := npSort_unique (by decide +kernel) (by decide +kernel)
    show |goeScore (npSort ([1, 2, 3, 4].map (polyval [0, (13 : ℚ)])))| = 5
    rw [this]
    decide +kernel
  · have : npSort ([1, 2, 3, 4].map (polyval [0, (7 : ℚ)])) = [7, 14, 21, 28] := npSort_unique (by decide +kernel) (by decide +kernel)
    show |goeScore (npSort ([1, 2, 3, 4].map (polyval [0, (7 : ℚ)])))| = 2
    rw [this]
    decide +kernel

theorem slope_report : ∃ r, mkReport lastOfFive slopeFits [1, 2, 3, 4, 5] (1 / 2) 1 twoDegrees = .ok r := by
  simp only [mkReport, slope_iters, bind, Except.bind, slope0, slope1]
  exact ⟨_, rfl⟩

/-- The mean absolute GOE score of the unfoldings of one trim region. -/
def regionScore (cols : List (Col ℚ)) : ℚ := avg (cols.map fun c => |goeScore c.unfolded|)

/-- **C119 (partial).** Whatever `prioritize_smoother` is, the smoother is chosen first, then the trim region: the result is an unfolding of one of the regions of the report, with the least absolute GOE score of all regions for its smoother. What is missing: for
`prioritize_smoother=False` the documented order (region first) is not followed. -/
theorem C119_partial {K : Type} [Field K] [LinearOrder K] [IsStrictOrderedRing K] (hbos : ℚ → List K → List Bool) (F : Fitters K) (vals : List K) (maxTrim : ℚ) (maxIters : Nat) (polyDegrees : List Int) (smooths : SmoothsArg)
    (splineDegrees : List Int) (gompertz : Flag) (prioritize : Bool) (tol : ℚ) (ha : PlainArgs ⟨polyDegrees, smooths, splineDegrees, gompertz, false⟩)
    (hne : smootherNames ⟨polyDegrees, smooths, splineDegrees, gompertz, false⟩ ≠ []) (u : Unfolded K)
    (h : trimUnfoldAutoCall hbos F vals maxTrim maxIters polyDegrees smooths splineDegrees gompertz prioritize tol = .ok u) :
    ∃ r, trimReport hbos F vals maxTrim maxIters polyDegrees smooths splineDegrees gompertz false tol = .ok r ∧
      ∃ (hu : r.unfoldings.length = r.iters.length) (i : Nat) (hi : i < r.iters.length), ∃ c ∈ r.unfoldings[i],
        u.originals = npSort r.iters[i].eigs ∧ u.vals = c.unfolded ∧
        ∀ cols ∈ r.unfoldings, ∀ c' ∈ cols, c'.name = c.name → |goeScore c.unfolded| ≤ |goeScore c'.unfolded| := by
  obtain ⟨r, h1, hu, i, hi, c, hc, h2, h3, -, h4, -⟩ := C32_choice (hbos tol) F vals maxTrim maxIters _ ha hne u h
  exact ⟨r, h1, hu, i, hi, c, hc, h2, h3, h4⟩

/-- **C119 (refuted).** `trim_unfold_auto(prioritize_smoother=False)` does not choose the trim region first: a spectrum and fits for which the region of the result does not have the least mean absolute GOE score across smoothers - the other of the two regions has a smaller one -
and moreover the unfolding returned is not the one with the least score in that other region. -/
theorem C119_refuted : ∃ (hbos : ℚ → List ℚ → List Bool) (F : Fitters ℚ) (vals : List ℚ) (u : Unfolded ℚ) (r : TrimReport ℚ), (∀ t l, (hbos t l).length = l.length) ∧
    trimUnfoldAutoCall hbos F vals (1 / 2) 1 [3, 4] (.list []) [] .pyFalse false (1 / 10) = .ok u ∧
    trimReport hbos F vals (1 / 2) 1 [3, 4] (.list []) [] .pyFalse false (1 / 10) = .ok r ∧
    ∃ (h0 : 1 < r.iters.length) (h1 : 1 < r.unfoldings.length), u.originals = npSort r.iters[0].eigs ∧ u.originals ≠ npSort r.iters[1].eigs ∧ regionScore r.unfoldings[1] < regionScore r.unfoldings[0] := by
  have hne : smootherNames twoDegrees ≠ [] := by decide
  obtain ⟨r, hr⟩ := slope_report
  obtain ⟨u, hu⟩ := C32_defined _ _ _ _ _ _ twoDegrees_plain r hr hne
  refine ⟨fun _ => lastOfFive, slopeFits, [1, 2, 3, 4, 5], u, r, by simp [lastOfFive], hu, hr, ?_⟩
  obtain ⟨r', hr', hlen, i, hi, c, hc, ho, -, -, hbest, -, hcrit⟩ := C32_choice _ _ _ _ _ _ twoDegrees_plain hne u hu
  rw [hr] at hr'
  cases hr'
  obtain ⟨ht, -, hlu, hrw, hall⟩ := report_ok _ _ _ _ _ _ r hr
  rw [slope_iters] at ht
  obtain ⟨c3, c4, f0, n3, n4, s3, s4⟩ := slope_cols0
  obtain ⟨d3, d4, f1, m3, m4, z3, z4⟩ := slope_cols1
  obtain ⟨iters, unf, nm, rows⟩ := r
  have ht' : iters = [slope0, slope1] := (Except.ok.inj ht).symm
  subst ht'
  obtain ⟨a0, a1, rfl⟩ : ∃ a0 a1, unf = [a0, a1] := by
    have : unf.length = 2 := hlen
    match unf, this with
    | [a0, a1], _ => exact ⟨_, _, rfl⟩
  have g0 := (hall 0 (by simp)).1
  have g1 := (hall 1 (by simp)).1
  have e0 : slope0.eigs = [1, 2, 3, 4, 5] := rfl
  have e1 : slope1.eigs = [1, 2, 3, 4] := rfl
  simp only [List.getElem_cons_zero, List.getElem_cons_succ, e0, e1, sort12345, sort1234, f0, f1, Except.ok.injEq] at g0 g1
  subst g0 g1
  have hs3 : scoresOf [[c3, c4], [d3, d4]] "poly_3" = [1, 5] := by
    simp [scoresOf, n3, n4, m3, m4, s3, z3]
  have hs4 : scoresOf [[c3, c4], [d3, d4]] "poly_4" = [10, 2] := by
    simp [scoresOf, n3, n4, m3, m4, s4, z4]
  have hcn : c.name = "poly_3" ∨ c.name = "poly_4" := by
    have : c ∈ [c3, c4] ∨ c ∈ [d3, d4] := by
      match i, hi, hc with
      | 0, _, hc => exact Or.inl hc
      | 1, _, hc => exact Or.inr hc
    rcases this with h | h <;> simp only [List.mem_cons, List.not_mem_nil, or_false] at h <;> rcases h with rfl | rfl <;> simp [n3, n4, m3, m4]
  have hcn3 : c.name = "poly_3" := by
    rcases hcn with h | h
    · exact h
    · have := hcrit (by simp) (by simp) "poly_3" (by decide)
      rw [h, hs3, hs4] at this
      exfalso
      obtain ⟨x, hx, hle⟩ := this 1 (by decide +kernel)
      have hx2 : meanBelowMax [10, (2 : ℚ)] = some 2 := by decide +kernel
      rw [hx2] at hx
      cases hx
      norm_num at hle
  have h1 : |goeScore c.unfolded| ≤ 1 := by
    have := hbest [c3, c4] (by simp) c3 (List.mem_cons_self) (by rw [n3, hcn3])
    rwa [s3] at this
  have hi0 : i = 0 := by
    match i, hi, hc with
    | 0, _, _ => rfl
    | 1, _, hc =>
      exfalso
      simp only [List.getElem_cons_succ, List.getElem_cons_zero, List.mem_cons, List.not_mem_nil, or_false] at hc
      rcases hc with rfl | rfl
      · rw [z3] at h1; norm_num at h1
      · rw [z4] at h1; norm_num at h1
  subst hi0
  refine ⟨by simp, by simp, ho, ?_, ?_⟩
  · rw [ho]
    simp only [List.getElem_cons_zero, List.getElem_cons_succ, e0, e1, sort12345, sort1234]
    decide +kernel
  · simp only [regionScore, List.getElem_cons_zero, List.getElem_cons_succ, List.map_cons, List.map_nil, s3, s4, z3, z4]
    decide +kernel

/-- Non-vacuity of C120 and of C119 (partial): the report of that spectrum, with two trim regions. -/
example : ∃ r, trimReport (fun _ => lastOfFive) slopeFits [1, 2, 3, 4, 5] (1 / 2) 1 [3, 4] (.list []) [] .pyFalse false (1 / 10) = .ok r := slope_report

end Props
end RMT
