import Verif.Spec.Score
import Verif.Model.Unfold
import Verif.Lemmas.Emd
import Verif.Lemmas.PolyFit
import Verif.Spec.Counting

/-!
# Properties C53-C56, C75, C79: unfolding

`F` bundles arbitrary library fitting routines (`polyfit`, `UnivariateSpline`, `curve_fit`, EMD), `goe` and `poisson` the analytic
unfolding maps.
-/

set_option linter.unusedSectionVars false

namespace RMT
namespace Props
open Smooth Unfold EigValsM Spec

variable {K : Type} [Field K] [LinearOrder K]

theorem mkUnfolded_eq (o u : List K) (c : Closure K) :
    mkUnfolded o u c = .ok ⟨npSort o, u, c⟩ := by
  simp [mkUnfolded, initEigVals1d_ok, bind, Except.bind]

/-! ## C53: dispatch -/

/-- **C53 (default, GOE).** Without a smoother, GOE-generated eigenvalues are unfolded by the semicircle, and no smoother is
stored. -/
theorem C53_default_goe (F : Fitters K) (goe poisson : List K → List K) (vals : List K)
    (degree ss : PyVal) (detrend : Bool) :
    unfold F goe poisson (some .goe) vals .none degree ss detrend =
      .ok ⟨npSort vals, npSort (goe vals), .none⟩ := by
  simp [unfold, mkUnfolded_eq]

/-- **C53 (default, Poisson).** -/
theorem C53_default_poisson (F : Fitters K) (goe poisson : List K → List K) (vals : List K)
    (degree ss : PyVal) (detrend : Bool) :
    unfold F goe poisson (some .poisson) vals .none degree ss detrend =
      .ok ⟨npSort vals, npSort (poisson vals), .none⟩ := by
  simp [unfold, mkUnfolded_eq]

/-- **C53 (default, other kinds).** For every other kind, or no kind, the default is the polynomial
smoother. -/
theorem C53_default_other (F : Fitters K) (goe poisson : List K → List K) (kind : Option MatrixKind)
    (h1 : kind ≠ some .goe) (h2 : kind ≠ some .poisson) (vals : List K)
    (degree ss : PyVal) (detrend : Bool) :
    unfold F goe poisson kind vals .none degree ss detrend =
      unfold F goe poisson kind vals (.method .polynomial) degree ss detrend := by
  simp [unfold, h1, h2]

theorem find_value (m : SmoothMethod) : allMethods.find? (fun x => x.value == m.value) = some m := by
  cases m <;> decide

/-- **C53 (strings).** The value string of a method behaves exactly like the method. -/
theorem C53_string (F : Fitters K) (goe poisson : List K → List K) (kind : Option MatrixKind)
    (vals : List K) (m : SmoothMethod) (degree ss : PyVal) (detrend : Bool) :
    unfold F goe poisson kind vals (.str m.value) degree ss detrend =
      unfold F goe poisson kind vals (.method m) degree ss detrend := by
  simp [unfold, validate, find_value, bind, Except.bind]

/-- **C53 (the strings).** The six accepted strings, and no other, name the six methods. -/
theorem C53_strings (F : Fitters K) (goe poisson : List K → List K) (kind : Option MatrixKind)
    (vals : List K) (degree ss : PyVal) (detrend : Bool) :
    (∀ p ∈ [("poly", SmoothMethod.polynomial), ("spline", .spline), ("exp", .exponential), ("gompertz", .gompertz), ("goe", .goe), ("poisson", .poisson)],
      unfold F goe poisson kind vals (.str p.1) degree ss detrend = unfold F goe poisson kind vals (.method p.2) degree ss detrend) ∧
    ∀ s ∉ ["poly", "spline", "exp", "gompertz", "goe", "poisson"],
      unfold F goe poisson kind vals (.str s) degree ss detrend = .error .valueError := by
  constructor
  · intro p hp
    have : p.1 = p.2.value := by
      revert p
      decide
    rw [this, C53_string]
  · intro s hs
    have : allMethods.find? (fun x => x.value == s) = none := by
      rw [List.find?_eq_none]
      intro x _ hx
      rw [beq_iff_eq] at hx
      apply hs
      rw [← hx]
      cases x <;> decide
    simp [unfold, validate, this, bind, Except.bind]

/-- **C53 (unknown strings).** Any other string raises `ValueError`. -/
theorem C53_unknown_string (F : Fitters K) (goe poisson : List K → List K) (kind : Option MatrixKind)
    (vals : List K) (s : String) (hs : ∀ m : SmoothMethod, m.value ≠ s) (degree ss : PyVal)
    (detrend : Bool) :
    unfold F goe poisson kind vals (.str s) degree ss detrend = .error .valueError := by
  have : allMethods.find? (fun x => x.value == s) = none := by
    rw [List.find?_eq_none]
    intro x _
    simpa using hs x
  simp [unfold, validate, this, bind, Except.bind]

/-- **C53 (explicit analytic smoothers).** `GOE` and `Poisson` select the analytic unfoldings whatever the kind, the
degree, the smoothing factor and `detrend`. -/
theorem C53_explicit_analytic (F : Fitters K) (goe poisson : List K → List K)
    (kind : Option MatrixKind) (vals : List K) (degree ss : PyVal) (detrend : Bool) :
    unfold F goe poisson kind vals (.method .goe) degree ss detrend =
        .ok ⟨npSort vals, npSort (goe vals), .none⟩ ∧
    unfold F goe poisson kind vals (.method .poisson) degree ss detrend =
        .ok ⟨npSort vals, npSort (poisson vals), .none⟩ := by
  simp [unfold, validate, bind, Except.bind, mkUnfolded_eq]

/-- **C53 (polynomial, accepted degrees).** For an integer degree `d ≥ 3` and no detrending the result consists of the sorted
values of the polynomial fitted to the points `(e_i, i + 1)` of the sorted spectrum; a failing
`polyfit` propagates. -/
theorem C53_polynomial (F : Fitters K) (goe poisson : List K → List K)
    (kind : Option MatrixKind) (vals : List K) (d : Int) (hd : 3 ≤ d) (ss : PyVal) :
    unfold F goe poisson kind vals (.method .polynomial) (.int d) ss false =
      (F.polyfit (npSort vals) ((List.range vals.length).map fun (i : Nat) => (i : K) + 1) d).bind
        fun c => .ok ⟨npSort vals, npSort ((npSort vals).map (polyAt c)),
          .unary fun xs => some (xs.map (polyAt c))⟩ := by
  have hp : ∀ c : List K, polyAt c = polyval c := fun c => funext fun x => (polyval_eq_polyAt c x).symm
  simp only [hp]
  have hl : (npSort vals).length = vals.length := (npSort_perm vals).length_eq
  simp only [unfold, validate, bind, Except.bind, fit, validateArgs, PyVal.asInt, stepsOf, hl]
  simp only [reduceCtorEq, if_false, PyVal.method.injEq]
  rw [if_neg (by omega)]
  simp only
  rcases F.polyfit (npSort vals) ((List.range vals.length).map fun (i : Nat) => (i : K) + 1) d with e | c
  · simp
  · simp [mkUnfolded_eq]

/-- **C53 (rejected polynomial degrees).** Degrees that are not integers, or below 3, raise `ValueError` (whether or not the
polynomial is chosen by default). -/
theorem C53_polynomial_rejected (F : Fitters K) (goe poisson : List K → List K)
    (kind : Option MatrixKind) (vals : List K) (degree ss : PyVal) (detrend : Bool)
    (h : ∀ d : Int, degree.asInt = some d → d < 3) :
    unfold F goe poisson kind vals (.method .polynomial) degree ss detrend = .error .valueError := by
  simp only [unfold, validate, bind, Except.bind, fit, validateArgs]
  simp only [reduceCtorEq, if_false, PyVal.method.injEq]
  rcases hd : degree.asInt with _ | d
  · simp
  · simp [h d hd]

/-- **C53 (rejected spline degrees).** Degrees that are not integers, or above 5, raise `ValueError`. -/
theorem C53_spline_rejected (F : Fitters K) (goe poisson : List K → List K)
    (kind : Option MatrixKind) (vals : List K) (degree ss : PyVal) (detrend : Bool)
    (h : ∀ d : Int, degree.asInt = some d → 5 < d) :
    unfold F goe poisson kind vals (.method .spline) degree ss detrend = .error .valueError := by
  simp only [unfold, validate, bind, Except.bind, fit, validateArgs]
  simp only [reduceCtorEq, if_false, PyVal.method.injEq]
  rcases hd : degree.asInt with _ | d
  · simp
  · simp [h d hd]

/-- **C53 (spline, accepted).** Integer degree at most 5 and a float smoothing factor: the sorted values of the spline fitted to
`(e_i, i + 1)` with exactly that degree and factor. -/
theorem C53_spline (F : Fitters K) (goe poisson : List K → List K)
    (kind : Option MatrixKind) (vals : List K) (d : Int) (hd : d ≤ 5) (s : ℚ) :
    unfold F goe poisson kind vals (.method .spline) (.int d) (.float s) false =
      (F.spline (npSort vals) ((List.range vals.length).map fun (i : Nat) => (i : K) + 1) d (s : K)).bind
        fun f => .ok ⟨npSort vals, npSort ((npSort vals).map f), .unary fun xs => some (xs.map f)⟩ := by
  have hl : (npSort vals).length = vals.length := (npSort_perm vals).length_eq
  simp only [unfold, validate, bind, Except.bind, fit, validateArgs, PyVal.asInt, stepsOf, hl,
    PyVal.floatConv]
  simp only [reduceCtorEq, if_false, PyVal.method.injEq, or_self]
  rw [if_neg (by omega)]
  simp only
  rcases F.spline (npSort vals) ((List.range vals.length).map fun (i : Nat) => (i : K) + 1) d (s : K) with e | c
  · simp
  · simp [mkUnfolded_eq]

/-- **C53 (spline, heuristic factor).** With `spline_smooth="heuristic"` the smoothing factor is the number of eigenvalues times their sample variance. -/
theorem C53_spline_heuristic (F : Fitters K) (goe poisson : List K → List K)
    (kind : Option MatrixKind) (vals : List K) (d : Int) (hd : d ≤ 5) :
    unfold F goe poisson kind vals (.method .spline) (.int d) (.str "heuristic") false =
      (F.spline (npSort vals) ((List.range vals.length).map fun (i : Nat) => (i : K) + 1) d ((vals.length : K) * sampleVar vals)).bind
        fun f => .ok ⟨npSort vals, npSort ((npSort vals).map f), .unary fun xs => some (xs.map f)⟩ := by
  have hl : (npSort vals).length = vals.length := (npSort_perm vals).length_eq
  have hv : varSample (npSort vals) = sampleVar vals := by
    have hm : mean (npSort vals) = avg vals := by rw [mean, avg, hl, (npSort_perm vals).sum_eq]
    rw [varSample, sampleVar, hm, hl, ((npSort_perm vals).map _).sum_eq]
  rw [← hv]
  simp only [unfold, validate, bind, Except.bind, fit, validateArgs, PyVal.asInt, stepsOf, hl]
  simp only [reduceCtorEq, if_false, PyVal.method.injEq, or_true, if_true]
  rw [if_neg (by omega)]
  simp only
  rcases F.spline (npSort vals) ((List.range vals.length).map fun (i : Nat) => (i : K) + 1) d ((vals.length : K) * varSample (npSort vals)) with e | c
  · simp
  · simp [mkUnfolded_eq]

/-- **C53 (exponential).** The exponential smoother gives the sorted values of the fitted `a exp(-b t)`, whatever the degree and the smoothing factor. -/
theorem C53_exponential (F : Fitters K) (goe poisson : List K → List K)
    (kind : Option MatrixKind) (vals : List K) (degree ss : PyVal) (r : Unfolded K)
    (h : unfold F goe poisson kind vals (.method .exponential) degree ss false = .ok r) :
    ∃ a b, F.fitExp (npSort vals) ((List.range vals.length).map fun (i : Nat) => (i : K) + 1) = .ok (a, b) ∧ r.originals = npSort vals ∧
      r.vals = npSort ((npSort vals).map fun t => a * F.exp (-b * t)) := by
  have hl : (npSort vals).length = vals.length := (npSort_perm vals).length_eq
  simp only [unfold, validate, bind, Except.bind, fit, validateArgs, stepsOf, hl] at h
  simp only [reduceCtorEq, if_false, PyVal.method.injEq] at h
  rcases hc : F.fitExp (npSort vals) ((List.range vals.length).map fun (i : Nat) => (i : K) + 1) with e | ⟨a, b⟩
  · simp [hc] at h
  · simp only [hc, mkUnfolded_eq, Except.ok.injEq] at h
    subst h
    exact ⟨a, b, rfl, rfl, by simp [exponentialFn]⟩

/-- **C53 (Gompertz).** The Gompertz smoother gives the sorted values of the fitted `a exp(-b exp(-c x))`. -/
theorem C53_gompertz (F : Fitters K) (goe poisson : List K → List K)
    (kind : Option MatrixKind) (vals : List K) (degree ss : PyVal) (r : Unfolded K)
    (h : unfold F goe poisson kind vals (.method .gompertz) degree ss false = .ok r) :
    ∃ a b c, F.fitGompertz (npSort vals) ((List.range vals.length).map fun (i : Nat) => (i : K) + 1) = .ok (a, b, c) ∧ r.originals = npSort vals ∧
      r.vals = npSort ((npSort vals).map fun x => a * F.exp (-b * F.exp (-c * x))) := by
  have hl : (npSort vals).length = vals.length := (npSort_perm vals).length_eq
  simp only [unfold, validate, bind, Except.bind, fit, validateArgs, stepsOf, hl] at h
  simp only [reduceCtorEq, if_false, PyVal.method.injEq] at h
  rcases hc : F.fitGompertz (npSort vals) ((List.range vals.length).map fun (i : Nat) => (i : K) + 1) with e | ⟨a, b, c⟩
  · simp [hc] at h
  · simp only [hc, mkUnfolded_eq, Except.ok.injEq] at h
    subst h
    exact ⟨a, b, c, rfl, rfl, by simp only [Bool.false_eq_true, if_false]; rfl⟩

/-- **C53 (smoothing factors).** For the spline smoother a smoothing factor that is neither a float nor `"heuristic"` never succeeds
(integers, `None`, other strings: `ValueError`). -/
theorem C53_spline_smooth_rejected (F : Fitters K) (goe poisson : List K → List K)
    (kind : Option MatrixKind) (vals : List K) (degree ss : PyVal) (detrend : Bool)
    (h1 : ∀ q, ss ≠ .float q) (h2 : ss ≠ .str "heuristic") (r : Unfolded K) :
    unfold F goe poisson kind vals (.method .spline) degree ss detrend ≠ .ok r := by
  simp only [unfold, validate, bind, Except.bind, fit, validateArgs]
  simp only [reduceCtorEq, if_false, PyVal.method.injEq]
  rcases hd : degree.asInt with _ | d
  · simp
  · by_cases h5 : d > 5
    · simp [h5]
    · rcases ss with _ | b | i | q | s | m | _ | _ <;> simp [h5, PyVal.floatConv]
      · rw [if_neg (by simpa using h2)]
        simp

/-- **C53 (functions).** Passing a function raises `NotImplementedError`. -/
theorem C53_callable (F : Fitters K) (goe poisson : List K → List K)
    (kind : Option MatrixKind) (vals : List K) (degree ss : PyVal) (detrend : Bool) :
    unfold F goe poisson kind vals .callable degree ss detrend = .error .notImplementedError := by
  simp [unfold, validate, bind, Except.bind, fit, validateArgs]

/-! ## C54: order -/

/-- The part of `unfold` after the choice of the smoother. -/
theorem unfold_ok_cases (F : Fitters K) (goe poisson : List K → List K)
    (kind : Option MatrixKind) (vals : List K) (smoother degree ss : PyVal) (detrend : Bool)
    (r : Unfolded K) (h : unfold F goe poisson kind vals smoother degree ss detrend = .ok r) :
    r = ⟨npSort vals, npSort (goe vals), .none⟩ ∨ r = ⟨npSort vals, npSort (poisson vals), .none⟩ ∨
    ∃ m q, fit F (npSort vals) m degree ss detrend true = .ok q ∧
      r = ⟨npSort vals, npSort (if detrend then emdDetrend F.trend q.unfolded else q.unfolded), q.func⟩ := by
  have key : ∀ sm, (do
      let sm' ← validate sm
      if sm' = PyVal.method .goe then mkUnfolded vals (npSort (goe vals)) .none
      else if sm' = PyVal.method .poisson then mkUnfolded vals (npSort (poisson vals)) .none
      else
        let r ← fit F (npSort vals) sm' degree ss detrend true
        let u := if detrend then emdDetrend F.trend r.unfolded else r.unfolded
        mkUnfolded vals (npSort u) r.func) = .ok r →
    r = ⟨npSort vals, npSort (goe vals), .none⟩ ∨ r = ⟨npSort vals, npSort (poisson vals), .none⟩ ∨
    ∃ m q, fit F (npSort vals) m degree ss detrend true = .ok q ∧
      r = ⟨npSort vals, npSort (if detrend then emdDetrend F.trend q.unfolded else q.unfolded), q.func⟩ := by
    intro sm h
    simp only [bind, Except.bind, mkUnfolded_eq] at h
    rcases hv : validate sm with e | sm'
    · simp [hv] at h
    · simp only [hv] at h
      by_cases h1 : sm' = PyVal.method .goe
      · rw [if_pos h1] at h; cases h; exact Or.inl rfl
      · rw [if_neg h1] at h
        by_cases h2 : sm' = PyVal.method .poisson
        · rw [if_pos h2] at h; cases h; exact Or.inr (Or.inl rfl)
        · rw [if_neg h2] at h
          rcases hf : fit F (npSort vals) sm' degree ss detrend true with e | q
          · simp [hf] at h
          · simp only [hf] at h
            cases h; exact Or.inr (Or.inr ⟨sm', q, hf, rfl⟩)
  unfold Unfold.unfold at h
  simp only [mkUnfolded_eq] at h
  by_cases h0 : smoother = .none
  · rw [if_pos h0] at h
    by_cases h1 : kind = some .goe
    · rw [if_pos h1] at h; cases h; exact Or.inl rfl
    · rw [if_neg h1] at h
      by_cases h2 : kind = some .poisson
      · rw [if_pos h2] at h; cases h; exact Or.inr (Or.inl rfl)
      · rw [if_neg h2] at h
        exact key _ (by simpa only [mkUnfolded_eq] using h)
  · rw [if_neg h0] at h
    exact key _ (by simpa only [mkUnfolded_eq] using h)

/-- Without detrending a successful fit returns the values at the eigenvalues of one real function; with
detrending, those values detrended. -/
theorem fit_ok (F : Fitters K) (eigs : List K) (m degree ss : PyVal) (detrend rc : Bool)
    (q : FitResult K) (h : fit F eigs m degree ss detrend rc = .ok q) :
    ∃ f : K → K, q.unfolded = (if detrend then emdDetrend F.trend (eigs.map f) else eigs.map f) ∧
      q.steps = stepsOf eigs.length ∧
      ((m = .method .polynomial ∨ m = .method .gompertz) →
        q.func = .unary fun xs => if rc then some (xs.map f) else none) ∧
      (m = .method .spline → q.func = if rc then .unary fun xs => some (xs.map f) else .none) ∧
      (m = .method .exponential → q.func = .ternary (exponentialFn F.exp)) ∧
      (m = .method .polynomial ∨ m = .method .spline ∨ m = .method .exponential ∨ m = .method .gompertz) := by
  simp only [fit, bind, Except.bind] at h
  rcases hv : validateArgs m degree ss with e | _
  · simp [hv] at h
  simp only [hv] at h
  rcases m with _ | b | i | q' | s | m | _ | _ <;> try (simp at h; done)
  rcases m <;> simp only at h
  · rcases hd : degree.asInt with _ | d
    · simp [hd] at h
    · simp only [hd] at h
      rcases hp : F.polyfit eigs (stepsOf eigs.length) d with e | c
      · simp [hp] at h
      · simp only [hp] at h
        cases h
        exact ⟨polyval c, rfl, rfl, fun _ => rfl, by simp, by simp, by simp⟩
  · rcases hd : degree.asInt with _ | d
    · simp [hd] at h
    · simp only [hd] at h
      split at h
      · simp at h
      · rename_i s' _
        rcases hp : F.spline eigs (stepsOf eigs.length) d s' with e | c
        · simp [hp] at h
        · simp only [hp] at h
          cases h
          exact ⟨c, rfl, rfl, by simp, fun _ => rfl, by simp, by simp⟩
  · rcases hp : F.fitExp eigs (stepsOf eigs.length) with e | ⟨a, b⟩
    · simp [hp] at h
    · simp only [hp] at h
      cases h
      exact ⟨fun t => exponentialFn F.exp t a b, rfl, rfl, by simp, by simp, fun _ => rfl, by simp⟩
  · rcases hp : F.fitGompertz eigs (stepsOf eigs.length) with e | ⟨a, b, c⟩
    · simp [hp] at h
    · simp only [hp] at h
      cases h
      exact ⟨gompertzFn F.exp a b c, rfl, rfl, fun _ => rfl, by simp, by simp, by simp⟩
  · simp at h
  · simp at h

/-- **C54 (Eigenvalues.unfold).** Whatever the smoother and the fitting routines, the unfolded values are ascending, there is one for
each eigenvalue (the analytic maps being entrywise), and the stored originals are the sorted
eigenvalues. -/
theorem C54_unfold_ascending (F : Fitters K) (goe poisson : List K → List K)
    (hg : ∀ l, (goe l).length = l.length) (hp : ∀ l, (poisson l).length = l.length)
    (kind : Option MatrixKind) (vals : List K) (smoother degree ss : PyVal) (detrend : Bool)
    (r : Unfolded K) (h : unfold F goe poisson kind vals smoother degree ss detrend = .ok r) :
    Ascending r.vals ∧ r.vals.length = vals.length ∧
      r.originals.Perm vals ∧ Ascending r.originals := by
  have hs : ∀ l : List K, (npSort l).length = l.length := fun l => (npSort_perm l).length_eq
  rcases unfold_ok_cases F goe poisson kind vals smoother degree ss detrend r h with
    rfl | rfl | ⟨m, q, hf, rfl⟩
  · exact ⟨npSort_ascending _, by simp only [hs, hg], npSort_perm _, npSort_ascending _⟩
  · exact ⟨npSort_ascending _, by simp only [hs, hp], npSort_perm _, npSort_ascending _⟩
  · obtain ⟨f, hu, -⟩ := fit_ok F _ m degree ss detrend true q hf
    refine ⟨npSort_ascending _, ?_, npSort_perm _, npSort_ascending _⟩
    simp only [hs, hu]
    cases detrend <;> simp [emdDetrend_length, hs]

/-- Fitting routines returning fixed results (for the examples). -/
def constFitters (c : List ℚ) : Fitters ℚ where
  polyfit := fun _ _ _ => .ok c
  spline := fun _ _ _ _ => .ok id
  fitExp := fun _ _ => .ok (1, 1)
  fitGompertz := fun _ _ => .ok (1, 1, 1)
  exp := id
  pow := fun _ _ => 1
  trend := fun l => l.map fun _ => 0

-- C53/C54: the hypotheses are met by a spectrum of four values and an exact cubic
example : unfold (constFitters [1, 0, 0, 1]) id id none [3, 1, 2, 0] .none (.int 3) (.float 1) false =
    unfold (constFitters [1, 0, 0, 1]) id id none [3, 1, 2, 0] (.method .polynomial) (.int 3) (.float 1) false :=
  C53_default_other _ _ _ none (by simp) (by simp) _ _ _ _

example : ∃ r, unfold (constFitters [1, 0, 0, 1]) id id none [3, 1, 2, 0] (.method .polynomial) (.int 3) (.float 1) false
    = .ok r ∧ r.vals = [1, 2, 9, 28] := by
  rw [C53_polynomial _ _ _ _ _ 3 (by norm_num)]
  refine ⟨_, rfl, ?_⟩
  have h : npSort [3, 1, 2, (0 : ℚ)] = [0, 1, 2, 3] := npSort_unique (by decide) (by decide)
  rw [h]
  exact npSort_unique (by decide +kernel) (by decide +kernel)

example : ∀ m : SmoothMethod, m.value ≠ "polynomial" := by intro m; cases m <;> decide

/-- **C54 (Trimmed.unfold, partial).** `Trimmed.unfold` does not sort: without detrending its `i`-th value is `f (e_i)` for the fitted
function `f` and the `i`-th smallest eigenvalue `e_i`; so it is ascending exactly when the fit is non-decreasing
along the spectrum. What is missing from the documented property: nothing forces the fit to be
non-decreasing. -/
theorem C54_trimmed_partial (F : Fitters K) (vals : List K) (smoother degree ss : PyVal)
    (r : Unfolded K) (h : trimmedUnfold F vals smoother degree ss false = .ok r) :
    ∃ f : K → K, r.vals = (npSort vals).map f ∧
      (Ascending r.vals ↔ (npSort vals).Pairwise fun a b => f a ≤ f b) := by
  simp only [trimmedUnfold, bind, Except.bind, mkUnfolded_eq] at h
  rcases hf : fit F (npSort vals) smoother degree ss false false with e | q
  · simp [hf] at h
  · simp only [hf] at h
    cases h
    obtain ⟨f, hu, -⟩ := fit_ok F _ _ _ _ _ _ q hf
    refine ⟨f, by simpa using hu, ?_⟩
    simp only [Bool.false_eq_true, if_false] at hu
    simp only [hu, Ascending, List.pairwise_map]

/-- Seven eigenvalues whose least-squares cubic is not monotone along them. -/
def wiggleEigs : List ℚ := [-5, -1, 0, 4, 4, 5, 5]

/-- The coefficients of that cubic. -/
def wiggleCoef : List ℚ := [252 / 103, 43 / 3090, 307 / 6180, 131 / 6180]

theorem wiggle_ls : IsPolyLS wiggleCoef wiggleEigs (stepsOf 7) 3 := by
  apply isPolyLS_of_normal _ _ _ _ rfl
  intro k hk
  interval_cases k <;> decide +kernel

/-- **C54 (Trimmed.unfold, refuted).** A genuine least-squares cubic fit for which the values returned by `Trimmed.unfold` are not
ascending. -/
theorem C54_trimmed_refuted : ∃ (F : Fitters ℚ) (c : List ℚ) (r : Unfolded ℚ),
    F.polyfit (npSort wiggleEigs) (stepsOf 7) 3 = .ok c ∧
    IsPolyLS c (npSort wiggleEigs) (stepsOf 7) 3 ∧
    trimmedUnfold F wiggleEigs (.method .polynomial) (.int 3) (.float (7 / 5)) false = .ok r ∧
    ¬ Ascending r.vals := by
  have h : npSort wiggleEigs = wiggleEigs := npSort_of_ascending _ (by decide +kernel)
  refine ⟨constFitters wiggleCoef, wiggleCoef,
    ⟨npSort wiggleEigs, wiggleEigs.map (polyval wiggleCoef), .unary fun xs =>
      if false then some (xs.map (polyval wiggleCoef)) else none⟩, rfl, by rw [h]; exact wiggle_ls, ?_, ?_⟩
  · simp [trimmedUnfold, fit, validateArgs, validate, PyVal.asInt, bind, Except.bind, mkUnfolded_eq, h,
      constFitters]
  · decide +kernel

/-! ## C55: evaluate_smoother -/

/-- **C55 (stored smoothers).** After `Eigenvalues.unfold` with a polynomial, spline or Gompertz smoother and no detrending,
`evaluate_smoother(original_values)` returns the unfolded values up to sorting. -/
theorem C55_evaluate (F : Fitters K) (goe poisson : List K → List K) (kind : Option MatrixKind)
    (vals : List K) (m : SmoothMethod) (hm : m = .polynomial ∨ m = .spline ∨ m = .gompertz)
    (degree ss : PyVal) (r : Unfolded K)
    (h : unfold F goe poisson kind vals (.method m) degree ss false = .ok r) :
    ∃ v, evaluateSmoother r r.originals = .ok (some v) ∧ v.Perm r.vals ∧ npSort v = r.vals := by
  have h1 : PyVal.method m ≠ PyVal.method .goe := by rcases hm with rfl | rfl | rfl <;> simp
  have h2 : PyVal.method m ≠ PyVal.method .poisson := by rcases hm with rfl | rfl | rfl <;> simp
  simp only [unfold, validate, bind, Except.bind, mkUnfolded_eq] at h
  rw [if_neg (by simp), if_neg h1, if_neg h2] at h
  rcases hf : fit F (npSort vals) (.method m) degree ss false true with e | q
  · simp [hf] at h
  · simp only [hf] at h
    cases h
    obtain ⟨f, hu, -, hpg, hsp, -⟩ := fit_ok F _ _ _ _ _ _ q hf
    have hfun : q.func = .unary fun xs => some (xs.map f) := by
      rcases hm with rfl | rfl | rfl
      · simpa using hpg (Or.inl rfl)
      · simpa using hsp rfl
      · simpa using hpg (Or.inr rfl)
    simp only [Bool.false_eq_true, if_false] at hu ⊢
    exact ⟨(npSort vals).map f, by simp [evaluateSmoother, hfun], by rw [hu]; exact (npSort_perm _).symm,
      by rw [hu]⟩

/-- **C55 (no stored smoother).** After an analytic unfolding `evaluate_smoother` raises `NotImplementedError` for every argument. -/
theorem C55_analytic (F : Fitters K) (goe poisson : List K → List K) (kind : Option MatrixKind)
    (vals : List K) (m : SmoothMethod) (hm : m = .goe ∨ m = .poisson) (degree ss : PyVal)
    (detrend : Bool) (r : Unfolded K)
    (h : unfold F goe poisson kind vals (.method m) degree ss detrend = .ok r) (x : List K) :
    evaluateSmoother r x = .error .notImplementedError := by
  have := C53_explicit_analytic F goe poisson kind vals degree ss detrend
  rcases hm with rfl | rfl
  · rw [this.1] at h; cases h; rfl
  · rw [this.2] at h; cases h; rfl

/-- **C55 (exponential smoother, refuted).** After unfolding with the exponential smoother, `evaluate_smoother` raises `TypeError`
(the stored function takes three arguments). -/
theorem C55_exponential_refuted (F : Fitters K) (goe poisson : List K → List K)
    (kind : Option MatrixKind) (vals : List K) (degree ss : PyVal) (detrend : Bool) (r : Unfolded K)
    (h : unfold F goe poisson kind vals (.method .exponential) degree ss detrend = .ok r) (x : List K) :
    evaluateSmoother r x = .error .typeError := by
  simp only [unfold, validate, bind, Except.bind, mkUnfolded_eq] at h
  rw [if_neg (by simp), if_neg (by simp), if_neg (by simp)] at h
  rcases hf : fit F (npSort vals) (.method .exponential) degree ss detrend true with e | q
  · simp [hf] at h
  · simp only [hf] at h
    cases h
    obtain ⟨f, -, -, -, -, he, -⟩ := fit_ok F _ _ _ _ _ _ q hf
    simp [evaluateSmoother, he rfl]

/-- **C55 (Trimmed.unfold, refuted).** After `Trimmed.unfold` with a polynomial or Gompertz smoother `evaluate_smoother` returns `None`
for every argument; with a spline it raises `NotImplementedError`. -/
theorem C55_trimmed_refuted (F : Fitters K) (vals : List K) (m : SmoothMethod) (degree ss : PyVal)
    (detrend : Bool) (r : Unfolded K)
    (h : trimmedUnfold F vals (.method m) degree ss detrend = .ok r) (x : List K) :
    ((m = .polynomial ∨ m = .gompertz) → evaluateSmoother r x = .ok none) ∧
    (m = .spline → evaluateSmoother r x = .error .notImplementedError) := by
  simp only [trimmedUnfold, bind, Except.bind, mkUnfolded_eq] at h
  rcases hf : fit F (npSort vals) (.method m) degree ss detrend false with e | q
  · simp [hf] at h
  · simp only [hf] at h
    cases h
    obtain ⟨f, -, -, hpg, hsp, -⟩ := fit_ok F _ _ _ _ _ _ q hf
    constructor
    · intro hm
      have := hpg (by rcases hm with rfl | rfl <;> simp)
      simp [evaluateSmoother, this]
    · rintro rfl
      simp [evaluateSmoother, hsp rfl]

-- C55: hypotheses met
example : ∃ r, unfold (constFitters [1, 0, 0, 1]) id id none [3, 1, 2, 0] (.method .polynomial) (.int 3)
    (.float 1) false = .ok r := by
  rw [C53_polynomial _ _ _ _ _ 3 (by norm_num)]
  exact ⟨_, rfl⟩
example : ∃ r, trimmedUnfold (constFitters [1, 0, 0, 1]) [3, 1, 2, 0] (.method .spline) (.int 3)
    (.float 1) false = .ok r := ⟨_, rfl⟩
example : ∃ r, unfold (constFitters [1, 0, 0, 1]) id id none [3, 1, 2, 0] (.method .exponential) (.int 3)
    (.float 1) false = .ok r := ⟨_, rfl⟩

/-! ## C56: EMD detrending -/

/-- **C56 (exact meaning, partial).** With `trend` the EMD trend of the fluctuations, `emd_detrend(u)` is `u[0]` followed by the values
`u[i] - trend[i]` *shifted by one place*: entry `i + 1` of the output is entry `i` of the detrended input.
The documented property (entry `i` is `u[i] - trend[i]`) is false; see `C56_refuted`. -/
theorem C56_shifted_partial (trend : List K → List K) (u : List K) (hu : 0 < u.length)
    (ht : (trend (emdDelta u)).length = u.length) :
    ∃ h : (emdDetrend trend u).length = u.length,
      (emdDetrend trend u)[0] = u[0] ∧
      ∀ i (hi : i + 1 < u.length),
        (emdDetrend trend u)[i + 1] = u[i] - (trend (emdDelta u))[i] :=
  ⟨emdDetrend_length _ _, emdDetrend_zero _ _ hu, fun i hi => emdDetrend_succ trend u ht i hi⟩

/-- **C56 (the fluctuations).** The argument of the EMD decomposition is the deviation of the unfolded values from the straight line
through the first one with the mean spacing as slope. -/
theorem C56_fluctuations (u : List K) (k : Nat) (hk : k < u.length) :
    (emdDelta u)[k]'(by rw [emdDelta_length]; exact hk) =
      u[k] - (u[0] + (k : K) * ((u[u.length - 1] - u[0]) / ((u.length : K) - 1))) := by
  have h1 := emdDelta_getD u k hk
  rw [List.getD_eq_getElem _ _ (by rw [emdDelta_length]; exact hk)] at h1
  have h2 : mean (diff u) = (u[u.length - 1] - u[0]) / ((u.length : K) - 1) := by
    have h3 := sum_take_diff u (u.length - 1) (by omega)
    rw [List.take_of_length_le (by rw [length_diff])] at h3
    rw [mean, h3, length_diff, Nat.cast_sub (by omega)]
    simp
  rw [h1, h2]; ring

/-- **C56 (refuted).** With a zero trend `emd_detrend` does not return its input: it duplicates the first value and drops the last. -/
theorem C56_refuted (u : List K) (hu : u ≠ []) :
    emdDetrend (fun l => l.map fun _ => 0) u = u.head hu :: u.dropLast := by
  have hl : 0 < u.length := List.length_pos_iff.mpr hu
  apply List.ext_getElem
  · simp [emdDetrend_length]; omega
  intro i h1 h2
  rw [emdDetrend_length] at h1
  cases i with
  | zero => rw [emdDetrend_zero _ _ hl]; simp [List.head_eq_getElem]
  | succ i =>
    rw [emdDetrend_succ _ u (by simp [emdDelta_length]) i h1]
    simp

example : emdDetrend (fun l => l.map fun _ => 0) [0, 1, 3, (4 : ℚ)] = [0, 0, 1, 3] := C56_refuted _ (by simp)

/-- **C56 (applied twice, refuted).** `unfold(detrend=True)` applies `emd_detrend` twice to the values of the polynomial fit. -/
theorem C56_twice_refuted (F : Fitters K) (goe poisson : List K → List K) (kind : Option MatrixKind)
    (vals : List K) (d : Int) (hd : 3 ≤ d) (ss : PyVal) (c : List K)
    (hc : F.polyfit (npSort vals) (stepsOf vals.length) d = .ok c) :
    ∃ r, unfold F goe poisson kind vals (.method .polynomial) (.int d) ss true = .ok r ∧
      r.vals = npSort (emdDetrend F.trend (emdDetrend F.trend ((npSort vals).map (polyval c)))) := by
  have hl : (npSort vals).length = vals.length := (npSort_perm vals).length_eq
  simp only [unfold, validate, bind, Except.bind, fit, validateArgs, PyVal.asInt, hl, hc, mkUnfolded_eq]
  rw [if_neg (by simp), if_neg (by simp), if_neg (by simp), if_neg (by omega)]
  exact ⟨_, rfl, rfl⟩

example : (constFitters [1, 0, 0, 1]).polyfit (npSort [3, 1, 2, 0]) (stepsOf 4) 3 = .ok [1, 0, 0, 1] := rfl

/-! ## C75: polynomial fits -/

variable [IsStrictOrderedRing K]

/-- The routine `polyfit` returns least-squares polynomials. -/
def LeastSquaresFit (F : Fitters K) : Prop :=
  ∀ x y (d : Int) c, 0 ≤ d → F.polyfit x y d = .ok c → IsPolyLS c x y d.toNat

theorem fitOne_poly (F : Fitters K) (eigs : List K) (name : String) (d : Int) (ss : PyVal)
    (col : Col K) (h : fitOne F eigs false name (.method .polynomial) (.int d) ss = .ok col) :
    3 ≤ d ∧ ∃ c, F.polyfit eigs (stepsOf eigs.length) d = .ok c ∧
      col.unfolded = npSort (eigs.map (polyAt c)) ∧
      col.msqe = fitError eigs (stepsOf eigs.length) (polyAt c) / (eigs.length : K) := by
  simp only [fitOne, fit, validateArgs, validate, bind, Except.bind, PyVal.asInt] at h
  by_cases hd : d < 3
  · simp [hd] at h
  refine ⟨by omega, ?_⟩
  simp only [hd, if_false] at h
  rcases hc : F.polyfit eigs (stepsOf eigs.length) d with e | c
  · simp [hc] at h
  simp only [hc] at h
  cases h
  have hp : polyval c = polyAt c := funext fun x => polyval_eq_polyAt c x
  refine ⟨c, rfl, by simp [hp], ?_⟩
  simp only [Bool.false_eq_true, if_false, hp, mean, fitError, List.zipWith_map_left, List.map_zipWith,
    List.length_zipWith, List.length_map, stepsOf, List.length_range, min_self]
  congr 2
  congr 1
  funext a b
  ring

/-- **C75 (error decreases with the degree).** If `polyfit` computes least-squares polynomials, the mean squared error reported for
degree `d'` is at most the one reported for degree `d ≤ d'`. -/
theorem C75_error_antitone (F : Fitters K) (hF : LeastSquaresFit F) (eigs : List K)
    (name name' : String) (d d' : Int) (hdd : d ≤ d') (ss ss' : PyVal) (col col' : Col K)
    (h : fitOne F eigs false name (.method .polynomial) (.int d) ss = .ok col)
    (h' : fitOne F eigs false name' (.method .polynomial) (.int d') ss' = .ok col') :
    col'.msqe ≤ col.msqe ∧ 0 ≤ col'.msqe := by
  obtain ⟨h3, c, hc, -, hm⟩ := fitOne_poly F eigs name d ss col h
  obtain ⟨h3', c', hc', -, hm'⟩ := fitOne_poly F eigs name' d' ss' col' h'
  rw [hm, hm']
  have hn : (0 : K) ≤ (eigs.length : K) := Nat.cast_nonneg _
  exact ⟨div_le_div_of_nonneg_right (polyLS_mono c c' _ _ _ _ (Int.toNat_le_toNat hdd)
    (hF _ _ _ _ (by omega) hc) (hF _ _ _ _ (by omega) hc')) hn, div_nonneg (sse_nonneg _ _ _) hn⟩

/-- **C75 (interpolation).** If `polyfit` computes least-squares polynomials and the `n` eigenvalues are distinct with
`n ≤ degree + 1`, the unfolded values are exactly `1, …, n` and the reported error is 0. -/
theorem C75_interpolation (F : Fitters K) (hF : LeastSquaresFit F) (eigs : List K)
    (hnd : eigs.Nodup) (name : String) (d : Int) (hd : (eigs.length : Int) ≤ d + 1) (ss : PyVal)
    (col : Col K) (h : fitOne F eigs false name (.method .polynomial) (.int d) ss = .ok col) :
    col.unfolded = (List.range eigs.length).map (fun (i : Nat) => (i : K) + 1) ∧ col.msqe = 0 := by
  obtain ⟨h3, c, hc, hu, hm⟩ := fitOne_poly F eigs name d ss col h
  have hi := polyLS_interpolates c eigs (stepsOf eigs.length) d.toNat (hF _ _ _ _ (by omega) hc) hnd
    (by simp [stepsOf]) (by omega)
  constructor
  · rw [hu, hi]
    apply npSort_of_ascending
    simp only [Ascending, stepsOf, List.pairwise_map]
    refine List.pairwise_lt_range.imp fun {a b} hab => ?_
    have : (a : K) ≤ (b : K) := by exact_mod_cast hab.le
    linarith
  · rw [hm, ← hi, sse_eq_zero_of_map]
    simp

/-- **C75 (through `unfold`).** The same for `Eigenvalues.unfold`: distinct eigenvalues, at most `degree + 1` of them, unfold to
`1, …, n`. -/
theorem C75_unfold_interpolation (F : Fitters K) (hF : LeastSquaresFit F) (goe poisson : List K → List K)
    (kind : Option MatrixKind) (vals : List K) (hnd : vals.Nodup) (d : Int)
    (hd : (vals.length : Int) ≤ d + 1) (hd3 : 3 ≤ d) (ss : PyVal) (r : Unfolded K)
    (h : unfold F goe poisson kind vals (.method .polynomial) (.int d) ss false = .ok r) :
    r.vals = (List.range vals.length).map (fun (i : Nat) => (i : K) + 1) := by
  have hl : (npSort vals).length = vals.length := (npSort_perm vals).length_eq
  rw [C53_polynomial F goe poisson kind vals d hd3 ss] at h
  rcases hc : F.polyfit (npSort vals) ((List.range vals.length).map fun (i : Nat) => (i : K) + 1) d with e | c
  · rw [hc] at h; cases h
  · rw [hc] at h
    cases h
    have hi := polyLS_interpolates c (npSort vals) _ d.toNat (hF _ _ _ _ (by omega) hc)
      ((npSort_perm vals).nodup_iff.mpr hnd) (by simp [hl]) (by omega)
    simp only [hi]
    apply npSort_of_ascending
    simp only [Ascending, List.pairwise_map]
    refine List.pairwise_lt_range.imp fun {a b} hab => ?_
    have : (a : K) ≤ (b : K) := by exact_mod_cast hab.le
    linarith

-- C75: the wiggle example is a genuine least-squares fit, and interpolation data exist
example : IsPolyLS wiggleCoef wiggleEigs (stepsOf 7) 3 := wiggle_ls
example : ∃ c : List ℚ, IsPolyLS c [0, 1, 3, 7] (stepsOf 4) 3 := by
  obtain ⟨c, h1, h2⟩ := exists_interpolant ([0, 1, 3, 7] : List ℚ) (by decide +kernel) (stepsOf 4) (by simp [stepsOf]) 3
    (by simp)
  refine ⟨c, h1, fun c' _ => ?_⟩
  rw [← h2, sse_eq_zero_of_map]
  exact sse_nonneg _ _ _

/-! ## C79: smoother strings in `Trimmed.unfold` -/

omit [IsStrictOrderedRing K] in
/-- **C79 (partial).** `Trimmed.unfold` given a member of `SmoothMethod` other than GOE / Poisson behaves like `Smoother.fit`: it succeeds
whenever the fit does. (Strings, the documented form of the argument, never succeed: `C79_refuted`.) -/
theorem C79_members_partial (F : Fitters K) (vals : List K) (d : Int) (hd : 3 ≤ d) (ss : PyVal)
    (detrend : Bool) (c : List K)
    (hc : F.polyfit (npSort vals) (stepsOf vals.length) d = .ok c) :
    ∃ r, trimmedUnfold F vals (.method .polynomial) (.int d) ss detrend = .ok r := by
  have hl : (npSort vals).length = vals.length := (npSort_perm vals).length_eq
  simp only [trimmedUnfold, validate, bind, Except.bind, fit, validateArgs, PyVal.asInt, hl, hc, mkUnfolded_eq]
  rw [if_neg (by omega)]
  exact ⟨_, rfl⟩

omit [IsStrictOrderedRing K] in
/-- **C79 (refuted).** `Trimmed.unfold` never accepts a string: with the documented strings and valid degree it raises `RuntimeError`;
no string ever gives a result. -/
theorem C79_refuted (F : Fitters K) (vals : List K) (s : String) (degree ss : PyVal) (detrend : Bool) :
    (∀ r, trimmedUnfold F vals (.str s) degree ss detrend ≠ .ok r) ∧
    (∀ d : Int, s = "poly" → 3 ≤ d → trimmedUnfold F vals (.str s) (.int d) ss detrend = .error .runtimeError) ∧
    ((s = "goe" ∨ s = "poisson" ∨ s = "gompertz" ∨ s = "exp") →
      trimmedUnfold F vals (.str s) degree ss detrend = .error .runtimeError) := by
  refine ⟨fun r h => ?_, ?_, ?_⟩
  · simp only [trimmedUnfold, bind, Except.bind, mkUnfolded_eq] at h
    rcases hf : fit F (npSort vals) (.str s) degree ss detrend false with e | q
    · simp [hf] at h
    · obtain ⟨f, -, -, -, -, -, h4⟩ := fit_ok F _ _ _ _ _ _ q hf
      simp at h4
  · rintro d rfl hd
    have h1 : validateArgs (.str "poly") (.int d) ss = .ok () := by
      have : validate (.str "poly") = .ok (.method .polynomial) := by decide
      simp [validateArgs, this, bind, Except.bind, PyVal.asInt, hd]
    simp [trimmedUnfold, bind, Except.bind, fit, h1]
  · intro hs
    have h1 : validateArgs (.str s) degree ss = .ok () := by
      rcases hs with rfl | rfl | rfl | rfl <;> simp [validateArgs, validate, allMethods, SmoothMethod.value, bind, Except.bind]
    simp [trimmedUnfold, bind, Except.bind, fit, h1]

end Props
end RMT
