import Verif.Props.Unfolding
import Verif.Lemmas.PolyInvariance

/-!
# Properties C121, C122: the polynomial unfolding does not depend on the units of energy

`F` bundles arbitrary library fitting routines; the only assumption is that `polyfit` returns least-squares polynomials.
-/

set_option linter.unusedSectionVars false

namespace RMT
namespace Props
open Smooth Unfold EigValsM Spec

variable {K : Type} [Field K] [LinearOrder K] [IsStrictOrderedRing K]

/-- The counting values `1, …, n`. -/
def counts (n : ℕ) : List K := (List.range n).map fun (i : ℕ) => (i : K) + 1

/-- What a successful polynomial unfolding is. -/
theorem poly_unfold_ok (F : Fitters K) (hF : LeastSquaresFit F) (goe poisson : List K → List K) (kind : Option MatrixKind)
    (vals : List K) (d : Int) (hd : 3 ≤ d) (ss : PyVal) (r : Unfolded K)
    (h : unfold F goe poisson kind vals (.method .polynomial) (.int d) ss false = .ok r) :
    ∃ c, IsPolyLS c (npSort vals) (counts vals.length) d.toNat ∧
      r = ⟨npSort vals, npSort ((npSort vals).map (polyAt c)), .unary fun xs => some (xs.map (polyAt c))⟩ := by
  rw [C53_polynomial F goe poisson kind vals d hd ss] at h
  rcases hc : F.polyfit (npSort vals) ((List.range vals.length).map fun (i : Nat) => (i : K) + 1) d with e | c
  · rw [hc] at h; cases h
  · rw [hc] at h
    cases h
    exact ⟨c, hF _ _ _ _ (by omega) hc, rfl⟩

theorem npSort_affine (vals : List K) (a b : K) (ha : 0 < a) :
    npSort (vals.map fun x => a * x + b) = (npSort vals).map fun x => a * x + b := by
  apply npSort_unique
  · exact (npSort_perm vals).map _ 
  · have := npSort_ascending vals
    simp only [Ascending, List.pairwise_map] at this ⊢
    exact this.imp fun h => by nlinarith

theorem npSort_anti (vals : List K) (a b : K) (ha : a < 0) :
    npSort (vals.map fun x => a * x + b) = ((npSort vals).map fun x => a * x + b).reverse := by
  apply npSort_unique
  · exact (List.reverse_perm _).trans ((npSort_perm vals).map _)
  · have := npSort_ascending vals
    simp only [Ascending, List.pairwise_reverse, List.pairwise_map] at this ⊢
    exact this.imp fun h => by nlinarith

theorem counts_length (n : ℕ) : (counts n : List K).length = n := by simp [counts]

theorem fitted_affine {c c' E y : List K} {d : ℕ} (a b : K) (ha : a ≠ 0) (hl : E.length = y.length)
    (h : IsPolyLS c E y d) (h' : IsPolyLS c' (E.map fun x => a * x + b) y d) :
    (E.map fun x => a * x + b).map (polyAt c') = E.map (polyAt c) ∧
    (d < E.dedup.length → ∀ x, polyAt c' (a * x + b) = polyAt c x) := by
  obtain ⟨q, hq, hq'⟩ := polyLS_comp a b ha h'
  have h1 := polyLS_unique hq h hl
  constructor
  · rw [List.map_map, ← h1]
    exact List.map_congr_left fun x _ => (hq' x).symm
  · intro hd x
    rw [← hq' x]
    exact polyAt_ext hq.1 h.1 hd h1 x

/-! ## C121: units -/

/-- **C121 (`Eigenvalues.unfold`).** If `polyfit` is least squares, polynomial unfolding does not depend on the units and the origin of energy: unfolding `a·e + b` with `a > 0` gives the same
unfolded values as unfolding `e`, and when there are more than `degree` distinct eigenvalues the stored smoothers agree at corresponding energies. -/
theorem C121_unfold (F : Fitters K) (hF : LeastSquaresFit F) (goe poisson : List K → List K) (kind : Option MatrixKind)
    (vals : List K) (a b : K) (ha : 0 < a) (d : Int) (hd : 3 ≤ d) (ss : PyVal) (r r' : Unfolded K)
    (h : unfold F goe poisson kind vals (.method .polynomial) (.int d) ss false = .ok r)
    (h' : unfold F goe poisson kind (vals.map fun e => a * e + b) (.method .polynomial) (.int d) ss false = .ok r') :
    r'.vals = r.vals ∧ r'.originals = r.originals.map (fun e => a * e + b) ∧
    (d < vals.dedup.length → ∀ xs, evaluateSmoother r' (xs.map fun e => a * e + b) = evaluateSmoother r xs) := by
  obtain ⟨c, hc, rfl⟩ := poly_unfold_ok F hF goe poisson kind vals d hd ss r h
  obtain ⟨c', hc', rfl⟩ := poly_unfold_ok F hF goe poisson kind _ d hd ss r' h'
  rw [npSort_affine vals a b ha, List.length_map] at hc'
  have hl : (npSort vals).length = (counts vals.length : List K).length := by
    rw [counts_length]; exact (npSort_perm vals).length_eq
  obtain ⟨h1, h2⟩ := fitted_affine a b ha.ne' hl hc hc'
  refine ⟨?_, npSort_affine vals a b ha, fun hdd xs => ?_⟩
  · simp only [npSort_affine vals a b ha, h1]
  · have h3 := h2 (by rw [(npSort_perm vals).dedup.length_eq]; omega)
    simp only [evaluateSmoother, List.map_map]
    congr 2
    exact List.map_congr_left fun x _ => h3 x

/-- **C121 (reflection).** With `a < 0` the spectrum is reflected, and so is the result: the unfolded values `u` become `n + 1 - u`, in reversed order. -/
theorem C121_reflect (F : Fitters K) (hF : LeastSquaresFit F) (goe poisson : List K → List K) (kind : Option MatrixKind)
    (vals : List K) (a b : K) (ha : a < 0) (d : Int) (hd : 3 ≤ d) (ss : PyVal) (r r' : Unfolded K)
    (h : unfold F goe poisson kind vals (.method .polynomial) (.int d) ss false = .ok r)
    (h' : unfold F goe poisson kind (vals.map fun e => a * e + b) (.method .polynomial) (.int d) ss false = .ok r') :
    r'.vals = (r.vals.map fun u => (vals.length : K) + 1 - u).reverse := by
  obtain ⟨c, hc, rfl⟩ := poly_unfold_ok F hF goe poisson kind vals d hd ss r h
  obtain ⟨c', hc', rfl⟩ := poly_unfold_ok F hF goe poisson kind _ d hd ss r' h'
  have hl : (npSort vals).length = (counts vals.length : List K).length := by
    rw [counts_length]; exact (npSort_perm vals).length_eq
  have hrev : (counts vals.length : List K) = ((counts vals.length).map fun y => ((vals.length : K) + 1) - y).reverse := by
    apply List.ext_getElem (by simp [counts])
    intro i h1 h2
    simp only [counts, List.getElem_map, List.getElem_range, List.getElem_reverse, List.length_map, List.length_range]
    have : i < vals.length := by simpa [counts] using h1
    have e : ((vals.length - 1 - i : ℕ) : K) = (vals.length : K) - 1 - i := by
      rw [Nat.cast_sub (by omega), Nat.cast_sub (by omega)]; simp
    rw [e]; ring
  rw [npSort_anti vals a b ha, List.length_map, hrev] at hc'
  obtain ⟨q, hq, hq'⟩ := polyLS_reflect ((vals.length : K) + 1) (by rw [List.length_map]; exact hl) hc'
  obtain ⟨h1, -⟩ := fitted_affine a b ha.ne hl hc hq
  show npSort _ = _
  rw [npSort_anti vals a b ha]
  have h4 : ((npSort vals).map fun x => a * x + b).reverse.map (polyAt c') =
      ((((npSort vals).map (polyAt c)).map fun u => (-1) * u + ((vals.length : K) + 1))).reverse := by
    rw [← h1, List.map_reverse, List.map_map, List.map_map, List.map_map]
    congr 1
    refine List.map_congr_left fun x _ => ?_
    simp only [Function.comp_apply, hq']
    ring
  rw [h4, npSort_eq_of_perm (List.reverse_perm _), npSort_anti _ (-1) _ (by norm_num)]
  congr 1
  refine List.map_congr_left fun x _ => ?_
  ring

/-- **C121 (`Trimmed.unfold`).** The same for `Trimmed.unfold`, whose values are not sorted after the fit. -/
theorem C121_trimmed (F : Fitters K) (hF : LeastSquaresFit F) (vals : List K) (a b : K) (ha : 0 < a) (d : Int) (ss : PyVal) (r r' : Unfolded K)
    (h : trimmedUnfold F vals (.method .polynomial) (.int d) ss false = .ok r)
    (h' : trimmedUnfold F (vals.map fun e => a * e + b) (.method .polynomial) (.int d) ss false = .ok r') :
    r'.vals = r.vals ∧ r'.originals = r.originals.map (fun e => a * e + b) := by
  have key : ∀ (v : List K) (r : Unfolded K), trimmedUnfold F v (.method .polynomial) (.int d) ss false = .ok r →
      ∃ c, IsPolyLS c (npSort v) (counts v.length) d.toNat ∧ r.vals = (npSort v).map (polyAt c) ∧ r.originals = npSort v := by
    intro v r h
    simp only [trimmedUnfold, validate, bind, Except.bind, fit, validateArgs, PyVal.asInt, mkUnfolded_eq] at h
    have hl : (npSort v).length = v.length := (npSort_perm v).length_eq
    by_cases hd : d < 3
    · simp [hd] at h
    simp only [hd, if_false, hl] at h
    rcases hc : F.polyfit (npSort v) (stepsOf v.length) d with e | c
    · simp [hc] at h
    simp only [hc] at h
    cases h
    have hp : polyval c = polyAt c := funext fun x => polyval_eq_polyAt c x
    exact ⟨c, hF _ _ _ _ (by omega) hc, by simp [hp], rfl⟩
  obtain ⟨c, hc, h1, h2⟩ := key _ _ h
  obtain ⟨c', hc', h1', h2'⟩ := key _ _ h'
  rw [npSort_affine vals a b ha, List.length_map] at hc'
  have hl : (npSort vals).length = (counts vals.length : List K).length := by
    rw [counts_length]; exact (npSort_perm vals).length_eq
  rw [h1, h2, h1', h2', npSort_affine vals a b ha]
  exact ⟨(fitted_affine a b ha.ne' hl hc hc').1, rfl⟩

/-- **C121 (`fit_all`).** The columns of the smoothing summary (unfolded values, spacings and mean squared error) are the same. -/
theorem C121_fit (F : Fitters K) (hF : LeastSquaresFit F) (eigs : List K) (a b : K) (ha : 0 < a) (name : String) (d : Int) (ss : PyVal)
    (col col' : Col K) (h : fitOne F eigs false name (.method .polynomial) (.int d) ss = .ok col)
    (h' : fitOne F (eigs.map fun e => a * e + b) false name (.method .polynomial) (.int d) ss = .ok col') :
    col'.unfolded = col.unfolded ∧ col'.spacings = col.spacings ∧ col'.msqe = col.msqe := by
  obtain ⟨h3, c, hc, hu, hm⟩ := fitOne_poly F eigs name d ss col h
  obtain ⟨-, c', hc', hu', hm'⟩ := fitOne_poly F _ name d ss col' h'
  rw [List.length_map] at hc'
  have h1 := hF _ _ _ _ (by omega) hc
  have h2 := hF _ _ _ _ (by omega) hc'
  obtain ⟨h4, -⟩ := fitted_affine a b ha.ne' (by simp [stepsOf]) h1 h2
  have hu2 : col'.unfolded = col.unfolded := by rw [hu, hu', h4]
  refine ⟨hu2, ?_, ?_⟩
  · have key : ∀ (E : List K) (x : Col K), fitOne F E false name (.method .polynomial) (.int d) ss = .ok x → x.spacings = diff x.unfolded := by
      intro E x hx
      simp only [fitOne, bind, Except.bind] at hx
      split at hx
      · cases hx
      · cases hx; rfl
    rw [key _ _ h, key _ _ h', hu2]
  · rw [hm, hm', List.length_map]
    have e : ∀ (E : List K) (f : K → K), fitError E (stepsOf eigs.length) f = (List.zipWith (fun u y => (y - u) ^ 2) (E.map f) (stepsOf eigs.length)).sum := by
      intro E f; rw [fitError, List.zipWith_map_left]
    rw [e, e, h4]

/-! ## C122: moments -/

theorem sum_zip_sub (f : K → K) (E y : List K) (hl : E.length = y.length) :
    wsum E y f (fun _ => 1) = y.sum - (E.map f).sum := by
  induction E generalizing y with
  | nil => cases y with
    | nil => simp [wsum]
    | cons => simp at hl
  | cons x E ih => cases y with
    | nil => simp at hl
    | cons z y =>
      have := ih y (by simpa using hl)
      simp only [wsum, List.zipWith_cons_cons, List.sum_cons, List.map_cons] at *
      rw [this]; ring

theorem sum_sq_split (f : K → K) (E y : List K) (hl : E.length = y.length) :
    (y.map (· ^ 2)).sum = ((E.map f).map (· ^ 2)).sum + 2 * wsum E y f f + fitError E y f := by
  induction E generalizing y with
  | nil => cases y with
    | nil => simp [wsum, fitError]
    | cons => simp at hl
  | cons x E ih => cases y with
    | nil => simp at hl
    | cons z y =>
      have := ih y (by simpa using hl)
      simp only [wsum, fitError, List.zipWith_cons_cons, List.sum_cons, List.map_cons] at *
      rw [this]; ring

theorem sum_counts (n : ℕ) : (counts n : List K).sum = n * (n + 1) / 2 := by
  induction n with
  | zero => simp [counts]
  | succ n ih =>
    rw [counts, List.range_succ, List.map_append, List.sum_append] at *
    rw [show ((List.range n).map fun (i : ℕ) => (i : K) + 1).sum = n * (n + 1) / 2 from ih]
    push_cast
    simp
    ring

/-- **C122 (mean and spread).** If `polyfit` is least squares, polynomial unfolding preserves the mean of the counting function, and does not increase its spread: the unfolded values sum to
`1 + 2 + ⋯ + n`, and the sum of their squares is `1² + ⋯ + n²` minus `n` times the mean squared error of the fit, hence at most `1² + ⋯ + n²`. -/
theorem C122_moments (F : Fitters K) (hF : LeastSquaresFit F) (goe poisson : List K → List K) (kind : Option MatrixKind)
    (vals : List K) (d : Int) (hd : 3 ≤ d) (ss : PyVal) (r : Unfolded K)
    (h : unfold F goe poisson kind vals (.method .polynomial) (.int d) ss false = .ok r) :
    r.vals.sum = (vals.length : K) * (vals.length + 1) / 2 ∧
    ∀ (name : String) (col : Col K), fitOne F (npSort vals) false name (.method .polynomial) (.int d) ss = .ok col →
      (r.vals.map (· ^ 2)).sum = ((List.range vals.length).map fun (i : ℕ) => ((i : K) + 1) ^ 2).sum - vals.length * col.msqe := by
  obtain ⟨c, hc, rfl⟩ := poly_unfold_ok F hF goe poisson kind vals d hd ss r h
  have hl0 : (npSort vals).length = vals.length := (npSort_perm vals).length_eq
  have hl : (npSort vals).length = (counts vals.length : List K).length := by
    rw [counts_length]; exact hl0
  constructor
  · have h1 := polyLS_normal hc 1 (by simp)
    simp only [Polynomial.eval_one] at h1
    rw [sum_zip_sub _ _ _ hl, sum_counts] at h1
    show (npSort _).sum = _
    rw [(npSort_perm _).sum_eq]
    linarith
  · intro name col hcol
    obtain ⟨-, c', hc', -, hm⟩ := fitOne_poly F _ name d ss col hcol
    rw [hl0] at hc' hm
    have h2 : IsPolyLS c' (npSort vals) (counts vals.length) d.toNat := hF _ _ _ _ (by omega) hc'
    have e : ∀ (f : K → K), fitError (npSort vals) (counts vals.length) f = (List.zipWith (fun u y => (y - u) ^ 2) ((npSort vals).map f) (counts vals.length)).sum := by
      intro f; rw [fitError, List.zipWith_map_left]
    have hE : fitError (npSort vals) (counts vals.length) (polyAt c) = fitError (npSort vals) (counts vals.length) (polyAt c') := by
      rw [e, e, polyLS_unique hc h2 hl]
    have h1 := polyLS_normal hc (toPoly c) (toPoly_natDegree c _ hc.1)
    simp only [toPoly_eval] at h1
    have h3 := sum_sq_split (polyAt c) _ _ hl
    rw [h1, hE] at h3
    show ((npSort _).map _).sum = _
    rw [((npSort_perm _).map _).sum_eq]
    rw [show (counts vals.length : List K).map (· ^ 2) = (List.range vals.length).map fun (i : ℕ) => ((i : K) + 1) ^ 2 by simp [counts]] at h3
    rw [h3, hm]
    have hst : (stepsOf vals.length : List K) = counts vals.length := rfl
    rw [hst]
    by_cases hn : (vals.length : K) = 0
    · have : vals.length = 0 := by exact_mod_cast hn
      have h0 : vals = [] := List.eq_nil_of_length_eq_zero this
      subst h0
      have hnil : npSort ([] : List K) = [] := List.eq_nil_of_length_eq_zero (by rw [hl0]; rfl)
      simp [hnil, fitError]
    · rw [mul_div_cancel₀ _ hn]; ring

/-- **C122 (residuals).** In `fit_all`, the differences between the counting values and the fitted curve are orthogonal to every power `e^k`, `k ≤ degree`: no polynomial trend of that degree is left. -/
theorem C122_residuals (F : Fitters K) (hF : LeastSquaresFit F) (eigs : List K) (d : Int) (hd : 0 ≤ d) (c : List K)
    (h : F.polyfit eigs (counts eigs.length) d = .ok c) (k : ℕ) (hk : (k : Int) ≤ d) :
    (List.zipWith (fun e y => (y - polyAt c e) * e ^ k) eigs (counts eigs.length)).sum = 0 := by
  have := polyLS_normal (hF _ _ _ _ hd h) (Polynomial.X ^ k) (by simp; omega)
  simpa [wsum] using this

/-! ## The hypotheses are met -/

open Classical in
/-- Fitting routines whose `polyfit` returns some least-squares polynomial whenever there is one. -/
noncomputable def lsFitters : Fitters ℚ :=
  { constFitters [] with
    polyfit := fun x y d => if h : ∃ c, IsPolyLS c x y d.toNat then .ok h.choose else .error .valueError }

theorem lsFitters_ls : LeastSquaresFit lsFitters := by
  intro x y d c _ h
  simp only [lsFitters] at h
  split at h
  · rename_i hex
    cases h
    exact hex.choose_spec
  · cases h

theorem lsFitters_ok (x y : List ℚ) (d : Int) (h : ∃ c, IsPolyLS c x y d.toNat) : ∃ c, lsFitters.polyfit x y d = .ok c := by
  simp only [lsFitters]
  rw [dif_pos h]
  exact ⟨_, rfl⟩

theorem wiggle_affine (a b : ℚ) (ha : a ≠ 0) : ∃ c, IsPolyLS c (wiggleEigs.map fun x => a * x + b) (counts 7) 3 := by
  have h1 : (wiggleEigs.map fun x => a * x + b).map (fun x => a⁻¹ * x + -(b / a)) = wiggleEigs := by
    rw [List.map_map]
    conv_rhs => rw [← List.map_id wiggleEigs]
    refine List.map_congr_left fun x _ => ?_
    simp only [Function.comp_apply, id]
    field_simp
    ring
  obtain ⟨c, hc, -⟩ := polyLS_comp (c := wiggleCoef) (xs := wiggleEigs.map fun x => a * x + b) (ys := counts 7) (d := 3) a⁻¹ (-(b / a)) (inv_ne_zero ha) (by
    rw [h1]; exact wiggle_ls)
  exact ⟨c, hc⟩

-- C121, C122: seven levels (two of them doubly degenerate) unfold with degree 3, in any units; they have more than 3 distinct values
example (a b : ℚ) (ha : 0 < a) (ss : PyVal) : LeastSquaresFit lsFitters ∧
    ∃ r r', unfold lsFitters id id none wiggleEigs (.method .polynomial) (.int 3) ss false = .ok r ∧
      unfold lsFitters id id none (wiggleEigs.map fun e => a * e + b) (.method .polynomial) (.int 3) ss false = .ok r' := by
  have hw : npSort wiggleEigs = wiggleEigs := npSort_of_ascending _ (by simp only [Ascending, wiggleEigs]; decide +kernel)
  refine ⟨lsFitters_ls, ?_⟩
  obtain ⟨c, hc⟩ := lsFitters_ok wiggleEigs (counts 7) 3 ⟨wiggleCoef, wiggle_ls⟩
  obtain ⟨c', hc'⟩ := lsFitters_ok (wiggleEigs.map fun x => a * x + b) (counts 7) 3 (wiggle_affine a b ha.ne')
  have h1 : ∃ r, unfold lsFitters id id none wiggleEigs (.method .polynomial) (.int 3) ss false = .ok r := by
    rw [C53_polynomial _ _ _ _ _ _ (by norm_num), hw]
    erw [hc]
    exact ⟨_, rfl⟩
  have h2 : ∃ r, unfold lsFitters id id none (wiggleEigs.map fun e => a * e + b) (.method .polynomial) (.int 3) ss false = .ok r := by
    rw [C53_polynomial _ _ _ _ _ _ (by norm_num), npSort_affine _ a b ha, hw, List.length_map]
    erw [hc']
    exact ⟨_, rfl⟩
  obtain ⟨r, hr⟩ := h1
  obtain ⟨r', hr'⟩ := h2
  exact ⟨r, r', hr, hr'⟩

example : 3 < wiggleEigs.dedup.length := by decide +kernel

end Props
end RMT
