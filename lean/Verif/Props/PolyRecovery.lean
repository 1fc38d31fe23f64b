import Verif.Props.PolyUnfold
import Mathlib.Algebra.Order.Rearrangement
import Mathlib.Data.Fin.Tuple.Sort
import Mathlib.LinearAlgebra.Matrix.Rank

/-!
# Property C162: how far polynomial unfolding is from the true unfolding

`F` bundles arbitrary library fitting routines; the only assumption is that `polyfit` returns least-squares polynomials.
The true unfolding of a spectrum whose counting function is described by a polynomial `p` is `p` applied to the levels; the counting values are `1, …, n`.
-/

set_option linter.unusedSectionVars false

namespace RMT
namespace Props
open Smooth Unfold EigValsM Spec

variable {K : Type} [Field K] [LinearOrder K] [IsStrictOrderedRing K]

/-- The sum of the squared differences of corresponding entries. -/
def sqDist (a b : List K) : K := (List.zipWith (fun x y => (x - y) ^ 2) a b).sum

theorem sqDist_comm (a b : List K) : sqDist a b = sqDist b a := by
  simp only [sqDist]
  rw [List.zipWith_comm]
  congr 2
  funext x y
  ring

theorem sqDist_nonneg (a b : List K) : 0 ≤ sqDist a b := by
  refine List.sum_nonneg fun z hz => ?_
  obtain ⟨i, hi, rfl⟩ := List.getElem_of_mem hz
  rw [List.getElem_zipWith]
  positivity

theorem fitError_eq_sqDist (E y : List K) (f : K → K) : fitError E y f = sqDist (E.map f) y := by
  rw [fitError, sqDist, List.zipWith_map_left]
  congr 2
  funext x y
  ring

theorem sqDist_zero {a b : List K} (hl : a.length = b.length) (h : sqDist a b = 0) : a = b := by
  induction a generalizing b with
  | nil => exact (List.eq_nil_of_length_eq_zero hl.symm).symm
  | cons x a ih =>
    cases b with
    | nil => simp at hl
    | cons y b =>
      have h1 : (x - y) ^ 2 + sqDist a b = 0 := by simpa [sqDist] using h
      have h2 := sqDist_nonneg a b
      have h3 : (x - y) ^ 2 = 0 := le_antisymm (by linarith) (sq_nonneg _)
      have h4 : x = y := by have := pow_eq_zero_iff (two_ne_zero) |>.1 h3; linarith
      rw [h4, ih (by simpa using hl) (by rw [h3] at h1; linarith)]

/-- Sorting brings a list closer to every ascending list. -/
theorem sqDist_sort (a b : List K) (hl : a.length = b.length) (hb : Ascending b) :
    sqDist (npSort a) b ≤ sqDist a b := by
  obtain ⟨n, hn⟩ : ∃ n, a.length = n := ⟨_, rfl⟩
  obtain ⟨f, rfl⟩ : ∃ f : Fin n → K, a = List.ofFn f := by
    subst hn; exact ⟨fun i => a[i], List.ofFn_getElem.symm⟩
  obtain ⟨g, rfl⟩ : ∃ g : Fin n → K, b = List.ofFn g := by
    have hn' : b.length = n := by rw [← hl, hn]
    subst hn'; exact ⟨fun i => b[i], List.ofFn_getElem.symm⟩
  have hg : Monotone g := by
    rw [← List.sortedLE_ofFn_iff]
    exact (show List.Pairwise (· ≤ ·) (List.ofFn g) from hb).sortedLE
  have hs : npSort (List.ofFn f) = List.ofFn (f ∘ Tuple.sort f) := by
    apply npSort_unique
    · exact (Tuple.sort f).ofFn_comp_perm f
    · exact (Tuple.monotone_sort f).sortedLE_ofFn.pairwise
  rw [hs]
  have e : ∀ h : Fin n → K, sqDist (List.ofFn h) (List.ofFn g) = ∑ i, (h i - g i) ^ 2 := by
    intro h
    simp only [sqDist]
    rw [← List.sum_ofFn]
    congr 1
    apply List.ext_getElem <;> simp
  rw [e, e]
  have hmv : Monovary (f ∘ Tuple.sort f) g := (Tuple.monotone_sort f).monovary hg
  have h1 := hmv.sum_comp_perm_mul_le_sum_mul (σ := (Tuple.sort f)⁻¹)
  simp only [Function.comp_apply, Equiv.Perm.inv_def, Equiv.apply_symm_apply] at h1
  have h2 : ∑ i, (f (Tuple.sort f i)) ^ 2 = ∑ i, (f i) ^ 2 := Equiv.sum_comp (Tuple.sort f) (fun i => (f i) ^ 2)
  have e2 : ∀ h : Fin n → K, ∑ i, (h i - g i) ^ 2 = ∑ i, (h i) ^ 2 - 2 * ∑ i, h i * g i + ∑ i, (g i) ^ 2 := by
    intro h
    rw [Finset.mul_sum, ← Finset.sum_sub_distrib, ← Finset.sum_add_distrib]
    exact Finset.sum_congr rfl fun i _ => by ring
  rw [e2, e2]
  simp only [Function.comp_apply]
  linarith

theorem counts_ascending (n : ℕ) : Ascending (counts n : List K) := by
  simp only [Ascending, counts, List.pairwise_map]
  refine List.pairwise_lt_range.imp fun h => ?_
  have : ((_ : ℕ) : K) < _ := Nat.cast_lt.mpr h
  linarith

/-- The fitted values are closer than any other polynomial of the degree, by their own distance (Pythagoras). -/
theorem polyLS_pythagoras {c E y : List K} {d : ℕ} (hc : IsPolyLS c E y d) (hl : E.length = y.length) (p : Polynomial K) (hp : p.natDegree ≤ d) :
    sqDist (E.map fun e => p.eval e) y = sqDist (E.map (polyAt c)) y + sqDist (E.map (polyAt c)) (E.map fun e => p.eval e) := by
  have h1 := polyLS_normal hc (toPoly c - p) ((Polynomial.natDegree_sub_le _ _).trans (max_le (toPoly_natDegree c d hc.1) hp))
  have h2 := sse_expand E y (polyAt c) (fun e => p.eval e)
  simp only [Polynomial.eval_sub, toPoly_eval] at h1
  rw [h1, fitError_eq_sqDist, fitError_eq_sqDist] at h2
  rw [h2, mul_zero, add_zero]
  congr 1
  clear h1 h2 hc
  induction E generalizing y with
  | nil => simp [sqDist]
  | cons x E ih =>
    cases y with
    | nil => simp at hl
    | cons z y =>
      have := ih (by simpa using hl)
      simp only [sqDist, List.zipWith_cons_cons, List.sum_cons, List.map_cons] at *
      rw [this]

theorem sqDist_ends (a b : List K) (hl : a.length = b.length) (h2 : 2 ≤ a.length) :
    (a.getD 0 0 - b.getD 0 0) ^ 2 + (a.getD (a.length - 1) 0 - b.getD (a.length - 1) 0) ^ 2 ≤ sqDist a b := by
  match a, b, hl, h2 with
  | x :: a, y :: b, hl, h2 =>
    have hl' : a.length = b.length := by simpa using hl
    have h1 : 0 < a.length := by simp at h2; omega
    have hm : (a.getD (a.length - 1) 0 - b.getD (a.length - 1) 0) ^ 2 ≤ sqDist a b := by
      refine List.single_le_sum (fun z hz => ?_) _ ?_
      · obtain ⟨i, hi, rfl⟩ := List.getElem_of_mem hz
        rw [List.getElem_zipWith]; positivity
      · rw [List.getD_eq_getElem _ _ (by omega), List.getD_eq_getElem _ _ (by omega)]
        have : (List.zipWith (fun x y => (x - y) ^ 2) a b)[a.length - 1]'(by simp; omega) ∈ List.zipWith (fun x y => (x - y) ^ 2) a b := List.getElem_mem _
        rwa [List.getElem_zipWith] at this
    obtain ⟨m, hm'⟩ : ∃ m, a.length = m + 1 := ⟨a.length - 1, by omega⟩
    rw [hm'] at hm
    simp only [List.length_cons, hm', Nat.add_sub_cancel, List.getD_cons_zero, List.getD_cons_succ, sqDist, List.zipWith_cons_cons, List.sum_cons] at *
    linarith

/-- **C162 (closest).** If `polyfit` is least squares, the unfolded values are at least as close to the counting values `1, …, n` (in sum of squares) as the true unfolding `p` of the levels,
for every polynomial `p` of at most the given degree; so if the counting function is such a polynomial, unfolding returns exactly `1, …, n`. -/
theorem C162_closest (F : Fitters K) (hF : LeastSquaresFit F) (goe poisson : List K → List K) (kind : Option MatrixKind)
    (vals : List K) (d : Int) (hd : 3 ≤ d) (ss : PyVal) (r : Unfolded K)
    (h : unfold F goe poisson kind vals (.method .polynomial) (.int d) ss false = .ok r)
    (p : Polynomial K) (hp : (p.natDegree : Int) ≤ d) :
    sqDist r.vals (counts vals.length) ≤ sqDist (r.originals.map fun e => p.eval e) (counts vals.length) ∧
    (r.originals.map (fun e => p.eval e) = counts vals.length → r.vals = counts vals.length) := by
  obtain ⟨c, hc, rfl⟩ := poly_unfold_ok F hF goe poisson kind vals d hd ss r h
  have hl0 : (npSort vals).length = vals.length := (npSort_perm vals).length_eq
  have hl : (npSort vals).length = (counts vals.length : List K).length := by
    rw [counts_length]; exact hl0
  have h1 := polyLS_pythagoras hc hl p (by omega)
  have h2 := sqDist_sort ((npSort vals).map (polyAt c)) (counts vals.length) (by simpa using hl) (counts_ascending _)
  have h3 := sqDist_nonneg ((npSort vals).map (polyAt c)) ((npSort vals).map fun e => p.eval e)
  have h4 : sqDist (npSort ((npSort vals).map (polyAt c))) (counts vals.length) ≤ sqDist ((npSort vals).map fun e => p.eval e) (counts vals.length) := by linarith
  refine ⟨h4, fun he => ?_⟩
  simp only at he ⊢
  rw [he] at h4
  have h0 : sqDist (counts vals.length) (counts vals.length : List K) = 0 := by simp [sqDist, List.zipWith_self]
  refine sqDist_zero ?_ (le_antisymm (h4.trans h0.le) (sqDist_nonneg _ _))
  rw [(npSort_perm _).length_eq, List.length_map, hl]

/-- **C162 (recovery).** If the true unfolding `p` is nondecreasing along the levels, the unfolded values differ from it (in sum of squares) by at most the fluctuation of the true unfolded levels around `1, …, n`. -/
theorem C162_recovery (F : Fitters K) (hF : LeastSquaresFit F) (goe poisson : List K → List K) (kind : Option MatrixKind)
    (vals : List K) (d : Int) (hd : 3 ≤ d) (ss : PyVal) (r : Unfolded K)
    (h : unfold F goe poisson kind vals (.method .polynomial) (.int d) ss false = .ok r)
    (p : Polynomial K) (hp : (p.natDegree : Int) ≤ d) (hm : ∀ x ∈ vals, ∀ y ∈ vals, x ≤ y → p.eval x ≤ p.eval y) :
    sqDist r.vals (r.originals.map fun e => p.eval e) ≤ sqDist (r.originals.map fun e => p.eval e) (counts vals.length) := by
  obtain ⟨c, hc, rfl⟩ := poly_unfold_ok F hF goe poisson kind vals d hd ss r h
  have hl0 : (npSort vals).length = vals.length := (npSort_perm vals).length_eq
  have hl : (npSort vals).length = (counts vals.length : List K).length := by
    rw [counts_length]; exact hl0
  have h1 := polyLS_pythagoras hc hl p (by omega)
  have ha : Ascending ((npSort vals).map fun e => p.eval e) := by
    have := npSort_ascending vals
    simp only [Ascending, List.pairwise_map] at this ⊢
    exact this.imp_of_mem fun hx hy hxy => hm _ ((npSort_perm vals).mem_iff.1 hx) _ ((npSort_perm vals).mem_iff.1 hy) hxy
  have h2 := sqDist_sort ((npSort vals).map (polyAt c)) ((npSort vals).map fun e => p.eval e) (by simp) ha
  have h3 := sqDist_nonneg ((npSort vals).map (polyAt c)) (counts vals.length)
  show sqDist (npSort _) _ ≤ _
  simp only
  linarith

/-- **C162 (mean spacing).** The mean spacing of the unfolded values is one, up to the quality of the best polynomial: for `n ≥ 2` levels, the distance from first to last unfolded value
differs from `n - 1` by at most the square root of twice the sum of squares of any polynomial `p` of the degree. -/
theorem C162_mean_spacing (F : Fitters K) (hF : LeastSquaresFit F) (goe poisson : List K → List K) (kind : Option MatrixKind)
    (vals : List K) (d : Int) (hd : 3 ≤ d) (ss : PyVal) (r : Unfolded K)
    (h : unfold F goe poisson kind vals (.method .polynomial) (.int d) ss false = .ok r)
    (p : Polynomial K) (hp : (p.natDegree : Int) ≤ d) (hn : 2 ≤ vals.length) :
    ((r.vals.getD (vals.length - 1) 0 - r.vals.getD 0 0) - ((vals.length : K) - 1)) ^ 2 ≤ 2 * sqDist (r.originals.map fun e => p.eval e) (counts vals.length) := by
  have h1 := (C162_closest F hF goe poisson kind vals d hd ss r h p hp).1
  obtain ⟨c, hc, rfl⟩ := poly_unfold_ok F hF goe poisson kind vals d hd ss r h
  have hl0 : (npSort vals).length = vals.length := (npSort_perm vals).length_eq
  have hlu : (npSort ((npSort vals).map (polyAt c))).length = vals.length := by rw [(npSort_perm _).length_eq, List.length_map, hl0]
  simp only at h1 ⊢
  have h2 := sqDist_ends (npSort ((npSort vals).map (polyAt c))) (counts vals.length) (by rw [hlu, counts_length]) (by omega)
  rw [hlu] at h2
  have e1 : (counts vals.length : List K).getD 0 0 = 1 := by
    rw [List.getD_eq_getElem _ _ (by rw [counts_length]; omega)]; simp [counts]
  have e2 : (counts vals.length : List K).getD (vals.length - 1) 0 = vals.length := by
    rw [List.getD_eq_getElem _ _ (by rw [counts_length]; omega)]
    simp only [counts, List.getElem_map, List.getElem_range]
    rw [Nat.cast_sub (by omega)]; simp
  rw [e1, e2] at h2
  generalize List.getD (npSort ((npSort vals).map (polyAt c))) (vals.length - 1) 0 = x at *
  generalize List.getD (npSort ((npSort vals).map (polyAt c))) 0 0 = y at *
  nlinarith [sq_nonneg ((x - vals.length) + (y - 1))]

/-- **C162 (again).** Unfolding the unfolded values once more never moves them away from `1, …, n`. -/
theorem C162_again (F : Fitters K) (hF : LeastSquaresFit F) (goe poisson : List K → List K) (kind kind' : Option MatrixKind)
    (vals : List K) (d d' : Int) (hd : 3 ≤ d) (hd' : 3 ≤ d') (ss ss' : PyVal) (r r' : Unfolded K)
    (h : unfold F goe poisson kind vals (.method .polynomial) (.int d) ss false = .ok r)
    (h' : unfold F goe poisson kind' r.vals (.method .polynomial) (.int d') ss' false = .ok r') :
    sqDist r'.vals (counts vals.length) ≤ sqDist r.vals (counts vals.length) := by
  have h1 := (C162_closest F hF goe poisson kind' r.vals d' hd' ss' r' h' Polynomial.X (by rw [Polynomial.natDegree_X]; omega)).1
  obtain ⟨c', hc', rfl⟩ := poly_unfold_ok F hF goe poisson kind' r.vals d' hd' ss' r' h'
  obtain ⟨c, hc, rfl⟩ := poly_unfold_ok F hF goe poisson kind vals d hd ss r h
  have hlu : (npSort ((npSort vals).map (polyAt c))).length = vals.length := by
    rw [(npSort_perm _).length_eq, List.length_map, (npSort_perm vals).length_eq]
  simp only [hlu, Polynomial.eval_X, List.map_id'] at h1
  rw [npSort_of_ascending (npSort ((npSort vals).map (polyAt c))) (npSort_ascending _)] at h1
  simp only
  rw [npSort_of_ascending (npSort ((npSort vals).map (polyAt c))) (npSort_ascending _)]
  exact h1

/-! ## The hypotheses are met: least-squares polynomials always exist -/

theorem exists_normal {m k : ℕ} (V : Matrix (Fin m) (Fin k) K) (y : Fin m → K) :
    ∃ c : Fin k → K, V.transpose.mulVec (V.mulVec c) = V.transpose.mulVec y := by
  have h1 : LinearMap.range (V.transpose * V).mulVecLin ≤ LinearMap.range V.transpose.mulVecLin := by
    rw [Matrix.mulVecLin_mul]
    exact LinearMap.range_comp_le_range _ _
  have h2 : Module.finrank K (LinearMap.range (V.transpose * V).mulVecLin) = Module.finrank K (LinearMap.range V.transpose.mulVecLin) := by
    have h3 := Matrix.rank_transpose_mul_self V
    have h4 := Matrix.rank_transpose V
    rw [← h4] at h3
    exact h3
  have h5 := Submodule.eq_of_le_of_finrank_eq h1 h2
  have h6 : V.transpose.mulVec y ∈ LinearMap.range (V.transpose * V).mulVecLin := by
    rw [h5]; exact ⟨y, rfl⟩
  obtain ⟨c, hc⟩ := h6
  refine ⟨c, ?_⟩
  rw [Matrix.mulVec_mulVec]
  exact hc

theorem exists_polyLS (xs ys : List K) (d : ℕ) (hl : xs.length = ys.length) : ∃ c, IsPolyLS c xs ys d := by
  obtain ⟨m, hm⟩ : ∃ m, xs.length = m := ⟨_, rfl⟩
  obtain ⟨f, rfl⟩ : ∃ f : Fin m → K, xs = List.ofFn f := by
    subst hm; exact ⟨fun i => xs[i], List.ofFn_getElem.symm⟩
  obtain ⟨g, rfl⟩ : ∃ g : Fin m → K, ys = List.ofFn g := by
    have hn' : ys.length = m := by rw [← hl, hm]
    subst hn'; exact ⟨fun i => ys[i], List.ofFn_getElem.symm⟩
  let V : Matrix (Fin m) (Fin (d + 1)) K := fun i k => f i ^ (k : ℕ)
  have ev : ∀ (c : Fin (d + 1) → K) (i : Fin m), polyAt (List.ofFn c) (f i) = V.mulVec c i := by
    intro c i
    simp only [polyAt, Matrix.mulVec, dotProduct, V]
    rw [List.length_ofFn, ← Fin.sum_univ_eq_sum_range (fun k => (List.ofFn c).getD k 0 * f i ^ k)]
    refine Finset.sum_congr rfl fun k _ => ?_
    rw [List.getD_eq_getElem _ _ (by rw [List.length_ofFn]; exact k.2), List.getElem_ofFn, mul_comm]
  obtain ⟨c, hc⟩ := exists_normal V g
  refine ⟨List.ofFn c, by simp, fun c' hc' => ?_⟩
  obtain ⟨k, rfl⟩ : ∃ k : Fin (d + 1) → K, c' = List.ofFn k := by
    have e : ∀ (n : ℕ), c'.length = n → ∃ k : Fin n → K, c' = List.ofFn k := by
      intro n hn; subst hn; exact ⟨fun i => c'[i], List.ofFn_getElem.symm⟩
    exact e _ hc'
  have es : ∀ (c : Fin (d + 1) → K), fitError (List.ofFn f) (List.ofFn g) (polyAt (List.ofFn c)) = ∑ i, (g i - V.mulVec c i) ^ 2 := by
    intro c
    rw [fitError, ← List.sum_ofFn]
    congr 1
    apply List.ext_getElem
    · simp
    · intro i h1 h2
      simp only [List.getElem_zipWith, List.getElem_ofFn, ev]
  rw [es, es]
  have h0 : ∑ i, (g i - V.mulVec c i) * (V.mulVec c i - V.mulVec k i) = 0 := by
    have h1 : (g - V.mulVec c) ⬝ᵥ V.mulVec (c - k) = 0 := by
      rw [Matrix.dotProduct_mulVec, ← Matrix.mulVec_transpose, Matrix.mulVec_sub, hc, sub_self, zero_dotProduct]
    rw [Matrix.mulVec_sub] at h1
    exact h1
  have h1 : ∑ i, (g i - V.mulVec k i) ^ 2 = ∑ i, (g i - V.mulVec c i) ^ 2 + 2 * ∑ i, (g i - V.mulVec c i) * (V.mulVec c i - V.mulVec k i) + ∑ i, (V.mulVec c i - V.mulVec k i) ^ 2 := by
    rw [Finset.mul_sum, ← Finset.sum_add_distrib, ← Finset.sum_add_distrib]
    exact Finset.sum_congr rfl fun i _ => by ring
  rw [h0] at h1
  have h2 : 0 ≤ ∑ i, (V.mulVec c i - V.mulVec k i) ^ 2 := Finset.sum_nonneg fun i _ => sq_nonneg _
  linarith

theorem ls_unfold_ok (vals : List ℚ) (d : Int) (hd : 3 ≤ d) (ss : PyVal) :
    ∃ r, unfold lsFitters id id none vals (.method .polynomial) (.int d) ss false = .ok r := by
  obtain ⟨c, hc⟩ := lsFitters_ok (npSort vals) (counts vals.length) d (exists_polyLS _ _ _ (by rw [counts_length, (npSort_perm vals).length_eq]))
  rw [C53_polynomial _ _ _ _ _ _ hd]
  erw [hc]
  exact ⟨_, rfl⟩

-- C162: every spectrum unfolds, and unfolds again; `p = x + 1` is nondecreasing and of degree at most 3
example (vals : List ℚ) (ss : PyVal) : LeastSquaresFit lsFitters ∧ ∃ r r', unfold lsFitters id id none vals (.method .polynomial) (.int 3) ss false = .ok r ∧
    unfold lsFitters id id none r.vals (.method .polynomial) (.int 4) ss false = .ok r' ∧
    ∃ p : Polynomial ℚ, (p.natDegree : Int) ≤ 3 ∧ ∀ x ∈ vals, ∀ y ∈ vals, x ≤ y → p.eval x ≤ p.eval y := by
  obtain ⟨r, hr⟩ := ls_unfold_ok vals 3 (by norm_num) ss
  obtain ⟨r', hr'⟩ := ls_unfold_ok r.vals 4 (by norm_num) ss
  refine ⟨lsFitters_ls, r, r', hr, hr', Polynomial.X + Polynomial.C 1, ?_, ?_⟩
  · rw [Polynomial.natDegree_X_add_C]; norm_num
  · intro x _ y _ h; simpa using h

end Props
end RMT
