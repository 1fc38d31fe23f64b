import Verif.Lemmas.PolyFit
import Mathlib.Algebra.Polynomial.Eval.Degree
import Mathlib.Algebra.Polynomial.Roots

/-! # Least-squares polynomials: normal equations, uniqueness, change of variable -/

set_option linter.unusedSectionVars false

namespace RMT
open Spec Smooth

variable {K : Type} [Field K] [LinearOrder K]

/-- The polynomial with the given list of coefficients. -/
noncomputable def toPoly (c : List K) : Polynomial K :=
  ∑ k ∈ Finset.range c.length, Polynomial.monomial k (c.getD k 0)

theorem toPoly_eval (c : List K) (x : K) : (toPoly c).eval x = polyAt c x := by
  simp [toPoly, polyAt, Polynomial.eval_finsetSum]

theorem toPoly_natDegree (c : List K) (d : Nat) (hc : c.length = d + 1) : (toPoly c).natDegree ≤ d := by
  refine Polynomial.natDegree_sum_le_of_forall_le _ _ fun k hk => ?_
  refine (Polynomial.natDegree_monomial_le _).trans ?_
  have := Finset.mem_range.mp hk
  omega

theorem exists_coeffs (p : Polynomial K) (d : Nat) (hp : p.natDegree ≤ d) :
    ∃ c : List K, c.length = d + 1 ∧ ∀ x, polyAt c x = p.eval x := by
  refine ⟨(List.range (d + 1)).map fun (k : Nat) => p.coeff k, by simp, fun x => ?_⟩
  rw [Polynomial.eval_eq_sum_range' (Nat.lt_succ_of_le hp), polyAt]
  simp only [List.length_map, List.length_range]
  refine Finset.sum_congr rfl fun k hk => ?_
  rw [List.getD_eq_getElem _ _ (by simpa using hk)]
  simp

variable [IsStrictOrderedRing K]

/-- Optimality among all polynomial functions of degree at most `d`. -/
theorem isPolyLS_poly {c xs ys : List K} {d : Nat} (h : IsPolyLS c xs ys d) (p : Polynomial K)
    (hp : p.natDegree ≤ d) : fitError xs ys (polyAt c) ≤ fitError xs ys (fun x => p.eval x) := by
  obtain ⟨c', h1, h2⟩ := exists_coeffs p d hp
  have := h.2 c' h1
  rwa [show polyAt c' = fun x => p.eval x from funext h2] at this

theorem sum_sq_zip_nonneg (xs ys : List K) (g : K → K) : 0 ≤ (List.zipWith (fun x _ => (g x) ^ 2) xs ys).sum := by
  induction xs generalizing ys with
  | nil => simp
  | cons x xs ih =>
    cases ys with
    | nil => simp
    | cons y ys =>
      have := ih ys
      simp only [List.zipWith_cons_cons, List.sum_cons]
      nlinarith [sq_nonneg (g x)]

theorem sum_sq_zip_smul (xs ys : List K) (t : K) (g : K → K) :
    (List.zipWith (fun x _ => (-t * g x) ^ 2) xs ys).sum = t ^ 2 * (List.zipWith (fun x _ => (g x) ^ 2) xs ys).sum := by
  induction xs generalizing ys with
  | nil => simp
  | cons x xs ih =>
    cases ys with
    | nil => simp
    | cons y ys =>
      have := ih ys
      simp only [List.zipWith_cons_cons, List.sum_cons]
      rw [this]; ring

/-- Normal equations: the residuals are orthogonal to every polynomial of degree at most `d`. -/
theorem polyLS_normal {c xs ys : List K} {d : Nat} (h : IsPolyLS c xs ys d) (p : Polynomial K)
    (hp : p.natDegree ≤ d) : wsum xs ys (polyAt c) (fun x => p.eval x) = 0 := by
  set W := wsum xs ys (polyAt c) (fun x => p.eval x) with hW
  set G := (List.zipWith (fun x _ => (p.eval x) ^ 2) xs ys).sum with hG
  have hG0 : 0 ≤ G := sum_sq_zip_nonneg xs ys _
  have key : ∀ t : K, 0 ≤ -2 * t * W + t ^ 2 * G := by
    intro t
    have h1 := isPolyLS_poly h (toPoly c + Polynomial.C t * p) (by
      refine (Polynomial.natDegree_add_le _ _).trans (max_le (toPoly_natDegree c d h.1) ?_)
      exact (Polynomial.natDegree_C_mul_le _ _).trans hp)
    have h2 := sse_expand xs ys (polyAt c) (fun x => (toPoly c + Polynomial.C t * p).eval x)
    have e1 : (fun x => polyAt c x - (toPoly c + Polynomial.C t * p).eval x) = fun x => (-t) * p.eval x := by
      funext x
      simp [toPoly_eval]
    have e2 : (List.zipWith (fun x _ => (polyAt c x - (toPoly c + Polynomial.C t * p).eval x) ^ 2) xs ys).sum = t ^ 2 * G := by
      have e3 : ∀ x, polyAt c x - (toPoly c + Polynomial.C t * p).eval x = (-t) * p.eval x := fun x => congrFun e1 x
      simp only [e3, hG]
      exact sum_sq_zip_smul xs ys t _
    rw [e1, wsum_smul, e2] at h2
    rw [← hW] at h2
    linarith
  by_contra hne
  have h1 := key (W / (G + 1))
  have hG1 : 0 < G + 1 := by linarith
  have h2 : -2 * (W / (G + 1)) * W + (W / (G + 1)) ^ 2 * G = -(W ^ 2 * (G + 2)) / (G + 1) ^ 2 := by
    field_simp
    ring
  rw [h2] at h1
  have h3 : 0 < W ^ 2 * (G + 2) / (G + 1) ^ 2 := by
    have : 0 < W ^ 2 := by positivity
    positivity
  rw [neg_div] at h1
  linarith

theorem wsum_sub (xs ys : List K) (f g h : K → K) :
    wsum xs ys f h - wsum xs ys g h = (List.zipWith (fun x _ => (g x - f x) * h x) xs ys).sum := by
  induction xs generalizing ys with
  | nil => simp [wsum]
  | cons x xs ih =>
    cases ys with
    | nil => simp [wsum]
    | cons y ys =>
      have := ih ys
      simp only [wsum, List.zipWith_cons_cons, List.sum_cons] at *
      rw [← this]; ring

theorem eq_of_sum_sq_zero (xs ys : List K) (f g : K → K) (hl : xs.length = ys.length)
    (h : (List.zipWith (fun x _ => (f x - g x) ^ 2) xs ys).sum = 0) : xs.map f = xs.map g := by
  have h1 : fitError xs (xs.map f) g = 0 := by
    rw [fitError, List.zipWith_map_right, ← h]
    clear h
    induction xs generalizing ys with
    | nil => simp
    | cons x xs ih =>
      cases ys with
      | nil => simp at hl
      | cons y ys =>
        have := ih ys (by simpa using hl)
        simp only [List.zipWith_cons_cons, List.sum_cons]
        rw [this]
  exact (sse_eq_zero xs (xs.map f) g (by simp) h1).symm

/-- The fitted values are unique. -/
theorem polyLS_unique {c c' xs ys : List K} {d : Nat} (h : IsPolyLS c xs ys d) (h' : IsPolyLS c' xs ys d)
    (hl : xs.length = ys.length) : xs.map (polyAt c) = xs.map (polyAt c') := by
  have hd : (toPoly c - toPoly c').natDegree ≤ d :=
    (Polynomial.natDegree_sub_le _ _).trans (max_le (toPoly_natDegree c d h.1) (toPoly_natDegree c' d h'.1))
  have h1 := polyLS_normal h (toPoly c - toPoly c') hd
  have h2 := polyLS_normal h' (toPoly c - toPoly c') hd
  have h3 := wsum_sub xs ys (polyAt c') (polyAt c) (fun x => (toPoly c - toPoly c').eval x)
  rw [h1, h2] at h3
  apply eq_of_sum_sq_zero xs ys _ _ hl
  rw [sub_self] at h3
  rw [h3]
  congr 2
  funext x _
  simp [toPoly_eval]
  ring

/-- Least squares under a change of variable `x ↦ a x + b`. -/
theorem polyLS_comp {c xs ys : List K} {d : Nat} (a b : K) (ha : a ≠ 0) (h : IsPolyLS c (xs.map fun x => a * x + b) ys d) :
    ∃ c', IsPolyLS c' xs ys d ∧ ∀ x, polyAt c' x = polyAt c (a * x + b) := by
  have hlin : (Polynomial.C a * Polynomial.X + Polynomial.C b : Polynomial K).natDegree ≤ 1 :=
    Polynomial.natDegree_linear_le
  obtain ⟨c', h1, h2⟩ := exists_coeffs ((toPoly c).comp (Polynomial.C a * Polynomial.X + Polynomial.C b)) d (by
    refine Polynomial.natDegree_comp_le.trans ?_
    have := toPoly_natDegree c d h.1
    nlinarith)
  have h3 : ∀ x, polyAt c' x = polyAt c (a * x + b) := by
    intro x
    rw [h2, Polynomial.eval_comp, toPoly_eval]
    simp
  refine ⟨c', ⟨h1, fun q hq => ?_⟩, h3⟩
  have h4 := isPolyLS_poly h ((toPoly q).comp (Polynomial.C a⁻¹ * Polynomial.X + Polynomial.C (-(b / a)))) (by
    refine Polynomial.natDegree_comp_le.trans ?_
    have := toPoly_natDegree q d hq
    have : (Polynomial.C a⁻¹ * Polynomial.X + Polynomial.C (-(b / a)) : Polynomial K).natDegree ≤ 1 :=
      Polynomial.natDegree_linear_le
    nlinarith)
  simp only [fitError, List.zipWith_map_left, ← h3, Polynomial.eval_comp, toPoly_eval] at h4 ⊢
  have e : ∀ x, Polynomial.eval (a * x + b) (Polynomial.C a⁻¹ * Polynomial.X + Polynomial.C (-(b / a))) = x := by
    intro x
    simp
    field_simp
    ring
  simpa only [e] using h4

/-- Least squares under reversal of the data and reflection of the ordinates `y ↦ s - y`. -/
theorem polyLS_reflect {c xs ys : List K} {d : Nat} (s : K) (hl : xs.length = ys.length)
    (h : IsPolyLS c xs.reverse (ys.map fun y => s - y).reverse d) :
    ∃ c', IsPolyLS c' xs ys d ∧ ∀ x, polyAt c' x = s - polyAt c x := by
  have rev : ∀ f : K → K, fitError xs.reverse (ys.map fun y => s - y).reverse f = fitError xs ys (fun x => s - f x) := by
    intro f
    rw [fitError, ← List.reverse_zipWith (by simpa using hl), List.sum_reverse, List.zipWith_map_right, fitError]
    congr 2
    funext x y
    ring
  obtain ⟨c', h1, h2⟩ := exists_coeffs (Polynomial.C s - toPoly c) d
    ((Polynomial.natDegree_sub_le _ _).trans (max_le (by simp) (toPoly_natDegree c d h.1)))
  have h3 : ∀ x, polyAt c' x = s - polyAt c x := by intro x; rw [h2]; simp [toPoly_eval]
  refine ⟨c', ⟨h1, fun q hq => ?_⟩, h3⟩
  have h4 := isPolyLS_poly h (Polynomial.C s - toPoly q)
    ((Polynomial.natDegree_sub_le _ _).trans (max_le (by simp) (toPoly_natDegree q d hq)))
  rw [rev, rev] at h4
  have e1 : (fun x => s - polyAt c x) = polyAt c' := funext fun x => (h3 x).symm
  have e2 : (fun x => s - (Polynomial.C s - toPoly q).eval x) = polyAt q := by
    funext x; simp [toPoly_eval]
  rwa [e1, e2] at h4

/-- Two polynomials of degree at most `d` that agree on more than `d` distinct points agree everywhere. -/
theorem polyAt_ext {c c' xs : List K} {d : Nat} (hc : c.length = d + 1) (hc' : c'.length = d + 1)
    (hd : d < xs.dedup.length) (h : xs.map (polyAt c) = xs.map (polyAt c')) (x : K) : polyAt c x = polyAt c' x := by
  classical
  have hp : toPoly c - toPoly c' = 0 := by
    by_contra hne
    have h1 : (toPoly c - toPoly c').natDegree ≤ d :=
      (Polynomial.natDegree_sub_le _ _).trans (max_le (toPoly_natDegree c d hc) (toPoly_natDegree c' d hc'))
    have h2 : xs.toFinset.val ≤ (toPoly c - toPoly c').roots := by
      rw [Multiset.le_iff_subset xs.toFinset.nodup]
      intro y hy
      rw [Polynomial.mem_roots hne]
      have hy' : y ∈ xs := by simpa using hy
      have := List.map_inj_left.mp h y hy'
      simp [Polynomial.IsRoot, toPoly_eval, this]
    have h3 := (Multiset.card_le_card h2).trans (Polynomial.card_roots' _)
    have h4 : xs.toFinset.card = xs.dedup.length := by simp [List.card_toFinset]
    have : Multiset.card xs.toFinset.val = xs.toFinset.card := rfl
    omega
  have := congrArg (fun p => Polynomial.eval x p) hp
  simp [toPoly_eval] at this
  linarith

end RMT
