import Verif.Spec.PolyFit
import Verif.Model.Smoother
import Mathlib.LinearAlgebra.Lagrange
import Mathlib.Data.List.GetD

/-! # Lemmas on least-squares polynomials -/

set_option linter.unusedSectionVars false

namespace RMT
open Spec Smooth

variable {K : Type} [Field K] [LinearOrder K]

theorem polyAt_cons (a : K) (c : List K) (x : K) : polyAt (a :: c) x = a + x * polyAt c x := by
  unfold polyAt
  rw [List.length_cons, Finset.sum_range_succ', Finset.mul_sum]
  simp only [List.getD_cons_succ, List.getD_cons_zero, pow_zero, mul_one]
  rw [add_comm]
  congr 1
  refine Finset.sum_congr rfl fun k _ => ?_
  ring

theorem polyval_eq_polyAt (c : List K) (x : K) : polyval c x = polyAt c x := by
  induction c with
  | nil => simp [polyval, polyAt]
  | cons a c ih =>
    rw [polyAt_cons, ← ih]
    simp only [polyval, List.foldr_cons]
    ring

/-- Residual-weighted sum. -/
def wsum (xs ys : List K) (f g : K → K) : K :=
  (List.zipWith (fun x y => (y - f x) * g x) xs ys).sum

theorem wsum_add (xs ys : List K) (f g h : K → K) :
    wsum xs ys f (fun x => g x + h x) = wsum xs ys f g + wsum xs ys f h := by
  induction xs generalizing ys with
  | nil => simp [wsum]
  | cons x xs ih =>
    cases ys with
    | nil => simp [wsum]
    | cons y ys =>
      have := ih ys
      simp only [wsum, List.zipWith_cons_cons, List.sum_cons] at *
      rw [this]; ring

theorem wsum_smul (xs ys : List K) (f g : K → K) (a : K) :
    wsum xs ys f (fun x => a * g x) = a * wsum xs ys f g := by
  induction xs generalizing ys with
  | nil => simp [wsum]
  | cons x xs ih =>
    cases ys with
    | nil => simp [wsum]
    | cons y ys =>
      have := ih ys
      simp only [wsum, List.zipWith_cons_cons, List.sum_cons] at *
      rw [this]; ring

theorem wsum_poly (xs ys : List K) (f : K → K) (d : Nat)
    (h : ∀ k, k ≤ d → wsum xs ys f (fun x => x ^ k) = 0) (c : List K) (k : Nat)
    (hk : k + c.length ≤ d + 1) : wsum xs ys f (fun x => x ^ k * polyAt c x) = 0 := by
  induction c generalizing k with
  | nil =>
    have := wsum_smul xs ys f (fun _ => 1) 0
    simp only [zero_mul] at this
    simpa [polyAt] using this
  | cons a c ih =>
    simp only [List.length_cons] at hk
    have e : (fun x => x ^ k * polyAt (a :: c) x) = fun x => a * x ^ k + x ^ (k + 1) * polyAt c x := by
      funext x; rw [polyAt_cons]; ring
    rw [e, wsum_add, wsum_smul, h k (by omega), ih (k + 1) (by omega)]
    ring

variable [IsStrictOrderedRing K]

theorem sse_nonneg (xs ys : List K) (f : K → K) : 0 ≤ fitError xs ys f := by
  induction xs generalizing ys with
  | nil => simp [fitError]
  | cons x xs ih =>
    cases ys with
    | nil => simp [fitError]
    | cons y ys =>
      have := ih ys
      simp only [fitError, List.zipWith_cons_cons, List.sum_cons] at *
      nlinarith [sq_nonneg (y - f x)]

theorem sse_eq_zero (xs ys : List K) (f : K → K) (hl : xs.length = ys.length)
    (h : fitError xs ys f = 0) : xs.map f = ys := by
  induction xs generalizing ys with
  | nil => cases ys with
    | nil => rfl
    | cons y ys => simp at hl
  | cons x xs ih =>
    cases ys with
    | nil => simp at hl
    | cons y ys =>
      have h1 := sse_nonneg xs ys f
      have h2 : (y - f x) ^ 2 + fitError xs ys f = 0 := by
        simpa only [fitError, List.zipWith_cons_cons, List.sum_cons] using h
      have h3 : (y - f x) ^ 2 = 0 := by nlinarith [sq_nonneg (y - f x)]
      have h4 : y = f x := by
        have := pow_eq_zero_iff (two_ne_zero) |>.mp h3
        linarith
      rw [List.map_cons, ih ys (by simpa using hl) (by nlinarith [sq_nonneg (y - f x)]), h4]

theorem sse_eq_zero_of_map (xs : List K) (f : K → K) : fitError xs (xs.map f) f = 0 := by
  induction xs with
  | nil => simp [fitError]
  | cons x xs ih =>
    simp only [fitError, List.map_cons, List.zipWith_cons_cons, List.sum_cons, sub_self] at *
    rw [ih]; ring

theorem sse_expand (xs ys : List K) (f g : K → K) :
    fitError xs ys g = fitError xs ys f + 2 * wsum xs ys f (fun x => f x - g x) +
      (List.zipWith (fun x _ => (f x - g x) ^ 2) xs ys).sum := by
  induction xs generalizing ys with
  | nil => simp [fitError, wsum]
  | cons x xs ih =>
    cases ys with
    | nil => simp [fitError, wsum]
    | cons y ys =>
      have := ih ys
      simp only [fitError, wsum, List.zipWith_cons_cons, List.sum_cons] at *
      rw [this]; ring

/-- Normal equations imply least squares. -/
theorem isPolyLS_of_normal (c xs ys : List K) (d : Nat) (hc : c.length = d + 1)
    (h : ∀ k, k ≤ d → (List.zipWith (fun x y => (y - polyAt c x) * x ^ k) xs ys).sum = 0) :
    IsPolyLS c xs ys d := by
  refine ⟨hc, fun c' hc' => ?_⟩
  have hw : ∀ c'' : List K, c''.length = d + 1 → wsum xs ys (polyAt c) (polyAt c'') = 0 := by
    intro c'' h''
    have := wsum_poly xs ys (polyAt c) d (fun k hk => h k hk) c'' 0 (by omega)
    simpa using this
  have h1 : wsum xs ys (polyAt c) (fun x => polyAt c x - polyAt c' x) = 0 := by
    have e : (fun x => polyAt c x - polyAt c' x) = fun x => polyAt c x + (-1) * polyAt c' x := by
      funext x; ring
    rw [e, wsum_add, wsum_smul, hw c hc, hw c' hc']; ring
  rw [sse_expand xs ys (polyAt c) (polyAt c'), h1]
  have h2 := sse_nonneg xs (ys.map fun _ => (0 : K)) (fun x => polyAt c x - polyAt c' x)
  have h3 : fitError xs (ys.map fun _ => (0 : K)) (fun x => polyAt c x - polyAt c' x) =
      (List.zipWith (fun x _ => (polyAt c x - polyAt c' x) ^ 2) xs ys).sum := by
    simp only [fitError, List.zipWith_map_right]
    congr 2
    funext x _
    ring
  rw [h3] at h2
  linarith

theorem polyAt_append_zeros (c : List K) (n : Nat) (x : K) :
    polyAt (c ++ List.replicate n 0) x = polyAt c x := by
  induction c with
  | nil =>
    simp only [List.nil_append]
    induction n with
    | zero => rfl
    | succ n ih => rw [List.replicate_succ, polyAt_cons, ih]; simp [polyAt]
  | cons a c ih => rw [List.cons_append, polyAt_cons, polyAt_cons, ih]

theorem exists_interpolant (xs : List K) (hnd : xs.Nodup) (ys : List K)
    (hl : xs.length = ys.length) (d : Nat) (hd : xs.length ≤ d + 1) :
    ∃ c : List K, c.length = d + 1 ∧ xs.map (polyAt c) = ys := by
  classical
  let g : K → K := fun x => ys.getD (xs.idxOf x) 0
  let p := Lagrange.interpolate xs.toFinset id g
  have hinj : Set.InjOn (id : K → K) (xs.toFinset : Set K) := fun _ _ _ _ h => h
  have hcard : xs.toFinset.card = xs.length := List.toFinset_card_of_nodup hnd
  have hdeg : p.degree < (d + 1 : ℕ) := by
    have h1 := Lagrange.degree_interpolate_lt g hinj
    rw [hcard] at h1
    exact lt_of_lt_of_le h1 (by exact_mod_cast hd)
  refine ⟨(List.range (d + 1)).map fun (k : Nat) => p.coeff k, by simp, ?_⟩
  have hev : ∀ x, polyAt ((List.range (d + 1)).map fun (k : Nat) => p.coeff k) x = p.eval x := by
    intro x
    have hnat : p.natDegree < d + 1 := by
      by_cases hp : p = 0
      · rw [hp]; simp
      · exact (Polynomial.natDegree_lt_iff_degree_lt hp).mpr hdeg
    rw [Polynomial.eval_eq_sum_range' hnat, polyAt]
    simp only [List.length_map, List.length_range]
    refine Finset.sum_congr rfl fun k hk => ?_
    rw [List.getD_eq_getElem _ _ (by simpa using hk)]
    simp
  apply List.ext_getElem (by simpa using hl)
  intro i h1 h2
  simp only [List.getElem_map, hev]
  have hi : i < xs.length := by simpa using h1
  have := Lagrange.eval_interpolate_at_node (v := (id : K → K)) g hinj
    (i := xs[i]) (by simp)
  simp only [id] at this
  rw [show p.eval xs[i] = g xs[i] from this]
  simp only [g]
  rw [List.Nodup.idxOf_getElem hnd, List.getD_eq_getElem _ _ h2]

/-- A least-squares polynomial of degree `d ≥ n - 1` through `n` points with distinct abscissae
interpolates them. -/
theorem polyLS_interpolates (c xs ys : List K) (d : Nat) (h : IsPolyLS c xs ys d)
    (hnd : xs.Nodup) (hl : xs.length = ys.length) (hd : xs.length ≤ d + 1) :
    xs.map (polyAt c) = ys := by
  obtain ⟨c', hc', hi⟩ := exists_interpolant xs hnd ys hl d hd
  have h1 := h.2 c' hc'
  have h2 : fitError xs ys (polyAt c') = 0 := by rw [← hi]; exact sse_eq_zero_of_map _ _
  exact sse_eq_zero _ _ _ hl (le_antisymm (h2 ▸ h1) (sse_nonneg _ _ _))

/-- The least-squares error does not increase with the degree. -/
theorem polyLS_mono (c c' xs ys : List K) (d d' : Nat) (hdd : d ≤ d') (h : IsPolyLS c xs ys d)
    (h' : IsPolyLS c' xs ys d') : fitError xs ys (polyAt c') ≤ fitError xs ys (polyAt c) := by
  have := h'.2 (c ++ List.replicate (d' - d) 0) (by simp [h.1]; omega)
  have e : polyAt (c ++ List.replicate (d' - d) 0) = polyAt c := funext fun x => polyAt_append_zeros _ _ _
  rwa [e] at this

end RMT
