import Verif.Model.Detrend
import Verif.Spec.Detrend
import Verif.Lemmas.LeastSquares
import Verif.Lemmas.PolyFit

/-! # Lemmas on detrending -/

set_option linter.unusedSectionVars false

namespace RMT
open Finset Spec Detrending

variable {K : Type} [Field K] [LinearOrder K] [IsStrictOrderedRing K]

@[simp] theorem length_arange (n : Nat) : (arange n : List K).length = n := by simp [arange]

@[simp] theorem getElem_arange (n i : Nat) (h : i < (arange n : List K).length) :
    (arange n : List K)[i] = (i : K) := by simp [arange]

theorem sum_getD (l : List K) : l.sum = ∑ i ∈ range l.length, l.getD i 0 := by
  apply sum_eq_sum_range
  intro i h
  simp [List.getD_eq_getElem?_getD, h]

theorem arange_not_allEqual (n : Nat) (h : 2 ≤ n) : ¬ AllEqual (arange n : List K) := by
  intro hh
  have h0 : (arange n : List K)[0]'(by simp; omega) ∈ arange n := List.getElem_mem _
  have h1 : (arange n : List K)[1]'(by simp; omega) ∈ arange n := List.getElem_mem _
  have := hh _ h0 _ h1
  simp at this

/-- Normal equations of the fitted line. -/
theorem ls_normal {n : Nat} (X Y : Fin n → K) (hn : n ≠ 0) (xm ym k w : K)
    (hxm : xm = (∑ i, X i) / n) (hym : ym = (∑ i, Y i) / n)
    (hk : k = if ∑ i, (X i - xm) * (X i - xm) = 0 then 0 else
      (∑ i, (X i - xm) * (Y i - ym)) / ∑ i, (X i - xm) * (X i - xm))
    (hw : w = ym - k * xm) :
    ∑ i, (Y i - (k * X i + w)) = 0 ∧ ∑ i, X i * (Y i - (k * X i + w)) = 0 := by
  have hn' : (n : K) ≠ 0 := by exact_mod_cast hn
  have hX : ∑ i, (X i - xm) = 0 := by
    rw [Finset.sum_sub_distrib, Finset.sum_const, hxm]
    simp
    field_simp
    ring
  have hY : ∑ i, (Y i - ym) = 0 := by
    rw [Finset.sum_sub_distrib, Finset.sum_const, hym]
    simp
    field_simp
    ring
  have hr : ∀ i, Y i - (k * X i + w) = (Y i - ym) - k * (X i - xm) := by
    intro i; rw [hw]; ring
  have hR : ∑ i, (Y i - (k * X i + w)) = 0 := by
    simp only [hr, Finset.sum_sub_distrib, ← Finset.mul_sum] at *
    rw [hX, hY]; ring
  have hRX : ∑ i, (Y i - (k * X i + w)) * (X i - xm) = 0 := by
    have e : ∀ i, (Y i - (k * X i + w)) * (X i - xm) =
        (X i - xm) * (Y i - ym) - k * ((X i - xm) * (X i - xm)) := by
      intro i; rw [hr]; ring
    simp only [e]
    rw [Finset.sum_sub_distrib, ← Finset.mul_sum]
    by_cases hv : ∑ i, (X i - xm) * (X i - xm) = 0
    · rw [hv]
      have hz : ∀ i, X i - xm = 0 := by
        intro i
        have := (Finset.sum_eq_zero_iff_of_nonneg (fun i _ => mul_self_nonneg (X i - xm))).mp hv i
          (Finset.mem_univ i)
        exact mul_self_eq_zero.mp this
      simp [hz]
    · rw [hk, if_neg hv, div_mul_cancel₀ _ hv, sub_self]
  refine ⟨hR, ?_⟩
  have e : ∀ i, X i * (Y i - (k * X i + w)) =
      (Y i - (k * X i + w)) * (X i - xm) + xm * (Y i - (k * X i + w)) := by intro i; ring
  simp only [e]
  rw [Finset.sum_add_distrib, hRX, ← Finset.mul_sum, hR]; ring

/-- The residuals of the line with the slope and intercept computed by the code. -/
def lineRes (y : List K) : List K :=
  Detrending.sub y ((arange y.length).map fun t => Rigidity.slope (arange y.length) y * t +
    Rigidity.intercept (arange y.length) y (Rigidity.slope (arange y.length) y))

@[simp] theorem length_lineRes (y : List K) : (lineRes y).length = y.length := by
  simp [lineRes, Detrending.sub]

theorem getD_sub_map (y : List K) (f : K → K) (i : Nat) (h : i < y.length) :
    (Detrending.sub y ((arange y.length).map f)).getD i 0 = y.getD i 0 - f (i : K) := by
  simp [Detrending.sub, List.getD_eq_getElem?_getD, h, arange]

theorem lineRes_isLine (y : List K) : IsLineResidual y (lineRes y) := by
  refine ⟨by simp, Rigidity.slope (arange y.length) y,
    Rigidity.intercept (arange y.length) y (Rigidity.slope (arange y.length) y), fun i hi => ?_⟩
  rw [lineRes, getD_sub_map y _ i hi]

theorem lineRes_normal (y : List K) : ZeroSum (lineRes y) ∧ OrthTime (lineRes y) := by
  by_cases hy : y = []
  · subst hy; simp [ZeroSum, OrthTime, lineRes, Detrending.sub]
  have hn : y.length ≠ 0 := by simpa using hy
  set x : List K := arange y.length with hx
  have h : x.length = y.length := by simp [hx]
  have hxx : (List.zipWith (· * ·) (x.map (· - mean x)) (x.map (· - mean x))).sum =
      ∑ i : Fin y.length, ((i : ℕ) - mean x) * ((i : ℕ) - mean x) := by
    rw [List.zipWith_map, sum_zipWith_fin _ _ _ rfl]
    exact Fintype.sum_equiv (finCongr h) _ _ (fun i => by simp [hx])
  have hxy : (List.zipWith (· * ·) (x.map (· - mean x)) (y.map (· - mean y))).sum =
      ∑ i : Fin y.length, ((i : ℕ) - mean x) * (y[i] - mean y) := by
    rw [List.zipWith_map, sum_zipWith_fin _ _ _ h]
    exact Fintype.sum_equiv (finCongr h) _ _ (fun i => by simp [hx])
  have key := ls_normal (fun i : Fin y.length => ((i : ℕ) : K)) (fun i : Fin y.length => y[i]) hn
    (mean x) (mean y) (Rigidity.slope x y) (Rigidity.intercept x y (Rigidity.slope x y)) ?_ ?_ ?_ rfl
  · obtain ⟨h1, h2⟩ := key
    unfold ZeroSum OrthTime
    rw [length_lineRes]
    have e : ∀ i : Fin y.length, (lineRes y).getD i 0 = y[i] - (Rigidity.slope x y * ((i : ℕ) : K) +
        Rigidity.intercept x y (Rigidity.slope x y)) := by
      intro i
      rw [lineRes, getD_sub_map y _ i i.2]
      simp [List.getD_eq_getElem?_getD, hx]
    rw [Finset.sum_range, Finset.sum_range]
    simp only [e]
    exact ⟨h1, h2⟩
  · rw [mean, sum_getD, h, Finset.sum_range]
    congr 1
    exact Finset.sum_congr rfl fun i _ => by simp [hx, arange, List.getD_eq_getElem?_getD]
  · rw [mean, sum_eq_sum_fin]
  · unfold Rigidity.slope
    simp only [hxx, hxy]

theorem sq_decomp (y r r' : List K) (hr : IsLineResidual y r) (h0 : ZeroSum r) (h1 : OrthTime r)
    (hr' : IsLineResidual y r') :
    ∑ i ∈ range r'.length, r'.getD i 0 ^ 2 = ∑ i ∈ range r.length, r.getD i 0 ^ 2 +
      ∑ i ∈ range r.length, (r'.getD i 0 - r.getD i 0) ^ 2 := by
  obtain ⟨hl, a, b, h⟩ := hr
  obtain ⟨hl', a', b', h'⟩ := hr'
  unfold ZeroSum at h0
  unfold OrthTime at h1
  rw [hl] at h0 h1
  rw [hl]
  rw [hl']
  have e : ∀ i ∈ range y.length, r'.getD i 0 ^ 2 = r.getD i 0 ^ 2 + (r'.getD i 0 - r.getD i 0) ^ 2 +
      (2 * (a - a') * ((i : K) * r.getD i 0) + 2 * (b - b') * r.getD i 0) := by
    intro i hi
    have hi' := Finset.mem_range.mp hi
    have e1 : r'.getD i 0 = r.getD i 0 + ((a - a') * (i : K) + (b - b')) := by
      rw [h i hi', h' i hi']; ring
    rw [e1]; ring
  rw [Finset.sum_congr rfl e, Finset.sum_add_distrib, Finset.sum_add_distrib, Finset.sum_add_distrib,
    ← Finset.mul_sum, ← Finset.mul_sum, h0, h1]
  ring

theorem ext_getD (l l' : List K) (hl : l.length = l'.length) (h : ∀ i < l.length, l.getD i 0 = l'.getD i 0) :
    l = l' := by
  apply List.ext_getElem hl
  intro i h1 h2
  have := h i h1
  simpa [List.getD_eq_getElem?_getD, h1, h2] using this

theorem residual_unique (y r r' : List K) (hr : IsLineResidual y r) (h0 : ZeroSum r) (h1 : OrthTime r)
    (hr' : IsLineResidual y r') (h0' : ZeroSum r') (h1' : OrthTime r') : r = r' := by
  have a := sq_decomp y r r' hr h0 h1 hr'
  have b := sq_decomp y r' r hr' h0' h1' hr
  have hl : r.length = r'.length := by rw [hr.1, hr'.1]
  have c : 0 ≤ ∑ i ∈ range r'.length, (r.getD i 0 - r'.getD i 0) ^ 2 := Finset.sum_nonneg fun i _ => sq_nonneg _
  have hz : ∑ i ∈ range r.length, (r'.getD i 0 - r.getD i 0) ^ 2 = 0 := by
    have c' : 0 ≤ ∑ i ∈ range r.length, (r'.getD i 0 - r.getD i 0) ^ 2 := Finset.sum_nonneg fun i _ => sq_nonneg _
    linarith
  rw [Finset.sum_eq_zero_iff_of_nonneg (fun i _ => sq_nonneg _)] at hz
  refine ext_getD _ _ hl fun i hi => ?_
  have := pow_eq_zero_iff (two_ne_zero) |>.mp (hz i (Finset.mem_range.mpr hi))
  linarith [sub_eq_zero.mp this]

theorem lineRes_eq_iff (y r : List K) :
    r = lineRes y ↔ IsLineResidual y r ∧ ZeroSum r ∧ OrthTime r := by
  constructor
  · rintro rfl; exact ⟨lineRes_isLine y, lineRes_normal y⟩
  · rintro ⟨h, h0, h1⟩
    exact residual_unique y r _ h h0 h1 (lineRes_isLine y) (lineRes_normal y).1 (lineRes_normal y).2

theorem covBias_div (x y : List K) (hx : ¬ AllEqual x) :
    covBias x y / covBias x x = Rigidity.slope x y := by
  have hne : x ≠ [] := by rintro rfl; exact hx (by intro a ha; simp at ha)
  have hn : (x.length : K) ≠ 0 := by
    have : x.length ≠ 0 := by simpa using hne
    exact_mod_cast this
  have hv : (List.zipWith (· * ·) (x.map (· - mean x)) (x.map (· - mean x))).sum ≠ 0 := fun h =>
    hx ((var_eq_zero_iff x hne).mp h)
  unfold covBias Rigidity.slope
  simp only []
  rw [if_neg hv, div_div_div_cancel_right₀ hn]

theorem linregress_ok (lib : Lib K) (y : List K) (h : 2 ≤ y.length) :
    linregress lib (arange y.length) y = .ok [Rigidity.slope (arange y.length) y,
      Rigidity.intercept (arange y.length) y (Rigidity.slope (arange y.length) y),
      (lib.regressRest (arange y.length) y).1, (lib.regressRest (arange y.length) y).2.1,
      (lib.regressRest (arange y.length) y).2.2] := by
  have hA := arange_not_allEqual (K := K) y.length h
  have h1 : ¬ ((arange y.length : List K) = [] ∨ y = []) := by
    rintro (h' | h')
    · have := congrArg List.length h'; simp at this; subst this; simp at h
    · subst h'; simp at h
  have h2 : ¬ (1 < (arange y.length : List K).length ∧
      ∀ a ∈ (arange y.length : List K), a = (arange y.length : List K).headD 0) := by
    rintro ⟨-, h'⟩
    exact hA fun a ha b hb => (h' a ha).trans (h' b hb).symm
  rw [linregress, if_neg h1, if_neg h2]
  simp only [covBias_div _ _ hA]
  rfl

/-! ### the normal equations are necessary for least squares -/

theorem quad_nonneg_zero (w S : K) (h : ∀ e : K, 0 ≤ 2 * e * w + e ^ 2 * S) : w = 0 := by
  by_contra hw
  rcases le_or_gt S 0 with hS | hS
  · have := h (-w)
    nlinarith [mul_self_pos.mpr hw, mul_nonneg (sq_nonneg w) (neg_nonneg.mpr hS)]
  · have := h (-(w / S))
    have e : 2 * -(w / S) * w + (-(w / S)) ^ 2 * S = -(w ^ 2 / S) := by field_simp; ring
    rw [e] at this
    have : 0 < w ^ 2 / S := by positivity
    linarith

theorem polyAt_set (c : List K) (k : Nat) (hk : k < c.length) (e x : K) :
    polyAt (c.set k (c.getD k 0 + e)) x = polyAt c x + e * x ^ k := by
  induction c generalizing k with
  | nil => simp at hk
  | cons a c ih =>
    cases k with
    | zero => simp [polyAt_cons]; ring
    | succ k =>
      simp only [List.set_cons_succ, List.getD_cons_succ, polyAt_cons]
      rw [ih k (by simpa using hk)]; ring

theorem normal_of_isPolyLS (c xs ys : List K) (d : Nat) (h : IsPolyLS c xs ys d) (k : Nat) (hk : k ≤ d) :
    (List.zipWith (fun x y => (y - polyAt c x) * x ^ k) xs ys).sum = 0 := by
  obtain ⟨hc, hmin⟩ := h
  refine quad_nonneg_zero _ (List.zipWith (fun x _ => (x ^ k) ^ 2) xs ys).sum fun e => ?_
  have h1 := hmin (c.set k (c.getD k 0 + (-e))) (by simpa using hc)
  rw [sse_expand xs ys (polyAt c) (polyAt (c.set k (c.getD k 0 + (-e))))] at h1
  have e1 : (fun x => polyAt c x - polyAt (c.set k (c.getD k 0 + (-e))) x) = fun x => e * x ^ k := by
    funext x; rw [polyAt_set c k (by omega)]; ring
  have e2 : (List.zipWith (fun x _ => (polyAt c x - polyAt (c.set k (c.getD k 0 + (-e))) x) ^ 2) xs ys).sum =
      e ^ 2 * (List.zipWith (fun x _ => (x ^ k) ^ 2) xs ys).sum := by
    have e3 : (fun x (_ : K) => (polyAt c x - polyAt (c.set k (c.getD k 0 + (-e))) x) ^ 2) =
        fun x _ => e ^ 2 * (x ^ k) ^ 2 := by
      funext x _; rw [congrFun e1 x]; ring
    rw [e3]
    generalize ys = zs
    clear h1 e1 e3 hmin hc
    induction xs generalizing zs with
    | nil => simp
    | cons x xs ih => cases zs with
      | nil => simp
      | cons z zs => simp only [List.zipWith_cons_cons, List.sum_cons, ih]; ring
  rw [e1, e2, wsum_smul] at h1
  have : wsum xs ys (polyAt c) (fun x => x ^ k) =
    (List.zipWith (fun x y => (y - polyAt c x) * x ^ k) xs ys).sum := rfl
  rw [← this]
  linarith

end RMT
