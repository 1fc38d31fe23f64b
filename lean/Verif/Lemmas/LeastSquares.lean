import Verif.Model.Rigidity
import Verif.Lemmas.Numeric
import Verif.Spec.LeastSquares

/-! # Least squares -/

namespace RMT

open Finset

variable {K : Type} [Field K] [LinearOrder K] [IsStrictOrderedRing K]

theorem ls_core {n : Nat} (X Y : Fin n → K) (hn : n ≠ 0) (xm ym k w : K)
    (hxm : xm = (∑ i, X i) / n) (hym : ym = (∑ i, Y i) / n)
    (hk : k = if ∑ i, (X i - xm) * (X i - xm) = 0 then 0 else
      (∑ i, (X i - xm) * (Y i - ym)) / ∑ i, (X i - xm) * (X i - xm))
    (hw : w = ym - k * xm) (a b : K) :
    ∑ i, (Y i - (a * X i + b)) ^ 2 = ∑ i, (Y i - (k * X i + w)) ^ 2 +
      (k - a) ^ 2 * ∑ i, (X i - xm) * (X i - xm) + n * (ym - a * xm - b) ^ 2 := by
  have hn' : (n : K) ≠ 0 := by exact_mod_cast hn
  have hX : ∑ i, (X i - xm) = 0 := by
    rw [Finset.sum_sub_distrib, Finset.sum_const, hxm]
    simp
    field_simp
    ring
  have hY : ∑ i, (Y i - ym) = 0 := by
    rw [Finset.sum_sub_distrib, Finset.sum_const, hym]
    simp
    field_simp
    ring
  have hr : ∀ i, Y i - (k * X i + w) = (Y i - ym) - k * (X i - xm) := by
    intro i; rw [hw]; ring
  have hR : ∑ i, (Y i - (k * X i + w)) = 0 := by
    simp only [hr, Finset.sum_sub_distrib, ← Finset.mul_sum] at *
    rw [hX, hY]; ring
  have hRX : ∑ i, (Y i - (k * X i + w)) * (X i - xm) = 0 := by
    have e : ∀ i, (Y i - (k * X i + w)) * (X i - xm) =
        (X i - xm) * (Y i - ym) - k * ((X i - xm) * (X i - xm)) := by
      intro i; rw [hr]; ring
    simp only [e]
    rw [Finset.sum_sub_distrib, ← Finset.mul_sum]
    by_cases hv : ∑ i, (X i - xm) * (X i - xm) = 0
    · rw [hv]
      have hz : ∀ i, X i - xm = 0 := by
        intro i
        have := (Finset.sum_eq_zero_iff_of_nonneg (fun i _ => mul_self_nonneg (X i - xm))).mp hv i
          (Finset.mem_univ i)
        exact mul_self_eq_zero.mp this
      simp [hz]
    · rw [hk, if_neg hv, div_mul_cancel₀ _ hv, sub_self]
  have e : ∀ i, (Y i - (a * X i + b)) ^ 2 = (Y i - (k * X i + w)) ^ 2 +
      (k - a) ^ 2 * ((X i - xm) * (X i - xm)) + (ym - a * xm - b) ^ 2 +
      2 * (k - a) * ((Y i - (k * X i + w)) * (X i - xm)) +
      2 * (ym - a * xm - b) * (Y i - (k * X i + w)) +
      2 * (ym - a * xm - b) * (k - a) * (X i - xm) := by
    intro i; rw [hw]; ring
  simp only [e]
  rw [Finset.sum_add_distrib, Finset.sum_add_distrib, Finset.sum_add_distrib,
    Finset.sum_add_distrib, Finset.sum_add_distrib, ← Finset.mul_sum, ← Finset.mul_sum,
    ← Finset.mul_sum, ← Finset.mul_sum, hRX, hR, hX, Finset.sum_const]
  simp

omit [LinearOrder K] [IsStrictOrderedRing K] in
theorem sum_zipWith_fin (f : K → K → K) (x y : List K) (h : x.length = y.length) :
    (List.zipWith f x y).sum =
      ∑ i : Fin x.length, f x[i] (y[i]'(by have := i.2; omega)) := by
  rw [sum_eq_sum_fin]
  have hl : (List.zipWith f x y).length = x.length := by simp [h]
  refine Finset.sum_bij (fun i _ => ⟨i.1, by have := i.2; omega⟩) ?_ ?_ ?_ ?_
  · intro i _; exact Finset.mem_univ _
  · intro i _ j _ hij
    simpa [Fin.ext_iff] using hij
  · intro i _
    exact ⟨⟨i.1, by rw [hl]; exact i.2⟩, Finset.mem_univ _, rfl⟩
  · intro i _
    simp

theorem sse_decomp (x y : List K) (h : x.length = y.length) (hx : x ≠ []) (a b : K) :
    Spec.sse x y a b = Spec.sse x y (Rigidity.slope x y)
        (Rigidity.intercept x y (Rigidity.slope x y)) +
      (Rigidity.slope x y - a) ^ 2 *
        (List.zipWith (· * ·) (x.map (· - mean x)) (x.map (· - mean x))).sum +
      (x.length : K) * (mean y - a * mean x - b) ^ 2 := by
  have hn : x.length ≠ 0 := by simpa using hx
  have hxx : (List.zipWith (· * ·) (x.map (· - mean x)) (x.map (· - mean x))).sum =
      ∑ i : Fin x.length, (x[i] - mean x) * (x[i] - mean x) := by
    rw [List.zipWith_map, sum_zipWith_fin _ _ _ rfl]
  have hxy : (List.zipWith (· * ·) (x.map (· - mean x)) (y.map (· - mean y))).sum =
      ∑ i : Fin x.length, (x[i] - mean x) * (y[i]'(by have := i.2; omega) - mean y) := by
    rw [List.zipWith_map, sum_zipWith_fin _ _ _ h]
  unfold Spec.sse
  rw [sum_zipWith_fin _ _ _ h, sum_zipWith_fin _ _ _ h, hxx]
  refine ls_core (fun i : Fin x.length => x[i]) (fun i : Fin x.length => y[i]'(by have := i.2; omega))
    hn (mean x) (mean y) _ _ ?_ ?_ ?_ rfl a b
  · rw [mean, sum_eq_sum_fin]
  · have hl : (y.length : K) = x.length := by rw [h]
    rw [mean, hl]
    congr 1
    have := sum_zipWith_fin (fun _ v => v) x y h
    rw [← this]
    congr 1
    apply List.ext_getElem
    · simp [h]
    · intro i h1 h2; simp
  · unfold Rigidity.slope
    simp only [hxx, hxy]

theorem var_eq_zero_iff (x : List K) (hx : x ≠ []) :
    (List.zipWith (· * ·) (x.map (· - mean x)) (x.map (· - mean x))).sum = 0 ↔
      Spec.AllEqual x := by
  rw [List.zipWith_map, sum_zipWith_fin _ _ _ rfl]
  rw [Finset.sum_eq_zero_iff_of_nonneg (fun i _ => mul_self_nonneg _)]
  constructor
  · intro h
    have hm : ∀ a ∈ x, a = mean x := by
      intro a ha
      obtain ⟨i, hi, rfl⟩ := List.mem_iff_getElem.mp ha
      have := h ⟨i, hi⟩ (Finset.mem_univ _)
      exact sub_eq_zero.mp (mul_self_eq_zero.mp this)
    intro a ha b hb
    rw [hm a ha, hm b hb]
  · intro h i _
    have hlen : (x.length : K) ≠ 0 := by
      have : x.length ≠ 0 := by simpa using hx
      exact_mod_cast this
    have hs : x = List.replicate x.length x[i] :=
      List.eq_replicate_iff.mpr ⟨rfl, fun b hb => h b hb _ (List.getElem_mem _)⟩
    have : mean x = x[i] := by
      have h1 : x.sum = x.length * x[i] := by
        conv_lhs => rw [hs]
        simp
      rw [mean, h1]; field_simp
    rw [this]; ring

theorem var_nonneg (x : List K) :
    0 ≤ (List.zipWith (· * ·) (x.map (· - mean x)) (x.map (· - mean x))).sum := by
  rw [List.zipWith_map, sum_zipWith_fin _ _ _ rfl]
  exact Finset.sum_nonneg fun i _ => mul_self_nonneg _

end RMT
