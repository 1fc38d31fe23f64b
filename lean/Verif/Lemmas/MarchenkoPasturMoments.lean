import Verif.Lemmas.WishartLoop
import Verif.Lemmas.SemicircleMoments
import Mathlib.Algebra.Polynomial.Eval.Degree
import Mathlib.Topology.Algebra.Polynomial
import Mathlib.Algebra.Ring.GeomSum

/-! # The Marchenko-Pastur moments, and the limits of the expected products of traces -/

namespace RMT.Semi
open MeasureTheory Real Spec Polynomial

/-- The difference quotient of a polynomial. -/
noncomputable def dq (p : ℝ[X]) (x y : ℝ) : ℝ := ∑ n ∈ Finset.range (p.natDegree + 1), p.coeff n * ∑ j ∈ Finset.range n, x ^ j * y ^ (n - 1 - j)

theorem dq_mul (p : ℝ[X]) (x y : ℝ) : dq p x y * (x - y) = p.eval x - p.eval y := by
  rw [dq, eval_eq_sum_range, eval_eq_sum_range, ← Finset.sum_sub_distrib, Finset.sum_mul]
  refine Finset.sum_congr rfl fun n _ => ?_
  rw [mul_assoc, geom_sum₂_mul, mul_sub]

theorem dq_affine (c r : ℝ) (m : ℕ) (x y : ℝ) : dq ((C c + C r * X) ^ m) x y = r * ∑ j ∈ Finset.range m, (c + r * x) ^ j * (c + r * y) ^ (m - 1 - j) := by
  have hd : Dense ({y}ᶜ : Set ℝ) := dense_compl_singleton y
  have h1 : Continuous fun x => dq ((C c + C r * X) ^ m) x y := by unfold dq; fun_prop
  have h2 : Continuous fun x => r * ∑ j ∈ Finset.range m, (c + r * x) ^ j * (c + r * y) ^ (m - 1 - j) := by fun_prop
  refine congrFun (h1.ext_on hd h2 fun x hx => ?_) x
  have hxy : x - y ≠ 0 := sub_ne_zero.mpr hx
  apply mul_right_cancel₀ hxy
  simp only
  rw [dq_mul]
  simp only [eval_pow, eval_add, eval_C, eval_mul, eval_X]
  have := geom_sum₂_mul (c + r * x) (c + r * y) m
  rw [← this]
  ring

/-- The semicircle law and difference quotients. -/
theorem integral_dq (p : ℝ[X]) : ∫ y, y * p.eval y ∂σ = ∫ x, ∫ y, dq p x y ∂σ ∂σ := by
  have h1 : ∀ y, y * p.eval y = ∑ n ∈ Finset.range (p.natDegree + 1), p.coeff n * y ^ (n + 1) := by
    intro y
    rw [eval_eq_sum_range, Finset.mul_sum]
    exact Finset.sum_congr rfl fun n _ => by rw [pow_succ]; ring
  simp only [h1, dq]
  rw [integral_finsetSum _ fun n _ => (integrable_σ _ (by fun_prop)).const_mul _]
  have h2 : ∀ x, ∫ y, ∑ n ∈ Finset.range (p.natDegree + 1), p.coeff n * ∑ j ∈ Finset.range n, x ^ j * y ^ (n - 1 - j) ∂σ =
      ∑ n ∈ Finset.range (p.natDegree + 1), p.coeff n * ∑ j ∈ Finset.range n, x ^ j * (Gauss.wig (n - 1 - j) : ℝ) := by
    intro x
    rw [integral_finsetSum _ fun n _ => (integrable_σ _ (by fun_prop)).const_mul _]
    refine Finset.sum_congr rfl fun n _ => ?_
    rw [integral_const_mul, integral_finsetSum _ fun j _ => (integrable_σ _ (by fun_prop)).const_mul _]
    congr 1
    exact Finset.sum_congr rfl fun j _ => by rw [integral_const_mul, moment_σ]
  simp only [h2]
  rw [integral_finsetSum _ fun n _ => (integrable_σ _ (by fun_prop)).const_mul _]
  refine Finset.sum_congr rfl fun n _ => ?_
  rw [integral_const_mul, integral_const_mul, moment_σ, integral_finsetSum _ fun j _ => (integrable_σ _ (by fun_prop)).mul_const _, Gauss.wig_succ, Nat.cast_sum]
  congr 1
  refine Finset.sum_congr rfl fun j _ => ?_
  rw [integral_mul_const, moment_σ]
  push_cast; rfl

/-- The moments of an affine image of the semicircle law. -/
noncomputable def aff (c r : ℝ) (k : ℕ) : ℝ := ∫ y, (c + r * y) ^ k ∂σ

theorem aff_weighted (c r : ℝ) (m : ℕ) : ∫ y, y * (c + r * y) ^ m ∂σ = r * ∑ j ∈ Finset.range m, aff c r j * aff c r (m - 1 - j) := by
  have h := integral_dq ((C c + C r * X) ^ m)
  simp only [eval_pow, eval_add, eval_C, eval_mul, eval_X, dq_affine] at h
  rw [h]
  simp only [integral_const_mul]
  congr 1
  have h2 : ∀ x, ∫ y, ∑ j ∈ Finset.range m, (c + r * x) ^ j * (c + r * y) ^ (m - 1 - j) ∂σ = ∑ j ∈ Finset.range m, (c + r * x) ^ j * aff c r (m - 1 - j) := by
    intro x
    rw [integral_finsetSum _ fun j _ => (integrable_σ _ (by fun_prop)).const_mul _]
    exact Finset.sum_congr rfl fun j _ => by rw [integral_const_mul]; rfl
  simp only [h2]
  rw [integral_finsetSum _ fun j _ => (integrable_σ _ (by fun_prop)).mul_const _]
  exact Finset.sum_congr rfl fun j _ => by rw [integral_mul_const]; rfl

theorem aff_zero (c r : ℝ) : aff c r 0 = 1 := by
  have := moment_σ 0
  simp only [pow_zero] at this
  simp only [aff, pow_zero, this]
  simp [Gauss.wig]

theorem aff_succ (c r : ℝ) (k : ℕ) : aff c r (k + 1) = c * aff c r k + r ^ 2 * ∑ j ∈ Finset.range k, aff c r j * aff c r (k - 1 - j) := by
  have h : ∀ y, (c + r * y) ^ (k + 1) = c * (c + r * y) ^ k + r * (y * (c + r * y) ^ k) := by intro y; rw [pow_succ]; ring
  rw [aff]
  simp only [h]
  rw [integral_add ((integrable_σ _ (by fun_prop)).const_mul _) ((integrable_σ _ (by fun_prop)).const_mul _), integral_const_mul, integral_const_mul, aff_weighted, aff]
  ring

/-- The Marchenko-Pastur moments. -/
noncomputable def mpm (q : ℝ) : ℕ → ℝ
  | 0 => 1
  | k + 1 => aff (1 + q) (√q) k

theorem mpm_succ (q : ℝ) (hq : 0 ≤ q) (k : ℕ) : mpm q (k + 1) = mpm q k + q * ∑ j ∈ Finset.range k, mpm q j * mpm q (k - j) := by
  rcases k with - | k
  · simp [mpm, aff_zero]
  · rw [mpm, aff_succ, Real.sq_sqrt hq, Finset.sum_range_succ']
    have h : ∑ j ∈ Finset.range k, mpm q (j + 1) * mpm q (k + 1 - (j + 1)) = ∑ j ∈ Finset.range k, aff (1 + q) (√q) j * aff (1 + q) (√q) (k - 1 - j) := by
      refine Finset.sum_congr rfl fun j hj => ?_
      rw [Finset.mem_range] at hj
      rw [show k + 1 - (j + 1) = k - 1 - j + 1 by omega]
      rfl
    rw [h]
    simp only [mpm, Nat.sub_zero, one_mul]
    ring

end RMT.Semi

namespace RMT.Gauss.Wishart
open Filter Topology Semi

/-- Scaled. -/
noncomputable def w (N : ℕ) {T : ℕ} (Q : Matrix (Fin T) (Fin T) ℝ) (l : List ℕ) : ℝ := W N Q l / ((N : ℝ) ^ l.length * Q.trace ^ l.sum)

variable {N T : ℕ} {Q : Matrix (Fin T) (Fin T) ℝ}

theorem w_zero (hN : 0 < N) (l : List ℕ) : w N Q (0 :: l) = w N Q l := by
  rw [w, w, W_zero, List.length_cons, List.sum_cons, zero_add, pow_succ]
  have : (N : ℝ) ≠ 0 := by positivity
  field_simp

theorem w_succ (hN : 0 < N) (hs : Q.IsSymm) (hq : Q * Q = Q) (ht : 0 < Q.trace) (k : ℕ) (l : List ℕ) : w N Q ((k + 1) :: l) =
    w N Q (k :: l) + k * w N Q (k :: l) * (Q.trace)⁻¹ + N / Q.trace * (∑ j ∈ Finset.range k, w N Q (j :: (k - j) :: l)) +
      ((splits l).map fun p => 2 * (p.1 : ℝ) * w N Q ((k + (p.1 - 1) + 1) :: p.2) * ((N : ℝ)⁻¹ * (Q.trace)⁻¹)).sum := by
  have hN' : (N : ℝ) ≠ 0 := by positivity
  rw [w, W_succ hs hq, add_div, add_div, add_div, Finset.sum_div, list_sum_div]
  congr 1
  · congr 1
    · simp only [w, List.length_cons, List.sum_cons]
      rw [show k + 1 + l.sum = k + l.sum + 1 by ring, pow_succ (Q.trace)]
      field_simp
    · rw [Finset.mul_sum]
      refine Finset.sum_congr rfl fun j hj => ?_
      rw [Finset.mem_range] at hj
      simp only [w, List.length_cons, List.sum_cons]
      rw [show k + 1 + l.sum = k + l.sum + 1 by ring, show j + (k - j + l.sum) = k + l.sum by omega, pow_succ (Q.trace), pow_succ (N : ℝ) (l.length + 1)]
      field_simp
  · congr 1
    refine List.map_congr_left fun p hp => ?_
    obtain ⟨h1, h2⟩ := splits_mem l p hp
    rcases hb : p.1 with - | b
    · simp
    · simp only [w, List.length_cons, List.sum_cons]
      rw [hb] at h2
      rw [← h1, ← h2, show k + 1 + (p.2.sum + (b + 1)) = k + (b + 1 - 1) + 1 + p.2.sum + 1 by omega, pow_succ (Q.trace), pow_succ (N : ℝ) (p.2.length + 1)]
      field_simp

/-- The expected product of normalised traces tends to the product of the limits. -/
theorem tendsto_w (q : ℝ) (hq0 : 0 < q) (N T : ℕ → ℕ) (Q : (n : ℕ) → Matrix (Fin (T n)) (Fin (T n)) ℝ) (hs : ∀ n, (Q n).IsSymm) (hq : ∀ n, Q n * Q n = Q n)
    (hN : Tendsto N atTop atTop) (hT : Tendsto (fun n => (Q n).trace) atTop atTop) (hr : Tendsto (fun n => (N n : ℝ) / (Q n).trace) atTop (𝓝 q)) (l : List ℕ) :
    Tendsto (fun n => w (N n) (Q n) l) atTop (𝓝 ((l.map (mpm q)).prod)) := by
  induction hm : l.sum using Nat.strong_induction_on generalizing l with
  | _ m ihm =>
    induction l with
    | nil =>
      simp only [w, W_nil, List.length_nil, List.sum_nil, pow_zero, mul_one, div_one, List.map_nil, List.prod_nil]
      exact tendsto_const_nhds
    | cons a l ih =>
      have hev : ∀ᶠ n : ℕ in atTop, 0 < N n := hN.eventually_gt_atTop 0
      have hevT : ∀ᶠ n : ℕ in atTop, 0 < (Q n).trace := hT.eventually_gt_atTop 0
      rcases a with - | k
      · have h := ih (by simpa using hm)
        rw [List.map_cons, List.prod_cons, show mpm q 0 = 1 from rfl, one_mul]
        exact h.congr' (hev.mono fun n hn => (w_zero hn l).symm)
      · have hsum : k + 1 + l.sum = m := by simpa using hm
        have ninv : Tendsto (fun n : ℕ => ((N n : ℝ))⁻¹) atTop (𝓝 0) := tendsto_inv_atTop_nhds_zero_nat.comp hN
        have tinv : Tendsto (fun n : ℕ => ((Q n).trace)⁻¹) atTop (𝓝 0) := tendsto_inv_atTop_zero.comp hT
        have h0 := ihm (k + l.sum) (by omega) (k :: l) (by simp)
        have h1 : Tendsto (fun n => ∑ j ∈ Finset.range k, w (N n) (Q n) (j :: (k - j) :: l)) atTop (𝓝 (∑ j ∈ Finset.range k, mpm q j * (mpm q (k - j) * (l.map (mpm q)).prod))) := by
          refine tendsto_finsetSum _ fun j hj => ?_
          rw [Finset.mem_range] at hj
          have := ihm (j + (k - j + l.sum)) (by omega) (j :: (k - j) :: l) (by simp)
          simpa using this
        have h2 : Tendsto (fun n : ℕ => k * w (N n) (Q n) (k :: l) * ((Q n).trace)⁻¹) atTop (𝓝 0) := by
          have h := (h0.const_mul (k : ℝ)).mul tinv
          rwa [mul_zero] at h
        have h3 : Tendsto (fun n : ℕ => ((splits l).map fun p => 2 * (p.1 : ℝ) * w (N n) (Q n) ((k + (p.1 - 1) + 1) :: p.2) * ((N n : ℝ)⁻¹ * ((Q n).trace)⁻¹)).sum) atTop (𝓝 0) := by
          refine tendsto_list _ _ fun p hp => ?_
          obtain ⟨e1, e2⟩ := splits_mem l p hp
          rcases hb : p.1 with - | b
          · simp
          · have := ihm (k + b + 1 + p.2.sum) (by omega) ((k + b + 1) :: p.2) (by simp)
            have h := (this.const_mul (2 * ((b + 1 : ℕ) : ℝ))).mul (ninv.mul tinv)
            rw [mul_zero, mul_zero] at h
            exact h
        have h := ((h0.add h2).add (hr.mul h1)).add h3
        simp only [add_zero] at h
        have hval : ((k :: l).map (mpm q)).prod + q * ∑ j ∈ Finset.range k, mpm q j * (mpm q (k - j) * (l.map (mpm q)).prod) = (((k + 1) :: l).map (mpm q)).prod := by
          rw [List.map_cons, List.prod_cons, List.map_cons, List.prod_cons, mpm_succ q hq0.le, add_mul, mul_assoc, Finset.sum_mul]
          congr 2
          exact Finset.sum_congr rfl fun j _ => by ring
        rw [hval] at h
        refine h.congr' ?_
        filter_upwards [hev, hevT] with n h1 h2
        exact (w_succ h1 (hs n) (hq n) h2 k l).symm

end RMT.Gauss.Wishart
