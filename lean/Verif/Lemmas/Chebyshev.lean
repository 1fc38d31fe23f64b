import Verif.Lemmas.SemicircleCdf
import Verif.Spec.BestPolynomial
import Mathlib.Analysis.SpecialFunctions.Integrals.Basic
import Mathlib.MeasureTheory.Measure.OpenPos

/-! # The Chebyshev polynomials of the semicircle law, and the coefficients of its distribution function -/

namespace RMT
namespace Semi
open MeasureTheory Spec Real Polynomial

/-- The monic orthogonal polynomials of the semicircle law on `[-2, 2]`. -/
noncomputable def cheb : ℕ → ℝ[X]
  | 0 => 1
  | 1 => X
  | k + 2 => X * cheb (k + 1) - cheb k

theorem cheb_sin (t : ℝ) : ∀ k : ℕ, (cheb k).eval (2 * cos t) * sin t = sin ((k + 1) * t)
  | 0 => by simp [cheb]
  | 1 => by
    simp only [cheb, eval_X]
    norm_num
    rw [sin_two_mul]
    ring
  | k + 2 => by
    have h1 := cheb_sin t (k + 1)
    have h0 := cheb_sin t k
    simp only [cheb, eval_sub, eval_mul, eval_X]
    push_cast at h1 ⊢
    have e1 : sin ((k + 2 + 1) * t) = sin ((k + 1 + 1) * t) * cos t + cos ((k + 1 + 1) * t) * sin t := by rw [← sin_add]; ring_nf
    have e2 : sin ((k + 1) * t) = sin ((k + 1 + 1) * t) * cos t - cos ((k + 1 + 1) * t) * sin t := by rw [← sin_sub]; ring_nf
    rw [e1]
    rw [e2] at h0
    linear_combination 2 * cos t * h1 - h0

theorem cheb_step (t : ℝ) : ∀ k : ℕ, (cheb (k + 2)).eval (2 * cos t) = (cheb k).eval (2 * cos t) + 2 * cos ((k + 2) * t)
  | 0 => by
    simp only [cheb, eval_sub, eval_mul, eval_X, eval_one]
    norm_num
    rw [cos_two_mul]
    ring
  | 1 => by
    simp only [cheb, eval_sub, eval_mul, eval_X, eval_one]
    norm_num
    rw [cos_three_mul]
    ring
  | k + 2 => by
    have h1 := cheb_step t (k + 1)
    have h0 := cheb_step t k
    have e : (cheb (k + 2 + 2)).eval (2 * cos t) = 2 * cos t * (cheb (k + 1 + 2)).eval (2 * cos t) - (cheb (k + 2)).eval (2 * cos t) := by
      rw [show cheb (k + 2 + 2) = X * cheb (k + 2 + 1) - cheb (k + 2) from rfl]
      simp [eval_sub, eval_mul]
    have e' : (cheb (k + 2)).eval (2 * cos t) = 2 * cos t * (cheb (k + 1)).eval (2 * cos t) - (cheb k).eval (2 * cos t) := by
      rw [show cheb (k + 2) = X * cheb (k + 1) - cheb k from rfl]
      simp [eval_sub, eval_mul]
    push_cast at h1 ⊢
    have c1 : cos ((k + 2 + 2) * t) = cos ((k + 1 + 2) * t) * cos t - sin ((k + 1 + 2) * t) * sin t := by rw [← cos_add]; ring_nf
    have c2 : cos ((k + 2) * t) = cos ((k + 1 + 2) * t) * cos t + sin ((k + 1 + 2) * t) * sin t := by rw [← cos_sub]; ring_nf
    rw [e, c1]
    rw [c2] at h0
    linear_combination 2 * cos t * h1 - h0 - e'

theorem cheb_le (t : ℝ) : ∀ k : ℕ, |(cheb k).eval (2 * cos t)| ≤ k + 1
  | 0 => by simp [cheb]
  | 1 => by
    simp only [cheb, eval_X, abs_mul]
    have := abs_cos_le_one t
    norm_num
    linarith
  | k + 2 => by
    rw [cheb_step]
    have h0 := cheb_le t k
    have h1 := abs_cos_le_one ((k + 2) * t)
    refine (abs_add_le _ _).trans ?_
    rw [abs_mul]
    push_cast
    norm_num
    linarith

theorem cheb_bound (k : ℕ) (x : ℝ) (hx : x ∈ Set.Icc (-2 : ℝ) 2) : |(cheb k).eval x| ≤ k + 1 := by
  have := cheb_le (arccos (x / 2)) k
  rwa [cos_arccos (by linarith [hx.1]) (by linarith [hx.2]), mul_div_cancel₀ x (by norm_num : (2 : ℝ) ≠ 0)] at this

theorem cheb_monic : ∀ k : ℕ, (cheb k).Monic ∧ (cheb k).natDegree = k
  | 0 => by simp [cheb]
  | 1 => by simp [cheb, monic_X]
  | k + 2 => by
    obtain ⟨m1, d1⟩ := cheb_monic (k + 1)
    obtain ⟨m0, d0⟩ := cheb_monic k
    have hm : (X * cheb (k + 1)).Monic := monic_X.mul m1
    have hd : (X * cheb (k + 1)).natDegree = k + 2 := by rw [monic_X.natDegree_mul m1, natDegree_X, d1]; ring
    have hlt : (cheb k).degree < (X * cheb (k + 1)).degree := by
      rw [degree_eq_natDegree m0.ne_zero, degree_eq_natDegree hm.ne_zero, hd, d0]
      exact_mod_cast (by omega : k < k + 2)
    refine ⟨hm.sub_of_left hlt, ?_⟩
    change (X * cheb (k + 1) - cheb k).natDegree = k + 2
    rw [natDegree_sub_eq_left_of_natDegree_lt (by rw [hd, d0]; omega), hd]

/-- The substitution `x = 2 cos t`. -/
theorem integral_angle (f : ℝ → ℝ) (hf : Continuous f) : ∫ x, f x ∂σ = 2 / π * ∫ t in (0 : ℝ)..π, f (2 * cos t) * sin t ^ 2 := by
  rw [integral_σ]
  have h := intervalIntegral.integral_comp_mul_deriv (a := 0) (b := π) (f := fun t => 2 * cos t) (f' := fun t => 2 * -sin t) (g := fun x => f x * dens x)
    (fun t _ => (hasDerivAt_cos t).const_mul 2) (by fun_prop) (hf.mul dens_cont)
  simp only [cos_zero, cos_pi, mul_one, mul_neg, Function.comp] at h
  have h2 : ∫ x in (-2 : ℝ)..2, f x * dens x = ∫ t in (0 : ℝ)..π, f (2 * cos t) * dens (2 * cos t) * (2 * sin t) := by
    rw [intervalIntegral.integral_neg, intervalIntegral.integral_symm (-2) 2] at h
    exact (neg_injective h).symm
  rw [h2, ← intervalIntegral.integral_const_mul]
  refine intervalIntegral.integral_congr fun t ht => ?_
  rw [Set.uIcc_of_le pi_pos.le] at ht
  have hs : 0 ≤ sin t := sin_nonneg_of_mem_Icc ht
  have hd : dens (2 * cos t) = sin t / π := by
    unfold dens
    have : (4 : ℝ) - (2 * cos t) ^ 2 = (2 * sin t) ^ 2 := by nlinarith [sin_sq_add_cos_sq t]
    rw [this, sqrt_sq (by linarith)]
    field_simp
  simp only [hd]
  field_simp

theorem integral_sin_sin (m n : ℕ) (hm : m ≠ n) (h0 : 0 < m + n) : ∫ t in (0 : ℝ)..π, sin (m * t) * sin (n * t) = 0 := by
  have hmn : ((m : ℝ) - n) ≠ 0 := sub_ne_zero.2 (by exact_mod_cast hm)
  have hpn : ((m : ℝ) + n) ≠ 0 := by
    have : (0 : ℝ) < m + n := by exact_mod_cast h0
    exact this.ne'
  have e : ∀ t, sin (m * t) * sin (n * t) = (cos ((m - n) * t) - cos ((m + n) * t)) / 2 := by
    intro t
    rw [sub_mul, add_mul, cos_sub, cos_add]
    ring
  simp only [e]
  rw [intervalIntegral.integral_div, intervalIntegral.integral_sub ((by fun_prop : Continuous fun t : ℝ => cos ((m - n) * t)).intervalIntegrable _ _)
    ((by fun_prop : Continuous fun t : ℝ => cos ((m + n) * t)).intervalIntegrable _ _),
    intervalIntegral.integral_comp_mul_left _ hmn, intervalIntegral.integral_comp_mul_left _ hpn]
  have s1 : sin (((m : ℝ) - n) * π) = 0 := by
    have := sin_int_mul_pi ((m : ℤ) - n)
    push_cast at this
    exact this
  have s2 : sin (((m : ℝ) + n) * π) = 0 := by
    have := sin_int_mul_pi ((m : ℤ) + n)
    push_cast at this
    exact this
  simp [integral_cos, s1, s2]

theorem cheb_zero (k : ℕ) (hk : 0 < k) : ∫ x, (cheb k).eval x ∂σ = 0 := by
  rw [integral_angle _ (cheb k).continuous]
  have : ∀ t, (cheb k).eval (2 * cos t) * sin t ^ 2 = sin ((k + 1 : ℕ) * t) * sin ((1 : ℕ) * t) := by
    intro t
    push_cast
    rw [← cheb_sin]
    ring_nf
  simp only [this]
  rw [integral_sin_sin _ _ (by omega) (by omega), mul_zero]

theorem cheb_pow : ∀ j k : ℕ, j < k → ∫ x, x ^ j * (cheb k).eval x ∂σ = 0
  | 0, k, h => by simpa using cheb_zero k h
  | j + 1, k, h => by
    obtain ⟨k, rfl⟩ : ∃ l, k = l + 1 := ⟨k - 1, by omega⟩
    have e : ∀ x : ℝ, x ^ (j + 1) * (cheb (k + 1)).eval x = x ^ j * (cheb (k + 2)).eval x + x ^ j * (cheb k).eval x := by
      intro x
      rw [show cheb (k + 2) = X * cheb (k + 1) - cheb k from rfl]
      simp only [eval_sub, eval_mul, eval_X]
      ring
    simp only [e]
    rw [integral_add (integrable_σ _ (by have := (cheb (k + 2)).continuous; fun_prop)) (integrable_σ _ (by have := (cheb k).continuous; fun_prop)), cheb_pow j (k + 2) (by omega), cheb_pow j k (by omega), add_zero]

theorem cheb_orth (k : ℕ) (p : ℝ[X]) (hp : p.natDegree < k) : ∫ x, p.eval x * (cheb k).eval x ∂σ = 0 := by
  have e : ∀ x, p.eval x * (cheb k).eval x = ∑ j ∈ Finset.range k, p.coeff j * (x ^ j * (cheb k).eval x) := by
    intro x
    rw [eval_eq_sum_range' hp, Finset.sum_mul]
    exact Finset.sum_congr rfl fun j _ => by ring
  simp only [e]
  rw [integral_finsetSum _ fun j _ => (integrable_σ _ (by have := (cheb k).continuous; fun_prop))]
  refine Finset.sum_eq_zero fun j hj => ?_
  rw [integral_const_mul, cheb_pow j k (Finset.mem_range.1 hj), mul_zero]

theorem cheb_norm (k : ℕ) : ∫ x, (cheb k).eval x * (cheb k).eval x ∂σ = 1 := by
  have hc := (cheb k).continuous
  rw [integral_angle _ (by fun_prop)]
  have : ∀ t, (cheb k).eval (2 * cos t) * (cheb k).eval (2 * cos t) * sin t ^ 2 = sin ((k + 1) * t) ^ 2 := by
    intro t
    rw [← cheb_sin]
    ring
  simp only [this]
  rw [intervalIntegral.integral_comp_mul_left (fun t => sin t ^ 2) (by positivity : (k : ℝ) + 1 ≠ 0), integral_sin_sq]
  have s : sin (((k : ℝ) + 1) * π) = 0 := by
    have := sin_nat_mul_pi (k + 1)
    push_cast at this
    exact this
  simp [s]
  field_simp

/-- The distribution function of the semicircle law, in the angle variable. -/
noncomputable def phi (t : ℝ) : ℝ := 1 - t / π + sin (2 * t) / (2 * π)

theorem F_angle (t : ℝ) (ht : t ∈ Set.Icc (0 : ℝ) π) : F (2 * cos t) = phi t := by
  have hs : 0 ≤ sin t := sin_nonneg_of_mem_Icc ht
  have h1 := neg_one_le_cos t
  have h2 := cos_le_one t
  rw [F_closed _ ⟨by linarith, by linarith⟩]
  have : (4 : ℝ) - (2 * cos t) ^ 2 = (2 * sin t) ^ 2 := by nlinarith [sin_sq_add_cos_sq t]
  rw [this, sqrt_sq (by linarith), mul_div_cancel_left₀ _ (by norm_num : (2 : ℝ) ≠ 0), arcsin_eq_pi_div_two_sub_arccos, arccos_cos ht.1 ht.2]
  unfold phi
  rw [sin_two_mul]
  field_simp
  ring

/-- The cosine coefficients of the distribution function. -/
noncomputable def coef (k : ℕ) : ℝ := ∫ t in (0 : ℝ)..π, phi t * cos (k * t)

theorem coef_eq (k : ℕ) (hk : 3 ≤ k) : coef k = -((1 - cos (k * π)) / π * (4 / ((k : ℝ) ^ 2 * ((k : ℝ) ^ 2 - 4)))) := by
  have hk' : (3 : ℝ) ≤ k := by exact_mod_cast hk
  have n0 : (k : ℝ) ≠ 0 := by linarith
  have n1 : (k : ℝ) + 2 ≠ 0 := by linarith
  have n2 : (k : ℝ) - 2 ≠ 0 := by linarith
  have n3 : (k : ℝ) ^ 2 - 4 ≠ 0 := by nlinarith
  have hp : π ≠ 0 := pi_ne_zero
  let G : ℝ → ℝ := fun t => sin (k * t) / k - (t * sin (k * t) / k + cos (k * t) / (k : ℝ) ^ 2) / π
    + (-(cos ((k + 2) * t) / (k + 2)) + cos ((k - 2) * t) / (k - 2)) / (4 * π)
  have hd : ∀ t, HasDerivAt G (phi t * cos (k * t)) t := by
    intro t
    have s : ∀ c : ℝ, HasDerivAt (fun t => sin (c * t)) (cos (c * t) * (c * 1)) t := fun c => ((hasDerivAt_id t).const_mul c).sin
    have s' : ∀ c : ℝ, HasDerivAt (fun t => cos (c * t)) (-sin (c * t) * (c * 1)) t := fun c => ((hasDerivAt_id t).const_mul c).cos
    have h := (((s k).div_const k).sub (((((hasDerivAt_id t).mul (s k)).div_const k).add ((s' k).div_const ((k : ℝ) ^ 2))).div_const π)).add
      (((((s' (k + 2)).div_const (k + 2)).neg).add ((s' (k - 2)).div_const (k - 2))).div_const (4 * π))
    refine h.congr_deriv ?_
    have e1 : sin ((k + 2) * t) = sin (k * t) * cos (2 * t) + cos (k * t) * sin (2 * t) := by rw [add_mul, sin_add]
    have e2 : sin ((k - 2) * t) = sin (k * t) * cos (2 * t) - cos (k * t) * sin (2 * t) := by rw [sub_mul, sin_sub]
    unfold phi
    rw [e1, e2]
    simp only [id]
    field_simp
    ring
  have hc : Continuous fun t => phi t * cos (k * t) := by unfold phi; fun_prop
  rw [coef, intervalIntegral.integral_eq_sub_of_hasDerivAt (fun t _ => hd t) (hc.intervalIntegrable _ _)]
  have s1 : sin ((k : ℝ) * π) = 0 := sin_nat_mul_pi k
  have c1 : cos (((k : ℝ) + 2) * π) = cos (k * π) := by rw [add_mul, cos_add_two_pi]
  have c2 : cos (((k : ℝ) - 2) * π) = cos (k * π) := by rw [sub_mul, cos_sub_two_pi]
  simp only [G, s1, c1, c2, mul_zero, sin_zero, cos_zero]
  generalize cos (k * π) = e
  field_simp
  ring

/-- The component of the distribution function along the `k`-th polynomial. -/
noncomputable def comp (k : ℕ) : ℝ := ∫ x, F x * (cheb k).eval x ∂σ

theorem comp_eq (k : ℕ) : comp k = 1 / π * (coef k - coef (k + 2)) := by
  have hc := (cheb k).continuous
  have hF := F_cont
  rw [comp, integral_angle _ (by fun_prop), coef, coef, ← intervalIntegral.integral_sub]
  · rw [← intervalIntegral.integral_const_mul, ← intervalIntegral.integral_const_mul]
    refine intervalIntegral.integral_congr fun t ht => ?_
    rw [Set.uIcc_of_le pi_pos.le] at ht
    simp only [F_angle t ht]
    have e : (cheb k).eval (2 * cos t) * sin t ^ 2 = (cos (k * t) - cos ((k + 2 : ℕ) * t)) / 2 := by
      have h := cheb_sin t k
      have e1 : cos ((k : ℝ) * t) = cos ((k + 1) * t) * cos t + sin ((k + 1) * t) * sin t := by rw [← cos_sub]; ring_nf
      have e2 : cos (((k + 2 : ℕ) : ℝ) * t) = cos ((k + 1) * t) * cos t - sin ((k + 1) * t) * sin t := by
        rw [← cos_add]; push_cast; ring_nf
      rw [e1, e2, ← h]
      ring
    rw [mul_assoc (phi t), e]
    field_simp
  · exact (by unfold phi; fun_prop : Continuous fun t => phi t * cos (k * t)).intervalIntegrable _ _
  · exact (by unfold phi; fun_prop : Continuous fun t => phi t * cos ((k + 2 : ℕ) * t)).intervalIntegrable _ _

theorem comp_le (k : ℕ) (hk : 3 ≤ k) : ((k : ℝ) + 1) * |comp k| ≤ 8 / (((k : ℝ) - 1) * k * (k + 1) * (k + 2)) := by
  obtain ⟨j, rfl⟩ : ∃ j, k = j + 3 := ⟨k - 3, by omega⟩
  have hj : (0 : ℝ) ≤ j := Nat.cast_nonneg j
  have h1 := neg_one_le_cos (((j + 3 : ℕ) : ℝ) * π)
  have h2 := cos_le_one (((j + 3 : ℕ) : ℝ) * π)
  have hp : (9.85 : ℝ) ≤ π ^ 2 := by nlinarith [pi_gt_d2]
  have c2 : cos (((j + 3 + 2 : ℕ) : ℝ) * π) = cos (((j + 3 : ℕ) : ℝ) * π) := by
    have : ((j + 3 + 2 : ℕ) : ℝ) * π = ((j + 3 : ℕ) : ℝ) * π + 2 * π := by push_cast; ring
    rw [this, cos_add_two_pi]
  rw [comp_eq, coef_eq _ (by omega), coef_eq _ (by omega), c2]
  generalize cos (((j + 3 : ℕ) : ℝ) * π) = e at *
  push_cast
  have e0 : (1 : ℝ) / π * (-((1 - e) / π * (4 / (((j : ℝ) + 3) ^ 2 * (((j : ℝ) + 3) ^ 2 - 4)))) - -((1 - e) / π * (4 / (((j : ℝ) + 3 + 2) ^ 2 * (((j : ℝ) + 3 + 2) ^ 2 - 4)))))
      = -((1 - e) / π ^ 2 * (32 * (j + 4) / ((j + 3) ^ 2 * (j + 5) ^ 2 * (j + 1) * (j + 7)))) := by
    have f1 : ((j : ℝ) + 3) ^ 2 - 4 = (j + 1) * (j + 5) := by ring
    have f2 : ((j : ℝ) + 3 + 2) ^ 2 - 4 = (j + 3) * (j + 7) := by ring
    have f3 : (j : ℝ) + 3 + 2 = j + 5 := by ring
    rw [f1, f2, f3]
    field_simp
    ring
  rw [e0, abs_neg, abs_of_nonneg (mul_nonneg (div_nonneg (by linarith) (by positivity)) (by positivity))]
  have h3 : (1 - e) / π ^ 2 ≤ 2 / 9.85 := by
    apply div_le_div₀ <;> linarith
  calc ((j : ℝ) + 3 + 1) * ((1 - e) / π ^ 2 * (32 * (j + 4) / ((j + 3) ^ 2 * (j + 5) ^ 2 * (j + 1) * (j + 7))))
      ≤ ((j : ℝ) + 3 + 1) * (2 / 9.85 * (32 * (j + 4) / ((j + 3) ^ 2 * (j + 5) ^ 2 * (j + 1) * (j + 7)))) := by gcongr
    _ = 64 / 9.85 * ((j : ℝ) + 4) ^ 2 / ((j + 3) ^ 2 * (j + 5) ^ 2 * (j + 1) * (j + 7)) := by field_simp; ring
    _ ≤ 8 / (((j : ℝ) + 3 - 1) * (j + 3) * (j + 3 + 1) * (j + 3 + 2)) := by
        have f3 : ((j : ℝ) + 3 - 1) * (j + 3) * (j + 3 + 1) * (j + 3 + 2) = (j + 2) * (j + 3) * (j + 4) * (j + 5) := by ring
        rw [f3, div_le_div_iff₀ (by positivity) (by positivity)]
        have key : 64 / 9.85 * ((j : ℝ) + 4) ^ 3 * (j + 2) ≤ 8 * ((j + 3) * (j + 5) * (j + 1) * (j + 7)) := by
          have : (0 : ℝ) ≤ 8 * ((j + 3) * (j + 5) * (j + 1) * (j + 7)) * 9.85 - 64 * ((j : ℝ) + 4) ^ 3 * (j + 2) := by
            ring_nf
            positivity
          rw [show 64 / 9.85 * ((j : ℝ) + 4) ^ 3 * (j + 2) = (64 * (j + 4) ^ 3 * (j + 2)) / 9.85 by ring, div_le_iff₀ (by norm_num)]
          linarith
        have := mul_le_mul_of_nonneg_left key (by positivity : (0 : ℝ) ≤ (j + 3) * (j + 5))
        linarith

end Semi
end RMT
