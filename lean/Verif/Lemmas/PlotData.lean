import Verif.Model.PlotData
import Mathlib.Analysis.SpecialFunctions.ImproperIntegrals
import Mathlib.Analysis.SpecialFunctions.Trigonometric.Deriv

/-!
# Lemmas: the tail of the integral of `(sin r / r)^2`
-/

namespace RMT
namespace PlotData
open Real MeasureTheory Set Filter Topology

theorem intOn_inv_pow (a : ℝ) (ha : 0 < a) (n : ℕ) (hn : 2 ≤ n) : IntegrableOn (fun r : ℝ => 1 / r ^ n) (Ioi a) := by
  have h := integrableOn_Ioi_rpow_of_lt (a := -(n : ℝ)) (by have : (2 : ℝ) ≤ n := by exact_mod_cast hn
                                                            linarith) ha
  refine h.congr_fun (fun r hr => ?_) measurableSet_Ioi
  have : (0 : ℝ) < r := lt_trans ha hr
  simp only
  rw [rpow_neg this.le, rpow_natCast, one_div]

theorem integral_inv_cube (a : ℝ) (ha : 0 < a) : ∫ r in Ioi a, 1 / r ^ 3 = 1 / (2 * a ^ 2) := by
  have h := integral_Ioi_rpow_of_lt (a := -(3 : ℝ)) (by norm_num) ha
  have e : ∫ r in Ioi a, 1 / r ^ 3 = ∫ r in Ioi a, r ^ (-(3 : ℝ)) := by
    refine setIntegral_congr_fun measurableSet_Ioi (fun r hr => ?_)
    have : (0 : ℝ) < r := lt_trans ha hr
    rw [rpow_neg this.le, show (3 : ℝ) = ((3 : ℕ) : ℝ) by norm_num, rpow_natCast, one_div]
  rw [e, h, show -(3 : ℝ) + 1 = -((2 : ℕ) : ℝ) by norm_num, rpow_neg ha.le, rpow_natCast]
  push_cast
  field_simp

theorem intOn_sinc_sq (a : ℝ) (ha : 0 < a) : IntegrableOn (fun r : ℝ => (sin r / r) ^ 2) (Ioi a) := by
  refine (intOn_inv_pow a ha 2 (le_refl _)).mono' ?_ ?_
  · exact ((measurable_sin.div measurable_id).pow_const 2).aestronglyMeasurable
  · refine (ae_restrict_iff' measurableSet_Ioi).mpr (Eventually.of_forall fun r hr => ?_)
    have hr0 : (0 : ℝ) < r := lt_trans ha hr
    rw [norm_eq_abs, abs_of_nonneg (sq_nonneg _), div_pow]
    exact div_le_div_of_nonneg_right (sin_sq_le_one r) (by positivity)

theorem intOn_sinc_sq_zero : IntegrableOn (fun r : ℝ => (sin r / r) ^ 2) (Ioi 0) := by
  rw [← Ioc_union_Ioi_eq_Ioi (zero_le_one (α := ℝ))]
  refine IntegrableOn.union ?_ (intOn_sinc_sq 1 one_pos)
  have h1 : IntegrableOn (fun _ : ℝ => (1 : ℝ)) (Ioc 0 1) := by simp
  refine h1.mono' ?_ ?_
  · exact ((measurable_sin.div measurable_id).pow_const 2).aestronglyMeasurable
  · refine (ae_restrict_iff' measurableSet_Ioc).mpr (Eventually.of_forall fun r hr => ?_)
    have hr0 : (0 : ℝ) < r := hr.1
    rw [norm_eq_abs, abs_of_nonneg (sq_nonneg _), sq_le_one_iff_abs_le_one, abs_div, abs_of_pos hr0, div_le_one hr0]
    have := abs_sin_le_abs (x := r)
    rwa [abs_of_pos hr0] at this

theorem intOn_rest (a : ℝ) (ha : 0 < a) : IntegrableOn (fun r : ℝ => sin (2 * r) / (2 * r ^ 3)) (Ioi a) := by
  refine (intOn_inv_pow a ha 3 (by norm_num)).mono' ?_ ?_
  · exact ((measurable_sin.comp (measurable_const.mul measurable_id)).div (measurable_const.mul (measurable_id.pow_const 3))).aestronglyMeasurable
  · refine (ae_restrict_iff' measurableSet_Ioi).mpr (Eventually.of_forall fun r hr => ?_)
    have hr0 : (0 : ℝ) < r := lt_trans ha hr
    have h3 : (0 : ℝ) < r ^ 3 := by positivity
    rw [norm_eq_abs, abs_div, abs_of_pos (show (0 : ℝ) < 2 * r ^ 3 by positivity)]
    rw [div_le_div_iff₀ (by positivity) h3]
    have := abs_sin_le_one (2 * r)
    nlinarith

/-- The tail of the integral of `(sin r / r)^2` is `1 / (2 a)` up to `1 / (2 a^2)`. -/
theorem sinc_tail (a : ℝ) (ha : 0 < a) : |(∫ r in Ioi a, (sin r / r) ^ 2) - 1 / (2 * a)| ≤ 1 / (2 * a ^ 2) := by
  have hI1 := intOn_sinc_sq a ha
  have hI2 := intOn_rest a ha
  have hderiv : ∀ r ∈ Ioi a, HasDerivAt (fun r : ℝ => -(1 / (2 * r)) - sin (2 * r) / (4 * r ^ 2)) ((sin r / r) ^ 2 + sin (2 * r) / (2 * r ^ 3)) r := by
    intro r hr
    have hr0 : r ≠ 0 := (lt_trans ha hr).ne'
    have d1 : HasDerivAt (fun r : ℝ => 2 * r) 2 r := by simpa using (hasDerivAt_id r).const_mul 2
    have d2 : HasDerivAt (fun r : ℝ => 1 / (2 * r)) ((0 * (2 * r) - 1 * 2) / (2 * r) ^ 2) r :=
      (hasDerivAt_const r (1 : ℝ)).div d1 (by positivity)
    have d3 : HasDerivAt (fun r : ℝ => sin (2 * r)) (cos (2 * r) * 2) r := (hasDerivAt_sin (2 * r)).comp r d1
    have d4 : HasDerivAt (fun r : ℝ => 4 * r ^ 2) (4 * (2 * r)) r := by simpa using (hasDerivAt_pow 2 r).const_mul 4
    have d5 := (d2.neg).sub (d3.div d4 (by positivity))
    refine d5.congr_deriv ?_
    have hc : cos (2 * r) = 1 - 2 * sin r ^ 2 := by rw [cos_two_mul, cos_sq']; ring
    rw [hc]
    field_simp
    ring
  have hcont : ContinuousWithinAt (fun r : ℝ => -(1 / (2 * r)) - sin (2 * r) / (4 * r ^ 2)) (Ici a) a := by
    apply ContinuousAt.continuousWithinAt
    have : a ≠ 0 := ha.ne'
    fun_prop (disch := positivity)
  have hlim : Tendsto (fun r : ℝ => -(1 / (2 * r)) - sin (2 * r) / (4 * r ^ 2)) atTop (𝓝 0) := by
    have t1 : Tendsto (fun r : ℝ => 1 / (2 * r)) atTop (𝓝 0) := by
      have : Tendsto (fun r : ℝ => (2 * r)⁻¹) atTop (𝓝 0) := tendsto_inv_atTop_zero.comp (tendsto_id.const_mul_atTop (by norm_num))
      simpa [one_div] using this
    have t2 : Tendsto (fun r : ℝ => sin (2 * r) / (4 * r ^ 2)) atTop (𝓝 0) := by
      have t3 : Tendsto (fun r : ℝ => 1 / (4 * r ^ 2)) atTop (𝓝 0) := by
        have : Tendsto (fun r : ℝ => (4 * r ^ 2)⁻¹) atTop (𝓝 0) :=
          tendsto_inv_atTop_zero.comp ((tendsto_pow_atTop (by norm_num)).const_mul_atTop (by norm_num))
        simpa [one_div] using this
      refine squeeze_zero_norm' ?_ t3
      filter_upwards [eventually_gt_atTop 0] with r hr
      rw [norm_eq_abs, abs_div, abs_of_pos (show (0 : ℝ) < 4 * r ^ 2 by positivity)]
      exact div_le_div_of_nonneg_right (abs_sin_le_one _) (by positivity)
    simpa using t1.neg.sub t2
  have h := integral_Ioi_of_hasDerivAt_of_tendsto hcont hderiv (hI1.add hI2) hlim
  rw [integral_add hI1 hI2] at h
  have hrest : |∫ r in Ioi a, sin (2 * r) / (2 * r ^ 3)| ≤ 1 / (4 * a ^ 2) := by
    have : ∀ r ∈ Ioi a, ‖sin (2 * r) / (2 * r ^ 3)‖ ≤ (1 / 2) * (1 / r ^ 3) := by
      intro r hr
      have hr0 : (0 : ℝ) < r := lt_trans ha hr
      rw [norm_eq_abs, abs_div, abs_of_pos (show (0 : ℝ) < 2 * r ^ 3 by positivity)]
      calc |sin (2 * r)| / (2 * r ^ 3) ≤ 1 / (2 * r ^ 3) := div_le_div_of_nonneg_right (abs_sin_le_one _) (by positivity)
        _ = (1 / 2) * (1 / r ^ 3) := by field_simp
    have h1 := norm_integral_le_of_norm_le (((intOn_inv_pow a ha 3 (by norm_num))).const_mul (1 / 2))
      ((ae_restrict_iff' measurableSet_Ioi).mpr (Eventually.of_forall this))
    rw [integral_const_mul, integral_inv_cube a ha, norm_eq_abs] at h1
    refine h1.trans (le_of_eq ?_)
    field_simp
    ring
  have hs : |sin (2 * a) / (4 * a ^ 2)| ≤ 1 / (4 * a ^ 2) := by
    rw [abs_div, abs_of_pos (show (0 : ℝ) < 4 * a ^ 2 by positivity)]
    exact div_le_div_of_nonneg_right (abs_sin_le_one _) (by positivity)
  have key : (∫ r in Ioi a, (sin r / r) ^ 2) - 1 / (2 * a) = sin (2 * a) / (4 * a ^ 2) - ∫ r in Ioi a, sin (2 * r) / (2 * r ^ 3) := by
    linarith
  rw [key]
  refine (abs_sub _ _).trans ((add_le_add hs hrest).trans (le_of_eq ?_))
  field_simp
  ring

end PlotData
end RMT
