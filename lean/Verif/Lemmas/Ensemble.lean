import Verif.Model.Ensemble
import Mathlib.MeasureTheory.Integral.Gamma
import Mathlib.Analysis.SpecialFunctions.Gaussian.GaussianIntegral
import Mathlib.MeasureTheory.Integral.IntervalIntegral.FundThmCalculus

/-! # Integrals for the ensemble densities -/

namespace RMT
open Real MeasureTheory Set Ensembles

theorem gauss_moment (k : ℕ) (b : ℝ) (hb : 0 < b) :
    ∫ x in Ioi (0 : ℝ), x ^ k * exp (-b * x ^ 2) =
      b ^ (-((k : ℝ) + 1) / 2) * (1 / 2) * Gamma (((k : ℝ) + 1) / 2) := by
  have hk : (-1 : ℝ) < (k : ℝ) := by have : (0 : ℝ) ≤ k := Nat.cast_nonneg k; linarith
  have h := integral_rpow_mul_exp_neg_mul_rpow (p := 2) (q := (k : ℝ)) (b := b) (by norm_num) hk hb
  rw [← h]
  refine setIntegral_congr_fun measurableSet_Ioi fun x _ => ?_
  simp [rpow_natCast]

theorem rpow_half (b : ℝ) (hb : 0 < b) (m : ℕ) : b ^ (-((2 * m : ℕ) + 1 : ℝ) / 2) = 1 / (b ^ m * sqrt b) := by
  have e : (-((2 * m : ℕ) + 1 : ℝ) / 2) = -((m : ℝ) + 1 / 2) := by push_cast; ring
  rw [e, rpow_neg hb.le, rpow_add hb, rpow_natCast, sqrt_eq_rpow, ← one_div]

theorem rpow_int' (b : ℝ) (hb : 0 < b) (m : ℕ) : b ^ (-((2 * m + 1 : ℕ) + 1 : ℝ) / 2) = 1 / (b ^ (m + 1)) := by
  have e : (-((2 * m + 1 : ℕ) + 1 : ℝ) / 2) = -((m + 1 : ℕ) : ℝ) := by push_cast; ring
  rw [e, rpow_neg hb.le, rpow_natCast, one_div]

theorem Gamma_two' : Gamma 2 = 1 := by
  have := Gamma_add_one (s := 1) (by norm_num)
  rw [show (1 : ℝ) + 1 = 2 by norm_num, Gamma_one] at this
  rw [this]; norm_num

theorem Gamma_three_half : Gamma (3 / 2) = sqrt π / 2 := by
  have h := Gamma_add_one (s := 1 / 2) (by norm_num)
  rw [show (1 / 2 : ℝ) + 1 = 3 / 2 by norm_num, Gamma_one_half_eq] at h
  rw [h]; ring

theorem Gamma_five_half : Gamma (5 / 2) = 3 * sqrt π / 4 := by
  have h := Gamma_add_one (s := 3 / 2) (by norm_num)
  rw [show (3 / 2 : ℝ) + 1 = 5 / 2 by norm_num, Gamma_three_half] at h
  rw [h]; ring

theorem moment1 (b : ℝ) (hb : 0 < b) : ∫ x in Ioi (0 : ℝ), x ^ 1 * exp (-b * x ^ 2) = 1 / (2 * b) := by
  have h := rpow_int' b hb 0
  rw [gauss_moment 1 b hb]
  have e : ((1 : ℕ) : ℝ) + 1 = 2 := by norm_num
  rw [show (-(((1 : ℕ) : ℝ) + 1) / 2) = -((2 * 0 + 1 : ℕ) + 1 : ℝ) / 2 by norm_num, h, e]
  norm_num [Gamma_one]

theorem moment2 (b : ℝ) (hb : 0 < b) :
    ∫ x in Ioi (0 : ℝ), x ^ 2 * exp (-b * x ^ 2) = sqrt π / (4 * (b * sqrt b)) := by
  have h := rpow_half b hb 1
  rw [gauss_moment 2 b hb]
  rw [show (-(((2 : ℕ) : ℝ) + 1) / 2) = -((2 * 1 : ℕ) + 1 : ℝ) / 2 by norm_num, h,
    show ((2 : ℕ) : ℝ) + 1 = 3 by norm_num, Gamma_three_half]
  have : 0 < sqrt b := sqrt_pos.mpr hb
  field_simp
  norm_num

theorem moment3 (b : ℝ) (hb : 0 < b) : ∫ x in Ioi (0 : ℝ), x ^ 3 * exp (-b * x ^ 2) = 1 / (2 * b ^ 2) := by
  have h := rpow_int' b hb 1
  rw [gauss_moment 3 b hb]
  rw [show (-(((3 : ℕ) : ℝ) + 1) / 2) = -((2 * 1 + 1 : ℕ) + 1 : ℝ) / 2 by norm_num, h,
    show (((3 : ℕ) : ℝ) + 1) / 2 = 2 by norm_num, Gamma_two']
  norm_num

theorem moment4 (b : ℝ) (hb : 0 < b) :
    ∫ x in Ioi (0 : ℝ), x ^ 4 * exp (-b * x ^ 2) = 3 * sqrt π / (8 * (b ^ 2 * sqrt b)) := by
  have h := rpow_half b hb 2
  rw [gauss_moment 4 b hb]
  rw [show (-(((4 : ℕ) : ℝ) + 1) / 2) = -((2 * 2 : ℕ) + 1 : ℝ) / 2 by norm_num, h,
    show ((4 : ℕ) : ℝ) + 1 = 5 by norm_num, Gamma_five_half]
  have : 0 < sqrt b := sqrt_pos.mpr hb
  field_simp
  norm_num

theorem moment5 (b : ℝ) (hb : 0 < b) : ∫ x in Ioi (0 : ℝ), x ^ 5 * exp (-b * x ^ 2) = 1 / b ^ 3 := by
  have h := rpow_int' b hb 2
  rw [gauss_moment 5 b hb]
  have hG : Gamma 3 = 2 := by
    have := Gamma_add_one (s := 2) (by norm_num)
    rw [show (2 : ℝ) + 1 = 3 by norm_num, Gamma_two'] at this
    rw [this]; norm_num
  rw [show (-(((5 : ℕ) : ℝ) + 1) / 2) = -((2 * 2 + 1 : ℕ) + 1 : ℝ) / 2 by norm_num, h,
    show (((5 : ℕ) : ℝ) + 1) / 2 = 3 by norm_num, hG]
  norm_num
  ring

/-! ### the four densities -/

theorem poisson_mass : ∫ s in Ioi (0 : ℝ), poissonDensity s = 1 := by
  simpa [poissonDensity] using integral_exp_neg_Ioi_zero

theorem poisson_mean : ∫ s in Ioi (0 : ℝ), s * poissonDensity s = 1 := by
  have h := Gamma_eq_integral (s := 2) (by norm_num)
  rw [Gamma_two'] at h
  rw [h]
  refine setIntegral_congr_fun measurableSet_Ioi fun x _ => ?_
  simp only [poissonDensity]
  rw [show (2 : ℝ) - 1 = 1 by norm_num, rpow_one]; ring

theorem sqrt_pi_sq : sqrt π * sqrt π = π := mul_self_sqrt pi_pos.le

theorem goe_mass : ∫ s in Ioi (0 : ℝ), goeDensity s = 1 := by
  have h := moment1 (π / 4) (by positivity)
  have e : ∀ s : ℝ, goeDensity s = (π / 2) * (s ^ 1 * exp (-(π / 4) * s ^ 2)) := by
    intro s; simp only [goeDensity]; ring_nf
  simp only [e]
  rw [integral_const_mul, h]
  have := pi_pos
  field_simp
  norm_num

theorem goe_mean : ∫ s in Ioi (0 : ℝ), s * goeDensity s = 1 := by
  have h := moment2 (π / 4) (by positivity)
  have e : ∀ s : ℝ, s * goeDensity s = (π / 2) * (s ^ 2 * exp (-(π / 4) * s ^ 2)) := by
    intro s; simp only [goeDensity]; ring_nf
  simp only [e]
  rw [integral_const_mul, h]
  have h2 : sqrt (π / 4) = sqrt π / 2 := by
    rw [sqrt_div pi_pos.le, show (4 : ℝ) = 2 ^ 2 by norm_num, sqrt_sq (by norm_num)]
  rw [h2]
  have := pi_pos
  have hs : 0 < sqrt π := sqrt_pos.mpr pi_pos
  field_simp

theorem gue_mass : ∫ s in Ioi (0 : ℝ), gueDensity s = 1 := by
  have h := moment2 (4 / π) (by positivity)
  have e : ∀ s : ℝ, gueDensity s = (32 / π ^ 2) * (s ^ 2 * exp (-(4 / π) * s ^ 2)) := by
    intro s; simp only [gueDensity]; ring_nf
  simp only [e]
  rw [integral_const_mul, h]
  have h2 : sqrt (4 / π) = 2 / sqrt π := by
    rw [sqrt_div (by norm_num), show (4 : ℝ) = 2 ^ 2 by norm_num, sqrt_sq (by norm_num)]
  rw [h2]
  have := pi_pos
  have hs : 0 < sqrt π := sqrt_pos.mpr pi_pos
  field_simp
  rw [show sqrt π ^ 2 = π by rw [sq]; exact sqrt_pi_sq]
  ring

theorem gue_mean : ∫ s in Ioi (0 : ℝ), s * gueDensity s = 1 := by
  have h := moment3 (4 / π) (by positivity)
  have e : ∀ s : ℝ, s * gueDensity s = (32 / π ^ 2) * (s ^ 3 * exp (-(4 / π) * s ^ 2)) := by
    intro s; simp only [gueDensity]; ring_nf
  simp only [e]
  rw [integral_const_mul, h]
  have := pi_pos
  field_simp
  norm_num

theorem gse_mass : ∫ s in Ioi (0 : ℝ), gseDensity s = 1 := by
  have h := moment4 (64 / (9 * π)) (by positivity)
  have e : ∀ s : ℝ, gseDensity s = (262144 / (729 * π ^ 3)) * (s ^ 4 * exp (-(64 / (9 * π)) * s ^ 2)) := by
    intro s; simp only [gseDensity]; ring_nf
  simp only [e]
  rw [integral_const_mul, h]
  have h2 : sqrt (64 / (9 * π)) = 8 / (3 * sqrt π) := by
    rw [sqrt_div (by norm_num), sqrt_mul (by norm_num), show (64 : ℝ) = 8 ^ 2 by norm_num, sqrt_sq (by norm_num),
      show (9 : ℝ) = 3 ^ 2 by norm_num, sqrt_sq (by norm_num)]
  rw [h2]
  have := pi_pos
  have hs : 0 < sqrt π := sqrt_pos.mpr pi_pos
  field_simp
  rw [show sqrt π ^ 2 = π by rw [sq]; exact sqrt_pi_sq]
  ring

theorem gse_mean : ∫ s in Ioi (0 : ℝ), s * gseDensity s = 1 := by
  have h := moment5 (64 / (9 * π)) (by positivity)
  have e : ∀ s : ℝ, s * gseDensity s = (262144 / (729 * π ^ 3)) * (s ^ 5 * exp (-(64 / (9 * π)) * s ^ 2)) := by
    intro s; simp only [gseDensity]; ring_nf
  simp only [e]
  rw [integral_const_mul, h]
  have := pi_pos
  field_simp
  norm_num

theorem goeNext_eq_gse (s : ℝ) : goeNextDensity s = gseDensity s := by
  unfold goeNextDensity gseDensity; norm_num

/-! ### the rigidity transform -/

theorem transform_log (L : ℝ) (hL : 0 < L) (a c : ℝ) :
    2 / L ^ 4 * ∫ r in (0 : ℝ)..L, (L ^ 3 - 2 * L ^ 2 * r + r ^ 3) * (a * log r + c) =
      a * (log L / 2 - 9 / 8) + c / 2 := by
  -- antiderivative
  let F : ℝ → ℝ := fun r => a * (L ^ 3 * (r * log r - r) - 2 * L ^ 2 * (r / 2 * (r * log r) - r ^ 2 / 4) +
    (r ^ 3 / 4 * (r * log r) - r ^ 4 / 16)) + c * (L ^ 3 * r - L ^ 2 * r ^ 2 + r ^ 4 / 4)
  have hcont : ContinuousOn F (Icc 0 L) := by
    apply Continuous.continuousOn
    have h := continuous_mul_log
    have h' : Continuous fun r : ℝ => r * log r := h
    fun_prop
  have hderiv : ∀ r ∈ Ioo 0 L, HasDerivAt F ((L ^ 3 - 2 * L ^ 2 * r + r ^ 3) * (a * log r + c)) r := by
    intro r hr
    have hr0 : r ≠ 0 := hr.1.ne'
    have hlog : HasDerivAt (fun r : ℝ => r * log r) (log r + 1) r := hasDerivAt_mul_log hr0
    have hid : HasDerivAt (fun r : ℝ => r) 1 r := hasDerivAt_id r
    have h1 := (hlog.sub hid).const_mul (L ^ 3)
    have h2 := (((hid.div_const 2).mul hlog).sub ((hid.pow 2).div_const 4)).const_mul (2 * L ^ 2)
    have h3 := (((hid.pow 3).div_const 4).mul hlog).sub ((hid.pow 4).div_const 16)
    have h4 := (((h1.sub h2).add h3).const_mul a).add
      ((((hid.const_mul (L ^ 3)).sub ((hid.pow 2).const_mul (L ^ 2))).add ((hid.pow 4).div_const 4)).const_mul c)
    refine h4.congr_deriv ?_
    simp
    ring
  have hint : IntervalIntegrable (fun r => (L ^ 3 - 2 * L ^ 2 * r + r ^ 3) * (a * log r + c)) volume 0 L := by
    apply IntervalIntegrable.continuousOn_mul
    · exact (intervalIntegral.intervalIntegrable_log'.const_mul a).add intervalIntegrable_const
    · fun_prop
  rw [intervalIntegral.integral_eq_sub_of_hasDerivAt_of_le hL.le hcont hderiv hint]
  simp only [F]
  have hL' := hL.ne'
  simp only [log_zero, mul_zero]
  field_simp
  ring

theorem transform_id (L : ℝ) (hL : 0 < L) :
    2 / L ^ 4 * ∫ r in (0 : ℝ)..L, (L ^ 3 - 2 * L ^ 2 * r + r ^ 3) * r = L / 15 := by
  have hderiv : ∀ r ∈ uIcc 0 L, HasDerivAt (fun r : ℝ => L ^ 3 * r ^ 2 / 2 - 2 * L ^ 2 * r ^ 3 / 3 + r ^ 5 / 5)
      ((L ^ 3 - 2 * L ^ 2 * r + r ^ 3) * r) r := by
    intro r _
    have hid : HasDerivAt (fun r : ℝ => r) 1 r := hasDerivAt_id r
    have h := ((((hid.pow 2).const_mul (L ^ 3)).div_const 2).sub (((hid.pow 3).const_mul (2 * L ^ 2)).div_const 3)).add
      ((hid.pow 5).div_const 5)
    refine h.congr_deriv ?_
    simp
    ring
  rw [intervalIntegral.integral_eq_sub_of_hasDerivAt hderiv (Continuous.intervalIntegrable (by fun_prop) _ _)]
  have hL' := hL.ne'
  field_simp
  ring

/-! ### Brody -/

theorem brodyAlpha_pos (beta : ℝ) (h : -1 < beta) : 0 < brodyAlpha beta := by
  unfold brodyAlpha
  apply rpow_pos_of_pos
  apply Gamma_pos_of_pos
  apply div_pos <;> linarith

theorem brodyAlpha_zero : brodyAlpha 0 = 1 := by
  unfold brodyAlpha; norm_num [Gamma_two']

theorem brodyAlpha_one : brodyAlpha 1 = π / 4 := by
  unfold brodyAlpha
  rw [show ((1 : ℝ) + 2) / (1 + 1) = 3 / 2 by norm_num, Gamma_three_half, show (1 : ℝ) + 1 = ((2 : ℕ) : ℝ) by norm_num,
    rpow_natCast, div_pow, sq_sqrt pi_pos.le]
  norm_num

theorem brody_mass (beta : ℝ) (h : -1 < beta) : ∫ s in Ioi (0 : ℝ), brodyDist s beta = 1 := by
  have hb := brodyAlpha_pos beta h
  have h1 : 0 < beta + 1 := by linarith
  have hi := integral_rpow_mul_exp_neg_mul_rpow (p := beta + 1) (q := beta) h1 h hb
  have e : ∀ s : ℝ, brodyDist s beta = ((beta + 1) * brodyAlpha beta) *
      (s ^ beta * exp (-brodyAlpha beta * s ^ (beta + 1))) := by
    intro s; simp only [brodyDist]; ring
  simp only [e]
  rw [integral_const_mul, hi, div_self h1.ne', Gamma_one, neg_div, div_self h1.ne', rpow_neg_one]
  field_simp

theorem brody_mean (beta : ℝ) (h : -1 < beta) : ∫ s in Ioi (0 : ℝ), s * brodyDist s beta = 1 := by
  have hb := brodyAlpha_pos beta h
  have h1 : 0 < beta + 1 := by linarith
  have hi := integral_rpow_mul_exp_neg_mul_rpow (p := beta + 1) (q := beta + 1) h1 (by linarith) hb
  have e : ∀ s ∈ Ioi (0 : ℝ), s * brodyDist s beta = ((beta + 1) * brodyAlpha beta) *
      (s ^ (beta + 1) * exp (-brodyAlpha beta * s ^ (beta + 1))) := by
    intro s hs
    have hs' : (0 : ℝ) < s := hs
    simp only [brodyDist]
    rw [rpow_add_one hs'.ne']; ring
  rw [setIntegral_congr_fun measurableSet_Ioi e, integral_const_mul, hi]
  have hG : 0 < Gamma ((beta + 2) / (beta + 1)) := Gamma_pos_of_pos (div_pos (by linarith) h1)
  have e2 : beta + 1 + 1 = beta + 2 := by ring
  rw [e2]
  have e3 : brodyAlpha beta ^ (-(beta + 2) / (beta + 1)) = (Gamma ((beta + 2) / (beta + 1)))⁻¹ * (brodyAlpha beta)⁻¹ := by
    have : -(beta + 2) / (beta + 1) = -(1 / (beta + 1)) + (-1) := by field_simp; ring
    rw [this, rpow_add hb, rpow_neg_one]
    congr 1
    unfold brodyAlpha
    rw [← rpow_mul hG.le]
    have : (beta + 1) * -(1 / (beta + 1)) = -1 := by field_simp
    rw [this, rpow_neg_one]
  rw [e3]
  field_simp

theorem brodyCdf_deriv (s beta : ℝ) (hs : 0 < s) :
    HasDerivAt (fun x => brodyCdf x beta) (brodyDist s beta) s := by
  have h1 : HasDerivAt (fun x : ℝ => x ^ (beta + 1)) ((beta + 1) * s ^ beta) s := by
    have := Real.hasDerivAt_rpow_const (x := s) (p := beta + 1) (Or.inl hs.ne')
    simpa using this
  have h2 := ((h1.const_mul (-brodyAlpha beta)).exp).const_sub 1
  refine h2.congr_deriv ?_
  unfold brodyDist; ring

end RMT
