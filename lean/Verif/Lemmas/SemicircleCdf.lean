import Verif.Lemmas.SpectralMoments
import Verif.Props.Analytic
import Mathlib.Analysis.SpecialFunctions.Trigonometric.InverseDeriv
import Mathlib.MeasureTheory.Integral.IntervalIntegral.FundThmCalculus

/-! # The distribution function of the semicircle law -/

namespace RMT.Semi
open MeasureTheory ProbabilityTheory Real Spec Filter Topology Props Gauss EigValsM Analytic

/-- The distribution function. -/
noncomputable def F (a : ℝ) : ℝ := (semicircleLaw 2).real (Set.Iic a)

theorem dens_cont : Continuous dens := by unfold dens; fun_prop

theorem dens_pos (x : ℝ) (h : x ∈ Set.Ioo (-2 : ℝ) 2) : 0 < dens x := by
  unfold dens
  have : 0 < 4 - x ^ 2 := by nlinarith [h.1, h.2]
  positivity

theorem integrable_dens : Integrable dens := by
  refine Continuous.integrable_of_hasCompactSupport dens_cont (HasCompactSupport.intro (isCompact_Icc (a := (-2 : ℝ)) (b := 2)) fun x hx => dens_zero x hx)

theorem F_eq_set (a : ℝ) : F a = ∫ x in Set.Iic a, dens x := by
  unfold F semicircleLaw
  rw [measureReal_def, withDensity_apply _ measurableSet_Iic]
  simp only [dens_eq]
  rw [← ofReal_integral_eq_lintegral_ofReal integrable_dens.integrableOn (Eventually.of_forall dens_nonneg), ENNReal.toReal_ofReal (integral_nonneg dens_nonneg)]

theorem F_eq_interval (a : ℝ) : F a = ∫ x in (-2 : ℝ)..a, dens x := by
  rw [← intervalIntegral.integral_Iic_sub_Iic integrable_dens.integrableOn integrable_dens.integrableOn, ← F_eq_set]
  have : ∫ x in Set.Iic (-2 : ℝ), dens x = 0 := by
    refine setIntegral_eq_zero_of_forall_eq_zero fun x hx => ?_
    rw [Set.mem_Iic] at hx
    unfold dens
    rw [sqrt_eq_zero_of_nonpos (by nlinarith), zero_div]
  rw [this, sub_zero]

theorem F_deriv (a : ℝ) : HasDerivAt F (dens a) a := by
  have : F = fun a => ∫ x in (-2 : ℝ)..a, dens x := funext F_eq_interval
  rw [this]
  exact intervalIntegral.integral_hasDerivAt_right (dens_cont.intervalIntegrable _ _) (dens_cont.stronglyMeasurableAtFilter _ _) dens_cont.continuousAt

theorem F_cont : Continuous F := continuous_iff_continuousAt.mpr fun a => (F_deriv a).continuousAt

theorem F_mono : Monotone F := fun _ _ h => measureReal_mono (Set.Iic_subset_Iic.mpr h)

theorem F_neg_two : F (-2) = 0 := by rw [F_eq_interval]; simp

theorem F_ind (a : ℝ) : ∫ x, ind a x ∂σ = F a := by
  have : ind a = (Set.Iic a).indicator fun _ => 1 := by
    funext x; simp [ind, Set.indicator, Set.mem_Iic]
  rw [this, integral_indicator measurableSet_Iic]
  simp [F, σ, measureReal_def]

theorem F_two : F 2 = 1 := by
  have h := integral_σ (fun _ => 1)
  simp only [one_mul] at h
  rw [F_eq_interval, ← h]
  simp

theorem F_strict : StrictMonoOn F (Set.Icc (-2) 2) := by
  refine strictMonoOn_of_deriv_pos (convex_Icc _ _) F_cont.continuousOn fun x hx => ?_
  rw [interior_Icc] at hx
  rw [(F_deriv x).deriv]
  exact dens_pos x hx

theorem F_le_iff (b : ℝ) (h1 : -2 ≤ b) (h2 : b < 2) (y : ℝ) : F y ≤ F b ↔ y ≤ b := by
  refine ⟨fun h => ?_, fun h => F_mono h⟩
  by_contra hc
  rw [not_le] at hc
  have h3 : b < min y 2 := lt_min hc h2
  have h4 := F_strict ⟨h1, h2.le⟩ ⟨h1.trans h3.le, min_le_right _ _⟩ h3
  have h5 := F_mono (min_le_left y 2)
  linarith

/-- The unfolding function is `n` times the distribution function of the semicircle law with radius `√(2 n)`. -/
theorem smooth_eq (n : ℕ) (hn : 0 < n) (x : ℝ) : smoothGoe n x = n * F (√(2 / n) * x) := by
  have hn' : (0 : ℝ) < n := by exact_mod_cast hn
  set c := √(2 / (n : ℝ)) with hc
  have hc2 : c ^ 2 = 2 / n := Real.sq_sqrt (by positivity)
  have hc0 : 0 < c := Real.sqrt_pos.mpr (by positivity)
  have hd : ∀ x, HasDerivAt (fun x => smoothGoe n x - n * F (c * x)) 0 x := by
    intro x
    have h1 := (C51_map n).2.2.2.2.2.1 x
    have h2 : HasDerivAt (fun x => n * F (c * x)) (n * (dens (c * x) * c)) x := by
      have h3 : HasDerivAt (fun x => c * x) c x := by simpa using (hasDerivAt_id x).const_mul c
      exact ((F_deriv (c * x)).comp x h3).const_mul _
    refine (h1.sub h2).congr_deriv ?_
    unfold dens
    have h4 : 4 - (c * x) ^ 2 = c ^ 2 * (2 * n - x ^ 2) := by
      rw [mul_pow, hc2]; field_simp; ring
    rw [h4, Real.sqrt_mul (by positivity), Real.sqrt_sq hc0.le]
    have h5 : (n : ℝ) * (c * √(2 * n - x ^ 2) / (2 * π) * c) = n * c ^ 2 * √(2 * n - x ^ 2) / (2 * π) := by ring
    rw [h5, hc2]
    field_simp
    ring
  have hconst := is_const_of_deriv_eq_zero (fun x => (hd x).differentiableAt) (fun x => (hd x).deriv) x (-√(2 * n))
  have h6 := (C51_map n).2.2.2.1 (-√(2 * n)) le_rfl
  have h7 : c * -√(2 * n) = -2 := by
    rw [hc, mul_neg, ← Real.sqrt_mul (by positivity)]
    have : 2 / (n : ℝ) * (2 * n) = 2 ^ 2 := by field_simp
    rw [this, Real.sqrt_sq (by norm_num)]
  rw [h6, h7, F_neg_two] at hconst
  linarith

/-- A closed form. -/
theorem F_closed (a : ℝ) (ha : a ∈ Set.Icc (-2 : ℝ) 2) : F a = 1 / 2 + (a * √(4 - a ^ 2) / 2 + 2 * arcsin (a / 2)) / (2 * π) := by
  have hd : ∀ x ∈ Set.Ioo (-2 : ℝ) 2, HasDerivAt (fun a => (a * √(4 - a ^ 2) / 2 + 2 * arcsin (a / 2)) / (2 * π)) (dens x) x := by
    intro x hx
    have hp : 0 < 4 - x ^ 2 := by nlinarith [hx.1, hx.2]
    have h1 : HasDerivAt (fun a => √(4 - a ^ 2)) ((0 - 2 * x) / (2 * √(4 - x ^ 2))) x := by
      refine HasDerivAt.sqrt ?_ hp.ne'
      have := (hasDerivAt_const x (4 : ℝ)).sub (hasDerivAt_pow 2 x)
      refine HasDerivAt.congr_deriv (f := fun a : ℝ => 4 - a ^ 2) this ?_
      simp
    have h2 : HasDerivAt (fun a => a * √(4 - a ^ 2)) (1 * √(4 - x ^ 2) + x * ((0 - 2 * x) / (2 * √(4 - x ^ 2)))) x := (hasDerivAt_id x).mul h1
    have h3 : HasDerivAt (fun a : ℝ => arcsin (a / 2)) (1 / √(1 - (x / 2) ^ 2) * (1 / 2)) x := by
      have := (Real.hasDerivAt_arcsin (x := x / 2) (by linarith [hx.1]) (by linarith [hx.2]))
      have h4 : HasDerivAt (fun a : ℝ => a / 2) (1 / 2) x := (hasDerivAt_id x).div_const 2
      exact this.comp x h4
    have := (((h2.div_const 2).add (h3.const_mul 2)).div_const (2 * π))
    refine this.congr_deriv ?_
    have h5 : √(1 - (x / 2) ^ 2) = √(4 - x ^ 2) / 2 := by
      have : 1 - (x / 2) ^ 2 = (4 - x ^ 2) / 2 ^ 2 := by ring
      rw [this, Real.sqrt_div' _ (by norm_num), Real.sqrt_sq (by norm_num)]
    unfold dens
    rw [h5]
    have h6 : √(4 - x ^ 2) ≠ 0 := (Real.sqrt_pos.mpr hp).ne'
    have h7 : √(4 - x ^ 2) ^ 2 = 4 - x ^ 2 := Real.sq_sqrt hp.le
    generalize √(4 - x ^ 2) = r at *
    field_simp
    rw [h7]; ring
  have hcont : ContinuousOn (fun a => (a * √(4 - a ^ 2) / 2 + 2 * arcsin (a / 2)) / (2 * π)) (Set.uIcc (-2) a) := by
    have : Continuous (fun a => (a * √(4 - a ^ 2) / 2 + 2 * arcsin (a / 2)) / (2 * π)) := by
      have := continuous_arcsin
      fun_prop
    exact this.continuousOn
  have := intervalIntegral.integral_eq_sub_of_hasDerivAt_of_le (a := -2) (b := a) ha.1 (by rwa [Set.uIcc_of_le ha.1] at hcont) (fun x hx => hd x ⟨hx.1, lt_of_lt_of_le hx.2 ha.2⟩) (dens_cont.intervalIntegrable _ _)
  rw [F_eq_interval, this]
  have h8 : (-2 : ℝ) / 2 = -1 := by norm_num
  rw [h8, arcsin_neg_one]
  have h9 : √(4 - (-2 : ℝ) ^ 2) = 0 := by norm_num
  rw [h9]
  have := pi_pos
  field_simp
  ring

theorem F_atom : F (-√2) = 1 / 4 - 1 / (2 * π) := by
  have hs : √2 ^ 2 = (2 : ℝ) := Real.sq_sqrt (by norm_num)
  have h0 : 0 ≤ √2 := Real.sqrt_nonneg 2
  rw [F_closed (-√2) ⟨by nlinarith, by nlinarith⟩]
  have h1 : √(4 - (-√2) ^ 2) = √2 := by rw [neg_sq, hs]; norm_num
  have h2 : arcsin (-√2 / 2) = -(π / 4) := by
    rw [neg_div, arcsin_neg, ← Real.sin_pi_div_four, arcsin_sin (by linarith [pi_pos]) (by linarith [pi_pos])]
  rw [h1, h2]
  have := pi_pos
  have h3 : -√2 * √2 = -2 := by nlinarith
  rw [h3]
  field_simp
  ring

end RMT.Semi
