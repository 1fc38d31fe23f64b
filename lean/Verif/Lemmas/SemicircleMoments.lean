import Verif.Lemmas.WignerMoments
import Verif.Spec.Semicircle
import Mathlib.MeasureTheory.Integral.IntervalIntegral.FundThmCalculus
import Mathlib.Analysis.SpecialFunctions.Sqrt
import Mathlib.Analysis.SpecialFunctions.Integrals.Basic
import Verif.Lemmas.Analytic

/-! # The moments of the semicircle law -/

namespace RMT.Semi
open MeasureTheory Real Spec

/-- The unnormalised moments. -/
noncomputable def I (k : ℕ) : ℝ := ∫ x in (-2 : ℝ)..2, x ^ k * √(4 - x ^ 2)

theorem cont (k : ℕ) : Continuous fun x : ℝ => x ^ k * √(4 - x ^ 2) := by fun_prop

theorem I_rec (k : ℕ) : ((k : ℝ) + 4) * I (k + 2) = 4 * (k + 1) * I k := by
  have hd : ∀ x ∈ Set.Ioo (-2 : ℝ) 2, HasDerivAt (fun x : ℝ => x ^ (k + 1) * ((4 - x ^ 2) * √(4 - x ^ 2)))
      (4 * (k + 1) * (x ^ k * √(4 - x ^ 2)) - (k + 4) * (x ^ (k + 2) * √(4 - x ^ 2))) x := by
    intro x hx
    have hpos : 0 < 4 - x ^ 2 := by nlinarith [hx.1, hx.2]
    have h1 : HasDerivAt (fun x : ℝ => 4 - x ^ 2) (-(2 * x)) x := by
      have := (hasDerivAt_pow 2 x).const_sub 4
      exact this.congr_deriv (by simp)
    have h2 := h1.mul (h1.sqrt hpos.ne')
    have h3 := (hasDerivAt_pow (k + 1) x).mul h2
    refine h3.congr_deriv ?_
    have hs : √(4 - x ^ 2) ≠ 0 := (Real.sqrt_pos.mpr hpos).ne'
    have hq : √(4 - x ^ 2) ^ 2 = 4 - x ^ 2 := Real.sq_sqrt hpos.le
    simp only [Pi.mul_apply, Nat.add_sub_cancel]
    push_cast
    field_simp
    rw [hq]
    ring
  have hc : ContinuousOn (fun x : ℝ => x ^ (k + 1) * ((4 - x ^ 2) * √(4 - x ^ 2))) (Set.Icc (-2) 2) := by fun_prop
  have hi : IntervalIntegrable (fun x : ℝ => 4 * (k + 1) * (x ^ k * √(4 - x ^ 2)) - (k + 4) * (x ^ (k + 2) * √(4 - x ^ 2))) volume (-2) 2 := by
    apply Continuous.intervalIntegrable
    fun_prop
  have h := intervalIntegral.integral_eq_sub_of_hasDerivAt_of_le (by norm_num) hc hd hi
  rw [intervalIntegral.integral_sub ((cont k).const_mul _ |>.intervalIntegrable _ _) ((cont (k + 2)).const_mul _ |>.intervalIntegrable _ _),
    intervalIntegral.integral_const_mul, intervalIntegral.integral_const_mul] at h
  norm_num at h
  unfold I
  linarith

theorem I_odd (k : ℕ) (hk : k % 2 = 1) : I k = 0 := by
  have h := intervalIntegral.integral_comp_neg (fun x : ℝ => x ^ k * √(4 - x ^ 2)) (a := -2) (b := 2)
  have ho : Odd k := Nat.odd_iff.mpr hk
  simp only [ho.neg_pow, even_two.neg_pow, neg_neg, neg_mul, intervalIntegral.integral_neg] at h
  unfold I
  linarith

theorem I_zero : I 0 = 2 * π := by
  unfold I
  simp only [pow_zero, one_mul]
  have h : ∫ x in (-2 : ℝ)..2, √(4 - x ^ 2) = 4 * ∫ x in (-1 : ℝ)..1, √(1 - x ^ 2) := by
    have h1 := intervalIntegral.integral_comp_mul_left (fun x : ℝ => √(4 - x ^ 2)) (a := -1) (b := 1) (c := 2) (by norm_num)
    norm_num at h1
    have h2 : ∀ x : ℝ, √(4 - (2 * x) ^ 2) = 2 * √(1 - x ^ 2) := by
      intro x
      rw [show 4 - (2 * x) ^ 2 = 2 ^ 2 * (1 - x ^ 2) by ring, Real.sqrt_mul (by norm_num), Real.sqrt_sq (by norm_num)]
    simp only [h2, intervalIntegral.integral_const_mul] at h1
    linarith
  rw [h, integral_sqrt_one_sub_sq]
  ring

theorem I_even (m : ℕ) : I (2 * m) = 2 * π * catalan m := by
  induction m with
  | zero => simp [I_zero]
  | succ m ih =>
    have h := I_rec (2 * m)
    rw [ih] at h
    have hc : ((m : ℝ) + 2) * catalan (m + 1) = 2 * (2 * m + 1) * catalan m := by
      have h1 := succ_mul_catalan_eq_centralBinom m
      have h2 := succ_mul_catalan_eq_centralBinom (m + 1)
      have h3 := Nat.succ_mul_centralBinom_succ m
      rw [← h1, ← h2] at h3
      have h4 : (m + 1) * ((m + 2) * catalan (m + 1)) = (m + 1) * (2 * (2 * m + 1) * catalan m) := by
        rw [show m + 2 = m + 1 + 1 by ring, h3]; ring
      have h5 := Nat.eq_of_mul_eq_mul_left (by omega) h4
      exact_mod_cast h5
    have h6 : (2 * (m : ℝ) + 4) * I (2 * m + 2) = (2 * m + 4) * (2 * π * catalan (m + 1)) := by
      push_cast at h
      rw [h]
      linear_combination (-4 * π) * hc
    have h7 : (2 * (m : ℝ) + 4) ≠ 0 := by positivity
    exact mul_left_cancel₀ h7 h6

theorem I_eq (k : ℕ) : I k = 2 * π * Gauss.wig k := by
  unfold Gauss.wig
  split_ifs with h
  · have := I_even (k / 2)
    rwa [show 2 * (k / 2) = k by omega] at this
  · rw [I_odd k (by omega)]; simp

/-- The law with radius 2. -/
noncomputable abbrev σ : Measure ℝ := semicircleLaw 2

/-- Its density. -/
noncomputable def dens (x : ℝ) : ℝ := √(4 - x ^ 2) / (2 * π)

theorem dens_eq (x : ℝ) : 2 * √(2 ^ 2 - x ^ 2) / (π * 2 ^ 2) = dens x := by
  unfold dens
  rw [show (2 : ℝ) ^ 2 = 4 by norm_num]
  field_simp
  ring

theorem dens_nonneg (x : ℝ) : 0 ≤ dens x := by unfold dens; positivity

theorem dens_zero (x : ℝ) (h : x ∉ Set.Icc (-2) 2) : dens x = 0 := by
  unfold dens
  rw [Real.sqrt_eq_zero_of_nonpos, zero_div]
  rw [Set.mem_Icc, not_and_or, not_le, not_le] at h
  rcases h with h | h <;> nlinarith

theorem dens_le (x : ℝ) : dens x ≤ 1 / π := by
  unfold dens
  rw [div_le_div_iff₀ (by positivity) pi_pos]
  have : √(4 - x ^ 2) ≤ 2 := Real.sqrt_le_iff.mpr ⟨by norm_num, by nlinarith [sq_nonneg x]⟩
  nlinarith [pi_pos]

theorem integral_σ (f : ℝ → ℝ) : ∫ x, f x ∂σ = ∫ x in (-2 : ℝ)..2, f x * dens x := by
  rw [σ, semicircleLaw, integral_withDensity_eq_integral_toReal_smul (by fun_prop) (by simp), intervalIntegral.integral_of_le (by norm_num), ← integral_Icc_eq_integral_Ioc]
  rw [← integral_indicator measurableSet_Icc]
  congr 1
  ext x
  rw [dens_eq, ENNReal.toReal_ofReal (dens_nonneg x), smul_eq_mul, mul_comm]
  by_cases h : x ∈ Set.Icc (-2 : ℝ) 2
  · rw [Set.indicator_of_mem h]
  · rw [Set.indicator_of_notMem h, dens_zero x h, mul_zero]

theorem integrable_σ (f : ℝ → ℝ) (hf : Continuous f) : Integrable f σ := by
  rw [σ, semicircleLaw, integrable_withDensity_iff_integrable_smul' (by fun_prop) (by simp)]
  have hc : ContinuousOn (fun x => dens x * f x) (Set.Icc (-2) 2) := by unfold dens; fun_prop
  have h1 := hc.integrableOn_Icc (μ := volume)
  rw [← integrable_indicator_iff measurableSet_Icc] at h1
  refine h1.congr (Filter.Eventually.of_forall fun x => ?_)
  simp only
  rw [dens_eq, ENNReal.toReal_ofReal (dens_nonneg x), smul_eq_mul]
  by_cases h : x ∈ Set.Icc (-2 : ℝ) 2
  · rw [Set.indicator_of_mem h]
  · rw [Set.indicator_of_notMem h, dens_zero x h, zero_mul]

theorem moment_σ (k : ℕ) : ∫ x, x ^ k ∂σ = Gauss.wig k := by
  rw [integral_σ]
  have : ∀ x : ℝ, x ^ k * dens x = (1 / (2 * π)) * (x ^ k * √(4 - x ^ 2)) := by intro x; unfold dens; ring
  simp only [this, intervalIntegral.integral_const_mul]
  have h := I_eq k
  unfold I at h
  rw [h]
  have : π ≠ 0 := pi_ne_zero
  field_simp

instance : IsProbabilityMeasure σ := by
  have h : ∫ _x, (1 : ℝ) ∂σ = 1 := by
    have := moment_σ 0
    simpa [Gauss.wig] using this
  have hf : IsFiniteMeasure σ := by
    have := integrable_σ (fun _ => 1) continuous_const
    rwa [integrable_const_iff_isFiniteMeasure (by norm_num)] at this
  refine ⟨?_⟩
  rw [integral_const, smul_eq_mul, mul_one, measureReal_def] at h
  rw [← ENNReal.ofReal_toReal (measure_ne_top σ Set.univ), h, ENNReal.ofReal_one]

/-- Even moments grow at most like `4^m`. -/
theorem moment_le (m : ℕ) : ∫ x, x ^ (2 * m) ∂σ ≤ 4 ^ m := by
  have hae : ∀ᵐ x ∂σ, x ^ (2 * m) ≤ (4 : ℝ) ^ m := by
    have h1 : σ (Set.Icc (-2 : ℝ) 2)ᶜ = 0 := by
      rw [σ, semicircleLaw, withDensity_apply _ (by measurability)]
      rw [setLIntegral_congr_fun (g := fun _ => 0) (by measurability) (fun x hx => by
        show ENNReal.ofReal _ = 0
        rw [dens_eq, dens_zero x hx, ENNReal.ofReal_zero])]
      simp
    have h2 : ∀ᵐ x ∂σ, x ∈ Set.Icc (-2 : ℝ) 2 := h1
    filter_upwards [h2] with x hx
    rw [pow_mul]
    exact pow_le_pow_left₀ (sq_nonneg x) (by nlinarith [hx.1, hx.2]) m
  calc ∫ x, x ^ (2 * m) ∂σ ≤ ∫ _x, (4 : ℝ) ^ m ∂σ := integral_mono_ae (integrable_σ _ (by fun_prop)) (integrable_const _) hae
    _ = 4 ^ m := by simp

end RMT.Semi
