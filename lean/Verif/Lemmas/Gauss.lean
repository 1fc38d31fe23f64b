import Mathlib.Probability.Distributions.Gaussian.Multivariate
import Mathlib.Analysis.SpecialFunctions.Gaussian.FourierTransform
import Mathlib.MeasureTheory.Constructions.HaarToSphere
import Mathlib.MeasureTheory.Integral.Gamma
import Mathlib.Probability.Independence.Basic
import Verif.Spec.Normal

/-!
# The standard Gaussian measure: density, images, law of the norm
-/

namespace RMT
namespace Gauss
open MeasureTheory ProbabilityTheory Real Set
open scoped RealInnerProductSpace ENNReal

variable {E F : Type} [NormedAddCommGroup E] [InnerProductSpace ℝ E] [FiniteDimensional ℝ E] [MeasurableSpace E] [BorelSpace E]
  [NormedAddCommGroup F] [InnerProductSpace ℝ F] [FiniteDimensional ℝ F] [MeasurableSpace F] [BorelSpace F]

/-- The image of the standard Gaussian measure under a map with a norm-preserving adjoint. -/
theorem map_coisometry (T : E → F) (S : F → E) (hT : Measurable T) (hS : ∀ x t, ⟪T x, t⟫ = ⟪x, S t⟫) (h : ∀ t, ‖S t‖ = ‖t‖) :
    (stdGaussian E).map T = stdGaussian F := by
  apply Measure.ext_of_charFun
  ext t
  rw [charFun_stdGaussian, charFun_apply, integral_map (by fun_prop) (by fun_prop)]
  rw [← h t, ← charFun_stdGaussian, charFun_apply]
  simp_rw [hS]

/-- The normalising constant. -/
noncomputable def cst (E : Type) [NormedAddCommGroup E] [InnerProductSpace ℝ E] : ℝ := (2 * π) ^ (-(Module.finrank ℝ E : ℝ) / 2)

/-- The density of the standard Gaussian measure. -/
theorem density : stdGaussian E = (volume : Measure E).withDensity fun x => ENNReal.ofReal (cst E * exp (-‖x‖ ^ 2 / 2)) := by
  have hpos : 0 ≤ cst E := by unfold cst; positivity
  have hb : 0 < ((1 / 2 : ℂ)).re := by norm_num
  have hint : Integrable (fun x : E => cst E * exp (-‖x‖ ^ 2 / 2)) := by
    have := (GaussianFourier.integrable_cexp_neg_mul_sq_norm_add (V := E) hb 0 0).re
    refine (this.const_mul (cst E)).congr (Filter.Eventually.of_forall fun x => ?_)
    have : (-(1 / 2 : ℂ) * (‖x‖ : ℂ) ^ 2 + 0 * ((⟪(0 : E), x⟫ : ℝ) : ℂ)) = ((-‖x‖ ^ 2 / 2 : ℝ) : ℂ) := by push_cast; ring
    simp only [this, ← Complex.ofReal_exp, RCLike.re_to_complex, Complex.ofReal_re]
  have hmeas : Measurable fun x : E => (cst E * exp (-‖x‖ ^ 2 / 2)) := by fun_prop
  have : IsFiniteMeasure ((volume : Measure E).withDensity fun x => ENNReal.ofReal (cst E * exp (-‖x‖ ^ 2 / 2))) :=
    isFiniteMeasure_withDensity_ofReal hint.2
  apply Measure.ext_of_charFun
  ext t
  rw [charFun_stdGaussian, charFun_apply, integral_withDensity_eq_integral_toReal_smul (by fun_prop) (by simp)]
  have key := GaussianFourier.integral_cexp_neg_mul_sq_norm_add (V := E) hb Complex.I t
  have e : ∀ x : E, (ENNReal.ofReal (cst E * exp (-‖x‖ ^ 2 / 2))).toReal • Complex.exp (((⟪x, t⟫ : ℝ) : ℂ) * Complex.I) =
      (cst E : ℂ) * Complex.exp (-(1 / 2 : ℂ) * (‖x‖ : ℂ) ^ 2 + Complex.I * ((⟪t, x⟫ : ℝ) : ℂ)) := by
    intro x
    rw [ENNReal.toReal_ofReal (by positivity), Complex.exp_add, real_inner_comm, Complex.real_smul]
    push_cast
    rw [mul_assoc]
    congr 3
    · ring
    · ring
  simp_rw [e]
  rw [integral_const_mul, key]
  have e1 : ((π : ℂ) / (1 / 2)) ^ ((Module.finrank ℝ E : ℂ) / 2) = (((2 * π) ^ ((Module.finrank ℝ E : ℝ) / 2) : ℝ) : ℂ) := by
    rw [Complex.ofReal_cpow (by positivity)]
    push_cast
    congr 1
    ring
  rw [e1, ← mul_assoc, ← Complex.ofReal_mul]
  have e2 : cst E * (2 * π) ^ ((Module.finrank ℝ E : ℝ) / 2) = 1 := by
    rw [cst, ← rpow_add (by positivity), neg_div, neg_add_cancel, rpow_zero]
  rw [e2, Complex.ofReal_one, one_mul]
  congr 1
  rw [Complex.I_sq]
  ring

theorem integral_density (f : E → ℝ) : ∫ x, f x ∂(stdGaussian E) = cst E * ∫ x, exp (-‖x‖ ^ 2 / 2) * f x := by
  have hpos : 0 ≤ cst E := by unfold cst; positivity
  rw [density, integral_withDensity_eq_integral_toReal_smul (by fun_prop) (by simp), ← integral_const_mul]
  congr 1
  ext x
  rw [ENNReal.toReal_ofReal (by positivity), smul_eq_mul, mul_assoc]

/-- The integral of a function of the norm. -/
theorem integral_norm [Nontrivial E] (f : ℝ → ℝ) :
    (∫ r in Ioi (0 : ℝ), r ^ (Module.finrank ℝ E - 1) * exp (-r ^ 2 / 2)) * ∫ x, f ‖x‖ ∂(stdGaussian E) =
      ∫ r in Ioi (0 : ℝ), r ^ (Module.finrank ℝ E - 1) * exp (-r ^ 2 / 2) * f r := by
  have h1 : ∀ g : ℝ → ℝ, ∫ x, g ‖x‖ ∂(stdGaussian E) =
      cst E * (Module.finrank ℝ E * (volume.real (Metric.ball (0 : E) 1) * ∫ r in Ioi (0 : ℝ), r ^ (Module.finrank ℝ E - 1) * exp (-r ^ 2 / 2) * g r)) := by
    intro g
    rw [integral_density]
    have := integral_fun_norm_addHaar (volume : Measure E) (fun r => exp (-r ^ 2 / 2) * g r)
    rw [this]
    simp only [nsmul_eq_mul, smul_eq_mul, mul_assoc]
  have h2 := h1 (fun _ => 1)
  simp only [integral_const, probReal_univ, smul_eq_mul, mul_one] at h2
  rw [h1 f]
  generalize (∫ r in Ioi (0 : ℝ), r ^ (Module.finrank ℝ E - 1) * exp (-r ^ 2 / 2)) = a at h2 ⊢
  generalize (∫ r in Ioi (0 : ℝ), r ^ (Module.finrank ℝ E - 1) * exp (-r ^ 2 / 2) * f r) = b
  linear_combination (-b) * h2

/-! ## Moments of the half-line -/

/-- `∫ r^k exp(-r²/2)` over the positive half-line. -/
noncomputable def mom (k : Nat) : ℝ := ∫ r in Ioi (0 : ℝ), r ^ k * exp (-r ^ 2 / 2)

theorem k_gt (k : Nat) : (-1 : ℝ) < k := by
  have : (0 : ℝ) ≤ k := by positivity
  linarith

theorem mom_integrable (k : Nat) : IntegrableOn (fun r : ℝ => r ^ k * exp (-r ^ 2 / 2)) (Ioi 0) := by
  have h := integrableOn_rpow_mul_exp_neg_mul_sq (b := 1 / 2) (by norm_num) (s := (k : ℝ)) (k_gt k)
  refine h.congr_fun (fun r _ => ?_) measurableSet_Ioi
  simp only [rpow_natCast]
  congr 2
  ring

theorem mom_eq (k : Nat) : mom k = (1 / 2 : ℝ) ^ (-((k : ℝ) + 1) / 2) * (1 / 2) * Gamma (((k : ℝ) + 1) / 2) := by
  have h := integral_rpow_mul_exp_neg_mul_rpow (p := 2) (q := (k : ℝ)) (b := 1 / 2) (by norm_num) (k_gt k) (by norm_num)
  rw [← h, mom]
  refine setIntegral_congr_fun measurableSet_Ioi fun r hr => ?_
  simp only [rpow_natCast]
  congr 2
  rw [show (2 : ℝ) = ((2 : ℕ) : ℝ) by norm_num, rpow_natCast]
  ring

theorem mom_pos (k : Nat) : 0 < mom k := by
  rw [mom_eq]
  have : 0 < Gamma (((k : ℝ) + 1) / 2) := Gamma_pos_of_pos (by positivity)
  positivity

theorem mom_one : mom 1 = 1 := by
  rw [mom_eq]
  norm_num

theorem half_pow : ((1 : ℝ) / 2) ^ (-(1 : ℝ) / 2) = √2 := by
  rw [one_div, inv_rpow (by norm_num), ← rpow_neg (by norm_num), sqrt_eq_rpow]
  norm_num

theorem mom_zero : mom 0 = √(π / 2) := by
  rw [mom_eq]
  rw [show ((0 : ℕ) : ℝ) + 1 = 1 by norm_num, half_pow, show (1 : ℝ) / 2 = 1 / 2 from rfl, Gamma_one_half_eq, sqrt_div pi_pos.le]
  have : √2 * √2 = (2 : ℝ) := mul_self_sqrt (by norm_num)
  have h2 : √(2 : ℝ) ≠ 0 := by positivity
  field_simp
  linarith

theorem mom_succ (k : Nat) : mom (k + 2) = (k + 1) * mom k := by
  rw [mom_eq, mom_eq]
  have e1 : (((k + 2 : ℕ) : ℝ) + 1) / 2 = ((k : ℝ) + 1) / 2 + 1 := by push_cast; ring
  have e2 : -(((k + 2 : ℕ) : ℝ) + 1) / 2 = -((k : ℝ) + 1) / 2 + (-1) := by push_cast; ring
  rw [e1, e2, Gamma_add_one (by positivity), rpow_add (by norm_num), show ((-1 : ℝ)) = ((-1 : ℤ) : ℝ) by norm_num, rpow_intCast]
  norm_num
  ring

/-! ## The law of the norm -/

/-- The mean norm. -/
theorem mean_norm [Nontrivial E] : ∫ x, ‖x‖ ∂(stdGaussian E) = mom (Module.finrank ℝ E) / mom (Module.finrank ℝ E - 1) := by
  have h := integral_norm (E := E) (fun r => r)
  rw [eq_div_iff (mom_pos _).ne', mul_comm]
  refine h.trans ?_
  have hd : 0 < Module.finrank ℝ E := Module.finrank_pos
  obtain ⟨d, hd'⟩ : ∃ d, Module.finrank ℝ E = d + 1 := ⟨Module.finrank ℝ E - 1, by omega⟩
  rw [hd', mom]
  refine setIntegral_congr_fun measurableSet_Ioi fun r _ => ?_
  simp only [Nat.add_sub_cancel, pow_succ]
  ring

/-- The density of the norm divided by `m`, in dimension `d`. -/
noncomputable def radial (d : Nat) (m s : ℝ) : ℝ := m * ((m * s) ^ (d - 1) * exp (-(m * s) ^ 2 / 2)) / mom (d - 1)

theorem radial_integrable (d : Nat) (m : ℝ) (hm : 0 < m) : IntegrableOn (radial d m) (Ioi 0) := by
  have h := mom_integrable (d - 1)
  have := (integrableOn_Ioi_comp_mul_left_iff (fun r : ℝ => r ^ (d - 1) * exp (-r ^ 2 / 2)) 0 hm).mpr (by simpa using h)
  exact (this.const_mul m).div_const _

theorem radial_nonneg (d : Nat) (m s : ℝ) (hm : 0 < m) (hs : 0 < s) : 0 ≤ radial d m s := by
  unfold radial
  have := (mom_pos (d - 1)).le
  positivity

/-- The law of the norm divided by `m`. -/
theorem law_norm [Nontrivial E] (m : ℝ) (hm : 0 < m) :
    (stdGaussian E).map (fun x => ‖x‖ / m) = (volume.restrict (Ioi 0)).withDensity fun s => ENNReal.ofReal (radial (Module.finrank ℝ E) m s) := by
  have hmeas : Measurable fun x : E => ‖x‖ / m := by fun_prop
  have hfin : IsFiniteMeasure ((stdGaussian E).map fun x => ‖x‖ / m) := by infer_instance
  ext A hA
  rw [withDensity_apply _ hA, Measure.restrict_restrict hA, ← ofReal_integral_eq_lintegral_ofReal]
  · rw [← ofReal_measureReal, measureReal_def]
    congr 1
    rw [← measureReal_def, ← integral_indicator_one hA, integral_map (by fun_prop) (by fun_prop)]
    have h := integral_norm (E := E) (fun r => A.indicator 1 (r / m))
    have h2 : ∫ x : E, A.indicator (1 : ℝ → ℝ) (‖x‖ / m) ∂(stdGaussian E) = (∫ r in Ioi (0 : ℝ), r ^ (Module.finrank ℝ E - 1) * exp (-r ^ 2 / 2) * A.indicator 1 (r / m)) / mom (Module.finrank ℝ E - 1) := by
      rw [eq_div_iff (mom_pos _).ne', mul_comm]
      exact h
    rw [h2]
    have h3 := integral_comp_mul_left_Ioi (fun r : ℝ => r ^ (Module.finrank ℝ E - 1) * exp (-r ^ 2 / 2) * A.indicator (1 : ℝ → ℝ) (r / m)) 0 hm
    rw [mul_zero, smul_eq_mul, eq_inv_mul_iff_mul_eq₀ hm.ne'] at h3
    rw [← h3, ← integral_const_mul, ← integral_div, ← Measure.restrict_restrict hA, ← integral_indicator hA]
    congr 1
    ext s
    rw [mul_div_cancel_left₀ _ hm.ne']
    by_cases hs : s ∈ A
    · simp [hs, radial]
    · simp [hs]
  · exact (radial_integrable _ m hm).mono_set inter_subset_right
  · refine (ae_restrict_iff' (hA.inter measurableSet_Ioi)).mpr (Filter.Eventually.of_forall fun s hs => ?_)
    exact radial_nonneg _ m s hm hs.2

/-! ## Independent draws -/

/-- Finitely many different draws, as a vector, have the standard Gaussian law. -/
theorem law_draws {Ω ι : Type} [MeasurableSpace Ω] [Fintype ι] (P : Measure Ω) [IsProbabilityMeasure P] (X : Nat → Ω → ℝ) (hX : Spec.NormalDraws P X)
    (g : ι → Nat) (hg : Function.Injective g) :
    P.map (fun ω => (WithLp.toLp 2 fun i => X (g i) ω : EuclideanSpace ℝ ι)) = stdGaussian (EuclideanSpace ℝ ι) := by
  have h1 : iIndepFun (fun i => X (g i)) P := hX.indep.precomp hg
  have h2 := (iIndepFun_iff_map_fun_eq_pi_map fun i => (hX.measurable (g i)).aemeasurable).mp h1
  simp only [hX.law] at h2
  rw [← map_pi_eq_stdGaussian, ← h2, Measure.map_map (by fun_prop) (measurable_pi_lambda _ fun i => hX.measurable _)]
  rfl

theorem measurable_draws {Ω ι : Type} [MeasurableSpace Ω] [Fintype ι] (X : Nat → Ω → ℝ) (hX : ∀ k, Measurable (X k)) (g : ι → Nat) :
    Measurable (fun ω => (WithLp.toLp 2 fun i => X (g i) ω : EuclideanSpace ℝ ι)) := by
  have : Measurable fun ω => fun i => X (g i) ω := measurable_pi_lambda _ fun i => hX _
  fun_prop

end Gauss
end RMT
