import Mathlib.MeasureTheory.Integral.Bochner.Basic
import Mathlib.MeasureTheory.Integral.Bochner.Set
import Mathlib.MeasureTheory.Measure.Prod
import Mathlib.Topology.UniformSpace.HeineCantor
import Mathlib.Topology.MetricSpace.ProperSpace.Real
import Mathlib.Probability.CDF

/-! # Distribution functions determine the means of bounded continuous functions -/

namespace RMT
namespace Weak
open MeasureTheory Set Filter Topology ProbabilityTheory

/-- 1 for `x ≤ t`, else 0. -/
noncomputable def ind (t x : ℝ) : ℝ := (Iic t).indicator 1 x

theorem ind_mono {a b : ℝ} (h : a ≤ b) (x : ℝ) : ind a x ≤ ind b x := by
  unfold ind
  by_cases h1 : x ≤ a
  · rw [indicator_of_mem (show x ∈ Iic a from h1), indicator_of_mem (show x ∈ Iic b from h1.trans h)]
  · rw [indicator_of_notMem (show x ∉ Iic a from h1)]
    exact indicator_nonneg (fun _ _ => zero_le_one) _

theorem ind_range (t x : ℝ) : 0 ≤ ind t x ∧ ind t x ≤ 1 := by
  unfold ind
  exact ⟨indicator_nonneg (fun _ _ => zero_le_one) _, indicator_le_self' (fun _ _ => zero_le_one) _⟩

theorem ind_measurable (t : ℝ) : Measurable (ind t) := measurable_one.indicator measurableSet_Iic

theorem ind_integrable (ν : Measure ℝ) [IsProbabilityMeasure ν] (t : ℝ) : Integrable (ind t) ν :=
  Integrable.of_bound (ind_measurable t).aestronglyMeasurable 1 (Eventually.of_forall fun x => by rw [Real.norm_eq_abs, abs_of_nonneg (ind_range t x).1]; exact (ind_range t x).2)

theorem ind_integral (ν : Measure ℝ) [IsProbabilityMeasure ν] (t : ℝ) : ∫ x, ind t x ∂ν = ν.real (Iic t) := by
  have : (fun x => ind t x) = (Iic t).indicator 1 := rfl
  rw [this, integral_indicator_one measurableSet_Iic]

/-- The step function with the values of `f` at the right ends of the intervals. -/
noncomputable def stepOf (f : ℝ → ℝ) (t : ℕ → ℝ) (m : ℕ) (x : ℝ) : ℝ := ∑ k ∈ Finset.range m, f (t (k + 1)) * (ind (t (k + 1)) x - ind (t k) x)

theorem step_integral (f : ℝ → ℝ) (t : ℕ → ℝ) (m : ℕ) (ν : Measure ℝ) [IsProbabilityMeasure ν] :
    ∫ x, stepOf f t m x ∂ν = ∑ k ∈ Finset.range m, f (t (k + 1)) * (ν.real (Iic (t (k + 1))) - ν.real (Iic (t k))) := by
  unfold stepOf
  rw [integral_finsetSum (f := fun k x => f (t (k + 1)) * (ind (t (k + 1)) x - ind (t k) x)) _ fun k _ => ((ind_integrable ν _).sub (ind_integrable ν _)).const_mul _]
  refine Finset.sum_congr rfl fun k _ => ?_
  rw [integral_const_mul, integral_sub (ind_integrable ν _) (ind_integrable ν _), ind_integral, ind_integral]

theorem step_integrable (f : ℝ → ℝ) (t : ℕ → ℝ) (m : ℕ) (ν : Measure ℝ) [IsProbabilityMeasure ν] : Integrable (stepOf f t m) ν := by
  unfold stepOf
  exact integrable_finsetSum _ fun k _ => ((ind_integrable ν _).sub (ind_integrable ν _)).const_mul _

theorem step_close (f : ℝ → ℝ) (C δ : ℝ) (hδ : 0 ≤ δ) (hC : ∀ x, |f x| ≤ C) (t : ℕ → ℝ) (ht : Monotone t) (m : ℕ) (hosc : ∀ k < m, ∀ x, t k < x → x ≤ t (k + 1) → |f x - f (t (k + 1))| ≤ δ) (x : ℝ) :
    |f x - stepOf f t m x| ≤ δ + C * (ind (t 0) x + (1 - ind (t m) x)) := by
  have h0 : ∑ k ∈ Finset.range m, (ind (t (k + 1)) x - ind (t k) x) = ind (t m) x - ind (t 0) x := Finset.sum_range_sub (fun k => ind (t k) x) m
  have e : f x - stepOf f t m x = f x * (ind (t 0) x + (1 - ind (t m) x)) + ∑ k ∈ Finset.range m, (f x - f (t (k + 1))) * (ind (t (k + 1)) x - ind (t k) x) := by
    simp only [sub_mul, Finset.sum_sub_distrib, stepOf]
    rw [← Finset.mul_sum, h0]
    ring
  have hn : 0 ≤ ind (t 0) x + (1 - ind (t m) x) := by linarith [(ind_range (t 0) x).1, (ind_range (t m) x).2]
  have b1 : |f x * (ind (t 0) x + (1 - ind (t m) x))| ≤ C * (ind (t 0) x + (1 - ind (t m) x)) := by
    rw [abs_mul, abs_of_nonneg hn]
    exact mul_le_mul_of_nonneg_right (hC x) hn
  have b2 : |∑ k ∈ Finset.range m, (f x - f (t (k + 1))) * (ind (t (k + 1)) x - ind (t k) x)| ≤ δ := by
    refine (Finset.abs_sum_le_sum_abs _ _).trans ?_
    have : ∀ k ∈ Finset.range m, |(f x - f (t (k + 1))) * (ind (t (k + 1)) x - ind (t k) x)| ≤ δ * (ind (t (k + 1)) x - ind (t k) x) := by
      intro k hk
      have hnn : 0 ≤ ind (t (k + 1)) x - ind (t k) x := sub_nonneg.mpr (ind_mono (ht (Nat.le_succ k)) x)
      rw [abs_mul, abs_of_nonneg hnn]
      by_cases h1 : x ≤ t k
      · have h2 : x ≤ t (k + 1) := h1.trans (ht (Nat.le_succ k))
        have : ind (t (k + 1)) x - ind (t k) x = 0 := by
          unfold ind
          rw [indicator_of_mem (show x ∈ Iic (t k) from h1), indicator_of_mem (show x ∈ Iic (t (k + 1)) from h2), sub_self]
        rw [this]; simp
      · by_cases h2 : x ≤ t (k + 1)
        · exact mul_le_mul_of_nonneg_right (hosc k (Finset.mem_range.mp hk) x (not_le.mp h1) h2) hnn
        · have : ind (t (k + 1)) x - ind (t k) x = 0 := by
            unfold ind
            rw [indicator_of_notMem (show x ∉ Iic (t k) from h1), indicator_of_notMem (show x ∉ Iic (t (k + 1)) from h2), sub_self]
          rw [this]; simp
    refine (Finset.sum_le_sum this).trans ?_
    rw [← Finset.mul_sum, h0]
    have : ind (t m) x - ind (t 0) x ≤ 1 := by linarith [(ind_range (t 0) x).1, (ind_range (t m) x).2]
    nlinarith
  rw [e]
  refine (abs_add_le _ _).trans ?_
  linarith

/-- For a bounded continuous function and a law `μ`: laws whose distribution function is close to that of `μ` give it nearly the same mean. -/
theorem means_close (μ : Measure ℝ) [IsProbabilityMeasure μ] (f : ℝ → ℝ) (hf : Continuous f) (C : ℝ) (hC : ∀ x, |f x| ≤ C) (ε : ℝ) (hε : 0 < ε) :
    ∃ η : ℝ, 0 < η ∧ ∀ ν : Measure ℝ, IsProbabilityMeasure ν → (∀ d, |ν.real (Iic d) - μ.real (Iic d)| ≤ η) → |∫ x, f x ∂ν - ∫ x, f x ∂μ| < ε := by
  have hC0 : 0 ≤ C := (abs_nonneg _).trans (hC 0)
  set δ := ε / (8 * (C + 1)) with hδ
  have hδ0 : 0 < δ := by positivity
  have hlo := (tendsto_cdf_atBot μ).eventually_lt_const hδ0
  have hhi := (tendsto_cdf_atTop μ).eventually_const_lt (show 1 - δ < 1 by linarith)
  obtain ⟨A, hA, hA0⟩ := (hlo.and (eventually_le_atBot 0)).exists
  obtain ⟨B, hB, hB0⟩ := (hhi.and (eventually_ge_atTop 1)).exists
  simp only [cdf_eq_real] at hA hB
  have huc := isCompact_Icc.uniformContinuousOn_of_continuous (s := Icc A B) hf.continuousOn
  obtain ⟨ρ, hρ, hu⟩ := Metric.uniformContinuousOn_iff.mp huc δ hδ0
  obtain ⟨m, hm⟩ := exists_nat_gt ((B - A) / ρ)
  have hm0 : (0 : ℝ) < m := lt_of_le_of_lt (div_nonneg (by linarith) hρ.le) hm
  set t : ℕ → ℝ := fun k => A + k * ((B - A) / m) with htdef
  have hstep : 0 < (B - A) / m := div_pos (by linarith) hm0
  have ht : Monotone t := fun i j hij => by
    have : (i : ℝ) ≤ j := by exact_mod_cast hij
    simp only [htdef]
    nlinarith
  have ht0 : t 0 = A := by simp [htdef]
  have htm : t m = B := by simp only [htdef]; field_simp; ring
  have hosc : ∀ k < m, ∀ x, t k < x → x ≤ t (k + 1) → |f x - f (t (k + 1))| ≤ δ := by
    intro k hk x h1 h2
    have h3 : t 0 ≤ t k := ht (Nat.zero_le k)
    have h4 : t (k + 1) ≤ t m := ht hk
    have h5 : t (k + 1) - t k = (B - A) / m := by simp only [htdef]; push_cast; ring
    have h6 : (B - A) / m < ρ := by rw [div_lt_iff₀ hm0]; rw [div_lt_iff₀ hρ] at hm; linarith
    have := hu x ⟨by linarith, by linarith⟩ (t (k + 1)) ⟨by linarith, by linarith⟩ (by rw [Real.dist_eq, abs_lt]; constructor <;> linarith)
    rw [Real.dist_eq] at this
    exact this.le
  have key : ∀ ν : Measure ℝ, IsProbabilityMeasure ν → |∫ x, f x ∂ν - ∫ x, stepOf f t m x ∂ν| ≤ δ + C * (ν.real (Iic A) + (1 - ν.real (Iic B))) := by
    intro ν _
    have hfi : Integrable f ν := Integrable.of_bound hf.aestronglyMeasurable C (Eventually.of_forall fun x => by rw [Real.norm_eq_abs]; exact hC x)
    rw [← integral_sub hfi (step_integrable f t m ν)]
    refine abs_integral_le_integral_abs.trans ?_
    have hb : Integrable (fun x => δ + C * (ind A x + (1 - ind B x))) ν :=
      (integrable_const _).add (((ind_integrable ν A).add ((integrable_const _).sub (ind_integrable ν B))).const_mul C)
    have : ∫ x, (δ + C * (ind A x + (1 - ind B x))) ∂ν = δ + C * (ν.real (Iic A) + (1 - ν.real (Iic B))) := by
      have i1 : Integrable (fun x => 1 - ind B x) ν := (integrable_const _).sub (ind_integrable ν B)
      have i2 : Integrable (fun x => ind A x + (1 - ind B x)) ν := (ind_integrable ν A).add i1
      have i3 : Integrable (fun x => C * (ind A x + (1 - ind B x))) ν := i2.const_mul C
      rw [integral_add (integrable_const _) i3, integral_const_mul, integral_add (ind_integrable ν A) i1, integral_sub (integrable_const _) (ind_integrable ν B), ind_integral, ind_integral]
      simp
    rw [← this]
    refine integral_mono (hfi.sub (step_integrable f t m ν)).abs hb fun x => ?_
    have := step_close f C δ hδ0.le hC t ht m hosc x
    rw [ht0, htm] at this
    exact this
  refine ⟨δ / (m + 1), by positivity, fun ν _ hν => ?_⟩
  have hη : δ / (m + 1) ≤ δ := div_le_self hδ0.le (by linarith)
  have k1 := key ν inferInstance
  have k2 := key μ inferInstance
  have k3 : |∫ x, stepOf f t m x ∂ν - ∫ x, stepOf f t m x ∂μ| ≤ 2 * C * δ := by
    rw [step_integral, step_integral, ← Finset.sum_sub_distrib]
    refine (Finset.abs_sum_le_sum_abs _ _).trans ?_
    have : ∀ k ∈ Finset.range m, |f (t (k + 1)) * (ν.real (Iic (t (k + 1))) - ν.real (Iic (t k))) - f (t (k + 1)) * (μ.real (Iic (t (k + 1))) - μ.real (Iic (t k)))| ≤ C * (2 * (δ / (m + 1))) := by
      intro k _
      rw [← mul_sub, abs_mul]
      refine mul_le_mul (hC _) ?_ (abs_nonneg _) hC0
      have h1 := abs_le.mp (hν (t (k + 1)))
      have h2 := abs_le.mp (hν (t k))
      rw [abs_le]
      constructor <;> linarith [h1.1, h1.2, h2.1, h2.2]
    refine (Finset.sum_le_sum this).trans ?_
    rw [Finset.sum_const, Finset.card_range, nsmul_eq_mul]
    have : (m : ℝ) * (δ / (m + 1)) ≤ δ := by
      rw [mul_div_assoc', div_le_iff₀ (by positivity)]
      nlinarith
    nlinarith
  have a1 := abs_le.mp (hν A)
  have a2 := abs_le.mp (hν B)
  have l1 : C * (ν.real (Iic A) + (1 - ν.real (Iic B))) ≤ C * (4 * δ) := mul_le_mul_of_nonneg_left (by linarith [a1.2, a2.1]) hC0
  have l2 : C * (μ.real (Iic A) + (1 - μ.real (Iic B))) ≤ C * (2 * δ) := mul_le_mul_of_nonneg_left (by linarith) hC0
  have hfin : 2 * δ + 8 * (C * δ) < ε := by
    have : 8 * (C + 1) * δ = ε := by rw [hδ]; field_simp
    nlinarith
  have t1 := abs_le.mp k1
  have t2 := abs_le.mp k2
  have t3 := abs_le.mp k3
  rw [abs_lt]
  constructor <;> nlinarith [t1.1, t1.2, t2.1, t2.2, t3.1, t3.2]

/-- The empirical law of a list. -/
noncomputable def empiricalLaw (l : List ℝ) : Measure ℝ := (ENNReal.ofReal (l.length : ℝ)⁻¹) • ∑ i : Fin l.length, Measure.dirac l[i]

theorem empirical_integral (l : List ℝ) (f : ℝ → ℝ) : ∫ x, f x ∂(empiricalLaw l) = (l.map f).sum / l.length := by
  unfold empiricalLaw
  rw [integral_smul_measure, integral_finsetSum_measure (fun i _ => integrable_dirac (by simp))]
  simp only [integral_dirac]
  rw [ENNReal.toReal_ofReal (by positivity), smul_eq_mul, div_eq_inv_mul]
  congr 1
  rw [← List.sum_ofFn]
  congr 1
  exact List.ofFn_getElem_eq_map l f

theorem empirical_prob (l : List ℝ) (h : l ≠ []) : IsProbabilityMeasure (empiricalLaw l) := by
  have hl : (0 : ℝ) < l.length := by exact_mod_cast List.length_pos_iff.mpr h
  constructor
  simp only [empiricalLaw, Measure.smul_apply, Measure.finsetSum_apply, measure_univ, Finset.sum_const, Finset.card_univ, Fintype.card_fin, nsmul_eq_mul, mul_one, smul_eq_mul]
  rw [ENNReal.ofReal_inv_of_pos hl, ENNReal.ofReal_natCast]
  exact ENNReal.inv_mul_cancel (by exact_mod_cast hl.ne') (ENNReal.natCast_ne_top _)

theorem empirical_cdf (l : List ℝ) (h : l ≠ []) (d : ℝ) : (empiricalLaw l).real (Iic d) = (l.countP (fun x => decide (x ≤ d)) : ℝ) / l.length := by
  have := empirical_prob l h
  rw [← ind_integral, empirical_integral l _]
  congr 1
  induction l with
  | nil => simp
  | cons a l ih =>
    by_cases hl : l = []
    · subst hl
      by_cases ha : a ≤ d <;> simp [ind, ha]
    · rw [List.map_cons, List.sum_cons, ih hl (empirical_prob l hl), List.countP_cons]
      by_cases ha : a ≤ d <;> simp [ind, ha]
      ring

end Weak
end RMT
