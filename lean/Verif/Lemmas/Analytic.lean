import Verif.Model.Analytic
import Verif.Lemmas.Sort
import Mathlib.MeasureTheory.Integral.IntervalIntegral.FundThmCalculus
import Mathlib.MeasureTheory.Integral.IntegralEqImproper
import Mathlib.Analysis.SpecialFunctions.Integrals.Basic
import Mathlib.Analysis.SpecialFunctions.ImproperIntegrals

/-! # Lemmas on the analytic unfoldings -/

namespace RMT
namespace Analytic
open MeasureTheory Real EigValsM

theorem edge_nonneg (N : Nat) : 0 ≤ edge N := sqrt_nonneg _

theorem edge_sq (N : Nat) : edge N * edge N = 2 * N := mul_self_sqrt (by positivity)

/-- Outside the support the square root vanishes anyway. -/
theorem semicircle_eq (N : Nat) (x : ℝ) : semicircle N x = (1 / π) * √(2 * N - x * x) := by
  unfold semicircle
  split
  · rfl
  · rename_i h
    have h' : edge N ≤ |x| := not_lt.mp h
    have : 2 * (N : ℝ) - x * x ≤ 0 := by
      have := mul_self_le_mul_self (edge_nonneg N) h'
      rw [edge_sq, abs_mul_abs_self] at this
      linarith
    rw [sqrt_eq_zero_of_nonpos this, mul_zero]

theorem semicircle_nonneg (N : Nat) (x : ℝ) : 0 ≤ semicircle N x := by
  rw [semicircle_eq]; have := pi_pos; positivity

theorem semicircle_continuous (N : Nat) : Continuous (semicircle N) := by
  have : semicircle N = fun x => (1 / π) * √(2 * N - x * x) := funext (semicircle_eq N)
  rw [this]; fun_prop

theorem semicircle_pos (N : Nat) (x : ℝ) (h : |x| < edge N) : 0 < semicircle N x := by
  rw [semicircle, if_pos h]
  have h1 : x * x < 2 * N := by
    have := mul_self_lt_mul_self (abs_nonneg x) h
    rwa [edge_sq, abs_mul_abs_self] at this
  have : 0 < √(2 * N - x * x) := sqrt_pos.mpr (by linarith)
  have := pi_pos
  positivity

theorem semicircle_intervalIntegrable (N : Nat) (a b : ℝ) : IntervalIntegrable (semicircle N) volume a b :=
  (semicircle_continuous N).intervalIntegrable a b

/-- The whole semicircle has mass `N`. -/
theorem semicircle_mass (N : Nat) : ∫ t in (-edge N)..(edge N), semicircle N t = N := by
  rcases Nat.eq_zero_or_pos N with rfl | hN
  · simp [edge]
  have he : 0 < edge N := sqrt_pos.mpr (by positivity)
  have h := intervalIntegral.mul_integral_comp_mul_left (f := semicircle N) (a := -1) (b := 1) (c := edge N)
  rw [mul_neg, mul_one] at h
  rw [← h]
  have e : (fun x : ℝ => semicircle N (edge N * x)) = fun x => (1 / π) * edge N * √(1 - x ^ 2) := by
    funext x
    rw [semicircle_eq]
    have : 2 * (N : ℝ) - edge N * x * (edge N * x) = (edge N * edge N) * (1 - x ^ 2) := by
      rw [edge_sq]
      have := edge_sq N
      linear_combination (- x ^ 2) * this
    rw [this, sqrt_mul (mul_self_nonneg _), sqrt_mul_self he.le]
    ring
  rw [e, intervalIntegral.integral_const_mul, integral_sqrt_one_sub_sq]
  have hp := pi_pos.ne'
  have h2 := edge_sq N
  field_simp
  linear_combination h2

theorem semicircle_tail_left (N : Nat) (x : ℝ) (h : x ≤ -edge N) : ∫ t in (-edge N)..x, semicircle N t = 0 := by
  rw [intervalIntegral.integral_symm]
  rw [intervalIntegral.integral_congr (g := fun _ => (0 : ℝ))]
  · simp
  · intro t ht
    rw [Set.uIcc_of_le h] at ht
    have h0 := edge_nonneg N
    have : edge N ≤ |t| := by rw [abs_of_nonpos (by linarith [ht.2])]; linarith [ht.2]
    simp [semicircle, not_lt.mpr this]

theorem semicircle_tail_right (N : Nat) (x : ℝ) (h : edge N ≤ x) : ∫ t in (edge N)..x, semicircle N t = 0 := by
  rw [intervalIntegral.integral_congr (g := fun _ => (0 : ℝ))]
  · simp
  · intro t ht
    rw [Set.uIcc_of_le h] at ht
    have h0 := edge_nonneg N
    have : edge N ≤ |t| := by rw [abs_of_nonneg (by linarith [ht.1])]; exact ht.1
    simp [semicircle, not_lt.mpr this]

/-- `smooth_goe` is one primitive of the density on the whole line. -/
theorem smoothGoe_eq (N : Nat) (x : ℝ) : smoothGoe N x = ∫ t in (-edge N)..x, semicircle N t := by
  unfold smoothGoe
  split
  · rename_i h
    rw [← intervalIntegral.integral_add_adjacent_intervals (semicircle_intervalIntegrable N (-edge N) (edge N))
      (semicircle_intervalIntegrable N (edge N) x), semicircle_tail_right N x h.le, add_zero]
  · rfl

theorem smoothGoe_sub (N : Nat) (a b : ℝ) : smoothGoe N b - smoothGoe N a = ∫ t in a..b, semicircle N t := by
  rw [smoothGoe_eq, smoothGoe_eq]
  exact intervalIntegral.integral_interval_sub_left (semicircle_intervalIntegrable _ _ _) (semicircle_intervalIntegrable _ _ _)

theorem smoothGoe_mono (N : Nat) : Monotone (smoothGoe N) := by
  intro a b hab
  have := smoothGoe_sub N a b
  have h2 : 0 ≤ ∫ t in a..b, semicircle N t := intervalIntegral.integral_nonneg hab fun t _ => semicircle_nonneg N t
  linarith

theorem smoothGoe_left (N : Nat) (x : ℝ) (h : x ≤ -edge N) : smoothGoe N x = 0 := by
  rw [smoothGoe_eq, semicircle_tail_left N x h]

theorem smoothGoe_right (N : Nat) (x : ℝ) (h : edge N ≤ x) : smoothGoe N x = N := by
  rw [smoothGoe_eq, ← intervalIntegral.integral_add_adjacent_intervals (semicircle_intervalIntegrable N (-edge N) (edge N))
      (semicircle_intervalIntegrable N (edge N) x), semicircle_tail_right N x h, add_zero, semicircle_mass]

theorem smoothGoe_range (N : Nat) (x : ℝ) : 0 ≤ smoothGoe N x ∧ smoothGoe N x ≤ N := by
  constructor
  · have := smoothGoe_mono N (min_le_left x (-edge N))
    rwa [smoothGoe_left N _ (min_le_right _ _)] at this
  · have := smoothGoe_mono N (le_max_left x (edge N))
    rwa [smoothGoe_right N _ (le_max_right _ _)] at this

theorem smoothGoe_hasDerivAt (N : Nat) (x : ℝ) : HasDerivAt (smoothGoe N) (semicircle N x) x := by
  have e : smoothGoe N = fun x => ∫ t in (-edge N)..x, semicircle N t := funext (smoothGoe_eq N)
  rw [e]
  exact intervalIntegral.integral_hasDerivAt_right (semicircle_intervalIntegrable _ _ _)
    (semicircle_continuous N).stronglyMeasurable.stronglyMeasurableAtFilter (semicircle_continuous N).continuousAt

theorem smoothGoe_strictMonoOn (N : Nat) : StrictMonoOn (smoothGoe N) (Set.Icc (-edge N) (edge N)) := by
  intro a ha b hb hab
  have := smoothGoe_sub N a b
  have h2 : 0 < ∫ t in a..b, semicircle N t := by
    apply intervalIntegral.intervalIntegral_pos_of_pos_on (semicircle_intervalIntegrable N a b) _ hab
    intro x hx
    apply semicircle_pos
    rw [abs_lt]
    exact ⟨by linarith [ha.1, hx.1], by linarith [hb.2, hx.2]⟩
  linarith

/-- The semicircle is symmetric, so opposite points get complementary values. -/
theorem smoothGoe_symm (N : Nat) (x : ℝ) : smoothGoe N (-x) = N - smoothGoe N x := by
  have h : ∫ t in x..(edge N), semicircle N t = ∫ t in (-edge N)..(-x), semicircle N t := by
    have := intervalIntegral.integral_comp_neg (semicircle N) (a := x) (b := edge N)
    rw [← this]
    congr 1; funext t; rw [semicircle_eq, semicircle_eq, neg_mul_neg]
  have h2 := smoothGoe_sub N x (edge N)
  rw [smoothGoe_right N _ le_rfl, h, ← smoothGoe_eq] at h2
  linarith

/-! ## Poisson -/

theorem integral_exp_neg_abs_Iic (a : ℝ) (ha : 0 ≤ a) : ∫ t in Set.Iic a, exp (-|t|) = 2 - exp (-a) := by
  have hI : IntegrableOn (fun t : ℝ => exp (-|t|)) (Set.Iic 0) := by
    apply (integrableOn_exp_Iic 0).congr_fun _ measurableSet_Iic
    intro t ht; simp only; rw [abs_of_nonpos ht, neg_neg]
  have h0 : ∫ t in Set.Iic (0 : ℝ), exp (-|t|) = 1 := by
    rw [← integral_exp_Iic_zero]
    apply setIntegral_congr_fun measurableSet_Iic
    intro t ht; simp only; rw [abs_of_nonpos ht, neg_neg]
  have h1 : ∫ t in Set.Ioc (0 : ℝ) a, exp (-|t|) = 1 - exp (-a) := by
    rw [← intervalIntegral.integral_of_le ha]
    rw [intervalIntegral.integral_congr (g := fun t => exp (-t))]
    · rw [intervalIntegral.integral_comp_neg (f := exp)]; simp
    · intro t ht
      rw [Set.uIcc_of_le ha] at ht
      simp only; rw [abs_of_nonneg ht.1]
  rw [← Set.Iic_union_Ioc_eq_Iic ha, setIntegral_union (Set.Iic_disjoint_Ioc le_rfl) measurableSet_Ioc hI _, h0, h1]
  · ring
  · exact (Continuous.integrableOn_Icc (by fun_prop)).mono_set Set.Ioc_subset_Icc_self

theorem smoothPoisson_eq (N : Nat) (x : ℝ) : smoothPoisson N x = N * (2 - exp (-|x|)) := by
  rw [smoothPoisson, integral_exp_neg_abs_Iic _ (abs_nonneg x)]

end Analytic
end RMT
