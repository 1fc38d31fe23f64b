import Verif.Lemmas.BrodyPoisson
import Verif.Lemmas.UniformGaps
import Mathlib.Analysis.SpecialFunctions.Gamma.Basic
import Mathlib.Analysis.SumIntegralComparisons

/-!
# Lemmas for C171: averages of powers of nearly exponential spacings
-/

namespace RMT
namespace BrodyC
open Real Brody Ensembles EigValsM Spec Props Filter Topology MeasureTheory

/-- A power of the value, cut off at `B`, as an integral. -/
theorem power_layer (k : ℕ) (B x : ℝ) (hB : 0 ≤ B) (hx : 0 ≤ x) : ∫ t in (0 : ℝ)..B, (k + 1) * t ^ k * (if t < x then 1 else 0) = min x B ^ (k + 1) := by
  have hm0 : 0 ≤ min x B := le_min hx hB
  have hanti : Antitone fun t : ℝ => if t < x then (1 : ℝ) else 0 := fun t u htu => by
    dsimp only
    split_ifs with h1 h2 <;> linarith
  have hi : ∀ a b : ℝ, IntervalIntegrable (fun t : ℝ => (k + 1) * t ^ k * (if t < x then (1 : ℝ) else 0)) volume a b := fun a b =>
    (hanti.intervalIntegrable).continuousOn_mul (by fun_prop)
  rw [← intervalIntegral.integral_add_adjacent_intervals (hi 0 (min x B)) (hi (min x B) B)]
  have e1 : ∫ t in (0 : ℝ)..min x B, (k + 1) * t ^ k * (if t < x then (1 : ℝ) else 0) = ∫ t in (0 : ℝ)..min x B, (k + 1) * t ^ k := by
    refine intervalIntegral.integral_congr_ae ?_
    filter_upwards [Measure.ae_ne volume x] with t ht hm
    rw [Set.uIoc_of_le hm0] at hm
    rw [if_pos (lt_of_le_of_ne (hm.2.trans (min_le_left _ _)) ht), mul_one]
  have e2 : ∫ t in (min x B)..B, (k + 1) * t ^ k * (if t < x then (1 : ℝ) else 0) = 0 := by
    rcases le_total x B with h | h
    · rw [min_eq_left h, intervalIntegral.integral_congr (g := fun _ => (0 : ℝ)) fun t ht => ?_]
      · simp
      · rw [Set.uIcc_of_le h] at ht
        simp [not_lt.mpr ht.1]
    · rw [min_eq_right h, intervalIntegral.integral_same]
  rw [e1, e2, add_zero, intervalIntegral.integral_const_mul, integral_pow]
  have : (k : ℝ) + 1 ≠ 0 := by positivity
  field_simp
  simp

/-- The sum of the powers, cut off at `B`. -/
theorem sum_power_layer (k : ℕ) (B : ℝ) (hB : 0 ≤ B) : ∀ s : List ℝ, (∀ x ∈ s, 0 ≤ x) →
    ∫ t in (0 : ℝ)..B, (k + 1) * t ^ k * (s.countP fun x => decide (t < x) : ℝ) = (s.map fun x => min x B ^ (k + 1)).sum
  | [], _ => by simp
  | x :: s, hs => by
    have ih := sum_power_layer k B hB s fun y hy => hs y (List.mem_cons_of_mem _ hy)
    have i1 : IntervalIntegrable (fun t => (k + 1) * t ^ k * (s.countP fun x => decide (t < x) : ℝ)) volume 0 B := (count_integrable s 0 B).continuousOn_mul (by fun_prop)
    have i2 : IntervalIntegrable (fun t => (k + 1) * t ^ k * ([x].countP fun x => decide (t < x) : ℝ)) volume 0 B := (count_integrable [x] 0 B).continuousOn_mul (by fun_prop)
    have e : (fun t => (k + 1) * t ^ k * ((x :: s).countP fun x => decide (t < x) : ℝ)) =
        fun t => (k + 1) * t ^ k * ([x].countP fun x => decide (t < x) : ℝ) + (k + 1) * t ^ k * (s.countP fun x => decide (t < x) : ℝ) := by
      funext t
      rw [← mul_add, show x :: s = [x] ++ s from rfl, List.countP_append]
      push_cast
      rfl
    have e' : (fun t => (k + 1) * t ^ k * ([x].countP fun x => decide (t < x) : ℝ)) = fun t => (k + 1) * t ^ k * (if t < x then (1 : ℝ) else 0) := by
      funext t
      by_cases h : t < x <;> simp [h]
    rw [e, intervalIntegral.integral_add i2 i1, e', power_layer k B x hB (hs x List.mem_cons_self), ih, List.map_cons, List.sum_cons]

/-- The excess of a power over the cut-off one, by the numbers of values above the integers. -/
theorem power_excess (k B n : ℕ) (x : ℝ) (hx : 0 ≤ x) (hxn : x ≤ n) :
    x ^ (k + 1) - min x B ^ (k + 1) ≤ ∑ j ∈ Finset.Ico B n, ((j + 1 : ℝ) ^ (k + 1) - (j : ℝ) ^ (k + 1)) * (if (j : ℝ) < x then 1 else 0) := by
  have hterm : ∀ j : ℕ, 0 ≤ (j + 1 : ℝ) ^ (k + 1) - (j : ℝ) ^ (k + 1) := fun j => sub_nonneg.mpr (pow_le_pow_left₀ (Nat.cast_nonneg j) (by linarith) _)
  rcases le_total x B with h | h
  · rw [min_eq_left h, sub_self]
    exact Finset.sum_nonneg fun j _ => mul_nonneg (hterm j) (by split_ifs <;> norm_num)
  · rw [min_eq_right h]
    set m := ⌈x⌉₊ with hm
    have hxm : x ≤ m := Nat.le_ceil x
    have hmn : m ≤ n := Nat.ceil_le.mpr hxn
    have hBm : B ≤ m := by exact_mod_cast (h.trans hxm)
    have tel : ∑ j ∈ Finset.Ico B m, ((j + 1 : ℝ) ^ (k + 1) - (j : ℝ) ^ (k + 1)) = (m : ℝ) ^ (k + 1) - (B : ℝ) ^ (k + 1) := by
      have := Finset.sum_Ico_sub (fun j : ℕ => (j : ℝ) ^ (k + 1)) hBm
      push_cast at this
      exact this
    calc x ^ (k + 1) - (B : ℝ) ^ (k + 1) ≤ (m : ℝ) ^ (k + 1) - (B : ℝ) ^ (k + 1) := sub_le_sub_right (pow_le_pow_left₀ hx hxm _) _
      _ = ∑ j ∈ Finset.Ico B m, ((j + 1 : ℝ) ^ (k + 1) - (j : ℝ) ^ (k + 1)) * (if (j : ℝ) < x then 1 else 0) := by
        rw [← tel]
        refine Finset.sum_congr rfl fun j hj => ?_
        rw [Finset.mem_Ico] at hj
        rw [if_pos (Nat.lt_ceil.mp hj.2), mul_one]
      _ ≤ _ := Finset.sum_le_sum_of_subset_of_nonneg (Finset.Ico_subset_Ico_right hmn) fun j _ _ => mul_nonneg (hterm j) (by split_ifs <;> norm_num)

/-- The excess for a list. -/
noncomputable def excess (k B n : ℕ) (s : List ℝ) : ℝ := ∑ j ∈ Finset.Ico B n, ((j + 1 : ℝ) ^ (k + 1) - (j : ℝ) ^ (k + 1)) * (s.countP fun x => decide ((j : ℝ) < x) : ℝ)

theorem sum_excess (k B n : ℕ) : ∀ s : List ℝ, (∀ x ∈ s, 0 ≤ x ∧ x ≤ n) → (s.map fun x => x ^ (k + 1)).sum - (s.map fun x => min x (B : ℝ) ^ (k + 1)).sum ≤ excess k B n s
  | [], _ => by simp [excess]
  | x :: s, hs => by
    have ih := sum_excess k B n s fun y hy => hs y (List.mem_cons_of_mem _ hy)
    have h1 := power_excess k B n x (hs x List.mem_cons_self).1 (hs x List.mem_cons_self).2
    have e : excess k B n (x :: s) = (∑ j ∈ Finset.Ico B n, ((j + 1 : ℝ) ^ (k + 1) - (j : ℝ) ^ (k + 1)) * (if (j : ℝ) < x then 1 else 0)) + excess k B n s := by
      unfold excess
      rw [← Finset.sum_add_distrib]
      refine Finset.sum_congr rfl fun j _ => ?_
      rw [← mul_add, List.countP_cons]
      by_cases h : (j : ℝ) < x <;> simp [h, add_comm]
    rw [e, List.map_cons, List.sum_cons, List.map_cons, List.sum_cons]
    linarith

/-- An average of powers of values whose distribution is nearly exponential. -/
theorem average_power (k B n : ℕ) (s : List ℝ) (hne : s ≠ []) (hs : ∀ x ∈ s, 0 ≤ x ∧ x ≤ n) (ε : ℝ) (hε : ∀ t ∈ Set.Icc (0 : ℝ) B, |above s t - exp (-t)| ≤ ε) :
    |(s.map fun x => x ^ (k + 1)).sum / s.length - ∫ t in (0 : ℝ)..B, (k + 1) * t ^ k * exp (-t)| ≤ ε * (B : ℝ) ^ (k + 1) + excess k B n s / s.length := by
  have hn : (0 : ℝ) < s.length := by exact_mod_cast List.length_pos_of_ne_nil hne
  have hB : (0 : ℝ) ≤ B := Nat.cast_nonneg B
  have h1 := sum_excess k B n s hs
  have h0 : (s.map fun x => min x (B : ℝ) ^ (k + 1)).sum ≤ (s.map fun x => x ^ (k + 1)).sum :=
    List.sum_le_sum fun x hx => pow_le_pow_left₀ (le_min (hs x hx).1 hB) (min_le_left _ _) _
  have hlay := sum_power_layer k B hB s fun x hx => (hs x hx).1
  have hA : ∫ t in (0 : ℝ)..B, (k + 1) * t ^ k * above s t = (s.map fun x => min x (B : ℝ) ^ (k + 1)).sum / s.length := by
    rw [← hlay, ← intervalIntegral.integral_div]
    refine intervalIntegral.integral_congr fun t _ => ?_
    simp only [above]
    ring
  have iA : IntervalIntegrable (fun t => (k + 1) * t ^ k * above s t) volume 0 B := by
    have := ((count_integrable s 0 B).div_const (s.length : ℝ)).continuousOn_mul (g := fun t : ℝ => ((k : ℝ) + 1) * t ^ k) (by fun_prop)
    exact this
  have iE : IntervalIntegrable (fun t : ℝ => ((k : ℝ) + 1) * t ^ k * exp (-t)) volume 0 B := (by fun_prop : Continuous fun t : ℝ => ((k : ℝ) + 1) * t ^ k * exp (-t)).intervalIntegrable _ _
  have hd : |(∫ t in (0 : ℝ)..B, (k + 1) * t ^ k * above s t) - ∫ t in (0 : ℝ)..B, (k + 1) * t ^ k * exp (-t)| ≤ ε * (B : ℝ) ^ (k + 1) := by
    rw [← intervalIntegral.integral_sub iA iE]
    have hint : ∫ t in (0 : ℝ)..B, ε * (((k : ℝ) + 1) * t ^ k) = ε * (B : ℝ) ^ (k + 1) := by
      rw [intervalIntegral.integral_const_mul, intervalIntegral.integral_const_mul, integral_pow]
      have : (k : ℝ) + 1 ≠ 0 := by positivity
      field_simp
      simp
    rw [← hint]
    refine (intervalIntegral.abs_integral_le_integral_abs hB).trans (intervalIntegral.integral_mono_on hB (iA.sub iE).abs ((by fun_prop : Continuous fun t : ℝ => ε * (((k : ℝ) + 1) * t ^ k)).intervalIntegrable _ _) fun t ht => ?_)
    rw [← mul_sub, abs_mul, abs_of_nonneg (by have := ht.1; positivity), mul_comm ε]
    exact mul_le_mul_of_nonneg_left (hε t ht) (by have := ht.1; positivity)
  rw [hA] at hd
  have h2 : (s.map fun x => x ^ (k + 1)).sum / s.length - (s.map fun x => min x (B : ℝ) ^ (k + 1)).sum / s.length ≤ excess k B n s / s.length := by
    rw [← sub_div]
    exact div_le_div_of_nonneg_right h1 hn.le
  have h3 : (s.map fun x => min x (B : ℝ) ^ (k + 1)).sum / s.length ≤ (s.map fun x => x ^ (k + 1)).sum / s.length := div_le_div_of_nonneg_right h0 hn.le
  rw [abs_le] at hd ⊢
  constructor <;> linarith [hd.1, hd.2]

/-- The moments of the exponential distribution. -/
theorem exponential_moment (k : ℕ) : Tendsto (fun B : ℕ => ∫ t in (0 : ℝ)..B, (k + 1) * t ^ k * exp (-t)) atTop (𝓝 ((k + 1).factorial : ℝ)) := by
  have hG : IntegrableOn (fun t : ℝ => exp (-t) * t ^ ((k + 1 : ℝ) - 1)) (Set.Ioi 0) := Real.GammaIntegral_convergent (by positivity)
  have e : ∀ t : ℝ, (k + 1) * (exp (-t) * t ^ ((k + 1 : ℝ) - 1)) = (k + 1) * t ^ k * exp (-t) := fun t => by
    rw [add_sub_cancel_right, Real.rpow_natCast]
    ring
  have h1 := (intervalIntegral_tendsto_integral_Ioi 0 (hG.const_mul ((k : ℝ) + 1)) tendsto_natCast_atTop_atTop)
  simp only [e] at h1
  have e2 : ∫ t in Set.Ioi (0 : ℝ), (k + 1) * t ^ k * exp (-t) = ((k + 1).factorial : ℝ) := by
    simp only [← e]
    rw [integral_const_mul, ← Real.Gamma_eq_integral (by positivity), Real.Gamma_nat_eq_factorial, Nat.factorial_succ]
    push_cast
    ring
  rwa [e2] at h1

/-- The tail of the series that bounds the mean excess. -/
noncomputable def tailBound (k B : ℕ) : ℝ := ∑' j : ℕ, ((j + B : ℕ) + 1 : ℝ) ^ (k + 1) * exp (-((j + B : ℕ) : ℝ))

theorem tail_summable (k : ℕ) : Summable fun j : ℕ => ((j : ℝ) + 1) ^ (k + 1) * exp (-(j : ℝ)) := by
  have h := (summable_nat_add_iff 1).mpr (Real.summable_pow_mul_exp_neg_nat_mul (k + 1) one_pos)
  refine (h.mul_left (exp 1)).congr fun j => ?_
  push_cast
  rw [mul_left_comm, ← exp_add]
  congr 2
  ring

theorem tail_tendsto (k : ℕ) : Tendsto (tailBound k) atTop (𝓝 0) := by
  have := tendsto_sum_nat_add fun j : ℕ => ((j : ℝ) + 1) ^ (k + 1) * exp (-(j : ℝ))
  exact this

theorem tail_partial (k B n : ℕ) (c : ℕ → ℝ) (hc : ∀ j, j ≤ n → c j ≤ exp (-(j : ℝ))) :
    ∑ j ∈ Finset.Ico B n, ((j + 1 : ℝ) ^ (k + 1) - (j : ℝ) ^ (k + 1)) * c j ≤ tailBound k B := by
  have hs : Summable fun j : ℕ => ((j + B : ℕ) + 1 : ℝ) ^ (k + 1) * exp (-((j + B : ℕ) : ℝ)) := (summable_nat_add_iff B).mpr (tail_summable k)
  calc ∑ j ∈ Finset.Ico B n, ((j + 1 : ℝ) ^ (k + 1) - (j : ℝ) ^ (k + 1)) * c j ≤ ∑ j ∈ Finset.Ico B n, (j + 1 : ℝ) ^ (k + 1) * exp (-(j : ℝ)) := by
        refine Finset.sum_le_sum fun j hj => ?_
        rw [Finset.mem_Ico] at hj
        have h0 : 0 ≤ (j + 1 : ℝ) ^ (k + 1) - (j : ℝ) ^ (k + 1) := sub_nonneg.mpr (pow_le_pow_left₀ (Nat.cast_nonneg j) (by linarith) _)
        refine (mul_le_mul_of_nonneg_left (hc j hj.2.le) h0).trans (mul_le_mul_of_nonneg_right ?_ (exp_pos _).le)
        have : (0 : ℝ) ≤ (j : ℝ) ^ (k + 1) := by positivity
        linarith
    _ = ∑ j ∈ Finset.range (n - B), ((j + B : ℕ) + 1 : ℝ) ^ (k + 1) * exp (-((j + B : ℕ) : ℝ)) := by
        rw [Finset.sum_Ico_eq_sum_range]
        refine Finset.sum_congr rfl fun j _ => ?_
        rw [add_comm B j]
    _ ≤ tailBound k B := hs.sum_le_tsum _ fun j _ => by positivity

end BrodyC
end RMT
