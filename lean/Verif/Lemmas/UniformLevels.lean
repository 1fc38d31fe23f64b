import Verif.Spec.Normal
import Verif.Spec.Delta3
import Verif.Spec.Counting
import Verif.Spec.Neighbours
import Mathlib.Probability.CDF
import Mathlib.Probability.Moments.Variance
import Mathlib.MeasureTheory.Integral.IntegralEqImproper
import Mathlib.Analysis.SpecialFunctions.Integrals.Basic
import Mathlib.Data.List.GetD

/-!
# Independent uniform levels: rigidity, counts and spacings
-/

namespace RMT
namespace UniformM
open MeasureTheory ProbabilityTheory Real Set Spec
open scoped ENNReal

variable {Ω : Type} [MeasurableSpace Ω]

/-! ## The least squares line over an interval -/

theorem delta3_eq (f : ℝ → ℝ) (a b : ℝ) (hab : a < b) (h1 : IntervalIntegrable f volume a b) (h2 : IntervalIntegrable (fun t => f t ^ 2) volume a b) :
    delta3 f a b = 1 / (b - a) * ((∫ t in a..b, f t ^ 2) - 12 / (b - a) ^ 3 * (∫ t in a..b, (t - (a + b) / 2) * f t) ^ 2 - 1 / (b - a) * (∫ t in a..b, f t) ^ 2) := by
  set L := b - a with hL
  have hL0 : 0 < L := by rw [hL]; linarith
  set m := (a + b) / 2 with hm
  have h3 : IntervalIntegrable (fun t => (t - m) * f t) volume a b := h1.continuousOn_mul (by fun_prop)
  set α := ∫ t in a..b, f t with hα
  set β := ∫ t in a..b, (t - m) * f t with hβ
  set γ := ∫ t in a..b, f t ^ 2 with hγ
  have e0 : ∫ t in a..b, (t - m) ^ 2 = L ^ 3 / 12 := by
    rw [intervalIntegral.integral_comp_sub_right (fun t => t ^ 2), integral_pow]
    rw [hm, hL]; push_cast; ring
  have e1 : ∫ t in a..b, (t - m) = 0 := by
    rw [intervalIntegral.integral_comp_sub_right (fun t => t), integral_id]
    rw [hm]; ring
  have hd : ∀ p q, deviation f a b p q = 1 / L * (γ - 2 * p * β - 2 * (p * m + q) * α + p ^ 2 * (L ^ 3 / 12) + (p * m + q) ^ 2 * L) := by
    intro p q
    unfold deviation
    have : ∀ t, (f t - (p * t + q)) ^ 2 = f t ^ 2 - 2 * p * ((t - m) * f t) - 2 * (p * m + q) * f t + p ^ 2 * (t - m) ^ 2 + 2 * p * (p * m + q) * (t - m) + (p * m + q) ^ 2 := fun t => by ring
    simp only [this]
    rw [intervalIntegral.integral_add, intervalIntegral.integral_add, intervalIntegral.integral_add, intervalIntegral.integral_sub, intervalIntegral.integral_sub,
      intervalIntegral.integral_const_mul, intervalIntegral.integral_const_mul, intervalIntegral.integral_const_mul, intervalIntegral.integral_const_mul, intervalIntegral.integral_const, e0, e1]
    · simp only [smul_eq_mul]; ring
    · exact h2
    · exact h3.const_mul _
    · exact h2.sub (h3.const_mul _)
    · exact h1.const_mul _
    · exact (h2.sub (h3.const_mul _)).sub (h1.const_mul _)
    · exact Continuous.intervalIntegrable (by fun_prop) _ _
    · exact ((h2.sub (h3.const_mul _)).sub (h1.const_mul _)).add (Continuous.intervalIntegrable (by fun_prop) _ _)
    · exact Continuous.intervalIntegrable (by fun_prop) _ _
    · exact (((h2.sub (h3.const_mul _)).sub (h1.const_mul _)).add (Continuous.intervalIntegrable (by fun_prop) _ _)).add (Continuous.intervalIntegrable (by fun_prop) _ _)
    · exact Continuous.intervalIntegrable (by fun_prop) _ _
  have hmin : ∀ l : ℝ × ℝ, 1 / L * (γ - 12 / L ^ 3 * β ^ 2 - 1 / L * α ^ 2) ≤ deviation f a b l.1 l.2 := by
    intro l
    rw [hd]
    have : 1 / L * (γ - 2 * l.1 * β - 2 * (l.1 * m + l.2) * α + l.1 ^ 2 * (L ^ 3 / 12) + (l.1 * m + l.2) ^ 2 * L) - 1 / L * (γ - 12 / L ^ 3 * β ^ 2 - 1 / L * α ^ 2) =
        1 / L * (L ^ 3 / 12 * (l.1 - 12 * β / L ^ 3) ^ 2 + L * (l.1 * m + l.2 - α / L) ^ 2) := by
      field_simp
      ring
    have h0 : 0 ≤ 1 / L * (L ^ 3 / 12 * (l.1 - 12 * β / L ^ 3) ^ 2 + L * (l.1 * m + l.2 - α / L) ^ 2) := by positivity
    linarith
  have hat : deviation f a b (12 * β / L ^ 3) (α / L - 12 * β / L ^ 3 * m) = 1 / L * (γ - 12 / L ^ 3 * β ^ 2 - 1 / L * α ^ 2) := by
    rw [hd]
    field_simp
    ring
  unfold delta3
  apply le_antisymm
  · rw [← hat]
    exact ciInf_le ⟨_, by rintro _ ⟨l, rfl⟩; exact hmin l⟩ ((12 * β / L ^ 3, α / L - 12 * β / L ^ 3 * m) : ℝ × ℝ)
  · exact le_ciInf hmin

/-! ## Steps -/

/-- `y` moved into `[a, b]`. -/
noncomputable def clip (a b y : ℝ) : ℝ := max a (min y b)

/-- The step at `y`. -/
noncomputable def step (y t : ℝ) : ℝ := if y ≤ t then 1 else 0

theorem step_integral (a b y : ℝ) (hab : a ≤ b) (h : ℝ → ℝ) : ∫ t in a..b, h t * step y t = ∫ t in (clip a b y)..b, h t := by
  have hc : clip a b y ≤ b := max_le hab (min_le_right _ _)
  rw [intervalIntegral.integral_of_le hab, intervalIntegral.integral_of_le hc]
  have e : ∀ t, h t * step y t = (Ici y).indicator h t := by
    intro t
    by_cases ht : y ≤ t <;> simp [step, ht]
  simp only [e]
  rw [setIntegral_indicator measurableSet_Ici]
  rcases le_or_gt y a with hy | hy
  · have e1 : Ioc a b ∩ Ici y = Ioc a b := inter_eq_left.mpr fun t ht => hy.trans ht.1.le
    have e2 : clip a b y = a := max_eq_left ((min_le_left _ _).trans hy)
    rw [e1, e2]
  · rcases le_or_gt y b with hyb | hyb
    · have e1 : Ioc a b ∩ Ici y = Icc y b := by
        ext t; constructor
        · rintro ⟨h1, h2⟩; exact ⟨h2, h1.2⟩
        · rintro ⟨h1, h2⟩; exact ⟨⟨lt_of_lt_of_le hy h1, h2⟩, h1⟩
      have e2 : clip a b y = y := by rw [clip, min_eq_left hyb, max_eq_right hy.le]
      rw [e1, e2, integral_Icc_eq_integral_Ioc]
    · have e1 : Ioc a b ∩ Ici y = ∅ := by
        ext t
        simp only [mem_inter_iff, mem_Ioc, mem_Ici, mem_empty_iff_false, iff_false, not_and, not_le]
        intro h1; linarith [h1.2]
      have e2 : clip a b y = b := by rw [clip, min_eq_right hyb.le, max_eq_right hab]
      rw [e1, e2]
      simp

theorem measurable_step : Measurable fun p : ℝ × ℝ => step p.1 p.2 := by
  unfold step
  exact Measurable.ite (measurableSet_le measurable_fst measurable_snd) measurable_const measurable_const

theorem step_mem (y t : ℝ) : step y t = 0 ∨ step y t = 1 := by
  unfold step
  split_ifs <;> simp

/-- Uniform levels: the coordinates `Y 0, Y 1, …` are independent and uniformly distributed on `[0, n]`. -/
structure UniformLevels (P : Measure Ω) (n : ℝ) (Y : Nat → Ω → ℝ) : Prop where
  measurable : ∀ k, Measurable (Y k)
  indep : iIndepFun Y P
  law : ∀ k, P.map (Y k) = ENNReal.ofReal (1 / n) • volume.restrict (Ioc 0 n)

theorem UniformLevels.mean {P : Measure Ω} {n : ℝ} (hn : 0 ≤ n) {Y : Nat → Ω → ℝ} (hY : UniformLevels P n Y) (k : Nat) (h : ℝ → ℝ) (hh : Measurable h) :
    ∫ ω, h (Y k ω) ∂P = 1 / n * ∫ y in (0 : ℝ)..n, h y := by
  rw [← integral_map (hY.measurable k).aemeasurable hh.aestronglyMeasurable, hY.law, integral_smul_measure, ENNReal.toReal_ofReal (by positivity), intervalIntegral.integral_of_le hn, smul_eq_mul]

/-- Mean and mean square of a sum of a bounded function over the levels. -/
theorem sum_moments {P : Measure Ω} [IsProbabilityMeasure P] {n : ℝ} (hn : 0 ≤ n) {Y : Nat → Ω → ℝ} (hY : UniformLevels P n Y) (N : Nat) (g : ℝ → ℝ) (hg : Measurable g) (C : ℝ) (hC : ∀ y, |g y| ≤ C) :
    ∫ ω, (∑ k ∈ Finset.range N, g (Y k ω)) ∂P = N * (1 / n * ∫ y in (0 : ℝ)..n, g y) ∧
    Var[fun ω => ∑ k ∈ Finset.range N, g (Y k ω); P] = N * (1 / n * (∫ y in (0 : ℝ)..n, g y ^ 2) - (1 / n * ∫ y in (0 : ℝ)..n, g y) ^ 2) ∧
    ∫ ω, (∑ k ∈ Finset.range N, g (Y k ω)) ^ 2 ∂P =
      N * (1 / n * (∫ y in (0 : ℝ)..n, g y ^ 2) - (1 / n * ∫ y in (0 : ℝ)..n, g y) ^ 2) + (N * (1 / n * ∫ y in (0 : ℝ)..n, g y)) ^ 2 := by
  have hm : ∀ k, MemLp (fun ω => g (Y k ω)) 2 P := fun k =>
    MemLp.of_bound (hg.comp (hY.measurable k)).aestronglyMeasurable C (Filter.Eventually.of_forall fun ω => hC _)
  have hint : ∀ k, Integrable (fun ω => g (Y k ω)) P := fun k => (hm k).integrable (by norm_num)
  have hmean : ∫ ω, (∑ k ∈ Finset.range N, g (Y k ω)) ∂P = N * (1 / n * ∫ y in (0 : ℝ)..n, g y) := by
    rw [integral_finsetSum _ fun k _ => hint k]
    simp only [hY.mean hn _ g hg, Finset.sum_const, Finset.card_range, nsmul_eq_mul]
  have hvar1 : ∀ k, Var[fun ω => g (Y k ω); P] = 1 / n * (∫ y in (0 : ℝ)..n, g y ^ 2) - (1 / n * ∫ y in (0 : ℝ)..n, g y) ^ 2 := by
    intro k
    rw [variance_eq_sub (hm k)]
    have e := hY.mean hn k (fun y => g y ^ 2) (hg.pow_const 2)
    simp only [Pi.pow_apply]
    rw [e, hY.mean hn k g hg]
  have hvar : Var[fun ω => ∑ k ∈ Finset.range N, g (Y k ω); P] = N * (1 / n * (∫ y in (0 : ℝ)..n, g y ^ 2) - (1 / n * ∫ y in (0 : ℝ)..n, g y) ^ 2) := by
    have := IndepFun.variance_sum (μ := P) (X := fun k ω => g (Y k ω)) (s := Finset.range N) (fun k _ => hm k)
      (fun i _ j _ hij => (hY.indep.indepFun hij).comp hg hg)
    have e : (fun ω => ∑ k ∈ Finset.range N, g (Y k ω)) = ∑ k ∈ Finset.range N, fun ω => g (Y k ω) := by
      funext ω; simp
    rw [e, this]
    simp only [hvar1, Finset.sum_const, Finset.card_range, nsmul_eq_mul]
  refine ⟨hmean, hvar, ?_⟩
  have hsm : MemLp (fun ω => ∑ k ∈ Finset.range N, g (Y k ω)) 2 P := memLp_finsetSum _ fun k _ => hm k
  have := variance_eq_sub hsm
  simp only [Pi.pow_apply] at this
  rw [hvar, hmean] at this
  linarith

theorem continuous_clip (a b : ℝ) : Continuous (clip a b) := by unfold clip; fun_prop

theorem clip_integral (a b n : ℝ) (h0 : 0 ≤ a) (hab : a ≤ b) (hb : b ≤ n) (H : ℝ → ℝ) (hH : Continuous H) :
    ∫ y in (0 : ℝ)..n, H (clip a b y) = a * H a + (∫ y in a..b, H y) + (n - b) * H b := by
  have hi : ∀ x y, IntervalIntegrable (fun y => H (clip a b y)) volume x y := fun x y => (hH.comp (continuous_clip a b)).intervalIntegrable _ _
  rw [← intervalIntegral.integral_add_adjacent_intervals (hi 0 b) (hi b n), ← intervalIntegral.integral_add_adjacent_intervals (hi 0 a) (hi a b)]
  have e1 : ∫ y in (0 : ℝ)..a, H (clip a b y) = ∫ y in (0 : ℝ)..a, H a := by
    refine intervalIntegral.integral_congr fun y hy => ?_
    rw [uIcc_of_le h0] at hy
    simp only [clip]
    rw [max_eq_left ((min_le_left _ _).trans hy.2)]
  have e2 : ∫ y in a..b, H (clip a b y) = ∫ y in a..b, H y := by
    refine intervalIntegral.integral_congr fun y hy => ?_
    rw [uIcc_of_le hab] at hy
    simp only [clip]
    rw [min_eq_left hy.2, max_eq_right hy.1]
  have e3 : ∫ y in b..n, H (clip a b y) = ∫ y in b..n, H b := by
    refine intervalIntegral.integral_congr fun y hy => ?_
    rw [uIcc_of_le hb] at hy
    simp only [clip]
    rw [min_eq_right hy.1, max_eq_right hab]
  rw [e1, e2, e3]
  simp

/-- The number of the first `N` levels which are at most `t`. -/
noncomputable def stairs (Y : Nat → Ω → ℝ) (N : Nat) (ω : Ω) (t : ℝ) : ℝ := ∑ k ∈ Finset.range N, step (Y k ω) t

theorem stairs_measurable {Y : Nat → Ω → ℝ} (hY : ∀ k, Measurable (Y k)) (N : Nat) : Measurable fun p : Ω × ℝ => stairs Y N p.1 p.2 := by
  unfold stairs
  exact Finset.measurable_sum _ fun k _ => measurable_step.comp (((hY k).comp measurable_fst).prodMk measurable_snd)

omit [MeasurableSpace Ω] in
theorem stairs_bound (Y : Nat → Ω → ℝ) (N : Nat) (ω : Ω) (t : ℝ) : |stairs Y N ω t| ≤ N := by
  unfold stairs
  refine (Finset.abs_sum_le_sum_abs _ _).trans ?_
  have : ∀ k ∈ Finset.range N, |step (Y k ω) t| ≤ 1 := fun k _ => by
    rcases step_mem (Y k ω) t with h | h <;> rw [h] <;> simp
  refine (Finset.sum_le_sum this).trans (by simp)

theorem step_mean {n t : ℝ} (h0 : 0 ≤ t) (ht : t ≤ n) : ∫ y in (0 : ℝ)..n, step y t = t := by
  have hi : ∀ x y, IntervalIntegrable (fun y => step y t) volume x y := fun x y => by
    have : Antitone fun y => step y t := by
      intro u v huv
      simp only [step]
      split_ifs with h1 h2
      · exact le_refl _
      · exact absurd (huv.trans h1) h2
      · norm_num
      · exact le_refl _
    exact this.intervalIntegrable
  rw [← intervalIntegral.integral_add_adjacent_intervals (hi 0 t) (hi t n)]
  have e1 : ∫ y in (0 : ℝ)..t, step y t = ∫ y in (0 : ℝ)..t, 1 := by
    refine intervalIntegral.integral_congr fun y hy => ?_
    rw [uIcc_of_le h0] at hy
    simp [step, hy.2]
  have e2 : ∫ y in t..n, step y t = 0 := by
    rw [intervalIntegral.integral_of_le ht, setIntegral_eq_zero_of_forall_eq_zero]
    intro y hy
    have : ¬ y ≤ t := not_le.mpr hy.1
    simp [step, this]
  rw [e1, e2]
  simp

theorem mean_rigidity {P : Measure Ω} [IsProbabilityMeasure P] {N : Nat} {Y : Nat → Ω → ℝ} (hY : UniformLevels P N Y) (a b : ℝ) (h0 : 0 ≤ a) (hab : a < b) (hb : b ≤ N) :
    ∫ ω, delta3 (stairs Y N ω) a b ∂P = (b - a) / 15 := by
  have hN : (0 : ℝ) < N := by linarith
  have hm := stairs_measurable hY.measurable N
  have hsec : ∀ ω, Measurable (stairs Y N ω) := fun ω => hm.comp (measurable_const.prodMk measurable_id)
  have hfin : ∀ (g : ℝ → ℝ) (C : ℝ), Measurable g → (∀ t, |g t| ≤ C) → IntervalIntegrable g volume a b := fun g C hg hC => by
    rw [intervalIntegrable_iff_integrableOn_Ioc_of_le hab.le]
    exact Integrable.of_bound hg.aestronglyMeasurable C (Filter.Eventually.of_forall fun t => hC t)
  have hint : ∀ ω, IntervalIntegrable (stairs Y N ω) volume a b := fun ω => hfin _ _ (hsec ω) (stairs_bound Y N ω)
  have hsqb : ∀ ω t, |stairs Y N ω t ^ 2| ≤ (N : ℝ) ^ 2 := fun ω t => by
    rw [abs_pow]; exact pow_le_pow_left₀ (abs_nonneg _) (stairs_bound Y N ω t) 2
  have hint2 : ∀ ω, IntervalIntegrable (fun t => stairs Y N ω t ^ 2) volume a b := fun ω => hfin _ _ ((hsec ω).pow_const 2) (hsqb ω)
  set A : ℝ → ℝ := fun y => b - clip a b y with hA
  set B : ℝ → ℝ := fun y => ((b - (a + b) / 2) ^ 2 - (clip a b y - (a + b) / 2) ^ 2) / 2 with hB
  have hstep : ∀ (h : ℝ → ℝ), Continuous h → ∀ y, IntervalIntegrable (fun t => h t * step y t) volume a b := fun h hh y => by
    refine IntervalIntegrable.continuousOn_mul (hfin _ 1 (measurable_step.comp (measurable_const.prodMk measurable_id)) fun t => ?_) hh.continuousOn
    rcases step_mem y t with h | h <;> rw [h] <;> simp
  have hα : ∀ ω, ∫ t in a..b, stairs Y N ω t = ∑ k ∈ Finset.range N, A (Y k ω) := by
    intro ω
    unfold stairs
    rw [intervalIntegral.integral_finsetSum fun k _ => by simpa using hstep (fun _ => 1) continuous_const (Y k ω)]
    refine Finset.sum_congr rfl fun k _ => ?_
    have := step_integral a b (Y k ω) hab.le fun _ => 1
    simp only [one_mul] at this
    rw [this]
    simp [hA]
  have hβ : ∀ ω, ∫ t in a..b, (t - (a + b) / 2) * stairs Y N ω t = ∑ k ∈ Finset.range N, B (Y k ω) := by
    intro ω
    unfold stairs
    simp only [Finset.mul_sum]
    rw [intervalIntegral.integral_finsetSum fun k _ => hstep (fun t => t - (a + b) / 2) (by fun_prop) (Y k ω)]
    refine Finset.sum_congr rfl fun k _ => ?_
    rw [step_integral a b (Y k ω) hab.le fun t => t - (a + b) / 2, intervalIntegral.integral_comp_sub_right (fun t => t), integral_id]
  have hcl : ∀ y, a ≤ clip a b y ∧ clip a b y ≤ b := fun y => ⟨le_max_left _ _, max_le hab.le (min_le_right _ _)⟩
  have hAm : Measurable A := ((continuous_const.sub (continuous_clip a b))).measurable
  have hBm : Measurable B := by
    have := continuous_clip a b
    have : Continuous B := by simp only [hB]; fun_prop
    exact this.measurable
  have hAb : ∀ y, |A y| ≤ b - a := fun y => by
    rw [abs_le]; constructor <;> simp only [hA] <;> linarith [(hcl y).1, (hcl y).2]
  have hBb : ∀ y, |B y| ≤ (b - a) ^ 2 := fun y => by
    have h1 := (hcl y).1
    have h2 := (hcl y).2
    rw [abs_le]; constructor <;> simp only [hB] <;> nlinarith [mul_nonneg (sub_nonneg.mpr h1) (sub_nonneg.mpr h2)]
  have iA : ∫ y in (0 : ℝ)..N, A y = a * (b - a) + (b - a) ^ 2 / 2 := by
    have := clip_integral a b N h0 hab.le hb (fun c => b - c) (by fun_prop)
    simp only [hA]
    rw [this, intervalIntegral.integral_sub (by simp) (by simp), integral_id]
    simp
    ring
  have iA2 : ∫ y in (0 : ℝ)..N, A y ^ 2 = a * (b - a) ^ 2 + (b - a) ^ 3 / 3 := by
    have := clip_integral a b N h0 hab.le hb (fun c => (b - c) ^ 2) (by fun_prop)
    simp only [hA]
    rw [this, intervalIntegral.integral_comp_sub_left (fun t => t ^ 2), integral_pow]
    push_cast
    ring
  have iB : ∫ y in (0 : ℝ)..N, B y = (b - a) ^ 3 / 12 := by
    have := clip_integral a b N h0 hab.le hb (fun c => ((b - (a + b) / 2) ^ 2 - (c - (a + b) / 2) ^ 2) / 2) (by fun_prop)
    simp only [hB]
    rw [this, intervalIntegral.integral_div, intervalIntegral.integral_sub (by simp) (Continuous.intervalIntegrable (by fun_prop) _ _),
      intervalIntegral.integral_comp_sub_right (fun t => t ^ 2), integral_pow]
    simp
    ring
  have iB2 : ∫ y in (0 : ℝ)..N, B y ^ 2 = (b - a) ^ 5 / 120 := by
    have := clip_integral a b N h0 hab.le hb (fun c => (((b - (a + b) / 2) ^ 2 - (c - (a + b) / 2) ^ 2) / 2) ^ 2) (by fun_prop)
    simp only [hB]
    rw [this]
    have e : ∀ c, (((b - (a + b) / 2) ^ 2 - (c - (a + b) / 2) ^ 2) / 2) ^ 2 = (b - (a + b) / 2) ^ 4 / 4 - (b - (a + b) / 2) ^ 2 / 2 * (c - (a + b) / 2) ^ 2 + 1 / 4 * (c - (a + b) / 2) ^ 4 := fun c => by ring
    simp only [e]
    rw [intervalIntegral.integral_add (Continuous.intervalIntegrable (by fun_prop) _ _) (Continuous.intervalIntegrable (by fun_prop) _ _),
      intervalIntegral.integral_sub (by simp) (Continuous.intervalIntegrable (by fun_prop) _ _), intervalIntegral.integral_const_mul, intervalIntegral.integral_const_mul,
      intervalIntegral.integral_comp_sub_right (fun t => t ^ 2), intervalIntegral.integral_comp_sub_right (fun t => t ^ 4), integral_pow, integral_pow]
    simp
    ring
  have mA := (sum_moments hN.le hY N A hAm _ hAb).2.2
  have mB := (sum_moments hN.le hY N B hBm _ hBb).2.2
  rw [iA, iA2] at mA
  rw [iB, iB2] at mB
  have mS : ∀ t : ℝ, 0 ≤ t → t ≤ N → ∫ ω, stairs Y N ω t ^ 2 ∂P = t + (1 - 1 / N) * t ^ 2 := by
    intro t ht0 htN
    have hms : Measurable fun y => step y t := measurable_step.comp (measurable_id.prodMk measurable_const)
    have := (sum_moments hN.le hY N (fun y => step y t) hms 1 fun y => by rcases step_mem y t with h | h <;> rw [h] <;> simp).2.2
    have hsq : ∀ y, step y t ^ 2 = step y t := fun y => by rcases step_mem y t with h | h <;> rw [h] <;> norm_num
    simp only [hsq, step_mean ht0 htN] at this
    unfold stairs
    rw [this]
    field_simp
    ring
  have hsq : ∫ ω, (∫ t in a..b, stairs Y N ω t ^ 2) ∂P = (b ^ 2 - a ^ 2) / 2 + (1 - 1 / N) * ((b ^ 3 - a ^ 3) / 3) := by
    have hswap : ∫ ω, (∫ t in a..b, stairs Y N ω t ^ 2) ∂P = ∫ t in a..b, (∫ ω, stairs Y N ω t ^ 2 ∂P) := by
      simp only [intervalIntegral.integral_of_le hab.le]
      refine integral_integral_swap ?_
      refine Integrable.of_bound (hm.pow_const 2).aestronglyMeasurable ((N : ℝ) ^ 2) (Filter.Eventually.of_forall fun p => hsqb p.1 p.2)
    rw [hswap]
    have : ∫ t in a..b, (∫ ω, stairs Y N ω t ^ 2 ∂P) = ∫ t in a..b, (t + (1 - 1 / N) * t ^ 2) := by
      refine intervalIntegral.integral_congr fun t ht => ?_
      rw [uIcc_of_le hab.le] at ht
      exact mS t (h0.trans ht.1) (ht.2.trans hb)
    rw [this, intervalIntegral.integral_add (by simp) (Continuous.intervalIntegrable (by fun_prop) _ _), intervalIntegral.integral_const_mul, integral_id, integral_pow]
    push_cast
    ring
  have hd : ∀ ω, delta3 (stairs Y N ω) a b = 1 / (b - a) * ((∫ t in a..b, stairs Y N ω t ^ 2) - 12 / (b - a) ^ 3 * (∑ k ∈ Finset.range N, B (Y k ω)) ^ 2 - 1 / (b - a) * (∑ k ∈ Finset.range N, A (Y k ω)) ^ 2) := by
    intro ω
    rw [delta3_eq _ a b hab (hint ω) (hint2 ω), hα, hβ]
  have hsum : ∀ (g : ℝ → ℝ) (C : ℝ), Measurable g → (∀ y, |g y| ≤ C) → Integrable (fun ω => (∑ k ∈ Finset.range N, g (Y k ω)) ^ 2) P := by
    intro g C hg hC
    have : MemLp (fun ω => ∑ k ∈ Finset.range N, g (Y k ω)) 2 P := memLp_finsetSum _ fun k _ =>
      MemLp.of_bound (hg.comp (hY.measurable k)).aestronglyMeasurable C (Filter.Eventually.of_forall fun ω => hC _)
    exact this.integrable_sq
  have hsqi : Integrable (fun ω => ∫ t in a..b, stairs Y N ω t ^ 2) P := by
    simp only [intervalIntegral.integral_of_le hab.le]
    refine Integrable.integral_prod_left (f := fun p : Ω × ℝ => stairs Y N p.1 p.2 ^ 2) ?_
    exact Integrable.of_bound (hm.pow_const 2).aestronglyMeasurable ((N : ℝ) ^ 2) (Filter.Eventually.of_forall fun p => hsqb p.1 p.2)
  have hE : ∀ (f g h : Ω → ℝ) (c d : ℝ), Integrable f P → Integrable g P → Integrable h P → ∫ ω, (f ω - c * g ω - d * h ω) ∂P = ∫ ω, f ω ∂P - c * ∫ ω, g ω ∂P - d * ∫ ω, h ω ∂P := by
    intro f g h c d hf hg hh
    have h1 : Integrable (fun ω => f ω - c * g ω) P := hf.sub (hg.const_mul c)
    rw [integral_sub h1 (hh.const_mul d), integral_sub hf (hg.const_mul c), integral_const_mul, integral_const_mul]
  simp only [hd]
  rw [integral_const_mul, hE _ _ _ _ _ hsqi (hsum B _ hBm hBb) (hsum A _ hAm hAb), hsq, mA, mB]
  have hL : b - a ≠ 0 := by linarith
  obtain ⟨L, hL', rfl⟩ : ∃ L, L ≠ 0 ∧ b = a + L := ⟨b - a, hL, by ring⟩
  simp only [add_sub_cancel_left]
  field_simp
  ring

/-! ## The normal distribution function -/

/-- The distribution function of the standard normal law. -/
noncomputable def Phi : ℝ → ℝ := cdf (gaussianReal 0 1)

theorem Phi_eq (x : ℝ) : Phi x = (gaussianReal 0 1).real (Iic x) := cdf_eq_real _ x

theorem Phi_mono : Monotone Phi := monotone_cdf _

theorem Phi_continuous : Continuous Phi := by
  refine continuous_iff_continuousAt.mpr fun a => ?_
  have hna : NullSingletonClass (gaussianReal 0 1) := nullSingletonClass_gaussianReal (by norm_num)
  have h1 : (gaussianReal 0 1) {a} = 0 := measure_singleton a
  rw [← measure_cdf (gaussianReal 0 1), StieltjesFunction.measure_singleton, ENNReal.ofReal_eq_zero] at h1
  have hm := monotone_cdf (gaussianReal 0 1)
  refine hm.continuousAt_iff_leftLim_eq_rightLim.mpr ?_
  rw [StieltjesFunction.rightLim_eq]
  exact le_antisymm (hm.leftLim_le le_rfl) (by linarith)

/-- The normal distribution function takes standard normal draws to uniform ones. -/
theorem Phi_law : (gaussianReal 0 1).map Phi = volume.restrict (Ioc 0 1) := by
  have hmeas : Measurable Phi := Phi_continuous.measurable
  have hfin : IsProbabilityMeasure ((gaussianReal 0 1).map Phi) := Measure.isProbabilityMeasure_map hmeas.aemeasurable
  have h01 : ∀ x, 0 ≤ Phi x ∧ Phi x ≤ 1 := fun x => ⟨cdf_nonneg _ x, cdf_le_one _ x⟩
  have key : ∀ u, 0 < u → u < 1 → (gaussianReal 0 1) (Phi ⁻¹' Iic u) = ENNReal.ofReal u := by
    intro u h0 h1
    set S := Phi ⁻¹' Iic u with hS
    have hcl : IsClosed S := isClosed_Iic.preimage Phi_continuous
    have hne : S.Nonempty := by
      have := (tendsto_cdf_atBot (gaussianReal 0 1)).eventually (Iic_mem_nhds h0)
      exact this.exists
    obtain ⟨B, hB⟩ := ((tendsto_cdf_atTop (gaussianReal 0 1)).eventually (Ioi_mem_nhds h1)).exists
    have hbd : BddAbove S := ⟨B, fun x hx => by
      by_contra hc
      have h2 : Phi B ≤ Phi x := Phi_mono (not_le.mp hc).le
      have h3 : u < Phi B := hB
      have h4 : Phi x ≤ u := hx
      linarith⟩
    set x0 := sSup S with hx0
    have hmem : x0 ∈ S := hcl.csSup_mem hne hbd
    have hSeq : S = Iic x0 := by
      ext x
      constructor
      · intro hx; exact le_csSup hbd hx
      · intro hx; exact (Phi_mono hx).trans hmem
    have hval : Phi x0 = u := by
      apply le_antisymm hmem
      have hlim : Filter.Tendsto Phi (nhdsWithin x0 (Ioi x0)) (nhds (Phi x0)) := Phi_continuous.continuousAt.tendsto.mono_left nhdsWithin_le_nhds
      refine ge_of_tendsto hlim ?_
      filter_upwards [self_mem_nhdsWithin] with x hx
      by_contra hc
      have : x ∈ S := (not_le.mp hc).le
      exact absurd (le_csSup hbd this) (not_le.mpr hx)
    rw [hSeq, ← ofReal_cdf]
    exact congrArg ENNReal.ofReal hval
  refine Measure.ext_of_Iic _ _ fun u => ?_
  rw [Measure.map_apply hmeas measurableSet_Iic, Measure.restrict_apply measurableSet_Iic]
  rcases lt_or_ge u 0 with hu | hu
  · have e1 : Phi ⁻¹' Iic u = ∅ := by
      ext x; simp only [mem_preimage, mem_Iic, mem_empty_iff_false, iff_false, not_le]; exact lt_of_lt_of_le hu (h01 x).1
    have e2 : Iic u ∩ Ioc (0 : ℝ) 1 = ∅ := by
      ext x; simp only [mem_inter_iff, mem_Iic, mem_Ioc, mem_empty_iff_false, iff_false]; rintro ⟨h1, h2, -⟩; linarith
    rw [e1, e2, measure_empty, measure_empty]
  · rcases lt_or_ge u 1 with hu1 | hu1
    · have e2 : Iic u ∩ Ioc (0 : ℝ) 1 = Ioc 0 u := by
        ext x; simp only [mem_inter_iff, mem_Iic, mem_Ioc]; constructor
        · rintro ⟨h1, h2, -⟩; exact ⟨h2, h1⟩
        · rintro ⟨h1, h2⟩; exact ⟨h2, h1, by linarith⟩
      rw [e2, volume_Ioc, sub_zero]
      rcases hu.eq_or_lt with rfl | hu0
      · rw [ENNReal.ofReal_zero]
        apply le_antisymm _ bot_le
        refine ENNReal.le_of_forall_pos_le_add fun ε hε _ => ?_
        rw [show (⊥ : ENNReal) = 0 from rfl, zero_add]
        have hlt : (0 : ℝ) < min (ε : ℝ) (1 / 2) := lt_min (by exact_mod_cast hε) (by norm_num)
        have h2 := key (min (ε : ℝ) (1 / 2)) hlt (lt_of_le_of_lt (min_le_right _ _) (by norm_num))
        refine (measure_mono (preimage_mono (Iic_subset_Iic.mpr hlt.le))).trans ?_
        rw [h2]
        refine (ENNReal.ofReal_le_ofReal (min_le_left _ _)).trans ?_
        rw [ENNReal.ofReal_coe_nnreal]
      · exact key u hu0 hu1
    · have e1 : Phi ⁻¹' Iic u = univ := by
        ext x; simp only [mem_preimage, mem_Iic, mem_univ, iff_true]; exact (h01 x).2.trans hu1
      have e2 : Iic u ∩ Ioc (0 : ℝ) 1 = Ioc 0 1 := inter_eq_right.mpr fun x hx => hx.2.trans hu1
      rw [e1, e2, volume_Ioc, measure_univ]
      simp

/-- Normal draws, taken through `N Φ`, are uniform levels. -/
theorem uniform_of_normal {P : Measure Ω} {X : Nat → Ω → ℝ} (hX : NormalDraws P X) (N : Nat) (hN : 0 < N) : UniformLevels P N fun k ω => (N : ℝ) * Phi (X k ω) := by
  have hm : Measurable fun x => (N : ℝ) * Phi x := Phi_continuous.measurable.const_mul _
  have hN' : (0 : ℝ) < N := by exact_mod_cast hN
  refine ⟨fun k => hm.comp (hX.measurable k), hX.indep.comp (fun _ x => (N : ℝ) * Phi x) fun _ => hm, fun k => ?_⟩
  have h1 : P.map (fun ω => (N : ℝ) * Phi (X k ω)) = (((P.map (X k)).map Phi)).map fun u => (N : ℝ) * u := by
    rw [Measure.map_map (by fun_prop) Phi_continuous.measurable, Measure.map_map (by exact hm) (hX.measurable k)]
    rfl
  rw [h1, hX.law, Phi_law]
  have h2 := Real.map_volume_mul_left hN'.ne'
  have h3 : (volume.restrict (Ioc (0 : ℝ) 1)) = volume.restrict ((fun u => (N : ℝ) * u) ⁻¹' Ioc 0 (N : ℝ)) := by
    congr 1
    ext u
    simp only [mem_Ioc, mem_preimage]
    constructor
    · rintro ⟨h1, h2⟩; exact ⟨by positivity, by nlinarith⟩
    · rintro ⟨h1, h2⟩; exact ⟨by by_contra hc; nlinarith, by by_contra hc; nlinarith⟩
  rw [h3, ← Measure.restrict_map (by fun_prop) measurableSet_Ioc]
  have h4 : (volume : Measure ℝ).map (fun u => (N : ℝ) * u) = ENNReal.ofReal |(N : ℝ)⁻¹| • volume := h2
  rw [h4, Measure.restrict_smul, abs_of_pos (by positivity), one_div]

/-! ## Spacings of ordered levels -/

theorem countP_range (N : Nat) (p : Nat → Prop) [DecidablePred p] : (List.range N).countP (fun i => decide (p i)) = ((Finset.range N).filter p).card := by
  rw [List.countP_eq_length_filter]
  simp [Finset.card, Finset.filter, Finset.range, Multiset.range]

theorem countP_getD (l : List ℝ) (p : ℝ → Prop) [DecidablePred p] : l.countP (fun z => decide (p z)) = ((Finset.range l.length).filter fun i => p (l.getD i 0)).card := by
  have h : l = (List.range l.length).map fun i => l.getD i 0 := by
    apply List.ext_getElem
    · simp
    · intro i h1 h2
      simp [h1]
  conv_lhs => rw [h, List.countP_map]
  rw [← countP_range]
  rfl

theorem window_count (N m : Nat) (v : Nat → ℝ) (hv : ∀ i j, i < j → j < N → v i < v j) (s : ℝ) (i : Nat) (hi : i < N) :
    ((Finset.range N).filter fun j => v i < v j ∧ v j ≤ v i + s).card < m ↔ 0 < m ∧ (N ≤ i + m ∨ v i + s < v (i + m)) := by
  have hlt : ∀ j, j < N → v i < v j → i < j := by
    intro j hj h
    by_contra hc
    rcases (not_lt.mp hc).eq_or_lt with rfl | h'
    · exact lt_irrefl _ h
    · exact lt_asymm h (hv j i h' hi)
  constructor
  · intro h
    refine ⟨by omega, ?_⟩
    by_contra hc
    push Not at hc
    obtain ⟨h1, h2⟩ := hc
    have : Finset.Ioc i (i + m) ⊆ (Finset.range N).filter fun j => v i < v j ∧ v j ≤ v i + s := by
      intro j hj
      rw [Finset.mem_Ioc] at hj
      rw [Finset.mem_filter, Finset.mem_range]
      refine ⟨by omega, hv i j hj.1 (by omega), ?_⟩
      rcases hj.2.eq_or_lt with rfl | h'
      · exact h2
      · exact (hv j (i + m) h' h1).le.trans h2
    have := Finset.card_le_card this
    simp at this
    omega
  · rintro ⟨h0, h⟩
    rcases h with h | h
    · have : ((Finset.range N).filter fun j => v i < v j ∧ v j ≤ v i + s) ⊆ Finset.Ioo i N := by
        intro j hj
        rw [Finset.mem_filter, Finset.mem_range] at hj
        exact Finset.mem_Ioo.mpr ⟨hlt j hj.1 hj.2.1, hj.1⟩
      have := Finset.card_le_card this
      simp at this
      omega
    · have : ((Finset.range N).filter fun j => v i < v j ∧ v j ≤ v i + s) ⊆ Finset.Ioo i (i + m) := by
        intro j hj
        rw [Finset.mem_filter, Finset.mem_range] at hj
        refine Finset.mem_Ioo.mpr ⟨hlt j hj.1 hj.2.1, ?_⟩
        by_contra hc
        rcases (not_lt.mp hc).eq_or_lt with rfl | h'
        · exact absurd hj.2.2 (not_le.mpr h)
        · exact absurd (hj.2.2.trans_lt h) (not_lt.mpr (hv (i + m) j h' hj.1).le)
      have := Finset.card_le_card this
      simp at this
      omega

theorem tail_count (N m : Nat) (hm : m ≤ N) (v : Nat → ℝ) (hv : ∀ i j, i < j → j < N → v i < v j) (t : ℝ) :
    ((Finset.range N).filter fun i => N ≤ i + m ∧ v i ≤ t).card = ((Finset.range m).filter fun j => ((Finset.range N).filter fun i => t < v i).card < j + 1).card := by
  set c := ((Finset.range N).filter fun i => t < v i).card with hc
  -- the levels above `t` are the last `c`
  have hup : ∀ i, i < N → (t < v i ↔ N ≤ i + c) := by
    intro i hi
    constructor
    · intro h
      have : Finset.Ico i N ⊆ (Finset.range N).filter fun i => t < v i := by
        intro j hj
        rw [Finset.mem_Ico] at hj
        rw [Finset.mem_filter, Finset.mem_range]
        refine ⟨hj.2, ?_⟩
        rcases hj.1.eq_or_lt with rfl | h'
        · exact h
        · exact h.trans (hv i j h' hj.2)
      have := Finset.card_le_card this
      simp at this
      omega
    · intro h
      by_contra hn
      have : ((Finset.range N).filter fun i => t < v i) ⊆ Finset.Ioo i N := by
        intro j hj
        rw [Finset.mem_filter, Finset.mem_range] at hj
        refine Finset.mem_Ioo.mpr ⟨?_, hj.1⟩
        by_contra hc'
        rcases (not_lt.mp hc').eq_or_lt with rfl | h'
        · exact hn hj.2
        · exact hn (hj.2.trans (hv j i h' hi))
      have := Finset.card_le_card this
      simp at this
      omega
  have e1 : ((Finset.range N).filter fun i => N ≤ i + m ∧ v i ≤ t) = Finset.Ico (N - m) (N - c) := by
    ext i
    rw [Finset.mem_filter, Finset.mem_range, Finset.mem_Ico]
    constructor
    · rintro ⟨h1, h2, h3⟩
      have := (hup i h1).not.mp (not_lt.mpr h3)
      omega
    · rintro ⟨h1, h2⟩
      have h3 : i < N := by omega
      refine ⟨h3, by omega, not_lt.mp ((hup i h3).not.mpr (by omega))⟩
  have e2 : ((Finset.range m).filter fun j => c < j + 1) = Finset.Ico c m := by
    ext j
    rw [Finset.mem_filter, Finset.mem_range, Finset.mem_Ico]
    omega
  have hcN : c ≤ N := by
    rw [hc]
    exact (Finset.card_filter_le _ _).trans (by simp)
  rw [e1, e2, Nat.card_Ico, Nat.card_Ico]
  omega

/-- Counting the levels whose window of length `s` to the right holds fewer than `m` levels. -/
theorem spacing_count (l : List ℝ) (hl : l.Pairwise (· < ·)) (n s : ℝ) (hn : ∀ z ∈ l, z ≤ n) (m : Nat) (hm : 0 < m) (hN : m ≤ l.length) :
    l.countP (fun w => decide (w ≤ n - s ∧ l.countP (fun z => decide (w < z ∧ z ≤ w + s)) < m)) =
      (nbr m l).countP (fun d => decide (s < d)) + ((Finset.range m).filter fun j => l.countP (fun z => decide (n - s < z)) < j + 1).card := by
  set N := l.length with hNd
  set v : Nat → ℝ := fun i => l.getD i 0 with hv
  have hmono : ∀ i j, i < j → j < N → v i < v j := by
    intro i j hij hj
    have h1 : i < l.length := by omega
    simp only [hv, List.getD_eq_getElem _ _ h1, List.getD_eq_getElem _ _ hj]
    exact List.pairwise_iff_getElem.mp hl i j h1 hj hij
  have hvn : ∀ i, i < N → v i ≤ n := by
    intro i hi
    simp only [hv, List.getD_eq_getElem _ _ hi]
    exact hn _ (List.getElem_mem hi)
  rw [countP_getD l fun w => w ≤ n - s ∧ l.countP (fun z => decide (w < z ∧ z ≤ w + s)) < m]
  have hw : ∀ w, l.countP (fun z => decide (w < z ∧ z ≤ w + s)) = ((Finset.range N).filter fun j => w < v j ∧ v j ≤ w + s).card := fun w => countP_getD l fun z => w < z ∧ z ≤ w + s
  have ht : l.countP (fun z => decide (n - s < z)) = ((Finset.range N).filter fun j => n - s < v j).card := countP_getD l fun z => n - s < z
  simp only [hw, ht]
  rw [← tail_count N m hN v hmono, nbr, List.countP_map]
  have e : (List.range (N - m)).countP ((fun d => decide (s < d)) ∘ fun (i : Nat) => l.getD (i + m) 0 - l.getD i 0) = ((Finset.range (N - m)).filter fun i => s < v (i + m) - v i).card :=
    countP_range (N - m) fun i => s < v (i + m) - v i
  rw [← hNd, e]
  rw [← Finset.card_union_of_disjoint]
  · congr 1
    ext i
    simp only [Finset.mem_union, Finset.mem_filter, Finset.mem_range]
    constructor
    · rintro ⟨h1, h2, h3⟩
      rw [window_count N m v hmono s i h1] at h3
      by_cases h : N ≤ i + m
      · exact Or.inr ⟨h1, h, h2⟩
      · refine Or.inl ⟨by omega, ?_⟩
        have := h3.2.resolve_left h
        linarith
    · rintro (⟨h1, h2⟩ | ⟨h1, h2, h3⟩)
      · have h4 : i < N := by omega
        have h5 := hvn (i + m) (by omega)
        refine ⟨h4, by show v i ≤ n - s; linarith, (window_count N m v hmono s i h4).mpr ⟨hm, Or.inr (by linarith)⟩⟩
      · exact ⟨h1, h3, (window_count N m v hmono s i h1).mpr ⟨hm, Or.inl h2⟩⟩
  · rw [Finset.disjoint_left]
    intro i h1 h2
    simp only [Finset.mem_filter, Finset.mem_range] at h1 h2
    omega

/-- The number of levels with index in `S` that lie in `W`. -/
noncomputable def cnt (Y : Nat → Ω → ℝ) (S : Finset Nat) (W : Set ℝ) (ω : Ω) : Nat :=
  open Classical in ∑ k ∈ S, if Y k ω ∈ W then 1 else 0

theorem cnt_measurable {Y : Nat → Ω → ℝ} (hY : ∀ k, Measurable (Y k)) (S : Finset Nat) {W : Set ℝ} (hW : MeasurableSet W) : Measurable (cnt Y S W) := by
  classical
  unfold cnt
  exact Finset.measurable_sum _ fun k _ => Measurable.ite (hY k hW) measurable_const measurable_const

/-- The probability that a sum of `N` independent indicators of probability `p` is less than `m`. -/
noncomputable def below (p : ℝ) : Nat → Nat → ℝ
  | _, 0 => 0
  | 0, _ + 1 => 1
  | N + 1, m + 1 => (1 - p) * below p N (m + 1) + p * below p N m

theorem below_zero (p : ℝ) (N : Nat) : below p N 0 = 0 := by cases N <;> rfl

theorem below_one (p : ℝ) (N : Nat) : below p N 1 = (1 - p) ^ N := by
  induction N with
  | zero => simp [below]
  | succ N ih => simp only [below, below_zero]; rw [ih]; ring

theorem below_two (p : ℝ) (N : Nat) : below p (N + 1) 2 = (1 - p) ^ (N + 1) + (N + 1) * p * (1 - p) ^ N := by
  induction N with
  | zero => simp [below]
  | succ N ih =>
    rw [below, ih, below_one]
    push_cast
    ring

theorem cnt_below {P : Measure Ω} [IsProbabilityMeasure P] {Y : Nat → Ω → ℝ} (hm : ∀ k, Measurable (Y k)) (hi : iIndepFun Y P) {W : Set ℝ} (hW : MeasurableSet W) (p : ℝ)
    (hp : ∀ k, P.real {ω | Y k ω ∈ W} = p) (S : Finset Nat) : ∀ m, P.real {ω | cnt Y S W ω < m} = below p S.card m := by
  classical
  induction S using Finset.induction_on with
  | empty =>
    intro m
    cases m with
    | zero => simp [below]
    | succ m => simp [cnt, below]
  | insert k S hk ih =>
    intro m
    cases m with
    | zero => simp [below]
    | succ m =>
      rw [Finset.card_insert_of_notMem hk, below, ← ih (m + 1), ← ih m]
      have hind : IndepFun (cnt Y S W) (fun ω => if Y k ω ∈ W then 1 else (0 : ℕ)) P := by
        have h := (hi.comp (fun _ x => if x ∈ W then 1 else (0 : ℕ)) fun _ => Measurable.ite hW measurable_const measurable_const).indepFun_finsetSum_of_notMem
          (fun j => (Measurable.ite hW measurable_const measurable_const).comp (hm j)) hk
        have e : cnt Y S W = ∑ j ∈ S, (fun x => if x ∈ W then 1 else (0 : ℕ)) ∘ Y j := by
          funext ω
          simp [cnt]
        rw [e]
        exact h
      have e : {ω | cnt Y (insert k S) W ω < m + 1} = ({ω | cnt Y S W ω < m + 1} ∩ {ω | Y k ω ∈ W}ᶜ) ∪ ({ω | cnt Y S W ω < m} ∩ {ω | Y k ω ∈ W}) := by
        ext ω
        simp only [cnt, Finset.sum_insert hk, mem_ofPred_eq, mem_union, mem_inter_iff, mem_compl_iff]
        by_cases h : Y k ω ∈ W <;> (simp [h]; try omega)
      have hA : MeasurableSet {ω | Y k ω ∈ W} := hm k hW
      have hc : ∀ j, MeasurableSet {ω | cnt Y S W ω < j} := fun j => cnt_measurable hm S hW measurableSet_Iio
      have h1 := hind.measure_inter_preimage_eq_mul (Iio (m + 1)) {0} measurableSet_Iio (measurableSet_singleton _)
      have h2 := hind.measure_inter_preimage_eq_mul (Iio m) {1} measurableSet_Iio (measurableSet_singleton _)
      have e0 : (fun ω => if Y k ω ∈ W then 1 else (0 : ℕ)) ⁻¹' {0} = {ω | Y k ω ∈ W}ᶜ := by
        ext ω; by_cases h : Y k ω ∈ W <;> simp [h]
      have e1 : (fun ω => if Y k ω ∈ W then 1 else (0 : ℕ)) ⁻¹' {1} = {ω | Y k ω ∈ W} := by
        ext ω; by_cases h : Y k ω ∈ W <;> simp [h]
      rw [e0] at h1
      rw [e1] at h2
      rw [e, measureReal_union (disjoint_left.mpr fun ω h h' => h.2 h'.2) ((hc m).inter hA)]
      have h1' : P.real ({ω | cnt Y S W ω < m + 1} ∩ {ω | Y k ω ∈ W}ᶜ) = P.real {ω | cnt Y S W ω < m + 1} * P.real {ω | Y k ω ∈ W}ᶜ := by
        rw [measureReal_def, measureReal_def, measureReal_def, ← ENNReal.toReal_mul]
        exact congrArg ENNReal.toReal h1
      have h2' : P.real ({ω | cnt Y S W ω < m} ∩ {ω | Y k ω ∈ W}) = P.real {ω | cnt Y S W ω < m} * P.real {ω | Y k ω ∈ W} := by
        rw [measureReal_def, measureReal_def, measureReal_def, ← ENNReal.toReal_mul]
        exact congrArg ENNReal.toReal h2
      rw [h1', h2', probReal_compl_eq_one_sub hA, hp]
      ring

theorem level_prob {P : Measure Ω} {n : ℝ} (hn : 0 < n) {Y : Nat → Ω → ℝ} (hY : UniformLevels P n Y) (k : Nat) (x y : ℝ) (h0 : 0 ≤ x) (hxy : x ≤ y) (hy : y ≤ n) :
    P.real {ω | Y k ω ∈ Ioc x y} = (y - x) / n := by
  have : P {ω | Y k ω ∈ Ioc x y} = (P.map (Y k)) (Ioc x y) := (Measure.map_apply (hY.measurable k) measurableSet_Ioc).symm
  rw [measureReal_def, this, hY.law, Measure.smul_apply, Measure.restrict_apply measurableSet_Ioc, inter_eq_left.mpr (Ioc_subset_Ioc h0 hy), volume_Ioc, smul_eq_mul, ENNReal.toReal_mul,
    ENNReal.toReal_ofReal (by positivity), ENNReal.toReal_ofReal (by linarith)]
  ring

/-- The probability that level `k` is at most `n - s` and that fewer than `m` of the levels in `S` lie within `s` above it. -/
theorem window_prob {P : Measure Ω} [IsProbabilityMeasure P] {n : ℝ} (hn : 0 < n) {Y : Nat → Ω → ℝ} (hY : UniformLevels P n Y) (k : Nat) (S : Finset Nat) (hk : k ∉ S) (s : ℝ) (hs : 0 ≤ s) (hsn : s ≤ n) (m : Nat) :
    P.real {ω | Y k ω ≤ n - s ∧ cnt Y S (Ioc (Y k ω) (Y k ω + s)) ω < m} = (1 - s / n) * below (s / n) S.card m := by
  classical
  have hind := hY.indep.indepFun_finset {k} S (by simpa using hk) hY.measurable
  have hZ : Measurable fun ω (j : S) => Y j ω := measurable_pi_lambda _ fun j => hY.measurable j
  have hind2 : IndepFun (Y k) (fun ω (j : S) => Y j ω) P :=
    hind.comp (φ := fun f : ({k} : Finset Nat) → ℝ => f ⟨k, Finset.mem_singleton_self k⟩) (ψ := id) (measurable_pi_apply _) measurable_id
  have hlaw := (indepFun_iff_map_prod_eq_prod_map_map (hY.measurable k).aemeasurable hZ.aemeasurable).mp hind2
  set A : Set (ℝ × (S → ℝ)) := {q | q.1 ≤ n - s ∧ (∑ j : S, if q.1 < q.2 j ∧ q.2 j ≤ q.1 + s then 1 else 0) < m} with hA
  have hAm : MeasurableSet A := by
    refine (measurableSet_le measurable_fst measurable_const).inter ?_
    have : Measurable fun q : ℝ × (S → ℝ) => ∑ j : S, if q.1 < q.2 j ∧ q.2 j ≤ q.1 + s then 1 else 0 := by
      refine Finset.measurable_sum _ fun j _ => Measurable.ite ?_ measurable_const measurable_const
      have hj : Measurable fun q : ℝ × (S → ℝ) => q.2 j := (measurable_pi_apply j).comp measurable_snd
      exact (measurableSet_lt measurable_fst hj).inter (measurableSet_le hj (measurable_fst.add_const s))
    exact this measurableSet_Iio
  have hc : ∀ y ω, cnt Y S (Ioc y (y + s)) ω = ∑ j : S, if y < Y j ω ∧ Y j ω ≤ y + s then 1 else 0 := by
    intro y ω
    rw [cnt, ← Finset.sum_coe_sort]
    refine Finset.sum_congr rfl fun j _ => ?_
    simp only [mem_Ioc]
  have e1 : {ω | Y k ω ≤ n - s ∧ cnt Y S (Ioc (Y k ω) (Y k ω + s)) ω < m} = (fun ω => (Y k ω, fun j : S => Y j ω)) ⁻¹' A := by
    ext ω
    simp only [mem_ofPred_eq, mem_preimage, hA, hc]
  have hpm : IsProbabilityMeasure (P.map fun ω (j : S) => Y j ω) := Measure.isProbabilityMeasure_map hZ.aemeasurable
  rw [measureReal_def, e1, ← Measure.map_apply ((hY.measurable k).prodMk hZ) hAm, hlaw, Measure.prod_apply hAm, hY.law, lintegral_smul_measure]
  have hsec : ∀ y ∈ Ioc (0 : ℝ) n, (P.map fun ω (j : S) => Y j ω) (Prod.mk y ⁻¹' A) = (Iic (n - s)).indicator (fun _ => ENNReal.ofReal (below (s / n) S.card m)) y := by
    intro y hy
    by_cases h : y ≤ n - s
    · rw [indicator_of_mem (by exact h), Measure.map_apply hZ (measurable_prodMk_left hAm)]
      have e2 : (fun ω (j : S) => Y j ω) ⁻¹' (Prod.mk y ⁻¹' A) = {ω | cnt Y S (Ioc y (y + s)) ω < m} := by
        ext ω
        simp only [mem_ofPred_eq, mem_preimage, hA, hc, h, true_and]
      have hp : ∀ j, P.real {ω | Y j ω ∈ Ioc y (y + s)} = s / n := fun j => by
        rw [level_prob hn hY j y (y + s) hy.1.le (by linarith) (by linarith)]
        ring
      rw [e2, ← cnt_below hY.measurable hY.indep measurableSet_Ioc (s / n) hp S m, ofReal_measureReal]
    · rw [indicator_of_notMem (by exact h)]
      have : Prod.mk y ⁻¹' A = ∅ := by
        ext q
        simp [hA, h]
      rw [this, measure_empty]
  rw [setLIntegral_congr_fun measurableSet_Ioc hsec, lintegral_indicator measurableSet_Iic, Measure.restrict_restrict measurableSet_Iic, lintegral_const, Measure.restrict_apply_univ]
  have e3 : Iic (n - s) ∩ Ioc 0 n = Ioc 0 (n - s) := by
    ext y
    simp only [mem_inter_iff, mem_Iic, mem_Ioc]
    constructor
    · rintro ⟨h1, h2, -⟩; exact ⟨h2, h1⟩
    · rintro ⟨h1, h2⟩; exact ⟨h2, h1, by linarith⟩
  have hb : 0 ≤ below (s / n) S.card m := by
    have hp : ∀ j, P.real {ω | Y j ω ∈ Ioc 0 s} = s / n := fun j => by
      rw [level_prob hn hY j 0 s le_rfl hs hsn, sub_zero]
    rw [← cnt_below hY.measurable hY.indep measurableSet_Ioc (s / n) hp S m]
    exact measureReal_nonneg
  rw [e3, volume_Ioc, smul_eq_mul, ENNReal.toReal_mul, ENNReal.toReal_mul, ENNReal.toReal_ofReal (by positivity), ENNReal.toReal_ofReal hb, ENNReal.toReal_ofReal (by linarith)]
  field_simp
  ring

theorem levels_distinct {P : Measure Ω} [IsProbabilityMeasure P] {n : ℝ} {Y : Nat → Ω → ℝ} (hY : UniformLevels P n Y) : ∀ᵐ ω ∂P, (∀ k, Y k ω ∈ Ioc 0 n) ∧ ∀ j k, j < k → Y j ω ≠ Y k ω := by
  refine Filter.Eventually.and ?_ ?_
  · rw [ae_all_iff]
    intro k
    have h : ∀ᵐ y ∂(P.map (Y k)), y ∈ Ioc 0 n := by
      rw [hY.law]
      exact Measure.ae_smul_measure (ae_restrict_mem measurableSet_Ioc) _
    exact ae_of_ae_map (hY.measurable k).aemeasurable h
  · rw [ae_all_iff]
    intro j
    rw [ae_all_iff]
    intro k
    by_cases hjk : j < k
    · simp only [hjk, true_imp_iff]
      have hlaw := (indepFun_iff_map_prod_eq_prod_map_map (hY.measurable j).aemeasurable (hY.measurable k).aemeasurable).mp (hY.indep.indepFun hjk.ne)
      have hpm : ∀ k, IsProbabilityMeasure (P.map (Y k)) := fun k => Measure.isProbabilityMeasure_map (hY.measurable k).aemeasurable
      have hd : MeasurableSet {q : ℝ × ℝ | q.1 = q.2} := measurableSet_eq_fun measurable_fst measurable_snd
      have h0 : (P.map fun ω => (Y j ω, Y k ω)) {q : ℝ × ℝ | q.1 = q.2} = 0 := by
        rw [hlaw, Measure.prod_apply hd, lintegral_eq_zero_iff (measurable_measure_prodMk_left hd)]
        refine Filter.Eventually.of_forall fun x => ?_
        have : Prod.mk x ⁻¹' {q : ℝ × ℝ | q.1 = q.2} = {x} := by ext y; simp [eq_comm]
        show (P.map (Y k)) (Prod.mk x ⁻¹' {q : ℝ × ℝ | q.1 = q.2}) = 0
        rw [this, hY.law]
        simp
      rw [Measure.map_apply ((hY.measurable j).prodMk (hY.measurable k)) hd] at h0
      exact measure_eq_zero_iff_ae_notMem.mp h0
    · exact Filter.Eventually.of_forall fun ω h => absurd h hjk

theorem integral_card {P : Measure Ω} [IsProbabilityMeasure P] (S : Finset Nat) (E : Nat → Ω → Prop) [∀ ω, DecidablePred fun k => E k ω] (hE : ∀ k, MeasurableSet {ω | E k ω}) :
    Integrable (fun ω => ((S.filter fun k => E k ω).card : ℝ)) P ∧ ∫ ω, ((S.filter fun k => E k ω).card : ℝ) ∂P = ∑ k ∈ S, P.real {ω | E k ω} := by
  have e : ∀ ω, ((S.filter fun k => E k ω).card : ℝ) = ∑ k ∈ S, {ω | E k ω}.indicator (1 : Ω → ℝ) ω := by
    intro ω
    rw [Finset.card_filter]
    push_cast
    refine Finset.sum_congr rfl fun k _ => ?_
    simp [indicator]
  have hi : ∀ k, Integrable ({ω | E k ω}.indicator (1 : Ω → ℝ)) P := fun k => (integrable_const (1 : ℝ)).indicator (hE k)
  simp only [e]
  refine ⟨integrable_finsetSum _ fun k _ => hi k, ?_⟩
  rw [integral_finsetSum _ fun k _ => hi k]
  exact Finset.sum_congr rfl fun k _ => integral_indicator_one (hE k)

/-- The expected number of `m`-th neighbour spacings above `s`. -/
theorem mean_spacings {P : Measure Ω} [IsProbabilityMeasure P] {N : Nat} {n : ℝ} (hn : 0 < n) {Y : Nat → Ω → ℝ} (hY : UniformLevels P n Y) (l : Ω → List ℝ)
    (hl : ∀ ω, Ascending (l ω) ∧ (l ω).Perm ((List.range N).map fun k => Y k ω)) (m : Nat) (hm : 0 < m) (hN : m ≤ N) (s : ℝ) (hs : 0 ≤ s) (hsn : s ≤ n) :
    ∫ ω, ((nbr m (l ω)).countP (fun d => decide (s < d)) : ℝ) ∂P = N * ((1 - s / n) * below (s / n) (N - 1) m) - ∑ j ∈ Finset.range m, below (s / n) N (j + 1) := by
  classical
  have hcl : ∀ ω (p : ℝ → Prop) [DecidablePred p], (l ω).countP (fun z => decide (p z)) = ((Finset.range N).filter fun k => p (Y k ω)).card := by
    intro ω p _
    rw [(hl ω).2.countP_eq, List.countP_map]
    exact countP_range N fun k => p (Y k ω)
  have hcnt : ∀ ω (W : Set ℝ) (p : ℝ → Prop) [DecidablePred p], (∀ z, z ∈ W ↔ p z) → ((Finset.range N).filter fun k => p (Y k ω)).card = cnt Y (Finset.range N) W ω := by
    intro ω W p _ h
    rw [Finset.card_filter, cnt]
    exact Finset.sum_congr rfl fun k _ => by simp only [h]
  -- the two events
  set E : Nat → Ω → Prop := fun k ω => Y k ω ≤ n - s ∧ cnt Y ((Finset.range N).erase k) (Ioc (Y k ω) (Y k ω + s)) ω < m with hE
  set F : Nat → Ω → Prop := fun j ω => cnt Y (Finset.range N) (Ioc (n - s) n) ω < j + 1 with hF
  have hae : ∀ᵐ ω ∂P, ((nbr m (l ω)).countP (fun d => decide (s < d)) : ℝ) = (((Finset.range N).filter fun k => E k ω).card : ℝ) - (((Finset.range m).filter fun j => F j ω).card : ℝ) := by
    filter_upwards [levels_distinct hY] with ω hω
    have hst : (l ω).Pairwise (· < ·) := by
      have hnd : (l ω).Nodup := by
        rw [(hl ω).2.nodup_iff]
        refine List.Nodup.map_on ?_ List.nodup_range
        intro x _ y _ hxy
        by_contra hne
        rcases Nat.lt_or_gt_of_ne hne with h | h
        · exact hω.2 x y h hxy
        · exact hω.2 y x h hxy.symm
      exact ((hl ω).1.and hnd).imp fun h => lt_of_le_of_ne h.1 h.2
    have hb : ∀ z ∈ l ω, z ≤ n := by
      intro z hz
      rw [(hl ω).2.mem_iff, List.mem_map] at hz
      obtain ⟨k, -, rfl⟩ := hz
      exact (hω.1 k).2
    have hlen : (l ω).length = N := by rw [(hl ω).2.length_eq]; simp
    have key := spacing_count (l ω) hst n s hb m hm (by rw [hlen]; exact hN)
    have k1 : (l ω).countP (fun w => decide (w ≤ n - s ∧ (l ω).countP (fun z => decide (w < z ∧ z ≤ w + s)) < m)) = ((Finset.range N).filter fun k => E k ω).card := by
      rw [hcl ω fun w => w ≤ n - s ∧ (l ω).countP (fun z => decide (w < z ∧ z ≤ w + s)) < m]
      congr 1
      refine Finset.filter_congr fun k hk => ?_
      rw [hcl ω fun z => Y k ω < z ∧ z ≤ Y k ω + s, hcnt ω (Ioc (Y k ω) (Y k ω + s)) (fun z => Y k ω < z ∧ z ≤ Y k ω + s) fun z => Iff.rfl]
      have : cnt Y (Finset.range N) (Ioc (Y k ω) (Y k ω + s)) ω = cnt Y ((Finset.range N).erase k) (Ioc (Y k ω) (Y k ω + s)) ω := by
        unfold cnt
        rw [← Finset.add_sum_erase _ _ hk]
        simp
      rw [this]
    have k2 : ((Finset.range m).filter fun j => (l ω).countP (fun z => decide (n - s < z)) < j + 1).card = ((Finset.range m).filter fun j => F j ω).card := by
      congr 1
      refine Finset.filter_congr fun j _ => ?_
      rw [hcl ω fun z => n - s < z]
      have : ((Finset.range N).filter fun k => n - s < Y k ω).card = cnt Y (Finset.range N) (Ioc (n - s) n) ω := by
        rw [Finset.card_filter, cnt]
        exact Finset.sum_congr rfl fun k _ => by simp only [mem_Ioc, (hω.1 k).2, and_true]
      rw [this]
    rw [k1, k2] at key
    rw [key]
    push_cast
    ring
  have hEm : ∀ k, MeasurableSet {ω | E k ω} := by
    intro k
    refine (measurableSet_le (hY.measurable k) measurable_const).inter ?_
    have : Measurable fun ω => cnt Y ((Finset.range N).erase k) (Ioc (Y k ω) (Y k ω + s)) ω := by
      unfold cnt
      refine Finset.measurable_sum _ fun j _ => Measurable.ite ?_ measurable_const measurable_const
      exact (measurableSet_lt (hY.measurable k) (hY.measurable j)).inter (measurableSet_le (hY.measurable j) ((hY.measurable k).add_const s))
    exact this measurableSet_Iio
  have hFm : ∀ j, MeasurableSet {ω | F j ω} := fun j => cnt_measurable hY.measurable _ measurableSet_Ioc measurableSet_Iio
  have i1 := integral_card (P := P) (Finset.range N) E hEm
  have i2 := integral_card (P := P) (Finset.range m) F hFm
  rw [integral_congr_ae hae, integral_sub i1.1 i2.1, i1.2, i2.2]
  congr 1
  · have : ∀ k ∈ Finset.range N, P.real {ω | E k ω} = (1 - s / n) * below (s / n) (N - 1) m := by
      intro k hk
      rw [window_prob hn hY k _ (Finset.notMem_erase k _) s hs hsn m, Finset.card_erase_of_mem hk, Finset.card_range]
    rw [Finset.sum_congr rfl this, Finset.sum_const, Finset.card_range, nsmul_eq_mul]
  · refine Finset.sum_congr rfl fun j _ => ?_
    have hp : ∀ k, P.real {ω | Y k ω ∈ Ioc (n - s) n} = s / n := fun k => by
      rw [level_prob hn hY k (n - s) n (by linarith) (by linarith) le_rfl]
      ring
    have := cnt_below hY.measurable hY.indep measurableSet_Ioc (s / n) hp (Finset.range N) (j + 1)
    rw [Finset.card_range] at this
    exact this

theorem mean_spacings_one {P : Measure Ω} [IsProbabilityMeasure P] {N : Nat} {n : ℝ} (hn : 0 < n) {Y : Nat → Ω → ℝ} (hY : UniformLevels P n Y) (l : Ω → List ℝ)
    (hl : ∀ ω, Ascending (l ω) ∧ (l ω).Perm ((List.range N).map fun k => Y k ω)) (hN : 1 ≤ N) (s : ℝ) (hs : 0 ≤ s) (hsn : s ≤ n) :
    ∫ ω, ((nbr 1 (l ω)).countP (fun d => decide (s < d)) : ℝ) ∂P = (N - 1) * (1 - s / n) ^ N := by
  rw [mean_spacings hn hY l hl 1 one_pos hN s hs hsn]
  obtain ⟨M, rfl⟩ : ∃ M, N = M + 1 := ⟨N - 1, by omega⟩
  simp only [below_one, Finset.sum_range_one, zero_add, Nat.add_sub_cancel]
  push_cast
  ring

theorem mean_spacings_two {P : Measure Ω} [IsProbabilityMeasure P] {N : Nat} {n : ℝ} (hn : 0 < n) {Y : Nat → Ω → ℝ} (hY : UniformLevels P n Y) (l : Ω → List ℝ)
    (hl : ∀ ω, Ascending (l ω) ∧ (l ω).Perm ((List.range N).map fun k => Y k ω)) (hN : 2 ≤ N) (s : ℝ) (hs : 0 ≤ s) (hsn : s ≤ n) :
    ∫ ω, ((nbr 2 (l ω)).countP (fun d => decide (s < d)) : ℝ) ∂P = (N - 2) * ((1 - s / n) ^ N + N * (s / n) * (1 - s / n) ^ (N - 1)) := by
  rw [mean_spacings hn hY l hl 2 two_pos hN s hs hsn]
  obtain ⟨M, rfl⟩ : ∃ M, N = M + 2 := ⟨N - 2, by omega⟩
  have h1 : M + 2 - 1 = M + 1 := by omega
  rw [h1, Finset.sum_range_succ, Finset.sum_range_one, zero_add, below_one, below_two, show 1 + 1 = 2 from rfl, below_two]
  push_cast
  ring

end UniformM
end RMT
