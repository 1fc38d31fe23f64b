import Verif.Props.SpacingMeans
import Verif.Props.BrodyMle

/-!
# C179: the 'mle' Brody fit of generated Poisson spectra

The criterion is the sum of the Brody densities at the spacings. Under the law `e^{-s}` its mean is, by parts, `1 - ∫ e^{-s} S_b(s)` with the survival function `S_b`; all `S_b` have the integral 1 and two of
them cross once, so the mean strictly decreases with `b`. On `[1e-5, 1]` the densities are equicontinuous in `b`, uniformly in the spacing, so that the means over generated spacings converge uniformly (C156).
-/

namespace RMT
namespace BrodyC
open Real Brody Ensembles EigValsM Spec Props Filter Topology MeasureTheory ProbabilityTheory

/-- The survival function of the Brody distribution. -/
noncomputable def survival (b s : ℝ) : ℝ := exp (-brodyAlpha b * s ^ (b + 1))

theorem survival_integral (b : ℝ) (hb : 0 ≤ b) : ∫ s in Set.Ioi (0 : ℝ), survival b s = 1 := by
  have ha := brodyAlpha_pos b (by linarith)
  have h := integral_exp_neg_mul_rpow (p := b + 1) (by linarith) ha
  unfold survival
  rw [h]
  have h1 : 1 / (b + 1) + 1 = (b + 2) / (b + 1) := by field_simp; ring
  rw [h1]
  unfold brodyAlpha
  have hg : 0 < Gamma ((b + 2) / (b + 1)) := Gamma_pos_of_pos (by positivity)
  rw [← rpow_mul hg.le]
  have h2 : (b + 1) * (-1 / (b + 1)) = -1 := by field_simp
  rw [h2, rpow_neg_one]
  exact inv_mul_cancel₀ hg.ne'

theorem survival_integrable (b : ℝ) (hb : 0 ≤ b) : IntegrableOn (survival b) (Set.Ioi (0 : ℝ)) := by
  by_contra h
  have := integral_undef h
  rw [survival_integral b hb] at this
  exact one_ne_zero this

theorem exp_le_one' {s : ℝ} (hs : 0 < s) : |exp (-s)| ≤ 1 := by
  rw [abs_of_pos (exp_pos _), exp_le_one_iff]; linarith

theorem weighted_integrable {f : ℝ → ℝ} (hf : IntegrableOn f (Set.Ioi (0 : ℝ))) : IntegrableOn (fun s => exp (-s) * f s) (Set.Ioi (0 : ℝ)) := by
  refine Integrable.bdd_mul (c := 1) hf (by fun_prop) ?_
  filter_upwards [ae_restrict_mem measurableSet_Ioi] with s hs
  simpa using exp_le_one' hs

/-- The mean density under the exponential law, by parts. -/
theorem mean_parts (b : ℝ) (hb : 0 ≤ b) : ∫ s in Set.Ioi (0 : ℝ), brodyDist s b * exp (-s) = 1 - ∫ s in Set.Ioi (0 : ℝ), exp (-s) * survival b s := by
  have ha := brodyAlpha_pos b (by linarith)
  have i1 := weighted_integrable (survival_integrable b hb)
  have hd : IntegrableOn (fun s => brodyDist s b) (Set.Ioi (0 : ℝ)) := by
    by_contra h
    have := integral_undef h
    rw [brody_mass b (by linarith)] at this
    exact one_ne_zero this
  have i2 := weighted_integrable hd
  have hder : ∀ s ∈ Set.Ioi (0 : ℝ), HasDerivAt (fun s => -(exp (-s) * survival b s)) (exp (-s) * survival b s + exp (-s) * brodyDist s b) s := by
    intro s hs
    have h1 : HasDerivAt (fun s : ℝ => exp (-s)) (-exp (-s)) s := by
      simpa using ((hasDerivAt_id s).neg).exp
    have h2 : HasDerivAt (survival b) (-brodyDist s b) s := by
      have := (brodyCdf_deriv s b hs).const_sub 1
      refine this.congr_of_eventuallyEq (Eventually.of_forall fun x => ?_)
      simp [survival, brodyCdf]
    exact ((h1.mul h2).neg).congr_deriv (by ring)
  have hc : ContinuousWithinAt (fun s => -(exp (-s) * survival b s)) (Set.Ici 0) 0 := by
    apply Continuous.continuousWithinAt
    unfold survival
    have : Continuous fun s : ℝ => s ^ (b + 1) := continuous_rpow_const (by linarith)
    fun_prop
  have ht : Tendsto (fun s => -(exp (-s) * survival b s)) atTop (𝓝 0) := by
    have h1 : Tendsto (fun s : ℝ => exp (-s)) atTop (𝓝 0) := tendsto_exp_neg_atTop_nhds_zero
    refine squeeze_zero_norm' ?_ h1
    filter_upwards [eventually_gt_atTop 0] with s hs
    rw [norm_neg, norm_mul, norm_of_nonneg (exp_pos _).le, norm_of_nonneg (show 0 ≤ survival b s from (exp_pos _).le)]
    have : survival b s ≤ 1 := by
      unfold survival
      rw [exp_le_one_iff]
      have := rpow_nonneg hs.le (b + 1)
      nlinarith
    have h3 : rexp (-s) * survival b s ≤ rexp (-s) * 1 := mul_le_mul_of_nonneg_left this (exp_pos _).le
    simpa using h3
  have key := integral_Ioi_of_hasDerivAt_of_tendsto hc hder (i1.add i2) ht
  rw [integral_add i1 i2] at key
  have h0 : survival b 0 = 1 := by simp [survival, zero_rpow (by linarith : b + 1 ≠ 0)]
  rw [h0] at key
  simp only [neg_zero, exp_zero, mul_one] at key
  have e : ∫ s in Set.Ioi (0 : ℝ), brodyDist s b * exp (-s) = ∫ s in Set.Ioi (0 : ℝ), exp (-s) * brodyDist s b := by
    congr 1; funext s; ring
  rw [e]
  linarith

/-- Under the exponential law the mean Brody density strictly decreases with the parameter. -/
theorem mean_anti {b c : ℝ} (hb : 0 ≤ b) (hbc : b < c) :
    ∫ s in Set.Ioi (0 : ℝ), brodyDist s c * exp (-s) < ∫ s in Set.Ioi (0 : ℝ), brodyDist s b * exp (-s) := by
  have hc : 0 ≤ c := by linarith
  have ha := brodyAlpha_pos b (by linarith)
  have ha' := brodyAlpha_pos c (by linarith)
  rw [mean_parts b hb, mean_parts c hc]
  have i1 := weighted_integrable (survival_integrable b hb)
  have i2 := weighted_integrable (survival_integrable c hc)
  set r := brodyAlpha b / brodyAlpha c with hr
  have hr0 : 0 < r := div_pos ha ha'
  set t := r ^ (1 / (c - b)) with ht
  have ht0 : 0 < t := rpow_pos_of_pos hr0 _
  have htr : t ^ (c - b) = r := by
    rw [ht, ← rpow_mul hr0.le, one_div_mul_cancel (by linarith), rpow_one]
  -- the survival functions cross once, at `t`
  have hcmp : ∀ s, 0 < s → brodyAlpha c * s ^ (c + 1) = brodyAlpha c * s ^ (b + 1) * s ^ (c - b) := fun s hs => by
    rw [mul_assoc, ← rpow_add hs]; congr 2; ring
  have below : ∀ s, 0 < s → s < t → survival b s < survival c s := fun s hs hst => by
    unfold survival
    rw [exp_lt_exp]
    have h1 : s ^ (c - b) < r := htr ▸ rpow_lt_rpow hs.le hst (by linarith)
    have h2 := hcmp s hs
    have h3 := rpow_pos_of_pos hs (b + 1)
    have h4 : brodyAlpha c * s ^ (b + 1) * s ^ (c - b) < brodyAlpha c * s ^ (b + 1) * r := mul_lt_mul_of_pos_left h1 (mul_pos ha' h3)
    have h5 : brodyAlpha c * s ^ (b + 1) * r = brodyAlpha b * s ^ (b + 1) := by rw [hr]; field_simp
    linarith
  have above : ∀ s, t < s → survival c s < survival b s := fun s hst => by
    have hs : 0 < s := ht0.trans hst
    unfold survival
    rw [exp_lt_exp]
    have h1 : r < s ^ (c - b) := htr ▸ rpow_lt_rpow ht0.le hst (by linarith)
    have h2 := hcmp s hs
    have h3 := rpow_pos_of_pos hs (b + 1)
    have h4 : brodyAlpha c * s ^ (b + 1) * r < brodyAlpha c * s ^ (b + 1) * s ^ (c - b) := mul_lt_mul_of_pos_left h1 (mul_pos ha' h3)
    have h5 : brodyAlpha c * s ^ (b + 1) * r = brodyAlpha b * s ^ (b + 1) := by rw [hr]; field_simp
    linarith
  have j1 := survival_integrable b hb
  have j2 := survival_integrable c hc
  have hD : IntegrableOn (fun s => survival c s - survival b s) (Set.Ioi (0 : ℝ)) := j2.sub j1
  have hDw : IntegrableOn (fun s => exp (-s) * survival c s - exp (-s) * survival b s) (Set.Ioi (0 : ℝ)) := i2.sub i1
  have hW : IntegrableOn (fun s => (exp (-s) * survival c s - exp (-s) * survival b s) - exp (-t) * (survival c s - survival b s)) (Set.Ioi (0 : ℝ)) := hDw.sub (hD.const_mul _)
  have heq : ∫ s in Set.Ioi (0 : ℝ), ((exp (-s) * survival c s - exp (-s) * survival b s) - exp (-t) * (survival c s - survival b s)) =
      (∫ s in Set.Ioi (0 : ℝ), exp (-s) * survival c s) - ∫ s in Set.Ioi (0 : ℝ), exp (-s) * survival b s := by
    rw [integral_sub hDw (hD.const_mul _), integral_sub i2 i1, integral_const_mul, integral_sub j2 j1, survival_integral b hb, survival_integral c hc]
    ring
  have hfac : ∀ s, (exp (-s) * survival c s - exp (-s) * survival b s) - exp (-t) * (survival c s - survival b s) = (exp (-s) - exp (-t)) * (survival c s - survival b s) := fun s => by ring
  have hpos : ∀ s, 0 < s → s < t → 0 < (exp (-s) - exp (-t)) * (survival c s - survival b s) := fun s hs hst =>
    mul_pos (sub_pos.mpr (exp_lt_exp.mpr (by linarith))) (sub_pos.mpr (below s hs hst))
  have hnn : ∀ s, 0 < s → 0 ≤ (exp (-s) - exp (-t)) * (survival c s - survival b s) := fun s hs => by
    rcases lt_trichotomy s t with h | h | h
    · exact (hpos s hs h).le
    · simp [h]
    · exact mul_nonneg_of_nonpos_of_nonpos (sub_nonpos.mpr (exp_le_exp.mpr (by linarith))) (sub_nonpos.mpr (above s h).le)
  simp only [hfac] at heq hW
  have hgt : 0 < ∫ s in Set.Ioi (0 : ℝ), (exp (-s) - exp (-t)) * (survival c s - survival b s) := by
    rw [setIntegral_pos_iff_support_of_nonneg_ae (by filter_upwards [ae_restrict_mem measurableSet_Ioi] with s hs; exact hnn s hs) hW]
    refine lt_of_lt_of_le ?_ (measure_mono (s := Set.Ioo 0 t) fun s hs => ⟨(hpos s hs.1 hs.2).ne', hs.1⟩)
    simp [ht0]
  linarith

/-- A density extended by its value at `0` to the negative numbers. -/
noncomputable def clamped (b x : ℝ) : ℝ := brodyDist (max x 0) b

theorem clamped_continuous {b : ℝ} (hb : 0 < b) : Continuous (clamped b) := by
  unfold clamped brodyDist
  have h1 : Continuous fun x : ℝ => (max x 0) ^ b := (continuous_rpow_const hb.le).comp (continuous_id.max continuous_const)
  have h2 : Continuous fun x : ℝ => (max x 0) ^ (b + 1) := (continuous_rpow_const (by linarith)).comp (continuous_id.max continuous_const)
  fun_prop

theorem clamped_bound {b : ℝ} (hb : b ∈ Set.Icc (0 : ℝ) 1) (hb0 : 0 < b) (x : ℝ) : |clamped b x| ≤ 6 := by
  unfold clamped
  rcases le_or_gt x 0 with hx | hx
  · rw [max_eq_right hx, brodyDist, zero_rpow hb0.ne']
    norm_num
  · rw [max_eq_left hx.le]
    obtain ⟨h1, h2⟩ := dens_bound hb hx
    rw [abs_of_pos h1]
    have : exp (-(x / 4)) ≤ 1 := by rw [exp_le_one_iff]; linarith
    linarith

/-- Near `0` the densities with parameter at least `a` are small. -/
theorem dens_small {a b x : ℝ} (ha : 0 < a) (hab : a ≤ b) (hb1 : b ≤ 1) (hx : 0 < x) (hx1 : x ≤ 1) : brodyDist x b ≤ 2 * x ^ a := by
  have hb : 0 ≤ b := by linarith
  have h1 := alpha_le_one hb
  have h0 := brodyAlpha_pos b (by linarith)
  have h2 : x ^ b ≤ x ^ a := rpow_le_rpow_of_exponent_ge hx hx1 hab
  have h3 : exp (-brodyAlpha b * x ^ (b + 1)) ≤ 1 := by
    rw [exp_le_one_iff]
    have := rpow_nonneg hx.le (b + 1)
    nlinarith
  have h4 := rpow_pos_of_pos hx b
  have h5 := rpow_pos_of_pos hx a
  have h6 : (b + 1) * brodyAlpha b ≤ 2 := by nlinarith
  unfold brodyDist
  calc (b + 1) * brodyAlpha b * x ^ b * exp (-brodyAlpha b * x ^ (b + 1)) ≤ (b + 1) * brodyAlpha b * x ^ b * 1 := mul_le_mul_of_nonneg_left h3 (by positivity)
    _ = (b + 1) * brodyAlpha b * x ^ b := mul_one _
    _ ≤ 2 * x ^ a := mul_le_mul h6 h2 h4.le (by norm_num)

/-- For parameters bounded away from `0`, the Brody density depends on the parameter uniformly in the spacing. -/
theorem dens_equi {a : ℝ} (ha : 0 < a) (ε : ℝ) (hε : 0 < ε) : ∃ δ > 0, ∀ b ∈ Set.Icc a 1, ∀ c ∈ Set.Icc a 1, |b - c| ≤ δ → ∀ x, 0 < x → |brodyDist x b - brodyDist x c| ≤ ε := by
  obtain ⟨K, hK, h⟩ := dens_lip
  -- below `x0` both densities are small
  have hlim : Tendsto (fun x : ℝ => 2 * x ^ a) (𝓝[>] 0) (𝓝 0) := by
    have h1 : Tendsto (fun x : ℝ => 2 * x ^ a) (𝓝 0) (𝓝 (2 * (0 : ℝ) ^ a)) := ((continuous_rpow_const ha.le).const_mul 2).tendsto 0
    rw [zero_rpow ha.ne', mul_zero] at h1
    exact h1.mono_left nhdsWithin_le_nhds
  obtain ⟨x0, hx0, hx0s⟩ : ∃ x0 : ℝ, (0 < x0 ∧ x0 ≤ 1) ∧ 2 * x0 ^ a < ε := by
    have e1 := hlim.eventually_lt_const hε
    have e2 : ∀ᶠ x : ℝ in 𝓝[>] 0, 0 < x ∧ x ≤ 1 := by
      filter_upwards [Ioc_mem_nhdsGT (zero_lt_one (α := ℝ))] with x hx
      exact hx
    exact (e2.and e1).exists
  set M := 1 + |log x0| + 4 + 384 with hM
  have hM0 : 0 < M := by positivity
  refine ⟨ε / (K * M + 1), by positivity, fun b hb c hc hbc x hx => ?_⟩
  rcases le_or_gt x x0 with hxx | hxx
  · have small : ∀ d ∈ Set.Icc a 1, 0 < brodyDist x d ∧ brodyDist x d < ε := fun d hd => by
      refine ⟨(dens_bound ⟨by linarith [hd.1], hd.2⟩ hx).1, lt_of_le_of_lt (dens_small ha hd.1 hd.2 hx (by linarith)) ?_⟩
      have : x ^ a ≤ x0 ^ a := rpow_le_rpow hx.le hxx ha.le
      linarith
    obtain ⟨p1, p2⟩ := small b hb
    obtain ⟨q1, q2⟩ := small c hc
    rw [abs_le]; constructor <;> linarith
  · have hl := h x hx b ⟨by linarith [hb.1], hb.2⟩ c ⟨by linarith [hc.1], hc.2⟩
    have w : (1 + |log x| + x ^ 3) * exp (-(x / 4)) ≤ M := by
      have e0 := exp_pos (-(x / 4))
      have e1 : exp (-(x / 4)) ≤ 1 := by rw [exp_le_one_iff]; linarith
      have l1 : |log x| ≤ |log x0| + x := by
        have u1 := log_le_sub_one_of_pos hx
        have u2 := log_le_log hx0.1 hxx.le
        have u3 := neg_abs_le (log x0)
        have u4 := abs_nonneg (log x0)
        rw [abs_le]; constructor <;> linarith
      have f1 : x * exp (-(x / 4)) ≤ 4 := by
        have := add_one_le_exp (x / 4)
        have e : exp (x / 4) * exp (-(x / 4)) = 1 := by rw [← exp_add]; simp
        nlinarith
      have f3 : x ^ 3 * exp (-(x / 4)) ≤ 384 := by
        have := pow_div_factorial_le_exp (x / 4) (by positivity) 3
        have e : exp (x / 4) * exp (-(x / 4)) = 1 := by rw [← exp_add]; simp
        have h6 : ((3 : ℕ).factorial : ℝ) = 6 := by norm_num [Nat.factorial]
        rw [h6] at this
        have : x ^ 3 ≤ 384 * exp (x / 4) := by
          have e3 : (x / 4) ^ 3 = x ^ 3 / 64 := by ring
          rw [e3] at this
          linarith
        nlinarith
      have g1 : |log x| * exp (-(x / 4)) ≤ (|log x0| + x) * exp (-(x / 4)) := mul_le_mul_of_nonneg_right l1 e0.le
      have g2 : |log x0| * exp (-(x / 4)) ≤ |log x0| * 1 := mul_le_mul_of_nonneg_left e1 (abs_nonneg _)
      rw [hM]
      nlinarith
    have h1 : |b - c| * (K * (1 + |log x| + x ^ 3) * exp (-(x / 4))) ≤ (ε / (K * M + 1)) * (K * M) := by
      refine mul_le_mul hbc ?_ (by positivity) (by positivity)
      rw [mul_assoc]
      exact mul_le_mul_of_nonneg_left w hK
    have h2 : (ε / (K * M + 1)) * (K * M) ≤ ε := by
      rw [div_mul_eq_mul_div, div_le_iff₀ (by positivity)]
      nlinarith [mul_nonneg hK hM0.le]
    linarith

/-- The mean density under the exponential law. -/
noncomputable def expMean (b : ℝ) : ℝ := ∫ s in Set.Ioi (0 : ℝ), brodyDist s b * exp (-s)

theorem expMean_clamped (b : ℝ) : ∫ s in Set.Ioi (0 : ℝ), clamped b s * exp (-s) = expMean b :=
  setIntegral_congr_fun measurableSet_Ioi fun s hs => by
    have h0 : (0 : ℝ) ≤ s := le_of_lt (Set.mem_Ioi.mp hs)
    simp only [clamped, max_eq_left h0]

theorem exp_integral : ∫ s in Set.Ioi (0 : ℝ), exp (-s) = 1 := by
  rw [integral_exp_neg_Ioi]; simp

theorem avg_close {l : List ℝ} (hl : l ≠ []) (f g : ℝ → ℝ) (ε : ℝ) (h : ∀ x ∈ l, |f x - g x| ≤ ε) : |Spec.avg (l.map f) - Spec.avg (l.map g)| ≤ ε := by
  have hn : (0 : ℝ) < l.length := by exact_mod_cast List.length_pos_iff.mpr hl
  have hs : ∀ l : List ℝ, (∀ x ∈ l, |f x - g x| ≤ ε) → |(l.map f).sum - (l.map g).sum| ≤ l.length * ε := by
    intro l
    induction l with
    | nil => simp
    | cons a l ih =>
      intro h
      have h1 := ih fun x hx => h x (List.mem_cons_of_mem _ hx)
      have h2 := h a List.mem_cons_self
      simp only [List.map_cons, List.sum_cons, List.length_cons, Nat.cast_add, Nat.cast_one]
      rw [abs_le] at h1 h2 ⊢
      constructor <;> linarith
  simp only [Spec.avg, List.length_map]
  rw [← sub_div, abs_div, abs_of_pos hn, div_le_iff₀ hn, mul_comm]
  exact hs l h

theorem expMean_close {b c ε : ℝ} (hb : 0 ≤ b) (hc : 0 ≤ c) (h : ∀ x, 0 < x → |brodyDist x b - brodyDist x c| ≤ ε) : |expMean b - expMean c| ≤ ε := by
  have hd : ∀ b, 0 ≤ b → IntegrableOn (fun s => brodyDist s b * exp (-s)) (Set.Ioi (0 : ℝ)) := fun b hb => by
    have h0 : IntegrableOn (fun s => brodyDist s b) (Set.Ioi (0 : ℝ)) := by
      by_contra h
      have := integral_undef h
      rw [brody_mass b (by linarith)] at this
      exact one_ne_zero this
    have := weighted_integrable h0
    exact this.congr (Eventually.of_forall fun s => mul_comm _ _)
  have he : IntegrableOn (fun s : ℝ => ε * exp (-s)) (Set.Ioi (0 : ℝ)) := by
    have : IntegrableOn (fun s : ℝ => exp (-s)) (Set.Ioi (0 : ℝ)) := by
      by_contra h
      have := integral_undef h
      rw [exp_integral] at this
      exact one_ne_zero this
    exact this.const_mul ε
  unfold expMean
  rw [← integral_sub (hd b hb) (hd c hc), ← Real.norm_eq_abs]
  refine le_trans (norm_integral_le_of_norm_le (μ := volume.restrict (Set.Ioi 0)) (g := fun s : ℝ => ε * exp (-s)) he ?_) (le_of_eq ?_)
  · filter_upwards [ae_restrict_mem measurableSet_Ioi] with s hs
    have e : brodyDist s b * exp (-s) - brodyDist s c * exp (-s) = (brodyDist s b - brodyDist s c) * exp (-s) := by ring
    rw [e, norm_mul, norm_of_nonneg (exp_pos (-s)).le]
    exact mul_le_mul_of_nonneg_right (h s hs) (exp_pos _).le
  · rw [integral_const_mul ε (fun s : ℝ => exp (-s)), exp_integral, mul_one]

/-- Lists of positive numbers whose distribution function is close to the exponential one have, uniformly in the parameter, mean densities close to those of the exponential law. -/
theorem means_uniform {a : ℝ} (ha : 0 < a) (ε : ℝ) (hε : 0 < ε) :
    ∃ η : ℝ, 0 < η ∧ ∀ l : List ℝ, l ≠ [] → (∀ x ∈ l, 0 < x) → (∀ d, |(l.countP (fun x => decide (x ≤ d)) : ℝ) / l.length - poissonCdf d| ≤ η) →
      ∀ b ∈ Set.Icc a 1, |Spec.avg (l.map fun x => brodyDist x b) - expMean b| < ε := by
  obtain ⟨δ, hδ, hequi⟩ := dens_equi ha (ε / 3) (by positivity)
  -- a finite net
  obtain ⟨t, hts, htf, hcov⟩ := (isCompact_Icc (a := a) (b := 1)).finite_cover_balls hδ
  have hsel : ∀ c : ℝ, c ∈ Set.Icc a 1 → ∃ η : ℝ, 0 < η ∧ ∀ l : List ℝ, l ≠ [] → (∀ d, |(l.countP (fun x => decide (x ≤ d)) : ℝ) / l.length - poissonCdf d| ≤ η) →
      |Spec.avg (l.map (clamped c)) - ∫ s in Set.Ioi (0 : ℝ), clamped c s * exp (-s)| < ε / 3 := fun c hc =>
    list_means_close (clamped c) (clamped_continuous (by linarith [hc.1])) 6 (clamped_bound ⟨by linarith [hc.1], hc.2⟩ (by linarith [hc.1])) (ε / 3) (by positivity)
  choose! f hf1 hf2 using hsel
  obtain ⟨η, hη, hle⟩ : ∃ η : ℝ, 0 < η ∧ ∀ c ∈ t, η ≤ f c := by
    rcases t.eq_empty_or_nonempty with h0 | h0
    · exact ⟨1, one_pos, by simp [h0]⟩
    · obtain ⟨c, hc, hmin⟩ := Set.exists_min_image t f htf h0
      exact ⟨f c, hf1 c (hts hc), fun d hd => hmin d hd⟩
  refine ⟨η, hη, fun l hl hpos hcl b hb => ?_⟩
  obtain ⟨c, hc, hbc⟩ : ∃ c ∈ t, b ∈ Metric.ball c δ := by simpa using hcov hb
  have hcI := hts hc
  have hd : |b - c| ≤ δ := by rw [Metric.mem_ball, Real.dist_eq] at hbc; exact hbc.le
  have h1 := hequi b hb c hcI hd
  have h2 := hf2 c hcI l hl fun d => (hcl d).trans (hle c hc)
  rw [expMean_clamped] at h2
  have e : l.map (clamped c) = l.map fun x => brodyDist x c := List.map_congr_left fun x hx => by simp only [clamped, max_eq_left (hpos x hx).le]
  rw [e] at h2
  have h3 := avg_close hl (fun x => brodyDist x b) (fun x => brodyDist x c) (ε / 3) fun x hx => h1 x (hpos x hx)
  have h4 := expMean_close (by linarith [hb.1]) (by linarith [hcI.1]) h1
  rw [abs_lt] at h2 ⊢
  rw [abs_le] at h3 h4
  constructor <;> linarith

end BrodyC

namespace Props
open Gen EigValsM EigM Unfold MeasureTheory ProbabilityTheory Spec UniformM Ensembles Brody BrodyC
open Real Filter
open scoped Topology

variable {σ Ω : Type} [MeasurableSpace Ω]

/-- **C179 (the limiting criterion).** Over spacings with the Poisson law `e^{-s}` the mean Brody density, whose maximiser the sums of densities approach, strictly decreases in the parameter. -/
theorem C179_mean : StrictAntiOn (fun b => ∫ s in Set.Ioi (0 : ℝ), brodyDist s b * poissonDensity s) (Set.Ici 0) := fun b hb c _ hbc => by
  simpa [poissonDensity] using mean_anti (Set.mem_Ici.mp hb) hbc

omit [MeasurableSpace Ω] in
theorem mle_spec_avg (l : List ℝ) (hl : l ≠ []) (b : ℝ) : mleObjective l b = -(l.length * Spec.avg (l.map fun x => brodyDist x b)) := by
  have hn : (l.length : ℝ) ≠ 0 := by exact_mod_cast (List.length_pos_iff.mpr hl).ne'
  unfold mleObjective Spec.avg
  rw [List.length_map, mul_div_cancel₀ _ hn]

/-- The criterion for lists with a distribution function close to the exponential one: near-minimisers are near the lower bound. -/
theorem mle_near (δ : ℝ) (hδ : 0 < δ) : ∃ η : ℝ, 0 < η ∧ ∀ l : List ℝ, l ≠ [] → (∀ x ∈ l, 0 < x) →
    (∀ d, |(l.countP (fun x => decide (x ≤ d)) : ℝ) / l.length - poissonCdf d| ≤ η) → ∀ b, MinimisesInBounds (mleObjective l) b → |b - 1e-5| < δ := by
  have h1 : (0 : ℝ) < 1e-5 := by norm_num
  set c : ℝ := 1e-5 + δ with hc
  set ε := expMean 1e-5 - expMean c with hε
  have hε0 : 0 < ε := sub_pos.mpr (mean_anti h1.le (by linarith))
  obtain ⟨η, hη, h⟩ := means_uniform h1 (ε / 2) (by positivity)
  refine ⟨η, hη, fun l hl hp hcl b hb => ?_⟩
  obtain ⟨m1, m2⟩ := hb
  have hlo : (1e-5 : ℝ) ∈ Set.Icc (1e-5 : ℝ) (1 - 1e-5) := ⟨le_rfl, by norm_num⟩
  have hsub : ∀ b ∈ Set.Icc (1e-5 : ℝ) (1 - 1e-5), b ∈ Set.Icc (1e-5 : ℝ) 1 := fun b hb => ⟨hb.1, by linarith [hb.2]⟩
  rw [abs_of_nonneg (by linarith [m1.1])]
  by_contra hcon
  push Not at hcon
  have hcb : c ≤ b := by linarith
  have hm : expMean b ≤ expMean c := by
    rcases hcb.lt_or_eq with h2 | h2
    · exact (mean_anti (by rw [hc]; positivity) h2).le
    · rw [h2]
  have k1 := abs_lt.mp (h l hl hp hcl b (hsub b m1))
  have k2 := abs_lt.mp (h l hl hp hcl _ (hsub _ hlo))
  have k3 := m2 _ hlo
  rw [mle_spec_avg l hl, mle_spec_avg l hl, neg_le_neg_iff] at k3
  have hn : (0 : ℝ) < l.length := by exact_mod_cast List.length_pos_iff.mpr hl
  have k4 := le_of_mul_le_mul_left k3 hn
  linarith [k1.1, k1.2, k2.1, k2.2]

/-- **C179 (what is reported).** The parameter reported by `Unfolded.fit_brody(method='mle')` with an exact optimiser, for one spectrum of `generate(n, "poisson")` unfolded exactly, tends in probability to the
lower bound `1e-5` of the fit; and with probability tending to 1 there is a minimiser to find. -/
theorem C179_report (R : Rng σ) (eh : EigSolver) (ehC : (n : Nat) → Matrix (Fin n) (Fin n) ℂ → List ℝ) (P : ℕ → Measure Ω) [∀ n, IsProbabilityMeasure (P n)] (e s : ℕ → Ω → σ)
    (hX : ∀ n, NormalDraws (P n) fun k ω => draw R (e n ω) k) (tri : Bool) :
    ∃ vals : ℕ → Ω → List ℝ, (∀ n, GeneratedVals R eh ehC n .poisson tri (e n) (s n) (vals n)) ∧
      ∀ δ : ℝ, 0 < δ → Tendsto (fun n : ℕ => P n {ω | ¬ ((∃ b, MinimisesInBounds (mleObjective (gaps (normalUnfold n (vals n ω)))) b) ∧
        ∀ opt, ExactOptimizer opt → ∀ r, unfoldedFitBrody opt (normalUnfold n (vals n ω)) "mle" = .ok r → |r.beta - 1e-5| < δ)}) atTop (𝓝 0) := by
  obtain ⟨vals, hv, h⟩ := C168_criterion R eh ehC P e s hX tri
  have hvals : vals = fun n => poissonVals R (e n) n :=
    funext fun n => generated_unique R eh ehC n _ tri (e n) (s n) _ _ (hv n) (poissonVals_generated R eh ehC (e n) (s n) n tri)
  obtain ⟨vals', hv', hcdf⟩ := C156_spacings R eh ehC P e s hX tri
  have hvals' : vals' = fun n => poissonVals R (e n) n :=
    funext fun n => generated_unique R eh ehC n _ tri (e n) (s n) _ _ (hv' n) (poissonVals_generated R eh ehC (e n) (s n) n tri)
  rw [hvals', ← hvals] at hcdf
  refine ⟨vals, hv, fun δ hδ => ?_⟩
  obtain ⟨η, hη, hnear⟩ := mle_near δ hδ
  obtain ⟨_, _, hpos⟩ := h 1 one_pos
  have hsum := hpos.add (hcdf η hη)
  rw [add_zero] at hsum
  refine tendsto_of_tendsto_of_tendsto_of_le_of_le' tendsto_const_nhds hsum (Eventually.of_forall fun n => zero_le) ?_
  filter_upwards [eventually_ge_atTop 2] with n hn
  refine le_trans (measure_mono fun ω hω => ?_) (measure_union_le _ _)
  by_contra hcon
  rw [Set.mem_union, not_or] at hcon
  obtain ⟨c1, c2⟩ := hcon
  simp only [Set.mem_ofPred_eq, not_not, not_exists, not_le] at c1 c2
  obtain ⟨hp, -⟩ := c1
  refine hω ?_
  have hasc : Ascending (normalUnfold n (vals n ω)) := by rw [hvals]; exact (poisson_unfolded R (e n) n ω).1
  have hlen : (gaps (normalUnfold n (vals n ω))).length = n - 1 := by rw [hvals]; exact gaps_length_poisson R (e n) n ω
  have hne : gaps (normalUnfold n (vals n ω)) ≠ [] := by
    intro h0
    rw [h0, List.length_nil] at hlen
    omega
  have hcast : ((n - 1 : ℕ) : ℝ) = (n : ℝ) - 1 := by push_cast [show 1 ≤ n by omega]; ring
  refine ⟨C82_minimiser_exists _ hp, fun opt hopt r hr => ?_⟩
  have hsp : unfoldedFitBrody opt (normalUnfold n (vals n ω)) "mle" = brodyFitEvaluate opt (gaps (normalUnfold n (vals n ω))) "mle" := by
    unfold unfoldedFitBrody
    rw [npSort_of_ascending _ hasc, ← Report.gaps_eq_diff]
    congr 1
    exact List.filter_eq_self.mpr fun x hx => by simpa using hp x hx
  rw [hsp] at hr
  rcases hf : fitBrody opt (gaps (normalUnfold n (vals n ω))) "mle" with e' | b
  · simp only [brodyFitEvaluate, hf] at hr
    cases hr
  obtain ⟨r', q1, q2, -⟩ := C84_report opt _ hne "mle" b hf
  rw [hr] at q1
  cases q1
  rw [q2]
  exact hnear _ hne hp (fun d => by rw [hlen, hcast]; exact (c2 d).le) b (mle_minimises hopt hf)

/-- Non-vacuity: there are independent normal draws. (An exact optimiser that finds every minimiser is given with C167.) -/
example (eh : EigSolver) (ehC : (n : Nat) → Matrix (Fin n) (Fin n) ℂ → List ℝ) :=
  C179_report streamRng eh ehC (fun _ => Measure.infinitePi fun _ : ℕ => gaussianReal 0 1) (fun _ => id) (fun _ => id) (fun _ => stream_draws) false

/-- **C179 (samples).** For spacings drawn independently from the Poisson law, the estimates of `fit_brody(s, 'mle')` with an exact optimiser tend almost surely to the lower bound of the fit. -/
theorem C179_sample (P : Measure Ω) (X : ℕ → Ω → ℝ) (h : IsSample P X (densityLaw poissonDensity)) (δ : ℝ) (hδ : 0 < δ) : ∀ᵐ ω ∂P, ∀ᶠ n : ℕ in atTop,
    ∀ opt, ExactOptimizer opt → ∀ b, fitBrody opt ((List.range n).map fun i => X i ω) "mle" = .ok b → |b - 1e-5| < δ := by
  have hlaw : densityLaw poissonDensity = law 0 := by
    unfold law
    congr 1
    funext s
    rw [brodyDist_zero, poissonDensity]
  rw [hlaw] at h
  have h1 : (0 : ℝ) < 1e-5 := by norm_num
  have hmean : ∀ b, meanDensity (law 0) b = expMean b := fun b => by
    rw [meanDensity, exp_law_integral]
    rfl
  have hε0 : 0 < expMean 1e-5 - expMean (1e-5 + δ) := sub_pos.mpr (mean_anti h1.le (by linarith))
  filter_upwards [C169_estimates_partial P X _ h (law_spacing 0 le_rfl)] with ω hω
  filter_upwards [hω _ (half_pos hε0)] with n hn opt hopt b hb
  obtain ⟨m1, m2⟩ := hn opt hopt b hb
  have k := m2 1e-5 ⟨le_rfl, by norm_num⟩
  rw [hmean, hmean] at k
  rw [abs_of_nonneg (by linarith [m1.1])]
  by_contra hcon
  push Not at hcon
  have hcb : 1e-5 + δ ≤ b := by linarith
  have hm : expMean b ≤ expMean (1e-5 + δ) := by
    rcases hcb.lt_or_eq with h2 | h2
    · exact (mean_anti (by positivity) h2).le
    · rw [h2]
  linarith

/-- Non-vacuity: there are samples of the Poisson law. -/
example (δ : ℝ) (hδ : 0 < δ) := by
  have hL := law_spacing 0 le_rfl
  have := hL.prob
  have hlaw : densityLaw poissonDensity = law 0 := by
    unfold law
    congr 1
    funext s
    rw [brodyDist_zero, poissonDensity]
  have hs := sample_exists (law 0)
  rw [← hlaw] at hs
  exact C179_sample _ _ hs δ hδ

end Props
end RMT
