import Verif.Lemmas.SemicircleMoments
import Mathlib.Topology.ContinuousMap.Weierstrass
import Mathlib.Algebra.Polynomial.BigOperators

/-! # The moment method for laws with the moments of the semicircle -/

namespace RMT.Semi
open MeasureTheory Real Spec Filter Topology Polynomial

/-- `f` lies between polynomials whose difference has an arbitrarily small integral. -/
def Approx (f : ℝ → ℝ) : Prop := ∀ ε > 0, ∃ p q : ℝ[X], (∀ x, |f x - p.eval x| ≤ q.eval x) ∧ ∫ x, q.eval x ∂σ ≤ ε

theorem eval_bound (p : ℝ[X]) (x : ℝ) (hx : 1 ≤ |x|) : |p.eval x| ≤ (∑ i ∈ Finset.range (p.natDegree + 1), |p.coeff i|) * x ^ (2 * p.natDegree) := by
  rw [eval_eq_sum_range, Finset.sum_mul]
  refine (Finset.abs_sum_le_sum_abs _ _).trans (Finset.sum_le_sum fun i hi => ?_)
  rw [Finset.mem_range] at hi
  rw [abs_mul, abs_pow]
  refine mul_le_mul_of_nonneg_left ?_ (abs_nonneg _)
  rw [pow_mul, ← sq_abs, ← pow_mul]
  exact pow_le_pow_right₀ hx (by omega)

theorem approx_of_continuous (f : ℝ → ℝ) (hf : Continuous f) (B : ℝ) (hB : ∀ x, |f x| ≤ B) : Approx f := by
  intro ε hε
  obtain ⟨p, hp⟩ := exists_polynomial_near_of_continuousOn (-3) 3 f hf.continuousOn (ε / 2) (by positivity)
  have hB0 : 0 ≤ B := (abs_nonneg _).trans (hB 0)
  set d := p.natDegree with hd
  set K := ∑ i ∈ Finset.range (d + 1), |p.coeff i| with hK
  have hK0 : 0 ≤ K := Finset.sum_nonneg fun i _ => abs_nonneg _
  have hlim : Tendsto (fun k : ℕ => (B + K) * 4 ^ d * (4 / 9 : ℝ) ^ k) atTop (𝓝 ((B + K) * 4 ^ d * 0)) :=
    (tendsto_pow_atTop_nhds_zero_of_lt_one (by norm_num) (by norm_num)).const_mul _
  rw [mul_zero] at hlim
  obtain ⟨k, hk⟩ := (hlim.eventually (gt_mem_nhds (show (0 : ℝ) < ε / 2 by positivity))).exists
  refine ⟨p, Polynomial.C (ε / 2) + Polynomial.C ((B + K) / 9 ^ k) * Polynomial.X ^ (2 * (d + k)), fun x => ?_, ?_⟩
  · simp only [eval_add, eval_C, eval_mul, eval_pow, eval_X]
    by_cases hx : x ∈ Set.Icc (-3 : ℝ) 3
    · have h1 := hp x hx
      rw [abs_sub_comm] at h1
      have h2 : 0 ≤ (B + K) / 9 ^ k * x ^ (2 * (d + k)) := by
        rw [pow_mul]; positivity
      linarith
    · have hx3 : 3 ≤ |x| := by
        rw [Set.mem_Icc, ← abs_le, not_le] at hx
        exact hx.le
      have h1 := eval_bound p x (by linarith)
      rw [← hd, ← hK] at h1
      have h2 : |f x - p.eval x| ≤ B + K * x ^ (2 * d) := (abs_sub _ _).trans (add_le_add (hB x) h1)
      have hx2 : 9 ≤ x ^ 2 := by rw [← sq_abs]; nlinarith
      have h3 : (1 : ℝ) ≤ x ^ (2 * d) := by rw [pow_mul]; exact one_le_pow₀ (by linarith)
      have h4 : (1 : ℝ) ≤ x ^ (2 * k) / 9 ^ k := by
        rw [one_le_div (by positivity), pow_mul]
        exact pow_le_pow_left₀ (by norm_num) hx2 k
      have h5 : B + K * x ^ (2 * d) ≤ (B + K) * x ^ (2 * d) := by nlinarith
      have h6 : (B + K) * x ^ (2 * d) ≤ (B + K) * x ^ (2 * d) * (x ^ (2 * k) / 9 ^ k) := le_mul_of_one_le_right (by positivity) h4
      have h7 : (B + K) * x ^ (2 * d) * (x ^ (2 * k) / 9 ^ k) = (B + K) / 9 ^ k * x ^ (2 * (d + k)) := by
        rw [mul_add, pow_add]; ring
      linarith
  · simp only [eval_add, eval_C, eval_mul, eval_pow, eval_X]
    rw [integral_add (integrable_const _) ((integrable_σ _ (by fun_prop)).const_mul _), integral_const, integral_const_mul]
    have h1 := moment_le (d + k)
    have h2 : (B + K) / 9 ^ k * ∫ x, x ^ (2 * (d + k)) ∂σ ≤ (B + K) / 9 ^ k * 4 ^ (d + k) := mul_le_mul_of_nonneg_left h1 (by positivity)
    have h3 : (B + K) / 9 ^ k * 4 ^ (d + k) = (B + K) * 4 ^ d * (4 / 9 : ℝ) ^ k := by rw [pow_add, div_pow]; ring
    simp
    linarith

theorem poly_integrable_σ (p : ℝ[X]) : Integrable (fun x => p.eval x) σ := integrable_σ _ p.continuous

/-- Cut off to `[0, 1]`. -/
noncomputable def clamp (y : ℝ) : ℝ := max 0 (min 1 y)

theorem clamp_nonneg (y : ℝ) : 0 ≤ clamp y := le_max_left _ _
theorem clamp_le (y : ℝ) : clamp y ≤ 1 := max_le (by norm_num) (min_le_left _ _)
theorem clamp_one (y : ℝ) (h : 1 ≤ y) : clamp y = 1 := by unfold clamp; rw [min_eq_left h]; norm_num
theorem clamp_zero (y : ℝ) (h : y ≤ 0) : clamp y = 0 := by unfold clamp; rw [min_eq_right (by linarith), max_eq_left h]
theorem clamp_abs (y : ℝ) : |clamp y| ≤ 1 := by rw [abs_of_nonneg (clamp_nonneg y)]; exact clamp_le y
theorem clamp_cont {f : ℝ → ℝ} (hf : Continuous f) : Continuous fun x => clamp (f x) := by unfold clamp; fun_prop

/-- The indicator of `x ≤ a`. -/
noncomputable def ind (a x : ℝ) : ℝ := if x ≤ a then 1 else 0

theorem bump_integral (a δ : ℝ) (hδ : 0 < δ) : ∫ x, clamp (2 - |x - a| / δ) ∂σ ≤ 2 * δ := by
  have hc : Continuous fun x => clamp (2 - |x - a| / δ) := clamp_cont (by fun_prop)
  rw [σ, semicircleLaw, integral_withDensity_eq_integral_toReal_smul (by fun_prop) (by simp)]
  have h1 : ∀ x, (ENNReal.ofReal (2 * √(2 ^ 2 - x ^ 2) / (π * 2 ^ 2))).toReal • clamp (2 - |x - a| / δ) ≤ (Set.Icc (a - 2 * δ) (a + 2 * δ)).indicator (fun _ => 1 / 2) x := by
    intro x
    rw [dens_eq, ENNReal.toReal_ofReal (dens_nonneg x), smul_eq_mul]
    by_cases h : x ∈ Set.Icc (a - 2 * δ) (a + 2 * δ)
    · rw [Set.indicator_of_mem h]
      have h2 : dens x ≤ 1 / 2 := (dens_le x).trans (by
        rw [div_le_div_iff₀ pi_pos (by norm_num)]; linarith [pi_gt_three])
      nlinarith [clamp_le (2 - |x - a| / δ), clamp_nonneg (2 - |x - a| / δ), dens_nonneg x]
    · rw [Set.indicator_of_notMem h, clamp_zero, mul_zero]
      have : 2 * δ ≤ |x - a| := by
        rw [Set.mem_Icc, not_and_or, not_le, not_le] at h
        rcases h with h | h
        · rw [abs_sub_comm]; exact (by linarith : 2 * δ ≤ a - x).trans (le_abs_self _)
        · exact (by linarith : 2 * δ ≤ x - a).trans (le_abs_self _)
      have : 2 ≤ |x - a| / δ := by rwa [le_div_iff₀ hδ]
      linarith
  have hint : Integrable ((Set.Icc (a - 2 * δ) (a + 2 * δ)).indicator fun _ => (1 / 2 : ℝ)) := by
    rw [integrable_indicator_iff measurableSet_Icc]
    exact integrableOn_const (by simp)
  calc _ ≤ ∫ x, (Set.Icc (a - 2 * δ) (a + 2 * δ)).indicator (fun _ => (1 / 2 : ℝ)) x := by
        refine integral_mono_of_nonneg (Eventually.of_forall fun x => ?_) hint (Eventually.of_forall h1)
        simp only [smul_eq_mul, Pi.zero_apply]
        have := clamp_nonneg (2 - |x - a| / δ)
        positivity
    _ = 2 * δ := by
        rw [integral_indicator measurableSet_Icc, setIntegral_const, smul_eq_mul, measureReal_def, Real.volume_Icc, ENNReal.toReal_ofReal (by linarith)]
        ring

theorem approx_ind (a : ℝ) : Approx (ind a) := by
  intro ε hε
  set δ := ε / 8 with hδ
  have hδ0 : 0 < δ := by positivity
  obtain ⟨p, q, h1, h2⟩ := approx_of_continuous (fun x => clamp ((a + δ - x) / δ)) (clamp_cont (by fun_prop)) 1 (fun x => clamp_abs _) (ε / 4) (by positivity)
  obtain ⟨p', q', h1', h2'⟩ := approx_of_continuous (fun x => clamp (2 - |x - a| / δ)) (clamp_cont (by fun_prop)) 1 (fun x => clamp_abs _) (ε / 8) (by positivity)
  have hb := bump_integral a δ hδ0
  refine ⟨p, p' + q' + q, fun x => ?_, ?_⟩
  · simp only [eval_add]
    have e1 : |ind a x - clamp ((a + δ - x) / δ)| ≤ clamp (2 - |x - a| / δ) := by
      unfold ind
      split_ifs with h
      · rw [clamp_one _ (by rw [one_le_div hδ0]; linarith)]
        simpa using clamp_nonneg _
      · rw [not_le] at h
        by_cases h3 : a + δ ≤ x
        · rw [clamp_zero _ (div_nonpos_of_nonpos_of_nonneg (by linarith) hδ0.le)]
          simpa using clamp_nonneg _
        · rw [not_le] at h3
          rw [clamp_one (2 - |x - a| / δ)]
          · rw [zero_sub, abs_neg]; exact clamp_abs _
          · have : |x - a| / δ ≤ 1 := by
              rw [div_le_one hδ0, abs_of_pos (by linarith)]; linarith
            linarith
    have e2 := h1 x
    have e3 := h1' x
    have e4 := abs_le.mp e3
    have e5 : |ind a x - p.eval x| ≤ |ind a x - clamp ((a + δ - x) / δ)| + |clamp ((a + δ - x) / δ) - p.eval x| := abs_sub_le _ _ _
    linarith
  · simp only [eval_add]
    have i1 : Integrable (fun x => p'.eval x + q'.eval x) σ := (poly_integrable_σ p').add (poly_integrable_σ q')
    rw [integral_add i1 (poly_integrable_σ q), integral_add (poly_integrable_σ p') (poly_integrable_σ q')]
    have e1 : ∫ x, p'.eval x ∂σ ≤ ∫ x, (clamp (2 - |x - a| / δ) + q'.eval x) ∂σ := by
      refine integral_mono (poly_integrable_σ p') ((integrable_σ _ (clamp_cont (by fun_prop))).add (poly_integrable_σ q')) fun x => ?_
      have := abs_le.mp (h1' x)
      simp only
      linarith
    rw [integral_add (integrable_σ _ (clamp_cont (by fun_prop))) (poly_integrable_σ q')] at e1
    linarith

theorem ind_integrable (a : ℝ) : Integrable (ind a) σ := by
  refine Integrable.mono' (integrable_const 1) ?_ (Eventually.of_forall fun x => ?_)
  · exact (Measurable.ite measurableSet_Iic measurable_const measurable_const).aestronglyMeasurable
  · unfold ind; split_ifs <;> simp

/-! ## Random spectra -/

variable {Ω : Type} [MeasurableSpace Ω] {P : ℕ → Measure Ω}

/-- The mean of `f` over the first `n` values. -/
noncomputable def emp (n : ℕ) (x : Fin n → ℝ) (f : ℝ → ℝ) : ℝ := (∑ i, f (x i)) / n

theorem emp_poly (n : ℕ) (x : Fin n → ℝ) (p : ℝ[X]) : emp n x (fun y => p.eval y) = ∑ k ∈ Finset.range (p.natDegree + 1), p.coeff k * emp n x fun y => y ^ k := by
  unfold emp
  simp only [eval_eq_sum_range]
  rw [Finset.sum_comm, Finset.sum_div]
  refine Finset.sum_congr rfl fun k _ => ?_
  rw [← Finset.mul_sum, mul_div_assoc]

theorem σ_poly (p : ℝ[X]) : ∫ x, p.eval x ∂σ = ∑ k ∈ Finset.range (p.natDegree + 1), p.coeff k * (Gauss.wig k : ℝ) := by
  simp only [eval_eq_sum_range]
  rw [integral_finsetSum _ fun k _ => (integrable_σ _ (by fun_prop)).const_mul _]
  refine Finset.sum_congr rfl fun k _ => ?_
  rw [integral_const_mul, moment_σ]

theorem emp_poly_integrable (x : (n : ℕ) → Fin n → Ω → ℝ)
    (hi : ∀ n k, Integrable (fun ω => emp n (fun i => x n i ω) fun y => y ^ k) (P n)) (n : ℕ) (p : ℝ[X]) :
    Integrable (fun ω => emp n (fun i => x n i ω) fun y => p.eval y) (P n) := by
  simp only [emp_poly]
  exact integrable_finsetSum _ fun k _ => (hi n k).const_mul _

variable [∀ n, IsProbabilityMeasure (P n)]

theorem tendsto_poly (x : (n : ℕ) → Fin n → Ω → ℝ)
    (hi : ∀ n k, Integrable (fun ω => emp n (fun i => x n i ω) fun y => y ^ k) (P n))
    (hm : ∀ k, Tendsto (fun n => ∫ ω, |emp n (fun i => x n i ω) (fun y => y ^ k) - Gauss.wig k| ∂(P n)) atTop (𝓝 0)) (p : ℝ[X]) :
    Tendsto (fun n => ∫ ω, |emp n (fun i => x n i ω) (fun y => p.eval y) - ∫ y, p.eval y ∂σ| ∂(P n)) atTop (𝓝 0) := by
  have hlim : Tendsto (fun n => ∑ k ∈ Finset.range (p.natDegree + 1), |p.coeff k| * ∫ ω, |emp n (fun i => x n i ω) (fun y => y ^ k) - Gauss.wig k| ∂(P n)) atTop (𝓝 0) := by
    have := tendsto_finsetSum (Finset.range (p.natDegree + 1)) fun k _ => (hm k).const_mul |p.coeff k|
    simpa using this
  refine squeeze_zero (fun n => integral_nonneg fun ω => abs_nonneg _) (fun n => ?_) hlim
  have hint : ∀ k, Integrable (fun ω => |emp n (fun i => x n i ω) (fun y => y ^ k) - Gauss.wig k|) (P n) := fun k => ((hi n k).sub (integrable_const _)).abs
  calc ∫ ω, |emp n (fun i => x n i ω) (fun y => p.eval y) - ∫ y, p.eval y ∂σ| ∂(P n)
      ≤ ∫ ω, ∑ k ∈ Finset.range (p.natDegree + 1), |p.coeff k| * |emp n (fun i => x n i ω) (fun y => y ^ k) - Gauss.wig k| ∂(P n) := by
        refine integral_mono ((emp_poly_integrable x hi n p).sub (integrable_const _)).abs (integrable_finsetSum _ fun k _ => (hint k).const_mul _) fun ω => ?_
        simp only
        rw [emp_poly, σ_poly, ← Finset.sum_sub_distrib]
        refine (Finset.abs_sum_le_sum_abs _ _).trans (Finset.sum_le_sum fun k _ => ?_)
        rw [← mul_sub, abs_mul]
    _ = _ := by
        rw [integral_finsetSum _ fun k _ => (hint k).const_mul _]
        simp only [integral_const_mul]

theorem emp_mono (n : ℕ) (x : Fin n → ℝ) (f p q : ℝ → ℝ) (h : ∀ y, |f y - p y| ≤ q y) : |emp n x f - emp n x p| ≤ emp n x q := by
  unfold emp
  rw [← sub_div, ← Finset.sum_sub_distrib, abs_div, abs_of_nonneg (show (0 : ℝ) ≤ n by positivity)]
  exact div_le_div_of_nonneg_right ((Finset.abs_sum_le_sum_abs _ _).trans (Finset.sum_le_sum fun i _ => h _)) (by positivity)

/-- If all moments converge in the mean, so do the means of every approximable function. -/
theorem tendsto_approx (x : (n : ℕ) → Fin n → Ω → ℝ) (hx : ∀ n i, Measurable (x n i))
    (hi : ∀ n k, Integrable (fun ω => emp n (fun i => x n i ω) fun y => y ^ k) (P n))
    (hm : ∀ k, Tendsto (fun n => ∫ ω, |emp n (fun i => x n i ω) (fun y => y ^ k) - Gauss.wig k| ∂(P n)) atTop (𝓝 0))
    (f : ℝ → ℝ) (hf : Measurable f) (hfi : Integrable f σ) (ha : Approx f) :
    Tendsto (fun n => ∫ ω, |emp n (fun i => x n i ω) f - ∫ y, f y ∂σ| ∂(P n)) atTop (𝓝 0) := by
  rw [Metric.tendsto_atTop]
  intro ε hε
  obtain ⟨p, q, h1, h2⟩ := ha (ε / 5) (by positivity)
  have hp := Metric.tendsto_atTop.mp (tendsto_poly x hi hm p) (ε / 5) (by positivity)
  have hq := Metric.tendsto_atTop.mp (tendsto_poly x hi hm q) (ε / 5) (by positivity)
  obtain ⟨N1, hN1⟩ := hp
  obtain ⟨N2, hN2⟩ := hq
  refine ⟨max N1 N2, fun n hn => ?_⟩
  have e1 := hN1 n (le_trans (le_max_left _ _) hn)
  have e2 := hN2 n (le_trans (le_max_right _ _) hn)
  rw [Real.dist_0_eq_abs, abs_of_nonneg (integral_nonneg fun ω => abs_nonneg _)] at e1 e2 ⊢
  have ip := emp_poly_integrable x hi n p
  have iq := emp_poly_integrable x hi n q
  have iA : Integrable (fun ω => |emp n (fun i => x n i ω) (fun y => p.eval y) - ∫ y, p.eval y ∂σ|) (P n) := (ip.sub (integrable_const _)).abs
  have iB : Integrable (fun ω => |emp n (fun i => x n i ω) (fun y => q.eval y) - ∫ y, q.eval y ∂σ|) (P n) := (iq.sub (integrable_const _)).abs
  have hσ : |∫ y, p.eval y ∂σ - ∫ y, f y ∂σ| ≤ ε / 5 := by
    rw [← integral_sub (poly_integrable_σ p) hfi]
    refine (abs_integral_le_integral_abs).trans (le_trans (integral_mono ((poly_integrable_σ p).sub hfi).abs (poly_integrable_σ q) fun y => ?_) h2)
    simp only
    rw [abs_sub_comm]
    exact h1 y
  have hmeas : Measurable fun ω => emp n (fun i => x n i ω) f := by
    unfold emp
    exact (Finset.measurable_fun_sum _ fun i _ => hf.comp (hx n i)).div_const _
  have hpt : ∀ ω, |emp n (fun i => x n i ω) f - ∫ y, f y ∂σ| ≤
      (|emp n (fun i => x n i ω) (fun y => q.eval y) - ∫ y, q.eval y ∂σ| + |emp n (fun i => x n i ω) (fun y => p.eval y) - ∫ y, p.eval y ∂σ|) + 2 * (ε / 5) := by
    intro ω
    have a1 := emp_mono n (fun i => x n i ω) f (fun y => p.eval y) (fun y => q.eval y) h1
    have a2 : |emp n (fun i => x n i ω) f - ∫ y, f y ∂σ| ≤ |emp n (fun i => x n i ω) f - emp n (fun i => x n i ω) fun y => p.eval y| +
        (|emp n (fun i => x n i ω) (fun y => p.eval y) - ∫ y, p.eval y ∂σ| + |∫ y, p.eval y ∂σ - ∫ y, f y ∂σ|) :=
      (abs_sub_le _ (emp n (fun i => x n i ω) fun y => p.eval y) _).trans (add_le_add_right (abs_sub_le _ (∫ y, p.eval y ∂σ) _) _)
    have a3 := le_abs_self (emp n (fun i => x n i ω) (fun y => q.eval y) - ∫ y, q.eval y ∂σ)
    linarith
  have hub := (iB.add iA).add (integrable_const (2 * (ε / 5)))
  have hfint : Integrable (fun ω => |emp n (fun i => x n i ω) f - ∫ y, f y ∂σ|) (P n) := by
    refine Integrable.mono' hub ?_ (Eventually.of_forall fun ω => ?_)
    · exact ((hmeas.sub_const _).norm).aestronglyMeasurable
    · rw [Real.norm_eq_abs, abs_abs]; exact hpt ω
  have := integral_mono hfint hub hpt
  rw [integral_add' (iB.add iA) (integrable_const _), integral_add' iB iA, integral_const] at this
  simp only [probReal_univ, one_smul] at this
  linarith

end RMT.Semi
