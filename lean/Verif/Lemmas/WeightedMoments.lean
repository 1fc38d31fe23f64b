import Verif.Lemmas.MomentMethod

/-! # The moment method for weighted spectra and an arbitrary limit with bounded support -/

namespace RMT.Semi
open MeasureTheory Real Spec Filter Topology Polynomial

section
variable (μ : Measure ℝ) [IsProbabilityMeasure μ]

/-- `f` lies between polynomials whose difference has an arbitrarily small integral. -/
def ApproxIn (f : ℝ → ℝ) : Prop := ∀ ε > 0, ∃ p q : ℝ[X], (∀ x, |f x - p.eval x| ≤ q.eval x) ∧ ∫ x, q.eval x ∂μ ≤ ε

variable {μ} (B : ℝ) (hB0 : 0 ≤ B) (hB : ∀ᵐ x ∂μ, |x| ≤ B)
include hB0 hB

omit hB0 in
theorem integrable_bounded (f : ℝ → ℝ) (hf : Continuous f) : Integrable f μ := by
  obtain ⟨c, hc⟩ := (isCompact_Icc (a := -B) (b := B)).exists_bound_of_continuousOn hf.continuousOn
  refine Integrable.mono' (integrable_const c) hf.aestronglyMeasurable ?_
  filter_upwards [hB] with x hx
  exact hc x (Set.mem_Icc.mpr (abs_le.mp hx))

omit hB0 in
theorem moment_bounded (k : ℕ) : ∫ x, x ^ (2 * k) ∂μ ≤ B ^ (2 * k) := by
  have h1 : ∫ x, x ^ (2 * k) ∂μ ≤ ∫ _, B ^ (2 * k) ∂μ := by
    refine integral_mono_ae (integrable_bounded B hB _ (by fun_prop)) (integrable_const _) ?_
    filter_upwards [hB] with x hx
    rw [pow_mul, pow_mul, ← sq_abs x]
    exact pow_le_pow_left₀ (by positivity) (pow_le_pow_left₀ (abs_nonneg _) hx 2) k
  simpa using h1

theorem approxIn_continuous (f : ℝ → ℝ) (hf : Continuous f) (D : ℝ) (hD : ∀ x, |f x| ≤ D) : ApproxIn μ f := by
  intro ε hε
  set L := B + 1 with hL
  have hL1 : 1 ≤ L := by linarith
  obtain ⟨p, hp⟩ := exists_polynomial_near_of_continuousOn (-L) L f hf.continuousOn (ε / 2) (by positivity)
  have hD0 : 0 ≤ D := (abs_nonneg _).trans (hD 0)
  set d := p.natDegree with hd
  set K := ∑ i ∈ Finset.range (d + 1), |p.coeff i| with hK
  have hK0 : 0 ≤ K := Finset.sum_nonneg fun i _ => abs_nonneg _
  have hratio : B ^ 2 / L ^ 2 < 1 := by
    rw [div_lt_one (by positivity)]
    nlinarith
  have hlim : Tendsto (fun k : ℕ => (D + K) * (B ^ 2) ^ d * (B ^ 2 / L ^ 2) ^ k) atTop (𝓝 ((D + K) * (B ^ 2) ^ d * 0)) :=
    (tendsto_pow_atTop_nhds_zero_of_lt_one (by positivity) hratio).const_mul _
  rw [mul_zero] at hlim
  obtain ⟨k, hk⟩ := (hlim.eventually (gt_mem_nhds (show (0 : ℝ) < ε / 2 by positivity))).exists
  refine ⟨p, Polynomial.C (ε / 2) + Polynomial.C ((D + K) / (L ^ 2) ^ k) * Polynomial.X ^ (2 * (d + k)), fun x => ?_, ?_⟩
  · simp only [eval_add, eval_C, eval_mul, eval_pow, eval_X]
    by_cases hx : x ∈ Set.Icc (-L) L
    · have h1 := hp x hx
      rw [abs_sub_comm] at h1
      have h2 : 0 ≤ (D + K) / (L ^ 2) ^ k * x ^ (2 * (d + k)) := by
        rw [pow_mul]; positivity
      linarith
    · have hx3 : L ≤ |x| := by
        rw [Set.mem_Icc, ← abs_le, not_le] at hx
        exact hx.le
      have h1 := eval_bound p x (by linarith)
      rw [← hd, ← hK] at h1
      have h2 : |f x - p.eval x| ≤ D + K * x ^ (2 * d) := (abs_sub _ _).trans (add_le_add (hD x) h1)
      have hx2 : L ^ 2 ≤ x ^ 2 := by rw [← sq_abs x]; exact pow_le_pow_left₀ (by linarith) hx3 2
      have h3 : (1 : ℝ) ≤ x ^ (2 * d) := by rw [pow_mul]; exact one_le_pow₀ (by nlinarith)
      have h4 : (1 : ℝ) ≤ x ^ (2 * k) / (L ^ 2) ^ k := by
        rw [one_le_div (by positivity), pow_mul]
        exact pow_le_pow_left₀ (by positivity) hx2 k
      have h5 : D + K * x ^ (2 * d) ≤ (D + K) * x ^ (2 * d) := by nlinarith
      have h6 : (D + K) * x ^ (2 * d) ≤ (D + K) * x ^ (2 * d) * (x ^ (2 * k) / (L ^ 2) ^ k) := le_mul_of_one_le_right (by positivity) h4
      have h7 : (D + K) * x ^ (2 * d) * (x ^ (2 * k) / (L ^ 2) ^ k) = (D + K) / (L ^ 2) ^ k * x ^ (2 * (d + k)) := by
        rw [mul_add 2 d k, pow_add]; ring
      linarith
  · simp only [eval_add, eval_C, eval_mul, eval_pow, eval_X]
    rw [integral_add (integrable_const _) ((integrable_bounded B hB _ (by fun_prop)).const_mul _), integral_const, integral_const_mul]
    have h1 := moment_bounded B hB (d + k)
    have h2 : (D + K) / (L ^ 2) ^ k * ∫ x, x ^ (2 * (d + k)) ∂μ ≤ (D + K) / (L ^ 2) ^ k * B ^ (2 * (d + k)) := mul_le_mul_of_nonneg_left h1 (by positivity)
    have h3 : (D + K) / (L ^ 2) ^ k * B ^ (2 * (d + k)) = (D + K) * (B ^ 2) ^ d * (B ^ 2 / L ^ 2) ^ k := by rw [pow_mul, pow_add, div_pow]; ring
    simp
    linarith

omit hB0 hB in
/-- Around a point without mass, bumps have a small integral. -/
theorem bump_small (a : ℝ) (ha : μ {a} = 0) (ε : ℝ) (hε : 0 < ε) : ∃ δ > 0, ∫ x, clamp (2 - |x - a| / δ) ∂μ ≤ ε := by
  have hlim : Tendsto (fun n : ℕ => ∫ x, clamp (2 - |x - a| / (1 / ((n : ℝ) + 1))) ∂μ) atTop (𝓝 (∫ _, (0 : ℝ) ∂μ)) := by
    refine tendsto_integral_of_dominated_convergence (fun _ => 1) (fun n => (clamp_cont (by fun_prop)).aestronglyMeasurable) (integrable_const 1)
      (fun n => Eventually.of_forall fun x => by rw [Real.norm_eq_abs]; exact clamp_abs _) ?_
    have hne : ∀ᵐ x ∂μ, x ≠ a := by
      rw [ae_iff]
      simpa using ha
    filter_upwards [hne] with x hx
    refine tendsto_const_nhds.congr' ?_
    have h0 : 0 < |x - a| := abs_pos.mpr (sub_ne_zero.mpr hx)
    obtain ⟨M, hM⟩ := exists_nat_gt (2 / |x - a|)
    filter_upwards [eventually_ge_atTop M] with n hn
    rw [clamp_zero]
    have hn' : (M : ℝ) ≤ n := by exact_mod_cast hn
    have : 2 < |x - a| * ((n : ℝ) + 1) := by
      rw [div_lt_iff₀ h0] at hM
      nlinarith
    rw [div_div_eq_mul_div, div_one]
    linarith
  rw [integral_zero] at hlim
  obtain ⟨n, hn⟩ := (hlim.eventually (gt_mem_nhds hε)).exists
  exact ⟨1 / ((n : ℝ) + 1), by positivity, hn.le⟩

/-- Continuous bounded functions, cut off at a point without mass. -/
theorem approxIn_cut (g : ℝ → ℝ) (hg : Continuous g) (D : ℝ) (hD : ∀ x, |g x| ≤ D) (a : ℝ) (ha : μ {a} = 0) : ApproxIn μ fun x => if x ≤ a then 0 else g x := by
  intro ε hε
  have hD0 : 0 ≤ D := (abs_nonneg _).trans (hD 0)
  obtain ⟨δ, hδ0, hb⟩ := bump_small (μ := μ) a ha (ε / (4 * (D + 1))) (by positivity)
  have hb' : D * ∫ x, clamp (2 - |x - a| / δ) ∂μ ≤ ε / 4 := by
    have h0 : 0 ≤ ∫ x, clamp (2 - |x - a| / δ) ∂μ := integral_nonneg fun x => clamp_nonneg _
    rw [le_div_iff₀ (by positivity)] at hb
    nlinarith
  have hc1 : Continuous fun x => g x * clamp ((x - a) / δ) := hg.mul (clamp_cont (by fun_prop))
  have hc2 : Continuous fun x => D * clamp (2 - |x - a| / δ) := (clamp_cont (by fun_prop)).const_mul D
  have hbd : ∀ x y, |g x * clamp y| ≤ D := by
    intro x y
    rw [abs_mul]
    have := hD x
    have := clamp_abs y
    nlinarith [abs_nonneg (g x), abs_nonneg (clamp y)]
  obtain ⟨p, q, h1, h2⟩ := approxIn_continuous B hB0 hB _ hc1 D (fun x => hbd x _) (ε / 4) (by positivity)
  obtain ⟨p', q', h1', h2'⟩ := approxIn_continuous B hB0 hB _ hc2 D (fun x => by
    rw [abs_mul, abs_of_nonneg hD0]
    exact mul_le_of_le_one_right hD0 (clamp_abs _)) (ε / 8) (by positivity)
  have hpi : ∀ p : ℝ[X], Integrable (fun x => p.eval x) μ := fun p => integrable_bounded B hB _ p.continuous
  refine ⟨p, p' + q' + q, fun x => ?_, ?_⟩
  · simp only [eval_add]
    have e1 : |(if x ≤ a then 0 else g x) - g x * clamp ((x - a) / δ)| ≤ D * clamp (2 - |x - a| / δ) := by
      split_ifs with h
      · rw [clamp_zero _ (div_nonpos_of_nonpos_of_nonneg (by linarith) hδ0.le)]
        simpa using mul_nonneg hD0 (clamp_nonneg _)
      · rw [not_le] at h
        by_cases h3 : a + δ ≤ x
        · rw [clamp_one ((x - a) / δ) (by rw [one_le_div hδ0]; linarith)]
          simpa using mul_nonneg hD0 (clamp_nonneg _)
        · rw [not_le] at h3
          have h4 : |x - a| / δ ≤ 1 := by
            rw [div_le_one hδ0, abs_of_pos (by linarith)]; linarith
          rw [clamp_one (2 - |x - a| / δ) (by linarith), mul_one, ← mul_one_sub, abs_mul]
          have h5 : |1 - clamp ((x - a) / δ)| ≤ 1 := by
            rw [abs_of_nonneg (by linarith [clamp_le ((x - a) / δ)])]
            linarith [clamp_nonneg ((x - a) / δ)]
          nlinarith [hD x, abs_nonneg (g x), abs_nonneg (1 - clamp ((x - a) / δ))]
    have e2 := h1 x
    have e4 := abs_le.mp (h1' x)
    have e5 := abs_sub_le (if x ≤ a then 0 else g x) (g x * clamp ((x - a) / δ)) (p.eval x)
    linarith
  · simp only [eval_add]
    have i1 : Integrable (fun x => p'.eval x + q'.eval x) μ := (hpi p').add (hpi q')
    rw [integral_add i1 (hpi q), integral_add (hpi p') (hpi q')]
    have ib := integrable_bounded B hB _ hc2
    have e1 : ∫ x, p'.eval x ∂μ ≤ ∫ x, (D * clamp (2 - |x - a| / δ) + q'.eval x) ∂μ := by
      refine integral_mono (hpi p') (ib.add (hpi q')) fun x => ?_
      have := abs_le.mp (h1' x)
      simp only
      linarith
    rw [integral_add ib (hpi q'), integral_const_mul] at e1
    linarith

end

/-! ## Random weighted spectra -/

variable {Ω : Type} [MeasurableSpace Ω] {P : ℕ → Measure Ω}

/-- The weighted mean of `f`. -/
noncomputable def empW (n : ℕ) (u x : Fin n → ℝ) (f : ℝ → ℝ) : ℝ := (∑ i, u i * f (x i)) / n

theorem empW_poly (n : ℕ) (u x : Fin n → ℝ) (p : ℝ[X]) : empW n u x (fun y => p.eval y) = ∑ k ∈ Finset.range (p.natDegree + 1), p.coeff k * empW n u x fun y => y ^ k := by
  unfold empW
  simp only [eval_eq_sum_range, Finset.mul_sum]
  rw [Finset.sum_comm, Finset.sum_div]
  refine Finset.sum_congr rfl fun k _ => ?_
  rw [mul_div_assoc', Finset.mul_sum]
  congr 1
  exact Finset.sum_congr rfl fun i _ => by ring

theorem empW_mono (n : ℕ) (u x : Fin n → ℝ) (hu : ∀ i, 0 ≤ u i) (f p q : ℝ → ℝ) (h : ∀ y, |f y - p y| ≤ q y) : |empW n u x f - empW n u x p| ≤ empW n u x q := by
  unfold empW
  rw [← sub_div, ← Finset.sum_sub_distrib, abs_div, abs_of_nonneg (show (0 : ℝ) ≤ n by positivity)]
  refine div_le_div_of_nonneg_right ((Finset.abs_sum_le_sum_abs _ _).trans (Finset.sum_le_sum fun i _ => ?_)) (by positivity)
  rw [← mul_sub, abs_mul, abs_of_nonneg (hu i)]
  exact mul_le_mul_of_nonneg_left (h _) (hu i)

variable [∀ n, IsProbabilityMeasure (P n)] {μ : Measure ℝ} [IsProbabilityMeasure μ] {N : ℕ → ℕ}

/-- If all weighted moments converge in the mean, so do the weighted means of every approximable function. -/
theorem tendsto_weighted (B : ℝ) (hB : ∀ᵐ x ∂μ, |x| ≤ B) (u x : (n : ℕ) → Fin (N n) → Ω → ℝ) (hu0 : ∀ n i ω, 0 ≤ u n i ω) (hu : ∀ n i, Measurable (u n i)) (hx : ∀ n i, Measurable (x n i))
    (hi : ∀ n k, Integrable (fun ω => empW (N n) (fun i => u n i ω) (fun i => x n i ω) fun y => y ^ k) (P n))
    (hm : ∀ k, Tendsto (fun n => ∫ ω, |empW (N n) (fun i => u n i ω) (fun i => x n i ω) (fun y => y ^ k) - ∫ y, y ^ k ∂μ| ∂(P n)) atTop (𝓝 0))
    (f : ℝ → ℝ) (hf : Measurable f) (hfi : Integrable f μ) (ha : ApproxIn μ f) :
    Tendsto (fun n => ∫ ω, |empW (N n) (fun i => u n i ω) (fun i => x n i ω) f - ∫ y, f y ∂μ| ∂(P n)) atTop (𝓝 0) := by
  set E : (n : ℕ) → Ω → (ℝ → ℝ) → ℝ := fun n ω f => empW (N n) (fun i => u n i ω) (fun i => x n i ω) f with hE
  have hpi : ∀ p : ℝ[X], Integrable (fun x => p.eval x) μ := fun p => integrable_bounded B hB _ p.continuous
  have hpint : ∀ n (p : ℝ[X]), Integrable (fun ω => E n ω fun y => p.eval y) (P n) := by
    intro n p
    simp only [hE, empW_poly]
    exact integrable_finsetSum _ fun k _ => (hi n k).const_mul _
  have hpoly : ∀ p : ℝ[X], Tendsto (fun n => ∫ ω, |E n ω (fun y => p.eval y) - ∫ y, p.eval y ∂μ| ∂(P n)) atTop (𝓝 0) := by
    intro p
    have hlim : Tendsto (fun n => ∑ k ∈ Finset.range (p.natDegree + 1), |p.coeff k| * ∫ ω, |E n ω (fun y => y ^ k) - ∫ y, y ^ k ∂μ| ∂(P n)) atTop (𝓝 0) := by
      have := tendsto_finsetSum (Finset.range (p.natDegree + 1)) fun k _ => (hm k).const_mul |p.coeff k|
      simpa using this
    refine squeeze_zero (fun n => integral_nonneg fun ω => abs_nonneg _) (fun n => ?_) hlim
    have hint : ∀ k, Integrable (fun ω => |E n ω (fun y => y ^ k) - ∫ y, y ^ k ∂μ|) (P n) := fun k => ((hi n k).sub (integrable_const _)).abs
    have hμ : ∫ x, p.eval x ∂μ = ∑ k ∈ Finset.range (p.natDegree + 1), p.coeff k * ∫ y, y ^ k ∂μ := by
      simp only [eval_eq_sum_range]
      rw [integral_finsetSum _ fun k _ => (integrable_bounded B hB _ (by fun_prop)).const_mul _]
      simp only [integral_const_mul]
    calc ∫ ω, |E n ω (fun y => p.eval y) - ∫ y, p.eval y ∂μ| ∂(P n)
        ≤ ∫ ω, ∑ k ∈ Finset.range (p.natDegree + 1), |p.coeff k| * |E n ω (fun y => y ^ k) - ∫ y, y ^ k ∂μ| ∂(P n) := by
          refine integral_mono ((hpint n p).sub (integrable_const _)).abs (integrable_finsetSum _ fun k _ => (hint k).const_mul _) fun ω => ?_
          simp only [hE]
          rw [empW_poly, hμ, ← Finset.sum_sub_distrib]
          refine (Finset.abs_sum_le_sum_abs _ _).trans (Finset.sum_le_sum fun k _ => ?_)
          rw [← mul_sub, abs_mul]
      _ = _ := by
          rw [integral_finsetSum _ fun k _ => (hint k).const_mul _]
          simp only [integral_const_mul]
  rw [Metric.tendsto_atTop]
  intro ε hε
  obtain ⟨p, q, h1, h2⟩ := ha (ε / 5) (by positivity)
  obtain ⟨N1, hN1⟩ := Metric.tendsto_atTop.mp (hpoly p) (ε / 5) (by positivity)
  obtain ⟨N2, hN2⟩ := Metric.tendsto_atTop.mp (hpoly q) (ε / 5) (by positivity)
  refine ⟨max N1 N2, fun n hn => ?_⟩
  have e1 := hN1 n (le_trans (le_max_left _ _) hn)
  have e2 := hN2 n (le_trans (le_max_right _ _) hn)
  rw [Real.dist_0_eq_abs, abs_of_nonneg (integral_nonneg fun ω => abs_nonneg _)] at e1 e2 ⊢
  have iA : Integrable (fun ω => |E n ω (fun y => p.eval y) - ∫ y, p.eval y ∂μ|) (P n) := ((hpint n p).sub (integrable_const _)).abs
  have iB : Integrable (fun ω => |E n ω (fun y => q.eval y) - ∫ y, q.eval y ∂μ|) (P n) := ((hpint n q).sub (integrable_const _)).abs
  have hσ : |∫ y, p.eval y ∂μ - ∫ y, f y ∂μ| ≤ ε / 5 := by
    rw [← integral_sub (hpi p) hfi]
    refine (abs_integral_le_integral_abs).trans (le_trans (integral_mono ((hpi p).sub hfi).abs (hpi q) fun y => ?_) h2)
    simp only
    rw [abs_sub_comm]
    exact h1 y
  have hmeas : Measurable fun ω => E n ω f := by
    simp only [hE, empW]
    exact (Finset.measurable_fun_sum _ fun i _ => (hu n i).mul (hf.comp (hx n i))).div_const _
  have hpt : ∀ ω, |E n ω f - ∫ y, f y ∂μ| ≤ (|E n ω (fun y => q.eval y) - ∫ y, q.eval y ∂μ| + |E n ω (fun y => p.eval y) - ∫ y, p.eval y ∂μ|) + 2 * (ε / 5) := by
    intro ω
    have a1 := empW_mono (N n) (fun i => u n i ω) (fun i => x n i ω) (fun i => hu0 n i ω) f (fun y => p.eval y) (fun y => q.eval y) h1
    have a2 : |E n ω f - ∫ y, f y ∂μ| ≤ |E n ω f - E n ω fun y => p.eval y| +
        (|E n ω (fun y => p.eval y) - ∫ y, p.eval y ∂μ| + |∫ y, p.eval y ∂μ - ∫ y, f y ∂μ|) :=
      (abs_sub_le _ (E n ω fun y => p.eval y) _).trans (add_le_add_right (abs_sub_le _ (∫ y, p.eval y ∂μ) _) _)
    have a3 := le_abs_self (E n ω (fun y => q.eval y) - ∫ y, q.eval y ∂μ)
    simp only [hE] at a1 a2 a3 ⊢
    linarith
  have hub := (iB.add iA).add (integrable_const (2 * (ε / 5)))
  have hfint : Integrable (fun ω => |E n ω f - ∫ y, f y ∂μ|) (P n) := by
    refine Integrable.mono' hub ?_ (Eventually.of_forall fun ω => ?_)
    · exact ((hmeas.sub_const _).norm).aestronglyMeasurable
    · rw [Real.norm_eq_abs, abs_abs]; exact hpt ω
  have := integral_mono hfint hub hpt
  rw [integral_add' (iB.add iA) (integrable_const _), integral_add' iB iA, integral_const] at this
  simp only [probReal_univ, one_smul] at this
  linarith

end RMT.Semi
