import Verif.Lemmas.CorrelationLaw

/-! # The mass of the Marchenko-Pastur density -/

namespace RMT.Semi
open MeasureTheory Real Spec Filter Topology Gauss

theorem wig_le (n : ℕ) : (wig n : ℝ) ≤ 2 ^ n := by
  rw [← moment_σ]
  have h : ∫ x, x ^ n ∂σ ≤ ∫ _, (2 : ℝ) ^ n ∂σ := by
    refine integral_mono_ae (integrable_σ _ (by fun_prop)) (integrable_const _) ?_
    filter_upwards [σ_support] with x hx
    refine (le_abs_self _).trans ?_
    rw [abs_pow]
    exact pow_le_pow_left₀ (abs_nonneg _) (abs_le.mpr hx) n
  simpa using h

/-- The moment series. -/
noncomputable def mser (t : ℝ) : ℝ := ∑' n, (wig n : ℝ) * t ^ n

theorem term_bound (t s : ℝ) (h : |t| ≤ s) (n : ℕ) : ‖(wig n : ℝ) * t ^ n‖ ≤ (2 * s) ^ n := by
  rw [Real.norm_eq_abs, abs_mul, abs_pow, mul_pow, abs_of_nonneg (by positivity)]
  exact mul_le_mul (wig_le n) (pow_le_pow_left₀ (abs_nonneg _) h n) (by positivity) (by positivity)

theorem geom (s : ℝ) (h0 : 0 ≤ s) (h : s < 1 / 2) : Summable fun n : ℕ => (2 * s) ^ n := summable_geometric_of_lt_one (by positivity) (by linarith)

theorem term_norm_summable (t : ℝ) (h : |t| < 1 / 2) : Summable fun n : ℕ => ‖(wig n : ℝ) * t ^ n‖ :=
  (geom |t| (abs_nonneg _) h).of_nonneg_of_le (fun _ => norm_nonneg _) (term_bound t |t| le_rfl)

theorem mser_eq (t : ℝ) (h : |t| < 1 / 2) : mser t = 1 + t ^ 2 * mser t ^ 2 := by
  have hs := term_norm_summable t h
  have hc := tsum_mul_tsum_eq_tsum_sum_range_of_summable_norm hs hs
  have h2 : ∀ n, ∑ k ∈ Finset.range (n + 1), (wig k : ℝ) * t ^ k * ((wig (n - k) : ℝ) * t ^ (n - k)) = (wig (n + 2) : ℝ) * t ^ n := by
    intro n
    rw [show n + 2 = (n + 1) + 1 by ring, wig_succ, Nat.cast_sum, Finset.sum_mul]
    refine Finset.sum_congr rfl fun k hk => ?_
    rw [Finset.mem_range] at hk
    rw [show n + 1 - 1 - k = n - k by omega, Nat.cast_mul]
    conv_rhs => rw [show n = k + (n - k) by omega]
    rw [pow_add, show k + (n - k) - k = n - k by omega]
    ring
  simp only [h2] at hc
  have h3 := hs.of_norm.sum_add_tsum_nat_add 2
  rw [Finset.sum_range_succ, Finset.sum_range_one] at h3
  have w0 : wig 0 = 1 := by simp [wig]
  have w1 : wig 1 = 0 := by simp [wig]
  rw [w0, w1] at h3
  have h4 : ∑' n, (wig (n + 2) : ℝ) * t ^ (n + 2) = t ^ 2 * ∑' n, (wig (n + 2) : ℝ) * t ^ n := by
    rw [← tsum_mul_left]
    exact tsum_congr fun n => by ring
  rw [h4, ← hc] at h3
  simp only [Nat.cast_one, pow_zero, mul_one, Nat.cast_zero, zero_mul, add_zero] at h3
  rw [mser, sq (∑' n, (wig n : ℝ) * t ^ n)]
  exact h3.symm

theorem mser_zero : mser 0 = 1 := by
  have := mser_eq 0 (by norm_num)
  simpa using this

theorem mser_root (t : ℝ) (h : |t| < 1 / 2) : 1 - 2 * t ^ 2 * mser t = √(1 - 4 * t ^ 2) := by
  have hsq : ∀ t : ℝ, |t| < 1 / 2 → (1 - 2 * t ^ 2 * mser t) ^ 2 = 1 - 4 * t ^ 2 := by
    intro t h
    have := mser_eq t h
    linear_combination (-4 * t ^ 2) * this
  have hpos : 0 ≤ 1 - 2 * t ^ 2 * mser t := by
    by_contra hneg
    rw [not_le] at hneg
    have hc : ContinuousOn (fun s => 1 - 2 * s ^ 2 * mser s) (Set.Icc (-|t|) |t|) := by
      refine continuousOn_const.sub (ContinuousOn.mul (by fun_prop) ?_)
      exact continuousOn_tsum (fun n => by fun_prop) (geom |t| (abs_nonneg _) h) fun n x hx => term_bound x |t| (abs_le.mpr hx) n
    have hz : (0 : ℝ) ∈ Set.Icc ((fun s => 1 - 2 * s ^ 2 * mser s) t) ((fun s => 1 - 2 * s ^ 2 * mser s) 0) := by
      simp only [mser_zero]
      constructor
      · exact hneg.le
      · norm_num
    obtain ⟨s, hs, h0⟩ := isPreconnected_Icc.intermediate_value (a := t) (b := 0) ⟨neg_abs_le _, le_abs_self _⟩ ⟨by simp, by simp⟩ hc hz
    have hs' : |s| < 1 / 2 := (abs_le.mpr hs).trans_lt h
    have h1 := hsq s hs'
    simp only at h0
    rw [h0] at h1
    have : s ^ 2 < 1 / 4 := by rw [← sq_abs]; nlinarith [abs_nonneg s]
    nlinarith
  rw [← hsq t h, Real.sqrt_sq hpos]

theorem mser_neg (t : ℝ) : mser (-t) = mser t := by
  unfold mser
  refine tsum_congr fun n => ?_
  rcases Nat.even_or_odd n with h | h
  · rw [h.neg_pow]
  · have : wig n = 0 := by
      rw [wig, if_neg]
      rw [Nat.odd_iff] at h
      omega
    simp [this]

theorem mser_integral (t : ℝ) (h : |t| < 1 / 2) : ∫ y, 1 / (1 - t * y) ∂σ = mser t := by
  have h1 := hasSum_integral_of_dominated_convergence (μ := σ) (F := fun n y => (t * y) ^ n) (f := fun y => 1 / (1 - t * y)) (fun n _ => (2 * |t|) ^ n)
    (fun n => by fun_prop)
    (fun n => by
      filter_upwards [σ_support] with y hy
      rw [Real.norm_eq_abs, abs_pow, abs_mul]
      have := abs_le.mpr hy
      exact pow_le_pow_left₀ (by positivity) (by nlinarith [abs_nonneg t]) n)
    (Eventually.of_forall fun y => geom |t| (abs_nonneg _) h)
    (integrable_const _)
    (by
      filter_upwards [σ_support] with y hy
      rw [one_div]
      apply hasSum_geometric_of_norm_lt_one
      rw [Real.norm_eq_abs, abs_mul]
      have := abs_le.mpr hy
      nlinarith [abs_nonneg t, abs_nonneg y])
  rw [← h1.tsum_eq, mser]
  refine tsum_congr fun n => ?_
  simp only [mul_pow]
  rw [integral_const_mul, moment_σ, mul_comm]

/-- The Stieltjes transform of the semicircle law. -/
theorem stieltjes (c r : ℝ) (hr : 0 < r) (hc : 2 * r < c) : ∫ y, 1 / (c + r * y) ∂σ = (c - √(c ^ 2 - 4 * r ^ 2)) / (2 * r ^ 2) := by
  have hc0 : 0 < c := by linarith
  have ht : |-(r / c)| < 1 / 2 := by
    rw [abs_neg, abs_of_pos (by positivity), div_lt_div_iff₀ hc0 (by norm_num)]
    linarith
  have h1 := mser_integral _ ht
  have h2 := mser_root _ ht
  rw [mser_neg] at h1 h2
  have e : ∀ y, 1 / (c + r * y) = 1 / c * (1 / (1 - -(r / c) * y)) := by
    intro y
    rw [one_div_mul_one_div]
    congr 1
    field_simp
    ring
  simp only [e]
  rw [integral_const_mul, h1]
  have h3 : √(1 - 4 * (-(r / c)) ^ 2) = √(c ^ 2 - 4 * r ^ 2) / c := by
    rw [show 1 - 4 * (-(r / c)) ^ 2 = (c ^ 2 - 4 * r ^ 2) / c ^ 2 by field_simp, Real.sqrt_div' _ (by positivity), Real.sqrt_sq hc0.le]
  rw [h3] at h2
  have h4 : mser (r / c) = (1 - √(c ^ 2 - 4 * r ^ 2) / c) * c ^ 2 / (2 * r ^ 2) := by
    rw [← h2]
    field_simp
    ring
  rw [h4]
  field_simp

/-- The mass: the mean of `1/x` under the size-biased law. -/
noncomputable def mass (q : ℝ) : ℝ := ∫ x, 1 / x ∂(mpBiased q)

theorem mass_density (q : ℝ) (hq : 0 < q) : ∫ x in Set.Ioi 0, mpDensity q x = mass q := by
  rw [mass, integral_mpBiased q hq, ← integral_indicator measurableSet_Ioi]
  refine integral_congr_ae ?_
  have hne : ∀ᵐ x : ℝ, x ≠ 0 := by simp [ae_iff]
  filter_upwards [hne] with x hx
  by_cases h : 0 < x
  · rw [Set.indicator_of_mem (show x ∈ Set.Ioi 0 from h), biased_density q hq x hx]
  · rw [Set.indicator_of_notMem (show x ∉ Set.Ioi 0 from h), dens_zero]
    · simp
    · have hs : 0 < √q := Real.sqrt_pos.mpr hq
      have hsq : √q ^ 2 = q := Real.sq_sqrt hq.le
      have hx' : x < 0 := lt_of_le_of_ne (not_lt.mp h) hx
      rw [Set.mem_Icc, not_and_or, not_le, not_le]
      left
      rw [div_lt_iff₀ hs]
      nlinarith [sq_nonneg (1 - √q)]

theorem mpBiased_lower (q : ℝ) (hq : 0 < q) : ∀ᵐ x ∂(mpBiased q), (1 - √q) ^ 2 ≤ x := by
  rw [mpBiased, ae_map_iff (by fun_prop) (measurableSet_le (by fun_prop) (by fun_prop))]
  filter_upwards [σ_support] with y hy
  have hs : 0 < √q := Real.sqrt_pos.mpr hq
  have hsq : √q ^ 2 = q := Real.sq_sqrt hq.le
  nlinarith [hy.1, hy.2]

theorem mpBiased_pos (q : ℝ) (hq : 0 < q) : ∀ᵐ x ∂(mpBiased q), 0 < x := by
  have h0 : ∀ᵐ x ∂(mpBiased q), x ≠ 0 := by
    rw [ae_iff]
    simpa using mpBiased_atom q hq 0
  filter_upwards [mpBiased_lower q hq, h0] with x h1 h2
  exact lt_of_le_of_ne ((sq_nonneg _).trans h1) (Ne.symm h2)

theorem mass_ne (q : ℝ) (hq : 0 < q) (h1 : q ≠ 1) : mass q = min 1 (1 / q) := by
  have hs : 0 < √q := Real.sqrt_pos.mpr hq
  have hsq : √q ^ 2 = q := Real.sq_sqrt hq.le
  have hne : √q ≠ 1 := by
    intro h
    rw [h] at hsq
    exact h1 (by linarith)
  rw [mass, mpBiased, integral_map (by fun_prop) (Measurable.aestronglyMeasurable (by fun_prop)), stieltjes (1 + q) (√q) hs (by
    have := sq_pos_of_ne_zero (sub_ne_zero.mpr hne)
    nlinarith), hsq, show (1 + q) ^ 2 - 4 * q = (1 - q) ^ 2 by ring, Real.sqrt_sq_eq_abs]
  rcases lt_or_gt_of_ne h1 with h | h
  · rw [abs_of_pos (by linarith), min_eq_left (by rw [le_div_iff₀ hq]; linarith)]
    field_simp
    ring
  · rw [abs_of_neg (by linarith), min_eq_right (by rw [div_le_iff₀ hq]; linarith)]
    field_simp
    ring

theorem one_approx (e : ℝ) (he : 0 < e) : ∫ x, 1 / (e + x) ∂(mpBiased 1) = (2 + e - √((2 + e) ^ 2 - 4)) / 2 := by
  rw [mpBiased, integral_map (by fun_prop) (Measurable.aestronglyMeasurable (by fun_prop))]
  have h := stieltjes (2 + e) 1 one_pos (by linarith)
  rw [one_pow, mul_one, mul_one] at h
  rw [← h]
  congr 1
  ext y
  rw [Real.sqrt_one]
  congr 1
  ring

theorem inv_integrable (q : ℝ) (hq : 0 < q) : Integrable (fun x => 1 / x) (mpBiased q) := by
  by_cases h1 : q = 1
  · subst h1
    refine ⟨Measurable.aestronglyMeasurable (by fun_prop), ?_⟩
    rw [hasFiniteIntegral_iff_norm]
    have hF := lintegral_liminf_le (μ := mpBiased 1) (u := atTop) (f := fun (n : ℕ) x => ENNReal.ofReal (1 / (1 / ((n : ℝ) + 1) + |x|))) (fun n => by fun_prop)
    have hlim : ∀ᵐ x ∂(mpBiased 1), liminf (fun n : ℕ => ENNReal.ofReal (1 / (1 / ((n : ℝ) + 1) + |x|))) atTop = ENNReal.ofReal ‖1 / x‖ := by
      filter_upwards [mpBiased_pos 1 one_pos] with x hx
      refine Tendsto.liminf_eq (ENNReal.tendsto_ofReal ?_)
      rw [norm_div, norm_one, Real.norm_eq_abs]
      have h0 : |x| ≠ 0 := by simpa using hx.ne'
      have := (tendsto_one_div_add_atTop_nhds_zero_nat (𝕜 := ℝ)).add_const |x|
      rw [zero_add] at this
      exact tendsto_const_nhds.div this h0
    rw [lintegral_congr_ae hlim] at hF
    refine lt_of_le_of_lt hF ?_
    refine lt_of_le_of_lt (liminf_le_of_frequently_le' (x := ENNReal.ofReal 2) (Frequently.of_forall fun n => ?_)) ENNReal.ofReal_lt_top
    have he : (0 : ℝ) < 1 / ((n : ℝ) + 1) := by positivity
    have he1 : 1 / ((n : ℝ) + 1) ≤ 1 := by rw [div_le_one (by positivity)]; linarith [show (0 : ℝ) ≤ n by positivity]
    have hbd : ∀ x : ℝ, ‖1 / (1 / ((n : ℝ) + 1) + |x|)‖ ≤ (n : ℝ) + 1 := by
      intro x
      rw [Real.norm_eq_abs, abs_of_nonneg (by positivity)]
      calc _ ≤ 1 / (1 / ((n : ℝ) + 1)) := one_div_le_one_div_of_le he (by linarith [abs_nonneg x])
        _ = _ := by rw [one_div_one_div]
    rw [← ofReal_integral_eq_lintegral_ofReal (Integrable.mono' (integrable_const ((n : ℝ) + 1)) (Measurable.aestronglyMeasurable (by fun_prop)) (Eventually.of_forall hbd))
      (Eventually.of_forall fun x => by positivity)]
    refine ENNReal.ofReal_le_ofReal ?_
    rw [integral_congr_ae (g := fun x => 1 / (1 / ((n : ℝ) + 1) + x)) (by
      filter_upwards [mpBiased_pos 1 one_pos] with x hx
      rw [abs_of_pos hx]), one_approx _ he]
    have := Real.sqrt_nonneg ((2 + 1 / ((n : ℝ) + 1)) ^ 2 - 4)
    linarith
  · have hs : 0 < √q := Real.sqrt_pos.mpr hq
    have hsq : √q ^ 2 = q := Real.sq_sqrt hq.le
    have hne : 1 - √q ≠ 0 := by
      intro h
      have : √q = 1 := by linarith
      rw [this] at hsq
      exact h1 (by linarith)
    have hp := sq_pos_of_ne_zero hne
    refine Integrable.mono' (integrable_const (1 / (1 - √q) ^ 2)) (Measurable.aestronglyMeasurable (by fun_prop)) ?_
    filter_upwards [mpBiased_lower q hq] with x hx
    rw [Real.norm_eq_abs, abs_of_nonneg (by have : 0 < x := lt_of_lt_of_le hp hx; positivity)]
    exact one_div_le_one_div_of_le hp hx

/-- The Marchenko-Pastur density has mass `min(1, 1/q)`. -/
theorem mass_eq (q : ℝ) (hq : 0 < q) : mass q = min 1 (1 / q) := by
  by_cases h1 : q = 1
  · subst h1
    have h2 : Tendsto (fun n : ℕ => ∫ x, 1 / (1 / ((n : ℝ) + 1) + x) ∂(mpBiased 1)) atTop (𝓝 (mass 1)) := by
      refine tendsto_integral_of_dominated_convergence (fun x => |1 / x|) (fun n => Measurable.aestronglyMeasurable (by fun_prop)) (inv_integrable 1 one_pos).abs (fun n => ?_) ?_
      · filter_upwards [mpBiased_pos 1 one_pos] with x hx
        rw [Real.norm_eq_abs, abs_of_nonneg (by positivity), abs_of_nonneg (by positivity)]
        exact one_div_le_one_div_of_le hx (by have : (0 : ℝ) < 1 / ((n : ℝ) + 1) := by positivity
                                              linarith)
      · filter_upwards [mpBiased_pos 1 one_pos] with x hx
        have := (tendsto_one_div_add_atTop_nhds_zero_nat (𝕜 := ℝ)).add_const x
        rw [zero_add] at this
        exact tendsto_const_nhds.div this hx.ne'
    have h3 : Tendsto (fun n : ℕ => (2 + 1 / ((n : ℝ) + 1) - √((2 + 1 / ((n : ℝ) + 1)) ^ 2 - 4)) / 2) atTop (𝓝 ((2 + 0 - √((2 + 0) ^ 2 - 4)) / 2)) := by
      have h0 := tendsto_one_div_add_atTop_nhds_zero_nat (𝕜 := ℝ)
      have h20 := h0.const_add 2
      exact (h20.sub (((h20.pow 2).sub_const 4).sqrt)).div_const 2
    have h4 : ∀ n : ℕ, ∫ x, 1 / (1 / ((n : ℝ) + 1) + x) ∂(mpBiased 1) = (2 + 1 / ((n : ℝ) + 1) - √((2 + 1 / ((n : ℝ) + 1)) ^ 2 - 4)) / 2 := fun n => one_approx _ (by positivity)
    simp only [h4] at h2
    have := tendsto_nhds_unique h2 h3
    rw [this]
    norm_num
  · exact mass_ne q hq h1

/-- Tails of the density fill up its mass. -/
theorem tail_tendsto (q : ℝ) (hq : 0 < q) (ε : ℝ) (hε : 0 < ε) : ∃ δ > 0, ∀ a, 0 < a → a ≤ δ → |tail q a - min 1 (1 / q)| < ε := by
  rw [← mass_eq q hq]
  have hmono : ∀ a, 0 < a → tail q a ≤ mass q := by
    intro a ha
    rw [tail, ← above_integral q hq a ha, mass]
    refine integral_mono_ae (above_integrable q a ha) (inv_integrable q hq) ?_
    filter_upwards [mpBiased_pos q hq] with x hx
    unfold above
    split_ifs with h
    · positivity
    · rw [max_eq_left (not_le.mp h).le]
  have h2 : Tendsto (fun n : ℕ => tail q (1 / ((n : ℝ) + 1))) atTop (𝓝 (mass q)) := by
    have e : ∀ n : ℕ, tail q (1 / ((n : ℝ) + 1)) = ∫ x, above (1 / ((n : ℝ) + 1)) x ∂(mpBiased q) := fun n => (above_integral q hq _ (by positivity)).symm
    simp only [e]
    refine tendsto_integral_of_dominated_convergence (fun x => |1 / x|) (fun n => (above_measurable _).aestronglyMeasurable) (inv_integrable q hq).abs (fun n => ?_) ?_
    · filter_upwards [mpBiased_pos q hq] with x hx
      unfold above
      rw [Real.norm_eq_abs]
      split_ifs with h
      · simp
      · rw [max_eq_left (not_le.mp h).le]
    · filter_upwards [mpBiased_pos q hq] with x hx
      refine tendsto_const_nhds.congr' ?_
      filter_upwards [(tendsto_one_div_add_atTop_nhds_zero_nat (𝕜 := ℝ)).eventually (gt_mem_nhds hx)] with n hn
      unfold above
      rw [if_neg (not_le.mpr hn), max_eq_left hn.le]
  obtain ⟨n, hn⟩ := (h2.eventually (lt_mem_nhds (show mass q - ε < mass q by linarith))).exists
  refine ⟨1 / ((n : ℝ) + 1), by positivity, fun a ha hle => ?_⟩
  have h3 := tail_antitone q hq a _ ha hle
  have h4 := hmono a ha
  rw [abs_lt]
  constructor <;> linarith

/-- Below the lower edge the tail is the full mass. -/
theorem tail_full (q : ℝ) (hq : 0 < q) (a : ℝ) (ha : 0 < a) (hle : a ≤ (1 - √q) ^ 2) : tail q a = min 1 (1 / q) := by
  rw [← mass_eq q hq, tail, ← above_integral q hq a ha, mass]
  refine integral_congr_ae ?_
  have hne : ∀ᵐ x ∂(mpBiased q), x ≠ a := by
    rw [ae_iff]
    simpa using mpBiased_atom q hq a
  filter_upwards [mpBiased_lower q hq, hne] with x hx hxa
  have : a < x := lt_of_le_of_ne (hle.trans hx) (Ne.symm hxa)
  unfold above
  rw [if_neg (not_le.mpr this), max_eq_left this.le]

end RMT.Semi
