import Verif.Lemmas.PairAverages

/-!
# Spectral rigidity and number variance as sums over pairs of levels; their averages over all window centres
-/

namespace RMT
namespace UniformM
open MeasureTheory ProbabilityTheory Real Set Spec Filter Topology Semi

variable {Ω : Type} [MeasurableSpace Ω]

/-- The rigidity over the window of length `L` about `c`, as a function of two levels. -/
noncomputable def d3k (L c x y : ℝ) : ℝ :=
  1 / L * ((c + L / 2 - max (clip (c - L / 2) (c + L / 2) x) (clip (c - L / 2) (c + L / 2) y)) -
    12 / L ^ 3 * ((((L / 2) ^ 2 - (clip (c - L / 2) (c + L / 2) x - c) ^ 2) / 2) * (((L / 2) ^ 2 - (clip (c - L / 2) (c + L / 2) y - c) ^ 2) / 2)) -
    1 / L * ((c + L / 2 - clip (c - L / 2) (c + L / 2) x) * (c + L / 2 - clip (c - L / 2) (c + L / 2) y)))

theorem d3k_comm (L c x y : ℝ) : d3k L c x y = d3k L c y x := by
  unfold d3k
  rw [max_comm]
  ring

theorem d3k_below {L c x : ℝ} (hL : 0 < L) (y : ℝ) (h : x < c - L / 2) : d3k L c x y = 0 := by
  have h1 : clip (c - L / 2) (c + L / 2) x = c - L / 2 := by
    unfold clip
    rw [min_eq_left (by linarith), max_eq_left h.le]
  have h2 : c - L / 2 ≤ clip (c - L / 2) (c + L / 2) y := le_max_left _ _
  unfold d3k
  rw [h1, max_eq_right h2]
  have : L ≠ 0 := hL.ne'
  field_simp
  ring

theorem d3k_above {L c x : ℝ} (hL : 0 < L) (y : ℝ) (h : c + L / 2 < x) : d3k L c x y = 0 := by
  have h1 : clip (c - L / 2) (c + L / 2) x = c + L / 2 := by
    unfold clip
    rw [min_eq_right h.le, max_eq_right (by linarith)]
  have h2 : clip (c - L / 2) (c + L / 2) y ≤ c + L / 2 := max_le (by linarith) (min_le_right _ _)
  unfold d3k
  rw [h1, max_eq_left h2]
  have : L ≠ 0 := hL.ne'
  field_simp
  ring

theorem d3k_far {L c x : ℝ} (hL : 0 < L) (y : ℝ) (h : ¬ |c - x| ≤ L / 2) : d3k L c x y = 0 := by
  rw [abs_le, not_and_or, not_le, not_le] at h
  rcases h with h | h
  · exact d3k_above hL y (by linarith)
  · exact d3k_below hL y (by linarith)

theorem d3k_bound {L : ℝ} (hL : 0 < L) (c x y : ℝ) : |d3k L c x y| ≤ 3 * (near (L / 2) c x * near (L / 2) c y) := by
  by_cases hx : |c - x| ≤ L / 2
  swap
  · rw [d3k_far hL y hx]
    simp [near, hx]
  by_cases hy : |c - y| ≤ L / 2
  swap
  · rw [d3k_comm, d3k_far hL x hy]
    simp [near, hy]
  rw [near, near, if_pos hx, if_pos hy]
  unfold d3k
  have b1 : ∀ z, c - L / 2 ≤ clip (c - L / 2) (c + L / 2) z ∧ clip (c - L / 2) (c + L / 2) z ≤ c + L / 2 := fun z => ⟨le_max_left _ _, max_le (by linarith) (min_le_right _ _)⟩
  obtain ⟨u1, u2⟩ := b1 x
  obtain ⟨v1, v2⟩ := b1 y
  set u := clip (c - L / 2) (c + L / 2) x
  set v := clip (c - L / 2) (c + L / 2) y
  have m1 : c - L / 2 ≤ max u v := u1.trans (le_max_left _ _)
  have m2 : max u v ≤ c + L / 2 := max_le u2 v2
  set M := max u v
  set p := ((L / 2) ^ 2 - (u - c) ^ 2) / 2
  set q := ((L / 2) ^ 2 - (v - c) ^ 2) / 2
  have p0 : 0 ≤ p ∧ p ≤ L ^ 2 / 8 := ⟨by simp only [p]; nlinarith, by simp only [p]; nlinarith [sq_nonneg (u - c)]⟩
  have q0 : 0 ≤ q ∧ q ≤ L ^ 2 / 8 := ⟨by simp only [q]; nlinarith, by simp only [q]; nlinarith [sq_nonneg (v - c)]⟩
  have pq : p * q ≤ L ^ 2 / 8 * (L ^ 2 / 8) := mul_le_mul p0.2 q0.2 q0.1 (by positivity)
  have pq0 : 0 ≤ p * q := mul_nonneg p0.1 q0.1
  have ab : (c + L / 2 - u) * (c + L / 2 - v) ≤ L * L := mul_le_mul (by linarith) (by linarith) (by linarith) hL.le
  have ab0 : 0 ≤ (c + L / 2 - u) * (c + L / 2 - v) := mul_nonneg (by linarith) (by linarith)
  have t2 : 12 / L ^ 3 * (p * q) ≤ 3 / 16 * L := by
    calc 12 / L ^ 3 * (p * q) ≤ 12 / L ^ 3 * (L ^ 2 / 8 * (L ^ 2 / 8)) := by gcongr
      _ = _ := by field_simp; ring
  have t2' : 0 ≤ 12 / L ^ 3 * (p * q) := by positivity
  have t3 : 1 / L * ((c + L / 2 - u) * (c + L / 2 - v)) ≤ L := by
    calc 1 / L * ((c + L / 2 - u) * (c + L / 2 - v)) ≤ 1 / L * (L * L) := by gcongr
      _ = _ := by field_simp
  have t3' : 0 ≤ 1 / L * ((c + L / 2 - u) * (c + L / 2 - v)) := by positivity
  rw [abs_mul, abs_of_pos (by positivity : 0 < 1 / L), div_mul_eq_mul_div, one_mul, div_le_iff₀ hL, abs_le]
  constructor <;> linarith

theorem d3k_measurable (L : ℝ) : Measurable fun p : ℝ × ℝ × ℝ => d3k L p.1 p.2.1 p.2.2 := by
  have h : Continuous fun p : ℝ × ℝ × ℝ => d3k L p.1 p.2.1 p.2.2 := by
    unfold d3k clip
    fun_prop
  exact h.measurable

omit [MeasurableSpace Ω] in
/-- The rigidity of the counting function of the levels. -/
theorem delta3_pairs (Y : Nat → Ω → ℝ) (N : Nat) (ω : Ω) (L c : ℝ) (hL : 0 < L) :
    delta3 (stairs Y N ω) (c - L / 2) (c + L / 2) = ∑ i ∈ Finset.range N, ∑ j ∈ Finset.range N, d3k L c (Y i ω) (Y j ω) := by
  set a := c - L / 2 with ha
  set b := c + L / 2 with hb
  have hab : a < b := by linarith
  have hba : b - a = L := by rw [ha, hb]; ring
  have hmid : (a + b) / 2 = c := by rw [ha, hb]; ring
  have hstepm : ∀ y, Measurable (step y) := fun y => measurable_step.comp (measurable_const.prodMk measurable_id)
  have hfin : ∀ (g : ℝ → ℝ) (C : ℝ), Measurable g → (∀ t, |g t| ≤ C) → IntervalIntegrable g volume a b := fun g C hg hC => by
    rw [intervalIntegrable_iff_integrableOn_Ioc_of_le hab.le]
    exact Integrable.of_bound hg.aestronglyMeasurable C (Filter.Eventually.of_forall fun t => hC t)
  have hsec : Measurable (stairs Y N ω) := Finset.measurable_sum _ fun k _ => hstepm (Y k ω)
  have hint : IntervalIntegrable (stairs Y N ω) volume a b := hfin _ _ hsec (stairs_bound Y N ω)
  have hsqb : ∀ t, |stairs Y N ω t ^ 2| ≤ (N : ℝ) ^ 2 := fun t => by
    rw [abs_pow]; exact pow_le_pow_left₀ (abs_nonneg _) (stairs_bound Y N ω t) 2
  have hint2 : IntervalIntegrable (fun t => stairs Y N ω t ^ 2) volume a b := hfin _ _ (hsec.pow_const 2) hsqb
  have hstep : ∀ (h : ℝ → ℝ), Continuous h → ∀ y, IntervalIntegrable (fun t => h t * step y t) volume a b := fun h hh y => by
    refine IntervalIntegrable.continuousOn_mul (hfin _ 1 (hstepm y) fun t => ?_) hh.continuousOn
    rcases step_mem y t with h | h <;> rw [h] <;> simp
  have hone : ∀ y, ∫ t in a..b, step y t = b - clip a b y := fun y => by
    have := step_integral a b y hab.le fun _ => 1
    simp only [one_mul] at this
    rw [this]
    simp
  have hα : ∫ t in a..b, stairs Y N ω t = ∑ k ∈ Finset.range N, (b - clip a b (Y k ω)) := by
    unfold stairs
    rw [intervalIntegral.integral_finsetSum fun k _ => by simpa using hstep (fun _ => 1) continuous_const (Y k ω)]
    exact Finset.sum_congr rfl fun k _ => hone _
  have hβ : ∫ t in a..b, (t - c) * stairs Y N ω t = ∑ k ∈ Finset.range N, ((L / 2) ^ 2 - (clip a b (Y k ω) - c) ^ 2) / 2 := by
    unfold stairs
    simp only [Finset.mul_sum]
    rw [intervalIntegral.integral_finsetSum fun k _ => hstep (fun t => t - c) (by fun_prop) (Y k ω)]
    refine Finset.sum_congr rfl fun k _ => ?_
    rw [step_integral a b (Y k ω) hab.le fun t => t - c, intervalIntegral.integral_comp_sub_right (fun t => t), integral_id]
    rw [hb]
    ring
  have hγ : ∫ t in a..b, stairs Y N ω t ^ 2 = ∑ i ∈ Finset.range N, ∑ j ∈ Finset.range N, (b - max (clip a b (Y i ω)) (clip a b (Y j ω))) := by
    have e : ∀ t, stairs Y N ω t ^ 2 = ∑ i ∈ Finset.range N, ∑ j ∈ Finset.range N, step (max (Y i ω) (Y j ω)) t := fun t => by
      unfold stairs
      rw [sq, Finset.sum_mul_sum]
      refine Finset.sum_congr rfl fun i _ => Finset.sum_congr rfl fun j _ => ?_
      unfold step
      by_cases h1 : Y i ω ≤ t <;> by_cases h2 : Y j ω ≤ t <;> simp [h1, h2]
    have hcm : ∀ x y, clip a b (max x y) = max (clip a b x) (clip a b y) := fun x y => by
      have hmono : Monotone (clip a b) := fun u v huv => max_le_max le_rfl (min_le_min_right b huv)
      exact hmono.map_max
    have hs : ∀ z, IntervalIntegrable (fun t => step z t) volume a b := fun z => by simpa using hstep (fun _ => 1) continuous_const z
    have hs2 : ∀ i, IntervalIntegrable (fun t => ∑ j ∈ Finset.range N, step (max (Y i ω) (Y j ω)) t) volume a b := fun i => by
      have := IntervalIntegrable.sum (Finset.range N) (f := fun j t => step (max (Y i ω) (Y j ω)) t) fun j _ => hs _
      simpa only [Finset.sum_fn] using this
    simp only [e]
    rw [intervalIntegral.integral_finsetSum fun i _ => hs2 i]
    refine Finset.sum_congr rfl fun i _ => ?_
    rw [intervalIntegral.integral_finsetSum fun j _ => hs _]
    exact Finset.sum_congr rfl fun j _ => by rw [hone, hcm]
  rw [delta3_eq _ a b hab hint hint2, hmid, hα, hβ, hγ, hba]
  rw [sq (∑ k ∈ Finset.range N, ((L / 2) ^ 2 - (clip a b (Y k ω) - c) ^ 2) / 2), sq (∑ k ∈ Finset.range N, (b - clip a b (Y k ω))), Finset.sum_mul_sum, Finset.sum_mul_sum]
  simp only [Finset.mul_sum, ← Finset.sum_sub_distrib]
  rfl

/-! ## Limits -/

variable {P : ℕ → Measure Ω} [∀ n, IsProbabilityMeasure (P n)] {Y : ℕ → Nat → Ω → ℝ}

/-- The average rigidity over all window centres tends to `L / 15`. -/
theorem rigidity_limit (hY : ∀ n : ℕ, 0 < n → UniformLevels (P n) n (Y n)) (hY0 : ∀ n k, Measurable (Y n k)) (L : ℝ) (hL : 0 < L) (lo hi : ℕ → Ω → ℝ)
    (hlh : ∀ᶠ n : ℕ in atTop, ∀ᵐ ω ∂(P n), 0 ≤ lo n ω ∧ lo n ω < hi n ω ∧ hi n ω ≤ n ∧ ∀ j < n, lo n ω ≤ Y n j ω ∧ Y n j ω ≤ hi n ω) :
    InProbability P (fun n ω => average (lo n ω) (hi n ω) fun c => delta3 (stairs (Y n) n ω) (c - L / 2) (c + L / 2)) (L / 15) := by
  simp only [delta3_pairs _ _ _ L _ hL]
  refine average_ends (b := 3) hY hL.le (by norm_num) (fun n => pair_stat (hY0 n) n (by norm_num) (d3k L) (d3k_measurable L) (d3k_bound hL)) _ ?_ lo hi hlh
  refine pair_limit hY hY0 hL.le (by norm_num) (d3k L) (d3k_measurable L) (d3k_bound hL) (fun _ => L / 15) _ tendsto_const_nhds ?_
  filter_upwards [eventually_gt_atTop 0] with n hn c h1 h2
  have := mean_rigidity (hY n hn) (c - L / 2) (c + L / 2) (by linarith) (by linarith) (by linarith)
  simp only [delta3_pairs _ _ _ L _ hL] at this
  rw [this]
  ring

theorem near_inside (L c n : ℝ) (hL : 0 ≤ L) (h1 : L / 2 ≤ c) (h2 : c ≤ n - L / 2) : ∫ y in (0 : ℝ)..n, near (L / 2) c y = L := by
  have e : (fun y => near (L / 2) c y) = (Icc (c - L / 2) (c + L / 2)).indicator 1 := by
    funext y
    simp only [near, indicator, mem_Icc, Pi.one_apply, abs_le]
    congr 1
    exact propext ⟨fun h => ⟨by linarith, by linarith⟩, fun h => ⟨by linarith, by linarith⟩⟩
  rw [e, intervalIntegral.integral_of_le (by linarith), ← integral_Icc_eq_integral_Ioc, integral_indicator_one measurableSet_Icc, measureReal_restrict_apply measurableSet_Icc,
    inter_eq_left.mpr (Icc_subset_Icc (by linarith) (by linarith)), volume_real_Icc]
  rw [max_eq_left (by linarith)]
  ring

/-- The average number of levels in a window tends to `L`, the average of its square to `L + L²`. -/
theorem counts_limit (hY : ∀ n : ℕ, 0 < n → UniformLevels (P n) n (Y n)) (hY0 : ∀ n k, Measurable (Y n k)) (L : ℝ) (hL : 0 ≤ L) (lo hi : ℕ → Ω → ℝ)
    (hlh : ∀ᶠ n : ℕ in atTop, ∀ᵐ ω ∂(P n), 0 ≤ lo n ω ∧ lo n ω < hi n ω ∧ hi n ω ≤ n ∧ ∀ j < n, lo n ω ≤ Y n j ω ∧ Y n j ω ≤ hi n ω) :
    InProbability P (fun n ω => average (lo n ω) (hi n ω) fun c => ∑ j ∈ Finset.range n, near (L / 2) c (Y n j ω)) L ∧
    InProbability P (fun n ω => average (lo n ω) (hi n ω) fun c => (∑ j ∈ Finset.range n, near (L / 2) c (Y n j ω)) ^ 2) (L + L ^ 2) := by
  have hm1 : Measurable fun p : ℝ × ℝ => near (L / 2) p.1 p.2 := near_measurable _
  have hb1 : ∀ c x, |near (L / 2) c x| ≤ 1 * near (L / 2) c x := fun c x => by rw [abs_of_nonneg (near_nonneg _ _ _), one_mul]
  have hgm : ∀ c, Measurable fun y => near (L / 2) c y := fun c => hm1.comp measurable_prodMk_left
  have hgb : ∀ c y, |near (L / 2) c y| ≤ 1 := fun c y => by rw [abs_of_nonneg (near_nonneg _ _ _)]; exact near_le _ _ _
  constructor
  · refine average_ends (b := 1) hY hL (by norm_num) (fun n => single_stat (hY0 n) n (by norm_num) (near (L / 2)) hm1 hb1) _ ?_ lo hi hlh
    refine single_limit hY hY0 hL (by norm_num) (near (L / 2)) hm1 hb1 (fun _ => L) _ tendsto_const_nhds ?_
    filter_upwards [eventually_gt_atTop 0] with n hn c h1 h2
    have hn' : (0 : ℝ) < n := by exact_mod_cast hn
    rw [(sum_moments hn'.le (hY n hn) n (fun y => near (L / 2) c y) (hgm c) 1 (hgb c)).1, near_inside L c n hL h1 h2]
    field_simp
  · have e : ∀ (n : ℕ) ω c, (∑ j ∈ Finset.range n, near (L / 2) c (Y n j ω)) ^ 2 = ∑ i ∈ Finset.range n, ∑ j ∈ Finset.range n, near (L / 2) c (Y n i ω) * near (L / 2) c (Y n j ω) := fun n ω c => by
      rw [sq, Finset.sum_mul_sum]
    have hm2 : Measurable fun p : ℝ × ℝ × ℝ => near (L / 2) p.1 p.2.1 * near (L / 2) p.1 p.2.2 :=
      (hm1.comp (measurable_fst.prodMk (measurable_fst.comp measurable_snd))).mul (hm1.comp (measurable_fst.prodMk (measurable_snd.comp measurable_snd)))
    have hb2 : ∀ c x y, |near (L / 2) c x * near (L / 2) c y| ≤ 1 * (near (L / 2) c x * near (L / 2) c y) := fun c x y => by
      rw [abs_of_nonneg (mul_nonneg (near_nonneg _ _ _) (near_nonneg _ _ _)), one_mul]
    simp only [e]
    refine average_ends (b := 1) hY hL (by norm_num) (fun n => pair_stat (hY0 n) n (by norm_num) (fun c x y => near (L / 2) c x * near (L / 2) c y) hm2 hb2) _ ?_ lo hi hlh
    have hlim : Tendsto (fun n : ℕ => L + L ^ 2 - L ^ 2 / n) atTop (𝓝 (L + L ^ 2)) := by
      have := (tendsto_const_div_atTop_nhds_zero_nat (L ^ 2)).const_sub (L + L ^ 2)
      simpa using this
    refine pair_limit hY hY0 hL (by norm_num) (fun c x y => near (L / 2) c x * near (L / 2) c y) hm2 hb2 _ _ hlim ?_
    filter_upwards [eventually_gt_atTop 0] with n hn c h1 h2
    have hn' : (0 : ℝ) < n := by exact_mod_cast hn
    simp only [← e]
    rw [(sum_moments hn'.le (hY n hn) n (fun y => near (L / 2) c y) (hgm c) 1 (hgb c)).2.2]
    simp only [near_sq, near_inside L c n hL h1 h2]
    field_simp
    ring

end UniformM
end RMT
