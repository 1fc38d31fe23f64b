import Verif.Lemmas.PairSums
import Verif.Lemmas.CorrelationLaw
import Verif.Spec.Draws

/-!
# Averages over window centres of local statistics of independent uniform levels
-/

namespace RMT
namespace UniformM
open MeasureTheory ProbabilityTheory Real Set Spec Filter Topology Semi

variable {Ω : Type} [MeasurableSpace Ω]

/-! ## Convergence in probability -/

theorem inProb_of_moments {P : ℕ → Measure Ω} [∀ n, IsProbabilityMeasure (P n)] (X : ℕ → Ω → ℝ) (c : ℝ) (hX : ∀ᶠ n in atTop, MemLp (X n) 2 (P n)) (h1 : Tendsto (fun n => ∫ ω, X n ω ∂(P n)) atTop (𝓝 c))
    (h2 : Tendsto (fun n => Var[X n; P n]) atTop (𝓝 0)) : InProbability P X c := by
  intro ε hε
  have hv : Tendsto (fun n => ENNReal.ofReal (Var[X n; P n] / (ε / 2) ^ 2)) atTop (𝓝 0) := by
    have := ENNReal.tendsto_ofReal (h2.div_const ((ε / 2) ^ 2))
    simpa using this
  have hm : ∀ᶠ n in atTop, |(∫ ω, X n ω ∂(P n)) - c| < ε / 2 := Metric.tendsto_nhds.mp h1 (ε / 2) (by positivity)
  refine tendsto_of_tendsto_of_tendsto_of_le_of_le' tendsto_const_nhds hv (Eventually.of_forall fun n => zero_le) ?_
  filter_upwards [hX, hm] with n hn hmn
  refine le_trans (measure_mono fun ω hω => ?_) (meas_ge_le_variance_div_sq hn (by positivity : 0 < ε / 2))
  have hω' : ε ≤ |X n ω - c| := hω
  show ε / 2 ≤ |X n ω - ∫ ω, X n ω ∂(P n)|
  have := abs_sub_le (X n ω) (∫ ω, X n ω ∂(P n)) c
  linarith

theorem inProb_map3 {P : ℕ → Measure Ω} (X Y Z : ℕ → Ω → ℝ) (x y z : ℝ) (hX : InProbability P X x) (hY : InProbability P Y y) (hZ : InProbability P Z z)
    (g : ℝ × ℝ × ℝ → ℝ) (hg : ContinuousAt g (x, y, z)) : InProbability P (fun n ω => g (X n ω, Y n ω, Z n ω)) (g (x, y, z)) := by
  refine inProb_of_cover _ _ fun ε hε => ?_
  obtain ⟨δ, hδ, h⟩ := Metric.continuousAt_iff.mp hg ε hε
  refine ⟨fun n => {ω | δ ≤ |X n ω - x|}, fun n => {ω | δ ≤ |Y n ω - y|}, fun n => {ω | δ ≤ |Z n ω - z|}, hX δ hδ, hY δ hδ, hZ δ hδ, Eventually.of_forall fun n ω hω => ?_⟩
  by_contra hc
  simp only [mem_union, mem_ofPred_eq, not_or, not_le] at hc
  have := @h (X n ω, Y n ω, Z n ω) (by
    rw [Prod.dist_eq, Prod.dist_eq, max_lt_iff, max_lt_iff]
    exact ⟨hc.1.1, hc.1.2, hc.2⟩)
  rw [Real.dist_eq] at this
  linarith

theorem inProb_const {P : ℕ → Measure Ω} (c : ℝ) : InProbability P (fun _ _ => c) c := by
  intro ε hε
  have : ∀ n, P n {ω : Ω | ε ≤ |c - c|} = 0 := fun n => by
    have : {ω : Ω | ε ≤ |c - c|} = ∅ := by
      ext ω
      simp [hε]
    rw [this, measure_empty]
  simp only [this]
  exact tendsto_const_nhds

theorem inProb_congr' {P : ℕ → Measure Ω} (X Y : ℕ → Ω → ℝ) (c : ℝ) (h : ∀ᶠ n in atTop, ∀ᵐ ω ∂(P n), X n ω = Y n ω) (hX : InProbability P X c) : InProbability P Y c := by
  intro ε hε
  refine (hX ε hε).congr' (h.mono fun n hn => measure_congr ?_)
  filter_upwards [hn] with ω hω
  show (ε ≤ |X n ω - c|) = (ε ≤ |Y n ω - c|)
  rw [hω]

/-! ## Local statistics -/

/-- A statistic of the levels in a window of length `L` about `c`: measurable, and bounded by a multiple of one plus the square of the number of levels in the window. -/
structure LocalStat (Y : Nat → Ω → ℝ) (N : Nat) (L b : ℝ) (F : Ω → ℝ → ℝ) : Prop where
  measurable : Measurable fun p : Ω × ℝ => F p.1 p.2
  bound : ∀ ω c, |F ω c| ≤ b * (1 + (∑ j ∈ Finset.range N, near (L / 2) c (Y j ω)) ^ 2)

section
variable {P : Measure Ω} [IsProbabilityMeasure P] {Y : Nat → Ω → ℝ} {N : Nat} {L b : ℝ} {F : Ω → ℝ → ℝ}

omit [MeasurableSpace Ω] in
theorem near_sum_le (Y : Nat → Ω → ℝ) (N : Nat) (L c : ℝ) (ω : Ω) : (∑ j ∈ Finset.range N, near L c (Y j ω)) ^ 2 ≤ (N : ℝ) ^ 2 := by
  refine pow_le_pow_left₀ (Finset.sum_nonneg fun j _ => near_nonneg _ _ _) ?_ 2
  calc _ ≤ ∑ j ∈ Finset.range N, (1 : ℝ) := Finset.sum_le_sum fun j _ => near_le _ _ _
    _ = _ := by simp

theorem near_sum_measurable (hY : ∀ k, Measurable (Y k)) (N : Nat) (L : ℝ) : Measurable fun p : Ω × ℝ => (∑ j ∈ Finset.range N, near L p.2 (Y j p.1)) ^ 2 :=
  (Finset.measurable_sum _ fun j _ => (near_measurable L).comp (measurable_snd.prodMk ((hY j).comp measurable_fst))).pow_const 2

theorem dom_stat (hY : ∀ k, Measurable (Y k)) (N : Nat) (L b : ℝ) (hb : 0 ≤ b) : LocalStat Y N L b fun ω c => b * (1 + (∑ j ∈ Finset.range N, near (L / 2) c (Y j ω)) ^ 2) where
  measurable := ((near_sum_measurable hY N (L / 2)).const_add 1).const_mul b
  bound := fun ω c => by rw [abs_of_nonneg (by positivity)]

theorem LocalStat.le (h : LocalStat Y N L b F) (hb : 0 ≤ b) (ω : Ω) (c : ℝ) : |F ω c| ≤ b * (1 + (N : ℝ) ^ 2) :=
  (h.bound ω c).trans (mul_le_mul_of_nonneg_left (by linarith [near_sum_le Y N (L / 2) c ω]) hb)

theorem LocalStat.integrable (h : LocalStat Y N L b F) (hb : 0 ≤ b) (c : ℝ) : Integrable (fun ω => F ω c) P :=
  Integrable.of_bound (h.measurable.comp measurable_prodMk_right).aestronglyMeasurable _ (Eventually.of_forall fun ω => h.le hb ω c)

theorem LocalStat.interval (h : LocalStat Y N L b F) (hb : 0 ≤ b) (ω : Ω) (x y : ℝ) : IntervalIntegrable (F ω) volume x y := by
  have : ∀ S : Set ℝ, MeasurableSet S → volume S < ⊤ → IntegrableOn (F ω) S := fun S hS hv =>
    Measure.integrableOn_of_bounded hv.ne (h.measurable.comp measurable_prodMk_left).aestronglyMeasurable (M := b * (1 + (N : ℝ) ^ 2)) (Eventually.of_forall fun c => h.le hb ω c)
  exact ⟨this _ measurableSet_Ioc (by simp), this _ measurableSet_Ioc (by simp)⟩

theorem LocalStat.mean_bound (h : LocalStat Y N L b F) (hN : 0 < N) (hY : UniformLevels P N Y) (hL : 0 ≤ L) (hb : 0 ≤ b) (c : ℝ) : ∫ ω, |F ω c| ∂P ≤ b * (1 + (L + L ^ 2)) := by
  have hN' : (0 : ℝ) < N := by exact_mod_cast hN
  have h2 := near_second hN' hY N (L / 2) (by linarith) c
  have e : (N : ℝ) * (2 * (L / 2) / N) = L := by field_simp
  rw [e] at h2
  have hi : Integrable (fun ω => (∑ j ∈ Finset.range N, near (L / 2) c (Y j ω)) ^ 2) P :=
    Integrable.of_bound ((near_sum_measurable hY.measurable N (L / 2)).comp measurable_prodMk_right).aestronglyMeasurable ((N : ℝ) ^ 2) (Eventually.of_forall fun ω => by
      rw [Real.norm_eq_abs, abs_of_nonneg (by positivity)]; exact near_sum_le Y N (L / 2) c ω)
  calc _ ≤ ∫ ω, b * (1 + (∑ j ∈ Finset.range N, near (L / 2) c (Y j ω)) ^ 2) ∂P :=
        integral_mono (h.integrable hb c).abs (((integrable_const _).add hi).const_mul b) fun ω => h.bound ω c
    _ = b * (1 + ∫ ω, (∑ j ∈ Finset.range N, near (L / 2) c (Y j ω)) ^ 2 ∂P) := by
      rw [integral_const_mul, integral_add (integrable_const _) hi]
      simp
    _ ≤ _ := by gcongr

theorem LocalStat.swap (h : LocalStat Y N L b F) (hb : 0 ≤ b) (x y : ℝ) (hxy : x ≤ y) :
    Measurable (fun ω => ∫ c in x..y, F ω c) ∧ ∫ ω, (∫ c in x..y, F ω c) ∂P = ∫ c in x..y, (∫ ω, F ω c ∂P) := by
  have e : (fun ω => ∫ c in x..y, F ω c) = fun ω => ∫ c in Ioc x y, F ω c := funext fun ω => intervalIntegral.integral_of_le hxy
  constructor
  · rw [e]
    exact (h.measurable.stronglyMeasurable.integral_prod_right (ν := volume.restrict (Ioc x y))).measurable
  · rw [e, intervalIntegral.integral_of_le hxy]
    refine integral_integral_swap (f := fun ω c => F ω c) ?_
    exact Integrable.of_bound h.measurable.aestronglyMeasurable (b * (1 + (N : ℝ) ^ 2)) (Eventually.of_forall fun p => h.le hb p.1 p.2)

/-- The mean of the average over all centres, when the mean is `m` for all windows inside. -/
theorem LocalStat.mean_average (h : LocalStat Y N L b F) (hN : 0 < N) (hY : UniformLevels P N Y) (hL : 0 ≤ L) (hb : 0 ≤ b) (hLN : L ≤ N) (m : ℝ)
    (hm : ∀ c, L / 2 ≤ c → c ≤ N - L / 2 → ∫ ω, F ω c ∂P = m) :
    |(∫ ω, 1 / (N : ℝ) * (∫ c in (0 : ℝ)..N, F ω c) ∂P) - m| ≤ L / N * (b * (1 + (L + L ^ 2)) + |m|) := by
  have hN' : (0 : ℝ) < N := by exact_mod_cast hN
  rw [integral_const_mul, (h.swap hb 0 N hN'.le).2]
  set f : ℝ → ℝ := fun c => ∫ ω, F ω c ∂P with hf
  have hfm : Measurable f := (h.measurable.stronglyMeasurable.integral_prod_left (μ := P)).measurable
  have hfb : ∀ c, |f c| ≤ b * (1 + (L + L ^ 2)) := fun c => abs_integral_le_integral_abs.trans (h.mean_bound hN hY hL hb c)
  have hfi : ∀ x y, IntervalIntegrable (fun c => f c - m) volume x y := fun x y => by
    have : ∀ S : Set ℝ, volume S < ⊤ → IntegrableOn (fun c => f c - m) S := fun S hv =>
      Measure.integrableOn_of_bounded hv.ne (hfm.sub_const m).aestronglyMeasurable (M := b * (1 + (L + L ^ 2)) + |m|) (Eventually.of_forall fun c => by
        exact (abs_sub _ _).trans (by linarith [hfb c]))
    exact ⟨this _ (by simp), this _ (by simp)⟩
  have hfi0 : IntervalIntegrable f volume 0 N := by
    have := (hfi 0 N).add (intervalIntegrable_const (c := m))
    simpa using this
  have e1 : 1 / (N : ℝ) * (∫ c in (0 : ℝ)..N, f c) - m = 1 / (N : ℝ) * ∫ c in (0 : ℝ)..N, (f c - m) := by
    rw [intervalIntegral.integral_sub hfi0 intervalIntegrable_const, intervalIntegral.integral_const, smul_eq_mul]
    field_simp
    ring
  have e2 : ∫ c in (L / 2)..(N - L / 2), (f c - m) = 0 := by
    rw [intervalIntegral.integral_congr (g := fun _ => 0) fun c hc => ?_]
    · simp
    · rw [uIcc_of_le (by linarith)] at hc
      show f c - m = 0
      rw [hf]
      simp only
      rw [hm c hc.1 hc.2, sub_self]
  have e3 : ∫ c in (0 : ℝ)..N, (f c - m) = (∫ c in (0 : ℝ)..(L / 2), (f c - m)) + ∫ c in (N - L / 2 : ℝ)..N, (f c - m) := by
    rw [← intervalIntegral.integral_add_adjacent_intervals (hfi 0 (L / 2)) (hfi (L / 2) N), ← intervalIntegral.integral_add_adjacent_intervals (hfi (L / 2) (N - L / 2)) (hfi (N - L / 2) N), e2, zero_add]
  have hb2 : ∀ x y : ℝ, |∫ c in x..y, (f c - m)| ≤ (b * (1 + (L + L ^ 2)) + |m|) * |y - x| := fun x y => by
    have := intervalIntegral.norm_integral_le_of_norm_le_const (a := x) (b := y) (f := fun c => f c - m) (C := b * (1 + (L + L ^ 2)) + |m|) fun c _ => by
      rw [Real.norm_eq_abs]
      exact (abs_sub _ _).trans (by linarith [hfb c])
    simpa using this
  rw [e1, e3, abs_mul, abs_of_pos (by positivity : 0 < 1 / (N : ℝ))]
  have a1 := hb2 0 (L / 2)
  have a2 := hb2 (N - L / 2) N
  rw [sub_zero, abs_of_nonneg (by linarith : (0 : ℝ) ≤ L / 2)] at a1
  rw [sub_sub_cancel, abs_of_nonneg (by linarith : (0 : ℝ) ≤ L / 2)] at a2
  have a3 := abs_add_le (∫ c in (0 : ℝ)..(L / 2), (f c - m)) (∫ c in (N - L / 2 : ℝ)..N, (f c - m))
  calc _ ≤ 1 / (N : ℝ) * ((b * (1 + (L + L ^ 2)) + |m|) * L) := by gcongr; linarith
    _ = _ := by ring

end

/-! ## Limits -/

section
variable {P : ℕ → Measure Ω} [∀ n, IsProbabilityMeasure (P n)] {Y : ℕ → Nat → Ω → ℝ} {L b : ℝ} {F : ℕ → Ω → ℝ → ℝ}

/-- The averages over `[0, n]` converge if the means inside do and the variance vanishes. -/
theorem average_limit (hY : ∀ n : ℕ, 0 < n → UniformLevels (P n) n (Y n)) (hL : 0 ≤ L) (hb : 0 ≤ b) (hF : ∀ n, LocalStat (Y n) n L b (F n)) (m : ℕ → ℝ) (μ : ℝ) (hm : Tendsto m atTop (𝓝 μ))
    (hmean : ∀ᶠ n : ℕ in atTop, ∀ c, L / 2 ≤ c → c ≤ n - L / 2 → ∫ ω, F n ω c ∂(P n) = m n)
    (hvar : Tendsto (fun n : ℕ => Var[fun ω => 1 / (n : ℝ) * ∫ c in (0 : ℝ)..n, F n ω c; P n]) atTop (𝓝 0)) :
    InProbability P (fun n ω => 1 / (n : ℝ) * ∫ c in (0 : ℝ)..n, F n ω c) μ := by
  refine inProb_of_moments _ _ ?_ ?_ hvar
  · filter_upwards with n
    refine MemLp.of_bound ((((hF n).swap (P := P n) hb 0 n (Nat.cast_nonneg n)).1).const_mul _).aestronglyMeasurable (1 / (n : ℝ) * (b * (1 + (n : ℝ) ^ 2) * n)) (Eventually.of_forall fun ω => ?_)
    rw [norm_mul, Real.norm_of_nonneg (by positivity : 0 ≤ 1 / (n : ℝ))]
    gcongr
    have := intervalIntegral.norm_integral_le_of_norm_le_const (a := 0) (b := (n : ℝ)) (f := F n ω) (C := b * (1 + (n : ℝ) ^ 2)) fun c _ => (hF n).le hb ω c
    simpa using this
  · have h0 : Tendsto (fun n : ℕ => L / (n : ℝ) * (b * (1 + (L + L ^ 2)) + |m n|)) atTop (𝓝 0) := by
      have := (tendsto_const_div_atTop_nhds_zero_nat L).mul ((hm.abs).const_add (b * (1 + (L + L ^ 2))))
      simpa using this
    have h1 : Tendsto (fun n : ℕ => (∫ ω, 1 / (n : ℝ) * (∫ c in (0 : ℝ)..n, F n ω c) ∂(P n)) - m n) atTop (𝓝 0) := by
      refine squeeze_zero_norm' ?_ h0
      filter_upwards [hmean, eventually_gt_atTop 0, eventually_ge_atTop ⌈L⌉₊] with n h1 h2 h3
      exact (hF n).mean_average h2 (hY n h2) hL hb ((Nat.le_ceil L).trans (by exact_mod_cast h3)) (m n) h1
    have := h1.add hm
    simpa using this

/-- The least and the greatest level lie at the ends of the interval. -/
theorem ends_empty (hY : ∀ n : ℕ, 0 < n → UniformLevels (P n) n (Y n)) (ε : ℝ) (h0 : 0 < ε) (h1 : ε < 1) :
    Tendsto (fun n : ℕ => P n {ω | ∀ j < n, ¬ Y n j ω ≤ ε * n}) atTop (𝓝 0) ∧ Tendsto (fun n : ℕ => P n {ω | ∀ j < n, ¬ (1 - ε) * n < Y n j ω}) atTop (𝓝 0) := by
  have key : ∀ x y : ℝ, 0 ≤ x → y ≤ 1 → y - x = ε → Tendsto (fun n : ℕ => P n {ω | ∀ j < n, ¬ Y n j ω ∈ Ioc (x * n) (y * n)}) atTop (𝓝 0) := by
    intro x y hx hy hxy
    have hlim : Tendsto (fun n : ℕ => ENNReal.ofReal ((1 - ε) ^ n)) atTop (𝓝 0) := by
      have := ENNReal.tendsto_ofReal (tendsto_pow_atTop_nhds_zero_of_lt_one (by linarith : 0 ≤ 1 - ε) (by linarith))
      simpa using this
    refine hlim.congr' ?_
    filter_upwards [eventually_gt_atTop 0] with n hn
    have hn' : (0 : ℝ) < n := by exact_mod_cast hn
    have hp : ∀ k, (P n).real {ω | Y n k ω ∈ Ioc (x * n) (y * n)} = ε := fun k => by
      rw [level_prob hn' (hY n hn) k (x * n) (y * n) (by positivity) (by nlinarith) (by nlinarith), ← sub_mul, hxy]
      field_simp
    have := cnt_below (hY n hn).measurable (hY n hn).indep measurableSet_Ioc ε hp (Finset.range n) 1
    rw [below_one, Finset.card_range] at this
    rw [← this, ofReal_measureReal]
    congr 1
    ext ω
    simp only [mem_ofPred_eq, Nat.lt_one_iff, cnt]
    rw [Finset.sum_eq_zero_iff]
    simp only [Finset.mem_range]
    refine forall₂_congr fun j _ => ?_
    simp
  have k1 := key 0 ε le_rfl h1.le (by ring)
  have k2 := key (1 - ε) 1 (by linarith) le_rfl (by ring)
  constructor
  · refine tendsto_of_tendsto_of_tendsto_of_le_of_le tendsto_const_nhds k1 (fun n => zero_le) fun n => measure_mono fun ω hω j hj hc => ?_
    exact hω j hj hc.2
  · refine tendsto_of_tendsto_of_tendsto_of_le_of_le tendsto_const_nhds k2 (fun n => zero_le) fun n => measure_mono fun ω hω j hj hc => ?_
    exact hω j hj hc.1

/-- The averages over all centres between the least and the greatest level have the same limit as the averages over `[0, n]`. -/
theorem average_ends (hY : ∀ n : ℕ, 0 < n → UniformLevels (P n) n (Y n)) (hL : 0 ≤ L) (hb : 0 ≤ b) (hF : ∀ n, LocalStat (Y n) n L b (F n)) (μ : ℝ)
    (hA : InProbability P (fun n ω => 1 / (n : ℝ) * ∫ c in (0 : ℝ)..n, F n ω c) μ) (lo hi : ℕ → Ω → ℝ)
    (hlh : ∀ᶠ n : ℕ in atTop, ∀ᵐ ω ∂(P n), 0 ≤ lo n ω ∧ lo n ω < hi n ω ∧ hi n ω ≤ n ∧ ∀ j < n, lo n ω ≤ Y n j ω ∧ Y n j ω ≤ hi n ω) :
    InProbability P (fun n ω => average (lo n ω) (hi n ω) (F n ω)) μ := by
  have hC0 : 0 ≤ b * (1 + (L + L ^ 2)) := by positivity
  set C := b * (1 + (L + L ^ 2)) with hC
  have hr : InProbability P (fun n ω => (hi n ω - lo n ω) / n) 1 := by
    intro η hη
    set ε := min (η / 3) (1 / 2) with hε
    have hε0 : 0 < ε := by positivity
    have hε1 : ε < 1 := lt_of_le_of_lt (min_le_right _ _) (by norm_num)
    obtain ⟨k1, k2⟩ := ends_empty hY ε hε0 hε1
    have k3 := k1.add k2
    rw [add_zero] at k3
    refine tendsto_of_tendsto_of_tendsto_of_le_of_le' tendsto_const_nhds k3 (Eventually.of_forall fun n => zero_le) ?_
    filter_upwards [hlh, eventually_gt_atTop 0] with n hn hn0
    have hn' : (0 : ℝ) < n := by exact_mod_cast hn0
    refine le_trans (measure_mono_ae ?_) (measure_union_le _ _)
    filter_upwards [hn] with ω ⟨g1, g2, g3, g4⟩ hω
    by_contra hc
    have hω' : η ≤ |(hi n ω - lo n ω) / n - 1| := hω
    have c1 : ¬ ∀ j < n, ¬ Y n j ω ≤ ε * n := fun h => hc (Or.inl h)
    have c2 : ¬ ∀ j < n, ¬ (1 - ε) * n < Y n j ω := fun h => hc (Or.inr h)
    push Not at c1 c2
    obtain ⟨j, hj, hj'⟩ := c1
    obtain ⟨k, hk, hk'⟩ := c2
    have a1 : lo n ω ≤ ε * n := (g4 j hj).1.trans hj'
    have a2 : (1 - ε) * n ≤ hi n ω := hk'.le.trans (g4 k hk).2
    have a3 : (hi n ω - lo n ω) / n ≤ 1 := by
      rw [div_le_one hn']; linarith
    have a4 : 1 - 2 * ε ≤ (hi n ω - lo n ω) / n := by
      rw [le_div_iff₀ hn']; nlinarith
    rw [abs_of_nonpos (by linarith)] at hω'
    have : ε ≤ η / 3 := min_le_left _ _
    linarith
  have hE : InProbability P (fun n ω => 1 / (n : ℝ) * ((∫ c in (0 : ℝ)..(lo n ω), F n ω c) + ∫ c in (hi n ω)..n, F n ω c)) 0 := by
    intro η hη
    rw [ENNReal.tendsto_nhds_zero]
    intro δ hδ
    obtain ⟨d, hd0, hd⟩ := ENNReal.lt_iff_exists_nnreal_btwn.mp hδ
    have hd0' : (0 : ℝ) < d := by exact_mod_cast hd0
    set ε := min (1 / 4) (d * η / (4 * (C + 1))) with hε
    have hε0 : 0 < ε := by positivity
    have hε1 : ε < 1 := lt_of_le_of_lt (min_le_left _ _) (by norm_num)
    have hεC : 2 * ε * C ≤ d / 2 * η := by
      have : ε ≤ d * η / (4 * (C + 1)) := min_le_right _ _
      rw [le_div_iff₀ (by positivity)] at this
      nlinarith
    obtain ⟨k1, k2⟩ := ends_empty hY ε hε0 hε1
    have k3 := k1.add k2
    rw [add_zero] at k3
    have k4 := (ENNReal.tendsto_nhds_zero.mp k3) ((d / 2 : NNReal) : ENNReal) (by
      have : (0 : NNReal) < d / 2 := by
        have : (0 : NNReal) < d := by exact_mod_cast hd0
        exact half_pos this
      exact_mod_cast this)
    filter_upwards [hlh, eventually_gt_atTop 0, k4] with n hn hn0 hk4
    have hn' : (0 : ℝ) < n := by exact_mod_cast hn0
    set D : Ω → ℝ → ℝ := fun ω c => b * (1 + (∑ j ∈ Finset.range n, near (L / 2) c (Y n j ω)) ^ 2) with hD
    have hDs : LocalStat (Y n) n L b D := dom_stat (hY n hn0).measurable n L b hb
    have hD0 : ∀ ω c, 0 ≤ D ω c := fun ω c => by rw [hD]; positivity
    have hDm : ∀ c, ∫ ω, D ω c ∂(P n) ≤ C := fun c => by
      have := hDs.mean_bound hn0 (hY n hn0) hL hb c
      simpa only [abs_of_nonneg (hD0 _ c)] using this
    set G : Ω → ℝ := fun ω => 1 / (n : ℝ) * ((∫ c in (0 : ℝ)..(ε * n), D ω c) + ∫ c in ((1 - ε) * n)..n, D ω c) with hG
    have m1 := hDs.swap (P := P n) hb 0 (ε * n) (by positivity)
    have m2 := hDs.swap (P := P n) hb ((1 - ε) * n) n (by nlinarith)
    have hbd : ∀ x y : ℝ, x ≤ y → ∀ ω, |∫ c in x..y, D ω c| ≤ b * (1 + (n : ℝ) ^ 2) * (y - x) := fun x y hxy ω => by
      have := intervalIntegral.norm_integral_le_of_norm_le_const (a := x) (b := y) (f := D ω) (C := b * (1 + (n : ℝ) ^ 2)) fun c _ => hDs.le hb ω c
      rwa [abs_of_nonneg (by linarith)] at this
    have i1 : Integrable (fun ω => ∫ c in (0 : ℝ)..(ε * n), D ω c) (P n) := Integrable.of_bound m1.1.aestronglyMeasurable _ (Eventually.of_forall (hbd 0 (ε * n) (by positivity)))
    have i2 : Integrable (fun ω => ∫ c in ((1 - ε) * n)..n, D ω c) (P n) := Integrable.of_bound m2.1.aestronglyMeasurable _ (Eventually.of_forall (hbd ((1 - ε) * n) n (by nlinarith)))
    have iG : Integrable G (P n) := (i1.add i2).const_mul _
    have hG0 : ∀ ω, 0 ≤ G ω := fun ω => by
      have b1 : 0 ≤ ∫ c in (0 : ℝ)..(ε * n), D ω c := intervalIntegral.integral_nonneg (by positivity) fun c _ => hD0 ω c
      have b2 : 0 ≤ ∫ c in ((1 - ε) * n)..n, D ω c := intervalIntegral.integral_nonneg (by nlinarith) fun c _ => hD0 ω c
      rw [hG]
      positivity
    have hfm : Measurable fun c => ∫ ω, D ω c ∂(P n) := (hDs.measurable.stronglyMeasurable.integral_prod_left (μ := P n)).measurable
    have hup : ∀ x y : ℝ, x ≤ y → ∫ c in x..y, (∫ ω, D ω c ∂(P n)) ≤ C * (y - x) := fun x y hxy => by
      have := intervalIntegral.norm_integral_le_of_norm_le_const (a := x) (b := y) (f := fun c => ∫ ω, D ω c ∂(P n)) (C := C) fun c _ => by
        rw [Real.norm_of_nonneg (integral_nonneg fun ω => hD0 ω c)]
        exact hDm c
      rw [abs_of_nonneg (by linarith)] at this
      exact (le_abs_self _).trans this
    have hGm : ∫ ω, G ω ∂(P n) ≤ 2 * ε * C := by
      rw [hG, integral_const_mul, integral_add i1 i2, m1.2, m2.2]
      have u1 := hup 0 (ε * n) (by positivity)
      have u2 := hup ((1 - ε) * n) n (by nlinarith)
      rw [div_mul_eq_mul_div, one_mul, div_le_iff₀ hn']
      nlinarith
    have hmk : P n {ω | η ≤ G ω} ≤ ((d / 2 : NNReal) : ENNReal) := by
      have h1 := mul_meas_ge_le_lintegral₀ (μ := P n) (f := fun ω => ENNReal.ofReal (G ω)) iG.aemeasurable.ennreal_ofReal (ENNReal.ofReal η)
      rw [← ofReal_integral_eq_lintegral_ofReal iG (Eventually.of_forall hG0)] at h1
      have h2 : {ω | η ≤ G ω} ⊆ {ω | ENNReal.ofReal η ≤ ENNReal.ofReal (G ω)} := fun ω hω => ENNReal.ofReal_le_ofReal hω
      have h3 : ENNReal.ofReal η * P n {ω | η ≤ G ω} ≤ ENNReal.ofReal (d / 2 * η) :=
        (mul_le_mul_right (measure_mono h2) _).trans (h1.trans (ENNReal.ofReal_le_ofReal (hGm.trans hεC)))
      rw [mul_comm (d / 2 : ℝ) η, ENNReal.ofReal_mul hη.le] at h3
      have h4 := (ENNReal.mul_le_mul_iff_right (by simpa using hη) ENNReal.ofReal_ne_top).mp h3
      refine h4.trans (le_of_eq ?_)
      have : (d / 2 : ℝ) = ((d / 2 : NNReal) : ℝ) := by push_cast; rfl
      rw [this, ENNReal.ofReal_coe_nnreal]
    have hcov : P n {ω | η ≤ |1 / (n : ℝ) * ((∫ c in (0 : ℝ)..(lo n ω), F n ω c) + ∫ c in (hi n ω)..n, F n ω c) - 0|} ≤
        P n ({ω | ∀ j < n, ¬ Y n j ω ≤ ε * n} ∪ {ω | ∀ j < n, ¬ (1 - ε) * n < Y n j ω} ∪ {ω | η ≤ G ω}) := by
      refine measure_mono_ae ?_
      filter_upwards [hn] with ω ⟨g1, g2, g3, g4⟩ hω
      by_contra hc
      have hω' : η ≤ |1 / (n : ℝ) * ((∫ c in (0 : ℝ)..(lo n ω), F n ω c) + ∫ c in (hi n ω)..n, F n ω c) - 0| := hω
      have c1 : ¬ ∀ j < n, ¬ Y n j ω ≤ ε * n := fun h => hc (Or.inl (Or.inl h))
      have c2 : ¬ ∀ j < n, ¬ (1 - ε) * n < Y n j ω := fun h => hc (Or.inl (Or.inr h))
      have c3 : ¬ η ≤ G ω := fun h => hc (Or.inr h)
      push Not at c1 c2 c3
      obtain ⟨j, hj, hj'⟩ := c1
      obtain ⟨k, hk, hk'⟩ := c2
      have a1 : lo n ω ≤ ε * n := (g4 j hj).1.trans hj'
      have a2 : (1 - ε) * n ≤ hi n ω := hk'.le.trans (g4 k hk).2
      have d1 : |∫ c in (0 : ℝ)..(lo n ω), F n ω c| ≤ ∫ c in (0 : ℝ)..(ε * n), D ω c := by
        refine (intervalIntegral.norm_integral_le_of_norm_le (f := F n ω) (g := D ω) g1 (Eventually.of_forall fun c _ => (hF n).bound ω c) (hDs.interval hb ω _ _)).trans ?_
        exact intervalIntegral.integral_mono_interval le_rfl g1 a1 (Eventually.of_forall fun c => hD0 ω c) (hDs.interval hb ω _ _)
      have d2 : |∫ c in (hi n ω)..n, F n ω c| ≤ ∫ c in ((1 - ε) * n)..n, D ω c := by
        refine (intervalIntegral.norm_integral_le_of_norm_le (f := F n ω) (g := D ω) g3 (Eventually.of_forall fun c _ => (hF n).bound ω c) (hDs.interval hb ω _ _)).trans ?_
        exact intervalIntegral.integral_mono_interval a2 g3 le_rfl (Eventually.of_forall fun c => hD0 ω c) (hDs.interval hb ω _ _)
      rw [sub_zero, abs_mul, abs_of_pos (by positivity : 0 < 1 / (n : ℝ))] at hω'
      have : 1 / (n : ℝ) * |(∫ c in (0 : ℝ)..(lo n ω), F n ω c) + ∫ c in (hi n ω)..n, F n ω c| ≤ G ω := by
        rw [hG]
        simp only
        gcongr
        exact (abs_add_le _ _).trans (add_le_add d1 d2)
      linarith
    refine hcov.trans ((measure_union_le _ _).trans ?_)
    refine (add_le_add ((measure_union_le _ _).trans hk4) hmk).trans ?_
    rw [← ENNReal.coe_add, add_halves]
    exact hd.le
  have hg : ContinuousAt (fun p : ℝ × ℝ × ℝ => (p.1 - p.2.1) / p.2.2) (μ, 0, 1) := by
    refine ContinuousAt.div (by fun_prop) (by fun_prop) (by norm_num)
  have h3 := inProb_map3 _ _ _ μ 0 1 hA hE hr (fun p : ℝ × ℝ × ℝ => (p.1 - p.2.1) / p.2.2) hg
  simp only [sub_zero, div_one] at h3
  refine inProb_congr' _ _ _ ?_ h3
  filter_upwards [hlh, eventually_gt_atTop 0] with n hn hn0
  have hn' : (0 : ℝ) < n := by exact_mod_cast hn0
  filter_upwards [hn] with ω ⟨g1, g2, g3, g4⟩
  have hI := (hF n).interval hb ω
  have e1 : ∫ c in (0 : ℝ)..n, F n ω c = (∫ c in (0 : ℝ)..(lo n ω), F n ω c) + ((∫ c in (lo n ω)..(hi n ω), F n ω c) + ∫ c in (hi n ω)..n, F n ω c) := by
    rw [intervalIntegral.integral_add_adjacent_intervals (hI _ _) (hI _ _), intervalIntegral.integral_add_adjacent_intervals (hI _ _) (hI _ _)]
  have hpos : 0 < hi n ω - lo n ω := by linarith
  rw [Spec.average, if_neg g2.ne, e1]
  field_simp
  ring

end

end UniformM
end RMT
