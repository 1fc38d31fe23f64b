import Verif.Lemmas.LocalAverages

/-!
# The averages of sums over levels, and over pairs of levels, in a window
-/

namespace RMT
namespace UniformM
open MeasureTheory ProbabilityTheory Real Set Spec Filter Topology Semi

variable {Ω : Type} [MeasurableSpace Ω] {P : ℕ → Measure Ω} [∀ n, IsProbabilityMeasure (P n)] {Y : ℕ → Nat → Ω → ℝ} {L b : ℝ}

theorem var_limit (C : ℝ) (V : ℕ → ℝ) (h0 : ∀ n, 0 ≤ V n) (h : ∀ n : ℕ, 0 < n → V n ≤ C * n) : Tendsto (fun n : ℕ => (1 / (n : ℝ)) ^ 2 * V n) atTop (𝓝 0) := by
  refine squeeze_zero' (Eventually.of_forall fun n => by have := h0 n; positivity) ?_ (tendsto_const_div_atTop_nhds_zero_nat C)
  filter_upwards [eventually_gt_atTop 0] with n hn
  have hn' : (0 : ℝ) < n := by exact_mod_cast hn
  calc (1 / (n : ℝ)) ^ 2 * V n ≤ (1 / (n : ℝ)) ^ 2 * (C * n) := by gcongr; exact h n hn
    _ = _ := by field_simp

theorem near_integral' (L n x : ℝ) (hL : 0 ≤ L) (hn : 0 ≤ n) : ∫ c in (0 : ℝ)..n, near (L / 2) c x ≤ L := by
  have := near_integral (L / 2) n x (by linarith) hn
  simp only [near_comm (L / 2) x] at this
  linarith

theorem near_interval (L x a b : ℝ) : IntervalIntegrable (fun c => near L c x) volume a b := by
  have : ∀ S : Set ℝ, volume S < ⊤ → IntegrableOn (fun c => near L c x) S := fun S hv =>
    Measure.integrableOn_of_bounded hv.ne ((near_measurable L).comp measurable_prodMk_right).aestronglyMeasurable (M := 1) (Eventually.of_forall fun c => by
      rw [Real.norm_of_nonneg (near_nonneg _ _ _)]; exact near_le _ _ _)
  exact ⟨this _ (by simp), this _ (by simp)⟩

omit [MeasurableSpace Ω] in
theorem sum_near_le {Z : Nat → Ω → ℝ} (N : Nat) (h : ℝ → ℝ → ℝ) (hb : ∀ c x, |h c x| ≤ b * near (L / 2) c x) (ω : Ω) (c : ℝ) :
    |∑ i ∈ Finset.range N, h c (Z i ω)| ≤ b * ∑ i ∈ Finset.range N, near (L / 2) c (Z i ω) := by
  refine (Finset.abs_sum_le_sum_abs _ _).trans ?_
  rw [Finset.mul_sum]
  exact Finset.sum_le_sum fun i _ => hb _ _

theorem single_stat {Z : Nat → Ω → ℝ} (hZ : ∀ k, Measurable (Z k)) (N : Nat) (hb0 : 0 ≤ b) (h : ℝ → ℝ → ℝ) (hm : Measurable fun p : ℝ × ℝ => h p.1 p.2) (hb : ∀ c x, |h c x| ≤ b * near (L / 2) c x) :
    LocalStat Z N L b fun ω c => ∑ i ∈ Finset.range N, h c (Z i ω) where
  measurable := Finset.measurable_sum _ fun i _ => hm.comp (measurable_snd.prodMk ((hZ i).comp measurable_fst))
  bound := fun ω c => (sum_near_le N h hb ω c).trans (mul_le_mul_of_nonneg_left (by nlinarith [sq_nonneg (∑ i ∈ Finset.range N, near (L / 2) c (Z i ω) - 1 / 2)]) hb0)

/-- Sums over the levels in a window. -/
theorem single_limit (hY : ∀ n : ℕ, 0 < n → UniformLevels (P n) n (Y n)) (hY0 : ∀ n k, Measurable (Y n k)) (hL : 0 ≤ L) (hb0 : 0 ≤ b) (h : ℝ → ℝ → ℝ) (hm : Measurable fun p : ℝ × ℝ => h p.1 p.2)
    (hb : ∀ c x, |h c x| ≤ b * near (L / 2) c x) (m : ℕ → ℝ) (μ : ℝ) (hlim : Tendsto m atTop (𝓝 μ))
    (hmean : ∀ᶠ n : ℕ in atTop, ∀ c, L / 2 ≤ c → c ≤ n - L / 2 → ∫ ω, (∑ i ∈ Finset.range n, h c (Y n i ω)) ∂(P n) = m n) :
    InProbability P (fun n ω => 1 / (n : ℝ) * ∫ c in (0 : ℝ)..n, ∑ i ∈ Finset.range n, h c (Y n i ω)) μ := by
  refine average_limit hY hL hb0 (fun n => single_stat (hY0 n) n hb0 h hm hb) m μ hlim hmean ?_
  have hI : ∀ (n : ℕ) x, IntervalIntegrable (fun c => h c x) volume 0 n := fun n x =>
    ((near_interval (L / 2) x 0 n).const_mul b).mono_fun (hm.comp measurable_prodMk_right).aestronglyMeasurable (Eventually.of_forall fun c => by
      show ‖h c x‖ ≤ ‖b * near (L / 2) c x‖
      rw [Real.norm_of_nonneg (mul_nonneg hb0 (near_nonneg _ _ _))]
      exact hb c x)
  set g : ℕ → ℝ → ℝ := fun n x => ∫ c in (0 : ℝ)..n, h c x with hg
  have hgm : ∀ n, Measurable (g n) := fun n => by
    have e : g n = fun x => ∫ c in Ioc (0 : ℝ) n, h c x := funext fun x => intervalIntegral.integral_of_le (Nat.cast_nonneg n)
    rw [e]
    exact (hm.stronglyMeasurable.integral_prod_left (μ := volume.restrict (Ioc (0 : ℝ) n))).measurable
  have hgb : ∀ n x, |g n x| ≤ b * L := fun n x => by
    have h1 := intervalIntegral.norm_integral_le_of_norm_le (f := fun c => h c x) (g := fun c => b * near (L / 2) c x) (Nat.cast_nonneg n) (Eventually.of_forall fun c _ => hb c x)
      ((near_interval (L / 2) x 0 n).const_mul b)
    rw [intervalIntegral.integral_const_mul] at h1
    exact h1.trans (mul_le_mul_of_nonneg_left (near_integral' L n x hL (Nat.cast_nonneg n)) hb0)
  have e : ∀ n : ℕ, (fun ω => 1 / (n : ℝ) * ∫ c in (0 : ℝ)..n, ∑ i ∈ Finset.range n, h c (Y n i ω)) = fun ω => 1 / (n : ℝ) * ∑ i ∈ Finset.range n, g n (Y n i ω) := fun n => by
    funext ω
    rw [intervalIntegral.integral_finsetSum fun i _ => hI n (Y n i ω)]
  simp only [e, variance_const_mul]
  refine var_limit ((b * L) ^ 2) _ (fun n => variance_nonneg _ _) fun n hn => ?_
  have hn' : (0 : ℝ) < n := by exact_mod_cast hn
  rw [(sum_moments hn'.le (hY n hn) n (g n) (hgm n) (b * L) (hgb n)).2.1]
  have hsq : ∫ y in (0 : ℝ)..n, g n y ^ 2 ≤ (b * L) ^ 2 * n := by
    have := intervalIntegral.norm_integral_le_of_norm_le_const (a := 0) (b := (n : ℝ)) (f := fun y => g n y ^ 2) (C := (b * L) ^ 2) fun y _ => by
      rw [Real.norm_eq_abs, abs_pow]
      exact pow_le_pow_left₀ (abs_nonneg _) (hgb n y) 2
    rw [sub_zero, abs_of_pos hn'] at this
    exact (le_abs_self _).trans this
  have : 1 / (n : ℝ) * ∫ y in (0 : ℝ)..n, g n y ^ 2 ≤ (b * L) ^ 2 := by
    rw [div_mul_eq_mul_div, one_mul, div_le_iff₀ hn']
    exact hsq
  rw [mul_comm ((b * L) ^ 2)]
  gcongr
  linarith [sq_nonneg (1 / (n : ℝ) * ∫ y in (0 : ℝ)..n, g n y)]

theorem pair_stat {Z : Nat → Ω → ℝ} (hZ : ∀ k, Measurable (Z k)) (N : Nat) (hb0 : 0 ≤ b) (k : ℝ → ℝ → ℝ → ℝ) (hm : Measurable fun p : ℝ × ℝ × ℝ => k p.1 p.2.1 p.2.2)
    (hb : ∀ c x y, |k c x y| ≤ b * (near (L / 2) c x * near (L / 2) c y)) :
    LocalStat Z N L b fun ω c => ∑ i ∈ Finset.range N, ∑ j ∈ Finset.range N, k c (Z i ω) (Z j ω) where
  measurable := Finset.measurable_sum _ fun i _ => Finset.measurable_sum _ fun j _ =>
    hm.comp (measurable_snd.prodMk (((hZ i).comp measurable_fst).prodMk ((hZ j).comp measurable_fst)))
  bound := fun ω c => by
    have h1 : |∑ i ∈ Finset.range N, ∑ j ∈ Finset.range N, k c (Z i ω) (Z j ω)| ≤ ∑ i ∈ Finset.range N, ∑ j ∈ Finset.range N, b * (near (L / 2) c (Z i ω) * near (L / 2) c (Z j ω)) :=
      (Finset.abs_sum_le_sum_abs _ _).trans (Finset.sum_le_sum fun i _ => (Finset.abs_sum_le_sum_abs _ _).trans (Finset.sum_le_sum fun j _ => hb _ _ _))
    have h2 : ∑ i ∈ Finset.range N, ∑ j ∈ Finset.range N, b * (near (L / 2) c (Z i ω) * near (L / 2) c (Z j ω)) = b * (∑ j ∈ Finset.range N, near (L / 2) c (Z j ω)) ^ 2 := by
      rw [sq, Finset.sum_mul_sum, Finset.mul_sum]
      exact Finset.sum_congr rfl fun i _ => by rw [Finset.mul_sum]
    rw [h2] at h1
    refine h1.trans (mul_le_mul_of_nonneg_left ?_ hb0)
    linarith

/-- Sums over the pairs of levels in a window. -/
theorem pair_limit (hY : ∀ n : ℕ, 0 < n → UniformLevels (P n) n (Y n)) (hY0 : ∀ n k, Measurable (Y n k)) (hL : 0 ≤ L) (hb0 : 0 ≤ b) (k : ℝ → ℝ → ℝ → ℝ)
    (hm : Measurable fun p : ℝ × ℝ × ℝ => k p.1 p.2.1 p.2.2) (hb : ∀ c x y, |k c x y| ≤ b * (near (L / 2) c x * near (L / 2) c y)) (m : ℕ → ℝ) (μ : ℝ) (hlim : Tendsto m atTop (𝓝 μ))
    (hmean : ∀ᶠ n : ℕ in atTop, ∀ c, L / 2 ≤ c → c ≤ n - L / 2 → ∫ ω, (∑ i ∈ Finset.range n, ∑ j ∈ Finset.range n, k c (Y n i ω) (Y n j ω)) ∂(P n) = m n) :
    InProbability P (fun n ω => 1 / (n : ℝ) * ∫ c in (0 : ℝ)..n, ∑ i ∈ Finset.range n, ∑ j ∈ Finset.range n, k c (Y n i ω) (Y n j ω)) μ := by
  refine average_limit hY hL hb0 (fun n => pair_stat (hY0 n) n hb0 k hm hb) m μ hlim hmean ?_
  have hb' : ∀ c x y, |k c x y| ≤ b * near (L / 2) c x := fun c x y => (hb c x y).trans (mul_le_mul_of_nonneg_left
    (mul_le_of_le_one_right (near_nonneg _ _ _) (near_le _ _ _)) hb0)
  have hsec : ∀ x y, Measurable fun c => k c x y := fun x y => hm.comp (measurable_id.prodMk (measurable_const (a := (x, y))))
  have hI : ∀ (n : ℕ) x y, IntervalIntegrable (fun c => k c x y) volume 0 n := fun n x y =>
    ((near_interval (L / 2) x 0 n).const_mul b).mono_fun (hsec x y).aestronglyMeasurable (Eventually.of_forall fun c => by
      show ‖k c x y‖ ≤ ‖b * near (L / 2) c x‖
      rw [Real.norm_of_nonneg (mul_nonneg hb0 (near_nonneg _ _ _))]
      exact hb' c x y)
  set K : ℕ → ℝ → ℝ → ℝ := fun n x y => ∫ c in (0 : ℝ)..n, k c x y with hK
  have hKm : ∀ n, Measurable fun p : ℝ × ℝ => K n p.1 p.2 := fun n => by
    have e : (fun p : ℝ × ℝ => K n p.1 p.2) = fun p => ∫ c in Ioc (0 : ℝ) n, k c p.1 p.2 := funext fun x => intervalIntegral.integral_of_le (Nat.cast_nonneg n)
    rw [e]
    exact (hm.stronglyMeasurable.integral_prod_left (μ := volume.restrict (Ioc (0 : ℝ) n))).measurable
  have hKb : ∀ n x y, |K n x y| ≤ b * L * near L x y := fun n x y => by
    by_cases hxy : |x - y| ≤ L
    · have h1 := intervalIntegral.norm_integral_le_of_norm_le (f := fun c => k c x y) (g := fun c => b * near (L / 2) c x) (Nat.cast_nonneg n) (Eventually.of_forall fun c _ => hb' c x y)
        ((near_interval (L / 2) x 0 n).const_mul b)
      rw [intervalIntegral.integral_const_mul] at h1
      rw [near, if_pos hxy, mul_one]
      exact h1.trans (mul_le_mul_of_nonneg_left (near_integral' L n x hL (Nat.cast_nonneg n)) hb0)
    · have h0 : ∀ c, k c x y = 0 := fun c => by
        have h1 := hb c x y
        have h2 : near (L / 2) c x * near (L / 2) c y = 0 := by
          by_cases ha : |c - x| ≤ L / 2
          · have : ¬ |c - y| ≤ L / 2 := fun hb => hxy (by
              have := abs_sub_le x c y
              rw [abs_sub_comm x c] at this
              linarith)
            simp [near, this]
          · simp [near, ha]
        rw [h2, mul_zero] at h1
        exact abs_eq_zero.mp (le_antisymm h1 (abs_nonneg _))
      simp only [hK, h0, intervalIntegral.integral_zero, abs_zero]
      exact mul_nonneg (mul_nonneg hb0 hL) (near_nonneg _ _ _)
  have e : ∀ n : ℕ, (fun ω => 1 / (n : ℝ) * ∫ c in (0 : ℝ)..n, ∑ i ∈ Finset.range n, ∑ j ∈ Finset.range n, k c (Y n i ω) (Y n j ω)) =
      fun ω => 1 / (n : ℝ) * ∑ i ∈ Finset.range n, ∑ j ∈ Finset.range n, K n (Y n i ω) (Y n j ω) := fun n => by
    funext ω
    congr 1
    have hs : ∀ i, IntervalIntegrable (fun c => ∑ j ∈ Finset.range n, k c (Y n i ω) (Y n j ω)) volume 0 n := fun i => by
      have := IntervalIntegrable.sum (Finset.range n) (f := fun j c => k c (Y n i ω) (Y n j ω)) fun j _ => hI n _ _
      simpa only [Finset.sum_fn] using this
    rw [intervalIntegral.integral_finsetSum fun i _ => hs i]
    exact Finset.sum_congr rfl fun i _ => intervalIntegral.integral_finsetSum fun j _ => hI n _ _
  simp only [e, variance_const_mul]
  refine var_limit (16 * (b * L) ^ 2 * (1 + 2 * L + (2 * L) ^ 2)) _ (fun n => variance_nonneg _ _) fun n hn => ?_
  have hn' : (0 : ℝ) < n := by exact_mod_cast hn
  refine (pair_variance hn' (hY n hn) n L hL (K n) (hKm n) (b * L) (hKb n)).trans (le_of_eq ?_)
  have : (n : ℝ) * (2 * L / n) = 2 * L := by field_simp
  rw [this]
  ring

end UniformM
end RMT
