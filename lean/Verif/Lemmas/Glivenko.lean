import Verif.Lemmas.BrodySample
import Mathlib.Probability.CDF

/-!
# Lemmas for C167: the empirical distribution function of a sample converges uniformly
-/

namespace RMT
namespace BrodyC
open Real Brody Ensembles EigValsM Spec Props Filter Topology MeasureTheory ProbabilityTheory

theorem cdf_continuous {μ : Measure ℝ} [IsProbabilityMeasure μ] (h : ∀ s, μ {s} = 0) : Continuous (cdf μ) := by
  rw [continuous_iff_continuousAt]
  intro a
  rw [(monotone_cdf μ).continuousAt_iff_leftLim_eq_rightLim, (cdf μ).rightLim_eq]
  have := (cdf μ).measure_singleton a
  rw [measure_cdf, h] at this
  have h1 : cdf μ a - Function.leftLim (cdf μ) a ≤ 0 := by
    by_contra hc
    push Not at hc
    have h2 := ENNReal.ofReal_pos.mpr hc
    rw [← this] at h2
    exact lt_irrefl _ h2
  linarith [(monotone_cdf μ).leftLim_le (le_refl a)]

theorem cdf_value {μ : Measure ℝ} [IsProbabilityMeasure μ] (h : ∀ s, μ {s} = 0) {v : ℝ} (h0 : 0 < v) (h1 : v < 1) : ∃ t, cdf μ t = v := by
  obtain ⟨a, ha⟩ := ((tendsto_cdf_atBot μ).eventually_lt_const h0).exists
  obtain ⟨b, hb⟩ := ((tendsto_cdf_atTop μ).eventually_const_lt h1).exists
  exact mem_range_of_exists_le_of_exists_ge (cdf_continuous h) ⟨a, ha.le⟩ ⟨b, hb.le⟩

/-- Monotone functions with values in `[0, 1]` which converge at points with equidistant limit values converge uniformly. -/
theorem polya {F : ℝ → ℝ} (hF : Monotone F) (hF0 : ∀ t, 0 ≤ F t ∧ F t ≤ 1) {G : ℕ → ℝ → ℝ} (hG : ∀ n, Monotone (G n)) (hG0 : ∀ n t, 0 ≤ G n t ∧ G n t ≤ 1)
    (T : ℕ → ℕ → ℝ) (hT : ∀ K k, 0 < k → k < K → F (T K k) = k / K) (hlim : ∀ K k, 0 < k → k < K → Tendsto (fun n => G n (T K k)) atTop (𝓝 ((k : ℝ) / K))) (η : ℝ) (hη : 0 < η) :
    ∀ᶠ n in atTop, ∀ t, |G n t - F t| ≤ η := by
  obtain ⟨K, hK⟩ := exists_nat_gt (4 / η)
  have hK0 : (0 : ℝ) < K := lt_trans (by positivity) hK
  have hKη : 2 / (K : ℝ) ≤ η / 2 := by
    rw [div_lt_iff₀ hη] at hK
    rw [div_le_div_iff₀ hK0 (by norm_num)]
    linarith
  have hev : ∀ᶠ n in atTop, ∀ k ∈ Finset.range K, 0 < k → |G n (T K k) - (k : ℝ) / K| < η / 2 := by
    rw [Filter.eventually_all_finset]
    intro k hk
    by_cases h0 : 0 < k
    · filter_upwards [Metric.tendsto_nhds.mp (hlim K k h0 (Finset.mem_range.mp hk)) (η / 2) (by positivity)] with n hn _ using hn
    · exact Filter.Eventually.of_forall fun n hh => absurd hh h0
  filter_upwards [hev] with n hn t
  set k := ⌊F t * K⌋₊ with hk
  have hft : 0 ≤ F t * K := mul_nonneg (hF0 t).1 hK0.le
  have k1 : (k : ℝ) ≤ F t * K := Nat.floor_le hft
  have k2 : F t * K < k + 1 := Nat.lt_floor_add_one _
  have k1' : (k : ℝ) / K ≤ F t := by rwa [div_le_iff₀ hK0]
  have k2' : F t < ((k : ℝ) + 1) / K := by rwa [lt_div_iff₀ hK0]
  have split : ((k : ℝ) + 1) / K = k / K + 1 / K := by ring
  have two : 2 / (K : ℝ) = 1 / K + 1 / K := by ring
  have hK1 : 0 < 1 / (K : ℝ) := by positivity
  rw [abs_le]
  constructor
  · by_cases h1 : 1 < k
    · have hkK : k - 1 < K := by
        have : (k : ℝ) ≤ K := k1.trans (by nlinarith [(hF0 t).2])
        have : k ≤ K := by exact_mod_cast this
        omega
      have hT' := hT K (k - 1) (by omega) hkK
      have hle : T K (k - 1) ≤ t := by
        by_contra hc
        have := hF (not_le.mp hc).le
        rw [hT', Nat.cast_sub (by omega)] at this
        have e : ((k : ℝ) - (1 : ℕ)) / K = k / K - 1 / K := by push_cast; ring
        rw [e] at this
        linarith
      have h2 := abs_lt.mp (hn (k - 1) (Finset.mem_range.mpr hkK) (by omega))
      have h3 := hG n hle
      rw [Nat.cast_sub (by omega)] at h2
      have e : ((k : ℝ) - (1 : ℕ)) / K = k / K - 1 / K := by push_cast; ring
      rw [e] at h2
      linarith [h2.1]
    · have : (k : ℝ) ≤ 1 := by exact_mod_cast not_lt.mp h1
      have : ((k : ℝ) + 1) / K ≤ 2 / K := by gcongr; linarith
      linarith [(hG0 n t).1]
  · by_cases h1 : k + 1 < K
    · have hT' := hT K (k + 1) (by omega) h1
      have hle : t ≤ T K (k + 1) := by
        by_contra hc
        have := hF (not_le.mp hc).le
        rw [hT'] at this
        push_cast at this
        linarith
      have h2 := abs_lt.mp (hn (k + 1) (Finset.mem_range.mpr h1) (by omega))
      have h3 := hG n hle
      push_cast at h2
      linarith [h2.2]
    · have : (K : ℝ) ≤ k + 1 := by exact_mod_cast not_lt.mp h1
      have : 1 ≤ ((k : ℝ) + 1) / K := by rwa [le_div_iff₀ hK0, one_mul]
      linarith [(hG0 n t).2]

/-- The empirical distribution function. -/
noncomputable def empirical (x : ℕ → ℝ) (n : ℕ) (t : ℝ) : ℝ := avg x (Set.indicator (Set.Iic t) fun _ => (1 : ℝ)) n

theorem empirical_eq (x : ℕ → ℝ) (n : ℕ) (t : ℝ) : empirical x n t = ecdfAt ((List.range n).map x) t := by
  have h : ∀ l : List ℝ, ((l.filter fun v => decide (v ≤ t)).length : ℝ) = (l.map (Set.indicator (Set.Iic t) fun _ => (1 : ℝ))).sum := by
    intro l
    induction l with
    | nil => simp
    | cons a l ih =>
      by_cases ha : a ≤ t
      · rw [List.filter_cons_of_pos (by simpa using ha), List.map_cons, List.sum_cons, List.length_cons, Set.indicator_of_mem (show a ∈ Set.Iic t from ha)]
        push_cast
        rw [ih]
        ring
      · rw [List.filter_cons_of_neg (by simpa using ha), List.map_cons, List.sum_cons, Set.indicator_of_notMem (show a ∉ Set.Iic t from ha), ih, zero_add]
  unfold empirical avg ecdfAt
  rw [h, List.map_map, List.length_map, List.length_range]
  rfl

theorem empirical_mono (x : ℕ → ℝ) (n : ℕ) : Monotone (empirical x n) := by
  intro s t hst
  unfold empirical avg
  refine div_le_div_of_nonneg_right (Finset.sum_le_sum fun i _ => ?_) (Nat.cast_nonneg _)
  exact Set.indicator_le_indicator_of_subset (Set.Iic_subset_Iic.mpr hst) (fun _ => zero_le_one) _

theorem empirical_range (x : ℕ → ℝ) (n : ℕ) (t : ℝ) : 0 ≤ empirical x n t ∧ empirical x n t ≤ 1 := by
  have h : ∀ i, 0 ≤ Set.indicator (Set.Iic t) (fun _ => (1 : ℝ)) (x i) ∧ Set.indicator (Set.Iic t) (fun _ => (1 : ℝ)) (x i) ≤ 1 := fun i => by
    by_cases h : x i ∈ Set.Iic t <;> simp [h]
  unfold empirical avg
  refine ⟨div_nonneg (Finset.sum_nonneg fun i _ => (h i).1) (Nat.cast_nonneg _), div_le_one_of_le₀ ?_ (Nat.cast_nonneg _)⟩
  exact (Finset.sum_le_sum fun i _ => (h i).2).trans (by simp)


/-! ### What `brody_fit_evaluate` reports about a sample -/

theorem columns (x : ℕ → ℝ) (hx : Function.Injective x) (n : ℕ) (φ : ℝ → ℝ → ℝ) (G : ℝ → ℝ) (E : List ℝ) (hE : E.length = n) (hE' : ∀ i : Nat, i < n → E[i]? = some (((i : ℝ) + 1) / n)) :
    (List.zipWith φ E ((npSort ((List.range n).map x)).map G)).sum / n = avg x (fun y => φ (empirical x n y) (G y)) n := by
  set s := (List.range n).map x with hs
  have hl : s.length = n := by simp [hs]
  have hl' : (npSort s).length = n := by rw [(npSort_perm s).length_eq, hl]
  have hnd : (npSort s).Nodup := (npSort_perm s).nodup_iff.mpr ((List.nodup_map_iff hx).mpr List.nodup_range)
  have hEs : E = (npSort s).map fun y => empirical x n y := by
    refine List.ext_getElem? fun i => ?_
    by_cases hi : i < n
    · have hi' : i < (npSort s).length := by omega
      rw [hE' i hi, List.getElem?_map, List.getElem?_eq_getElem hi', Option.map_some, empirical_eq]
      have := (ecdf_sorted s i _ (List.getElem?_eq_getElem hi')).2.mpr fun y hy => by
        have hi2 : i + 1 < (npSort s).length := by
          by_contra hc
          rw [List.getElem?_eq_none (by omega)] at hy
          cases hy
        rw [List.getElem?_eq_getElem hi2] at hy
        cases hy
        refine lt_of_le_of_ne (List.pairwise_iff_getElem.mp (npSort_ascending s) i (i + 1) hi' hi2 (by omega)) fun e => ?_
        have := (List.Nodup.getElem_inj_iff hnd).mp e
        omega
      rw [hl] at this
      rw [this]
    · rw [List.getElem?_eq_none (by omega), List.getElem?_eq_none (by simp; omega)]
  rw [hEs]
  have h2 : List.zipWith φ ((npSort s).map fun y => empirical x n y) ((npSort s).map G) = (npSort s).map fun y => φ (empirical x n y) (G y) := by
    rw [List.zipWith_map]
    generalize npSort s = l
    induction l with
    | nil => rfl
    | cons a l ih => simp
  rw [h2, ((npSort_perm s).map _).sum_eq, hs, List.map_map]
  rfl

theorem cdf_lip {b c y : ℝ} (hb : b ∈ Set.Icc (0 : ℝ) 1) (hc : c ∈ Set.Icc (0 : ℝ) 1) (hy : 0 < y) :
    |brodyCdf y b - brodyCdf y c| ≤ (|brodyAlpha b - brodyAlpha c| + |b - c|) * (1 + y ^ 3) := by
  have e1 : |exp (-(brodyAlpha c * y ^ (c + 1))) - exp (-(brodyAlpha b * y ^ (b + 1)))| ≤ |brodyAlpha c * y ^ (c + 1) - brodyAlpha b * y ^ (b + 1)| := by
    have hp : ∀ b : ℝ, b ∈ Set.Icc (0 : ℝ) 1 → 0 ≤ brodyAlpha b * y ^ (b + 1) := fun b hb => mul_nonneg (brodyAlpha_pos b (by linarith [hb.1])).le (rpow_nonneg hy.le _)
    have key : ∀ u v : ℝ, 0 ≤ u → u ≤ v → |exp (-u) - exp (-v)| ≤ |u - v| := fun u v hu huv => by
      have h1 : exp (-v) ≤ exp (-u) := exp_le_exp.mpr (by linarith)
      have h2 := add_one_le_exp (u - v)
      have h3 : exp (-v) = exp (-u) * exp (u - v) := by rw [← exp_add]; congr 1; ring
      have h4 : exp (-u) ≤ 1 := exp_le_one_iff.mpr (by linarith)
      have h5 := exp_pos (-u)
      rw [abs_of_nonneg (by linarith), abs_sub_comm, abs_of_nonneg (by linarith)]
      nlinarith
    rcases le_total (brodyAlpha c * y ^ (c + 1)) (brodyAlpha b * y ^ (b + 1)) with h | h
    · exact key _ _ (hp c hc) h
    · rw [abs_sub_comm, abs_sub_comm (brodyAlpha c * _)]
      exact key _ _ (hp b hb) h
  have e2 : brodyCdf y b - brodyCdf y c = exp (-(brodyAlpha c * y ^ (c + 1))) - exp (-(brodyAlpha b * y ^ (b + 1))) := by
    simp only [brodyCdf, neg_mul]
    ring
  rw [e2]
  refine e1.trans ?_
  have e3 : brodyAlpha c * y ^ (c + 1) - brodyAlpha b * y ^ (b + 1) = (brodyAlpha c - brodyAlpha b) * y ^ (b + 1) + brodyAlpha c * (y ^ (c + 1) - y ^ (b + 1)) := by ring
  have h3 : 0 < 1 + y ^ 3 := by positivity
  have a1 := pow_le_cube hy hb
  have a2 := pow_lip hy hc hb
  have a3 := alpha_le_one hc.1
  have a4 := brodyAlpha_pos c (by linarith [hc.1])
  have a5 : 0 ≤ y ^ (b + 1) := rpow_nonneg hy.le _
  rw [e3]
  refine (abs_add_le _ _).trans ?_
  rw [abs_mul, abs_mul, abs_of_pos a4, abs_of_nonneg a5, abs_sub_comm (brodyAlpha c), add_mul]
  rw [abs_sub_comm c b] at a2
  refine add_le_add (mul_le_mul_of_nonneg_left a1 (abs_nonneg _)) ?_
  have := abs_nonneg (y ^ (c + 1) - y ^ (b + 1))
  nlinarith

/-- Averages of a Lipschitz function of the empirical and of the fitted distribution function. -/
theorem columns_limit {x : ℕ → ℝ} {m : ℝ} {e : ℝ → ℝ} (h : Typical x m e) {F : ℝ → ℝ} (hF0 : ∀ t, 0 ≤ F t ∧ F t ≤ 1) (hG : ∀ η > 0, ∀ᶠ n in atTop, ∀ t, |empirical x n t - F t| ≤ η)
    {φ : ℝ → ℝ → ℝ} {L : ℝ} (hL : 0 < L) (hφ : ∀ u v u' v', 0 ≤ u ∧ u ≤ 1 → 0 ≤ v ∧ v ≤ 1 → 0 ≤ u' ∧ u' ≤ 1 → 0 ≤ v' ∧ v' ≤ 1 → |φ u v - φ u' v'| ≤ L * (|u - u'| + |v - v'|))
    {b : ℕ → ℝ} {best M : ℝ} (hbest : best ∈ Set.Icc (0 : ℝ) 1) (hbI : ∀ᶠ n in atTop, b n ∈ Set.Icc (0 : ℝ) 1) (hb : Tendsto b atTop (𝓝 best))
    (hM : Tendsto (avg x fun y => φ (F y) (brodyCdf y best)) atTop (𝓝 M)) :
    Tendsto (fun n => avg x (fun y => φ (empirical x n y) (brodyCdf y (b n))) n) atTop (𝓝 M) := by
  obtain ⟨m3, h3⟩ := h.cube
  have hα : Tendsto (fun n => brodyAlpha (b n)) atTop (𝓝 (brodyAlpha best)) :=
    (brodyAlpha_continuousOn' best hbest).tendsto.comp (tendsto_nhdsWithin_iff.mpr ⟨hb, hbI⟩)
  have hsmall : Tendsto (fun n => L * ((|brodyAlpha (b n) - brodyAlpha best| + |b n - best|) * (1 + avg x (fun y => y ^ 3) n))) atTop (𝓝 0) := by
    have h1 : Tendsto (fun n => |brodyAlpha (b n) - brodyAlpha best| + |b n - best|) atTop (𝓝 0) := by
      have h1 := (hα.sub_const (brodyAlpha best)).abs.add (hb.sub_const best).abs
      simpa using h1
    have := (h1.mul (h3.const_add 1)).const_mul L
    simpa using this
  rw [Metric.tendsto_nhds] at hM ⊢
  intro η hη
  filter_upwards [hM (η / 3) (by positivity), hG (η / (3 * L)) (by positivity), hbI, hsmall.eventually_lt_const (show (0 : ℝ) < η / 3 by positivity), eventually_gt_atTop 0] with n c1 c2 c3 c4 hn
  have hn0 : (0 : ℝ) < n := by exact_mod_cast hn
  have hcdf : ∀ b ∈ Set.Icc (0 : ℝ) 1, ∀ i, 0 ≤ brodyCdf (x i) b ∧ brodyCdf (x i) b ≤ 1 := fun b hb i =>
    ⟨((C68_cdf b (by linarith [hb.1])).2.2.1 _ (h.pos i).le).1, ((C68_cdf b (by linarith [hb.1])).2.2.1 _ (h.pos i).le).2.le⟩
  have key : |avg x (fun y => φ (empirical x n y) (brodyCdf y (b n))) n - avg x (fun y => φ (F y) (brodyCdf y best)) n|
      ≤ η / 3 + L * ((|brodyAlpha (b n) - brodyAlpha best| + |b n - best|) * (1 + avg x (fun y => y ^ 3) n)) := by
    unfold avg
    rw [← sub_div, ← Finset.sum_sub_distrib, abs_div, abs_of_pos hn0, div_le_iff₀ hn0]
    calc |∑ i ∈ Finset.range n, (φ (empirical x n (x i)) (brodyCdf (x i) (b n)) - φ (F (x i)) (brodyCdf (x i) best))|
        ≤ ∑ i ∈ Finset.range n, |φ (empirical x n (x i)) (brodyCdf (x i) (b n)) - φ (F (x i)) (brodyCdf (x i) best)| := Finset.abs_sum_le_sum_abs _ _
      _ ≤ ∑ i ∈ Finset.range n, (η / 3 + L * ((|brodyAlpha (b n) - brodyAlpha best| + |b n - best|) * (1 + x i ^ 3))) := by
        refine Finset.sum_le_sum fun i _ => ?_
        have q1 := hφ _ _ _ _ (empirical_range x n (x i)) (hcdf _ c3 i) (hF0 (x i)) (hcdf _ hbest i)
        have q2 := mul_le_mul_of_nonneg_left (c2 (x i)) hL.le
        have q3 := mul_le_mul_of_nonneg_left (cdf_lip c3 hbest (h.pos i)) hL.le
        have q4 : L * (η / (3 * L)) = η / 3 := by field_simp
        rw [q4] at q2
        linarith
      _ = _ := by
        rw [Finset.sum_add_distrib, ← Finset.mul_sum, ← Finset.mul_sum, Finset.sum_add_distrib]
        simp only [Finset.sum_const, Finset.card_range, nsmul_eq_mul]
        field_simp
  rw [Real.dist_eq] at c1 ⊢
  calc |avg x (fun y => φ (empirical x n y) (brodyCdf y (b n))) n - M| ≤ |avg x (fun y => φ (empirical x n y) (brodyCdf y (b n))) n - avg x (fun y => φ (F y) (brodyCdf y best)) n| + |avg x (fun y => φ (F y) (brodyCdf y best)) n - M| := abs_sub_le _ _ _
    _ < η := by linarith

section sample
variable {Ω : Type} [MeasurableSpace Ω] {P : Measure Ω} [IsProbabilityMeasure P] {X : ℕ → Ω → ℝ} {μ : Measure ℝ}

omit [IsProbabilityMeasure P] in
/-- **Glivenko–Cantelli** for distributions without atoms. -/
theorem glivenko [IsProbabilityMeasure μ] (h : IsSample P X μ) (ha : ∀ s, μ {s} = 0) :
    ∀ᵐ ω ∂P, ∀ η > 0, ∀ᶠ n in atTop, ∀ t, |empirical (fun i => X i ω) n t - cdf μ t| ≤ η := by
  have hex : ∀ K k : ℕ, ∃ t, 0 < k → k < K → cdf μ t = k / K := fun K k => by
    by_cases hk : 0 < k ∧ k < K
    · obtain ⟨t, ht⟩ := cdf_value ha (v := (k : ℝ) / K) (div_pos (by exact_mod_cast hk.1) (by exact_mod_cast hk.1.trans hk.2)) (by rw [div_lt_one (by exact_mod_cast hk.1.trans hk.2)]; exact_mod_cast hk.2)
      exact ⟨t, fun _ _ => ht⟩
    · exact ⟨0, fun h1 h2 => absurd ⟨h1, h2⟩ hk⟩
  choose T hT using hex
  have hll : ∀ᵐ ω ∂P, ∀ K k : ℕ, Tendsto (fun n => empirical (fun i => X i ω) n (T K k)) atTop (𝓝 (cdf μ (T K k))) := by
    rw [ae_all_iff]
    intro K
    rw [ae_all_iff]
    intro k
    have := sample_lln h (Set.indicator (Set.Iic (T K k)) fun _ => (1 : ℝ)) (measurable_const.indicator measurableSet_Iic) ((integrable_const _).indicator measurableSet_Iic)
    rw [integral_indicator measurableSet_Iic] at this
    simp only [integral_const, smul_eq_mul, mul_one, measureReal_restrict_apply_univ] at this
    filter_upwards [this] with ω hω
    rw [cdf_eq_real]
    exact hω
  filter_upwards [hll] with ω hω η hη
  refine polya (monotone_cdf μ) (fun t => ⟨cdf_nonneg μ t, cdf_le_one μ t⟩) (empirical_mono _) (empirical_range _) T hT (fun K k h1 h2 => ?_) η hη
  rw [← hT K k h1 h2]
  exact hω K k

end sample

/-- The distribution function of the Brody distribution. -/
theorem law_cdf {b : ℝ} (hb : 0 ≤ b) {s : ℝ} (hs : 0 < s) : cdf (law b) s = brodyCdf s b := by
  have := (law_spacing b hb).prob
  rw [cdf_eq_real]
  have h1 : (law b).real (Set.Iic s) = ∫ t in Set.Iic s, (1 : ℝ) ∂(law b) := by simp
  rw [h1, ← integral_indicator measurableSet_Iic, law_integral b hb]
  have h2 : ∫ t in Set.Ioi (0 : ℝ), brodyDist t b * Set.indicator (Set.Iic s) (fun _ => (1 : ℝ)) t = ∫ t in Set.Ioc 0 s, brodyDist t b := by
    rw [← Set.Ioi_inter_Iic, ← setIntegral_indicator measurableSet_Iic]
    refine setIntegral_congr_fun measurableSet_Ioi fun t _ => ?_
    by_cases ht : t ∈ Set.Iic s <;> simp [ht]
  rw [h2, ← intervalIntegral.integral_of_le hs.le,
    intervalIntegral.integral_eq_sub_of_hasDerivAt_of_le hs.le (f := fun x => brodyCdf x b) ?_ (fun t ht => brodyCdf_deriv t b ht.1) ?_]
  · rw [(C68_cdf b (by linarith)).1, sub_zero]
  · have : Continuous fun x : ℝ => x ^ (b + 1) := continuous_id.rpow_const fun x => Or.inr (by linarith)
    unfold brodyCdf
    fun_prop
  · rw [intervalIntegrable_iff_integrableOn_Ioc_of_le hs.le]
    exact (dist_integrable b hb).mono_set fun t ht => ht.1

end BrodyC
end RMT
