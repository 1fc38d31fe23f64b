import Verif.Lemmas.PolyProb
import Mathlib.Probability.ConditionalProbability

/-! # Limits of trimmed spectra -/

namespace RMT.TrimLim
open MeasureTheory ProbabilityTheory Spec Filter Topology PolyLim Set

/-- How many of the kept levels are at most `t`. -/
theorem slice_count (l : List ℝ) (h : Ascending l) (t : ℝ) : ∀ K m : ℕ, countLE ((l.drop K).take m) t = min m (countLE l t - K) := by
  induction l with
  | nil => intro K m; simp [countLE]
  | cons x xs ih =>
    have hx : ∀ y ∈ xs, x ≤ y := (List.pairwise_cons.mp h).1
    have ih := ih (List.pairwise_cons.mp h).2
    by_cases hxt : x ≤ t
    · have hc : countLE (x :: xs) t = countLE xs t + 1 := by simp [countLE, hxt]
      intro K m
      cases K with
      | succ k =>
        rw [List.drop_succ_cons, ih, hc]
        omega
      | zero =>
        cases m with
        | zero => simp [countLE]
        | succ m =>
          have h0 := ih 0 m
          rw [List.drop_zero] at h0
          rw [List.drop_zero, List.take_succ_cons, hc]
          have : countLE (x :: xs.take m) t = countLE (xs.take m) t + 1 := by simp [countLE, hxt]
          rw [this, h0]
          omega
    · have hz : ∀ ys : List ℝ, (∀ y ∈ ys, x ≤ y) → countLE ys t = 0 := fun ys hys => by
        rw [countLE, List.countP_eq_zero]
        intro y hy
        have := hys y hy
        simp only [decide_eq_true_eq]
        linarith
      intro K m
      have hall : ∀ y ∈ x :: xs, x ≤ y := fun y hy => by
        rcases List.mem_cons.mp hy with rfl | hy
        · exact le_rfl
        · exact hx y hy
      rw [hz _ fun y hy => hall y (List.mem_of_mem_drop (List.mem_of_mem_take hy)), hz _ hall]
      omega

variable (μ : Measure ℝ) [IsProbabilityMeasure μ]

theorem icc_real (ha : ∀ s, μ {s} = 0) (u v : ℝ) (h : u ≤ v) : μ.real (Icc u v) = cdf μ v - cdf μ u := by
  have h1 : Iic v = Iio u ∪ Icc u v := by
    ext x
    simp only [mem_Iic, mem_union, mem_Iio, mem_Icc]
    constructor
    · intro hx
      rcases lt_or_ge x u with h' | h'
      · exact Or.inl h'
      · exact Or.inr ⟨h', hx⟩
    · rintro (h' | h')
      · linarith
      · exact h'.2
  have h2 : μ.real (Iic u) = μ.real (Iio u) := by
    have : Iic u = Iio u ∪ {u} := by
      ext x
      simp [le_iff_lt_or_eq]
    rw [this, measureReal_union (by simp) (measurableSet_singleton u), measureReal_def μ {u}, ha]
    simp
  rw [cdf_eq_real, cdf_eq_real, h2, h1, measureReal_union (by
    rw [Set.disjoint_left]
    intro x h3 h4
    exact absurd h4.1 (not_le.mpr h3)) measurableSet_Icc]
  ring

/-- The distribution function of the law of the kept levels. -/
theorem cond_cdf (ha : ∀ s, μ {s} = 0) (u v : ℝ) (h : cdf μ u < cdf μ v) :
    IsProbabilityMeasure (cond μ (Icc u v)) ∧ ∀ t, cdf (cond μ (Icc u v)) t = max 0 (min 1 ((cdf μ t - cdf μ u) / (cdf μ v - cdf μ u))) := by
  have huv : u ≤ v := by
    by_contra hcon
    exact absurd (monotone_cdf μ (not_le.mp hcon).le) (not_le.mpr h)
  have hI := icc_real μ ha u v huv
  have hne : μ (Icc u v) ≠ 0 := by
    intro h0
    rw [measureReal_def, h0] at hI
    simp at hI
    linarith
  have hp : IsProbabilityMeasure (cond μ (Icc u v)) := cond_isProbabilityMeasure hne
  refine ⟨hp, fun t => ?_⟩
  have hd : 0 < cdf μ v - cdf μ u := by linarith
  rw [cdf_eq_real, measureReal_def, cond_apply measurableSet_Icc, ENNReal.toReal_mul, ENNReal.toReal_inv, ← measureReal_def, ← measureReal_def, hI]
  rcases lt_or_ge t u with h1 | h1
  · have : Icc u v ∩ Iic t = ∅ := by
      ext x
      simp only [mem_inter_iff, mem_Icc, mem_Iic, mem_empty_iff_false, iff_false]
      rintro ⟨⟨h2, -⟩, h3⟩
      linarith
    rw [this, measureReal_empty, mul_zero, max_eq_left]
    refine (min_le_right _ _).trans (div_nonpos_of_nonpos_of_nonneg ?_ hd.le)
    have := monotone_cdf μ h1.le
    linarith
  · have hut := monotone_cdf μ h1
    rcases le_or_gt t v with h2 | h2
    · have : Icc u v ∩ Iic t = Icc u t := by
        ext x
        simp only [mem_inter_iff, mem_Icc, mem_Iic]
        constructor
        · rintro ⟨⟨h3, -⟩, h4⟩
          exact ⟨h3, h4⟩
        · rintro ⟨h3, h4⟩
          exact ⟨⟨h3, h4.trans h2⟩, h4⟩
      rw [this, icc_real μ ha u t h1, inv_mul_eq_div, min_eq_right, max_eq_right]
      · exact div_nonneg (by linarith) hd.le
      · rw [div_le_one hd]
        have := monotone_cdf μ h2
        linarith
    · have : Icc u v ∩ Iic t = Icc u v := by
        ext x
        simp only [mem_inter_iff, mem_Icc, mem_Iic, and_iff_left_iff_imp]
        rintro ⟨-, h4⟩
        linarith
      have hvt := monotone_cdf μ h2.le
      rw [this, hI, inv_mul_cancel₀ hd.ne', min_eq_left, max_eq_right zero_le_one]
      rw [one_le_div hd]
      linarith

omit [IsProbabilityMeasure μ] in
theorem cond_atom (ha : ∀ s, μ {s} = 0) (u v : ℝ) (s : ℝ) : cond μ (Icc u v) {s} = 0 := by
  rw [cond_apply measurableSet_Icc]
  have : μ (Icc u v ∩ {s}) = 0 := measure_mono_null inter_subset_right (ha s)
  rw [this, mul_zero]

omit [IsProbabilityMeasure μ] in
theorem cond_mem (u v : ℝ) : ∀ᵐ x ∂(cond μ (Icc u v)), x ∈ Icc u v := by
  rw [ProbabilityTheory.cond]
  exact Measure.ae_smul_measure (ae_restrict_mem measurableSet_Icc) _

theorem cond_pow (ha : ∀ s, μ {s} = 0) (u v : ℝ) (h : cdf μ u < cdf μ v) (k : ℕ) : Integrable (fun x : ℝ => x ^ k) (ProbabilityTheory.cond μ (Icc u v)) := by
  have := (cond_cdf μ ha u v h).1
  refine Integrable.of_bound (continuous_pow k).aestronglyMeasurable (max |u| |v| ^ k) ?_
  filter_upwards [cond_mem μ u v] with x hx
  rw [Real.norm_eq_abs, abs_pow]
  exact pow_le_pow_left₀ (abs_nonneg _) (abs_le_max_abs_abs hx.1 hx.2) _

theorem clamp_lip (x y : ℝ) : |max 0 (min 1 x) - max 0 (min 1 y)| ≤ |x - y| := by
  refine (abs_max_sub_max_le_max _ _ _ _).trans ?_
  refine max_le (by simp) ?_
  refine (abs_min_sub_min_le_max _ _ _ _).trans ?_
  exact max_le (by simp) le_rfl

variable {Ω : Type} [MeasurableSpace Ω]

/-- **Trimmed spectra.** If the levels of `l n`, divided by `a n`, are distributed according to `μ` in the limit, then the levels number `K m + 1, …, K m + m` of `l (N m)` are distributed according to `μ` conditioned on `[u, v]`, if the fraction of levels cut off below
tends to the distribution function at `u`, and the fraction kept to the weight of `[u, v]`. -/
theorem trimmed_limit (P : ℕ → Measure Ω) [∀ n, IsProbabilityMeasure (P n)] (l : ℕ → Ω → List ℝ) (a : ℕ → ℝ) (ha : ∀ s, μ {s} = 0) (h : SpectralLimit P l a μ)
    (u v : ℝ) (hu : 0 < cdf μ u) (huv : cdf μ u < cdf μ v) (hv : cdf μ v < 1) (N K : ℕ → ℕ) (hN : Tendsto N atTop atTop) (hKN : ∀ m, K m + m ≤ N m)
    (hK : Tendsto (fun m => (K m : ℝ) / N m) atTop (𝓝 (cdf μ u))) (hm : Tendsto (fun m : ℕ => (m : ℝ) / N m) atTop (𝓝 (cdf μ v - cdf μ u))) :
    SpectralLimit (fun m => P (N m)) (fun m ω => ((l (N m) ω).drop (K m)).take m) (fun m => a (N m)) (ProbabilityTheory.cond μ (Icc u v)) := by
  obtain ⟨hp, hcdf⟩ := cond_cdf μ ha u v huv
  have hd : 0 < cdf μ v - cdf μ u := by linarith
  have hsort : ∀ m ω, (((l (N m) ω).drop (K m)).take m).length = m ∧ Ascending (((l (N m) ω).drop (K m)).take m) := fun m ω => by
    obtain ⟨h1, h2⟩ := h.sorted (N m) ω
    refine ⟨?_, h2.sublist ((List.take_sublist _ _).trans (List.drop_sublist _ _))⟩
    rw [List.length_take, List.length_drop, h1]
    have := hKN m
    omega
  have hclamp : ∀ m, 1 ≤ m → ∀ ω t, (countLE (((l (N m) ω).drop (K m)).take m) t : ℝ) / m = max 0 (min 1 (((countLE (l (N m) ω) t : ℝ) / N m - K m / N m) / (m / N m))) := fun m hm1 ω t => by
    have hm0 : (0 : ℝ) < m := by exact_mod_cast hm1
    have hN0 : (0 : ℝ) < N m := by
      have := hKN m
      exact_mod_cast (by omega : 0 < N m)
    rw [slice_count _ (h.sorted _ _).2, ← sub_div, div_div_div_cancel_right₀ hN0.ne']
    rcases le_total (countLE (l (N m) ω) t) (K m) with h1 | h1
    · rw [Nat.sub_eq_zero_of_le h1, Nat.min_zero, Nat.cast_zero, zero_div, max_eq_left]
      refine (min_le_right _ _).trans (div_nonpos_of_nonpos_of_nonneg ?_ hm0.le)
      have : (countLE (l (N m) ω) t : ℝ) ≤ K m := by exact_mod_cast h1
      linarith
    · have h2 : (0 : ℝ) ≤ (countLE (l (N m) ω) t : ℝ) - K m := by
        have : (K m : ℝ) ≤ countLE (l (N m) ω) t := by exact_mod_cast h1
        linarith
      rw [max_eq_right (le_min zero_le_one (div_nonneg h2 hm0.le)), Nat.cast_min, Nat.cast_sub h1, ← min_div_div_right hm0.le, div_self hm0.ne']
  have hfrac : ∀ t : ℝ, InProbability (fun m => P (N m)) (fun m ω => (countLE (((l (N m) ω).drop (K m)).take m) (t * a (N m)) : ℝ) / m) (cdf (ProbabilityTheory.cond μ (Icc u v)) t) := fun t => by
    intro ε hε
    set D := cdf μ v - cdf μ u with hD
    have h1 := (h.frac t (ε * D / 4) (by positivity))
    have h1' : Tendsto (fun m => P (N m) {ω | ε * D / 4 ≤ |(countLE (l (N m) ω) (t * a (N m)) : ℝ) / N m - cdf μ t|}) atTop (𝓝 0) := h1.comp hN
    have h2 : Tendsto (fun m : ℕ => (cdf μ t - (K m : ℝ) / N m) / (m / N m)) atTop (𝓝 ((cdf μ t - cdf μ u) / D)) := (tendsto_const_nhds.sub hK).div hm hd.ne'
    have h3 : ∀ᶠ m : ℕ in atTop, |(cdf μ t - (K m : ℝ) / N m) / (m / N m) - (cdf μ t - cdf μ u) / D| < ε / 4 := by
      have := Metric.tendsto_nhds.mp h2 (ε / 4) (by positivity)
      simpa [Real.dist_eq] using this
    have h4 : ∀ᶠ m : ℕ in atTop, D / 2 < (m : ℝ) / N m := hm.eventually (lt_mem_nhds (by linarith))
    refine tendsto_of_tendsto_of_tendsto_of_le_of_le' tendsto_const_nhds h1' (Eventually.of_forall fun _ => zero_le) ?_
    filter_upwards [h3, h4, eventually_ge_atTop 1] with m e3 e4 hm1
    refine measure_mono fun ω hω => ?_
    simp only [mem_ofPred_eq] at hω ⊢
    by_contra hcon
    push Not at hcon
    rw [hclamp m hm1, hcdf] at hω
    have hω' := hω.trans (clamp_lip _ _)
    set c := (countLE (l (N m) ω) (t * a (N m)) : ℝ) / N m
    set κ := (K m : ℝ) / N m
    set γ := (m : ℝ) / N m
    have hγ : 0 < γ := by linarith
    have e5 : (c - κ) / γ - (cdf μ t - cdf μ u) / D = (c - cdf μ t) / γ + ((cdf μ t - κ) / γ - (cdf μ t - cdf μ u) / D) := by ring
    rw [e5] at hω'
    have e6 := hω'.trans (abs_add_le _ _)
    have e7 : |(c - cdf μ t) / γ| ≤ ε / 2 := by
      rw [abs_div, abs_of_pos hγ, div_le_iff₀ hγ]
      nlinarith
    linarith
  refine ⟨hsort, hN.eventually h.scale, hfrac, fun k => ?_⟩
  -- the moments
  obtain ⟨b1, hb1⟩ : ∃ b1, cdf μ b1 < cdf μ u := ((tendsto_cdf_atBot μ).eventually (gt_mem_nhds hu)).exists
  obtain ⟨b2, hb2⟩ : ∃ b2, cdf μ v < cdf μ b2 := ((tendsto_cdf_atTop μ).eventually (lt_mem_nhds hv)).exists
  set f : ℝ → ℝ := fun x => (max b1 (min b2 x)) ^ k with hf
  have hfc : Continuous f := by rw [hf]; fun_prop
  have hb12 : b1 ≤ b2 := by
    by_contra hcon
    have := monotone_cdf μ (not_le.mp hcon).le
    linarith
  have hfC : ∀ x, |f x| ≤ (max |b1| |b2|) ^ k := fun x => by
    rw [hf]
    simp only
    rw [abs_pow]
    exact pow_le_pow_left₀ (abs_nonneg _) (abs_le_max_abs_abs (le_max_left _ _) (max_le hb12 (min_le_left _ _))) _
  have hfeq : ∀ x, b1 ≤ x → x ≤ b2 → f x = x ^ k := fun x h1 h2 => by
    rw [hf]
    simp only
    rw [min_eq_right h2, max_eq_right h1]
  have hub : b1 ≤ u := by
    by_contra hcon
    have := monotone_cdf μ (not_le.mp hcon).le
    linarith
  have hvb : v ≤ b2 := by
    by_contra hcon
    have := monotone_cdf μ (not_le.mp hcon).le
    linarith
  have hint : ∫ x, x ^ k ∂(ProbabilityTheory.cond μ (Icc u v)) = ∫ x, f x ∂(ProbabilityTheory.cond μ (Icc u v)) := by
    refine integral_congr_ae ?_
    filter_upwards [cond_mem μ u v] with x hx
    rw [hfeq x (hub.trans hx.1) (hx.2.trans hvb)]
  rw [hint]
  intro ε hε
  obtain ⟨η, hη, hcl⟩ := Weak.means_close (ProbabilityTheory.cond μ (Icc u v)) f hfc _ hfC ε hε
  obtain ⟨S, ρ, hρ, hgrid⟩ := cdf_grid (ProbabilityTheory.cond μ (Icc u v)) (cond_atom μ ha u v) η hη
  have t1 := tendsto_finset (fun m => P (N m)) S (fun t m => {ω | ρ ≤ |(countLE (((l (N m) ω).drop (K m)).take m) (t * a (N m)) : ℝ) / m - cdf (ProbabilityTheory.cond μ (Icc u v)) t|}) fun t _ => hfrac t ρ hρ
  have t2 : Tendsto (fun m => P (N m) {ω | (cdf μ u - cdf μ b1) / 2 ≤ |(countLE (l (N m) ω) (b1 * a (N m)) : ℝ) / N m - cdf μ b1|}) atTop (𝓝 0) := (h.frac b1 _ (by linarith)).comp hN
  have t3 : Tendsto (fun m => P (N m) {ω | (cdf μ b2 - cdf μ v) / 2 ≤ |(countLE (l (N m) ω) (b2 * a (N m)) : ℝ) / N m - cdf μ b2|}) atTop (𝓝 0) := (h.frac b2 _ (by linarith)).comp hN
  have t4 := (t1.add t2).add t3
  rw [add_zero, add_zero] at t4
  refine tendsto_of_tendsto_of_tendsto_of_le_of_le' tendsto_const_nhds t4 (Eventually.of_forall fun _ => zero_le) ?_
  have s1 : ∀ᶠ m : ℕ in atTop, (cdf μ u + cdf μ b1) / 2 < (K m : ℝ) / N m := hK.eventually (lt_mem_nhds (by linarith))
  have s2 : ∀ᶠ m : ℕ in atTop, (K m : ℝ) / N m + m / N m < (cdf μ v + cdf μ b2) / 2 := (hK.add hm).eventually (gt_mem_nhds (by linarith))
  filter_upwards [s1, s2, hN.eventually h.scale, eventually_ge_atTop 1] with m e1 e2 han hm1
  refine le_trans (measure_mono fun ω hω => ?_) ((measure_union_le _ _).trans (add_le_add_left (measure_union_le _ _) _))
  by_contra hcon
  simp only [mem_union, mem_iUnion, mem_ofPred_eq, not_or, not_exists, not_le] at hcon
  obtain ⟨⟨c1, c2⟩, c3⟩ := hcon
  obtain ⟨hlen, hasc⟩ := hsort m ω
  obtain ⟨hNl, hNasc⟩ := h.sorted (N m) ω
  have hN0 : (0 : ℝ) < N m := by
    have := hKN m
    exact_mod_cast (by omega : 0 < N m)
  have hm0 : (0 : ℝ) < m := by exact_mod_cast hm1
  set s := ((l (N m) ω).drop (K m)).take m with hs
  have hlow : ∀ x ∈ s, b1 * a (N m) < x := by
    have h0 : countLE s (b1 * a (N m)) = 0 := by
      rw [hs, slice_count _ hNasc]
      have h1 : (countLE (l (N m) ω) (b1 * a (N m)) : ℝ) / N m < K m / N m := by
        have := (abs_lt.mp c2).2
        linarith
      rw [div_lt_div_iff_of_pos_right hN0] at h1
      have : countLE (l (N m) ω) (b1 * a (N m)) < K m := by exact_mod_cast h1
      omega
    rw [countLE, List.countP_eq_zero] at h0
    intro x hx
    have := h0 x hx
    simpa using this
  have hhigh : ∀ x ∈ s, x ≤ b2 * a (N m) := by
    have h0 : countLE s (b2 * a (N m)) = s.length := by
      rw [hlen, hs, slice_count _ hNasc]
      have h1 : ((K m : ℝ) + m) / N m < (countLE (l (N m) ω) (b2 * a (N m)) : ℝ) / N m := by
        have := (abs_lt.mp c3).1
        rw [add_div]
        linarith
      rw [div_lt_div_iff_of_pos_right hN0] at h1
      have : K m + m < countLE (l (N m) ω) (b2 * a (N m)) := by exact_mod_cast h1
      omega
    rw [countLE, List.countP_eq_length] at h0
    intro x hx
    simpa using h0 x hx
  set L := s.map fun x => x / a (N m) with hL
  have hLlen : L.length = m := by rw [hL, List.length_map, hlen]
  have hLne : L ≠ [] := by
    rw [← List.length_pos_iff, hLlen]
    omega
  have hcount : ∀ t, L.countP (fun x => decide (x ≤ t)) = countLE s (t * a (N m)) := fun t => by
    rw [hL, List.countP_map, countLE]
    congr 1
    ext x
    simp only [Function.comp_apply, div_le_iff₀ han]
  have hkol : ∀ t, |(L.countP (fun x => decide (x ≤ t)) : ℝ) / L.length - cdf (ProbabilityTheory.cond μ (Icc u v)) t| ≤ η := by
    refine hgrid (fun t => (L.countP (fun x => decide (x ≤ t)) : ℝ) / L.length) (fun s t hst => ?_) (fun t => ⟨by positivity, ?_⟩) fun t ht => ?_
    · refine div_le_div_of_nonneg_right ?_ (by positivity)
      exact_mod_cast List.countP_mono_left fun x _ hx => by simp only [decide_eq_true_eq] at hx ⊢; exact hx.trans hst
    · refine div_le_one_of_le₀ ?_ (by positivity)
      exact_mod_cast List.countP_le_length
    · rw [hcount, hLlen]
      exact (c1 t ht).le
  have hfin := hcl (Weak.empiricalLaw L) (Weak.empirical_prob L hLne) fun t => by
    rw [Weak.empirical_cdf L hLne, ← cdf_eq_real]
    exact hkol t
  rw [Weak.empirical_integral, hLlen, hL, List.map_map] at hfin
  have hmap : s.map (f ∘ fun x => x / a (N m)) = s.map fun x => (x / a (N m)) ^ k := List.map_congr_left fun x hx => by
    simp only [Function.comp]
    refine hfeq _ ?_ ?_
    · rw [le_div_iff₀ han]
      exact (hlow x hx).le
    · rw [div_le_iff₀ han]
      exact hhigh x hx
  rw [hmap] at hfin
  exact absurd hω (not_le.mpr hfin)

theorem asc_getD (s : List ℝ) (h : Ascending s) (i j : ℕ) (hij : i ≤ j) (hj : j < s.length) : s.getD i 0 ≤ s.getD j 0 := by
  rw [List.getD_eq_getElem _ _ hj, List.getD_eq_getElem _ _ (lt_of_le_of_lt hij hj)]
  rcases hij.lt_or_eq with h1 | h1
  · exact List.pairwise_iff_getElem.mp h i j _ hj h1
  · subst h1
    exact le_rfl

omit [IsProbabilityMeasure μ] in
/-- The first and the last level kept are near `u` and `v`. -/
theorem trimmed_ends (P : ℕ → Measure Ω) [∀ n, IsProbabilityMeasure (P n)] (l : ℕ → Ω → List ℝ) (a : ℕ → ℝ) (h : SpectralLimit P l a μ)
    (u v : ℝ) (hu : ∀ ε > 0, cdf μ (u - ε) < cdf μ u ∧ cdf μ u < cdf μ (u + ε)) (hv : ∀ ε > 0, cdf μ (v - ε) < cdf μ v ∧ cdf μ v < cdf μ (v + ε)) (N K : ℕ → ℕ) (hN : Tendsto N atTop atTop) (hKN : ∀ m, K m + m ≤ N m)
    (hK : Tendsto (fun m => (K m : ℝ) / N m) atTop (𝓝 (cdf μ u))) (hm : Tendsto (fun m : ℕ => (m : ℝ) / N m) atTop (𝓝 (cdf μ v - cdf μ u))) (ε : ℝ) (hε : 0 < ε) :
    ∃ E : ℕ → Set Ω, Tendsto (fun m => P (N m) (E m)) atTop (𝓝 0) ∧ ∀ᶠ m in atTop, ∀ ω, ω ∉ E m →
      u - ε < (((l (N m) ω).drop (K m)).take m).getD 0 0 / a (N m) ∧ (((l (N m) ω).drop (K m)).take m).getD 0 0 / a (N m) ≤ u + ε ∧
      v - ε < (((l (N m) ω).drop (K m)).take m).getD (m - 1) 0 / a (N m) ∧ (((l (N m) ω).drop (K m)).take m).getD (m - 1) 0 / a (N m) ≤ v + ε := by
  obtain ⟨u1, u2⟩ := hu ε hε
  obtain ⟨v1, v2⟩ := hv ε hε
  have key : ∀ b r : ℝ, 0 < r → Tendsto (fun m => P (N m) {ω | r ≤ |(countLE (l (N m) ω) (b * a (N m)) : ℝ) / N m - cdf μ b|}) atTop (𝓝 0) := fun b r hr => (h.frac b r hr).comp hN
  have t1 := key (u - ε) ((cdf μ u - cdf μ (u - ε)) / 2) (by linarith)
  have t2 := key (u + ε) ((cdf μ (u + ε) - cdf μ u) / 2) (by linarith)
  have t3 := key (v - ε) ((cdf μ v - cdf μ (v - ε)) / 2) (by linarith)
  have t4 := key (v + ε) ((cdf μ (v + ε) - cdf μ v) / 2) (by linarith)
  have t := (t1.add t2).add (t3.add t4)
  simp only [add_zero] at t
  refine ⟨_, tendsto_of_tendsto_of_tendsto_of_le_of_le tendsto_const_nhds t (fun _ => zero_le) fun m => (measure_union_le _ _).trans (add_le_add (measure_union_le _ _) (measure_union_le _ _)), ?_⟩
  have s1 : ∀ᶠ m : ℕ in atTop, (cdf μ u + cdf μ (u - ε)) / 2 < (K m : ℝ) / N m := hK.eventually (lt_mem_nhds (by linarith))
  have s2 : ∀ᶠ m : ℕ in atTop, (K m : ℝ) / N m < (cdf μ u + cdf μ (u + ε)) / 2 := hK.eventually (gt_mem_nhds (by linarith))
  have s3 : ∀ᶠ m : ℕ in atTop, (cdf μ v + cdf μ (v - ε)) / 2 < (K m : ℝ) / N m + m / N m := (hK.add hm).eventually (lt_mem_nhds (by linarith))
  have s4 : ∀ᶠ m : ℕ in atTop, (K m : ℝ) / N m + m / N m < (cdf μ v + cdf μ (v + ε)) / 2 := (hK.add hm).eventually (gt_mem_nhds (by linarith))
  filter_upwards [s1, s2, s3, s4, hN.eventually h.scale, eventually_ge_atTop 1] with m e1 e2 e3 e4 han hm1 ω hω
  simp only [mem_union, mem_ofPred_eq, not_or, not_le] at hω
  obtain ⟨⟨c1, c2⟩, c3, c4⟩ := hω
  obtain ⟨hNl, hNasc⟩ := h.sorted (N m) ω
  have hN0 : (0 : ℝ) < N m := by
    have := hKN m
    exact_mod_cast (by omega : 0 < N m)
  rw [← add_div] at e3 e4
  have d1 : countLE (l (N m) ω) ((u - ε) * a (N m)) < K m := by
    have : (countLE (l (N m) ω) ((u - ε) * a (N m)) : ℝ) / N m < K m / N m := by linarith [(abs_lt.mp c1).2]
    rw [div_lt_div_iff_of_pos_right hN0] at this
    exact_mod_cast this
  have d2 : K m < countLE (l (N m) ω) ((u + ε) * a (N m)) := by
    have : (K m : ℝ) / N m < (countLE (l (N m) ω) ((u + ε) * a (N m)) : ℝ) / N m := by linarith [(abs_lt.mp c2).1]
    rw [div_lt_div_iff_of_pos_right hN0] at this
    exact_mod_cast this
  have d3 : countLE (l (N m) ω) ((v - ε) * a (N m)) < K m + m := by
    have : (countLE (l (N m) ω) ((v - ε) * a (N m)) : ℝ) / N m < (K m + m) / N m := by linarith [(abs_lt.mp c3).2]
    rw [div_lt_div_iff_of_pos_right hN0] at this
    exact_mod_cast this
  have d4 : K m + m < countLE (l (N m) ω) ((v + ε) * a (N m)) := by
    have : ((K m : ℝ) + m) / N m < (countLE (l (N m) ω) ((v + ε) * a (N m)) : ℝ) / N m := by linarith [(abs_lt.mp c4).1]
    rw [div_lt_div_iff_of_pos_right hN0] at this
    exact_mod_cast this
  have hsc := slice_count (l (N m) ω) hNasc
  have hasc : Ascending (((l (N m) ω).drop (K m)).take m) := hNasc.sublist ((List.take_sublist _ _).trans (List.drop_sublist _ _))
  have hlen : (((l (N m) ω).drop (K m)).take m).length = m := by
    rw [List.length_take, List.length_drop, hNl]
    have := hKN m
    omega
  have f1 := hsc ((u - ε) * a (N m)) (K m) m
  have f2 := hsc ((u + ε) * a (N m)) (K m) m
  have f3 := hsc ((v - ε) * a (N m)) (K m) m
  have f4 := hsc ((v + ε) * a (N m)) (K m) m
  generalize ((l (N m) ω).drop (K m)).take m = s at *
  have hget : ∀ i < m, s.getD i 0 ∈ s := fun i hi => by
    rw [List.getD_eq_getElem _ _ (by omega)]
    exact List.getElem_mem _
  refine ⟨?_, ?_, ?_, ?_⟩
  · rw [lt_div_iff₀ han]
    rw [show min m (countLE (l (N m) ω) ((u - ε) * a (N m)) - K m) = 0 by omega, countLE, List.countP_eq_zero] at f1
    simpa using f1 _ (hget 0 (by omega))
  · rw [div_le_iff₀ han]
    by_contra hcon
    have : countLE s ((u + ε) * a (N m)) = 0 := by
      rw [countLE, List.countP_eq_zero]
      intro y hy
      obtain ⟨i, hi, rfl⟩ := List.getElem_of_mem hy
      have := asc_getD s hasc 0 i (by omega) hi
      rw [List.getD_eq_getElem _ _ hi] at this
      simp only [decide_eq_true_eq]
      linarith
    omega
  · rw [lt_div_iff₀ han]
    by_contra hcon
    have : countLE s ((v - ε) * a (N m)) = s.length := by
      rw [countLE, List.countP_eq_length]
      intro y hy
      obtain ⟨i, hi, rfl⟩ := List.getElem_of_mem hy
      have := asc_getD s hasc i (m - 1) (by omega) (by omega)
      rw [List.getD_eq_getElem _ _ hi] at this
      simp only [decide_eq_true_eq]
      linarith
    omega
  · rw [div_le_iff₀ han]
    rw [show min m (countLE (l (N m) ω) ((v + ε) * a (N m)) - K m) = s.length by omega, countLE, List.countP_eq_length] at f4
    simpa using f4 _ (hget (m - 1) (by omega))

end RMT.TrimLim
