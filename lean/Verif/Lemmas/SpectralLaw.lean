import Verif.Lemmas.SemicircleCdf

/-! # Laws of large numbers for spectra -/

namespace RMT.Semi
open MeasureTheory ProbabilityTheory Real Spec Filter Topology Gen EigM Props Gauss EigValsM Analytic

variable {Ω : Type} [MeasurableSpace Ω] {P : ℕ → Measure Ω} [∀ n, IsProbabilityMeasure (P n)]

theorem scaled_measurable (eh : EigSolver) (hs : ExactSolver eh) (X : ℕ → Ω → ℝ) (hX : ∀ k, Measurable (X k)) (n : ℕ) (i : Fin n) :
    Measurable (scaled eh X n i) := ((full_facts eh hs X hX n).2.1 i.val).div_const _

theorem ind_measurable (a : ℝ) : Measurable (ind a) := Measurable.ite measurableSet_Iic measurable_const measurable_const

/-- The law of the full matrix. -/
theorem tendsto_full (eh : EigSolver) (hs : ExactSolver eh) (X : ℕ → ℕ → Ω → ℝ) (hX : ∀ n, NormalDraws (P n) (X n)) (b : ℝ) :
    Tendsto (fun n => ∫ ω, |emp n (fun i => scaled eh (X n) n i ω) (ind b) - F b| ∂(P n)) atTop (𝓝 0) := by
  have := tendsto_approx (P := P) (fun n => scaled eh (X n) n) (fun n => scaled_measurable eh hs (X n) (hX n).measurable n)
    (fun n k => moment_integrable eh hs (X n) (hX n) n k) (tendsto_abs eh hs X hX) (ind b) (ind_measurable b) (ind_integrable b) (approx_ind b)
  rwa [F_ind] at this

theorem countP_sum (l : List ℝ) (n : ℕ) (h : l.length = n) (p : ℝ → Prop) [DecidablePred p] (c : ℝ → ℝ) (hc : ∀ x, c x = if p x then 1 else 0) :
    (l.countP (fun x => decide (p x)) : ℝ) = ∑ i : Fin n, c (vec n l i) := by
  have h1 := sum_getD l n h c
  simp only [vec]
  rw [h1]
  clear h1 h
  induction l with
  | nil => simp
  | cons a l ih =>
    rw [List.countP_cons, List.map_cons, List.sum_cons, hc a]
    push_cast
    rw [ih]
    by_cases h : p a <;> simp [h, add_comm]

/-- The fraction of levels at most `a √n`. -/
theorem frac_levels (l : List ℝ) (n : ℕ) (hn : 0 < n) (h : l.length = n) (a : ℝ) :
    (countLE l (a * √n) : ℝ) / n = emp n (fun i => vec n l i / √n) (ind a) := by
  unfold emp countLE
  rw [countP_sum l n h (fun x => x ≤ a * √n) (fun x => ind a (x / √n)) fun x => by
    unfold ind
    have : (0 : ℝ) < √n := Real.sqrt_pos.mpr (by exact_mod_cast hn)
    simp only [div_le_iff₀ this]]

/-- The fraction of unfolded levels. -/
theorem frac_unfolded (l : List ℝ) (n : ℕ) (hn : 0 < n) (h : l.length = n) (b : ℝ) (h1 : -2 ≤ b) (h2 : b < 2) :
    (countLE (l.map (smoothGoe n)) (F b * n) : ℝ) / n = emp n (fun i => √2 * vec n l i / √n) (ind b) := by
  have hn' : (0 : ℝ) < n := by exact_mod_cast hn
  unfold emp countLE
  rw [List.countP_map]
  simp only [Function.comp_def]
  rw [countP_sum l n h (fun x => smoothGoe n x ≤ F b * n) (fun x => ind b (√2 * x / √n)) fun x => by
    unfold ind
    have e : √2 * x / √n = √(2 / n) * x := by rw [Real.sqrt_div (by norm_num)]; ring
    rw [smooth_eq n hn, mul_comm (F b), e]
    simp only [mul_le_mul_iff_right₀ hn', F_le_iff b h1 h2]]

/-- Same law, up to the factor `√2`. -/
theorem tendsto_ident {Ω' : Type} [MeasurableSpace Ω'] {P' : ℕ → Measure Ω'} [∀ n, IsProbabilityMeasure (P' n)] (eh : EigSolver) (hs : ExactSolver eh) (tri : (n : ℕ) → Ω' → List ℝ)
    (X : ℕ → ℕ → Ω → ℝ) (hX : ∀ n, NormalDraws (P n) (X n))
    (hid : ∀ᶠ n in atTop, IdentDistrib (fun ω => vec n (full eh (X n) n ω)) (fun ω i => √2 * vec n (tri n ω) i) (P n) (P' n)) (b : ℝ) :
    Tendsto (fun n => ∫ ω, |emp n (fun i => √2 * vec n (tri n ω) i / √n) (ind b) - F b| ∂(P' n)) atTop (𝓝 0) := by
  refine (tendsto_full (P := P) eh hs X hX b).congr' (hid.mono fun n h => ?_)
  have hm : Measurable fun v : Fin n → ℝ => |emp n (fun i => v i / √n) (ind b) - F b| := by
    have : Measurable fun v : Fin n → ℝ => emp n (fun i => v i / √n) (ind b) := by
      unfold emp
      exact (Finset.measurable_fun_sum _ fun i _ => (ind_measurable b).comp ((measurable_pi_apply i).div_const _)).div_const _
    exact (this.sub_const _).norm
  exact (h.comp hm).integral_eq

theorem exists_quantile (t : ℝ) (h0 : 0 ≤ t) (h1 : t < 1) : ∃ b, -2 ≤ b ∧ b < 2 ∧ F b = t := by
  obtain ⟨b, hb, e⟩ := intermediate_value_Icc (show (-2 : ℝ) ≤ 2 by norm_num) F_cont.continuousOn (show t ∈ Set.Icc (F (-2)) (F 2) by rw [F_neg_two, F_two]; exact ⟨h0, h1.le⟩)
  refine ⟨b, hb.1, lt_of_le_of_ne hb.2 fun h => ?_, e⟩
  rw [h, F_two] at e
  linarith

/-! ## The mean spacing -/

/-- With `f` the fractions at most `ε` and at most `1 - ε`, the span of values in `[0, 1]` is close to 1. -/
theorem span_bound (m M f g ε : ℝ) (hε : 0 < ε) (hm0 : 0 ≤ m) (hM1 : M ≤ 1) (hmM : m ≤ M) (hm : ε < m → f = 0) (hM : M ≤ 1 - ε → g = 1) :
    |(M - m) - 1| ≤ 2 * ε + (|f - ε| + |g - (1 - ε)|) / ε := by
  have h1 : m ≤ ε + |f - ε| / ε := by
    by_cases h : ε < m
    · rw [hm h, zero_sub, abs_neg, abs_of_pos hε, div_self hε.ne']; linarith
    · have : 0 ≤ |f - ε| / ε := by positivity
      linarith
  have h2 : 1 - M ≤ ε + |g - (1 - ε)| / ε := by
    by_cases h : M ≤ 1 - ε
    · rw [hM h, show 1 - (1 - ε) = ε by ring, abs_of_pos hε, div_self hε.ne']; linarith
    · have : 0 ≤ |g - (1 - ε)| / ε := by positivity
      linarith
  rw [add_div, abs_of_nonpos (by linarith)]
  linarith


theorem avg_gaps (u : List ℝ) (n : ℕ) (h : u.length = n) (hn : 0 < n) : avg (gaps u) = (u.getD (n - 1) 0 - u.getD 0 0) / ((n : ℝ) - 1) := by
  unfold avg gaps
  rw [List.length_map, List.length_range, h]
  have h1 : ((List.range (n - 1)).map fun (i : ℕ) => u.getD (i + 1) 0 - u.getD i 0).sum = ∑ i ∈ Finset.range (n - 1), (u.getD (i + 1) 0 - u.getD i 0) := rfl
  rw [h1, Finset.sum_range_sub (fun i => u.getD i 0), Nat.cast_sub hn]
  simp

theorem countLE_zero (l : List ℝ) (n : ℕ) (hn : 0 < n) (h : l.length = n) (ha : Ascending l) (q : ℝ) (hq : q < l.getD 0 0) : countLE l q = 0 := by
  unfold countLE
  rw [List.countP_eq_zero]
  intro x hx
  simp only [decide_eq_true_eq, not_le]
  refine lt_of_lt_of_le hq ?_
  cases l with
  | nil => simp at hx
  | cons a l =>
    simp only [List.getD_cons_zero]
    rcases List.mem_cons.mp hx with rfl | hx
    · exact le_rfl
    · exact (List.pairwise_cons.mp ha).1 x hx

theorem countLE_all (l : List ℝ) (n : ℕ) (hn : 0 < n) (h : l.length = n) (ha : Ascending l) (q : ℝ) (hq : l.getD (n - 1) 0 ≤ q) : countLE l q = n := by
  unfold countLE
  rw [← h, List.countP_eq_length]
  intro x hx
  simp only [decide_eq_true_eq]
  refine le_trans ?_ hq
  obtain ⟨i, hi, rfl⟩ := List.getElem_of_mem hx
  have h1 : n - 1 < l.length := by omega
  rw [List.getD_eq_getElem?_getD, List.getElem?_eq_getElem h1, Option.getD_some]
  rcases Nat.lt_or_ge i (n - 1) with h2 | h2
  · exact List.pairwise_iff_getElem.mp ha i (n - 1) hi h1 h2
  · have : i = n - 1 := by omega
    subst this; exact le_rfl

/-- If the fractions converge in the mean, so does the mean spacing. -/
theorem tendsto_spacing (u : (n : ℕ) → Ω → List ℝ) (hu : ∀ᶠ n in atTop, ∀ ω, (u n ω).length = n ∧ Ascending (u n ω) ∧ ∀ v ∈ u n ω, 0 ≤ v ∧ v ≤ n)
    (hm : ∀ᶠ n in atTop, ∀ i : ℕ, AEMeasurable (fun ω => (u n ω).getD i 0) (P n))
    (hl : ∀ t ∈ Set.Icc (0 : ℝ) 1, Tendsto (fun n => ∫ ω, |(countLE (u n ω) (t * n) : ℝ) / n - t| ∂(P n)) atTop (𝓝 0)) :
    Tendsto (fun n => ∫ ω, |avg (gaps (u n ω)) - 1| ∂(P n)) atTop (𝓝 0) := by
  have hfi : ∀ t, ∀ᶠ n in atTop, Integrable (fun ω => |(countLE (u n ω) (t * n) : ℝ) / n - t|) (P n) := by
    intro t
    filter_upwards [hu, hm, eventually_gt_atTop 0] with n h1 h2 h3
    have e : ∀ ω, (countLE (u n ω) (t * n) : ℝ) = ∑ i : Fin n, ind (t * n) ((u n ω).getD i.val 0) := by
      intro ω
      exact countP_sum (u n ω) n (h1 ω).1 (fun x => x ≤ t * n) (ind (t * n)) fun x => rfl
    refine Integrable.abs (Integrable.sub ?_ (integrable_const _))
    simp only [e]
    refine Integrable.div_const (integrable_finsetSum _ fun i _ => ?_) _
    refine Integrable.mono' (integrable_const 1) ((ind_measurable _).comp_aemeasurable (h2 i.val)).aestronglyMeasurable (Eventually.of_forall fun ω => ?_)
    unfold ind
    split_ifs <;> simp
  rw [Metric.tendsto_atTop]
  intro δ hδ
  set ε := min (1 / 2) (δ / 16) with hε
  have hε0 : 0 < ε := lt_min (by norm_num) (by positivity)
  have hε1 : ε ≤ 1 / 2 := min_le_left _ _
  have hε2 : ε ≤ δ / 16 := min_le_right _ _
  have l1 := hl ε ⟨hε0.le, by linarith⟩
  have l2 := hl (1 - ε) ⟨by linarith, by linarith⟩
  have hlim : Tendsto (fun n : ℕ => 2 * (2 * ε + ((∫ ω, |(countLE (u n ω) (ε * n) : ℝ) / n - ε| ∂(P n)) + ∫ ω, |(countLE (u n ω) ((1 - ε) * n) : ℝ) / n - (1 - ε)| ∂(P n)) / ε) + 1 / ((n : ℝ) - 1)) atTop (𝓝 (2 * (2 * ε + (0 + 0) / ε) + 0)) := by
    refine Tendsto.add (((l1.add l2).div_const ε).const_add _ |>.const_mul _) ?_
    have : Tendsto (fun n : ℕ => (n : ℝ) - 1) atTop atTop := tendsto_atTop_add_const_right _ _ tendsto_natCast_atTop_atTop
    exact tendsto_const_nhds.div_atTop this
  have hlt : 2 * (2 * ε + (0 + 0) / ε) + 0 < δ := by
    rw [add_zero, add_zero, zero_div]; linarith
  have key : ∀ᶠ n in atTop, dist (∫ ω, |avg (gaps (u n ω)) - 1| ∂(P n)) 0 < δ := by
    filter_upwards [hu, hm, eventually_gt_atTop 1, hfi ε, hfi (1 - ε), hlim.eventually (gt_mem_nhds hlt)] with n h1 h2 h3 h4 h5 h6
    rw [Real.dist_0_eq_abs, abs_of_nonneg (integral_nonneg fun ω => abs_nonneg _)]
    refine lt_of_le_of_lt ?_ h6
    have hn2 : (2 : ℝ) ≤ n := by exact_mod_cast h3
    have hn0 : (0 : ℝ) < n := by linarith
    have hpt : ∀ ω, |avg (gaps (u n ω)) - 1| ≤ 2 * (2 * ε + (|(countLE (u n ω) (ε * n) : ℝ) / n - ε| + |(countLE (u n ω) ((1 - ε) * n) : ℝ) / n - (1 - ε)|) / ε) + 1 / ((n : ℝ) - 1) := by
      intro ω
      obtain ⟨a1, a2, a3⟩ := h1 ω
      rw [avg_gaps (u n ω) n a1 (by omega)]
      have hmem : ∀ i, i < n → (u n ω).getD i 0 ∈ u n ω := by
        intro i hi
        rw [List.getD_eq_getElem?_getD, List.getElem?_eq_getElem (by omega), Option.getD_some]
        exact List.getElem_mem _
      have b0 := a3 _ (hmem 0 (by omega))
      have b1 := a3 _ (hmem (n - 1) (by omega))
      have b2 : (u n ω).getD 0 0 ≤ (u n ω).getD (n - 1) 0 := by
        rw [List.getD_eq_getElem?_getD, List.getD_eq_getElem?_getD, List.getElem?_eq_getElem (by omega), List.getElem?_eq_getElem (by omega), Option.getD_some, Option.getD_some]
        exact List.pairwise_iff_getElem.mp a2 0 (n - 1) (by omega) (by omega) (by omega)
      have hz := countLE_zero (u n ω) n (by omega) a1 a2
      have ho := countLE_all (u n ω) n (by omega) a1 a2
      generalize (u n ω).getD 0 0 = m at *
      generalize (u n ω).getD (n - 1) 0 = M at *
      have hb := span_bound (m / n) (M / n) ((countLE (u n ω) (ε * n) : ℝ) / n) ((countLE (u n ω) ((1 - ε) * n) : ℝ) / n) ε hε0
        (div_nonneg b0.1 hn0.le) (by rw [div_le_one hn0]; exact b1.2) (by gcongr)
        (fun h => by rw [lt_div_iff₀ hn0] at h; rw [hz _ h]; simp)
        (fun h => by rw [div_le_iff₀ hn0] at h; rw [ho _ h]; exact div_self hn0.ne')
      have hc1 : (0 : ℝ) < n - 1 := by linarith
      have e : (M - m) / ((n : ℝ) - 1) - 1 = (M / n - m / n - 1) * (n / (n - 1)) + 1 / (n - 1) := by
        field_simp
        ring
      rw [e]
      have hr : (n : ℝ) / (n - 1) ≤ 2 := by rw [div_le_iff₀ hc1]; linarith
      have hr0 : 0 ≤ (n : ℝ) / (n - 1) := by positivity
      refine (abs_add_le _ _).trans ?_
      rw [abs_mul, abs_of_nonneg hr0, abs_of_nonneg (show 0 ≤ 1 / ((n : ℝ) - 1) by positivity)]
      nlinarith [abs_nonneg (M / n - m / n - 1)]
    have hI : Integrable (fun ω => avg (gaps (u n ω))) (P n) := by
      have e : ∀ ω, avg (gaps (u n ω)) = ((u n ω).getD (n - 1) 0 - (u n ω).getD 0 0) / ((n : ℝ) - 1) := fun ω => avg_gaps _ n (h1 ω).1 (by omega)
      simp only [e]
      have hb : ∀ i, i < n → Integrable (fun ω => (u n ω).getD i 0) (P n) := by
        intro i hi
        refine Integrable.mono' (integrable_const (n : ℝ)) (h2 i).aestronglyMeasurable (Eventually.of_forall fun ω => ?_)
        have : (u n ω).getD i 0 ∈ u n ω := by
          have := (h1 ω).1
          rw [List.getD_eq_getElem?_getD, List.getElem?_eq_getElem (by omega), Option.getD_some]
          exact List.getElem_mem _
        have := (h1 ω).2.2 _ this
        rw [Real.norm_eq_abs, abs_of_nonneg this.1]
        exact this.2
      exact ((hb _ (by omega)).sub (hb _ (by omega))).div_const _
    have i1 : Integrable (fun ω => |(countLE (u n ω) (ε * n) : ℝ) / n - ε| + |(countLE (u n ω) ((1 - ε) * n) : ℝ) / n - (1 - ε)|) (P n) := h4.add h5
    have i2 : Integrable (fun ω => 2 * ε + (|(countLE (u n ω) (ε * n) : ℝ) / n - ε| + |(countLE (u n ω) ((1 - ε) * n) : ℝ) / n - (1 - ε)|) / ε) (P n) := (integrable_const _).add (i1.div_const _)
    have i3 : Integrable (fun ω => 2 * (2 * ε + (|(countLE (u n ω) (ε * n) : ℝ) / n - ε| + |(countLE (u n ω) ((1 - ε) * n) : ℝ) / n - (1 - ε)|) / ε)) (P n) := i2.const_mul _
    refine (integral_mono ((hI.sub (integrable_const _)).abs) (i3.add (integrable_const _)) hpt).trans (le_of_eq ?_)
    rw [integral_add' i3 (integrable_const _), integral_const_mul, integral_add (integrable_const _) (i1.div_const _), integral_div, integral_add h4 h5]
    simp
  exact eventually_atTop.mp key

end RMT.Semi
