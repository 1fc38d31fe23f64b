import Verif.Lemmas.CovarianceLaw
import Verif.Lemmas.Inertia
import Verif.Spec.InProbability

/-! # The Marchenko-Pastur law for correlation matrices of noise -/

namespace RMT.Semi
open MeasureTheory ProbabilityTheory Real Spec Filter Topology Gen EigM Props Gauss Gauss.Wishart EigValsM Inertia
open scoped Matrix ENNReal

/-! ## Convergence in probability -/

section InProb
variable {Ω : Type} [MeasurableSpace Ω] {P : ℕ → Measure Ω}

theorem inProb_of_mean (X : ℕ → Ω → ℝ) (c : ℝ) (hi : ∀ n, Integrable (fun ω => |X n ω - c|) (P n)) (h : Tendsto (fun n => ∫ ω, |X n ω - c| ∂(P n)) atTop (𝓝 0)) : InProbability P X c := by
  intro ε hε
  have h1 : Tendsto (fun n => ENNReal.ofReal (∫ ω, |X n ω - c| ∂(P n)) / ENNReal.ofReal ε) atTop (𝓝 (ENNReal.ofReal 0 / ENNReal.ofReal ε)) :=
    ENNReal.Tendsto.div_const (ENNReal.tendsto_ofReal h) (Or.inr (by simpa using hε))
  rw [ENNReal.ofReal_zero, ENNReal.zero_div] at h1
  refine tendsto_of_tendsto_of_tendsto_of_le_of_le tendsto_const_nhds h1 (fun n => zero_le) fun n => ?_
  have h2 := mul_meas_ge_le_lintegral₀ (μ := P n) (f := fun ω => ENNReal.ofReal |X n ω - c|) (hi n).aemeasurable.ennreal_ofReal (ENNReal.ofReal ε)
  rw [ofReal_integral_eq_lintegral_ofReal (hi n) (Eventually.of_forall fun ω => abs_nonneg _)]
  rw [ENNReal.le_div_iff_mul_le (Or.inl (by simpa using hε)) (Or.inl ENNReal.ofReal_ne_top), mul_comm]
  refine le_trans ?_ h2
  gcongr with ω
  exact fun hω => ENNReal.ofReal_le_ofReal hω

/-- Deviations of `X` contained in finitely many sequences of events whose probabilities tend to 0. -/
theorem inProb_of_cover (X : ℕ → Ω → ℝ) (c : ℝ) (h : ∀ ε > 0, ∃ E1 E2 E3 : ℕ → Set Ω, Tendsto (fun n => P n (E1 n)) atTop (𝓝 0) ∧ Tendsto (fun n => P n (E2 n)) atTop (𝓝 0) ∧
    Tendsto (fun n => P n (E3 n)) atTop (𝓝 0) ∧ ∀ᶠ n in atTop, ∀ ω, ε ≤ |X n ω - c| → ω ∈ E1 n ∪ E2 n ∪ E3 n) : InProbability P X c := by
  intro ε hε
  obtain ⟨E1, E2, E3, h1, h2, h3, hc⟩ := h ε hε
  have h4 := (h1.add h2).add h3
  rw [add_zero, add_zero] at h4
  refine tendsto_of_tendsto_of_tendsto_of_le_of_le' tendsto_const_nhds h4 (Eventually.of_forall fun n => zero_le) (hc.mono fun n hn => ?_)
  refine (measure_mono (fun ω hω => hn ω hω)).trans ((measure_union_le _ _).trans ?_)
  gcongr
  exact measure_union_le _ _

theorem inProb_congr (X Y : ℕ → Ω → ℝ) (c : ℝ) (h : ∀ n, ∀ᵐ ω ∂(P n), X n ω = Y n ω) (hX : InProbability P X c) : InProbability P Y c := by
  intro ε hε
  refine (hX ε hε).congr fun n => measure_congr ?_
  filter_upwards [h n] with ω hω
  show (ε ≤ |X n ω - c|) = (ε ≤ |Y n ω - c|)
  rw [hω]

end InProb

/-! ## The limit as a function of the bound -/

/-- The limiting fraction of levels above `a`. -/
noncomputable def tail (q a : ℝ) : ℝ := ∫ x in Set.Ioi a, mpDensity q x

theorem mpDensity_nonneg (q : ℝ) (hq : 0 < q) (x : ℝ) (hx : 0 ≤ x) : 0 ≤ mpDensity q x := by
  unfold mpDensity
  positivity

theorem mpDensity_le (q : ℝ) (hq : 0 < q) (a x : ℝ) (ha : 0 < a) (hx : a ≤ x) : mpDensity q x ≤ 1 / (a * √q) * dens ((x - 1 - q) / √q) := by
  rw [← biased_density q hq x (by linarith)]
  have hs : 0 < √q := Real.sqrt_pos.mpr hq
  have h1 : 1 / x ≤ 1 / a := one_div_le_one_div_of_le ha hx
  have h2 := dens_nonneg ((x - 1 - q) / √q)
  rw [show 1 / (a * √q) * dens ((x - 1 - q) / √q) = 1 / a * (dens ((x - 1 - q) / √q) / √q) by field_simp]
  exact mul_le_mul_of_nonneg_right h1 (by positivity)

theorem dens_integrable : Integrable dens := by
  have hc : ContinuousOn dens (Set.Icc (-2) 2) := by unfold dens; fun_prop
  have h1 := hc.integrableOn_Icc (μ := volume)
  rw [← integrable_indicator_iff measurableSet_Icc] at h1
  refine h1.congr (Eventually.of_forall fun x => ?_)
  by_cases h : x ∈ Set.Icc (-2 : ℝ) 2
  · rw [Set.indicator_of_mem h]
  · rw [Set.indicator_of_notMem h, dens_zero x h]

theorem mpDensity_measurable (q : ℝ) : Measurable (mpDensity q) := by unfold mpDensity; fun_prop

theorem mpDensity_integrable (q : ℝ) (hq : 0 < q) (a : ℝ) (ha : 0 < a) : IntegrableOn (mpDensity q) (Set.Ioi a) := by
  have hs : 0 < √q := Real.sqrt_pos.mpr hq
  have h1 : Integrable fun x => 1 / (a * √q) * dens ((x - 1 - q) / √q) := by
    have h2 := (dens_integrable.comp_div hs.ne').comp_sub_right (1 + q)
    refine (h2.const_mul (1 / (a * √q))).congr (Eventually.of_forall fun x => ?_)
    simp only
    rw [sub_sub]
  refine Integrable.mono' h1.integrableOn (mpDensity_measurable q).aestronglyMeasurable ?_
  rw [ae_restrict_iff' measurableSet_Ioi]
  refine Eventually.of_forall fun x hx => ?_
  rw [Set.mem_Ioi] at hx
  rw [Real.norm_eq_abs, abs_of_nonneg (mpDensity_nonneg q hq x (by linarith))]
  exact mpDensity_le q hq a x ha hx.le

theorem tail_sub (q : ℝ) (hq : 0 < q) (a b : ℝ) (ha : 0 < a) (hab : a ≤ b) : tail q a - tail q b = ∫ x in Set.Ioc a b, mpDensity q x := by
  have h := setIntegral_union (μ := volume) (Set.Ioc_disjoint_Ioi_same (a := a) (b := b)) measurableSet_Ioi ((mpDensity_integrable q hq a ha).mono_set Set.Ioc_subset_Ioi_self)
    (mpDensity_integrable q hq b (by linarith))
  rw [Set.Ioc_union_Ioi_eq_Ioi hab] at h
  unfold tail
  linarith

theorem tail_antitone (q : ℝ) (hq : 0 < q) (a b : ℝ) (ha : 0 < a) (hab : a ≤ b) : tail q b ≤ tail q a := by
  have h := tail_sub q hq a b ha hab
  have : 0 ≤ ∫ x in Set.Ioc a b, mpDensity q x := setIntegral_nonneg measurableSet_Ioc fun x hx => mpDensity_nonneg q hq x (by linarith [hx.1])
  linarith

theorem tail_lipschitz (q : ℝ) (hq : 0 < q) (a b : ℝ) (ha : 0 < a) (hab : a ≤ b) : tail q a - tail q b ≤ (b - a) / (a * √q) := by
  have hs : 0 < √q := Real.sqrt_pos.mpr hq
  rw [tail_sub q hq a b ha hab]
  have h1 : ∫ x in Set.Ioc a b, mpDensity q x ≤ ∫ x in Set.Ioc a b, 1 / (a * √q) := by
    refine setIntegral_mono_on ((mpDensity_integrable q hq a ha).mono_set Set.Ioc_subset_Ioi_self) (integrableOn_const (by simp)) measurableSet_Ioc fun x hx => ?_
    refine (mpDensity_le q hq a x ha hx.1.le).trans ?_
    have h2 := dens_le ((x - 1 - q) / √q)
    have h3 : 1 / π ≤ 1 := by rw [div_le_one pi_pos]; linarith [pi_gt_three]
    exact mul_le_of_le_one_right (by positivity) (h2.trans h3)
  refine h1.trans (le_of_eq ?_)
  simp [hab]
  ring

theorem tail_nonneg (q : ℝ) (hq : 0 < q) (a : ℝ) (ha : 0 < a) : 0 ≤ tail q a := setIntegral_nonneg measurableSet_Ioi fun x hx => mpDensity_nonneg q hq x (ha.trans hx).le

theorem tail_zero (q : ℝ) (hq : 0 < q) (a : ℝ) (ha : (1 + √q) ^ 2 ≤ a) : tail q a = 0 := by
  unfold tail
  rw [setIntegral_congr_fun (g := fun _ => (0 : ℝ)) measurableSet_Ioi]
  · simp
  · intro x hx
    rw [Set.mem_Ioi] at hx
    have hs : 0 < √q := Real.sqrt_pos.mpr hq
    simp only
    unfold mpDensity
    rw [Real.sqrt_eq_zero_of_nonpos, zero_div]
    nlinarith [sq_nonneg (1 - √q)]

/-! ## The variances -/

variable {Ω : Type} [MeasurableSpace Ω] {N T : ℕ}

theorem normal_shift {P : Measure Ω} (Z : ℕ → Ω → ℝ) (hZ : NormalDraws P Z) (m : ℕ) : NormalDraws P fun k => Z (m + k) where
  measurable k := hZ.measurable _
  indep := hZ.indep.precomp (g := fun k => m + k) (add_right_injective m)
  law k := hZ.law _

theorem ts_one (Q : Matrix (Fin T) (Fin T) ℝ) (k : ℕ) : ts 1 Q k = (sm 1 Q 0 0) ^ k := by
  have : sm 1 Q = Matrix.diagonal fun _ => sm 1 Q 0 0 := by
    ext1 i j
    rw [Subsingleton.elim i 0, Subsingleton.elim j 0]
    simp
  rw [ts, this, Matrix.diagonal_pow]
  simp

theorem W_one {Q : Matrix (Fin T) (Fin T) ℝ} (hs : Q.IsSymm) (hq : Q * Q = Q) (k : ℕ) : Wishart.W 1 Q [k + 1] = (Q.trace + 2 * k) * Wishart.W 1 Q [k] := by
  have h : ∀ j ∈ Finset.range k, Wishart.W 1 Q [j, k - j] = Wishart.W 1 Q [k] := by
    intro j hj
    rw [Finset.mem_range] at hj
    simp only [Wishart.W, Wishart.pw, List.map_cons, List.map_nil, List.prod_cons, List.prod_nil, mul_one, ts_one]
    rw [← pow_add, show j + (k - j) = k by omega]
  rw [W_succ hs hq, Finset.sum_congr rfl h]
  simp [splits]
  ring

/-- Fourth central moment of the variance of a row. -/
theorem var_fourth {P : Measure Ω} [IsProbabilityMeasure P] (Z : ℕ → Ω → ℝ) (hZ : NormalDraws P Z) (hT : 2 ≤ T) (i : Fin N) :
    Integrable (fun ω => (covMatrix (noise Z N T ω) i i - 1) ^ 4) P ∧
    ∫ ω, (covMatrix (noise Z N T ω) i i - 1) ^ 4 ∂P = 12 / ((T : ℝ) - 1) ^ 2 + 48 / ((T : ℝ) - 1) ^ 3 := by
  have hT' : (2 : ℝ) ≤ T := by exact_mod_cast hT
  set τ := (T : ℝ) - 1 with hτ
  have hτ0 : 0 < τ := by linarith
  have hZ' := normal_shift Z hZ (i.val * T)
  set m : PolW 1 T := sm 1 (ctr T) 0 0 with hm
  have e : ∀ ω, covMatrix (noise Z N T ω) i i = τ⁻¹ * MvPolynomial.eval (ptW (fun k => Z (i.val * T + k)) 1 T ω) m := by
    intro ω
    have h1 := congrFun (congrFun (cov_sm (N := 1) (fun k => Z (i.val * T + k)) (by omega : 1 ≤ T) ω) 0) 0
    have h2 : covMatrix (noise (fun k => Z (i.val * T + k)) 1 T ω) 0 0 = covMatrix (noise Z N T ω) i i := by
      have h3 : noise (fun k => Z (i.val * T + k)) 1 T ω 0 = noise Z N T ω i := by
        funext t
        simp [noise]
      rw [covMatrix, covMatrix, h3]
    rw [← h2, h1]
    rfl
  have e4 : ∀ ω, (covMatrix (noise Z N T ω) i i - 1) ^ 4 = MvPolynomial.eval (ptW (fun k => Z (i.val * T + k)) 1 T ω) ((MvPolynomial.C τ⁻¹ * m - 1) ^ 4) := by
    intro ω
    rw [e]
    simp
  simp only [e4]
  refine ⟨integrable_ptW _ hZ' _, ?_⟩
  rw [integral_ptW _ hZ']
  have hw : ∀ k, Wishart.W 1 (ctr T) [k] = ex (m ^ k) := by
    intro k
    simp [Wishart.W, Wishart.pw, ts_one, hm]
  have hrec := fun k => W_one (ctr_symm T) (ctr_sq (show 1 ≤ T by omega)) k
  simp only [hw, ctr_trace (show 1 ≤ T by omega), ← hτ] at hrec
  have w0 : ex (m ^ 0) = 1 := by simp [ex]
  have w1 : ex (m ^ 1) = τ := by rw [hrec 0, w0]; simp
  have w2 : ex (m ^ 2) = τ * (τ + 2) := by rw [hrec 1, w1]; push_cast; ring
  have w3 : ex (m ^ 3) = τ * (τ + 2) * (τ + 4) := by rw [hrec 2, w2]; push_cast; ring
  have w4 : ex (m ^ 4) = τ * (τ + 2) * (τ + 4) * (τ + 6) := by rw [hrec 3, w3]; push_cast; ring
  have hexp : (MvPolynomial.C τ⁻¹ * m - 1) ^ 4 = MvPolynomial.C (τ⁻¹ ^ 4) * m ^ 4 + MvPolynomial.C (-4 * τ⁻¹ ^ 3) * m ^ 3 + MvPolynomial.C (6 * τ⁻¹ ^ 2) * m ^ 2 +
      MvPolynomial.C (-4 * τ⁻¹) * m ^ 1 + MvPolynomial.C 1 * m ^ 0 := by
    simp only [map_mul, map_pow, map_neg, map_ofNat, map_one]
    ring
  rw [hexp]
  simp only [ex_add, ex_C_mul, w0, w1, w2, w3, w4]
  field_simp
  ring

/-- Variances stay near 1. -/
theorem var_near {P : ℕ → Measure Ω} [∀ n, IsProbabilityMeasure (P n)] (Z : ℕ → ℕ → Ω → ℝ) (hZ : ∀ n, NormalDraws (P n) (Z n)) (N T : ℕ → ℕ) (hT2 : ∀ n, 2 ≤ T n)
    (hT : Tendsto T atTop atTop) (q : ℝ) (hr : Tendsto (fun n => (N n : ℝ) / T n) atTop (𝓝 q)) (δ : ℝ) (hδ : 0 < δ) :
    Tendsto (fun n => P n {ω | ∃ i, δ ≤ |covMatrix (noise (Z n) (N n) (T n) ω) i i - 1|}) atTop (𝓝 0) := by
  have hTr : Tendsto (fun n => (T n : ℝ)) atTop atTop := tendsto_natCast_atTop_atTop.comp hT
  have hbound : ∀ n, P n {ω | ∃ i, δ ≤ |covMatrix (noise (Z n) (N n) (T n) ω) i i - 1|} ≤ ENNReal.ofReal ((N n : ℝ) / T n * ((T n : ℝ)⁻¹ * (240 / δ ^ 4))) := by
    intro n
    have hT' : (2 : ℝ) ≤ T n := by exact_mod_cast hT2 n
    have h1 : ∀ i : Fin (N n), P n {ω | δ ≤ |covMatrix (noise (Z n) (N n) (T n) ω) i i - 1|} ≤ ENNReal.ofReal ((T n : ℝ)⁻¹ * ((T n : ℝ)⁻¹ * (240 / δ ^ 4))) := by
      intro i
      obtain ⟨hi, hm⟩ := var_fourth (Z n) (hZ n) (hT2 n) i
      have h2 := mul_meas_ge_le_lintegral₀ (μ := P n) (f := fun ω => ENNReal.ofReal ((covMatrix (noise (Z n) (N n) (T n) ω) i i - 1) ^ 4)) hi.aemeasurable.ennreal_ofReal (ENNReal.ofReal (δ ^ 4))
      rw [← ofReal_integral_eq_lintegral_ofReal hi (Eventually.of_forall fun ω => by positivity), hm] at h2
      have h3 : P n {ω | δ ≤ |covMatrix (noise (Z n) (N n) (T n) ω) i i - 1|} ≤ ENNReal.ofReal (12 / ((T n : ℝ) - 1) ^ 2 + 48 / ((T n : ℝ) - 1) ^ 3) / ENNReal.ofReal (δ ^ 4) := by
        rw [ENNReal.le_div_iff_mul_le (Or.inl (by simp; positivity)) (Or.inl ENNReal.ofReal_ne_top), mul_comm]
        refine le_trans ?_ h2
        gcongr with ω
        intro hω
        refine ENNReal.ofReal_le_ofReal ?_
        have := pow_le_pow_left₀ hδ.le hω 4
        rwa [← abs_pow, abs_of_nonneg (by positivity)] at this
      refine h3.trans ?_
      rw [← ENNReal.ofReal_div_of_pos (by positivity)]
      refine ENNReal.ofReal_le_ofReal ?_
      have h4 : 12 / ((T n : ℝ) - 1) ^ 2 + 48 / ((T n : ℝ) - 1) ^ 3 ≤ 60 / ((T n : ℝ) - 1) ^ 2 := by
        have : 48 / ((T n : ℝ) - 1) ^ 3 ≤ 48 / ((T n : ℝ) - 1) ^ 2 := by
          apply div_le_div_of_nonneg_left (by norm_num) (by nlinarith)
          exact pow_le_pow_right₀ (by linarith) (by norm_num)
        have e : 60 / ((T n : ℝ) - 1) ^ 2 = 12 / ((T n : ℝ) - 1) ^ 2 + 48 / ((T n : ℝ) - 1) ^ 2 := by rw [← add_div]; norm_num
        linarith
      have h5 : 60 / ((T n : ℝ) - 1) ^ 2 ≤ 240 / (T n : ℝ) ^ 2 := by
        rw [div_le_div_iff₀ (by nlinarith) (by nlinarith)]
        nlinarith
      calc _ ≤ 240 / (T n : ℝ) ^ 2 / δ ^ 4 := div_le_div_of_nonneg_right (h4.trans h5) (by positivity)
        _ = _ := by field_simp
    have hset : {ω | ∃ i, δ ≤ |covMatrix (noise (Z n) (N n) (T n) ω) i i - 1|} = ⋃ i, {ω | δ ≤ |covMatrix (noise (Z n) (N n) (T n) ω) i i - 1|} := by ext ω; simp
    rw [hset]
    refine (measure_iUnion_fintype_le _ _).trans ((Finset.sum_le_sum fun i _ => h1 i).trans (le_of_eq ?_))
    rw [Finset.sum_const, Finset.card_univ, Fintype.card_fin, nsmul_eq_mul, ← ENNReal.ofReal_natCast, ← ENNReal.ofReal_mul (by positivity)]
    congr 1
    ring
  have hlim : Tendsto (fun n => ENNReal.ofReal ((N n : ℝ) / T n * ((T n : ℝ)⁻¹ * (240 / δ ^ 4)))) atTop (𝓝 (ENNReal.ofReal (q * (0 * (240 / δ ^ 4))))) :=
    ENNReal.tendsto_ofReal (hr.mul ((tendsto_inv_atTop_zero.comp hTr).mul_const _))
  rw [zero_mul, mul_zero, ENNReal.ofReal_zero] at hlim
  exact tendsto_of_tendsto_of_tendsto_of_le_of_le tendsto_const_nhds hlim (fun n => zero_le) hbound

/-! ## Covariance and correlation matrices -/

omit [MeasurableSpace Ω] in
theorem covLevels_cnt (Z : ℕ → Ω → ℝ) (N T : ℕ) (ω : Ω) (a : ℝ) : (covLevels Z N T ω).countP (fun x => decide (a < x)) = cnt (covMatrix (noise Z N T ω)) a := by
  rw [cnt, covLevels, ← Multiset.coe_countP, Multiset.sort_eq]

theorem symm_herm (M : Matrix (Fin N) (Fin N) ℝ) (h : M.IsSymm) : M.IsHermitian := by
  rw [Matrix.IsHermitian, Matrix.conjTranspose_eq_transpose_of_trivial]
  exact h

/-- Covariances from correlations. -/
theorem cov_corr (X : Matrix (Fin N) (Fin T) ℝ) (hT : 2 ≤ T) (h : ∀ i, 0 < covMatrix X i i) (i j : Fin N) : covMatrix X i j = √(covMatrix X i i) * corrMatrix X i j * √(covMatrix X j j) := by
  have hT' : (2 : ℝ) ≤ T := by exact_mod_cast hT
  have hc : ∀ i j, covMatrix X i j = S X i j / ((T : ℝ) - 1) := by
    intro i j
    rw [S_eq _ (by omega)]
    rfl
  have hp : ∀ i, 0 < S X i i := by
    intro i
    have := h i
    rw [hc] at this
    exact (div_pos_iff_of_pos_right (by linarith)).mp this
  have h1 : 0 < √((T : ℝ) - 1) := Real.sqrt_pos.mpr (by linarith)
  have h2 : √((T : ℝ) - 1) ^ 2 = (T : ℝ) - 1 := Real.sq_sqrt (by linarith)
  rw [corrMatrix, pearson_eq _ (by omega), hc, hc i i, hc j j, Real.sqrt_div (hp i).le, Real.sqrt_div (hp j).le]
  have h3 := Real.sqrt_pos.mpr (hp i)
  have h4 := Real.sqrt_pos.mpr (hp j)
  field_simp
  rw [h2, mul_div_cancel_right₀ _ (by linarith)]

variable {P : ℕ → Measure Ω} [∀ n, IsProbabilityMeasure (P n)]

theorem inProb_cov (Z : ℕ → ℕ → Ω → ℝ) (hZ : ∀ n, NormalDraws (P n) (Z n)) (N T : ℕ → ℕ) (hT2 : ∀ n, 2 ≤ T n)
    (hN : Tendsto N atTop atTop) (hT : Tendsto T atTop atTop) (q : ℝ) (hq : 0 < q) (hr : Tendsto (fun n => (N n : ℝ) / T n) atTop (𝓝 q)) (a : ℝ) (ha : 0 < a) :
    InProbability P (fun n ω => (cnt (covMatrix (noise (Z n) (N n) (T n) ω)) a : ℝ) / N n) (tail q a) := by
  refine inProb_of_mean _ _ (fun n => ?_) ?_
  · obtain ⟨h1, h2, -⟩ := covLevels_facts (Z n) (hZ n).measurable (N n) (T n) (by have := hT2 n; omega)
    have hm : Measurable fun ω => (cnt (covMatrix (noise (Z n) (N n) (T n) ω)) a : ℝ) := by
      simp only [← covLevels_cnt]
      simp only [fun ω => countP_sum (covLevels (Z n) (N n) (T n) ω) (N n) (h1 ω) (fun x => a < x) (fun x => if a < x then 1 else 0) (fun x => rfl)]
      exact Finset.measurable_fun_sum _ fun i _ => Measurable.ite (measurableSet_lt measurable_const (h2 i.val)) measurable_const measurable_const
    refine Integrable.mono' (integrable_const (1 + |tail q a|)) (((hm.div_const _).sub_const _).norm).aestronglyMeasurable (Eventually.of_forall fun ω => ?_)
    rw [Real.norm_eq_abs, abs_abs]
    refine (abs_sub _ _).trans (add_le_add_left ?_ _)
    rw [abs_of_nonneg (by positivity)]
    refine div_le_one_of_le₀ ?_ (by positivity)
    rw [← covLevels_cnt]
    have := List.countP_le_length (p := fun x => decide (a < x)) (l := covLevels (Z n) (N n) (T n) ω)
    rw [h1 ω] at this
    exact_mod_cast this
  · have h := tendsto_cov Z hZ N T hT2 hN hT q hq hr a ha
    simpa only [covLevels_cnt, tail] using h

theorem inProb_corr (Z : ℕ → ℕ → Ω → ℝ) (hZ : ∀ n, NormalDraws (P n) (Z n)) (N T : ℕ → ℕ) (hT2 : ∀ n, 2 ≤ T n)
    (hN : Tendsto N atTop atTop) (hT : Tendsto T atTop atTop) (q : ℝ) (hq : 0 < q) (hr : Tendsto (fun n => (N n : ℝ) / T n) atTop (𝓝 q)) (a : ℝ) (ha : 0 < a) :
    InProbability P (fun n ω => (cnt (corrMatrix (noise (Z n) (N n) (T n) ω)) a : ℝ) / N n) (tail q a) := by
  have hs : 0 < √q := Real.sqrt_pos.mpr hq
  refine inProb_of_cover _ _ fun ε hε => ?_
  obtain ⟨δ, hδ0, hδ1, hδ2⟩ : ∃ δ > 0, δ ≤ 1 / 2 ∧ 2 * δ / √q ≤ ε / 4 := by
    refine ⟨min (1 / 2) (ε * √q / 8), by positivity, min_le_left _ _, ?_⟩
    rw [div_le_iff₀ hs]
    have := min_le_right (1 / 2) (ε * √q / 8)
    linarith
  have hl : 0 < 1 - δ := by linarith
  refine ⟨fun n => {ω | ∃ i, δ ≤ |covMatrix (noise (Z n) (N n) (T n) ω) i i - 1|},
    fun n => {ω | ε / 4 ≤ |(cnt (covMatrix (noise (Z n) (N n) (T n) ω)) (a * (1 + δ)) : ℝ) / N n - tail q (a * (1 + δ))|},
    fun n => {ω | ε / 4 ≤ |(cnt (covMatrix (noise (Z n) (N n) (T n) ω)) (a * (1 - δ)) : ℝ) / N n - tail q (a * (1 - δ))|},
    var_near Z hZ N T hT2 hT q hr δ hδ0, inProb_cov Z hZ N T hT2 hN hT q hq hr _ (by positivity) _ (by positivity),
    inProb_cov Z hZ N T hT2 hN hT q hq hr _ (by positivity) _ (by positivity), Eventually.of_forall fun n ω hω => ?_⟩
  by_contra hc
  simp only [Set.mem_union, not_or, Set.mem_ofPred_eq, not_exists, not_le] at hc
  obtain ⟨⟨h1, h2⟩, h3⟩ := hc
  set C := covMatrix (noise (Z n) (N n) (T n) ω) with hC
  have hb : ∀ i, 1 - δ ≤ C i i ∧ C i i ≤ 1 + δ := by
    intro i
    have := abs_lt.mp (h1 i)
    constructor <;> linarith [this.1, this.2]
  have hpos : ∀ i, 0 < C i i := fun i => lt_of_lt_of_le hl (hb i).1
  have hsc := cnt_scaled C (corrMatrix (noise (Z n) (N n) (T n) ω)) (symm_herm _ (covMatrix_isSymm _)) (symm_herm _ (corrMatrix_isSymm _)) (fun i => √(C i i)) (fun i => Real.sqrt_pos.mpr (hpos i))
    (cov_corr _ (hT2 n) hpos) (1 - δ) (1 + δ) hl (fun i => by rw [Real.sq_sqrt (hpos i).le]; exact hb i) a ha
  have d1 : (cnt C (a * (1 + δ)) : ℝ) / N n ≤ (cnt (corrMatrix (noise (Z n) (N n) (T n) ω)) a : ℝ) / N n := div_le_div_of_nonneg_right (by exact_mod_cast hsc.1) (by positivity)
  have d2 : (cnt (corrMatrix (noise (Z n) (N n) (T n) ω)) a : ℝ) / N n ≤ (cnt C (a * (1 - δ)) : ℝ) / N n := div_le_div_of_nonneg_right (by exact_mod_cast hsc.2) (by positivity)
  have l1 := tail_lipschitz q hq a (a * (1 + δ)) ha (by nlinarith)
  have l2 := tail_lipschitz q hq (a * (1 - δ)) a (by positivity) (by nlinarith)
  have l3 : (a * (1 + δ) - a) / (a * √q) ≤ 2 * δ / √q := by
    rw [div_le_div_iff₀ (by positivity) hs]
    nlinarith [mul_pos ha hs, mul_pos (mul_pos ha hs) hδ0]
  have l4 : (a - a * (1 - δ)) / (a * (1 - δ) * √q) ≤ 2 * δ / √q := by
    rw [div_le_div_iff₀ (by positivity) hs]
    nlinarith [mul_pos ha hs, mul_pos (mul_pos ha hs) hδ0]
  have b2 := abs_lt.mp h2
  have b3 := abs_lt.mp h3
  have : |(cnt (corrMatrix (noise (Z n) (N n) (T n) ω)) a : ℝ) / N n - tail q a| < ε := by
    rw [abs_lt]
    constructor <;> linarith [b2.1, b2.2, b3.1, b3.2]
  exact absurd hω (not_le.mpr this)

/-- Both. -/
theorem inProb_wanted (Z : ℕ → ℕ → Ω → ℝ) (hZ : ∀ n, NormalDraws (P n) (Z n)) (N T : ℕ → ℕ) (hT2 : ∀ n, 2 ≤ T n)
    (hN : Tendsto N atTop atTop) (hT : Tendsto T atTop atTop) (q : ℝ) (hq : 0 < q) (hr : Tendsto (fun n => (N n : ℝ) / T n) atTop (𝓝 q)) (cov : Bool) (a : ℝ) (ha : 0 < a) :
    InProbability P (fun n ω => (cnt (wantedMatrix (noise (Z n) (N n) (T n) ω) cov) a : ℝ) / N n) (tail q a) := by
  cases cov
  · simpa [wantedMatrix] using inProb_corr Z hZ N T hT2 hN hT q hq hr a ha
  · simpa [wantedMatrix] using inProb_cov Z hZ N T hT2 hN hT q hq hr a ha

end RMT.Semi
