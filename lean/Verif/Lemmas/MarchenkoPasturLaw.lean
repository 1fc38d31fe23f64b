import Verif.Props.MarchenkoPastur
import Verif.Lemmas.PolyProb
import Verif.Spec.MarchenkoPasturLaw

/-!
# The Marchenko-Pastur law as a measure, and the moments of the spectra of noise
-/

namespace RMT.Semi
open Spec MeasureTheory ProbabilityTheory Filter Topology EigM Gauss Gauss.Wishart Props Set
open Inertia (cnt cnt_scaled)

variable {Ω : Type} [MeasurableSpace Ω]

/-! ## The law -/

theorem mp_integrable (q : ℝ) (hq : 0 < q) : IntegrableOn (mpDensity q) (Ioi 0) := by
  by_contra h
  have h1 := mpMass q hq
  rw [integral_undef h] at h1
  have : 0 < min 1 (1 / q) := by positivity
  linarith

theorem mp_integral (q : ℝ) (hq : 0 < q) (f : ℝ → ℝ) : ∫ x, f x ∂(mpLaw q) = ∫ x in Ioi 0, f x * mpDensity q x := by
  unfold mpLaw
  rw [integral_withDensity_eq_integral_toReal_smul (by have := mpDensity_measurable q; fun_prop) (by simp)]
  refine setIntegral_congr_fun measurableSet_Ioi fun x hx => ?_
  simp only [smul_eq_mul]
  rw [ENNReal.toReal_ofReal (mpDensity_nonneg q hq x (le_of_lt hx)), mul_comm]

theorem mp_prob (q : ℝ) (hq : 0 < q) (hq1 : q ≤ 1) : IsProbabilityMeasure (mpLaw q) := by
  constructor
  unfold mpLaw
  rw [withDensity_apply _ MeasurableSet.univ, Measure.restrict_univ, ← ofReal_integral_eq_lintegral_ofReal (mp_integrable q hq), mpMass q hq, min_eq_left, ENNReal.ofReal_one]
  · rw [le_div_iff₀ hq]
    linarith
  · refine (ae_restrict_iff' measurableSet_Ioi).mpr (Eventually.of_forall fun x hx => mpDensity_nonneg q hq x (le_of_lt hx))

theorem mp_atom (q : ℝ) (s : ℝ) : mpLaw q {s} = 0 := by
  unfold mpLaw
  exact withDensity_absolutelyContinuous _ _ (Measure.absolutelyContinuous_of_le Measure.restrict_le_self (by simp))

theorem mp_cdf (q : ℝ) (hq : 0 < q) (hq1 : q ≤ 1) (t : ℝ) : cdf (mpLaw q) t = if t < 0 then 0 else 1 - tail q t := by
  have := mp_prob q hq hq1
  have h1 : (mpLaw q).real (Iic t) = ∫ x in Ioi 0, (Iic t).indicator (fun _ => (1 : ℝ)) x * mpDensity q x := by
    rw [← mp_integral q hq, integral_indicator measurableSet_Iic]
    simp
  rw [cdf_eq_real, h1]
  have h2 : ∀ x, (Iic t).indicator (fun _ => (1 : ℝ)) x * mpDensity q x = (Iic t).indicator (mpDensity q) x := fun x => by
    by_cases h : x ∈ Iic t <;> simp [h]
  simp only [h2]
  rw [setIntegral_indicator measurableSet_Iic]
  split_ifs with h
  · have : Ioi (0 : ℝ) ∩ Iic t = ∅ := by
      ext x
      simp only [mem_inter_iff, mem_Ioi, mem_Iic, mem_empty_iff_false, iff_false, not_and, not_le]
      intro hx
      linarith
    simp [this]
  · have e : Ioi (0 : ℝ) ∩ Iic t = Ioc 0 t := rfl
    have h3 : ∫ x in Ioi 0, mpDensity q x = (∫ x in Ioc 0 t, mpDensity q x) + ∫ x in Ioi t, mpDensity q x := by
      rw [← setIntegral_union (Ioc_disjoint_Ioi le_rfl) measurableSet_Ioi ((mp_integrable q hq).mono_set Ioc_subset_Ioi_self) ((mp_integrable q hq).mono_set (Ioi_subset_Ioi (not_lt.mp h))), Ioc_union_Ioi_eq_Ioi (not_lt.mp h)]
    rw [e, tail]
    rw [mpMass q hq, min_eq_left (by rw [le_div_iff₀ hq]; linarith)] at h3
    linarith

theorem mp_zero_below (q : ℝ) (hq : 0 < q) (x : ℝ) (hx : x ≤ 0) : dens ((x - 1 - q) / √q) = 0 := by
  have hs : 0 < √q := Real.sqrt_pos.mpr hq
  have hsq : √q ^ 2 = q := Real.sq_sqrt hq.le
  unfold dens
  rw [Real.sqrt_eq_zero_of_nonpos, zero_div]
  have h1 : 2 ≤ (1 + q - x) / √q := by
    rw [le_div_iff₀ hs]
    nlinarith [sq_nonneg (1 - √q)]
  have h2 : (x - 1 - q) / √q = -((1 + q - x) / √q) := by rw [← neg_div]; ring_nf
  rw [h2]
  nlinarith

theorem mp_moment (q : ℝ) (hq : 0 < q) (hq1 : q ≤ 1) (k : ℕ) : ∫ x, x ^ k ∂(mpLaw q) = mpm q k := by
  rw [mp_integral q hq]
  rcases k with - | k
  · simp only [pow_zero, one_mul]
    rw [mpMass q hq, min_eq_left (by rw [le_div_iff₀ hq]; linarith)]
    rfl
  · rw [← mpBiased_moment, integral_mpBiased q hq, ← integral_indicator measurableSet_Ioi]
    refine integral_congr_ae (Eventually.of_forall fun x => ?_)
    simp only
    by_cases h : 0 < x
    · rw [indicator_of_mem (show x ∈ Ioi 0 from h), ← biased_density q hq x h.ne']
      field_simp
      ring
    · rw [indicator_of_notMem (show x ∉ Ioi 0 from h), mp_zero_below q hq x (not_lt.mp h)]
      simp

theorem mp_support (q : ℝ) (hq : 0 < q) : ∀ᵐ x ∂(mpLaw q), 0 < x ∧ x ≤ (1 + √q) ^ 2 := by
  unfold mpLaw
  rw [ae_withDensity_iff (by have := mpDensity_measurable q; fun_prop)]
  refine (ae_restrict_iff' measurableSet_Ioi).mpr (Eventually.of_forall fun x hx hd => ⟨hx, ?_⟩)
  by_contra hc
  refine hd ?_
  rw [ENNReal.ofReal_eq_zero]
  unfold mpDensity
  rw [Real.sqrt_eq_zero_of_nonpos, zero_div]
  have hs : 0 < √q := Real.sqrt_pos.mpr hq
  have h2 : (1 - √q) ^ 2 ≤ (1 + √q) ^ 2 := by nlinarith
  exact mul_nonpos_of_nonpos_of_nonneg (by linarith) (by linarith)

theorem mp_pow (q : ℝ) (hq : 0 < q) (hq1 : q ≤ 1) (k : ℕ) : Integrable (fun x : ℝ => x ^ k) (mpLaw q) := by
  have := mp_prob q hq hq1
  have hb : ∀ᵐ x ∂(mpLaw q), |x ^ k| ≤ ((1 + √q) ^ 2) ^ k := by
    filter_upwards [mp_support q hq] with x hx
    rw [abs_of_nonneg (pow_nonneg hx.1.le k)]
    exact pow_le_pow_left₀ hx.1.le hx.2 k
  exact Integrable.mono' (integrable_const _) (by fun_prop) hb

/-! ## Ordered spectra from counts -/

/-- If at least as many values of `l₂` are above every level, the sorted values of `l₂` are larger. -/
theorem sorted_le (l₁ l₂ : List ℝ) (n : ℕ) (h1 : l₁.length = n) (h2 : l₂.length = n) (s1 : Ascending l₁) (s2 : Ascending l₂) (h0 : ∀ x ∈ l₂, 0 ≤ x)
    (h : ∀ a > 0, l₁.countP (fun x => decide (a < x)) ≤ l₂.countP (fun x => decide (a < x))) (i : ℕ) (hi : i < n) : l₁.getD i 0 ≤ l₂.getD i 0 := by
  by_contra hc
  rw [not_le, List.getD_eq_getElem _ _ (by omega), List.getD_eq_getElem _ _ (by omega)] at hc
  have hp : 0 ≤ l₂[i]'(by omega) := h0 _ (List.getElem_mem _)
  obtain ⟨a, ha1, ha2⟩ := exists_between hc
  have hk := h a (by linarith)
  have e1 : n - i ≤ l₁.countP (fun x => decide (a < x)) := by
    calc n - i = (l₁.drop i).length := by simp [h1]
      _ = (l₁.drop i).countP (fun x => decide (a < x)) := by
        symm
        rw [List.countP_eq_length]
        intro x hx
        obtain ⟨j, hj, rfl⟩ := List.mem_iff_getElem.mp hx
        rw [List.getElem_drop]
        simp only [decide_eq_true_eq]
        refine lt_of_lt_of_le ha2 ?_
        rcases Nat.eq_zero_or_pos j with rfl | hj0
        · simp
        · exact List.pairwise_iff_getElem.mp s1 i (i + j) _ _ (by omega)
      _ ≤ _ := (List.drop_sublist i l₁).countP_le
  have e2 : l₂.countP (fun x => decide (a < x)) ≤ n - (i + 1) := by
    conv_lhs => rw [← List.take_append_drop (i + 1) l₂]
    rw [List.countP_append]
    have z : (l₂.take (i + 1)).countP (fun x => decide (a < x)) = 0 := by
      rw [List.countP_eq_zero]
      intro x hx
      obtain ⟨j, hj, rfl⟩ := List.mem_iff_getElem.mp hx
      rw [List.getElem_take]
      simp only [decide_eq_true_eq, not_lt]
      rw [List.length_take] at hj
      refine le_trans ?_ ha1.le
      rcases Nat.lt_or_ge j i with hji | hji
      · exact List.pairwise_iff_getElem.mp s2 j i _ _ hji
      · have : j = i := by omega
        subst this
        exact le_rfl
    rw [z, zero_add]
    refine List.countP_le_length.trans ?_
    simp [h2]
  omega

/-! ## Moments of the spectra of noise -/

variable {P : ℕ → Measure Ω} [∀ n, IsProbabilityMeasure (P n)]

theorem emp_levels (Z : ℕ → Ω → ℝ) (hZ : ∀ k, Measurable (Z k)) (N T : ℕ) (hT : 1 ≤ T) (k : ℕ) (ω : Ω) :
    ((covLevels Z N T ω).map fun x : ℝ => x ^ (k + 1)).sum / N = empW N (fun i => (covLevels Z N T ω).getD i.val 0) (fun i => (covLevels Z N T ω).getD i.val 0) (fun y => y ^ k) := by
  rw [empW, ← sum_getD (covLevels Z N T ω) N ((covLevels_facts Z hZ N T hT).1 ω) (fun y => y ^ (k + 1))]
  simp only [← pow_succ']

/-- The moments of covariance spectra. -/
theorem cov_moment (Z : ℕ → ℕ → Ω → ℝ) (hZ : ∀ n, NormalDraws (P n) (Z n)) (N T : ℕ → ℕ) (hT2 : ∀ n, 2 ≤ T n)
    (hN : Tendsto N atTop atTop) (hT : Tendsto T atTop atTop) (q : ℝ) (hq : 0 < q) (hr : Tendsto (fun n => (N n : ℝ) / T n) atTop (𝓝 q)) (k : ℕ) :
    InProbability P (fun n ω => ((covLevels (Z n) (N n) (T n) ω).map fun x : ℝ => x ^ k).sum / N n) (mpm q k) := by
  have hT1 : ∀ n, 1 ≤ T n := fun n => by have := hT2 n; omega
  rcases k with - | k
  · refine UniformM.inProb_congr' _ _ _ ?_ (fun ε hε => by simp [mpm, hε.not_ge] : InProbability P (fun _ _ => 1) (mpm q 0))
    filter_upwards [hN.eventually_ge_atTop 1] with n hn
    refine Eventually.of_forall fun ω => ?_
    have h1 := (covLevels_facts (Z n) (hZ n).measurable (N n) (T n) (hT1 n)).1 ω
    have : (N n : ℝ) ≠ 0 := by exact_mod_cast (by omega : N n ≠ 0)
    simp [h1, this]
  have hTr : Tendsto (fun n => (T n : ℝ)) atTop atTop := tendsto_natCast_atTop_atTop.comp hT
  have htr : Tendsto (fun n => (ctr (T n)).trace) atTop atTop := by
    simp only [fun n => ctr_trace (hT1 n)]
    exact tendsto_atTop_add_const_right _ _ hTr
  have hrat : Tendsto (fun n => (N n : ℝ) / (ctr (T n)).trace) atTop (𝓝 q) := by
    have h1 : Tendsto (fun n => 1 - (T n : ℝ)⁻¹) atTop (𝓝 (1 - 0)) := tendsto_const_nhds.sub (tendsto_inv_atTop_zero.comp hTr)
    have h2 := hr.div h1 (by norm_num)
    rw [sub_zero, div_one] at h2
    refine h2.congr fun n => ?_
    have : (2 : ℝ) ≤ T n := by exact_mod_cast hT2 n
    have h3 : (T n : ℝ) - 1 ≠ 0 := by linarith
    rw [ctr_trace (hT1 n), Pi.div_apply]
    have : (T n : ℝ) ≠ 0 := by linarith
    field_simp
  have hw := fun l => tendsto_w q hq N T (fun n => ctr (T n)) (fun n => ctr_symm _) (fun n => ctr_sq (hT1 n)) hN htr hrat l
  have hm1 : ∀ n k, Integrable (fun ω => empW (N n) (fun i => (covLevels (Z n) (N n) (T n) ω).getD i.val 0) (fun i => (covLevels (Z n) (N n) (T n) ω).getD i.val 0) (fun y => y ^ k)) (P n) := by
    intro n k
    simp only [fun ω => empW_levels (N := N n) (Z n) (hZ n).measurable (hT1 n) k ω]
    exact (integrable_ptW (Z n) (hZ n) _).div_const _
  have hsq : ∀ n k ω, empW (N n) (fun i => (covLevels (Z n) (N n) (T n) ω).getD i.val 0) (fun i => (covLevels (Z n) (N n) (T n) ω).getD i.val 0) (fun y => y ^ k) ^ 2 =
      MvPolynomial.eval (ptW (Z n) (N n) (T n) ω) (pw (N n) (ctr (T n)) [k + 1, k + 1]) / ((N n : ℝ) ^ [k + 1, k + 1].length * (ctr (T n)).trace ^ [k + 1, k + 1].sum) := by
    intro n k ω
    rw [empW_levels (Z n) (hZ n).measurable (hT1 n) k ω]
    simp [pw]
    ring
  simp only [fun n ω => emp_levels (Z n) (hZ n).measurable (N n) (T n) (hT1 n) k ω]
  refine inProb_of_mean _ _ (fun n => ((hm1 n k).sub (integrable_const _)).abs) ?_
  refine tendsto_abs_of _ _ (fun n => hm1 n k) (fun n => ?_) ?_ ?_
  · simp only [hsq]
    exact (integrable_ptW (Z n) (hZ n) _).div_const _
  · refine (by simpa using hw [k + 1] : Tendsto (fun n => Wishart.w (N n) (ctr (T n)) [k + 1]) atTop (𝓝 (mpm q (k + 1)))).congr fun n => ?_
    simp only [fun ω => empW_levels (N := N n) (Z n) (hZ n).measurable (hT1 n) k ω]
    rw [integral_div, integral_ptW (Z n) (hZ n), Wishart.w, Wishart.W]
  · refine (by simpa using hw [k + 1, k + 1] : Tendsto (fun n => Wishart.w (N n) (ctr (T n)) [k + 1, k + 1]) atTop (𝓝 (mpm q (k + 1) * mpm q (k + 1)))).congr fun n => ?_
    simp only [hsq]
    rw [integral_div, integral_ptW (Z n) (hZ n), Wishart.w, Wishart.W]

/-- The sorted eigenvalues of the covariance or correlation matrix of noise. -/
noncomputable def noiseLevels (Z : ℕ → Ω → ℝ) (N T : ℕ) (cov : Bool) (ω : Ω) : List ℝ := (wantedMatrix (noise Z N T ω) cov).charpoly.roots.sort (· ≤ ·)

omit [MeasurableSpace Ω] in
theorem noiseLevels_length (Z : ℕ → Ω → ℝ) (N T : ℕ) (cov : Bool) (ω : Ω) : (noiseLevels Z N T cov ω).length = N ∧ Ascending (noiseLevels Z N T cov ω) := by
  refine ⟨?_, Multiset.pairwise_sort _ _⟩
  rw [noiseLevels, Multiset.length_sort, (symm_herm _ (wantedMatrix_isSymm _ cov)).roots_charpoly_eq_eigenvalues]
  simp

omit [MeasurableSpace Ω] in
theorem noiseLevels_cnt (Z : ℕ → Ω → ℝ) (N T : ℕ) (cov : Bool) (ω : Ω) (a : ℝ) : (noiseLevels Z N T cov ω).countP (fun x => decide (a < x)) = cnt (wantedMatrix (noise Z N T ω) cov) a := by
  rw [cnt, noiseLevels, ← Multiset.coe_countP, Multiset.sort_eq]

omit [MeasurableSpace Ω] in
theorem noiseLevels_nonneg (Z : ℕ → Ω → ℝ) (N T : ℕ) (cov : Bool) (hT : 2 ≤ T) (ω : Ω) (h : ∀ i, NonConstant (noise Z N T ω i)) : ∀ x ∈ noiseLevels Z N T cov ω, 0 ≤ x := by
  intro x hx
  exact C45_nonneg (noise Z N T ω) cov hT (fun _ => h) x (by simpa [noiseLevels] using hx)

omit [MeasurableSpace Ω] in
theorem corr_near (Z : ℕ → Ω → ℝ) (N T : ℕ) (hT : 2 ≤ T) (ω : Ω) (δ : ℝ) (hδ0 : 0 < δ) (hδ1 : δ < 1) (h : ∀ i, |covMatrix (noise Z N T ω) i i - 1| < δ) (hnc : ∀ i, NonConstant (noise Z N T ω i)) (i : ℕ) (hi : i < N) :
    (covLevels Z N T ω).getD i 0 ≤ (1 + δ) * (noiseLevels Z N T false ω).getD i 0 ∧ (1 - δ) * (noiseLevels Z N T false ω).getD i 0 ≤ (covLevels Z N T ω).getD i 0 := by
  have hl : 0 < 1 - δ := by linarith
  have hl' : 0 < 1 + δ := by linarith
  set C := covMatrix (noise Z N T ω) with hC
  have hb : ∀ i, 1 - δ ≤ C i i ∧ C i i ≤ 1 + δ := by
    intro i
    have := abs_lt.mp (h i)
    constructor <;> linarith [this.1, this.2]
  have hpos : ∀ i, 0 < C i i := fun i => lt_of_lt_of_le hl (hb i).1
  have hsc := fun a ha => cnt_scaled C (corrMatrix (noise Z N T ω)) (symm_herm _ (covMatrix_isSymm _)) (symm_herm _ (corrMatrix_isSymm _)) (fun i => √(C i i)) (fun i => Real.sqrt_pos.mpr (hpos i))
    (cov_corr _ hT hpos) (1 - δ) (1 + δ) hl (fun i => by rw [Real.sq_sqrt (hpos i).le]; exact hb i) a ha
  obtain ⟨n1, n2⟩ := noiseLevels_length Z N T false ω
  have n3 := noiseLevels_nonneg Z N T false hT ω hnc
  have c1 : (covLevels Z N T ω).length = N ∧ Ascending (covLevels Z N T ω) := noiseLevels_length Z N T true ω
  have c3 := covLevels_nonneg Z N T hT ω
  have scaleL : ∀ (c : ℝ), 0 < c → ∀ (l : List ℝ) (a : ℝ), (l.map fun x => c * x).countP (fun x => decide (a < x)) = l.countP (fun x => decide (a / c < x)) := by
    intro c hc l a
    rw [List.countP_map]
    refine List.countP_congr fun x _ => ?_
    simp only [Function.comp, decide_eq_true_eq]
    rw [div_lt_iff₀ hc, mul_comm]
  have ascL : ∀ (c : ℝ), 0 < c → ∀ l : List ℝ, Ascending l → Ascending (l.map fun x => c * x) := by
    intro c hc l hl
    exact List.pairwise_map.mpr (hl.imp fun h => mul_le_mul_of_nonneg_left h hc.le)
  have getL : ∀ (c : ℝ) (l : List ℝ), (l.map fun x => c * x).getD i 0 = c * l.getD i 0 := by
    intro c l
    simp only [List.getD_eq_getElem?_getD, List.getElem?_map]
    cases l[i]? <;> simp
  constructor
  · rw [← getL]
    refine sorted_le _ _ N c1.1 (by simp [n1]) c1.2 (ascL _ hl' _ n2) ?_ ?_ i hi
    · intro x hx
      obtain ⟨y, hy, rfl⟩ := List.mem_map.mp hx
      exact mul_nonneg hl'.le (n3 y hy)
    · intro a ha
      rw [scaleL _ hl', noiseLevels_cnt, covLevels_cnt]
      have := (hsc (a / (1 + δ)) (by positivity)).1
      rw [div_mul_cancel₀ _ hl'.ne'] at this
      simpa [wantedMatrix] using this
  · rw [← getL]
    refine sorted_le _ _ N (by simp [n1]) c1.1 (ascL _ hl _ n2) c1.2 c3 ?_ i hi
    intro a ha
    rw [scaleL _ hl, noiseLevels_cnt, covLevels_cnt]
    have := (hsc (a / (1 - δ)) (by positivity)).2
    rw [div_mul_cancel₀ _ hl.ne'] at this
    simpa [wantedMatrix] using this

/-- The moments of correlation spectra. -/
theorem corr_moment (Z : ℕ → ℕ → Ω → ℝ) (hZ : ∀ n, NormalDraws (P n) (Z n)) (N T : ℕ → ℕ) (hT2 : ∀ n, 2 ≤ T n)
    (hN : Tendsto N atTop atTop) (hT : Tendsto T atTop atTop) (q : ℝ) (hq : 0 < q) (hr : Tendsto (fun n => (N n : ℝ) / T n) atTop (𝓝 q)) (k : ℕ) :
    InProbability P (fun n ω => ((noiseLevels (Z n) (N n) (T n) false ω).map fun x : ℝ => x ^ k).sum / N n) (mpm q k) := by
  refine inProb_of_cover _ _ fun ε hε => ?_
  -- a `δ` for which scaling by `1 ± δ` moves the moment by less than `ε / 2`
  obtain ⟨δ, hδ0, hδ1, hd1, hd2⟩ : ∃ δ > 0, δ < 1 ∧ |(mpm q k + δ) / (1 - δ) ^ k - mpm q k| < ε ∧ |(mpm q k - δ) / (1 + δ) ^ k - mpm q k| < ε := by
    have t1 : Tendsto (fun δ : ℝ => (mpm q k + δ) / (1 - δ) ^ k - mpm q k) (𝓝[>] 0) (𝓝 ((mpm q k + 0) / (1 - 0) ^ k - mpm q k)) := by
      refine Tendsto.mono_left ?_ nhdsWithin_le_nhds
      exact ((tendsto_const_nhds.add tendsto_id).div ((tendsto_const_nhds.sub tendsto_id).pow k) (by norm_num)).sub tendsto_const_nhds
    have t2 : Tendsto (fun δ : ℝ => (mpm q k - δ) / (1 + δ) ^ k - mpm q k) (𝓝[>] 0) (𝓝 ((mpm q k - 0) / (1 + 0) ^ k - mpm q k)) := by
      refine Tendsto.mono_left ?_ nhdsWithin_le_nhds
      exact ((tendsto_const_nhds.sub tendsto_id).div ((tendsto_const_nhds.add tendsto_id).pow k) (by norm_num)).sub tendsto_const_nhds
    simp only [add_zero, sub_zero, one_pow, div_one, sub_self] at t1 t2
    have h1 := t1.abs.eventually_lt_const (by simpa using hε)
    have h2 := t2.abs.eventually_lt_const (by simpa using hε)
    have h3 : ∀ᶠ δ : ℝ in 𝓝[>] 0, δ < 1 := (gt_mem_nhds one_pos).filter_mono nhdsWithin_le_nhds
    obtain ⟨δ, ⟨⟨a, b⟩, c⟩, d⟩ := ((h1.and h2).and h3).and (self_mem_nhdsWithin : ∀ᶠ δ : ℝ in 𝓝[>] 0, δ ∈ Ioi (0 : ℝ)) |>.exists
    exact ⟨δ, d, c, a, b⟩
  have hl : 0 < 1 - δ := by linarith
  have hl' : 0 < 1 + δ := by linarith
  refine ⟨fun n => {ω | ∃ i, δ ≤ |covMatrix (noise (Z n) (N n) (T n) ω) i i - 1|},
    fun n => {ω | δ ≤ |((covLevels (Z n) (N n) (T n) ω).map fun x : ℝ => x ^ k).sum / N n - mpm q k|},
    fun n => {ω | ¬ ∀ i, NonConstant (noise (Z n) (N n) (T n) ω i)},
    var_near Z hZ N T hT2 hT q hr δ hδ0, cov_moment Z hZ N T hT2 hN hT q hq hr k δ hδ0, ae_event _ fun n => ?_, Eventually.of_forall fun n ω hω => ?_⟩
  · filter_upwards [noise_nonconstant (N := N n) (P n) (Z n) (hZ n) (hT2 n)] with ω hω
    simpa using hω
  by_contra hc
  simp only [Set.mem_union, not_or, Set.mem_ofPred_eq, not_exists, not_le, not_not] at hc
  obtain ⟨⟨h1, h2⟩, h3⟩ := hc
  have hnear := corr_near (Z n) (N n) (T n) (hT2 n) ω δ hδ0 hδ1 h1 h3
  have n1 := (noiseLevels_length (Z n) (N n) (T n) false ω).1
  have n3 := noiseLevels_nonneg (Z n) (N n) (T n) false (hT2 n) ω h3
  have c1 : (covLevels (Z n) (N n) (T n) ω).length = N n := (noiseLevels_length (Z n) (N n) (T n) true ω).1
  have c3 := covLevels_nonneg (Z n) (N n) (T n) (hT2 n) ω
  have get0 : ∀ (l : List ℝ), (∀ x ∈ l, 0 ≤ x) → ∀ i, 0 ≤ l.getD i 0 := by
    intro l hl i
    rw [List.getD_eq_getElem?_getD]
    rcases h : l[i]? with - | x
    · simp
    · exact hl x (List.mem_of_getElem? h)
  rw [← sum_getD _ (N n) c1 (fun x => x ^ k)] at h2
  have b1 : (∑ i : Fin (N n), (noiseLevels (Z n) (N n) (T n) false ω).getD i.val 0 ^ k) ≤ (∑ i : Fin (N n), (covLevels (Z n) (N n) (T n) ω).getD i.val 0 ^ k) / (1 - δ) ^ k := by
    rw [Finset.sum_div]
    refine Finset.sum_le_sum fun i _ => ?_
    rw [le_div_iff₀ (by positivity), ← mul_pow, mul_comm]
    exact pow_le_pow_left₀ (mul_nonneg hl.le (get0 _ n3 _)) (hnear i.val i.isLt).2 k
  have b2 : (∑ i : Fin (N n), (covLevels (Z n) (N n) (T n) ω).getD i.val 0 ^ k) / (1 + δ) ^ k ≤ (∑ i : Fin (N n), (noiseLevels (Z n) (N n) (T n) false ω).getD i.val 0 ^ k) := by
    rw [Finset.sum_div]
    refine Finset.sum_le_sum fun i _ => ?_
    rw [div_le_iff₀ (by positivity), ← mul_pow, mul_comm]
    exact pow_le_pow_left₀ (get0 _ c3 _) (hnear i.val i.isLt).1 k
  rw [← sum_getD _ (N n) n1 (fun x => x ^ k)] at hω
  revert hω h2 b1 b2
  generalize (∑ i : Fin (N n), (noiseLevels (Z n) (N n) (T n) false ω).getD i.val 0 ^ k) = A
  generalize (∑ i : Fin (N n), (covLevels (Z n) (N n) (T n) ω).getD i.val 0 ^ k) = B
  intro hω h2 b1 b2
  have hNn : (0 : ℝ) ≤ N n := Nat.cast_nonneg _
  have u1 : A / N n ≤ (mpm q k + δ) / (1 - δ) ^ k := by
    refine (div_le_div_of_nonneg_right b1 hNn).trans ?_
    rw [div_right_comm]
    exact div_le_div_of_nonneg_right (by linarith [(abs_lt.mp h2).2]) (by positivity)
  have u2 : (mpm q k - δ) / (1 + δ) ^ k ≤ A / N n := by
    refine le_trans ?_ (div_le_div_of_nonneg_right b2 hNn)
    rw [div_right_comm]
    exact div_le_div_of_nonneg_right (by linarith [(abs_lt.mp h2).1]) (by positivity)
  have : |A / N n - mpm q k| < ε := abs_lt.mpr ⟨by linarith [(abs_lt.mp hd2).1], by linarith [(abs_lt.mp hd1).2]⟩
  exact absurd hω (not_le.mpr this)

theorem noise_moment (Z : ℕ → ℕ → Ω → ℝ) (hZ : ∀ n, NormalDraws (P n) (Z n)) (N T : ℕ → ℕ) (hT2 : ∀ n, 2 ≤ T n)
    (hN : Tendsto N atTop atTop) (hT : Tendsto T atTop atTop) (q : ℝ) (hq : 0 < q) (hr : Tendsto (fun n => (N n : ℝ) / T n) atTop (𝓝 q)) (cov : Bool) (k : ℕ) :
    InProbability P (fun n ω => ((noiseLevels (Z n) (N n) (T n) cov ω).map fun x : ℝ => x ^ k).sum / N n) (mpm q k) := by
  cases cov
  · exact corr_moment Z hZ N T hT2 hN hT q hq hr k
  · exact cov_moment Z hZ N T hT2 hN hT q hq hr k

end RMT.Semi
