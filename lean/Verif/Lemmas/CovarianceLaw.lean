import Verif.Lemmas.MarchenkoPasturMoments
import Verif.Lemmas.WeightedMoments
import Verif.Lemmas.GueSpectralLaw
import Verif.Props.NoiseSpectra

/-! # The Marchenko-Pastur law for covariance matrices of noise -/

namespace RMT.Semi
open MeasureTheory ProbabilityTheory Real Spec Filter Topology Gen EigM Props Gauss Gauss.Wishart EigValsM
open scoped Matrix

/-! ## The limit -/

/-- The size-biased Marchenko-Pastur law: a shifted and scaled semicircle law. -/
noncomputable def mpBiased (q : ℝ) : Measure ℝ := σ.map fun y => 1 + q + √q * y

instance (q : ℝ) : IsProbabilityMeasure (mpBiased q) := Measure.isProbabilityMeasure_map (by fun_prop)

theorem σ_support : ∀ᵐ x ∂σ, x ∈ Set.Icc (-2 : ℝ) 2 := by
  have h1 : σ (Set.Icc (-2 : ℝ) 2)ᶜ = 0 := by
    rw [σ, semicircleLaw, withDensity_apply _ (by measurability)]
    rw [setLIntegral_congr_fun (g := fun _ => 0) (by measurability) (fun x hx => by
      show ENNReal.ofReal _ = 0
      rw [dens_eq, dens_zero x hx, ENNReal.ofReal_zero])]
    simp
  exact h1

theorem mpBiased_moment (q : ℝ) (k : ℕ) : ∫ x, x ^ k ∂(mpBiased q) = mpm q (k + 1) := by
  rw [mpBiased, integral_map (by fun_prop) (by fun_prop)]
  rfl

theorem mpBiased_bounded (q : ℝ) (hq : 0 < q) : ∀ᵐ x ∂(mpBiased q), |x| ≤ (1 + √q) ^ 2 := by
  rw [mpBiased, ae_map_iff (by fun_prop) (measurableSet_le (by fun_prop) (by fun_prop))]
  filter_upwards [σ_support] with y hy
  have hs : 0 < √q := Real.sqrt_pos.mpr hq
  have hsq : √q ^ 2 = q := Real.sq_sqrt hq.le
  rw [abs_le]
  constructor <;> nlinarith [hy.1, hy.2, sq_nonneg (1 - √q)]

theorem mpBiased_atom (q : ℝ) (hq : 0 < q) (a : ℝ) : mpBiased q {a} = 0 := by
  have hs : 0 < √q := Real.sqrt_pos.mpr hq
  rw [mpBiased, Measure.map_apply (by fun_prop) (measurableSet_singleton a)]
  have : (fun y => 1 + q + √q * y) ⁻¹' {a} = {(a - 1 - q) / √q} := by
    ext y
    simp only [Set.mem_preimage, Set.mem_singleton_iff]
    rw [eq_div_iff hs.ne']
    constructor <;> intro h <;> linarith
  rw [this, σ, semicircleLaw]
  exact withDensity_absolutelyContinuous _ _ (by simp)

/-- Integrals against the size-biased law. -/
theorem integral_mpBiased (q : ℝ) (hq : 0 < q) (f : ℝ → ℝ) : ∫ x, f x ∂(mpBiased q) = ∫ x, f x * (dens ((x - 1 - q) / √q) / √q) := by
  have hs : 0 < √q := Real.sqrt_pos.mpr hq
  have he : MeasurableEmbedding fun y : ℝ => 1 + q + √q * y :=
    ((Homeomorph.mulLeft₀ (√q) hs.ne').trans (Homeomorph.addLeft (1 + q))).measurableEmbedding
  rw [mpBiased, he.integral_map]
  have h1 : ∀ g : ℝ → ℝ, ∫ y, g y ∂σ = ∫ y, g y * dens y := by
    intro g
    rw [σ, semicircleLaw, integral_withDensity_eq_integral_toReal_smul (by fun_prop) (by simp)]
    congr 1
    ext x
    rw [dens_eq, ENNReal.toReal_ofReal (dens_nonneg x), smul_eq_mul, mul_comm]
  rw [h1]
  have h2 : ∫ y, (fun x => f x * (dens ((x - 1 - q) / √q) / √q)) (1 + q + √q * y) = |(√q)⁻¹| • ∫ x, (fun x => f x * (dens ((x - 1 - q) / √q) / √q)) x := by
    rw [← integral_add_left_eq_self (fun x => f x * (dens ((x - 1 - q) / √q) / √q)) (1 + q), ← Measure.integral_comp_mul_left]
  have h3 : ∫ y, f (1 + q + √q * y) * dens y = √q * ∫ y, (fun x => f x * (dens ((x - 1 - q) / √q) / √q)) (1 + q + √q * y) := by
    rw [← integral_const_mul]
    congr 1
    ext y
    simp only
    rw [show (1 + q + √q * y - 1 - q) / √q = y by field_simp; ring]
    field_simp
  rw [h3, h2, abs_of_pos (by positivity), smul_eq_mul, ← mul_assoc, mul_inv_cancel₀ hs.ne', one_mul]

theorem biased_density (q : ℝ) (hq : 0 < q) (x : ℝ) (hx : x ≠ 0) : 1 / x * (dens ((x - 1 - q) / √q) / √q) = mpDensity q x := by
  have hs : 0 < √q := Real.sqrt_pos.mpr hq
  have hsq : √q ^ 2 = q := Real.sq_sqrt hq.le
  have e1 : (1 - √q) ^ 2 = (1 + q) - 2 * √q := by rw [← hsq, Real.sqrt_sq hs.le]; ring
  have e2 : (1 + √q) ^ 2 = (1 + q) + 2 * √q := by rw [← hsq, Real.sqrt_sq hs.le]; ring
  unfold dens mpDensity
  rw [e1, e2, show (1 + q + 2 * √q - x) * (x - (1 + q - 2 * √q)) = q * (4 - ((x - 1 - q) / √q) ^ 2) by
    rw [div_pow, hsq]; field_simp; nlinarith]
  rw [Real.sqrt_mul hq.le]
  set R := √(4 - ((x - 1 - q) / √q) ^ 2)
  have hpi := Real.pi_pos
  rw [div_div, one_div_mul_eq_div, div_div, div_eq_div_iff (by positivity) (by positivity)]
  have : √q * √q = q := Real.mul_self_sqrt hq.le
  linear_combination (2 * π * x * R) * (-this)

/-- The function whose weighted mean counts the levels above `a`. -/
noncomputable def above (a x : ℝ) : ℝ := if x ≤ a then 0 else 1 / max x a

theorem above_measurable (a : ℝ) : Measurable (above a) := Measurable.ite measurableSet_Iic measurable_const (by fun_prop)

theorem above_bound (a : ℝ) (ha : 0 < a) (x : ℝ) : |1 / max x a| ≤ 1 / a := by
  rw [abs_of_nonneg (by positivity)]
  exact one_div_le_one_div_of_le ha (le_max_right _ _)

theorem above_approx (q : ℝ) (hq : 0 < q) (a : ℝ) (ha : 0 < a) : ApproxIn (mpBiased q) (above a) :=
  approxIn_cut ((1 + √q) ^ 2) (by positivity) (mpBiased_bounded q hq) (fun x => 1 / max x a)
    (continuous_const.div (by fun_prop) fun x => (lt_of_lt_of_le ha (le_max_right _ _)).ne') (1 / a) (above_bound a ha) a (mpBiased_atom q hq a)

theorem above_integrable (q : ℝ) (a : ℝ) (ha : 0 < a) : Integrable (above a) (mpBiased q) := by
  refine Integrable.mono' (integrable_const (1 / a)) (above_measurable a).aestronglyMeasurable (Eventually.of_forall fun x => ?_)
  rw [Real.norm_eq_abs, above]
  split_ifs
  · simp; positivity
  · exact above_bound a ha x

theorem above_integral (q : ℝ) (hq : 0 < q) (a : ℝ) (ha : 0 < a) : ∫ x, above a x ∂(mpBiased q) = ∫ x in Set.Ioi a, mpDensity q x := by
  rw [integral_mpBiased q hq, ← integral_indicator measurableSet_Ioi]
  congr 1
  ext x
  by_cases h : a < x
  · rw [Set.indicator_of_mem (show x ∈ Set.Ioi a from h), above, if_neg (not_le.mpr h), max_eq_left h.le, biased_density q hq x (by linarith)]
  · rw [Set.indicator_of_notMem (show x ∉ Set.Ioi a from h), above, if_pos (not_lt.mp h), zero_mul]

/-! ## The spectrum of a covariance matrix of noise -/

/-- The centring projection. -/
noncomputable def ctr (T : ℕ) : Matrix (Fin T) (Fin T) ℝ := 1 - Matrix.of fun _ _ => (1 / T : ℝ)

theorem ctr_symm (T : ℕ) : (ctr T).IsSymm := by
  ext i j
  simp [ctr, Matrix.one_apply, eq_comm]

theorem ctr_sq {T : ℕ} (hT : 1 ≤ T) : ctr T * ctr T = ctr T := by
  have h : (Matrix.of fun _ _ => (1 / T : ℝ) : Matrix (Fin T) (Fin T) ℝ) * (Matrix.of fun _ _ => (1 / T : ℝ)) = Matrix.of fun _ _ => (1 / T : ℝ) := by
    ext i j
    have : (T : ℝ) ≠ 0 := by positivity
    simp [Matrix.mul_apply]
    field_simp
  rw [ctr, sub_mul, mul_sub, mul_sub, h]
  simp

theorem ctr_trace {T : ℕ} (hT : 1 ≤ T) : (ctr T).trace = (T : ℝ) - 1 := by
  have : (T : ℝ) ≠ 0 := by positivity
  simp [ctr, Matrix.trace]
  field_simp

variable {Ω : Type} [MeasurableSpace Ω] {N T : ℕ}

/-- The draws as a point. -/
def ptW (Z : ℕ → Ω → ℝ) (N T : ℕ) (ω : Ω) : Fin N × Fin T → ℝ := fun p => Z (p.1.val * T + p.2.val) ω

theorem indexW_injective : Function.Injective fun p : Fin N × Fin T => p.1.val * T + p.2.val := by
  rintro ⟨i, s⟩ ⟨j, t⟩ h
  by_cases hij : i = j
  · subst hij
    exact Prod.ext rfl (row_inj i h)
  · exact absurd h (row_ne hij s t)

omit [MeasurableSpace Ω] in
theorem cov_sm (Z : ℕ → Ω → ℝ) (hT : 1 ≤ T) (ω : Ω) : covMatrix (noise Z N T ω) = ((T : ℝ) - 1)⁻¹ • (sm N (ctr T)).map (MvPolynomial.eval (ptW Z N T ω)) := by
  have hT' : (T : ℝ) ≠ 0 := by positivity
  have h1 : (bm N (ctr T)).map (MvPolynomial.eval (ptW Z N T ω)) = noise Z N T ω * ctr T := by
    ext i a
    simp [bm, Matrix.mul_apply, noise, ptW]
  have h2 : (sm N (ctr T)).map (MvPolynomial.eval (ptW Z N T ω)) = noise Z N T ω * ctr T * (noise Z N T ω)ᵀ := by
    rw [sm, Matrix.map_mul, Matrix.transpose_map, h1, Matrix.transpose_mul, (ctr_symm T).eq, Matrix.mul_assoc, ← Matrix.mul_assoc (ctr T), ctr_sq hT, ← Matrix.mul_assoc]
  rw [h2]
  ext i j
  simp only [covMatrix, sampleCov, Matrix.smul_apply, smul_eq_mul]
  rw [div_eq_inv_mul]
  congr 1
  rw [ctr, Matrix.mul_sub, Matrix.mul_one, Matrix.sub_mul, Matrix.sub_apply]
  simp only [Matrix.mul_apply, Matrix.transpose_apply, Matrix.of_apply]
  congr 1
  simp only [← Finset.sum_mul]
  rw [← Finset.mul_sum]
  ring

/-- The sorted eigenvalues of the covariance matrix. -/
noncomputable def covLevels (Z : ℕ → Ω → ℝ) (N T : ℕ) (ω : Ω) : List ℝ := (covMatrix (noise Z N T ω)).charpoly.roots.sort (· ≤ ·)

theorem covLevels_facts (Z : ℕ → Ω → ℝ) (hZ : ∀ k, Measurable (Z k)) (N T : ℕ) (hT : 1 ≤ T) :
    (∀ ω, (covLevels Z N T ω).length = N) ∧ (∀ i : ℕ, Measurable fun ω => (covLevels Z N T ω).getD i 0) ∧
      ∀ ω k, SpectrumM.powSum k (covLevels Z N T ω) = MvPolynomial.eval (ptW Z N T ω) (ts N (ctr T) k) / ((T : ℝ) - 1) ^ k := by
  obtain ⟨h1, h2, h3⟩ := SpectrumM.measurable_eigs (𝕜 := ℝ) (fun ω => covMatrix (noise Z N T ω))
    (fun i j => by
      simp only [covMatrix, sampleCov, noise]
      fun_prop)
    (fun ω => by
      rw [Matrix.IsHermitian, Matrix.conjTranspose_eq_transpose_of_trivial]
      exact covMatrix_isSymm _) (covLevels Z N T) (fun ω => Multiset.pairwise_sort _ _) (fun ω => by
      simp [covLevels])
  refine ⟨h1, h2, fun ω k => ?_⟩
  have := h3 ω k
  simp only [RCLike.ofReal_real_eq_id, id_eq] at this
  rw [this, cov_sm Z hT, smul_pow, Matrix.trace_smul, ts, smul_eq_mul, inv_pow, inv_mul_eq_div]
  congr 1
  rw [AddMonoidHom.map_trace (MvPolynomial.eval (ptW Z N T ω))]
  congr 1
  exact (map_pow (MvPolynomial.eval (ptW Z N T ω)).mapMatrix (sm N (ctr T)) k).symm

omit [MeasurableSpace Ω] in
theorem covLevels_nonneg (Z : ℕ → Ω → ℝ) (N T : ℕ) (hT : 2 ≤ T) (ω : Ω) : ∀ x ∈ covLevels Z N T ω, 0 ≤ x := by
  intro x hx
  have := C45_nonneg (noise Z N T ω) true hT (by simp)
  simp only [wantedMatrix, if_true] at this
  exact this x (by simpa [covLevels] using hx)

variable {P : Measure Ω} [IsProbabilityMeasure P]

theorem ptW_law (Z : ℕ → Ω → ℝ) (hZ : NormalDraws P Z) : P.map (ptW Z N T) = gpi (Fin N × Fin T) :=
  law_pi P (fun p : Fin N × Fin T => Z (p.1.val * T + p.2.val)) (fun p => hZ.measurable _) (hZ.indep.precomp indexW_injective) _ fun p => hZ.law _

theorem ptW_measurable (Z : ℕ → Ω → ℝ) (hZ : ∀ k, Measurable (Z k)) : Measurable (ptW Z N T) := measurable_pi_lambda _ fun p => hZ _

theorem integrable_ptW (Z : ℕ → Ω → ℝ) (hZ : NormalDraws P Z) (p : PolW N T) : Integrable (fun ω => MvPolynomial.eval (ptW Z N T ω) p) P := by
  have h := poly_integrable p
  rw [← ptW_law Z hZ] at h
  exact h.comp_measurable (ptW_measurable Z hZ.measurable)

theorem integral_ptW (Z : ℕ → Ω → ℝ) (hZ : NormalDraws P Z) (p : PolW N T) : ∫ ω, MvPolynomial.eval (ptW Z N T ω) p ∂P = ex p := by
  have h := poly_integrable p
  rw [← ptW_law Z hZ] at h
  rw [ex, ← ptW_law Z hZ, integral_map (ptW_measurable Z hZ.measurable).aemeasurable h.aestronglyMeasurable]

/-- Weighted moments of the spectrum. -/
theorem empW_levels (Z : ℕ → Ω → ℝ) (hZ : ∀ k, Measurable (Z k)) (hT : 1 ≤ T) (k : ℕ) (ω : Ω) :
    empW N (fun i => (covLevels Z N T ω).getD i.val 0) (fun i => (covLevels Z N T ω).getD i.val 0) (fun y => y ^ k) =
      MvPolynomial.eval (ptW Z N T ω) (pw N (ctr T) [k + 1]) / ((N : ℝ) ^ [k + 1].length * (ctr T).trace ^ [k + 1].sum) := by
  obtain ⟨h1, -, h3⟩ := covLevels_facts Z hZ N T hT
  rw [empW]
  have h4 := sum_getD (covLevels Z N T ω) N (h1 ω) (fun y => y ^ (k + 1))
  simp only [← pow_succ'] 
  rw [h4, ctr_trace hT]
  have h5 := h3 ω (k + 1)
  rw [SpectrumM.powSum] at h5
  rw [h5]
  simp only [pw, List.map_cons, List.map_nil, List.prod_cons, List.prod_nil, mul_one, List.length_cons, List.length_nil, List.sum_cons, List.sum_nil, add_zero, zero_add, pow_one]
  rw [div_div, mul_comm (N : ℝ)]

/-- **The Marchenko-Pastur law for covariance matrices.** -/
theorem tendsto_cov {P : ℕ → Measure Ω} [∀ n, IsProbabilityMeasure (P n)] (Z : ℕ → ℕ → Ω → ℝ) (hZ : ∀ n, NormalDraws (P n) (Z n)) (N T : ℕ → ℕ) (hT2 : ∀ n, 2 ≤ T n)
    (hN : Tendsto N atTop atTop) (hT : Tendsto T atTop atTop) (q : ℝ) (hq : 0 < q) (hr : Tendsto (fun n => (N n : ℝ) / T n) atTop (𝓝 q)) (a : ℝ) (ha : 0 < a) :
    Tendsto (fun n => ∫ ω, |((covLevels (Z n) (N n) (T n) ω).countP (fun x => decide (a < x)) : ℝ) / N n - ∫ x in Set.Ioi a, mpDensity q x| ∂(P n)) atTop (𝓝 0) := by
  have hT1 : ∀ n, 1 ≤ T n := fun n => by have := hT2 n; omega
  have hTr : Tendsto (fun n => (T n : ℝ)) atTop atTop := tendsto_natCast_atTop_atTop.comp hT
  have htr : Tendsto (fun n => (ctr (T n)).trace) atTop atTop := by
    simp only [fun n => ctr_trace (hT1 n)]
    exact tendsto_atTop_add_const_right _ _ hTr
  have hrat : Tendsto (fun n => (N n : ℝ) / (ctr (T n)).trace) atTop (𝓝 q) := by
    have h1 : Tendsto (fun n => 1 - (T n : ℝ)⁻¹) atTop (𝓝 (1 - 0)) := tendsto_const_nhds.sub (tendsto_inv_atTop_zero.comp hTr)
    have h2 := hr.div h1 (by norm_num)
    rw [sub_zero, div_one] at h2
    refine h2.congr fun n => ?_
    have : (2 : ℝ) ≤ T n := by exact_mod_cast hT2 n
    have h3 : (T n : ℝ) - 1 ≠ 0 := by linarith
    rw [ctr_trace (hT1 n), Pi.div_apply]
    have : (T n : ℝ) ≠ 0 := by linarith
    field_simp
  have hw := fun l => tendsto_w q hq N T (fun n => ctr (T n)) (fun n => ctr_symm _) (fun n => ctr_sq (hT1 n)) hN htr hrat l
  have hm1 : ∀ n k, Integrable (fun ω => empW (N n) (fun i => (covLevels (Z n) (N n) (T n) ω).getD i.val 0) (fun i => (covLevels (Z n) (N n) (T n) ω).getD i.val 0) (fun y => y ^ k)) (P n) := by
    intro n k
    simp only [fun ω => empW_levels (N := N n) (Z n) (hZ n).measurable (hT1 n) k ω]
    exact (integrable_ptW (Z n) (hZ n) _).div_const _
  have hsq : ∀ n k ω, empW (N n) (fun i => (covLevels (Z n) (N n) (T n) ω).getD i.val 0) (fun i => (covLevels (Z n) (N n) (T n) ω).getD i.val 0) (fun y => y ^ k) ^ 2 =
      MvPolynomial.eval (ptW (Z n) (N n) (T n) ω) (pw (N n) (ctr (T n)) [k + 1, k + 1]) / ((N n : ℝ) ^ [k + 1, k + 1].length * (ctr (T n)).trace ^ [k + 1, k + 1].sum) := by
    intro n k ω
    rw [empW_levels (Z n) (hZ n).measurable (hT1 n) k ω]
    simp [pw]
    ring
  have main := tendsto_weighted (P := P) (μ := mpBiased q) (N := N) ((1 + √q) ^ 2) (mpBiased_bounded q hq)
    (fun n i ω => (covLevels (Z n) (N n) (T n) ω).getD i.val 0) (fun n i ω => (covLevels (Z n) (N n) (T n) ω).getD i.val 0)
    (fun n i ω => by
      rw [List.getD_eq_getElem?_getD]
      rcases h : (covLevels (Z n) (N n) (T n) ω)[i.val]? with - | x
      · simp
      · exact covLevels_nonneg _ _ _ (hT2 n) ω x (List.mem_of_getElem? h))
    (fun n i => (covLevels_facts (Z n) (hZ n).measurable (N n) (T n) (hT1 n)).2.1 i.val) (fun n i => (covLevels_facts (Z n) (hZ n).measurable (N n) (T n) (hT1 n)).2.1 i.val)
    hm1
    (fun k => by
      rw [mpBiased_moment]
      refine tendsto_abs_of _ _ (fun n => hm1 n k) (fun n => ?_) ?_ ?_
      · simp only [hsq]
        exact (integrable_ptW (Z n) (hZ n) _).div_const _
      · refine (by simpa using hw [k + 1] : Tendsto (fun n => Wishart.w (N n) (ctr (T n)) [k + 1]) atTop (𝓝 (mpm q (k + 1)))).congr fun n => ?_
        simp only [fun ω => empW_levels (N := N n) (Z n) (hZ n).measurable (hT1 n) k ω]
        rw [integral_div, integral_ptW (Z n) (hZ n), Wishart.w, Wishart.W]
      · refine (by simpa using hw [k + 1, k + 1] : Tendsto (fun n => Wishart.w (N n) (ctr (T n)) [k + 1, k + 1]) atTop (𝓝 (mpm q (k + 1) * mpm q (k + 1)))).congr fun n => ?_
        simp only [hsq]
        rw [integral_div, integral_ptW (Z n) (hZ n), Wishart.w, Wishart.W])
    (above a) (above_measurable a) (above_integrable q a ha) (above_approx q hq a ha)
  rw [above_integral q hq a ha] at main
  refine main.congr fun n => ?_
  congr 1
  ext ω
  congr 3
  have h1 := (covLevels_facts (Z n) (hZ n).measurable (N n) (T n) (hT1 n)).1 ω
  rw [empW]
  congr 1
  rw [countP_sum (covLevels (Z n) (N n) (T n) ω) (N n) h1 (fun x => a < x) (fun x => x * above a x) (fun x => by
    unfold above
    by_cases h : x ≤ a
    · simp [h, not_lt.mpr h]
    · rw [if_neg h, if_pos (not_le.mp h), max_eq_left (not_le.mp h).le, mul_one_div_cancel]
      have := not_le.mp h
      linarith)]
  rfl

end RMT.Semi
