import Verif.Lemmas.PolyProb
import Verif.Props.InexactSpectra
import Verif.Spec.BestPolynomial
import Mathlib.Topology.ContinuousMap.Weierstrass
import Mathlib.Analysis.Polynomial.Basic

/-!
# Property C180: what polynomial unfolding of a generated spectrum converges to
-/

namespace RMT
namespace Props
open Gen EigValsM EigM Unfold Smooth MeasureTheory ProbabilityTheory Spec Gauss Analytic Filter Topology Semi

variable {σ Ω : Type} [MeasurableSpace Ω]

theorem cdfError_eq (μ : Measure ℝ) [IsProbabilityMeasure μ] (p : Polynomial ℝ) : cdfError μ p = ∫ x, (cdf μ x - p.eval x) ^ 2 ∂μ := by
  simp only [cdfError, cdf_eq_real]

/-- What is claimed of polynomial unfolding of the random spectra `vals n` with scale `a n` and limiting law `μ`. -/
structure PolyFitLimit (P : ℕ → Measure Ω) (vals : ℕ → Ω → List ℝ) (a : ℕ → ℝ) (μ : Measure ℝ) : Prop where
  /-- the stored smoother, evaluated at the energy `x · a n` and divided by `n`, is near the best polynomial at `x`, uniformly in `|x| ≤ B` -/
  smoother : ∀ (F : Fitters ℝ), LeastSquaresFit F → ∀ (goe poisson : List ℝ → List ℝ) (kind : Option MatrixKind) (d : Int), 3 ≤ d → ∀ (ss : PyVal) (q : Polynomial ℝ), IsBestPoly μ d.toNat q →
    ∀ B ε : ℝ, 0 < ε → Tendsto (fun n => P n {ω | ∃ r x y, unfold F goe poisson kind (vals n ω) (.method .polynomial) (.int d) ss false = .ok r ∧ |x| ≤ B ∧
      evaluateSmoother r [x * a n] = .ok (some [y]) ∧ ε ≤ |y / n - q.eval x|}) atTop (𝓝 0)
  /-- the reported mean squared error, divided by `n²`, is near the error of the best polynomial -/
  error : ∀ (F : Fitters ℝ), LeastSquaresFit F → ∀ (name : String) (d : Int), 3 ≤ d → ∀ (ss : PyVal) (q : Polynomial ℝ), IsBestPoly μ d.toNat q →
    ∀ ε : ℝ, 0 < ε → Tendsto (fun n => P n {ω | ∃ col, fitOne F (vals n ω) false name (.method .polynomial) (.int d) ss = .ok col ∧
      ε ≤ |col.msqe / n ^ 2 - cdfError μ q|}) atTop (𝓝 0)

theorem null_of_eventually {P : ℕ → Measure Ω} {E S : ℕ → Set Ω} (h : Tendsto (fun n => P n (E n)) atTop (𝓝 0)) (hs : ∀ᶠ n in atTop, S n ⊆ E n) : Tendsto (fun n => P n (S n)) atTop (𝓝 0) :=
  tendsto_of_tendsto_of_tendsto_of_le_of_le' tendsto_const_nhds h (Eventually.of_forall fun _ => zero_le) (hs.mono fun _n hn => measure_mono hn)

theorem polyFitLimit (P : ℕ → Measure Ω) (vals : ℕ → Ω → List ℝ) (a : ℕ → ℝ) (μ : Measure ℝ) [IsProbabilityMeasure μ] (ha : ∀ s, μ {s} = 0) (hm : ∀ k : ℕ, Integrable (fun x : ℝ => x ^ k) μ)
    (h : PolyLim.SpectralLimit P vals a μ) : PolyFitLimit P vals a μ := by
  have hbest : ∀ (d : Int) (q : Polynomial ℝ), IsBestPoly μ d.toNat q → ∀ p : Polynomial ℝ, p.natDegree ≤ d.toNat → ∫ x, (cdf μ x - q.eval x) ^ 2 ∂μ ≤ ∫ x, (cdf μ x - p.eval x) ^ 2 ∂μ := fun d q hq p hp => by
    rw [← cdfError_eq, ← cdfError_eq]
    exact hq.2 p hp
  constructor
  · intro F hF goe poisson kind d hd ss q hq B ε hε
    set C := max B 1 ^ d.toNat with hC
    have hB1 : 1 ≤ max B 1 := le_max_right _ _
    have hC1 : 1 ≤ C := one_le_pow₀ hB1
    obtain ⟨E, hE, hgood⟩ := PolyLim.ls_limit P vals a μ ha hm h d.toNat q hq.1 (hbest d q hq) (ε / (2 * C)) (by positivity)
    refine null_of_eventually hE (hgood.mono fun n hn ω hω => ?_)
    obtain ⟨r, x, y, hr, hx, hy, hlt⟩ := hω
    by_contra hcon
    obtain ⟨c, hc, rfl⟩ := poly_unfold_ok F hF goe poisson kind (vals n ω) d hd ss r hr
    rw [npSort_of_ascending _ (h.sorted n ω).2, (h.sorted n ω).1] at hc
    have hco := (hn ω hcon c hc).1
    simp only [evaluateSmoother, List.map_cons, List.map_nil] at hy
    obtain rfl : polyAt c (x * a n) = y := by simpa using hy
    have e1 : polyAt c (x * a n) / n = ∑ j : Fin (d.toNat + 1), c.getD j 0 * a n ^ (j : ℕ) / n * x ^ (j : ℕ) := by
      rw [polyAt, hc.1, Finset.sum_range, Finset.sum_div]
      refine Finset.sum_congr rfl fun j _ => ?_
      rw [mul_pow]
      ring
    have e2 : q.eval x = ∑ j : Fin (d.toNat + 1), q.coeff j * x ^ (j : ℕ) := by
      rw [Polynomial.eval_eq_sum_range' (lt_of_le_of_lt hq.1 (Nat.lt_succ_self _)), Finset.sum_range]
    have e3 : |polyAt c (x * a n) / n - q.eval x| ≤ ε / (2 * C) * C := by
      rw [e1, e2, ← Finset.sum_sub_distrib]
      refine (Finset.abs_sum_le_sum_abs _ _).trans ?_
      refine le_trans (Finset.sum_le_sum fun j _ => ?_) (by rw [← Finset.sum_mul]; exact mul_le_mul_of_nonneg_right hco (by positivity))
      rw [← sub_mul, abs_mul, abs_pow]
      refine mul_le_mul_of_nonneg_left ?_ (abs_nonneg _)
      calc |x| ^ (j : ℕ) ≤ max B 1 ^ (j : ℕ) := pow_le_pow_left₀ (abs_nonneg _) (hx.trans (le_max_left _ _)) _
        _ ≤ C := pow_le_pow_right₀ hB1 (by omega)
    have e4 : ε / (2 * C) * C = ε / 2 := by field_simp
    linarith
  · intro F hF name d hd ss q hq ε hε
    obtain ⟨E, hE, hgood⟩ := PolyLim.ls_limit P vals a μ ha hm h d.toNat q hq.1 (hbest d q hq) (ε / 2) (by positivity)
    refine null_of_eventually hE (hgood.mono fun n hn ω hω => ?_)
    obtain ⟨col, hcol, hlt⟩ := hω
    by_contra hcon
    obtain ⟨-, c, hc, -, hms⟩ := fitOne_poly F _ name d ss col hcol
    have hls := hF _ _ _ _ (by omega) hc
    rw [stepsOf, (h.sorted n ω).1] at hls
    rw [stepsOf, (h.sorted n ω).1] at hms
    have := (hn ω hcon c hls).2
    rw [← hms, ← cdfError_eq] at this
    linarith

/-! ## The generated spectra -/

theorem levels_frac (l : List ℝ) (n : ℕ) (h : l.length = n) (f : ℝ → ℝ) (a : ℝ) : (l.map fun x => f (x / a)).sum / n = emp n (fun i : Fin n => l.getD i.val 0 / a) f := by
  unfold emp
  rw [Semi.sum_getD l n h fun x => f (x / a)]

theorem sqrt_scale : ∀ᶠ n : ℕ in atTop, 0 < √(n : ℝ) := by
  filter_upwards [eventually_gt_atTop 0] with n hn
  exact Real.sqrt_pos.mpr (by exact_mod_cast hn)

theorem full_limit (eh : EigSolver) (hs : ExactSolver eh) (P : ℕ → Measure Ω) [∀ n, IsProbabilityMeasure (P n)] (X : ℕ → ℕ → Ω → ℝ) (hX : ∀ n, NormalDraws (P n) (X n)) :
    PolyLim.SpectralLimit P (fun n ω => full eh (X n) n ω) (fun n => √n) (semicircleLaw 2) := by
  have hf := fun n => full_facts eh hs (X n) (hX n).measurable n
  refine ⟨fun n ω => ⟨(hf n).1 ω, npSort_ascending _⟩, sqrt_scale, fun t => ?_, fun k => ?_⟩
  · refine inProb_of_mean _ _ (fun n => fraction_integrable (P n) _ (hf n).1 (hf n).2.1 _ _) ?_
    refine (tendsto_full (P := P) eh hs X hX t).congr' ?_
    filter_upwards [eventually_gt_atTop 0] with n hn
    refine integral_congr_ae (Eventually.of_forall fun ω => ?_)
    simp only
    rw [frac_levels _ n hn ((hf n).1 ω), cdf_eq_real]
    rfl
  · have e : ∀ n ω, ((full eh (X n) n ω).map fun x : ℝ => (x / √n) ^ k).sum / n = emp n (fun i => scaled eh (X n) n i ω) fun y => y ^ k := fun n ω => levels_frac _ n ((hf n).1 ω) (fun y => y ^ k) _
    simp only [e]
    rw [show (∫ x, x ^ k ∂(semicircleLaw 2)) = wig k from moment_σ k]
    exact inProb_of_mean _ _ (fun n => ((moment_integrable eh hs (X n) (hX n) n k).sub (integrable_const _)).abs) (tendsto_abs (P := P) eh hs X hX k)

theorem gue_limit (eh : (n : Nat) → Matrix (Fin n) (Fin n) ℂ → List ℝ) (hs : ExactHermitian eh) (P : ℕ → Measure Ω) [∀ n, IsProbabilityMeasure (P n)] (X : ℕ → ℕ → Ω → ℝ) (hX : ∀ n, NormalDraws (P n) (X n)) :
    PolyLim.SpectralLimit P (fun n ω => fullC eh (X n) n ω) (fun n => √n) (semicircleLaw 2) := by
  have hf := fun n => fullC_facts eh hs (X n) (hX n).measurable n
  refine ⟨fun n ω => ⟨(hf n).1 ω, npSort_ascending _⟩, sqrt_scale, fun t => ?_, fun k => ?_⟩
  · refine inProb_of_mean _ _ (fun n => fraction_integrable (P n) _ (hf n).1 (hf n).2.1 _ _) ?_
    refine (tendsto_fullC (P := P) eh hs X hX t).congr' ?_
    filter_upwards [eventually_gt_atTop 0] with n hn
    refine integral_congr_ae (Eventually.of_forall fun ω => ?_)
    simp only
    rw [frac_levels _ n hn ((hf n).1 ω), cdf_eq_real]
    rfl
  · have e : ∀ n ω, ((fullC eh (X n) n ω).map fun x : ℝ => (x / √n) ^ k).sum / n = emp n (fun i => scaledC eh (X n) n i ω) fun y => y ^ k := fun n ω => levels_frac _ n ((hf n).1 ω) (fun y => y ^ k) _
    simp only [e]
    rw [show (∫ x, x ^ k ∂(semicircleLaw 2)) = wig k from moment_σ k]
    refine inProb_of_mean _ _ (fun n => ((momentC_integrable eh hs (X n) (hX n) n k).sub (integrable_const _)).abs) ?_
    refine tendsto_abs_of _ _ (fun n => momentC_integrable eh hs (X n) (hX n) n k) (fun n => sqC_integrable eh hs (X n) (hX n) n k) ?_ ?_
    · have := tendsto_v [k]
      simp only [momentC_first eh hs _ (hX _)]
      simpa using this
    · have := tendsto_v [k, k]
      simp only [momentC_second eh hs _ (hX _)]
      simpa using this

/-- Averages of functions of independent normal draws. -/
theorem normal_lln (P : ℕ → Measure Ω) [∀ n, IsProbabilityMeasure (P n)] (X : ℕ → ℕ → Ω → ℝ) (hX : ∀ n, NormalDraws (P n) (X n)) (f : ℝ → ℝ) (hf : Measurable f) (hf2 : MemLp f 2 (gaussianReal 0 1)) :
    InProbability P (fun n ω => (∑ k ∈ Finset.range n, f (X n k ω)) / n) (∫ x, f x ∂(gaussianReal 0 1)) := by
  have hmem : ∀ n k, MemLp (fun ω => f (X n k ω)) 2 (P n) := fun n k => by
    have h := hf2
    rw [← (hX n).law k] at h
    exact h.comp_of_map ((hX n).measurable k).aemeasurable
  have hint : ∀ n k, ∫ ω, f (X n k ω) ∂(P n) = ∫ x, f x ∂(gaussianReal 0 1) := fun n k => by
    rw [← (hX n).law k, integral_map ((hX n).measurable k).aemeasurable hf.aestronglyMeasurable]
  have hvar : ∀ n k, Var[fun ω => f (X n k ω); P n] = Var[f; gaussianReal 0 1] := fun n k => by
    rw [← (hX n).law k, variance_map hf.aemeasurable ((hX n).measurable k).aemeasurable]
    rfl
  refine UniformM.inProb_of_moments _ _ (Eventually.of_forall fun n => ?_) ?_ ?_
  · simp only [div_eq_mul_inv]
    exact (memLp_finsetSum _ fun k _ => hmem n k).mul_const _
  · refine tendsto_const_nhds.congr' ?_
    filter_upwards [eventually_gt_atTop 0] with n hn
    rw [integral_div, integral_finsetSum _ fun k _ => (hmem n k).integrable (by norm_num)]
    simp only [hint, Finset.sum_const, Finset.card_range, nsmul_eq_mul]
    have : (n : ℝ) ≠ 0 := by exact_mod_cast hn.ne'
    field_simp
  · have h0 : Tendsto (fun n : ℕ => Var[f; gaussianReal 0 1] / (n : ℝ)) atTop (𝓝 0) := tendsto_const_div_atTop_nhds_zero_nat _
    refine h0.congr' ?_
    filter_upwards [eventually_gt_atTop 0] with n hn
    have e : (fun ω => (∑ k ∈ Finset.range n, f (X n k ω)) / n) = fun ω => (n : ℝ)⁻¹ * (∑ k ∈ Finset.range n, fun ω => f (X n k ω)) ω := by
      ext ω
      rw [Finset.sum_apply, div_eq_inv_mul]
    rw [e, variance_const_mul, IndepFun.variance_sum (fun k _ => hmem n k) fun i _ j _ hij => ((hX n).indep.indepFun hij).comp hf hf]
    simp only [hvar, Finset.sum_const, Finset.card_range, nsmul_eq_mul]
    have : (n : ℝ) ≠ 0 := by exact_mod_cast hn.ne'
    field_simp

theorem gaussian_pow (k : ℕ) : MemLp (fun x : ℝ => x ^ k) 2 (gaussianReal 0 1) := by
  have h := memLp_id_gaussianReal' (μ := 0) (v := 1) ((2 * k : ℕ) : ENNReal) (ENNReal.natCast_ne_top _)
  rw [memLp_two_iff_integrable_sq (by fun_prop)]
  have h2 := h.integrable_norm_pow'
  refine h2.congr (Eventually.of_forall fun x => ?_)
  simp only [id_eq, Real.norm_eq_abs]
  rw [pow_mul, sq_abs, ← pow_mul, ← pow_mul, mul_comm]

theorem poisson_limit (R : Rng σ) (P : ℕ → Measure Ω) [∀ n, IsProbabilityMeasure (P n)] (e : ℕ → Ω → σ) (hX : ∀ n, NormalDraws (P n) fun k ω => draw R (e n ω) k) :
    PolyLim.SpectralLimit P (fun n ω => poissonVals R (e n) n ω) (fun _ => 1) (gaussianReal 0 1) := by
  have hperm : ∀ n ω, (poissonVals R (e n) n ω).Perm ((List.range n).map (draw R (e n ω))) := fun n ω => by
    unfold poissonVals
    rw [normals_draws]
    exact npSort_perm _
  refine ⟨fun n ω => ⟨by rw [(hperm n ω).length_eq]; simp, npSort_ascending _⟩, Eventually.of_forall fun _ => one_pos, fun t => ?_, fun k => ?_⟩
  · have h := normal_lln P (fun n k ω => draw R (e n ω) k) hX (ind t) (Semi.ind_measurable t) (by
      refine MemLp.of_bound (Semi.ind_measurable t).aestronglyMeasurable 1 (Eventually.of_forall fun x => ?_)
      unfold ind
      split_ifs <;> simp)
    have e1 : ∫ x, ind t x ∂(gaussianReal 0 1) = cdf (gaussianReal 0 1) t := by
      rw [cdf_eq_real, ← integral_indicator_one measurableSet_Iic]
      rfl
    rw [e1] at h
    refine UniformM.inProb_congr' _ _ _ (Eventually.of_forall fun n => Eventually.of_forall fun ω => ?_) h
    simp only [mul_one, countLE]
    rw [(hperm n ω).countP_eq, List.countP_map]
    congr 1
    have := UniformM.countP_range n fun k => draw R (e n ω) k ≤ t
    simp only [Function.comp_def]
    rw [this, Finset.card_filter]
    push_cast
    rfl
  · have h := normal_lln P (fun n k ω => draw R (e n ω) k) hX (fun x => x ^ k) (by fun_prop) (gaussian_pow k)
    refine UniformM.inProb_congr' _ _ _ (Eventually.of_forall fun n => Eventually.of_forall fun ω => ?_) h
    simp only [div_one]
    rw [((hperm n ω).map fun x : ℝ => x ^ k).sum_eq, List.map_map]
    rfl

/-! ## The limiting laws -/

theorem semicircle_atom (s : ℝ) : semicircleLaw 2 {s} = 0 := by
  unfold semicircleLaw
  exact withDensity_absolutelyContinuous _ _ (by simp)

theorem semicircle_pow (k : ℕ) : Integrable (fun x : ℝ => x ^ k) (semicircleLaw 2) := integrable_σ _ (continuous_pow k)

theorem gaussian_atom (s : ℝ) : gaussianReal 0 1 {s} = 0 := gaussianReal_absolutelyContinuous 0 one_ne_zero (by simp)

theorem gaussian_pow' (k : ℕ) : Integrable (fun x : ℝ => x ^ k) (gaussianReal 0 1) := (gaussian_pow k).integrable (by norm_num)

/-- There is exactly one best polynomial. -/
theorem best_exists (μ : Measure ℝ) [IsProbabilityMeasure μ] (ha : ∀ s, μ {s} = 0) (hm : ∀ k : ℕ, Integrable (fun x : ℝ => x ^ k) μ) (d : ℕ) : ∃! q, IsBestPoly μ d q := by
  obtain ⟨q, h1, h2, h3, -⟩ := PolyLim.ls_close μ ha hm d
  refine ⟨q, ⟨h1, fun p hp => ?_⟩, fun p hp => h3 p hp.1 ?_⟩
  · rw [cdfError_eq, cdfError_eq]
    exact h2 p hp
  · rw [← cdfError_eq, ← cdfError_eq]
    exact hp.2 q h1

theorem cdfError_pos (μ : Measure ℝ) [IsProbabilityMeasure μ] (ha : ∀ s, μ {s} = 0) (hm : ∀ k : ℕ, Integrable (fun x : ℝ => x ^ k) μ) (p : Polynomial ℝ)
    (h : ¬ ∀ᵐ x ∂μ, cdf μ x = p.eval x) : 0 < cdfError μ p := by
  rw [cdfError_eq]
  have hint : Integrable (fun x => (cdf μ x - p.eval x) ^ 2) μ := by
    have := (PolyLim.Q_integral (d := p.natDegree) μ ha hm fun j => p.coeff j).2
    refine this.congr (Eventually.of_forall fun x => ?_)
    simp only
    rw [← PolyLim.toP_eval, PolyLim.toP_surj p le_rfl]
  refine lt_of_le_of_ne (integral_nonneg fun x => sq_nonneg _) fun h0 => h ?_
  have h1 := (integral_eq_zero_iff_of_nonneg (fun x => sq_nonneg (cdf μ x - p.eval x)) hint).mp h0.symm
  filter_upwards [h1] with x hx
  have : (cdf μ x - p.eval x) ^ 2 = 0 := hx
  exact sub_eq_zero.mp (pow_eq_zero_iff (two_ne_zero) |>.mp this)

/-- The semicircle distribution function is no polynomial. -/
theorem semicircle_not_poly (p : Polynomial ℝ) : ¬ ∀ᵐ x ∂(semicircleLaw 2), cdf (semicircleLaw 2) x = p.eval x := by
  intro h
  have hF : ∀ x, cdf (semicircleLaw 2) x = F x := fun x => cdf_eq_real _ x
  simp only [hF] at h
  have h1 : ∀ᵐ x ∂(volume.restrict (Set.Ioo (-2 : ℝ) 2)), F x = p.eval x := by
    rw [ae_restrict_iff' measurableSet_Ioo]
    unfold semicircleLaw at h
    rw [ae_withDensity_iff (by fun_prop)] at h
    filter_upwards [h] with x hx hx2
    refine hx ?_
    have := dens_pos x hx2
    rw [← dens_eq] at this
    exact (ENNReal.ofReal_pos.mpr this).ne'
  have h2 : Set.EqOn F (fun x => p.eval x) (Set.Ioo (-2) 2) :=
    Measure.eqOn_open_of_ae_eq h1 isOpen_Ioo F_cont.continuousOn p.continuous.continuousOn
  have h3 : ∀ x ∈ Set.Ioo (-2 : ℝ) 2, p.derivative.eval x = dens x := fun x hx => by
    have d1 := F_deriv x
    have d2 : HasDerivAt F (p.derivative.eval x) x := (p.hasDerivAt x).congr_of_eventuallyEq (by
      filter_upwards [isOpen_Ioo.mem_nhds hx] with y hy using h2 hy)
    exact d2.unique d1
  have h4 : (Polynomial.C (4 * Real.pi ^ 2) * p.derivative ^ 2 : Polynomial ℝ) = 4 - Polynomial.X ^ 2 := by
    refine Polynomial.eq_of_infinite_eval_eq _ _ ((Set.Ioo_infinite (show (-2 : ℝ) < 2 by norm_num)).mono fun x hx => ?_)
    have hx2 : 0 ≤ 4 - x ^ 2 := by nlinarith [hx.1, hx.2]
    simp only [Set.mem_ofPred_eq, Polynomial.eval_mul, Polynomial.eval_C, Polynomial.eval_pow, Polynomial.eval_sub, Polynomial.eval_X, Polynomial.eval_ofNat, h3 x hx]
    unfold dens
    rw [div_pow, Real.sq_sqrt hx2, mul_pow]
    field_simp
    ring
  have h5 := congrArg (Polynomial.eval 3) h4
  simp only [Polynomial.eval_mul, Polynomial.eval_C, Polynomial.eval_pow, Polynomial.eval_sub, Polynomial.eval_X, Polynomial.eval_ofNat] at h5
  have : 0 ≤ 4 * Real.pi ^ 2 * Polynomial.eval 3 (Polynomial.derivative p) ^ 2 := by positivity
  rw [h5] at this
  norm_num at this

/-- The normal distribution function is no polynomial. -/
theorem gaussian_not_poly (p : Polynomial ℝ) : ¬ ∀ᵐ x ∂(gaussianReal 0 1), cdf (gaussianReal 0 1) x = p.eval x := by
  intro h
  have h1 : ∀ᵐ x : ℝ, cdf (gaussianReal 0 1) x = p.eval x := (gaussianReal_absolutelyContinuous' 0 one_ne_zero).ae_le h
  have h2 : (fun x => cdf (gaussianReal 0 1) x) = fun x => p.eval x := Continuous.ae_eq_iff_eq volume (BrodyC.cdf_continuous gaussian_atom) p.continuous |>.mp h1
  have heq : ∀ x, cdf (gaussianReal 0 1) x = p.eval x := fun x => congrFun h2 x
  have h3 : p.degree ≤ 0 := (Polynomial.isBoundedUnder_abs_atTop_iff p).mp ⟨1, eventually_map.mpr (Eventually.of_forall fun x => by
    rw [← heq, abs_of_nonneg (cdf_nonneg _ x)]
    exact cdf_le_one _ x)⟩
  rw [Polynomial.degree_le_zero_iff] at h3
  have hc : ∀ x, cdf (gaussianReal 0 1) x = p.coeff 0 := fun x => by
    rw [heq, h3]
    simp
  have l1 := tendsto_nhds_unique ((tendsto_cdf_atTop (gaussianReal 0 1)).congr hc) tendsto_const_nhds
  have l2 := tendsto_nhds_unique ((tendsto_cdf_atBot (gaussianReal 0 1)).congr hc) tendsto_const_nhds
  linarith

/-! ## The property -/

/-- **C180 (GOE).** Let `generate(n, "goe")` be run for every size with independent standard normal draws and an exact eigenvalue routine, and let `polyfit` be least squares. For every degree `≥ 3`
the stored smoother of a polynomial unfolding, evaluated at the energy `x √n` and divided by `n`, tends in probability, uniformly in `|x| ≤ B`, to the polynomial of that degree approximating the
distribution function of the semicircle law best in the mean square, and the reported mean squared error divided by `n²` tends to the error of that polynomial. -/
theorem C180_goe (R : Rng σ) (eh : EigSolver) (ehC : (n : Nat) → Matrix (Fin n) (Fin n) ℂ → List ℝ) (hs : ExactSolver eh) (P : ℕ → Measure Ω) [∀ n, IsProbabilityMeasure (P n)] (e s : ℕ → Ω → σ)
    (hX : ∀ n, NormalDraws (P n) fun k ω => draw R (s n ω) k) :
    ∃ vals : ℕ → Ω → List ℝ, (∀ n, GeneratedVals R eh ehC n .goe false (e n) (s n) (vals n)) ∧ PolyFitLimit P vals (fun n => √n) (semicircleLaw 2) := by
  refine ⟨fun n ω => full eh (fun k ω => draw R (s n ω) k) n ω, fun n ω => ?_, ?_⟩
  · have := (C49_values R eh ehC n none false (e n ω) (s n ω)).1
    rwa [goe_full_draws] at this
  · exact polyFitLimit P _ _ _ semicircle_atom semicircle_pow (full_limit eh hs P _ hX)

/-- **C180 (GUE).** The same for `generate(n, "gue")`. -/
theorem C180_gue (R : Rng σ) (eh : EigSolver) (ehC : (n : Nat) → Matrix (Fin n) (Fin n) ℂ → List ℝ) (hs : ExactHermitian ehC) (P : ℕ → Measure Ω) [∀ n, IsProbabilityMeasure (P n)] (e s : ℕ → Ω → σ)
    (hX : ∀ n, NormalDraws (P n) fun k ω => draw R (s n ω) k) (tri : Bool) :
    ∃ vals : ℕ → Ω → List ℝ, (∀ n, GeneratedVals R eh ehC n .gue tri (e n) (s n) (vals n)) ∧ PolyFitLimit P vals (fun n => √n) (semicircleLaw 2) := by
  refine ⟨fun n ω => fullC ehC (fun k ω => draw R (s n ω) k) n ω, fun n ω => ?_, ?_⟩
  · have := (C49_values R eh ehC n none tri (e n ω) (s n ω)).2.1
    rwa [gue_draws] at this
  · exact polyFitLimit P _ _ _ semicircle_atom semicircle_pow (gue_limit ehC hs P _ hX)

/-- **C180 (Poisson).** The same for `generate(n, "poisson")`, whose levels need no rescaling and follow the standard normal law. -/
theorem C180_poisson (R : Rng σ) (eh : EigSolver) (ehC : (n : Nat) → Matrix (Fin n) (Fin n) ℂ → List ℝ) (P : ℕ → Measure Ω) [∀ n, IsProbabilityMeasure (P n)] (e s : ℕ → Ω → σ)
    (hX : ∀ n, NormalDraws (P n) fun k ω => draw R (e n ω) k) (tri : Bool) :
    ∃ vals : ℕ → Ω → List ℝ, (∀ n, GeneratedVals R eh ehC n .poisson tri (e n) (s n) (vals n)) ∧ PolyFitLimit P vals (fun _ => 1) (gaussianReal 0 1) :=
  ⟨fun n ω => poissonVals R (e n) n ω, fun n => poissonVals_generated R eh ehC (e n) (s n) n tri, polyFitLimit P _ _ _ gaussian_atom gaussian_pow' (poisson_limit R P e hX)⟩

/-- **C180 (the limit).** For both laws and every degree there is exactly one best polynomial, and its error is positive: no fixed degree unfolds large generated spectra correctly. -/
theorem C180_best (d : ℕ) :
    (∃! q, IsBestPoly (semicircleLaw 2) d q) ∧ (∃! q, IsBestPoly (gaussianReal 0 1) d q) ∧
      ∀ q : Polynomial ℝ, 0 < cdfError (semicircleLaw 2) q ∧ 0 < cdfError (gaussianReal 0 1) q :=
  ⟨best_exists _ semicircle_atom semicircle_pow d, best_exists _ gaussian_atom gaussian_pow' d, fun q =>
    ⟨cdfError_pos _ semicircle_atom semicircle_pow q (semicircle_not_poly q), cdfError_pos _ gaussian_atom gaussian_pow' q (gaussian_not_poly q)⟩⟩

/-- **C180 (large degrees).** For the semicircle law the error of the best polynomial is small when the degree is large. -/
theorem C180_degree (ε : ℝ) (hε : 0 < ε) : ∃ d0 : ℕ, ∀ d ≥ d0, ∀ q, IsBestPoly (semicircleLaw 2) d q → cdfError (semicircleLaw 2) q < ε := by
  obtain ⟨p, hp⟩ := exists_polynomial_near_of_continuousOn (-2) 2 F F_cont.continuousOn (min 1 (ε / 2)) (by positivity)
  refine ⟨p.natDegree, fun d hd q hq => lt_of_le_of_lt (hq.2 p hd) ?_⟩
  have h1 : cdfError (semicircleLaw 2) p ≤ ∫ _, ε / 2 ∂(semicircleLaw 2) := by
    unfold cdfError
    have hi : ∀ f : ℝ → ℝ, ∫ x, f x ∂(semicircleLaw 2) = ∫ x in (-2 : ℝ)..2, f x * dens x := integral_σ
    rw [hi, hi]
    refine intervalIntegral.integral_mono_on (by norm_num) ?_ ?_ fun x hx => ?_
    · exact (((F_cont.sub p.continuous).pow 2).mul dens_cont).intervalIntegrable _ _
    · exact (continuous_const.mul dens_cont).intervalIntegrable _ _
    · refine mul_le_mul_of_nonneg_right ?_ (dens_nonneg x)
      have h2 := (hp x hx).le
      have h3 : |F x - p.eval x| ≤ min 1 (ε / 2) := by rw [abs_sub_comm]; exact h2
      change (F x - p.eval x) ^ 2 ≤ ε / 2
      rw [← sq_abs]
      have h4 : |F x - p.eval x| ≤ 1 := h3.trans (min_le_left _ _)
      have h5 : |F x - p.eval x| ≤ ε / 2 := h3.trans (min_le_right _ _)
      nlinarith [abs_nonneg (F x - p.eval x)]
  rw [integral_const] at h1
  simp only [probReal_univ, one_smul] at h1
  linarith

theorem tri_inProb (R : Rng σ) (eh : EigSolver) (hs : ExactSolver eh) (P : ℕ → Measure Ω) [∀ n, IsProbabilityMeasure (P n)] (s : ℕ → Ω → σ)
    (hC : ∀ n > 500, ChiSquareDraws (P n) (n - 1) fun k ω => chiDraws R n (s n ω) k) (hZ : ∀ n > 500, NormalDraws (P n) fun k ω => diagDraws R n (s n ω) k)
    (hi : ∀ n > 500, IndepFun (fun ω => chiDraws R n (s n ω)) (fun ω => diagDraws R n (s n ω)) (P n)) (g : ℝ → ℝ) (hg : Measurable g) (c : ℝ)
    (h : InProbability (fun _ => Measure.infinitePi fun _ : ℕ => gaussianReal 0 1) (fun n ω => emp n (fun i => vec n (full eh (fun k (ω : ℕ → ℝ) => draw streamRng ω k) n ω) i / √n) g) c) :
    InProbability P (fun n ω => emp n (fun i => √2 * vec n (npSort (eh n (generateGOETridiagonal R n none (s n ω)).1)) i / √n) g) c := by
  intro ε hε
  refine (h ε hε).congr' ?_
  filter_upwards [eventually_gt_atTop 500] with n hn
  have hid := tri_ident R eh hs P s n (hC n hn) (hZ n hn) (hi n hn)
  have hm : Measurable fun v : Fin n → ℝ => emp n (fun i => v i / √n) g := by
    unfold emp
    exact (Finset.measurable_fun_sum _ fun i _ => hg.comp ((measurable_pi_apply i).div_const _)).div_const _
  exact (hid.comp hm).measure_mem_eq (s := {y | ε ≤ |y - c|}) (measurableSet_le measurable_const (by fun_prop))

theorem tri_limit (R : Rng σ) (eh : EigSolver) (hs : ExactSolver eh) (P : ℕ → Measure Ω) [∀ n, IsProbabilityMeasure (P n)] (s : ℕ → Ω → σ)
    (hC : ∀ n > 500, ChiSquareDraws (P n) (n - 1) fun k ω => chiDraws R n (s n ω) k) (hZ : ∀ n > 500, NormalDraws (P n) fun k ω => diagDraws R n (s n ω) k)
    (hi : ∀ n > 500, IndepFun (fun ω => chiDraws R n (s n ω)) (fun ω => diagDraws R n (s n ω)) (P n)) :
    PolyLim.SpectralLimit P (fun n ω => npSort (eh n (goeMatrix R n none true (s n ω)).1)) (fun n => √(n / 2)) (semicircleLaw 2) := by
  have hlen : ∀ n ω, (npSort (eh n (goeMatrix R n none true (s n ω)).1)).length = n := fun n ω => by
    have hsym : (goeMatrix R n none true (s n ω)).1.IsSymm := by
      by_cases hn : n > 500
      · rw [goeMatrix, if_pos ⟨hn, rfl⟩, goe_tri_draws]
        exact tridiagonalOf_symm _ _ _
      · rw [goeMatrix, if_neg (fun h => hn h.1)]
        exact goeOf_symm _
    have h := congrArg Multiset.card (hs n _ hsym)
    rw [Multiset.coe_card] at h
    rw [(npSort_perm _).length_eq, h, (symm_hermitian hsym).roots_charpoly_eq_eigenvalues]
    simp
  have hM : ∀ n > 500, ∀ ω, (goeMatrix R n none true (s n ω)).1 = (generateGOETridiagonal R n none (s n ω)).1 := fun n hn ω => by rw [goeMatrix, if_pos ⟨hn, rfl⟩]
  have hfull := full_limit eh hs (fun _ => Measure.infinitePi fun _ : ℕ => gaussianReal 0 1) (fun _ k (ω : ℕ → ℝ) => draw streamRng ω k) fun _ => stream_draws
  have hflen := fun n (ω : ℕ → ℝ) => (hfull.sorted n ω).1
  have key : ∀ (n : ℕ) (x : ℝ), x / √(n / 2) = √2 * x / √n := fun n x => by
    rw [Real.sqrt_div (by positivity), div_div_eq_mul_div, mul_comm]
  refine ⟨fun n ω => ⟨hlen n ω, npSort_ascending _⟩, ?_, fun t => ?_, fun k => ?_⟩
  · filter_upwards [eventually_gt_atTop 0] with n hn
    have : (0 : ℝ) < n := by exact_mod_cast hn
    positivity
  · have h0 := hfull.frac t
    have h1 := tri_inProb R eh hs P s hC hZ hi (ind t) (Semi.ind_measurable t) (cdf (semicircleLaw 2) t) (by
      refine UniformM.inProb_congr' _ _ _ ?_ h0
      filter_upwards [eventually_gt_atTop 0] with n hn
      exact Eventually.of_forall fun ω => frac_levels _ n hn (hflen n ω) t)
    refine UniformM.inProb_congr' _ _ _ ?_ h1
    filter_upwards [eventually_gt_atTop 500] with n hn
    refine Eventually.of_forall fun ω => ?_
    have hn0 : (0 : ℝ) < n := by exact_mod_cast (by omega : 0 < n)
    have e1 : t * √((n : ℝ) / 2) = t / √2 * √n := by rw [Real.sqrt_div (by positivity)]; ring
    rw [e1, frac_levels _ n (by omega) (hlen n ω) (t / √2), hM n hn ω]
    unfold emp
    congr 1
    refine Finset.sum_congr rfl fun i _ => ?_
    unfold ind
    have h2 : (0 : ℝ) < √2 := by positivity
    have : ∀ x : ℝ, √2 * x / √n ≤ t ↔ x / √n ≤ t / √2 := by
      intro x
      rw [le_div_iff₀ h2, mul_div_assoc, mul_comm]
    simp only [this]
  · have h0 := hfull.moment k
    have h1 := tri_inProb R eh hs P s hC hZ hi (fun y => y ^ k) (by fun_prop) (∫ x, x ^ k ∂(semicircleLaw 2)) (by
      refine UniformM.inProb_congr' _ _ _ (Eventually.of_forall fun n => Eventually.of_forall fun ω => ?_) h0
      exact levels_frac _ n (hflen n ω) (fun y => y ^ k) _)
    refine UniformM.inProb_congr' _ _ _ ?_ h1
    filter_upwards [eventually_gt_atTop 500] with n hn
    refine Eventually.of_forall fun ω => ?_
    rw [levels_frac _ n (hlen n ω) (fun y => y ^ k), hM n hn ω]
    simp only [key]
    rfl

/-- **C180 (tridiagonal).** The same for `generate(n, "goe", use_tridiagonal=True)`, whose levels are smaller by the factor `√2`. -/
theorem C180_tridiagonal (R : Rng σ) (eh : EigSolver) (ehC : (n : Nat) → Matrix (Fin n) (Fin n) ℂ → List ℝ) (hs : ExactSolver eh)
    (P : Nat → Measure Ω) [∀ n, IsProbabilityMeasure (P n)] (e s : Nat → Ω → σ)
    (hC : ∀ n > 500, ChiSquareDraws (P n) (n - 1) fun k ω => chiDraws R n (s n ω) k) (hZ : ∀ n > 500, NormalDraws (P n) fun k ω => diagDraws R n (s n ω) k)
    (hi : ∀ n > 500, IndepFun (fun ω => chiDraws R n (s n ω)) (fun ω => diagDraws R n (s n ω)) (P n)) :
    ∃ vals : ℕ → Ω → List ℝ, (∀ n, GeneratedVals R eh ehC n .goe true (e n) (s n) (vals n)) ∧ PolyFitLimit P vals (fun n => √(n / 2)) (semicircleLaw 2) :=
  ⟨fun n ω => npSort (eh n (goeMatrix R n none true (s n ω)).1), fun n ω => (C49_values R eh ehC n none true (e n ω) (s n ω)).1,
    polyFitLimit P _ _ _ semicircle_atom semicircle_pow (tri_limit R eh hs P s hC hZ hi)⟩

/-- Every data set has a least-squares polynomial. -/
theorem exists_polyFit (xs ys : List ℝ) (hl : xs.length = ys.length) (d : ℕ) : ∃ c, IsPolyLS c xs ys d := by
  classical
  let T : (Fin (d + 1) → ℝ) →ₗ[ℝ] EuclideanSpace ℝ (Fin xs.length) :=
    { toFun := fun c => WithLp.toLp 2 fun i => ∑ j, c j * xs[i] ^ (j : ℕ)
      map_add' := fun a b => by
        ext i
        simp only [Pi.add_apply, add_mul, Finset.sum_add_distrib, PiLp.add_apply]
      map_smul' := fun t a => by
        ext i
        simp only [Pi.smul_apply, smul_eq_mul, RingHom.id_apply, PiLp.smul_apply, Finset.mul_sum, mul_assoc] }
  let u : EuclideanSpace ℝ (Fin xs.length) := WithLp.toLp 2 fun i => ys[i]'(by rw [← hl]; exact i.isLt)
  obtain ⟨v, hv, hmin⟩ := Submodule.exists_norm_eq_iInf_of_complete_subspace (LinearMap.range T) (Submodule.complete_of_finiteDimensional _) u
  obtain ⟨q, rfl⟩ := hv
  have hE : ∀ c : List ℝ, c.length = d + 1 → fitError xs ys (polyAt c) = ‖u - T fun j => c.getD j 0‖ ^ 2 := fun c hc => by
    rw [EuclideanSpace.norm_sq_eq, fitError, sum_zipWith_fin _ _ _ hl]
    refine Finset.sum_congr rfl fun i _ => ?_
    rw [Real.norm_eq_abs, sq_abs]
    congr 1
    simp only [PiLp.sub_apply, polyAt, hc, Finset.sum_range]
    rfl
  refine ⟨List.ofFn q, by simp, fun c' hc' => ?_⟩
  rw [hE _ (by simp), hE c' hc']
  refine pow_le_pow_left₀ (norm_nonneg _) ?_ 2
  have e : (fun j : Fin (d + 1) => (List.ofFn q).getD j 0) = q := by
    ext j
    rw [List.getD_eq_getElem?_getD, List.getElem?_ofFn, dif_pos j.isLt]
    rfl
  rw [e, hmin]
  refine ciInf_le ⟨0, ?_⟩ (⟨T fun j => c'.getD j 0, LinearMap.mem_range_self _ _⟩ : LinearMap.range T)
  rintro _ ⟨w, rfl⟩
  exact norm_nonneg _

open Classical in
/-- A least-squares routine for examples. -/
noncomputable def totalFitters : Fitters ℝ where
  polyfit := fun x y d => if h : ∃ c, IsPolyLS c x y d.toNat then .ok h.choose else .error .valueError
  spline := fun _ _ _ _ => .error .valueError
  fitExp := fun _ _ => .error .valueError
  fitGompertz := fun _ _ => .error .valueError
  exp := id
  pow := fun _ q => q
  trend := id

-- C180: a least-squares routine which always succeeds, normal draws of every size, exact eigenvalue routines and best polynomials exist
example : ∃ F : Fitters ℝ, LeastSquaresFit F ∧ ∀ goe poisson kind vals (d : Int) ss, 3 ≤ d → ∃ r, unfold F goe poisson kind vals (.method .polynomial) (.int d) ss false = .ok r := by
  refine ⟨totalFitters, fun x y d c _ h => ?_, fun goe poisson kind vals d ss hd => ?_⟩
  · simp only [totalFitters] at h
    split_ifs at h with h1
    · cases h
      exact h1.choose_spec
  · rw [C53_polynomial _ goe poisson kind vals d hd ss]
    simp only [totalFitters]
    rw [dif_pos (exists_polyFit _ _ (by simp [(npSort_perm vals).length_eq]) _)]
    exact ⟨_, rfl⟩
example : ∃ (P : ℕ → Measure (ℕ → ℝ)) (X : ℕ → ℕ → (ℕ → ℝ) → ℝ), ∀ n, NormalDraws (P n) (X n) := ⟨fun _ => Measure.infinitePi fun _ : ℕ => gaussianReal 0 1, fun _ k ω => draw streamRng ω k, fun _ => stream_draws⟩
example : ∃ q, IsBestPoly (semicircleLaw 2) 3 q ∧ 0 < cdfError (semicircleLaw 2) q := by
  obtain ⟨q, hq, -⟩ := (C180_best 3).1
  exact ⟨q, hq, ((C180_best 3).2.2 q).1⟩

end Props
end RMT
