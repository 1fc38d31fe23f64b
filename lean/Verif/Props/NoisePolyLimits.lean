import Verif.Lemmas.MarchenkoPasturLaw
import Verif.Props.PolyLimits
import Verif.Props.SeriesRank
import Verif.Props.SignalModes

/-!
# Property C181: what polynomial unfolding of the spectrum of noise converges to
-/

namespace RMT
namespace Props
open Gen EigValsM EigM Unfold Smooth MeasureTheory ProbabilityTheory Spec Gauss Analytic Filter Topology Semi
open Inertia (cnt)

variable {σ Ω : Type} [MeasurableSpace Ω]

theorem polyFitLimit_congr (P : ℕ → Measure Ω) (vals vals' : ℕ → Ω → List ℝ) (a : ℕ → ℝ) (μ : Measure ℝ) (h : PolyFitLimit P vals a μ) (he : ∀ᶠ n in atTop, ∀ᵐ ω ∂(P n), vals n ω = vals' n ω) :
    PolyFitLimit P vals' a μ := by
  have key : ∀ S : List ℝ → ℕ → Prop, Tendsto (fun n => P n {ω | S (vals n ω) n}) atTop (𝓝 0) → Tendsto (fun n => P n {ω | S (vals' n ω) n}) atTop (𝓝 0) := by
    intro S hS
    refine hS.congr' ?_
    filter_upwards [he] with n hn
    refine measure_congr ?_
    filter_upwards [hn] with ω hω
    exact propext (by rw [show {ω | S (vals n ω) n} ω = S (vals n ω) n from rfl, show {ω | S (vals' n ω) n} ω = S (vals' n ω) n from rfl, hω])
  constructor
  · intro F hF goe poisson kind d hd ss q hq B ε hε
    exact key (fun l n => ∃ r x y, unfold F goe poisson kind l (.method .polynomial) (.int d) ss false = .ok r ∧ |x| ≤ B ∧
      evaluateSmoother r [x * a n] = .ok (some [y]) ∧ ε ≤ |y / n - q.eval x|) (h.smoother F hF goe poisson kind d hd ss q hq B ε hε)
  · intro F hF name d hd ss q hq ε hε
    exact key (fun l n => ∃ col, fitOne F l false name (.method .polynomial) (.int d) ss = .ok col ∧ ε ≤ |col.msqe / n ^ 2 - cdfError μ q|) (h.error F hF name d hd ss q hq ε hε)

theorem noise_limit (P : ℕ → Measure Ω) [∀ n, IsProbabilityMeasure (P n)] (Z : ℕ → ℕ → Ω → ℝ) (hZ : ∀ n, NormalDraws (P n) (Z n)) (T : ℕ → ℕ) (hT2 : ∀ n, 2 ≤ T n) (q : ℝ) (hq : 0 < q) (hq1 : q ≤ 1)
    (hT : Tendsto T atTop atTop) (hr : Tendsto (fun n : ℕ => (n : ℝ) / T n) atTop (𝓝 q)) (cov : Bool) :
    PolyLim.SpectralLimit P (fun n ω => noiseLevels (Z n) n (T n) cov ω) (fun _ => 1) (mpLaw q) := by
  refine ⟨fun n ω => noiseLevels_length _ _ _ _ _, Eventually.of_forall fun _ => one_pos, fun t => ?_, fun k => ?_⟩
  · rw [mp_cdf q hq hq1]
    have hmax : ∀ᶠ n : ℕ in atTop, max n 2 = n := by
      filter_upwards [eventually_ge_atTop 2] with n hn using max_eq_left hn
    have e : ∀ n ω, 0 < n → (countLE (noiseLevels (Z n) n (T n) cov ω) (t * 1) : ℝ) / n = 1 - (cnt (wantedMatrix (noise (Z n) n (T n) ω) cov) t : ℝ) / n := by
      intro n ω hn
      rw [mul_one, ← noiseLevels_cnt, countLE]
      have h1 := List.length_eq_countP_add_countP (fun x => decide (x ≤ t)) (l := noiseLevels (Z n) n (T n) cov ω)
      rw [(noiseLevels_length _ _ _ _ _).1] at h1
      have h2 : (noiseLevels (Z n) n (T n) cov ω).countP (fun x => decide ¬(decide (x ≤ t) = true)) = (noiseLevels (Z n) n (T n) cov ω).countP (fun x => decide (t < x)) :=
        List.countP_congr fun x _ => by simp
      rw [h2] at h1
      have h3 : (n : ℝ) = _ := congrArg (Nat.cast : ℕ → ℝ) h1
      push_cast at h3
      have hn' : (n : ℝ) ≠ 0 := by exact_mod_cast hn.ne'
      field_simp
      linarith
    split_ifs with ht
    · intro ε hε
      refine ae_event _ fun n => ?_
      filter_upwards [noise_nonconstant (N := n) (P n) (Z n) (hZ n) (hT2 n)] with ω hω
      have h0 := noiseLevels_nonneg (Z n) n (T n) cov (hT2 n) ω hω
      have : countLE (noiseLevels (Z n) n (T n) cov ω) (t * 1) = 0 := by
        rw [countLE, List.countP_eq_zero]
        intro x hx
        have := h0 x hx
        simp only [mul_one, decide_eq_true_eq, not_le]
        linarith
      simp only [this, Nat.cast_zero, zero_div, sub_self, abs_zero, not_le]
      exact hε
    · have h1 := inProb_all (P := P) Z hZ (fun n => max n 2) T (fun n => le_max_right _ _) hT2
        (tendsto_atTop_mono (fun n => le_max_left n 2) tendsto_id) hT q hq (hr.congr' (by filter_upwards [hmax] with n hn; rw [hn])) cov t (not_lt.mp ht)
      intro ε hε
      refine (h1 ε hε).congr' ?_
      filter_upwards [hmax, eventually_gt_atTop 0] with n hn hn0
      congr 1
      ext ω
      simp only [Set.mem_ofPred_eq]
      rw [hn, e n ω hn0, tail, ← abs_neg]
      ring_nf
  · rw [mp_moment q hq hq1]
    simp only [div_one]
    exact noise_moment Z hZ (fun n => n) T hT2 tendsto_id hT q hq hr cov k

/-- The eigenvalues returned are those of the matrix, all of them, with probability 1. -/
theorem noise_vals (eigvalsh : EigSolver) (hs : ExactSolver eigvalsh) (float : String → Option ℝ) (P : ℕ → Measure Ω) [∀ n, IsProbabilityMeasure (P n)] (Z : ℕ → ℕ → Ω → ℝ)
    (hZ : ∀ n, NormalDraws (P n) (Z n)) (T : ℕ → ℕ) (hT2 : ∀ n, 2 ≤ T n) (hTn : ∀ n, n < T n) 
    (cov tr : Bool) (s : ℕ → Ω → SeriesEigs)
    (h : ∀ n ≥ 2, ∀ᵐ ω ∂(P n), fromTimeSeries eigvalsh float (.dim2 n (T n) (noise (Z n) n (T n) ω)) cov tr (.str "negative") 1 = .ok (s n ω)) :
    ∀ n ≥ 2, ∀ᵐ ω ∂(P n), noiseLevels (Z n) n (T n) cov ω = (s n ω).obj.vals := by
  intro n hn
  filter_upwards [noise_nonconstant (N := n) (P n) (Z n) (hZ n) (hT2 n), h n hn, ae_independent (N := n) (P n) (Z n) (hZ n) (hT2 n)] with ω h1 h2 h3
  have hasc : Ascending (s n ω).obj.vals := by
    exact series_ascending eigvalsh float _ cov tr _ h2
  have hroots : ((s n ω).obj.vals : Multiset ℝ) = (wantedMatrix (noise (Z n) n (T n) ω) cov).charpoly.roots := by
    cases tr
    · have := C45_spectrum eigvalsh hs float _ cov (hT2 n) (fun _ => h1) _ _ h2
      rwa [Nat.sub_eq_zero_of_le (hTn n).le, Multiset.replicate_zero, add_zero] at this
    · obtain ⟨_, h4⟩ := C43_spectrum eigvalsh hs float _ cov (hT2 n) (fun _ => h1) _ h2
      have h5 := ((C164_count eigvalsh hs float _ cov (hT2 n) (fun _ => h1) true _ h2).2 rfl).trans h3
      rw [h4]
      refine Multiset.eq_of_le_of_card_le (Multiset.filter_le _ _) ?_
      rw [← h4, Multiset.coe_card, h5, (symm_herm _ (wantedMatrix_isSymm _ cov)).roots_charpoly_eq_eigenvalues]
      have := hTn n
      simp only [Multiset.card_map, Finset.card_val, Finset.card_univ, Fintype.card_fin]
      omega
  refine List.Perm.eq_of_pairwise (le := fun a b => a ≤ b) (fun a b _ _ h1 h2 => le_antisymm h1 h2) (noiseLevels_length _ _ _ _ _).2 hasc ?_
  rw [← Multiset.coe_eq_coe, hroots]
  exact Multiset.sort_eq _ _

/-- **C181.** Let `from_time_series` be given `n` series of `T n > n` independent standard normal values each, for every `n`, with `n / T n` tending to `q ∈ (0, 1]`, and use an exact eigenvalue
routine; let `polyfit` be least squares. For every degree `≥ 3` the stored smoother of a polynomial unfolding of the returned eigenvalues, divided by `n`, tends in probability, uniformly on bounded
sets of energies, to the polynomial of that degree approximating the distribution function of the Marchenko-Pastur law for `q` best in the mean square, and the reported mean squared error divided by
`n²` tends to the error of that polynomial: for correlations and for covariances, with and without trimming of zeros. -/
theorem C181_noise (eigvalsh : EigSolver) (hs : ExactSolver eigvalsh) (float : String → Option ℝ) (P : ℕ → Measure Ω) [∀ n, IsProbabilityMeasure (P n)] (Z : ℕ → ℕ → Ω → ℝ)
    (hZ : ∀ n, NormalDraws (P n) (Z n)) (T : ℕ → ℕ) (hT2 : ∀ n, 2 ≤ T n) (hTn : ∀ n, n < T n) (q : ℝ) (hq : 0 < q) (hq1 : q ≤ 1) (hr : Tendsto (fun n : ℕ => (n : ℝ) / T n) atTop (𝓝 q))
    (cov tr : Bool) (s : ℕ → Ω → SeriesEigs)
    (h : ∀ n ≥ 2, ∀ᵐ ω ∂(P n), fromTimeSeries eigvalsh float (.dim2 n (T n) (noise (Z n) n (T n) ω)) cov tr (.str "negative") 1 = .ok (s n ω)) :
    PolyFitLimit P (fun n ω => (s n ω).obj.vals) (fun _ => 1) (mpLaw q) := by
  have hT : Tendsto T atTop atTop := tendsto_atTop_mono (fun n => (hTn n).le) tendsto_id
  have := mp_prob q hq hq1
  refine polyFitLimit_congr P _ _ _ _ (polyFitLimit P _ _ _ (mp_atom q) (mp_pow q hq hq1) (noise_limit P Z hZ T hT2 q hq hq1 hT hr cov)) ?_
  filter_upwards [eventually_ge_atTop 2] with n hn using noise_vals eigvalsh hs float P Z hZ T hT2 hTn cov tr s h n hn

/-! ## The limit -/

theorem mp_interior (q : ℝ) (hq : 0 < q) (x : ℝ) (hx : x ∈ Set.Ioo ((1 - √q) ^ 2) ((1 + √q) ^ 2)) : 0 < x ∧ 0 < mpDensity q x := by
  have h0 : 0 < x := lt_of_le_of_lt (sq_nonneg _) hx.1
  refine ⟨h0, ?_⟩
  unfold mpDensity
  have h1 : 0 < ((1 + √q) ^ 2 - x) * (x - (1 - √q) ^ 2) := mul_pos (by linarith [hx.2]) (by linarith [hx.1])
  have := Real.sqrt_pos.mpr h1
  positivity

theorem mp_deriv (q : ℝ) (hq : 0 < q) (hq1 : q ≤ 1) (x : ℝ) (hx : 0 < x) : HasDerivAt (fun t => cdf (mpLaw q) t) (mpDensity q x) x := by
  have hcont : ContinuousAt (mpDensity q) x := by
    unfold mpDensity
    have : 2 * Real.pi * q * x ≠ 0 := by positivity
    fun_prop (disch := assumption)
  have hi : IntervalIntegrable (mpDensity q) volume 0 x := by
    rw [intervalIntegrable_iff_integrableOn_Ioc_of_le hx.le]
    exact (mp_integrable q hq).mono_set Set.Ioc_subset_Ioi_self
  have h := intervalIntegral.integral_hasDerivAt_right hi (mpDensity_measurable q).stronglyMeasurable.stronglyMeasurableAtFilter hcont
  refine h.congr_of_eventuallyEq ?_
  filter_upwards [lt_mem_nhds hx] with t ht
  rw [mp_cdf q hq hq1, if_neg (not_lt.mpr ht.le), intervalIntegral.integral_of_le ht.le, tail]
  have h3 : ∫ x in Set.Ioi 0, mpDensity q x = (∫ x in Set.Ioc 0 t, mpDensity q x) + ∫ x in Set.Ioi t, mpDensity q x := by
    rw [← setIntegral_union (Set.Ioc_disjoint_Ioi le_rfl) measurableSet_Ioi ((mp_integrable q hq).mono_set Set.Ioc_subset_Ioi_self) ((mp_integrable q hq).mono_set (Set.Ioi_subset_Ioi ht.le)),
      Set.Ioc_union_Ioi_eq_Ioi ht.le]
  rw [mpMass q hq, min_eq_left (by rw [le_div_iff₀ hq]; linarith)] at h3
  linarith

/-- The Marchenko-Pastur distribution function is no polynomial. -/
theorem mp_not_poly (q : ℝ) (hq : 0 < q) (hq1 : q ≤ 1) (p : Polynomial ℝ) : ¬ ∀ᵐ x ∂(mpLaw q), cdf (mpLaw q) x = p.eval x := by
  intro h
  have hp := mp_prob q hq hq1
  have hs : 0 < √q := Real.sqrt_pos.mpr hq
  have hlt : (1 - √q) ^ 2 < (1 + √q) ^ 2 := by nlinarith
  have h1 : ∀ᵐ x ∂(volume.restrict (Set.Ioo ((1 - √q) ^ 2) ((1 + √q) ^ 2))), cdf (mpLaw q) x = p.eval x := by
    rw [ae_restrict_iff' measurableSet_Ioo]
    generalize hf : (fun x => cdf (mpLaw q) x) = f at h ⊢
    have hf' : ∀ x, cdf (mpLaw q) x = f x := fun x => congrFun hf x
    simp only [hf'] at h ⊢
    rw [mpLaw, ae_withDensity_iff (by have := mpDensity_measurable q; fun_prop), ae_restrict_iff' measurableSet_Ioi] at h
    filter_upwards [h] with x hx hx2
    obtain ⟨b1, b2⟩ := mp_interior q hq x hx2
    exact hx b1 (ENNReal.ofReal_pos.mpr b2).ne'
  have h2 : Set.EqOn (fun x => cdf (mpLaw q) x) (fun x => p.eval x) (Set.Ioo ((1 - √q) ^ 2) ((1 + √q) ^ 2)) :=
    Measure.eqOn_open_of_ae_eq h1 isOpen_Ioo (BrodyC.cdf_continuous (mp_atom q)).continuousOn p.continuous.continuousOn
  have h3 : ∀ x ∈ Set.Ioo ((1 - √q) ^ 2) ((1 + √q) ^ 2), p.derivative.eval x = mpDensity q x := fun x hx => by
    have d1 := mp_deriv q hq hq1 x (mp_interior q hq x hx).1
    have d2 : HasDerivAt (fun t => cdf (mpLaw q) t) (p.derivative.eval x) x := (p.hasDerivAt x).congr_of_eventuallyEq (by
      filter_upwards [isOpen_Ioo.mem_nhds hx] with y hy using h2 hy)
    exact d2.unique d1
  have h4 : (Polynomial.C ((2 * Real.pi * q) ^ 2) * (Polynomial.X * p.derivative) ^ 2 : Polynomial ℝ) =
      (Polynomial.C ((1 + √q) ^ 2) - Polynomial.X) * (Polynomial.X - Polynomial.C ((1 - √q) ^ 2)) := by
    refine Polynomial.eq_of_infinite_eval_eq _ _ ((Set.Ioo_infinite hlt).mono fun x hx => ?_)
    have hx2 : 0 ≤ ((1 + √q) ^ 2 - x) * (x - (1 - √q) ^ 2) := mul_nonneg (by linarith [hx.2]) (by linarith [hx.1])
    have hx0 := (mp_interior q hq x hx).1
    simp only [Set.mem_ofPred_eq, Polynomial.eval_mul, Polynomial.eval_C, Polynomial.eval_pow, Polynomial.eval_sub, Polynomial.eval_X, h3 x hx]
    unfold mpDensity
    rw [mul_pow x, div_pow, Real.sq_sqrt hx2]
    field_simp
  have h5 := congrArg (Polynomial.eval ((1 + √q) ^ 2 + 1)) h4
  simp only [Polynomial.eval_mul, Polynomial.eval_C, Polynomial.eval_pow, Polynomial.eval_sub, Polynomial.eval_X] at h5
  have h6 : 0 ≤ (2 * Real.pi * q) ^ 2 * (((1 + √q) ^ 2 + 1) * Polynomial.eval ((1 + √q) ^ 2 + 1) (Polynomial.derivative p)) ^ 2 := by positivity
  rw [h5] at h6
  nlinarith

/-- **C181 (the limit).** For every ratio `q ∈ (0, 1]` and every degree there is exactly one best polynomial, and its error is positive: no fixed degree unfolds large noise spectra correctly. -/
theorem C181_best (q : ℝ) (hq : 0 < q) (hq1 : q ≤ 1) (d : ℕ) : (∃! p, IsBestPoly (mpLaw q) d p) ∧ ∀ p : Polynomial ℝ, 0 < cdfError (mpLaw q) p := by
  have := mp_prob q hq hq1
  exact ⟨best_exists _ (mp_atom q) (mp_pow q hq hq1) d, fun p => cdfError_pos _ (mp_atom q) (mp_pow q hq hq1) p (mp_not_poly q hq hq1 p)⟩

/-- **C181 (large degrees).** The error of the best polynomial is small when the degree is large. -/
theorem C181_degree (q : ℝ) (hq : 0 < q) (hq1 : q ≤ 1) (ε : ℝ) (hε : 0 < ε) : ∃ d0 : ℕ, ∀ d ≥ d0, ∀ p, IsBestPoly (mpLaw q) d p → cdfError (mpLaw q) p < ε := by
  have := mp_prob q hq hq1
  obtain ⟨p, hp⟩ := exists_polynomial_near_of_continuousOn 0 ((1 + √q) ^ 2) (fun x => cdf (mpLaw q) x) (BrodyC.cdf_continuous (mp_atom q)).continuousOn (min 1 (ε / 2)) (by positivity)
  refine ⟨p.natDegree, fun d hd r hr => lt_of_le_of_lt (hr.2 p hd) ?_⟩
  have h1 : cdfError (mpLaw q) p ≤ ∫ _, ε / 2 ∂(mpLaw q) := by
    rw [cdfError_eq]
    refine integral_mono_of_nonneg (Eventually.of_forall fun x => sq_nonneg _) (integrable_const _) ?_
    filter_upwards [mp_support q hq] with x hx
    have h2 := hp x ⟨hx.1.le, hx.2⟩
    rw [abs_sub_comm] at h2
    have h3 : |cdf (mpLaw q) x - p.eval x| ≤ 1 := h2.le.trans (min_le_left _ _)
    have h4 : |cdf (mpLaw q) x - p.eval x| ≤ ε / 2 := h2.le.trans (min_le_right _ _)
    rw [← sq_abs, sq]
    exact (mul_le_mul h3 h4 (abs_nonneg _) zero_le_one).trans_eq (one_mul _)
  rw [integral_const, probReal_univ, one_smul] at h1
  linarith

/-- Noise of every size, with exact routines. -/
theorem noise_example : ∃ (P : ℕ → Measure (ℕ → ℝ)) (Z : ℕ → ℕ → (ℕ → ℝ) → ℝ) (T : ℕ → ℕ) (s : ℕ → (ℕ → ℝ) → SeriesEigs), (∀ n, NormalDraws (P n) (Z n)) ∧ (∀ n, 2 ≤ T n) ∧ (∀ n, n < T n) ∧
    Tendsto (fun n : ℕ => (n : ℝ) / T n) atTop (𝓝 (1 / 2)) ∧
    ∀ n ≥ 2, ∀ᵐ ω ∂(P n), fromTimeSeries exactRoutine (fun _ => none) (.dim2 n (T n) (noise (Z n) n (T n) ω)) false true (.str "negative") 1 = .ok (s n ω) := by
  classical
  refine ⟨fun _ => Measure.infinitePi fun _ : ℕ => gaussianReal 0 1, fun _ k ω => draw streamRng ω k, fun n => 2 * n + 2, fun n ω =>
    if h : ∃ s, fromTimeSeries exactRoutine (fun _ => none) (.dim2 n (2 * n + 2) (noise (fun k ω => draw streamRng ω k) n (2 * n + 2) ω)) false true (.str "negative") 1 = .ok s then h.choose
      else mkSeriesEigs 0 0 ⟨[], [], none⟩ 0, fun _ => stream_draws, fun n => by simp only; omega, fun n => by simp only; omega, ?_, fun n hn => ?_⟩
  · have h1 : Tendsto (fun n : ℕ => 1 / (2 + 2 * (n : ℝ)⁻¹)) atTop (𝓝 (1 / (2 + 2 * 0))) :=
      tendsto_const_nhds.div (tendsto_const_nhds.add ((tendsto_inv_atTop_zero.comp tendsto_natCast_atTop_atTop).const_mul 2)) (by norm_num)
    rw [mul_zero, add_zero] at h1
    refine h1.congr' ?_
    filter_upwards [eventually_gt_atTop 0] with n hn
    have : (n : ℝ) ≠ 0 := by exact_mod_cast hn.ne'
    push_cast
    field_simp
  · filter_upwards [noise_nonconstant (N := n) (T := 2 * n + 2) _ _ stream_draws (by omega)] with ω hω
    have h := series_ok exactRoutine exactRoutine_exact (fun _ => none) (noise (fun k ω => draw streamRng ω k) n (2 * n + 2) ω) false true hn (by omega) hω
    rw [dif_pos h]
    exact h.choose_spec
-- C181: noise of every size, with exact routines
example : ∃ (P : ℕ → Measure (ℕ → ℝ)) (Z : ℕ → ℕ → (ℕ → ℝ) → ℝ) (T : ℕ → ℕ) (s : ℕ → (ℕ → ℝ) → SeriesEigs), (∀ n, NormalDraws (P n) (Z n)) ∧ (∀ n, 2 ≤ T n) ∧ (∀ n, n < T n) ∧
    Tendsto (fun n : ℕ => (n : ℝ) / T n) atTop (𝓝 (1 / 2)) ∧
    ∀ n ≥ 2, ∀ᵐ ω ∂(P n), fromTimeSeries exactRoutine (fun _ => none) (.dim2 n (T n) (noise (Z n) n (T n) ω)) false true (.str "negative") 1 = .ok (s n ω) := noise_example
example : ∃ p, IsBestPoly (mpLaw (1 / 2)) 3 p ∧ 0 < cdfError (mpLaw (1 / 2)) p := by
  obtain ⟨⟨p, hp, -⟩, h⟩ := C181_best (1 / 2) (by norm_num) (by norm_num) 3
  exact ⟨p, hp, h p⟩

end Props
end RMT
