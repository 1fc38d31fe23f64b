import Verif.Lemmas.TrimNoise
import Verif.Props.NoisePolyLimits
import Verif.Props.TrimmedNearly

/-! # C196: polynomial unfolding of trimmed noise spectra -/

namespace RMT
namespace Props
open Gen EigValsM EigM Unfold Smooth MeasureTheory ProbabilityTheory Spec Gauss Analytic Filter Topology Semi Helpers Weyl

variable {σ Ω : Type} [MeasurableSpace Ω]

theorem trimmed_congr (P : ℕ → Measure Ω) (t t' : ℕ → Ω → List ℝ) (a : ℕ → ℝ) (u v : ℝ) (μ : Measure ℝ) (h : TrimmedFitLimit P t a u v μ) (he : ∀ᶠ m in atTop, ∀ᵐ ω ∂(P m), t m ω = t' m ω) :
    TrimmedFitLimit P t' a u v μ := by
  have key : ∀ S : List ℝ → ℕ → Prop, Tendsto (fun m => P m {ω | S (t m ω) m}) atTop (𝓝 0) → Tendsto (fun m => P m {ω | S (t' m ω) m}) atTop (𝓝 0) := by
    intro S hS
    refine hS.congr' ?_
    filter_upwards [he] with m hm
    refine measure_congr ?_
    filter_upwards [hm] with ω hω
    exact propext (by rw [show {ω | S (t m ω) m} ω = S (t m ω) m from rfl, show {ω | S (t' m ω) m} ω = S (t' m ω) m from rfl, hω])
  constructor
  · intro F hF d hd ss q hq ε hε
    exact key (fun l m => ∃ r i, trimmedUnfold F l (.method .polynomial) (.int d) ss false = .ok r ∧ i < m ∧ ε ≤ |r.vals.getD i 0 / m - q.eval (l.getD i 0 / a m)|) (h.values F hF d hd ss q hq ε hε)
  · filter_upwards [he, h.sorted] with m h1 h2
    filter_upwards [h1, h2] with ω h3 h4
    rwa [← h3]
  · intro ρ hρ
    exact key (fun l m => ρ < |l.getD 0 0 / a m - u| ∨ ρ < |l.getD (m - 1) 0 / a m - v|) (h.ends ρ hρ)
  · intro F hF d hd ss q hq ε hε
    exact key (fun l _ => ∃ r, trimmedUnfold F l (.method .polynomial) (.int d) ss false = .ok r ∧ ε ≤ |Spec.avg (gaps r.vals) - (q.eval v - q.eval u)|) (h.mean F hF d hd ss q hq ε hε)

theorem mp_increases (q : ℝ) (hq : 0 < q) (hq1 : q ≤ 1) (x y : ℝ) (hx : (1 - √q) ^ 2 < x) (hxy : x < y) (hy : y < (1 + √q) ^ 2) : cdf (mpLaw q) x < cdf (mpLaw q) y := by
  have := mp_prob q hq hq1
  have h1 := TrimLim.icc_real (mpLaw q) (mp_atom q) x y hxy.le
  have h2 := TrimUni.weight_pos (TrimUni.mp_analytic q hq hx hxy hy) hxy
  linarith

theorem mp_increases_at (q : ℝ) (hq : 0 < q) (hq1 : q ≤ 1) (u : ℝ) (hx : (1 - √q) ^ 2 < u) (hy : u < (1 + √q) ^ 2) (ε : ℝ) (hε : 0 < ε) : cdf (mpLaw q) (u - ε) < cdf (mpLaw q) u ∧ cdf (mpLaw q) u < cdf (mpLaw q) (u + ε) := by
  constructor
  · refine lt_of_le_of_lt (monotone_cdf _ (le_max_left (u - ε) (((1 - √q) ^ 2 + u) / 2))) (mp_increases q hq hq1 _ u (lt_of_lt_of_le (by linarith) (le_max_right _ _)) (max_lt (by linarith) (by linarith)) hy)
  · refine lt_of_lt_of_le (mp_increases q hq hq1 u (min (u + ε) ((u + (1 + √q) ^ 2) / 2)) hx (lt_min (by linarith) (by linarith)) (lt_of_le_of_lt (min_le_right _ _) (by linarith))) (monotone_cdf _ (min_le_left _ _))

/-- **C196 (the error).** On every interval inside the support of the Marchenko-Pastur law for `q ∈ (0, 1]`, the error of the best polynomials falls geometrically with the degree. -/
theorem C196_error (q : ℝ) (hq : 0 < q) (u v : ℝ) (hu : (1 - √q) ^ 2 < u) (huv : u < v) (hv : v < (1 + √q) ^ 2) :
    ∃ b K : ℝ, 0 < b ∧ b < 1 ∧ 0 < K ∧ ErrorFalls (ProbabilityTheory.cond (mpLaw q) (Set.Icc u v)) u v b K := by
  obtain ⟨b, ⟨h0, h1⟩, K, hK, h⟩ := TrimUni.best_uniform (TrimUni.mp_analytic q hq hu huv hv) huv
  exact ⟨b, K, h0, h1, hK, fun d hd p hp x h2 h3 => h d hd p hp x ⟨h2, h3⟩⟩

/-- **C196 (noise).** Let `from_time_series` be given `n` series of `T n > n` independent standard normal values each, for every `n`, with `n / T n` tending to `q ∈ (0, 1]`, and use an exact eigenvalue
routine; let `trim_manually(K, K + m)` keep `m` of `N m` eigenvalues, so that the fraction cut off below tends to the weight that the Marchenko-Pastur law puts below `u`, and the fraction kept to its
weight on `[u, v]`. Then `Trimmed.unfold` with a polynomial of degree `d ≥ 3` converges to the best polynomial for the law of the kept eigenvalues, and is right up to `κ bᵈ`, where `b < 1` and `κ` are
constants as in `C196_error`: for correlations and for covariances, with and without trimming of zeros. -/
theorem C196_noise (eigvalsh : EigSolver) (hs : ExactSolver eigvalsh) (float : String → Option ℝ) (P : ℕ → Measure Ω) [∀ n, IsProbabilityMeasure (P n)] (Z : ℕ → ℕ → Ω → ℝ)
    (hZ : ∀ n, NormalDraws (P n) (Z n)) (T : ℕ → ℕ) (hT2 : ∀ n, 2 ≤ T n) (hTn : ∀ n, n < T n) (q : ℝ) (hq : 0 < q) (hq1 : q ≤ 1) (hr : Tendsto (fun n : ℕ => (n : ℝ) / T n) atTop (𝓝 q))
    (cov tr : Bool) (s : ℕ → Ω → SeriesEigs)
    (h : ∀ n ≥ 2, ∀ᵐ ω ∂(P n), fromTimeSeries eigvalsh float (.dim2 n (T n) (noise (Z n) n (T n) ω)) cov tr (.str "negative") 1 = .ok (s n ω))
    (u v : ℝ) (hu : (1 - √q) ^ 2 < u) (huv : u < v) (hv : v < (1 + √q) ^ 2) (N K : ℕ → ℕ) (hN : Tendsto N atTop atTop) (hKN : ∀ m, K m + m ≤ N m)
    (hK : Tendsto (fun m => (K m : ℝ) / N m) atTop (𝓝 ((mpLaw q).real (Set.Iic u)))) (hm : Tendsto (fun m : ℕ => (m : ℝ) / N m) atTop (𝓝 ((mpLaw q).real (Set.Icc u v))))
    (t : ℕ → Ω → List ℝ) (ht : ∀ m ω, Report.trimManually (s (N m) ω).obj.vals (K m : Int) (K m + m : Int) = .ok (t m ω))
    (b κ : ℝ) (he : ErrorFalls (ProbabilityTheory.cond (mpLaw q) (Set.Icc u v)) u v b κ) :
    TrimmedFitLimit (fun m => P (N m)) t (fun _ => 1) u v (ProbabilityTheory.cond (mpLaw q) (Set.Icc u v)) ∧
      TrimmedNearlyUnfolds (fun m => P (N m)) t (fun _ => 1) (ProbabilityTheory.cond (mpLaw q) (Set.Icc u v)) b κ := by
  have hp := mp_prob q hq hq1
  rw [TrimLim.icc_real _ (mp_atom q) u v huv.le] at hm
  rw [← cdf_eq_real] at hK
  have hT : Tendsto T atTop atTop := tendsto_atTop_mono (fun n => (hTn n).le) tendsto_id
  have ht' : ∀ m ω, ∃ w, Report.trimManually (noiseLevels (Z (N m)) (N m) (T (N m)) cov ω) (K m : Int) (K m + m : Int) = .ok w := fun m ω => ⟨_, by
    rw [Report.trimManually, initEigVals1d_ok]
    rfl⟩
  choose t' ht' using ht'
  have h1 := trimmed_fit P _ (fun _ => 1) _ (mp_atom q) (noise_limit P Z hZ T hT2 q hq hq1 hT hr cov) u v huv (mp_increases_at q hq hq1 u hu (by linarith)) (mp_increases_at q hq hq1 v (by linarith) hv)
    N K hN hKN hK hm t' ht'
  have h2 := trimmed_congr _ _ t _ _ _ _ h1 (by
    filter_upwards [hN.eventually_ge_atTop 2] with m hm2
    filter_upwards [noise_vals eigvalsh hs float P Z hZ T hT2 hTn cov tr s h (N m) hm2] with ω hω
    have e1 := ht m ω
    rw [← hω, ht' m ω] at e1
    injection e1)
  exact ⟨h2, nearly_of_fit (fun m => P (N m)) t _ (Eventually.of_forall fun _ => one_pos) u v huv _ (mp_atom q) _ (TrimUni.mp_analytic q hq hu huv hv) b κ he h2⟩

/-- Non-vacuity: noise with twice as many values as series, the eigenvalues between about `1/2` and `2` kept: all hypotheses hold. -/
example : ∃ (P : ℕ → Measure (ℕ → ℝ)) (s : ℕ → (ℕ → ℝ) → SeriesEigs) (T N K : ℕ → ℕ) (Z : ℕ → ℕ → (ℕ → ℝ) → ℝ) (t : ℕ → (ℕ → ℝ) → List ℝ) (b κ : ℝ), 0 < b ∧ b < 1 ∧ (∀ n, NormalDraws (P n) (Z n)) ∧
    (∀ n ≥ 2, ∀ᵐ ω ∂(P n), fromTimeSeries exactRoutine (fun _ => none) (.dim2 n (T n) (noise (Z n) n (T n) ω)) false true (.str "negative") 1 = .ok (s n ω)) ∧
    (∀ m ω, Report.trimManually (s (N m) ω).obj.vals (K m : Int) (K m + m : Int) = .ok (t m ω)) ∧
    TrimmedNearlyUnfolds (fun m => P (N m)) t (fun _ => 1) (ProbabilityTheory.cond (mpLaw (1 / 2)) (Set.Icc (1 / 2) 2)) b κ := by
  obtain ⟨P, Z, T, s, hZ, hT2, hTn, hr, h⟩ := noise_example
  have hP : ∀ n, IsProbabilityMeasure (P n) := fun n => (hZ n).indep.isProbabilityMeasure
  have hs : √(1 / 2 : ℝ) ^ 2 = 1 / 2 := Real.sq_sqrt (by norm_num)
  have h0 : (1 / 2 : ℝ) < √(1 / 2) := Real.lt_sqrt_of_sq_lt (by norm_num)
  have hu : (1 - √(1 / 2 : ℝ)) ^ 2 < 1 / 2 := by nlinarith
  have hv : (2 : ℝ) < (1 + √(1 / 2 : ℝ)) ^ 2 := by nlinarith
  have hp := mp_prob (1 / 2) (by norm_num) (by norm_num)
  obtain ⟨b, κ, hb0, hb1, hκ, he⟩ := C196_error (1 / 2) (by norm_num) (1 / 2) 2 hu (by norm_num) hv
  have hI := TrimLim.icc_real _ (mp_atom (1 / 2)) (1 / 2) 2 (by norm_num)
  have h1 := mp_increases (1 / 2) (by norm_num) (by norm_num) (1 / 2) 2 hu (by norm_num) hv
  obtain ⟨N, K, hN, hKN, hK, hm⟩ := cuts_exist ((mpLaw (1 / 2)).real (Set.Iic (1 / 2))) ((mpLaw (1 / 2)).real (Set.Icc (1 / 2) 2)) measureReal_nonneg (by linarith) (by
    have := cdf_le_one (mpLaw (1 / 2)) 2
    rw [hI, ← cdf_eq_real]
    linarith)
  have ht : ∀ m ω, ∃ w, Report.trimManually (s (N m) ω).obj.vals (K m : Int) (K m + m : Int) = .ok w := fun m ω => ⟨_, by
    rw [Report.trimManually, initEigVals1d_ok]
    rfl⟩
  choose t ht using ht
  exact ⟨P, s, T, N, K, Z, t, b, κ, hb0, hb1, hZ, h, ht,
    (C196_noise exactRoutine exactRoutine_exact _ P Z hZ T hT2 hTn (1 / 2) (by norm_num) (by norm_num) hr false true s h (1 / 2) 2 hu (by norm_num) hv N K hN hKN hK hm t ht b κ he).2⟩

end Props
end RMT
