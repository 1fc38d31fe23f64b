import Verif.Lemmas.TrimUniform
import Verif.Props.ComputedTrimmed

/-! # C195: polynomial unfolding of trimmed spectra is right up to an error that falls geometrically with the degree -/

namespace RMT
namespace Props
open Gen EigValsM EigM Unfold Smooth MeasureTheory ProbabilityTheory Spec Gauss Analytic Filter Topology Semi Helpers Weyl

variable {σ Ω : Type} [MeasurableSpace Ω]

/-- The best polynomials of every degree `d` for the law `μ` are within `K bᵈ` of its distribution function at all energies of `[u, v]`. -/
def ErrorFalls (μ : Measure ℝ) (u v b K : ℝ) : Prop :=
  ∀ d ≥ 1, ∀ q, IsBestPoly μ d q → ∀ x, u ≤ x → x ≤ v → |μ.real (Set.Iic x) - q.eval x| ≤ K * b ^ d

/-- **C195 (semicircle).** On every interval inside the support of the semicircle law, the error of the best polynomials falls geometrically with the degree. -/
theorem C195_semicircle (u v : ℝ) (hu : -2 < u) (huv : u < v) (hv : v < 2) : ∃ b K : ℝ, 0 < b ∧ b < 1 ∧ 0 < K ∧ ErrorFalls (ProbabilityTheory.cond (semicircleLaw 2) (Set.Icc u v)) u v b K := by
  obtain ⟨b, ⟨h0, h1⟩, K, hK, h⟩ := TrimUni.best_uniform (TrimUni.semicircle_analytic u v hu huv hv) huv
  exact ⟨b, K, h0, h1, hK, fun d hd q hq x h2 h3 => h d hd q hq x ⟨h2, h3⟩⟩

/-- **C195 (normal law).** The same for the standard normal law, which Poisson spectra follow, on every interval. -/
theorem C195_normal (u v : ℝ) (huv : u < v) : ∃ b K : ℝ, 0 < b ∧ b < 1 ∧ 0 < K ∧ ErrorFalls (ProbabilityTheory.cond (gaussianReal 0 1) (Set.Icc u v)) u v b K := by
  obtain ⟨b, ⟨h0, h1⟩, K, hK, h⟩ := TrimUni.best_uniform (TrimUni.gaussian_analytic u v huv) huv
  exact ⟨b, K, h0, h1, hK, fun d hd q hq x h2 h3 => h d hd q hq x ⟨h2, h3⟩⟩

/-- What is claimed of `Trimmed.unfold` with a polynomial of degree `d` for the random trimmed spectra `t m` of `m` levels each, with scale `a m`, whose law in the limit is `μ`. -/
structure TrimmedNearlyUnfolds (P : ℕ → Measure Ω) (t : ℕ → Ω → List ℝ) (a : ℕ → ℝ) (μ : Measure ℝ) (b K : ℝ) : Prop where
  /-- every unfolded value, divided by `m`, is within `K bᵈ + ε` of the fraction of levels that the law puts below the level -/
  values : ∀ (F : Fitters ℝ), LeastSquaresFit F → ∀ d : Int, 3 ≤ d → ∀ (ss : PyVal) (ε : ℝ), 0 < ε →
    Tendsto (fun m => P m {ω | ∃ r i, trimmedUnfold F (t m ω) (.method .polynomial) (.int d) ss false = .ok r ∧ i < m ∧ K * b ^ d.toNat + ε ≤ |r.vals.getD i 0 / m - μ.real (Set.Iic ((t m ω).getD i 0 / a m))|}) atTop (𝓝 0)
  /-- the mean spacing is within `2 K bᵈ + ε` of 1 -/
  mean : ∀ (F : Fitters ℝ), LeastSquaresFit F → ∀ d : Int, 3 ≤ d → ∀ (ss : PyVal) (ε : ℝ), 0 < ε →
    Tendsto (fun m => P m {ω | ∃ r, trimmedUnfold F (t m ω) (.method .polynomial) (.int d) ss false = .ok r ∧ 2 * (K * b ^ d.toNat) + ε ≤ |Spec.avg (gaps r.vals) - 1|}) atTop (𝓝 0)

theorem trimmed_nearly (P : ℕ → Measure Ω) [∀ n, IsProbabilityMeasure (P n)] (t : ℕ → Ω → List ℝ) (a : ℕ → ℝ) (hscale : ∀ᶠ m in atTop, 0 < a m) (u v : ℝ) (huv : u < v) (μ : Measure ℝ) [IsProbabilityMeasure μ]
    (h0 : μ.real (Set.Iic u) = 0) (h1 : μ.real (Set.Iic v) = 1) (hbest : ∀ d, ∃ q, IsBestPoly μ d q) (b K : ℝ) (he : ErrorFalls μ u v b K) (h : TrimmedFitLimit P t a u v μ) : TrimmedNearlyUnfolds P t a μ b K := by
  constructor
  · intro F hF d hd ss ε hε
    obtain ⟨q, hq⟩ := hbest d.toNat
    have hd1 : 1 ≤ d.toNat := by omega
    have hcu : ContinuousAt (fun x => q.eval x) u := q.continuous.continuousAt
    have hcv : ContinuousAt (fun x => q.eval x) v := q.continuous.continuousAt
    obtain ⟨ρ1, hρ1, k1⟩ := Metric.continuousAt_iff.mp hcu (ε / 2) (by positivity)
    obtain ⟨ρ2, hρ2, k2⟩ := Metric.continuousAt_iff.mp hcv (ε / 2) (by positivity)
    set ρ := min (ρ1 / 2) (ρ2 / 2) with hρ
    have hρ0 : 0 < ρ := by positivity
    have hE := (h.values F hF d hd ss q hq (ε / 2) (by positivity)).add (h.ends ρ hρ0)
    rw [add_zero] at hE
    have hS : Tendsto (fun m => P m {ω | ¬ ((t m ω).length = m ∧ Ascending (t m ω))}) atTop (𝓝 0) := by
      refine tendsto_const_nhds.congr' ?_
      filter_upwards [h.sorted] with m hm
      exact (ae_iff.1 hm).symm
    have hAB := tendsto_of_tendsto_of_tendsto_of_le_of_le tendsto_const_nhds hE (fun _ => zero_le) fun m => measure_union_le _ _
    have hE := hAB.add hS
    rw [add_zero] at hE
    have hE' := tendsto_of_tendsto_of_tendsto_of_le_of_le tendsto_const_nhds hE (fun _ => zero_le) fun m => measure_union_le _ _
    refine null_of_eventually hE' (hscale.mono fun m han ω hω => ?_)
    obtain ⟨r, i, hr, hi, hle⟩ := hω
    by_contra hcon
    simp only [Set.mem_union, not_or] at hcon
    obtain ⟨⟨hc1, hc2⟩, hc3⟩ := hcon
    have hv : |r.vals.getD i 0 / m - q.eval ((t m ω).getD i 0 / a m)| < ε / 2 := by
      by_contra hn
      exact hc1 ⟨r, i, hr, hi, not_lt.1 hn⟩
    have hu' : |(t m ω).getD 0 0 / a m - u| ≤ ρ := by
      by_contra hn
      exact hc2 (Or.inl (not_le.1 hn))
    have hv' : |(t m ω).getD (m - 1) 0 / a m - v| ≤ ρ := by
      by_contra hn
      exact hc2 (Or.inr (not_le.1 hn))
    obtain ⟨hlen, hasc⟩ : (t m ω).length = m ∧ Ascending (t m ω) := by
      by_contra hn
      exact hc3 hn
    have q1 := div_le_div_of_nonneg_right (TrimLim.asc_getD _ hasc 0 i (by omega) (by omega)) han.le
    have q2 := div_le_div_of_nonneg_right (TrimLim.asc_getD _ hasc i (m - 1) (by omega) (by omega)) han.le
    generalize (t m ω).getD i 0 / a m = x at *
    generalize (t m ω).getD 0 0 / a m = x0 at *
    generalize (t m ω).getD (m - 1) 0 / a m = x1 at *
    generalize r.vals.getD i 0 / (m : ℝ) = z at *
    have hb := he d.toNat hd1 q hq
    have hm1 : ρ ≤ ρ1 / 2 := min_le_left _ _
    have hm2 : ρ ≤ ρ2 / 2 := min_le_right _ _
    rw [abs_le] at hu' hv'
    have hx : |μ.real (Set.Iic x) - q.eval x| < K * b ^ d.toNat + ε / 2 := by
      by_cases hxu : x < u
      · have e : μ.real (Set.Iic x) = μ.real (Set.Iic u) := by
          rw [h0]
          exact le_antisymm ((measureReal_mono (Set.Iic_subset_Iic.2 hxu.le)).trans h0.le) measureReal_nonneg
        have b1 := k1 (x := x) (by
          rw [Real.dist_eq, abs_lt]
          constructor <;> linarith)
        rw [Real.dist_eq] at b1
        have b2 := hb u le_rfl huv.le
        rw [e]
        have := abs_sub_le (μ.real (Set.Iic u)) (q.eval u) (q.eval x)
        rw [abs_sub_comm (q.eval u)] at this
        linarith
      by_cases hxv : v < x
      · have e : μ.real (Set.Iic x) = μ.real (Set.Iic v) := by
          rw [h1]
          exact le_antisymm measureReal_le_one (h1.ge.trans (measureReal_mono (Set.Iic_subset_Iic.2 hxv.le)))
        have b1 := k2 (x := x) (by
          rw [Real.dist_eq, abs_lt]
          constructor <;> linarith)
        rw [Real.dist_eq] at b1
        have b2 := hb v huv.le le_rfl
        rw [e]
        have := abs_sub_le (μ.real (Set.Iic v)) (q.eval v) (q.eval x)
        rw [abs_sub_comm (q.eval v)] at this
        linarith
      · have := hb x (not_lt.1 hxu) (not_lt.1 hxv)
        linarith
    have := abs_sub_le z (q.eval x) (μ.real (Set.Iic x))
    rw [abs_sub_comm (q.eval x)] at this
    linarith
  · intro F hF d hd ss ε hε
    obtain ⟨q, hq⟩ := hbest d.toNat
    have hb := he d.toNat (by omega) q hq
    refine null_of_eventually (h.mean F hF d hd ss q hq ε hε) (Eventually.of_forall fun m ω hω => ?_)
    obtain ⟨r, hr, hle⟩ := hω
    refine ⟨r, hr, ?_⟩
    have b1 := hb u le_rfl huv.le
    have b2 := hb v huv.le le_rfl
    rw [h0] at b1
    rw [h1] at b2
    rw [abs_le] at b1 b2
    have h3 : |(q.eval v - q.eval u) - 1| ≤ 2 * (K * b ^ d.toNat) := by
      rw [abs_le]
      constructor <;> linarith
    have := abs_sub_le (Spec.avg (gaps r.vals)) (q.eval v - q.eval u) 1
    linarith

theorem nearly_of_fit (P : ℕ → Measure Ω) [∀ n, IsProbabilityMeasure (P n)] (t : ℕ → Ω → List ℝ) (a : ℕ → ℝ) (hscale : ∀ᶠ m in atTop, 0 < a m) (u v : ℝ) (huv : u < v) (μ : Measure ℝ) [IsProbabilityMeasure μ]
    (ha : ∀ s, μ {s} = 0) (g : ℝ → ℝ) (hg : TrimUni.AnalyticLaw μ g u v) (b K : ℝ) (he : ErrorFalls (ProbabilityTheory.cond μ (Set.Icc u v)) u v b K)
    (h : TrimmedFitLimit P t a u v (ProbabilityTheory.cond μ (Set.Icc u v))) : TrimmedNearlyUnfolds P t a (ProbabilityTheory.cond μ (Set.Icc u v)) b K := by
  have hw := TrimUni.weight_pos hg huv
  have hne : μ (Set.Icc u v) ≠ 0 := fun h0 => by
    rw [measureReal_def, h0] at hw
    simp at hw
  have : IsProbabilityMeasure (ProbabilityTheory.cond μ (Set.Icc u v)) := cond_isProbabilityMeasure hne
  refine trimmed_nearly P t a hscale u v huv _ ?_ ?_ (fun d => ((C194_degree μ ha u v hne).1 d).exists) b K he h
  · rw [TrimUni.cond_real hg u ⟨le_rfl, huv.le⟩, intervalIntegral.integral_same, mul_zero]
  · rw [TrimUni.cond_real hg v ⟨huv.le, le_rfl⟩, ← TrimUni.law_icc hg u v huv.le le_rfl le_rfl, inv_mul_cancel₀ hw.ne']

/-- **C195 (GOE).** `C194_goe`, with the error of the best polynomials put in: every value of `Trimmed.unfold` is right up to `κ bᵈ m`, and the mean spacing is 1 up to `2 κ bᵈ`, with a probability that tends to 1. -/
theorem C195_goe (R : Rng σ) (eh : EigSolver) (ehC : (n : Nat) → Matrix (Fin n) (Fin n) ℂ → List ℝ) (hs : ExactSolver eh) (P : ℕ → Measure Ω) [∀ n, IsProbabilityMeasure (P n)] (e s : ℕ → Ω → σ)
    (hX : ∀ n, NormalDraws (P n) fun k ω => draw R (s n ω) k) (u v : ℝ) (hu : -2 < u) (huv : u < v) (hv : v < 2) (N K : ℕ → ℕ) (hN : Tendsto N atTop atTop) (hKN : ∀ m, K m + m ≤ N m)
    (hK : Tendsto (fun m => (K m : ℝ) / N m) atTop (𝓝 ((semicircleLaw 2).real (Set.Iic u)))) (hm : Tendsto (fun m : ℕ => (m : ℝ) / N m) atTop (𝓝 ((semicircleLaw 2).real (Set.Icc u v)))) (b κ : ℝ) (he : ErrorFalls (ProbabilityTheory.cond (semicircleLaw 2) (Set.Icc u v)) u v b κ) :
    ∃ vals : ℕ → Ω → List ℝ, (∀ n, GeneratedVals R eh ehC n .goe false (e n) (s n) (vals n)) ∧
      ∀ t : ℕ → Ω → List ℝ, (∀ m ω, Report.trimManually (vals (N m) ω) (K m : Int) (K m + m : Int) = .ok (t m ω)) →
        TrimmedNearlyUnfolds (fun m => P (N m)) t (fun m => √(N m)) (ProbabilityTheory.cond (semicircleLaw 2) (Set.Icc u v)) b κ := by
  obtain ⟨vals, hg, hl⟩ := C194_goe R eh ehC hs P e s hX u v hu huv hv N K hN hKN hK hm
  exact ⟨vals, hg, fun t ht => nearly_of_fit (fun m => P (N m)) t _ ((hN.eventually_gt_atTop 0).mono fun m hm => Real.sqrt_pos.2 (by exact_mod_cast hm)) u v huv _ semicircle_atom dens (TrimUni.semicircle_analytic u v hu huv hv) b κ he (hl t ht)⟩

/-- **C195 (GUE).** The same for `generate(N, "gue")`. -/
theorem C195_gue (R : Rng σ) (eh : EigSolver) (ehC : (n : Nat) → Matrix (Fin n) (Fin n) ℂ → List ℝ) (hs : ExactHermitian ehC) (P : ℕ → Measure Ω) [∀ n, IsProbabilityMeasure (P n)] (e s : ℕ → Ω → σ)
    (hX : ∀ n, NormalDraws (P n) fun k ω => draw R (s n ω) k) (tri : Bool) (u v : ℝ) (hu : -2 < u) (huv : u < v) (hv : v < 2) (N K : ℕ → ℕ) (hN : Tendsto N atTop atTop) (hKN : ∀ m, K m + m ≤ N m)
    (hK : Tendsto (fun m => (K m : ℝ) / N m) atTop (𝓝 ((semicircleLaw 2).real (Set.Iic u)))) (hm : Tendsto (fun m : ℕ => (m : ℝ) / N m) atTop (𝓝 ((semicircleLaw 2).real (Set.Icc u v)))) (b κ : ℝ) (he : ErrorFalls (ProbabilityTheory.cond (semicircleLaw 2) (Set.Icc u v)) u v b κ) :
    ∃ vals : ℕ → Ω → List ℝ, (∀ n, GeneratedVals R eh ehC n .gue tri (e n) (s n) (vals n)) ∧
      ∀ t : ℕ → Ω → List ℝ, (∀ m ω, Report.trimManually (vals (N m) ω) (K m : Int) (K m + m : Int) = .ok (t m ω)) →
        TrimmedNearlyUnfolds (fun m => P (N m)) t (fun m => √(N m)) (ProbabilityTheory.cond (semicircleLaw 2) (Set.Icc u v)) b κ := by
  obtain ⟨vals, hg, hl⟩ := C194_gue R eh ehC hs P e s hX tri u v hu huv hv N K hN hKN hK hm
  exact ⟨vals, hg, fun t ht => nearly_of_fit (fun m => P (N m)) t _ ((hN.eventually_gt_atTop 0).mono fun m hm => Real.sqrt_pos.2 (by exact_mod_cast hm)) u v huv _ semicircle_atom dens (TrimUni.semicircle_analytic u v hu huv hv) b κ he (hl t ht)⟩

/-- **C195 (Poisson).** The same for `generate(N, "poisson")`: trimmed Poisson spectra are unfolded rightly, which whole ones are not. -/
theorem C195_poisson (R : Rng σ) (eh : EigSolver) (ehC : (n : Nat) → Matrix (Fin n) (Fin n) ℂ → List ℝ) (P : ℕ → Measure Ω) [∀ n, IsProbabilityMeasure (P n)] (e s : ℕ → Ω → σ)
    (hX : ∀ n, NormalDraws (P n) fun k ω => draw R (e n ω) k) (tri : Bool) (u v : ℝ) (huv : u < v) (N K : ℕ → ℕ) (hN : Tendsto N atTop atTop) (hKN : ∀ m, K m + m ≤ N m)
    (hK : Tendsto (fun m => (K m : ℝ) / N m) atTop (𝓝 ((gaussianReal 0 1).real (Set.Iic u)))) (hm : Tendsto (fun m : ℕ => (m : ℝ) / N m) atTop (𝓝 ((gaussianReal 0 1).real (Set.Icc u v)))) (b κ : ℝ) (he : ErrorFalls (ProbabilityTheory.cond (gaussianReal 0 1) (Set.Icc u v)) u v b κ) :
    ∃ vals : ℕ → Ω → List ℝ, (∀ n, GeneratedVals R eh ehC n .poisson tri (e n) (s n) (vals n)) ∧
      ∀ t : ℕ → Ω → List ℝ, (∀ m ω, Report.trimManually (vals (N m) ω) (K m : Int) (K m + m : Int) = .ok (t m ω)) →
        TrimmedNearlyUnfolds (fun m => P (N m)) t (fun _ => 1) (ProbabilityTheory.cond (gaussianReal 0 1) (Set.Icc u v)) b κ := by
  obtain ⟨vals, hg, hl⟩ := C194_poisson R eh ehC P e s hX tri u v huv N K hN hKN hK hm
  exact ⟨vals, hg, fun t ht => nearly_of_fit (fun m => P (N m)) t _ (Eventually.of_forall fun _ => one_pos) u v huv _ gaussian_atom _ (TrimUni.gaussian_analytic u v huv) b κ he (hl t ht)⟩

/-- **C195 (tridiagonal).** The same for `generate(N, "goe", use_tridiagonal=True)`. -/
theorem C195_tridiagonal (R : Rng σ) (eh : EigSolver) (ehC : (n : Nat) → Matrix (Fin n) (Fin n) ℂ → List ℝ) (hs : ExactSolver eh)
    (P : Nat → Measure Ω) [∀ n, IsProbabilityMeasure (P n)] (e s : Nat → Ω → σ)
    (hC : ∀ n > 500, ChiSquareDraws (P n) (n - 1) fun k ω => chiDraws R n (s n ω) k) (hZ : ∀ n > 500, NormalDraws (P n) fun k ω => diagDraws R n (s n ω) k)
    (hi : ∀ n > 500, IndepFun (fun ω => chiDraws R n (s n ω)) (fun ω => diagDraws R n (s n ω)) (P n))
    (u v : ℝ) (hu : -2 < u) (huv : u < v) (hv : v < 2) (N K : ℕ → ℕ) (hN : Tendsto N atTop atTop) (hKN : ∀ m, K m + m ≤ N m)
    (hK : Tendsto (fun m => (K m : ℝ) / N m) atTop (𝓝 ((semicircleLaw 2).real (Set.Iic u)))) (hm : Tendsto (fun m : ℕ => (m : ℝ) / N m) atTop (𝓝 ((semicircleLaw 2).real (Set.Icc u v)))) (b κ : ℝ) (he : ErrorFalls (ProbabilityTheory.cond (semicircleLaw 2) (Set.Icc u v)) u v b κ) :
    ∃ vals : ℕ → Ω → List ℝ, (∀ n, GeneratedVals R eh ehC n .goe true (e n) (s n) (vals n)) ∧
      ∀ t : ℕ → Ω → List ℝ, (∀ m ω, Report.trimManually (vals (N m) ω) (K m : Int) (K m + m : Int) = .ok (t m ω)) →
        TrimmedNearlyUnfolds (fun m => P (N m)) t (fun m => √((N m : ℝ) / 2)) (ProbabilityTheory.cond (semicircleLaw 2) (Set.Icc u v)) b κ := by
  obtain ⟨vals, hg, hl⟩ := C194_tridiagonal R eh ehC hs P e s hC hZ hi u v hu huv hv N K hN hKN hK hm
  exact ⟨vals, hg, fun t ht => nearly_of_fit (fun m => P (N m)) t _ ((hN.eventually_gt_atTop 0).mono fun m hm => Real.sqrt_pos.2 (div_pos (by exact_mod_cast hm) two_pos)) u v huv _ semicircle_atom dens (TrimUni.semicircle_analytic u v hu huv hv) b κ he (hl t ht)⟩

/-- **C195 (computed spectra).** The GOE statement with an eigenvalue routine that makes rounding errors. -/
theorem C195_computed (R : Rng σ) (eh : EigSolver) (ehC : (n : Nat) → Matrix (Fin n) (Fin n) ℂ → List ℝ) (δ : (n : ℕ) → Matrix (Fin n) (Fin n) ℝ → ℝ) (hs : BackwardStable eh δ)
    (c : ℕ → ℝ) (hδ : RelativeError δ c) (hc : Tendsto (fun n : ℕ => c n * √n) atTop (𝓝 0))
    (P : ℕ → Measure Ω) [∀ n, IsProbabilityMeasure (P n)] (e s : ℕ → Ω → σ) (hX : ∀ n, NormalDraws (P n) fun k ω => draw R (s n ω) k)
    (u v : ℝ) (hu : -2 < u) (huv : u < v) (hv : v < 2) (N K : ℕ → ℕ) (hN : Tendsto N atTop atTop) (hKN : ∀ m, K m + m ≤ N m)
    (hK : Tendsto (fun m => (K m : ℝ) / N m) atTop (𝓝 ((semicircleLaw 2).real (Set.Iic u)))) (hm : Tendsto (fun m : ℕ => (m : ℝ) / N m) atTop (𝓝 ((semicircleLaw 2).real (Set.Icc u v)))) (b κ : ℝ) (he : ErrorFalls (ProbabilityTheory.cond (semicircleLaw 2) (Set.Icc u v)) u v b κ) :
    ∃ vals : ℕ → Ω → List ℝ, (∀ n, GeneratedVals R eh ehC n .goe false (e n) (s n) (vals n)) ∧
      ∀ t : ℕ → Ω → List ℝ, (∀ m ω, Report.trimManually (vals (N m) ω) (K m : Int) (K m + m : Int) = .ok (t m ω)) →
        TrimmedNearlyUnfolds (fun m => P (N m)) t (fun m => √(N m)) (ProbabilityTheory.cond (semicircleLaw 2) (Set.Icc u v)) b κ := by
  obtain ⟨vals, hg, hl⟩ := C194_computed R eh ehC δ hs c hδ hc P e s hX u v hu huv hv N K hN hKN hK hm
  exact ⟨vals, hg, fun t ht => nearly_of_fit (fun m => P (N m)) t _ ((hN.eventually_gt_atTop 0).mono fun m hm => Real.sqrt_pos.2 (by exact_mod_cast hm)) u v huv _ semicircle_atom dens (TrimUni.semicircle_analytic u v hu huv hv) b κ he (hl t ht)⟩

/-- **C195 (computed spectra).** The GUE statement with an eigenvalue routine that makes rounding errors. -/
theorem C195_computed_gue (R : Rng σ) (eh : EigSolver) (ehC : (n : Nat) → Matrix (Fin n) (Fin n) ℂ → List ℝ) (δ : (n : ℕ) → Matrix (Fin n) (Fin n) ℂ → ℝ) (hs : BackwardStableC ehC δ)
    (c : ℕ → ℝ) (hδ : RelativeErrorC δ c) (hc : Tendsto (fun n : ℕ => c n * √n) atTop (𝓝 0))
    (P : ℕ → Measure Ω) [∀ n, IsProbabilityMeasure (P n)] (e s : ℕ → Ω → σ) (hX : ∀ n, NormalDraws (P n) fun k ω => draw R (s n ω) k) (tri : Bool)
    (u v : ℝ) (hu : -2 < u) (huv : u < v) (hv : v < 2) (N K : ℕ → ℕ) (hN : Tendsto N atTop atTop) (hKN : ∀ m, K m + m ≤ N m)
    (hK : Tendsto (fun m => (K m : ℝ) / N m) atTop (𝓝 ((semicircleLaw 2).real (Set.Iic u)))) (hm : Tendsto (fun m : ℕ => (m : ℝ) / N m) atTop (𝓝 ((semicircleLaw 2).real (Set.Icc u v)))) (b κ : ℝ) (he : ErrorFalls (ProbabilityTheory.cond (semicircleLaw 2) (Set.Icc u v)) u v b κ) :
    ∃ vals : ℕ → Ω → List ℝ, (∀ n, GeneratedVals R eh ehC n .gue tri (e n) (s n) (vals n)) ∧
      ∀ t : ℕ → Ω → List ℝ, (∀ m ω, Report.trimManually (vals (N m) ω) (K m : Int) (K m + m : Int) = .ok (t m ω)) →
        TrimmedNearlyUnfolds (fun m => P (N m)) t (fun m => √(N m)) (ProbabilityTheory.cond (semicircleLaw 2) (Set.Icc u v)) b κ := by
  obtain ⟨vals, hg, hl⟩ := C194_computed_gue R eh ehC δ hs c hδ hc P e s hX tri u v hu huv hv N K hN hKN hK hm
  exact ⟨vals, hg, fun t ht => nearly_of_fit (fun m => P (N m)) t _ ((hN.eventually_gt_atTop 0).mono fun m hm => Real.sqrt_pos.2 (by exact_mod_cast hm)) u v huv _ semicircle_atom dens (TrimUni.semicircle_analytic u v hu huv hv) b κ he (hl t ht)⟩

/-- **C195 (computed spectra).** The tridiagonal statement with an eigenvalue routine that makes rounding errors. -/
theorem C195_computed_tridiagonal (R : Rng σ) (eh : EigSolver) (ehC : (n : Nat) → Matrix (Fin n) (Fin n) ℂ → List ℝ) (δ : (n : ℕ) → Matrix (Fin n) (Fin n) ℝ → ℝ) (hs : BackwardStable eh δ)
    (c : ℕ → ℝ) (hδ : RelativeError δ c) (hc : Tendsto (fun n : ℕ => c n * √n) atTop (𝓝 0))
    (P : ℕ → Measure Ω) [∀ n, IsProbabilityMeasure (P n)] (e s : ℕ → Ω → σ)
    (hC : ∀ n > 500, ChiSquareDraws (P n) (n - 1) fun k ω => chiDraws R n (s n ω) k) (hZ : ∀ n > 500, NormalDraws (P n) fun k ω => diagDraws R n (s n ω) k)
    (hi : ∀ n > 500, IndepFun (fun ω => chiDraws R n (s n ω)) (fun ω => diagDraws R n (s n ω)) (P n))
    (u v : ℝ) (hu : -2 < u) (huv : u < v) (hv : v < 2) (N K : ℕ → ℕ) (hN : Tendsto N atTop atTop) (hKN : ∀ m, K m + m ≤ N m)
    (hK : Tendsto (fun m => (K m : ℝ) / N m) atTop (𝓝 ((semicircleLaw 2).real (Set.Iic u)))) (hm : Tendsto (fun m : ℕ => (m : ℝ) / N m) atTop (𝓝 ((semicircleLaw 2).real (Set.Icc u v)))) (b κ : ℝ) (he : ErrorFalls (ProbabilityTheory.cond (semicircleLaw 2) (Set.Icc u v)) u v b κ) :
    ∃ vals : ℕ → Ω → List ℝ, (∀ n, GeneratedVals R eh ehC n .goe true (e n) (s n) (vals n)) ∧
      ∀ t : ℕ → Ω → List ℝ, (∀ m ω, Report.trimManually (vals (N m) ω) (K m : Int) (K m + m : Int) = .ok (t m ω)) →
        TrimmedNearlyUnfolds (fun m => P (N m)) t (fun m => √((N m : ℝ) / 2)) (ProbabilityTheory.cond (semicircleLaw 2) (Set.Icc u v)) b κ := by
  obtain ⟨vals, hg, hl⟩ := C194_computed_tridiagonal R eh ehC δ hs c hδ hc P e s hC hZ hi u v hu huv hv N K hN hKN hK hm
  exact ⟨vals, hg, fun t ht => nearly_of_fit (fun m => P (N m)) t _ ((hN.eventually_gt_atTop 0).mono fun m hm => Real.sqrt_pos.2 (div_pos (by exact_mod_cast hm) two_pos)) u v huv _ semicircle_atom dens (TrimUni.semicircle_analytic u v hu huv hv) b κ he (hl t ht)⟩

/-- Non-vacuity: the stream of independent normal numbers, the exact routine, the levels between `-√N` and `√N` kept, and constants that exist by `C195_semicircle`: all hypotheses hold. -/
example : ∃ b K : ℝ, 0 < b ∧ b < 1 ∧ 0 < K ∧ ∃ N K' : ℕ → ℕ, ∃ vals : ℕ → (ℕ → ℝ) → List ℝ, (∀ n, GeneratedVals streamRng exactRoutine (fun _ _ => []) n .goe false id id (vals n)) ∧ ∃ t : ℕ → (ℕ → ℝ) → List ℝ,
    (∀ m ω, Report.trimManually (vals (N m) ω) (K' m : Int) (K' m + m : Int) = .ok (t m ω)) ∧
      TrimmedNearlyUnfolds (fun _ => Measure.infinitePi fun _ : ℕ => gaussianReal 0 1) t (fun m => √(N m)) (ProbabilityTheory.cond (semicircleLaw 2) (Set.Icc (-1) 1)) b K := by
  obtain ⟨b, K, hb0, hb1, hK0, he⟩ := C195_semicircle (-1) 1 (by norm_num) (by norm_num) (by norm_num)
  have hI := TrimLim.icc_real _ semicircle_atom (-1) 1 (by norm_num)
  have h1 := (semicircle_increases (-1) (by norm_num) (by norm_num) 2 (by norm_num)).2
  rw [show (-1 : ℝ) + 2 = 1 by norm_num] at h1
  obtain ⟨N, K', hN, hKN, hK, hm⟩ := cuts_exist ((semicircleLaw 2).real (Set.Iic (-1))) ((semicircleLaw 2).real (Set.Icc (-1) 1)) measureReal_nonneg (by linarith) (by
    have := cdf_le_one (semicircleLaw 2) 1
    rw [hI, ← cdf_eq_real]
    linarith)
  obtain ⟨vals, hg, hlim⟩ := C195_goe streamRng exactRoutine (fun _ _ => []) exactRoutine_exact (fun _ => Measure.infinitePi fun _ : ℕ => gaussianReal 0 1) (fun _ => id) (fun _ => id) (fun _ => stream_draws) (-1) 1
    (by norm_num) (by norm_num) (by norm_num) N K' hN hKN hK hm b K he
  have ht : ∀ m ω, ∃ w, Report.trimManually (vals (N m) ω) (K' m : Int) (K' m + m : Int) = .ok w := fun m ω => ⟨_, by
    rw [Report.trimManually, initEigVals1d_ok]
    rfl⟩
  choose t ht using ht
  exact ⟨b, K, hb0, hb1, hK0, N, K', vals, hg, t, ht, hlim t ht⟩

end Props
end RMT
