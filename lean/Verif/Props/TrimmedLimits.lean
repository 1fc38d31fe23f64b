import Verif.Lemmas.TrimLimit
import Verif.Props.PolyMeanLimit
import Verif.Props.Eigenvalues

/-!
# Property C194: polynomial unfolding of trimmed spectra
-/

namespace RMT
namespace Props
open Gen EigValsM EigM Unfold Smooth MeasureTheory ProbabilityTheory Spec Gauss Analytic Filter Topology Semi

variable {σ Ω : Type} [MeasurableSpace Ω]

/-- What is claimed of `Trimmed.unfold` with a polynomial for the random trimmed spectra `t m` of `m` levels each, with scale `a m`, whose law in the limit is `μ`, on `[u, v]`. -/
structure TrimmedFitLimit (P : ℕ → Measure Ω) (t : ℕ → Ω → List ℝ) (a : ℕ → ℝ) (u v : ℝ) (μ : Measure ℝ) : Prop where
  /-- every unfolded value, divided by `m`, is near the best polynomial at the level -/
  values : ∀ (F : Fitters ℝ), LeastSquaresFit F → ∀ d : Int, 3 ≤ d → ∀ (ss : PyVal) (q : Polynomial ℝ), IsBestPoly μ d.toNat q → ∀ ε : ℝ, 0 < ε →
    Tendsto (fun m => P m {ω | ∃ r i, trimmedUnfold F (t m ω) (.method .polynomial) (.int d) ss false = .ok r ∧ i < m ∧ ε ≤ |r.vals.getD i 0 / m - q.eval ((t m ω).getD i 0 / a m)|}) atTop (𝓝 0)
  /-- `m` levels are kept, in ascending order -/
  sorted : ∀ᶠ m in atTop, ∀ᵐ ω ∂(P m), (t m ω).length = m ∧ Ascending (t m ω)
  /-- the first and the last level kept are near `u` and `v` -/
  ends : ∀ ρ : ℝ, 0 < ρ → Tendsto (fun m => P m {ω | ρ < |(t m ω).getD 0 0 / a m - u| ∨ ρ < |(t m ω).getD (m - 1) 0 / a m - v|}) atTop (𝓝 0)
  /-- the mean spacing is near the rise of the best polynomial from `u` to `v` -/
  mean : ∀ (F : Fitters ℝ), LeastSquaresFit F → ∀ d : Int, 3 ≤ d → ∀ (ss : PyVal) (q : Polynomial ℝ), IsBestPoly μ d.toNat q → ∀ ε : ℝ, 0 < ε →
    Tendsto (fun m => P m {ω | ∃ r, trimmedUnfold F (t m ω) (.method .polynomial) (.int d) ss false = .ok r ∧ ε ≤ |Spec.avg (gaps r.vals) - (q.eval v - q.eval u)|}) atTop (𝓝 0)

theorem trimmed_poly (F : Fitters ℝ) (hF : LeastSquaresFit F) (w : List ℝ) (d : Int) (ss : PyVal) (r : Unfolded ℝ) (h : trimmedUnfold F w (.method .polynomial) (.int d) ss false = .ok r) :
    ∃ c, IsPolyLS c (npSort w) (counts w.length) d.toNat ∧ r.vals = (npSort w).map (polyAt c) := by
  simp only [trimmedUnfold, validate, Bind.bind, Except.bind, fit, validateArgs, PyVal.asInt, mkUnfolded_eq] at h
  have hl : (npSort w).length = w.length := (npSort_perm w).length_eq
  by_cases hd : d < 3
  · simp [hd] at h
  simp only [hd, if_false, hl] at h
  rcases hc : F.polyfit (npSort w) (stepsOf w.length) d with e | c
  · simp [hc] at h
  simp only [hc] at h
  cases h
  have hp : polyval c = polyAt c := funext fun x => polyval_eq_polyAt c x
  exact ⟨c, hF _ _ _ _ (by omega) hc, by simp [hp]⟩

/-- Close coefficients give close values on `[-B, B]`. -/
theorem poly_near (d : ℕ) (c : List ℝ) (hc : c.length = d + 1) (q : Polynomial ℝ) (hq : q.natDegree ≤ d) (a n δ B : ℝ) (hB : 1 ≤ B) (h : ∑ j : Fin (d + 1), |c.getD j 0 * a ^ (j : ℕ) / n - q.coeff j| ≤ δ) (x : ℝ) (hx : |x| ≤ B) :
    |polyAt c (x * a) / n - q.eval x| ≤ δ * B ^ d := by
  have e1 : polyAt c (x * a) / n = ∑ j : Fin (d + 1), c.getD j 0 * a ^ (j : ℕ) / n * x ^ (j : ℕ) := by
    rw [polyAt, hc, Finset.sum_range, Finset.sum_div]
    refine Finset.sum_congr rfl fun j _ => ?_
    rw [mul_pow]
    ring
  have e2 : q.eval x = ∑ j : Fin (d + 1), q.coeff j * x ^ (j : ℕ) := by
    rw [Polynomial.eval_eq_sum_range' (lt_of_le_of_lt hq (Nat.lt_succ_self _)), Finset.sum_range]
  rw [e1, e2, ← Finset.sum_sub_distrib]
  refine (Finset.abs_sum_le_sum_abs _ _).trans ?_
  refine le_trans (Finset.sum_le_sum fun j _ => ?_) (by rw [← Finset.sum_mul]; exact mul_le_mul_of_nonneg_right h (by positivity))
  rw [← sub_mul, abs_mul, abs_pow]
  refine mul_le_mul_of_nonneg_left ?_ (abs_nonneg _)
  calc |x| ^ (j : ℕ) ≤ B ^ (j : ℕ) := pow_le_pow_left₀ (abs_nonneg _) hx _
    _ ≤ B ^ d := pow_le_pow_right₀ hB (by omega)

/-- The general statement. -/
theorem trimmed_fit (P : ℕ → Measure Ω) [∀ n, IsProbabilityMeasure (P n)] (l : ℕ → Ω → List ℝ) (a : ℕ → ℝ) (μ : Measure ℝ) [IsProbabilityMeasure μ] (ha : ∀ s, μ {s} = 0) (h : PolyLim.SpectralLimit P l a μ)
    (u v : ℝ) (huv : u < v) (hu : ∀ ε > 0, cdf μ (u - ε) < cdf μ u ∧ cdf μ u < cdf μ (u + ε)) (hv : ∀ ε > 0, cdf μ (v - ε) < cdf μ v ∧ cdf μ v < cdf μ (v + ε))
    (N K : ℕ → ℕ) (hN : Tendsto N atTop atTop) (hKN : ∀ m, K m + m ≤ N m)
    (hK : Tendsto (fun m => (K m : ℝ) / N m) atTop (𝓝 (cdf μ u))) (hm : Tendsto (fun m : ℕ => (m : ℝ) / N m) atTop (𝓝 (cdf μ v - cdf μ u)))
    (t : ℕ → Ω → List ℝ) (ht : ∀ m ω, Report.trimManually (l (N m) ω) (K m : Int) (K m + m : Int) = .ok (t m ω)) :
    TrimmedFitLimit (fun m => P (N m)) t (fun m => a (N m)) u v (ProbabilityTheory.cond μ (Set.Icc u v)) := by
  have hu0 : 0 < cdf μ u := lt_of_le_of_lt (cdf_nonneg μ _) (hu 1 one_pos).1
  have hv1 : cdf μ v < 1 := lt_of_lt_of_le (hv 1 one_pos).2 (cdf_le_one μ _)
  have hlt : cdf μ u < cdf μ v := by
    have := (hu (v - u) (by linarith)).2
    rwa [add_sub_cancel] at this
  have hslice : ∀ m ω, t m ω = ((l (N m) ω).drop (K m)).take m := fun m ω => by
    obtain ⟨h1, h2⟩ := h.sorted (N m) ω
    have hb := hKN m
    obtain ⟨w, e1, e2, -, e4⟩ := C40_ordinary (l (N m) ω) h2 (K m) (K m + m) (by omega) (by omega)
    have e0 := ht m ω
    rw [show ((K m : Int) + m) = ((K m + m : ℕ) : Int) by push_cast; rfl, e1] at e0
    injection e0 with e0
    rw [← e0]
    refine List.ext_getElem? fun i => ?_
    by_cases hi : i < m
    · rw [e4 i (by omega), List.getElem?_take, if_pos hi, List.getElem?_drop]
    · rw [List.getElem?_eq_none (by omega), List.getElem?_eq_none]
      rw [List.length_take]
      omega
  have hlim := TrimLim.trimmed_limit μ P l a ha h u v hu0 hlt hv1 N K hN hKN hK hm
  have hprob := (TrimLim.cond_cdf μ ha u v hlt).1
  have hends := TrimLim.trimmed_ends μ P l a h u v hu hv N K hN hKN hK hm
  simp only [← hslice] at hlim hends
  -- with probability tending to 1, all values are right
  have main : ∀ (F : Fitters ℝ), LeastSquaresFit F → ∀ d : Int, 3 ≤ d → ∀ (ss : PyVal) (q : Polynomial ℝ), IsBestPoly (ProbabilityTheory.cond μ (Set.Icc u v)) d.toNat q → ∀ ε : ℝ, 0 < ε → ∀ ρ : ℝ, 0 < ρ → ρ ≤ 1 →
      ∃ E : ℕ → Set Ω, Tendsto (fun m => P (N m) (E m)) atTop (𝓝 0) ∧ ∀ᶠ m in atTop, ∀ ω, ω ∉ E m → ∀ r, trimmedUnfold F (t m ω) (.method .polynomial) (.int d) ss false = .ok r →
        r.vals.length = m ∧ (∀ i < m, |r.vals.getD i 0 / m - q.eval ((t m ω).getD i 0 / a (N m))| < ε) ∧
        |(t m ω).getD 0 0 / a (N m) - u| ≤ ρ ∧ |(t m ω).getD (m - 1) 0 / a (N m) - v| ≤ ρ := by
    intro F hF d hd ss q hq ε hε ρ hρ hρ1
    set B := max |u| |v| + 1 with hB
    have hB1 : 1 ≤ B := by
      have : 0 ≤ max |u| |v| := (abs_nonneg u).trans (le_max_left _ _)
      linarith
    obtain ⟨E1, hE1, g1⟩ := PolyLim.ls_limit (fun m => P (N m)) t (fun m => a (N m)) (ProbabilityTheory.cond μ (Set.Icc u v)) (TrimLim.cond_atom μ ha u v) (TrimLim.cond_pow μ ha u v hlt) hlim d.toNat q hq.1
      (fun p hp => by
        rw [← cdfError_eq, ← cdfError_eq]
        exact hq.2 p hp) (ε / (2 * B ^ d.toNat)) (by positivity)
    obtain ⟨E2, hE2, g2⟩ := hends ρ hρ
    have hE := hE1.add hE2
    rw [add_zero] at hE
    refine ⟨fun m => E1 m ∪ E2 m, tendsto_of_tendsto_of_tendsto_of_le_of_le tendsto_const_nhds hE (fun _ => zero_le) fun m => measure_union_le _ _, ?_⟩
    filter_upwards [g1, g2, hlim.scale, eventually_ge_atTop 1] with m e1 e2 han hm1 ω hω r hr
    have hω1 : ω ∉ E1 m := fun hh => hω (Or.inl hh)
    have hω2 : ω ∉ E2 m := fun hh => hω (Or.inr hh)
    obtain ⟨hlen, hasc⟩ := hlim.sorted m ω
    obtain ⟨c, hc, hvals⟩ := trimmed_poly F hF (t m ω) d ss r hr
    rw [npSort_of_ascending _ hasc] at hc hvals
    rw [hlen] at hc
    obtain ⟨p1, p2, p3, p4⟩ := e2 ω hω2
    have hco := (e1 ω hω1 c hc).1
    refine ⟨by rw [hvals, List.length_map, hlen], fun i hi => ?_, abs_le.mpr ⟨by linarith, by linarith⟩, abs_le.mpr ⟨by linarith, by linarith⟩⟩
    have hx : |(t m ω).getD i 0 / a (N m)| ≤ B := by
      have q1 := div_le_div_of_nonneg_right (TrimLim.asc_getD _ hasc 0 i (by omega) (by omega)) han.le
      have q2 := div_le_div_of_nonneg_right (TrimLim.asc_getD _ hasc i (m - 1) (by omega) (by omega)) han.le
      have q3 := neg_abs_le u
      have q4 := le_abs_self v
      have q5 := le_max_left |u| |v|
      have q6 := le_max_right |u| |v|
      rw [abs_le]
      constructor <;> linarith
    have hn := poly_near d.toNat c hc.1 q hq.1 (a (N m)) m _ B hB1 hco _ hx
    rw [div_mul_cancel₀ _ han.ne'] at hn
    have hv : r.vals.getD i 0 = polyAt c ((t m ω).getD i 0) := by
      rw [hvals, List.getD_eq_getElem _ _ (by rw [List.length_map]; omega), List.getElem_map, List.getD_eq_getElem _ _ (by omega)]
    rw [hv]
    have e4 : ε / (2 * B ^ d.toNat) * B ^ d.toNat = ε / 2 := by
      have : B ^ d.toNat ≠ 0 := by positivity
      field_simp
    linarith
  constructor
  · intro F hF d hd ss q hq ε hε
    obtain ⟨E, hE, g⟩ := main F hF d hd ss q hq ε hε 1 one_pos le_rfl
    refine null_of_eventually hE (g.mono fun m hm ω hω => ?_)
    obtain ⟨r, i, hr, hi, hle⟩ := hω
    by_contra hcon
    exact absurd ((hm ω hcon r hr).2.1 i hi) (not_lt.mpr hle)
  · exact Eventually.of_forall fun m => Eventually.of_forall fun ω => hlim.sorted m ω
  · intro ρ hρ
    obtain ⟨E, hE, g⟩ := hends ρ hρ
    refine null_of_eventually hE (g.mono fun m hm ω hω => ?_)
    by_contra hcon
    obtain ⟨p1, p2, p3, p4⟩ := hm ω hcon
    rcases hω with h1 | h1
    · exact absurd (abs_le.mpr ⟨by linarith, by linarith⟩) (not_le.mpr h1)
    · exact absurd (abs_le.mpr ⟨by linarith, by linarith⟩) (not_le.mpr h1)
  · intro F hF d hd ss q hq ε hε
    have hcu : ContinuousAt (fun x => q.eval x) u := q.continuous.continuousAt
    have hcv : ContinuousAt (fun x => q.eval x) v := q.continuous.continuousAt
    obtain ⟨ρ1, hρ1, k1⟩ := Metric.continuousAt_iff.mp hcu (ε / 16) (by positivity)
    obtain ⟨ρ2, hρ2, k2⟩ := Metric.continuousAt_iff.mp hcv (ε / 16) (by positivity)
    set ρ := min 1 (min (ρ1 / 2) (ρ2 / 2)) with hρ
    have hρ0 : 0 < ρ := by positivity
    obtain ⟨E, hE, g⟩ := main F hF d hd ss q hq (ε / 16) (by positivity) ρ hρ0 (min_le_left _ _)
    have hlarge : ∀ᶠ m : ℕ in atTop, (|q.eval v - q.eval u| + ε) * 4 / ε + 2 ≤ m := (tendsto_natCast_atTop_atTop (R := ℝ)).eventually_ge_atTop _
    refine null_of_eventually hE ((g.and hlarge).mono fun m hm ω hω => ?_)
    obtain ⟨hm, hbig⟩ := hm
    obtain ⟨r, hr, hle⟩ := hω
    by_contra hcon
    obtain ⟨hl, hval, hu', hv'⟩ := hm ω hcon r hr
    have hm2 : (2 : ℝ) ≤ m := by
      have : 0 ≤ (|q.eval v - q.eval u| + ε) * 4 / ε := by positivity
      linarith
    have hm2' : 2 ≤ m := by exact_mod_cast hm2
    have a1 := hval 0 (by omega)
    have a2 := hval (m - 1) (by omega)
    have b1 := k1 (x := (t m ω).getD 0 0 / a (N m)) (by
      rw [Real.dist_eq]
      have := min_le_right 1 (min (ρ1 / 2) (ρ2 / 2))
      have := min_le_left (ρ1 / 2) (ρ2 / 2)
      linarith)
    have b2 := k2 (x := (t m ω).getD (m - 1) 0 / a (N m)) (by
      rw [Real.dist_eq]
      have := min_le_right 1 (min (ρ1 / 2) (ρ2 / 2))
      have := min_le_right (ρ1 / 2) (ρ2 / 2)
      linarith)
    rw [Real.dist_eq] at b1 b2
    rw [avg_gaps r.vals m hl (by omega)] at hle
    generalize r.vals.getD 0 0 = z0 at *
    generalize r.vals.getD (m - 1) 0 = z1 at *
    generalize q.eval ((t m ω).getD 0 0 / a (N m)) = w0 at *
    generalize q.eval ((t m ω).getD (m - 1) 0 / a (N m)) = w1 at *
    generalize q.eval u = U at *
    generalize q.eval v = V at *
    have hmp : (0 : ℝ) < m := by linarith
    have hm1 : (0 : ℝ) < m - 1 := by linarith
    have hA : |z1 / m - z0 / m - (V - U)| ≤ ε / 4 := by
      rw [abs_lt] at a1 a2 b1 b2
      rw [abs_le]
      constructor <;> linarith
    have hid : (z1 - z0) / ((m : ℝ) - 1) - (V - U) = (z1 / m - z0 / m - (V - U)) * (m / (m - 1)) + (V - U) / (m - 1) := by
      field_simp
      ring
    rw [hid] at hle
    have h1 : |(z1 / m - z0 / m - (V - U)) * ((m : ℝ) / (m - 1))| ≤ ε / 4 * 2 := by
      rw [abs_mul, abs_of_pos (div_pos hmp hm1)]
      refine mul_le_mul hA ?_ (div_pos hmp hm1).le (by positivity)
      rw [div_le_iff₀ hm1]
      linarith
    have h2 : |(V - U) / ((m : ℝ) - 1)| < ε / 4 := by
      rw [abs_div, abs_of_pos hm1, div_lt_iff₀ hm1]
      have h3 : (|V - U| + ε) * 4 / ε ≤ (m : ℝ) - 2 := by linarith
      rw [div_le_iff₀ hε] at h3
      nlinarith [abs_nonneg (V - U)]
    have h3 := hle.trans (abs_add_le _ _)
    linarith

theorem semicircle_increases (u : ℝ) (h1 : -2 < u) (h2 : u < 2) : ∀ ε > 0, cdf (semicircleLaw 2) (u - ε) < cdf (semicircleLaw 2) u ∧ cdf (semicircleLaw 2) u < cdf (semicircleLaw 2) (u + ε) := fun ε hε => by
  have hF : ∀ x, cdf (semicircleLaw 2) x = Semi.F x := fun x => cdf_eq_real _ _
  constructor
  · refine lt_of_le_of_lt (monotone_cdf _ (le_max_left (u - ε) (-2))) ?_
    rw [hF, hF]
    exact F_strict ⟨le_max_right _ _, max_le (by linarith) (by norm_num)⟩ ⟨h1.le, h2.le⟩ (max_lt (by linarith) h1)
  · refine lt_of_lt_of_le ?_ (monotone_cdf _ (min_le_left (u + ε) 2))
    rw [hF, hF]
    exact F_strict ⟨h1.le, h2.le⟩ ⟨le_min (by linarith) (by norm_num), min_le_right _ _⟩ (lt_min (by linarith) h2)

theorem gaussian_increases (x y : ℝ) (h : x < y) : cdf (gaussianReal 0 1) x < cdf (gaussianReal 0 1) y := by
  have h1 := TrimLim.icc_real (gaussianReal 0 1) gaussian_atom x y h.le
  have h2 : gaussianReal 0 1 (Set.Icc x y) ≠ 0 := fun h0 => by
    have := gaussianReal_absolutelyContinuous' 0 (v := 1) one_ne_zero h0
    rw [Real.volume_Icc, ENNReal.ofReal_eq_zero] at this
    linarith
  have h3 : 0 < (gaussianReal 0 1).real (Set.Icc x y) := ENNReal.toReal_pos h2 (measure_ne_top _ _)
  linarith

/-- **C194 (GOE).** Let `generate(N, "goe")` be run for every size with independent standard normal draws and an exact eigenvalue routine, and let `trim_manually(K, K + m)` keep `m` of the `N = N m` levels, so that as `m` grows the fraction `K / N` cut off below tends to the weight of the
semicircle law below `u`, and the fraction `m / N` kept to its weight on `[u, v]`, for `-2 < u < v < 2`. Then for every degree from 3 on and every least-squares routine: each value of `Trimmed.unfold`, divided by `m`, is uniformly near the best polynomial (in the mean square) for the distribution
function of the semicircle law conditioned on `[u, v]`, at the energy divided by `√N`, and the mean spacing tends to the rise of this polynomial from `u` to `v`, both in probability. -/
theorem C194_goe (R : Rng σ) (eh : EigSolver) (ehC : (n : Nat) → Matrix (Fin n) (Fin n) ℂ → List ℝ) (hs : ExactSolver eh) (P : ℕ → Measure Ω) [∀ n, IsProbabilityMeasure (P n)] (e s : ℕ → Ω → σ)
    (hX : ∀ n, NormalDraws (P n) fun k ω => draw R (s n ω) k) (u v : ℝ) (hu : -2 < u) (huv : u < v) (hv : v < 2) (N K : ℕ → ℕ) (hN : Tendsto N atTop atTop) (hKN : ∀ m, K m + m ≤ N m)
    (hK : Tendsto (fun m => (K m : ℝ) / N m) atTop (𝓝 ((semicircleLaw 2).real (Set.Iic u)))) (hm : Tendsto (fun m : ℕ => (m : ℝ) / N m) atTop (𝓝 ((semicircleLaw 2).real (Set.Icc u v)))) :
    ∃ vals : ℕ → Ω → List ℝ, (∀ n, GeneratedVals R eh ehC n .goe false (e n) (s n) (vals n)) ∧
      ∀ t : ℕ → Ω → List ℝ, (∀ m ω, Report.trimManually (vals (N m) ω) (K m : Int) (K m + m : Int) = .ok (t m ω)) →
        TrimmedFitLimit (fun m => P (N m)) t (fun m => √(N m)) u v (ProbabilityTheory.cond (semicircleLaw 2) (Set.Icc u v)) := by
  rw [TrimLim.icc_real _ semicircle_atom u v huv.le] at hm
  rw [← cdf_eq_real] at hK
  refine ⟨fun n ω => full eh (fun k ω => draw R (s n ω) k) n ω, fun n ω => ?_, fun t ht => ?_⟩
  · have := (C49_values R eh ehC n none false (e n ω) (s n ω)).1
    rwa [goe_full_draws] at this
  · exact trimmed_fit P _ (fun n => √n) _ semicircle_atom (full_limit eh hs P _ hX) u v huv (semicircle_increases u hu (by linarith)) (semicircle_increases v (by linarith) hv) N K hN hKN hK hm t ht

/-- **C194 (GUE).** The same for `generate(N, "gue")`. -/
theorem C194_gue (R : Rng σ) (eh : EigSolver) (ehC : (n : Nat) → Matrix (Fin n) (Fin n) ℂ → List ℝ) (hs : ExactHermitian ehC) (P : ℕ → Measure Ω) [∀ n, IsProbabilityMeasure (P n)] (e s : ℕ → Ω → σ)
    (hX : ∀ n, NormalDraws (P n) fun k ω => draw R (s n ω) k) (tri : Bool) (u v : ℝ) (hu : -2 < u) (huv : u < v) (hv : v < 2) (N K : ℕ → ℕ) (hN : Tendsto N atTop atTop) (hKN : ∀ m, K m + m ≤ N m)
    (hK : Tendsto (fun m => (K m : ℝ) / N m) atTop (𝓝 ((semicircleLaw 2).real (Set.Iic u)))) (hm : Tendsto (fun m : ℕ => (m : ℝ) / N m) atTop (𝓝 ((semicircleLaw 2).real (Set.Icc u v)))) :
    ∃ vals : ℕ → Ω → List ℝ, (∀ n, GeneratedVals R eh ehC n .gue tri (e n) (s n) (vals n)) ∧
      ∀ t : ℕ → Ω → List ℝ, (∀ m ω, Report.trimManually (vals (N m) ω) (K m : Int) (K m + m : Int) = .ok (t m ω)) →
        TrimmedFitLimit (fun m => P (N m)) t (fun m => √(N m)) u v (ProbabilityTheory.cond (semicircleLaw 2) (Set.Icc u v)) := by
  rw [TrimLim.icc_real _ semicircle_atom u v huv.le] at hm
  rw [← cdf_eq_real] at hK
  refine ⟨fun n ω => fullC ehC (fun k ω => draw R (s n ω) k) n ω, fun n ω => ?_, fun t ht => ?_⟩
  · have := (C49_values R eh ehC n none tri (e n ω) (s n ω)).2.1
    rwa [gue_draws] at this
  · exact trimmed_fit P _ (fun n => √n) _ semicircle_atom (gue_limit ehC hs P _ hX) u v huv (semicircle_increases u hu (by linarith)) (semicircle_increases v (by linarith) hv) N K hN hKN hK hm t ht

/-- **C194 (Poisson).** The same for `generate(N, "poisson")`, whose levels follow the standard normal law: once a fraction of the levels is cut off at each end, the mean spacing has a finite limit, which it has not for the full spectrum (C183). -/
theorem C194_poisson (R : Rng σ) (eh : EigSolver) (ehC : (n : Nat) → Matrix (Fin n) (Fin n) ℂ → List ℝ) (P : ℕ → Measure Ω) [∀ n, IsProbabilityMeasure (P n)] (e s : ℕ → Ω → σ)
    (hX : ∀ n, NormalDraws (P n) fun k ω => draw R (e n ω) k) (tri : Bool) (u v : ℝ) (huv : u < v) (N K : ℕ → ℕ) (hN : Tendsto N atTop atTop) (hKN : ∀ m, K m + m ≤ N m)
    (hK : Tendsto (fun m => (K m : ℝ) / N m) atTop (𝓝 ((gaussianReal 0 1).real (Set.Iic u)))) (hm : Tendsto (fun m : ℕ => (m : ℝ) / N m) atTop (𝓝 ((gaussianReal 0 1).real (Set.Icc u v)))) :
    ∃ vals : ℕ → Ω → List ℝ, (∀ n, GeneratedVals R eh ehC n .poisson tri (e n) (s n) (vals n)) ∧
      ∀ t : ℕ → Ω → List ℝ, (∀ m ω, Report.trimManually (vals (N m) ω) (K m : Int) (K m + m : Int) = .ok (t m ω)) →
        TrimmedFitLimit (fun m => P (N m)) t (fun _ => 1) u v (ProbabilityTheory.cond (gaussianReal 0 1) (Set.Icc u v)) := by
  rw [TrimLim.icc_real _ gaussian_atom u v huv.le] at hm
  rw [← cdf_eq_real] at hK
  refine ⟨fun n ω => poissonVals R (e n) n ω, fun n => poissonVals_generated R eh ehC (e n) (s n) n tri, fun t ht => ?_⟩
  exact trimmed_fit P _ (fun _ => 1) _ gaussian_atom (poisson_limit R P e hX) u v huv (fun ε hε => ⟨gaussian_increases _ _ (by linarith), gaussian_increases _ _ (by linarith)⟩)
    (fun ε hε => ⟨gaussian_increases _ _ (by linarith), gaussian_increases _ _ (by linarith)⟩) N K hN hKN hK hm t ht

/-- **C194 (degrees).** For every law without atoms, between any two energies with levels in between there is exactly one best polynomial of each degree, and its mean square error tends to 0 as the degree grows. In particular this holds for the normal law of Poisson spectra. -/
theorem C194_degree (μ : Measure ℝ) [IsProbabilityMeasure μ] (ha : ∀ s, μ {s} = 0) (u v : ℝ) (h : μ (Set.Icc u v) ≠ 0) :
    (∀ d, ∃! q, IsBestPoly (ProbabilityTheory.cond μ (Set.Icc u v)) d q) ∧
      ∀ ε > 0, ∃ d0 : ℕ, ∀ d ≥ d0, ∀ q, IsBestPoly (ProbabilityTheory.cond μ (Set.Icc u v)) d q → cdfError (ProbabilityTheory.cond μ (Set.Icc u v)) q < ε := by
  have huv : u ≤ v := by
    by_contra hcon
    rw [Set.Icc_eq_empty hcon, measure_empty] at h
    exact h rfl
  have hlt : cdf μ u < cdf μ v := by
    have h1 := TrimLim.icc_real μ ha u v huv
    have h2 : 0 < μ.real (Set.Icc u v) := ENNReal.toReal_pos h (measure_ne_top _ _)
    linarith
  have hp := (TrimLim.cond_cdf μ ha u v hlt).1
  have hat := TrimLim.cond_atom μ ha u v
  refine ⟨fun d => best_exists _ hat (TrimLim.cond_pow μ ha u v hlt) d, fun ε hε => ?_⟩
  set ν := ProbabilityTheory.cond μ (Set.Icc u v) with hν
  obtain ⟨p, hpn⟩ := exists_polynomial_near_of_continuousOn u v (cdf ν) (BrodyC.cdf_continuous hat).continuousOn (min 1 (ε / 2)) (by positivity)
  refine ⟨p.natDegree, fun d hd q hq => lt_of_le_of_lt (hq.2 p hd) ?_⟩
  have h1 : cdfError ν p ≤ ∫ _, ε / 2 ∂ν := by
    rw [cdfError_eq]
    refine integral_mono_of_nonneg (Eventually.of_forall fun x => sq_nonneg _) (integrable_const _) ?_
    filter_upwards [TrimLim.cond_mem μ u v] with x hx
    have h3 : |cdf ν x - p.eval x| ≤ min 1 (ε / 2) := by rw [abs_sub_comm]; exact (hpn x hx).le
    rw [← sq_abs]
    have h4 : |cdf ν x - p.eval x| ≤ 1 := h3.trans (min_le_left _ _)
    have h5 : |cdf ν x - p.eval x| ≤ ε / 2 := h3.trans (min_le_right _ _)
    nlinarith [abs_nonneg (cdf ν x - p.eval x)]
  rw [integral_const] at h1
  simp only [probReal_univ, one_smul] at h1
  linarith

/-- **C194 (tridiagonal).** The same for `generate(N, "goe", use_tridiagonal=True)`, whose levels are smaller by the factor `√2`. -/
theorem C194_tridiagonal (R : Rng σ) (eh : EigSolver) (ehC : (n : Nat) → Matrix (Fin n) (Fin n) ℂ → List ℝ) (hs : ExactSolver eh)
    (P : Nat → Measure Ω) [∀ n, IsProbabilityMeasure (P n)] (e s : Nat → Ω → σ)
    (hC : ∀ n > 500, ChiSquareDraws (P n) (n - 1) fun k ω => chiDraws R n (s n ω) k) (hZ : ∀ n > 500, NormalDraws (P n) fun k ω => diagDraws R n (s n ω) k)
    (hi : ∀ n > 500, IndepFun (fun ω => chiDraws R n (s n ω)) (fun ω => diagDraws R n (s n ω)) (P n))
    (u v : ℝ) (hu : -2 < u) (huv : u < v) (hv : v < 2) (N K : ℕ → ℕ) (hN : Tendsto N atTop atTop) (hKN : ∀ m, K m + m ≤ N m)
    (hK : Tendsto (fun m => (K m : ℝ) / N m) atTop (𝓝 ((semicircleLaw 2).real (Set.Iic u)))) (hm : Tendsto (fun m : ℕ => (m : ℝ) / N m) atTop (𝓝 ((semicircleLaw 2).real (Set.Icc u v)))) :
    ∃ vals : ℕ → Ω → List ℝ, (∀ n, GeneratedVals R eh ehC n .goe true (e n) (s n) (vals n)) ∧
      ∀ t : ℕ → Ω → List ℝ, (∀ m ω, Report.trimManually (vals (N m) ω) (K m : Int) (K m + m : Int) = .ok (t m ω)) →
        TrimmedFitLimit (fun m => P (N m)) t (fun m => √((N m : ℝ) / 2)) u v (ProbabilityTheory.cond (semicircleLaw 2) (Set.Icc u v)) := by
  rw [TrimLim.icc_real _ semicircle_atom u v huv.le] at hm
  rw [← cdf_eq_real] at hK
  refine ⟨fun n ω => npSort (eh n (goeMatrix R n none true (s n ω)).1), fun n ω => (C49_values R eh ehC n none true (e n ω) (s n ω)).1, fun t ht => ?_⟩
  exact trimmed_fit P _ (fun n => √((n : ℝ) / 2)) _ semicircle_atom (tri_limit R eh hs P s hC hZ hi) u v huv (semicircle_increases u hu (by linarith)) (semicircle_increases v (by linarith) hv) N K hN hKN hK hm t ht

/-- Sizes and cuts with given fractions: `m` of `⌈m / w⌉` levels are kept, and the fraction `α` is cut off below. -/
theorem cuts_exist (α w : ℝ) (hα : 0 ≤ α) (hw : 0 < w) (h : α + w ≤ 1) : ∃ N K : ℕ → ℕ, Tendsto N atTop atTop ∧ (∀ m, K m + m ≤ N m) ∧ Tendsto (fun m => (K m : ℝ) / N m) atTop (𝓝 α) ∧
    Tendsto (fun m : ℕ => (m : ℝ) / N m) atTop (𝓝 w) := by
  have hge : ∀ m : ℕ, w⁻¹ * m ≤ (⌈w⁻¹ * (m : ℝ)⌉₊ : ℝ) := fun m => Nat.le_ceil _
  have hmN : ∀ m : ℕ, (m : ℝ) ≤ w * ⌈w⁻¹ * (m : ℝ)⌉₊ := fun m => by
    have := mul_le_mul_of_nonneg_left (hge m) hw.le
    rwa [← mul_assoc, mul_inv_cancel₀ hw.ne', one_mul] at this
  have hN : Tendsto (fun m : ℕ => ⌈w⁻¹ * (m : ℝ)⌉₊) atTop atTop := by
    refine tendsto_atTop_mono (fun m => ?_) tendsto_id
    have h1 := hmN m
    have h2 : (m : ℝ) ≤ ⌈w⁻¹ * (m : ℝ)⌉₊ := h1.trans (mul_le_of_le_one_left (by positivity) (by linarith))
    exact_mod_cast h2
  refine ⟨fun m => ⌈w⁻¹ * (m : ℝ)⌉₊, fun m => ⌊α * (⌈w⁻¹ * (m : ℝ)⌉₊ : ℝ)⌋₊, hN, fun m => ?_, ?_, ?_⟩
  · have h1 := hmN m
    have h2 : (⌊α * (⌈w⁻¹ * (m : ℝ)⌉₊ : ℝ)⌋₊ : ℝ) ≤ α * (⌈w⁻¹ * (m : ℝ)⌉₊ : ℝ) := Nat.floor_le (by positivity)
    have h3 : (⌊α * (⌈w⁻¹ * (m : ℝ)⌉₊ : ℝ)⌋₊ : ℝ) + m ≤ ⌈w⁻¹ * (m : ℝ)⌉₊ := by
      have h4 : (0 : ℝ) ≤ ⌈w⁻¹ * (m : ℝ)⌉₊ := by positivity
      nlinarith
    exact_mod_cast h3
  · exact (tendsto_nat_floor_mul_div_atTop hα).comp (tendsto_natCast_atTop_atTop.comp hN)
  · have h1 := (tendsto_nat_ceil_mul_div_atTop (R := ℝ) (inv_nonneg.mpr hw.le)).comp (tendsto_natCast_atTop_atTop (R := ℝ))
    have h2 := h1.inv₀ (by positivity)
    rw [inv_inv] at h2
    refine h2.congr fun m => ?_
    simp only [Function.comp, inv_div]

/-- Non-vacuity: the stream of independent normal numbers, the exact routine, and the levels between `-√N` and `√N` kept (a third of the levels, roughly, is cut off): all hypotheses hold. -/
example : ∃ N K : ℕ → ℕ, ∃ vals : ℕ → (ℕ → ℝ) → List ℝ, (∀ n, GeneratedVals streamRng exactRoutine (fun _ _ => []) n .goe false id id (vals n)) ∧ ∃ t : ℕ → (ℕ → ℝ) → List ℝ,
    (∀ m ω, Report.trimManually (vals (N m) ω) (K m : Int) (K m + m : Int) = .ok (t m ω)) ∧
      TrimmedFitLimit (fun _ => Measure.infinitePi fun _ : ℕ => gaussianReal 0 1) t (fun m => √(N m)) (-1) 1 (ProbabilityTheory.cond (semicircleLaw 2) (Set.Icc (-1) 1)) := by
  have hI := TrimLim.icc_real _ semicircle_atom (-1) 1 (by norm_num)
  have h1 := (semicircle_increases (-1) (by norm_num) (by norm_num) 2 (by norm_num)).2
  rw [show (-1 : ℝ) + 2 = 1 by norm_num] at h1
  obtain ⟨N, K, hN, hKN, hK, hm⟩ := cuts_exist ((semicircleLaw 2).real (Set.Iic (-1))) ((semicircleLaw 2).real (Set.Icc (-1) 1)) measureReal_nonneg (by linarith) (by
    have := cdf_le_one (semicircleLaw 2) 1
    rw [hI, ← cdf_eq_real]
    linarith)
  obtain ⟨vals, hg, hlim⟩ := C194_goe streamRng exactRoutine (fun _ _ => []) exactRoutine_exact (fun _ => Measure.infinitePi fun _ : ℕ => gaussianReal 0 1) (fun _ => id) (fun _ => id) (fun _ => stream_draws) (-1) 1
    (by norm_num) (by norm_num) (by norm_num) N K hN hKN hK hm
  have ht : ∀ m ω, ∃ w, Report.trimManually (vals (N m) ω) (K m : Int) (K m + m : Int) = .ok w := fun m ω => ⟨_, by
    rw [Report.trimManually, initEigVals1d_ok]
    rfl⟩
  choose t ht using ht
  exact ⟨N, K, vals, hg, t, ht, hlim t ht⟩

end Props
end RMT
