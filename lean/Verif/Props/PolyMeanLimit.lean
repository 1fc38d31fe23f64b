import Verif.Props.SpectralEdge

/-! # C183: the limit of the mean spacing after polynomial unfolding -/

namespace RMT
namespace Props
open Gen EigValsM EigM Unfold Smooth MeasureTheory ProbabilityTheory Spec Gauss Analytic Filter Topology Semi
variable {σ Ω : Type} [MeasurableSpace Ω]

/-- `M` is the largest rise of the polynomial between two points of `[-2, 2]`. -/
def IsLargestRise (q : Polynomial ℝ) (M : ℝ) : Prop :=
  (∃ x ∈ Set.Icc (-2 : ℝ) 2, ∃ y ∈ Set.Icc (-2 : ℝ) 2, q.eval y - q.eval x = M) ∧ ∀ x ∈ Set.Icc (-2 : ℝ) 2, ∀ y ∈ Set.Icc (-2 : ℝ) 2, q.eval y - q.eval x ≤ M

/-- With a polynomial of degree `d` the mean spacing tends in probability to the largest rise of the best polynomial between two points of the support of the semicircle law. -/
structure MeanSpacingLimit (P : ℕ → Measure Ω) (vals : ℕ → Ω → List ℝ) : Prop where
  mean : ∀ (F : Fitters ℝ), LeastSquaresFit F → ∀ (goe poisson : List ℝ → List ℝ) (kind : Option MatrixKind) (d : Int), 3 ≤ d → ∀ (ss : PyVal) (q : Polynomial ℝ), IsBestPoly (semicircleLaw 2) d.toNat q →
    ∀ M : ℝ, IsLargestRise q M → ∀ ε > 0,
      Tendsto (fun n => P n {ω | ∃ r, unfold F goe poisson kind (vals n ω) (.method .polynomial) (.int d) ss false = .ok r ∧ ε ≤ |avg (gaps r.vals) - M|}) atTop (𝓝 0)

theorem mean_upper (P : ℕ → Measure Ω) (vals : ℕ → Ω → List ℝ) (a : ℕ → ℝ) (h : PolyLim.SpectralLimit P vals a (semicircleLaw 2)) (he : SpectrumEnds P vals a)
    (F : Fitters ℝ) (hF : LeastSquaresFit F) (goe poisson : List ℝ → List ℝ) (kind : Option MatrixKind) (d : Int) (hd : 3 ≤ d) (ss : PyVal) (q : Polynomial ℝ)
    (hq : IsBestPoly (semicircleLaw 2) d.toNat q) (M : ℝ) (hM : ∀ x ∈ Set.Icc (-2 : ℝ) 2, ∀ y ∈ Set.Icc (-2 : ℝ) 2, q.eval y - q.eval x ≤ M) (ε : ℝ) (hε : 0 < ε) :
    Tendsto (fun n => P n {ω | ∃ r, unfold F goe poisson kind (vals n ω) (.method .polynomial) (.int d) ss false = .ok r ∧ M + ε ≤ avg (gaps r.vals)}) atTop (𝓝 0) := by
  have huc := (isCompact_Icc (a := (-3 : ℝ)) (b := 3)).uniformContinuousOn_of_continuous q.continuous.continuousOn
  obtain ⟨δ, hδ, hc⟩ := Metric.uniformContinuousOn_iff.mp huc (ε / 8) (by linarith)
  set η := min (δ / 2) 1 with hη
  have hη0 : 0 < η := by positivity
  have hηδ : η ≤ δ / 2 := min_le_left _ _
  have hη1 : η ≤ 1 := min_le_right _ _
  have s1 := outside_null he.outside (2 + η) (by linarith)
  have s3 := (polyFitLimit P vals a _ semicircle_atom semicircle_pow h).smoother F hF goe poisson kind d hd ss q hq 3 (ε / 8) (by linarith)
  have s4 := s1.add s3
  rw [add_zero] at s4
  refine tendsto_of_tendsto_of_tendsto_of_le_of_le' tendsto_const_nhds s4 (Eventually.of_forall fun _ => zero_le) ?_
  have hbig : ∀ᶠ n : ℕ in atTop, (M + ε / 2) / (ε / 4) + 2 ≤ (n : ℝ) := tendsto_natCast_atTop_atTop.eventually_ge_atTop _
  filter_upwards [h.scale, hbig, eventually_ge_atTop 2] with n han hbg hn
  refine (measure_mono fun ω hω => ?_).trans (measure_union_le _ _)
  by_contra hcon
  simp only [Set.mem_union, not_or] at hcon
  obtain ⟨g1, g3⟩ := hcon
  simp only [Set.mem_ofPred_eq] at g1
  push Not at g1
  obtain ⟨r, hr, hle⟩ := hω
  obtain ⟨c, hcc, rfl⟩ := poly_unfold_ok F hF goe poisson kind (vals n ω) d hd ss r hr
  have hnear : ∀ e ∈ vals n ω, ∃ u ∈ Set.Icc (-2 : ℝ) 2, |polyAt c e / n - q.eval u| < ε / 4 := by
    intro e he'
    have ha1 : |e / a n| < 2 + η := by
      rw [abs_div, abs_of_pos han, div_lt_iff₀ han]
      exact g1 e he'
    have h1 : |polyAt c e / n - q.eval (e / a n)| < ε / 8 := by
      by_contra hbad
      push Not at hbad
      refine g3 ⟨_, e / a n, polyAt c e, hr, by linarith, ?_, hbad⟩
      simp only [evaluateSmoother, List.map_cons, List.map_nil, div_mul_cancel₀ _ han.ne']
    rw [abs_lt] at ha1
    refine ⟨max (-2) (min 2 (e / a n)), ⟨le_max_left _ _, max_le (by norm_num) (min_le_left _ _)⟩, ?_⟩
    have hclose : |e / a n - max (-2) (min 2 (e / a n))| ≤ η := by
      rcases le_total (e / a n) 2 with h2 | h2
      · rw [min_eq_right h2]
        rcases le_total (-2) (e / a n) with h3 | h3
        · rw [max_eq_right h3, sub_self, abs_zero]
          exact hη0.le
        · rw [max_eq_left h3, abs_le]
          constructor <;> linarith [ha1.1, ha1.2]
      · rw [min_eq_left h2, max_eq_right (by norm_num), abs_le]
        constructor <;> linarith [ha1.1, ha1.2]
    have hin : max (-2) (min 2 (e / a n)) ∈ Set.Icc (-3 : ℝ) 3 := ⟨le_trans (by norm_num) (le_max_left _ _), max_le (by norm_num) ((min_le_left _ _).trans (by norm_num))⟩
    have h2 := hc (e / a n) ⟨by linarith [ha1.1], by linarith [ha1.2]⟩ _ hin (by
      rw [Real.dist_eq]
      linarith)
    rw [Real.dist_eq] at h2
    have := abs_add_le (polyAt c e / n - q.eval (e / a n)) (q.eval (e / a n) - q.eval (max (-2) (min 2 (e / a n))))
    rw [sub_add_sub_cancel] at this
    linarith
  have hn2 : (2 : ℝ) ≤ n := by exact_mod_cast hn
  have hn0 : (0 : ℝ) < n := by linarith
  have hn1 : (0 : ℝ) < n - 1 := by linarith
  set l := npSort ((npSort (vals n ω)).map (polyAt c)) with hl
  have hlen : l.length = n := by
    rw [hl, (npSort_perm _).length_eq, List.length_map, (npSort_perm _).length_eq, (h.sorted n ω).1]
  have hne : l[0]'(by omega) ∈ l := List.getElem_mem _
  obtain ⟨⟨v, hv⟩, u, hu⟩ := PolyLim.exists_extremes l _ hne
  have key := PolyLim.mean_gap_eq l (npSort_ascending _) n hlen hn u v hu hv
  have hpre : ∀ y ∈ l, ∃ e ∈ vals n ω, polyAt c e = y := fun y hy => by
    rw [hl, (npSort_perm _).mem_iff] at hy
    obtain ⟨e, he', rfl⟩ := List.mem_map.mp hy
    exact ⟨e, (npSort_perm _).mem_iff.mp he', rfl⟩
  obtain ⟨e1, he1, rfl⟩ := hpre u hu.1
  obtain ⟨e2, he2, rfl⟩ := hpre v hv.1
  obtain ⟨u1, hu1, n1⟩ := hnear e1 he1
  obtain ⟨u2, hu2, n2⟩ := hnear e2 he2
  have hrise := hM u1 hu1 u2 hu2
  simp only at hle
  change M + ε ≤ avg (gaps l) at hle
  generalize avg (gaps l) = A at hle key
  have b1 := (abs_lt.mp n1).1
  have b2 := (abs_lt.mp n2).2
  have h1 : (polyAt c e2 - polyAt c e1) / n < M + ε / 2 := by
    rw [sub_div]
    linarith
  rw [div_lt_iff₀ hn0, ← key] at h1
  have h2 : (n - 1) * (M + ε) ≤ (n - 1) * A := mul_le_mul_of_nonneg_left hle hn1.le
  have h3 : (M + ε / 2) ≤ (ε / 4) * (n - 2) := by
    have : (M + ε / 2) / (ε / 4) ≤ n - 2 := by linarith
    rw [div_le_iff₀ (by linarith)] at this
    linarith
  nlinarith

theorem meanSpacingLimit (P : ℕ → Measure Ω) (vals : ℕ → Ω → List ℝ) (a : ℕ → ℝ) (h : PolyLim.SpectralLimit P vals a (semicircleLaw 2)) (he : SpectrumEnds P vals a) : MeanSpacingLimit P vals := by
  refine ⟨fun F hF goe poisson kind d hd ss q hq M hM ε hε => ?_⟩
  obtain ⟨⟨x, hx, y, hy, hxy⟩, hmax⟩ := hM
  have t1 := mean_upper P vals a h he F hF goe poisson kind d hd ss q hq M hmax ε hε
  have t2 := mean_lower P vals a _ semicircle_atom semicircle_pow h F hF goe poisson kind d hd ss q hq x y (semicircle_support x hx) (semicircle_support y hy) ε hε
  have t3 := t1.add t2
  rw [add_zero] at t3
  refine tendsto_of_tendsto_of_tendsto_of_le_of_le' tendsto_const_nhds t3 (Eventually.of_forall fun _ => zero_le) (Eventually.of_forall fun n => ?_)
  refine (measure_mono fun ω hω => ?_).trans (measure_union_le _ _)
  obtain ⟨r, hr, hle⟩ := hω
  rcases le_abs.mp hle with h1 | h1
  · exact Or.inl ⟨r, hr, by linarith⟩
  · exact Or.inr ⟨r, hr, by rw [hxy]; linarith⟩

/-- **C183 (GOE).** One generated GOE spectrum, unfolded with a polynomial of degree `d ≥ 3`: the mean spacing tends in probability to the largest rise of the best polynomial on `[-2, 2]`. -/
theorem C183_goe (R : Rng σ) (eh : EigSolver) (ehC : (n : Nat) → Matrix (Fin n) (Fin n) ℂ → List ℝ) (hs : ExactSolver eh) (P : ℕ → Measure Ω) [∀ n, IsProbabilityMeasure (P n)] (e s : ℕ → Ω → σ)
    (hX : ∀ n, NormalDraws (P n) fun k ω => draw R (s n ω) k) :
    ∃ vals : ℕ → Ω → List ℝ, (∀ n, GeneratedVals R eh ehC n .goe false (e n) (s n) (vals n)) ∧ MeanSpacingLimit P vals := by
  refine ⟨fun n ω => full eh (fun k ω => draw R (s n ω) k) n ω, fun n ω => ?_, meanSpacingLimit P _ _ (full_limit eh hs P _ hX) (full_ends eh hs P _ hX)⟩
  have := (C49_values R eh ehC n none false (e n ω) (s n ω)).1
  rwa [goe_full_draws] at this

/-- **C183 (GUE).** The same for `generate(n, "gue")`. -/
theorem C183_gue (R : Rng σ) (eh : EigSolver) (ehC : (n : Nat) → Matrix (Fin n) (Fin n) ℂ → List ℝ) (hs : ExactHermitian ehC) (P : ℕ → Measure Ω) [∀ n, IsProbabilityMeasure (P n)] (e s : ℕ → Ω → σ)
    (hX : ∀ n, NormalDraws (P n) fun k ω => draw R (s n ω) k) (tri : Bool) :
    ∃ vals : ℕ → Ω → List ℝ, (∀ n, GeneratedVals R eh ehC n .gue tri (e n) (s n) (vals n)) ∧ MeanSpacingLimit P vals := by
  refine ⟨fun n ω => fullC ehC (fun k ω => draw R (s n ω) k) n ω, fun n ω => ?_, meanSpacingLimit P _ _ (gue_limit ehC hs P _ hX) (gue_ends ehC hs P _ hX)⟩
  have := (C49_values R eh ehC n none tri (e n ω) (s n ω)).2.1
  rwa [gue_draws] at this

/-- **C183 (tridiagonal).** The same for `generate(n, "goe", use_tridiagonal=True)`. -/
theorem C183_tridiagonal (R : Rng σ) (eh : EigSolver) (ehC : (n : Nat) → Matrix (Fin n) (Fin n) ℂ → List ℝ) (hs : ExactSolver eh)
    (P : Nat → Measure Ω) [∀ n, IsProbabilityMeasure (P n)] (e s : Nat → Ω → σ)
    (hC : ∀ n > 500, ChiSquareDraws (P n) (n - 1) fun k ω => chiDraws R n (s n ω) k) (hZ : ∀ n > 500, NormalDraws (P n) fun k ω => diagDraws R n (s n ω) k)
    (hi : ∀ n > 500, IndepFun (fun ω => chiDraws R n (s n ω)) (fun ω => diagDraws R n (s n ω)) (P n)) :
    ∃ vals : ℕ → Ω → List ℝ, (∀ n, GeneratedVals R eh ehC n .goe true (e n) (s n) (vals n)) ∧ MeanSpacingLimit P vals :=
  ⟨fun n ω => npSort (eh n (goeMatrix R n none true (s n ω)).1), fun n ω => (C49_values R eh ehC n none true (e n ω) (s n ω)).1,
    meanSpacingLimit P _ _ (tri_limit R eh hs P s hC hZ hi) (tri_ends R eh hs P s hC hZ hi)⟩

/-! ## Degree 3 -/

theorem F_neg (x : ℝ) (hx : x ∈ Set.Icc (-2 : ℝ) 2) : Semi.F (-x) = 1 - Semi.F x := by
  rw [F_closed x hx, F_closed (-x) ⟨by linarith [hx.2], by linarith [hx.1]⟩, neg_div, Real.arcsin_neg]
  ring_nf

theorem semicircle_even (j : ℕ) (hj : Even j) : ∫ x, cdf (semicircleLaw 2) x * x ^ j ∂(semicircleLaw 2) = Gauss.wig j / 2 := by
  have hF : ∀ x, cdf (semicircleLaw 2) x = Semi.F x := fun x => cdf_eq_real _ x
  simp only [hF]
  rw [integral_σ]
  have hneg : ∫ x in (-2 : ℝ)..2, Semi.F x * x ^ j * dens x = ∫ x in (-2 : ℝ)..2, (1 - Semi.F x) * x ^ j * dens x := by
    have h1 := intervalIntegral.integral_comp_neg (a := -2) (b := 2) fun x => Semi.F x * x ^ j * dens x
    rw [neg_neg] at h1
    rw [← h1]
    refine intervalIntegral.integral_congr fun x hx => ?_
    rw [Set.uIcc_of_le (by norm_num)] at hx
    change Semi.F (-x) * (-x) ^ j * dens (-x) = _
    rw [F_neg x hx, hj.neg_pow]
    simp [dens]
  have hm : ∫ x in (-2 : ℝ)..2, x ^ j * dens x = Gauss.wig j := by
    rw [← moment_σ, integral_σ]
  have c1 : Continuous fun x => x ^ j * dens x := by
    have := dens_cont
    fun_prop
  have c2 : Continuous fun x => Semi.F x * x ^ j * dens x := by
    have := dens_cont
    have := F_cont
    fun_prop
  have h3 : ∫ x in (-2 : ℝ)..2, (1 - Semi.F x) * x ^ j * dens x = Gauss.wig j - ∫ x in (-2 : ℝ)..2, Semi.F x * x ^ j * dens x := by
    rw [← hm, ← intervalIntegral.integral_sub (c1.intervalIntegrable _ _) (c2.intervalIntegrable _ _)]
    exact intervalIntegral.integral_congr fun x _ => by ring
  rw [h3] at hneg
  linarith

/-- The best cubic for the semicircle law. -/
theorem best_cubic (q : Polynomial ℝ) (hq : IsBestPoly (semicircleLaw 2) 3 q) (x : ℝ) : q.eval x = 1 / 2 + (4992 * x - 256 * x ^ 3) / (1575 * Real.pi ^ 2) := by
  have hev : ∀ x, q.eval x = q.coeff 0 + q.coeff 1 * x + q.coeff 2 * x ^ 2 + q.coeff 3 * x ^ 3 := fun x => by
    rw [Polynomial.eval_eq_sum_range' (lt_of_le_of_lt hq.1 (show 3 < 4 by norm_num))]
    simp only [Finset.sum_range_succ, Finset.sum_range_zero]
    ring
  have hmom : ∀ j : ℕ, ∫ x, q.eval x * x ^ j ∂(semicircleLaw 2) = q.coeff 0 * Gauss.wig j + q.coeff 1 * Gauss.wig (j + 1) + q.coeff 2 * Gauss.wig (j + 2) + q.coeff 3 * Gauss.wig (j + 3) := by
    intro j
    have : ∀ x, q.eval x * x ^ j = q.coeff 0 * x ^ j + q.coeff 1 * x ^ (j + 1) + q.coeff 2 * x ^ (j + 2) + q.coeff 3 * x ^ (j + 3) := fun x => by rw [hev]; ring
    simp only [this]
    rw [integral_add (integrable_σ _ (by fun_prop)) (integrable_σ _ (by fun_prop)), integral_add (integrable_σ _ (by fun_prop)) (integrable_σ _ (by fun_prop)),
      integral_add (integrable_σ _ (by fun_prop)) (integrable_σ _ (by fun_prop))]
    simp only [integral_const_mul, moment_σ]
  have b0 := best_orthogonal _ semicircle_atom semicircle_pow 3 q hq 0 (by norm_num)
  have b1 := best_orthogonal _ semicircle_atom semicircle_pow 3 q hq 1 (by norm_num)
  have b2 := best_orthogonal _ semicircle_atom semicircle_pow 3 q hq 2 (by norm_num)
  have b3 := best_orthogonal _ semicircle_atom semicircle_pow 3 q hq 3 (by norm_num)
  rw [semicircle_even 0 (by decide), hmom] at b0
  rw [semicircle_cross.1, hmom] at b1
  rw [semicircle_even 2 (by decide), hmom] at b2
  rw [semicircle_cross.2, hmom] at b3
  have w0 : (Gauss.wig 0 : ℝ) = 1 := by simp [Gauss.wig]
  have w1 : (Gauss.wig 1 : ℝ) = 0 := by simp [Gauss.wig]
  have w2 : (Gauss.wig 2 : ℝ) = 1 := by simp [Gauss.wig]
  have w3 : (Gauss.wig 3 : ℝ) = 0 := by simp [Gauss.wig]
  have w4 : (Gauss.wig 4 : ℝ) = 2 := by simp [Gauss.wig, catalan_two]
  have w5 : (Gauss.wig 5 : ℝ) = 0 := by simp [Gauss.wig]
  have w6 : (Gauss.wig 6 : ℝ) = 5 := by simp [Gauss.wig, catalan_three]
  norm_num [w0, w1, w2, w3, w4, w5, w6] at b0 b1 b2 b3
  have e : (128 : ℝ) / (45 * Real.pi ^ 2) = 4480 * (1 / (1575 * Real.pi ^ 2)) := by field_simp; norm_num
  have e' : (8704 : ℝ) / (1575 * Real.pi ^ 2) = 8704 * (1 / (1575 * Real.pi ^ 2)) := by ring
  have e'' : (4992 * x - 256 * x ^ 3) / (1575 * Real.pi ^ 2) = (4992 * x - 256 * x ^ 3) * (1 / (1575 * Real.pi ^ 2)) := by ring
  rw [e] at b1
  rw [e'] at b3
  rw [e'']
  generalize 1 / (1575 * Real.pi ^ 2) = t at b1 b3
  have c3 : q.coeff 3 = -256 * t := by linarith
  have c1 : q.coeff 1 = 4992 * t := by linarith
  have c2 : q.coeff 2 = 0 := by linarith
  have c0 : q.coeff 0 = 1 / 2 := by linarith
  rw [hev, c0, c1, c2, c3]
  ring

theorem cubic_largest (q : Polynomial ℝ) (hq : IsBestPoly (semicircleLaw 2) 3 q) : IsLargestRise q (15872 / (1575 * Real.pi ^ 2)) := by
  refine ⟨⟨-2, ⟨le_rfl, by norm_num⟩, 2, ⟨by norm_num, le_rfl⟩, cubic_rise q hq⟩, fun x hx y hy => ?_⟩
  rw [← cubic_rise q hq, best_cubic q hq, best_cubic q hq, best_cubic q hq, best_cubic q hq]
  have hp : 0 < 1575 * Real.pi ^ 2 := by positivity
  have key : ∀ u ∈ Set.Icc (-2 : ℝ) 2, ∀ v ∈ Set.Icc (-2 : ℝ) 2, u ≤ v → 4992 * u - 256 * u ^ 3 ≤ 4992 * v - 256 * v ^ 3 := by
    intro u hu v hv huv
    have h2 : v ^ 2 + u * v + u ^ 2 ≤ 12 := by
      have := hu.1; have := hu.2; have := hv.1; have := hv.2
      nlinarith [sq_nonneg (u - v), sq_nonneg (u + v)]
    nlinarith [mul_nonneg (sub_nonneg.mpr huv) (show 0 ≤ 4992 - 256 * (v ^ 2 + u * v + u ^ 2) by linarith)]
  have k1 := key y hy 2 ⟨by norm_num, le_rfl⟩ hy.2
  have k2 := key (-2) ⟨le_rfl, by norm_num⟩ x hx hx.1
  have d1 := div_le_div_of_nonneg_right k1 hp.le
  have d2 := div_le_div_of_nonneg_right k2 hp.le
  linarith

/-- **C183 (cubic).** With degree 3 the mean spacing of one generated GOE spectrum tends in probability to `15872 / (1575 π²)`, more than 1.02, not to 1. -/
theorem C183_cubic (R : Rng σ) (eh : EigSolver) (ehC : (n : Nat) → Matrix (Fin n) (Fin n) ℂ → List ℝ) (hs : ExactSolver eh) (P : ℕ → Measure Ω) [∀ n, IsProbabilityMeasure (P n)] (e s : ℕ → Ω → σ)
    (hX : ∀ n, NormalDraws (P n) fun k ω => draw R (s n ω) k) :
    ∃ vals : ℕ → Ω → List ℝ, (∀ n, GeneratedVals R eh ehC n .goe false (e n) (s n) (vals n)) ∧
      (∀ (F : Fitters ℝ), LeastSquaresFit F → ∀ (goe poisson : List ℝ → List ℝ) (kind : Option MatrixKind) (ss : PyVal), ∀ ε > 0,
        Tendsto (fun n => P n {ω | ∃ r, unfold F goe poisson kind (vals n ω) (.method .polynomial) (.int 3) ss false = .ok r ∧ ε ≤ |avg (gaps r.vals) - 15872 / (1575 * Real.pi ^ 2)|}) atTop (𝓝 0)) ∧
      1.02 < 15872 / (1575 * Real.pi ^ 2) := by
  obtain ⟨vals, hg, hv⟩ := C183_goe R eh ehC hs P e s hX
  refine ⟨vals, hg, fun F hF goe poisson kind ss ε hε => ?_, cubic_rise_gt⟩
  obtain ⟨q, hq, -⟩ := best_exists (semicircleLaw 2) semicircle_atom semicircle_pow 3
  exact hv.mean F hF goe poisson kind 3 le_rfl ss q hq _ (cubic_largest q hq) ε hε

/-- For every degree there is a best polynomial and a largest rise. -/
example (d : ℕ) : ∃ q M, IsBestPoly (semicircleLaw 2) d q ∧ IsLargestRise q M := by
  obtain ⟨q, hq, -⟩ := best_exists (semicircleLaw 2) semicircle_atom semicircle_pow d
  have hK := (isCompact_Icc (a := (-2 : ℝ)) (b := 2)).prod (isCompact_Icc (a := (-2 : ℝ)) (b := 2))
  obtain ⟨p, hp, hmax⟩ := hK.exists_isMaxOn ⟨(0, 0), ⟨by norm_num, by norm_num⟩, ⟨by norm_num, by norm_num⟩⟩ (f := fun p : ℝ × ℝ => q.eval p.2 - q.eval p.1)
    (by have := q.continuous; fun_prop)
  exact ⟨q, _, hq, ⟨p.1, hp.1, p.2, hp.2, rfl⟩, fun x hx y hy => hmax (Set.mk_mem_prod hx hy)⟩
example : ∃ q, IsBestPoly (semicircleLaw 2) 3 q ∧ IsLargestRise q (15872 / (1575 * Real.pi ^ 2)) := by
  obtain ⟨q, hq, -⟩ := best_exists (semicircleLaw 2) semicircle_atom semicircle_pow 3
  exact ⟨q, hq, cubic_largest q hq⟩

end Props
end RMT
