import Verif.Props.PolyLimits

namespace RMT
namespace PolyLim
open Gen EigValsM EigM Unfold Smooth MeasureTheory ProbabilityTheory Spec Gauss Analytic Filter Topology Semi Props

/-- In an ascending list the mean gap is at least the distance of any two members, divided by the number of gaps. -/
theorem mean_gap_ge (l : List ℝ) (hl : Ascending l) (n : ℕ) (hn : l.length = n) (h2 : 2 ≤ n) (u v : ℝ) (hu : u ∈ l) (hv : v ∈ l) : v - u ≤ (n - 1) * avg (gaps l) := by
  have hlen : (gaps l).length = n - 1 := by simp [gaps, hn]
  have hsum : (gaps l).sum = l.getD (n - 1) 0 - l.getD 0 0 := by
    unfold gaps
    rw [hn]
    exact Finset.sum_range_sub (fun i => l.getD i 0) (n - 1)
  have hmono : ∀ i j (hi : i < l.length) (hj : j < l.length), i ≤ j → l[i] ≤ l[j] := by
    intro i j hi hj hij
    rcases hij.eq_or_lt with rfl | h
    · exact le_rfl
    · exact List.pairwise_iff_getElem.mp hl i j hi hj h
  obtain ⟨i, hi, rfl⟩ := List.mem_iff_getElem.mp hu
  obtain ⟨j, hj, rfl⟩ := List.mem_iff_getElem.mp hv
  have e1 : l.getD (n - 1) 0 = l[n - 1]'(by omega) := by rw [List.getD_eq_getElem?_getD, List.getElem?_eq_getElem (by omega), Option.getD_some]
  have e2 : l.getD 0 0 = l[0]'(by omega) := by rw [List.getD_eq_getElem?_getD, List.getElem?_eq_getElem (by omega), Option.getD_some]
  have hn1 : (0 : ℝ) < n - 1 := by
    have : (2 : ℝ) ≤ n := by exact_mod_cast h2
    linarith
  have : (n - 1 : ℝ) * avg (gaps l) = l[n - 1]'(by omega) - l[0]'(by omega) := by
    rw [avg, hsum, hlen, Nat.cast_sub (by omega), Nat.cast_one, e1, e2]
    field_simp
  rw [this]
  have a1 := hmono 0 i (by omega) hi (by omega)
  have a2 := hmono j (n - 1) hj (by omega) (by omega)
  linarith

end PolyLim
namespace Props
open Gen EigValsM EigM Unfold Smooth MeasureTheory ProbabilityTheory Spec Gauss Analytic Filter Topology Semi
variable {σ Ω : Type} [MeasurableSpace Ω]

/-- The law gives positive probability to every neighbourhood of the point. -/
def InSupport (μ : Measure ℝ) (x : ℝ) : Prop := ∀ δ > 0, 0 < μ (Set.Ioo (x - δ) (x + δ))

theorem level_near (P : ℕ → Measure Ω) (vals : ℕ → Ω → List ℝ) (a : ℕ → ℝ) (μ : Measure ℝ) [IsProbabilityMeasure μ] (h : PolyLim.SpectralLimit P vals a μ) (x : ℝ) (hx : InSupport μ x) (δ : ℝ) (hδ : 0 < δ) :
    Tendsto (fun n => P n {ω | ¬ ∃ e ∈ vals n ω, |e / a n - x| ≤ δ}) atTop (𝓝 0) := by
  have hη : 0 < cdf μ (x + δ) - cdf μ (x - δ) := by
    have h1 : cdf μ (x + δ) - cdf μ (x - δ) = μ.real (Set.Ioc (x - δ) (x + δ)) := by
      rw [cdf_eq_real, cdf_eq_real, ← measureReal_sdiff (Set.Iic_subset_Iic.mpr (by linarith)) measurableSet_Iic, Set.Iic_sdiff_Iic]
    rw [h1]
    refine ENNReal.toReal_pos ?_ (measure_ne_top _ _)
    exact (lt_of_lt_of_le (hx δ hδ) (measure_mono Set.Ioo_subset_Ioc_self)).ne'
  set η := cdf μ (x + δ) - cdf μ (x - δ)
  have t1 := h.frac (x + δ) (η / 2) (by linarith)
  have t2 := h.frac (x - δ) (η / 2) (by linarith)
  have t3 := t1.add t2
  rw [add_zero] at t3
  refine tendsto_of_tendsto_of_tendsto_of_le_of_le' tendsto_const_nhds t3 (Eventually.of_forall fun _ => zero_le) ?_
  filter_upwards [h.scale] with n han
  refine (measure_mono fun ω hω => ?_).trans (measure_union_le _ _)
  by_contra hcon
  simp only [Set.mem_union, Set.mem_ofPred_eq, not_or, not_le] at hcon hω
  refine hω ?_
  have hlt : countLE (vals n ω) ((x - δ) * a n) < countLE (vals n ω) ((x + δ) * a n) := by
    have h1 := (abs_lt.mp hcon.1).1
    have h2 := (abs_lt.mp hcon.2).2
    have h3 : (countLE (vals n ω) ((x - δ) * a n) : ℝ) / n < (countLE (vals n ω) ((x + δ) * a n) : ℝ) / n := by
      have : η = cdf μ (x + δ) - cdf μ (x - δ) := rfl
      linarith
    rcases Nat.eq_zero_or_pos n with rfl | hn
    · simp at h3
    · have : (0 : ℝ) < n := by exact_mod_cast hn
      exact_mod_cast (div_lt_div_iff_of_pos_right this).mp h3
  by_contra hno
  push Not at hno
  refine absurd hlt (not_lt.mpr ?_)
  unfold countLE
  refine List.countP_mono_left fun e he hle => ?_
  simp only [decide_eq_true_eq] at hle ⊢
  have h1 := hno e he
  by_contra hgt
  push Not at hgt
  have c1 : x - δ < e / a n := (lt_div_iff₀ han).mpr hgt
  have c2 : e / a n ≤ x + δ := (div_le_iff₀ han).mpr hle
  exact absurd (abs_le.mpr ⟨by linarith, by linarith⟩) (not_le.mpr h1)

theorem mean_lower (P : ℕ → Measure Ω) (vals : ℕ → Ω → List ℝ) (a : ℕ → ℝ) (μ : Measure ℝ) [IsProbabilityMeasure μ] (ha : ∀ s, μ {s} = 0) (hm : ∀ k : ℕ, Integrable (fun x : ℝ => x ^ k) μ)
    (h : PolyLim.SpectralLimit P vals a μ) (F : Fitters ℝ) (hF : LeastSquaresFit F) (goe poisson : List ℝ → List ℝ) (kind : Option MatrixKind) (d : Int) (hd : 3 ≤ d) (ss : PyVal) (q : Polynomial ℝ)
    (hq : IsBestPoly μ d.toNat q) (x y : ℝ) (hx : InSupport μ x) (hy : InSupport μ y) (ε : ℝ) (hε : 0 < ε) :
    Tendsto (fun n => P n {ω | ∃ r, unfold F goe poisson kind (vals n ω) (.method .polynomial) (.int d) ss false = .ok r ∧ avg (gaps r.vals) ≤ q.eval y - q.eval x - ε}) atTop (𝓝 0) := by
  obtain ⟨δ1, hδ1, hc1⟩ := Metric.continuous_iff.mp q.continuous x (ε / 4) (by linarith)
  obtain ⟨δ2, hδ2, hc2⟩ := Metric.continuous_iff.mp q.continuous y (ε / 4) (by linarith)
  have s1 := level_near P vals a μ h x hx (min (δ1 / 2) 1) (by positivity)
  have s2 := level_near P vals a μ h y hy (min (δ2 / 2) 1) (by positivity)
  have s3 := (polyFitLimit P vals a μ ha hm h).smoother F hF goe poisson kind d hd ss q hq (max (|x| + 1) (|y| + 1)) (ε / 4) (by linarith)
  have s4 := (s1.add s2).add s3
  rw [add_zero, add_zero] at s4
  refine tendsto_of_tendsto_of_tendsto_of_le_of_le' tendsto_const_nhds s4 (Eventually.of_forall fun _ => zero_le) ?_
  filter_upwards [h.scale, eventually_ge_atTop 2] with n han hn
  refine (measure_mono fun ω hω => ?_).trans ((measure_union_le _ _).trans (add_le_add_left (measure_union_le _ _) _))
  by_contra hcon
  simp only [Set.mem_union, not_or] at hcon
  obtain ⟨⟨g1, g2⟩, g3⟩ := hcon
  simp only [Set.mem_ofPred_eq, not_not] at g1 g2
  obtain ⟨e1, he1, hd1⟩ := g1
  obtain ⟨e2, he2, hd2⟩ := g2
  obtain ⟨r, hr, hle⟩ := hω
  obtain ⟨c, hc, rfl⟩ := poly_unfold_ok F hF goe poisson kind (vals n ω) d hd ss r hr
  have hnear : ∀ e z : ℝ, |e / a n - z| ≤ 1 → |z| + 1 ≤ max (|x| + 1) (|y| + 1) → |polyAt c e / n - q.eval (e / a n)| < ε / 4 := by
    intro e z h1 h2
    by_contra hbad
    push Not at hbad
    refine g3 ⟨_, e / a n, polyAt c e, hr, ?_, ?_, hbad⟩
    · have : |e / a n| ≤ |e / a n - z| + |z| := by
        have := abs_add_le (e / a n - z) z
        simpa using this
      linarith
    · simp only [evaluateSmoother, List.map_cons, List.map_nil, div_mul_cancel₀ _ han.ne']
  have n1 := hnear e1 x (hd1.trans (min_le_right _ _)) (le_max_left _ _)
  have n2 := hnear e2 y (hd2.trans (min_le_right _ _)) (le_max_right _ _)
  have q1 := hc1 (e1 / a n) (by
    rw [Real.dist_eq]
    exact lt_of_le_of_lt (hd1.trans (min_le_left _ _)) (by linarith))
  have q2 := hc2 (e2 / a n) (by
    rw [Real.dist_eq]
    exact lt_of_le_of_lt (hd2.trans (min_le_left _ _)) (by linarith))
  rw [Real.dist_eq] at q1 q2
  have hmem : ∀ e ∈ vals n ω, polyAt c e ∈ npSort ((npSort (vals n ω)).map (polyAt c)) := fun e he => by
    rw [(npSort_perm _).mem_iff]
    exact List.mem_map_of_mem ((npSort_perm _).mem_iff.mpr he)
  have hlen : (npSort ((npSort (vals n ω)).map (polyAt c))).length = n := by
    rw [(npSort_perm _).length_eq, List.length_map, (npSort_perm _).length_eq, (h.sorted n ω).1]
  have key := PolyLim.mean_gap_ge _ (npSort_ascending _) n hlen hn _ _ (hmem e1 he1) (hmem e2 he2)
  have key0 := PolyLim.mean_gap_ge _ (npSort_ascending _) n hlen hn _ _ (hmem e1 he1) (hmem e1 he1)
  simp only at hle
  generalize avg (gaps (npSort ((npSort (vals n ω)).map (polyAt c)))) = M at hle key key0
  have hn2 : (2 : ℝ) ≤ n := by exact_mod_cast hn
  have hM : 0 ≤ M := by
    rw [sub_self] at key0
    exact nonneg_of_mul_nonneg_right key0 (by linarith)
  have hnM : polyAt c e2 / n - polyAt c e1 / n ≤ M := by
    rw [← sub_div, div_le_iff₀ (by linarith)]
    nlinarith
  have b1 := (abs_lt.mp n1).2
  have b2 := (abs_lt.mp n2).1
  have b3 := (abs_lt.mp q1).2
  have b4 := (abs_lt.mp q2).1
  linarith

/-! ## The normal law: the best polynomial is not bounded -/

theorem best_orthogonal (μ : Measure ℝ) [IsProbabilityMeasure μ] (ha : ∀ s, μ {s} = 0) (hm : ∀ k : ℕ, Integrable (fun x : ℝ => x ^ k) μ) (d : ℕ) (q : Polynomial ℝ) (hq : IsBestPoly μ d q) (j : ℕ) (hj : j ≤ d) :
    ∫ x, cdf μ x * x ^ j ∂μ = ∫ x, q.eval x * x ^ j ∂μ := by
  have hi : ∀ p : Polynomial ℝ, Integrable (fun x => (cdf μ x - p.eval x) ^ 2) μ := by
    intro p
    have := (PolyLim.Q_integral (d := p.natDegree) μ ha hm fun j => p.coeff j).2
    refine this.congr (Eventually.of_forall fun x => ?_)
    simp only
    rw [← PolyLim.toP_eval, PolyLim.toP_surj p le_rfl]
  have hpoly : ∀ p : Polynomial ℝ, Integrable (fun x => p.eval x) μ := by
    intro p
    have : (fun x => p.eval x) = fun x => ∑ k ∈ Finset.range (p.natDegree + 1), p.coeff k * x ^ k := funext fun x => Polynomial.eval_eq_sum_range x
    rw [this]
    exact integrable_finsetSum _ fun k _ => (hm k).const_mul _
  have i1 := PolyLim.cross_integrable μ ha hm j
  have i2 : Integrable (fun x => q.eval x * x ^ j) μ := by
    have := hpoly (q * Polynomial.X ^ j)
    simpa using this
  have i3 : ∀ t : ℝ, Integrable (fun x => 2 * t * (cdf μ x * x ^ j - q.eval x * x ^ j)) μ := fun t => (i1.sub i2).const_mul _
  have i4 : ∀ t : ℝ, Integrable (fun x => (cdf μ x - q.eval x) ^ 2 - 2 * t * (cdf μ x * x ^ j - q.eval x * x ^ j)) μ := fun t => (hi q).sub (i3 t)
  set A := ∫ x, (cdf μ x * x ^ j - q.eval x * x ^ j) ∂μ with hA
  have hexp : ∀ t : ℝ, cdfError μ (q + Polynomial.C t * Polynomial.X ^ j) = cdfError μ q - 2 * t * A + t ^ 2 * ∫ x, x ^ (2 * j) ∂μ := by
    intro t
    rw [cdfError_eq, cdfError_eq, hA, ← integral_const_mul, ← integral_const_mul, ← integral_sub (hi q) (i3 t), ← integral_add (i4 t) ((hm (2 * j)).const_mul _)]
    refine integral_congr_ae (Eventually.of_forall fun x => ?_)
    simp only [Polynomial.eval_add, Polynomial.eval_mul, Polynomial.eval_C, Polynomial.eval_pow, Polynomial.eval_X]
    ring
  have hdeg : ∀ t : ℝ, (q + Polynomial.C t * Polynomial.X ^ j).natDegree ≤ d := fun t =>
    (Polynomial.natDegree_add_le _ _).trans (max_le hq.1 ((Polynomial.natDegree_C_mul_X_pow_le _ _).trans hj))
  have hm2 : 0 ≤ ∫ x, x ^ (2 * j) ∂μ := integral_nonneg fun x => by rw [pow_mul]; positivity
  have hA0 : A = 0 := by
    have := hq.2 _ (hdeg (A / ((∫ x, x ^ (2 * j) ∂μ) + 1)))
    rw [hexp] at this
    generalize (∫ x, x ^ (2 * j) ∂μ) = m at this hm2
    have e : -(2 * (A / (m + 1)) * A) + (A / (m + 1)) ^ 2 * m = -(A ^ 2 * (m + 2) / (m + 1) ^ 2) := by
      field_simp
      ring
    have h1 : 0 ≤ -(A ^ 2 * (m + 2) / (m + 1) ^ 2) := by linarith
    have h2 : 0 ≤ A ^ 2 * (m + 2) / (m + 1) ^ 2 := by positivity
    have h3 : A ^ 2 * (m + 2) / (m + 1) ^ 2 = 0 := by linarith
    rw [div_eq_zero_iff, mul_eq_zero] at h3
    rcases h3 with (h3 | h3) | h3
    · exact pow_eq_zero_iff two_ne_zero |>.mp h3
    · linarith
    · have : (0 : ℝ) < (m + 1) ^ 2 := by positivity
      linarith
  rw [hA, integral_sub i1 i2, sub_eq_zero] at hA0
  exact hA0

theorem gaussian_support (x : ℝ) : InSupport (gaussianReal 0 1) x := by
  intro δ hδ
  refine pos_iff_ne_zero.mpr fun h0 => ?_
  have := gaussianReal_absolutelyContinuous' (0 : ℝ) (one_ne_zero (α := NNReal)) h0
  rw [Real.volume_Ioo, ENNReal.ofReal_eq_zero] at this
  linarith

theorem gaussian_best_nonconstant (d : ℕ) (hd : 1 ≤ d) (q : Polynomial ℝ) (hq : IsBestPoly (gaussianReal 0 1) d q) : 0 < q.natDegree := by
  by_contra h0
  have hq0 : q.natDegree = 0 := by omega
  rw [Polynomial.natDegree_eq_zero] at hq0
  obtain ⟨b, rfl⟩ := hq0
  have h1 := best_orthogonal (gaussianReal 0 1) gaussian_atom gaussian_pow' d _ hq 1 hd
  simp only [Polynomial.eval_C, pow_one] at h1
  rw [integral_const_mul, integral_id_gaussianReal, mul_zero] at h1
  have i1 : Integrable (fun x => cdf (gaussianReal 0 1) x * x) (gaussianReal 0 1) := by simpa using PolyLim.cross_integrable (gaussianReal 0 1) gaussian_atom gaussian_pow' 1
  have i2 : Integrable (fun x : ℝ => x) (gaussianReal 0 1) := by simpa using gaussian_pow' 1
  have h2 : ∫ x, (cdf (gaussianReal 0 1) x * x - cdf (gaussianReal 0 1) 0 * x) ∂(gaussianReal 0 1) = 0 := by
    rw [integral_sub i1 (i2.const_mul _), h1, integral_const_mul, integral_id_gaussianReal]
    simp
  have hnn : ∀ x, 0 ≤ cdf (gaussianReal 0 1) x * x - cdf (gaussianReal 0 1) 0 * x := by
    intro x
    rw [← sub_mul]
    rcases le_total 0 x with hx | hx
    · exact mul_nonneg (sub_nonneg.mpr (monotone_cdf _ hx)) hx
    · exact mul_nonneg_of_nonpos_of_nonpos (sub_nonpos.mpr (monotone_cdf _ hx)) hx
  have h3 := (integral_eq_zero_iff_of_nonneg hnn (i1.sub (i2.const_mul _))).mp h2
  have h4 : ∀ᵐ x : ℝ, cdf (gaussianReal 0 1) x * x - cdf (gaussianReal 0 1) 0 * x = 0 := (gaussianReal_absolutelyContinuous' 0 one_ne_zero).ae_le h3
  have hc : Continuous fun x => cdf (gaussianReal 0 1) x * x - cdf (gaussianReal 0 1) 0 * x := by
    have := BrodyC.cdf_continuous gaussian_atom
    fun_prop
  have h5 := congrFun ((Continuous.ae_eq_iff_eq volume hc (continuous_const (y := (0 : ℝ)))).mp h4) 1
  simp only [mul_one] at h5
  have h6 : cdf (gaussianReal 0 1) 1 - cdf (gaussianReal 0 1) 0 = (gaussianReal 0 1).real (Set.Ioc 0 1) := by
    rw [cdf_eq_real, cdf_eq_real, ← measureReal_sdiff (Set.Iic_subset_Iic.mpr zero_le_one) measurableSet_Iic, Set.Iic_sdiff_Iic]
  have h7 : 0 < (gaussianReal 0 1).real (Set.Ioc 0 1) := by
    refine ENNReal.toReal_pos ?_ (measure_ne_top _ _)
    refine (lt_of_lt_of_le (gaussian_support (1 / 2) (1 / 2) (by norm_num)) (measure_mono ?_)).ne'
    intro x hx
    have := hx.1; have := hx.2
    constructor <;> linarith
  linarith

/-- A polynomial of positive degree has values as far apart as wanted. -/
theorem poly_unbounded (q : Polynomial ℝ) (hq : 0 < q.natDegree) (M : ℝ) : ∃ x y, M ≤ q.eval y - q.eval x := by
  have h := q.abs_tendsto_atTop (Polynomial.natDegree_pos_iff_degree_pos.mp hq)
  obtain ⟨x, hx⟩ := (h.eventually_ge_atTop (|q.eval 0| + M)).exists
  rcases le_total 0 (q.eval x) with h0 | h0
  · rw [abs_of_nonneg h0] at hx
    exact ⟨0, x, by linarith [le_abs_self (q.eval 0)]⟩
  · rw [abs_of_nonpos h0] at hx
    exact ⟨x, 0, by linarith [neg_abs_le (q.eval 0)]⟩

/-- **C183 (Poisson).** For every degree from 3 on, the mean spacing of one generated Poisson spectrum unfolded with a polynomial is not near 1 but grows without bound: for every `M` the probability that it is at most `M` tends to 0. -/
theorem C183_poisson (R : Rng σ) (eh : EigSolver) (ehC : (n : Nat) → Matrix (Fin n) (Fin n) ℂ → List ℝ) (P : ℕ → Measure Ω) [∀ n, IsProbabilityMeasure (P n)] (e s : ℕ → Ω → σ)
    (hX : ∀ n, NormalDraws (P n) fun k ω => draw R (e n ω) k) (tri : Bool) :
    ∃ vals : ℕ → Ω → List ℝ, (∀ n, GeneratedVals R eh ehC n .poisson tri (e n) (s n) (vals n)) ∧
      ∀ (F : Fitters ℝ), LeastSquaresFit F → ∀ (goe poisson : List ℝ → List ℝ) (kind : Option MatrixKind) (d : Int), 3 ≤ d → ∀ (ss : PyVal) (M : ℝ),
        Tendsto (fun n => P n {ω | ∃ r, unfold F goe poisson kind (vals n ω) (.method .polynomial) (.int d) ss false = .ok r ∧ avg (gaps r.vals) ≤ M}) atTop (𝓝 0) := by
  refine ⟨fun n => poissonVals R (e n) n, fun n => poissonVals_generated R eh ehC (e n) (s n) n tri, fun F hF goe poisson kind d hd ss M => ?_⟩
  obtain ⟨q, hq, -⟩ := best_exists (gaussianReal 0 1) gaussian_atom gaussian_pow' d.toNat
  obtain ⟨x, y, hxy⟩ := poly_unbounded q (gaussian_best_nonconstant d.toNat (by omega) q hq) (M + 1)
  have := mean_lower P _ _ _ gaussian_atom gaussian_pow' (poisson_limit R P e hX) F hF goe poisson kind d hd ss q hq x y (gaussian_support x) (gaussian_support y) 1 one_pos
  refine null_of_eventually this (Eventually.of_forall fun n ω hω => ?_)
  obtain ⟨r, hr, hle⟩ := hω
  exact ⟨r, hr, by linarith⟩


/-! ## The semicircle law -/

theorem semicircle_support (x : ℝ) (hx : x ∈ Set.Icc (-2 : ℝ) 2) : InSupport (semicircleLaw 2) x := by
  intro δ hδ
  refine pos_iff_ne_zero.mpr fun h0 => ?_
  have hstrict : F (max (-2) (x - δ / 2)) < F (min 2 (x + δ / 2)) := by
    refine F_strict ⟨le_max_left _ _, max_le (by norm_num) (by linarith [hx.2])⟩ ⟨le_min (by norm_num) (by linarith [hx.1]), min_le_left _ _⟩ ?_
    rw [max_lt_iff, lt_min_iff, lt_min_iff]
    exact ⟨⟨by norm_num, by linarith [hx.1]⟩, by linarith [hx.2], by linarith⟩
  have h1 : (semicircleLaw 2).real (Set.Ioc (max (-2) (x - δ / 2)) (min 2 (x + δ / 2))) = 0 := by
    rw [measureReal_eq_zero_iff]
    refine measure_mono_null (fun y hy => ?_) h0
    have h1 := (le_max_right (-2) (x - δ / 2)).trans_lt hy.1
    have h2 := hy.2.trans (min_le_right 2 (x + δ / 2))
    exact ⟨by linarith, by linarith⟩
  have h2 : F (min 2 (x + δ / 2)) - F (max (-2) (x - δ / 2)) = (semicircleLaw 2).real (Set.Ioc (max (-2) (x - δ / 2)) (min 2 (x + δ / 2))) := by
    unfold F at hstrict ⊢
    rw [← Set.Iic_sdiff_Iic, measureReal_sdiff (Set.Iic_subset_Iic.mpr ?_) measurableSet_Iic]
    by_contra hcon
    push Not at hcon
    exact absurd (measureReal_mono (Set.Iic_subset_Iic.mpr hcon.le)) (not_le.mpr hstrict)
  linarith

/-- Integration by parts against the semicircle law. -/
theorem semicircle_parts (α β : ℝ) :
    ∫ x in (-2 : ℝ)..2, F x * ((-(5 * α) * x ^ 3 + (8 * α - 3 * β) * x) * dens x) = -∫ x in (-2 : ℝ)..2, (4 - x ^ 2) ^ 2 * (α * x ^ 2 + β) / (4 * Real.pi ^ 2) := by
  set H : ℝ → ℝ := fun x => (4 - x ^ 2) * (α * x ^ 2 + β) * dens x with hH
  have hHc : Continuous H := by
    have := dens_cont
    rw [hH]; fun_prop
  have hHd : ∀ x ∈ Set.Ioo (-2 : ℝ) 2, HasDerivAt H ((-(5 * α) * x ^ 3 + (8 * α - 3 * β) * x) * dens x) x := by
    intro x hx
    have hpos : 0 < 4 - x ^ 2 := by nlinarith [hx.1, hx.2]
    have hs : √(4 - x ^ 2) * √(4 - x ^ 2) = 4 - x ^ 2 := Real.mul_self_sqrt hpos.le
    have hsp : 0 < √(4 - x ^ 2) := Real.sqrt_pos.mpr hpos
    have h1 : HasDerivAt (fun x : ℝ => 4 - x ^ 2) (-(2 * x)) x := by
      simpa using (hasDerivAt_pow 2 x).const_sub 4
    have h2 : HasDerivAt dens (-(2 * x) / (2 * √(4 - x ^ 2)) / (2 * Real.pi)) x := by
      unfold dens
      exact (h1.sqrt hpos.ne').div_const _
    have h3 : HasDerivAt (fun x : ℝ => α * x ^ 2 + β) (α * (2 * x)) x := by
      simpa using ((hasDerivAt_pow 2 x).const_mul α).add_const β
    have h4 := (h1.mul h3).mul h2
    refine h4.congr_deriv ?_
    unfold dens
    simp only [Pi.mul_apply]
    have hpi := Real.pi_pos
    have e : -(2 * x) / (2 * √(4 - x ^ 2)) / (2 * Real.pi) * (4 - x ^ 2) = -x * √(4 - x ^ 2) / (2 * Real.pi) := by
      field_simp
      rw [Real.sq_sqrt hpos.le]
    have e' : (4 - x ^ 2) * (α * x ^ 2 + β) * (-(2 * x) / (2 * √(4 - x ^ 2)) / (2 * Real.pi)) = (α * x ^ 2 + β) * (-x * √(4 - x ^ 2) / (2 * Real.pi)) := by
      rw [← e]; ring
    rw [e']
    field_simp
    ring
  have hcont : Continuous fun x => F x * H x := F_cont.mul hHc
  have hder : ∀ x ∈ Set.Ioo (-2 : ℝ) 2, HasDerivAt (fun x => F x * H x) (dens x * H x + F x * ((-(5 * α) * x ^ 3 + (8 * α - 3 * β) * x) * dens x)) x :=
    fun x hx => (F_deriv x).mul (hHd x hx)
  have c1 : Continuous fun x => dens x * H x := dens_cont.mul hHc
  have c2 : Continuous fun x => F x * ((-(5 * α) * x ^ 3 + (8 * α - 3 * β) * x) * dens x) := by
    have := dens_cont
    have := F_cont
    fun_prop
  have hint := intervalIntegral.integral_eq_sub_of_hasDerivAt_of_le (show (-2 : ℝ) ≤ 2 by norm_num) hcont.continuousOn hder ((c1.add c2).intervalIntegrable _ _)
  rw [intervalIntegral.integral_add (c1.intervalIntegrable _ _) (c2.intervalIntegrable _ _)] at hint
  have z1 : H 2 = 0 := by simp [hH]; norm_num
  have z2 : H (-2) = 0 := by simp [hH]; norm_num
  rw [z1, z2, mul_zero, mul_zero, sub_self] at hint
  have e : ∫ x in (-2 : ℝ)..2, dens x * H x = ∫ x in (-2 : ℝ)..2, (4 - x ^ 2) ^ 2 * (α * x ^ 2 + β) / (4 * Real.pi ^ 2) := by
    refine intervalIntegral.integral_congr fun x hx => ?_
    rw [Set.uIcc_of_le (by norm_num)] at hx
    have hpos : 0 ≤ 4 - x ^ 2 := by nlinarith [hx.1, hx.2]
    simp only [hH, dens]
    have hs : √(4 - x ^ 2) * √(4 - x ^ 2) = 4 - x ^ 2 := Real.mul_self_sqrt hpos
    have : √(4 - x ^ 2) / (2 * Real.pi) * ((4 - x ^ 2) * (α * x ^ 2 + β) * (√(4 - x ^ 2) / (2 * Real.pi))) = (√(4 - x ^ 2) * √(4 - x ^ 2)) * (4 - x ^ 2) * (α * x ^ 2 + β) / (4 * Real.pi ^ 2) := by
      field_simp
      ring
    rw [this, hs]
    ring
  rw [e] at hint
  linarith

theorem semicircle_cross : ∫ x, cdf (semicircleLaw 2) x * x ^ 1 ∂(semicircleLaw 2) = 128 / (45 * Real.pi ^ 2) ∧ ∫ x, cdf (semicircleLaw 2) x * x ^ 3 ∂(semicircleLaw 2) = 8704 / (1575 * Real.pi ^ 2) := by
  have hF : ∀ x, cdf (semicircleLaw 2) x = F x := fun x => cdf_eq_real _ x
  have hpoly : ∀ a b : ℝ, ∫ x in (-2 : ℝ)..2, (4 - x ^ 2) ^ 2 * (a * x ^ 2 + b) / (4 * Real.pi ^ 2) = (a * (2048 / 105) + b * (512 / 15)) / (4 * Real.pi ^ 2) := by
    intro a b
    rw [intervalIntegral.integral_div]
    congr 1
    have : ∀ x : ℝ, (4 - x ^ 2) ^ 2 * (a * x ^ 2 + b) = a * x ^ 6 + (b - 8 * a) * x ^ 4 + (16 * a - 8 * b) * x ^ 2 + 16 * b := fun x => by ring
    simp only [this]
    rw [intervalIntegral.integral_add (Continuous.intervalIntegrable (by fun_prop) _ _) (Continuous.intervalIntegrable (by fun_prop) _ _),
      intervalIntegral.integral_add (Continuous.intervalIntegrable (by fun_prop) _ _) (Continuous.intervalIntegrable (by fun_prop) _ _),
      intervalIntegral.integral_add (Continuous.intervalIntegrable (by fun_prop) _ _) (Continuous.intervalIntegrable (by fun_prop) _ _)]
    simp only [intervalIntegral.integral_const_mul, integral_pow, intervalIntegral.integral_const, smul_eq_mul]
    norm_num
    ring
  constructor
  · simp only [hF]
    rw [integral_σ]
    have := semicircle_parts 0 (-1 / 3)
    rw [hpoly] at this
    have e : ∫ x in (-2 : ℝ)..2, F x * x ^ 1 * dens x = ∫ x in (-2 : ℝ)..2, F x * ((-(5 * 0) * x ^ 3 + (8 * 0 - 3 * (-1 / 3)) * x) * dens x) :=
      intervalIntegral.integral_congr fun x _ => by ring
    rw [e, this]
    field_simp
    ring
  · simp only [hF]
    rw [integral_σ]
    have := semicircle_parts (-1 / 5) (-8 / 15)
    rw [hpoly] at this
    have e : ∫ x in (-2 : ℝ)..2, F x * x ^ 3 * dens x = ∫ x in (-2 : ℝ)..2, F x * ((-(5 * (-1 / 5)) * x ^ 3 + (8 * (-1 / 5) - 3 * (-8 / 15)) * x) * dens x) :=
      intervalIntegral.integral_congr fun x _ => by ring
    rw [e, this]
    field_simp
    ring

/-- The best cubic for the semicircle law rises by `15872 / (1575 π²)`, more than 1.02, over the spectrum. -/
theorem cubic_rise (q : Polynomial ℝ) (hq : IsBestPoly (semicircleLaw 2) 3 q) : q.eval 2 - q.eval (-2) = 15872 / (1575 * Real.pi ^ 2) := by
  have hev : ∀ x, q.eval x = q.coeff 0 + q.coeff 1 * x + q.coeff 2 * x ^ 2 + q.coeff 3 * x ^ 3 := fun x => by
    rw [Polynomial.eval_eq_sum_range' (lt_of_le_of_lt hq.1 (show 3 < 4 by norm_num))]
    simp only [Finset.sum_range_succ, Finset.sum_range_zero]
    ring
  have hmom : ∀ j : ℕ, ∫ x, q.eval x * x ^ j ∂(semicircleLaw 2) = q.coeff 0 * Gauss.wig j + q.coeff 1 * Gauss.wig (j + 1) + q.coeff 2 * Gauss.wig (j + 2) + q.coeff 3 * Gauss.wig (j + 3) := by
    intro j
    have : ∀ x, q.eval x * x ^ j = q.coeff 0 * x ^ j + q.coeff 1 * x ^ (j + 1) + q.coeff 2 * x ^ (j + 2) + q.coeff 3 * x ^ (j + 3) := fun x => by rw [hev]; ring
    simp only [this]
    rw [integral_add (integrable_σ _ (by fun_prop)) (integrable_σ _ (by fun_prop)), integral_add (integrable_σ _ (by fun_prop)) (integrable_σ _ (by fun_prop)),
      integral_add (integrable_σ _ (by fun_prop)) (integrable_σ _ (by fun_prop))]
    simp only [integral_const_mul, moment_σ]
  have b1 := best_orthogonal _ semicircle_atom semicircle_pow 3 q hq 1 (by norm_num)
  have b3 := best_orthogonal _ semicircle_atom semicircle_pow 3 q hq 3 (by norm_num)
  rw [semicircle_cross.1, hmom] at b1
  rw [semicircle_cross.2, hmom] at b3
  have w1 : (Gauss.wig 1 : ℝ) = 0 := by simp [Gauss.wig]
  have w2 : (Gauss.wig 2 : ℝ) = 1 := by simp [Gauss.wig]
  have w3 : (Gauss.wig 3 : ℝ) = 0 := by simp [Gauss.wig]
  have w4 : (Gauss.wig 4 : ℝ) = 2 := by simp [Gauss.wig, catalan_two]
  have w5 : (Gauss.wig 5 : ℝ) = 0 := by simp [Gauss.wig]
  have w6 : (Gauss.wig 6 : ℝ) = 5 := by simp [Gauss.wig, catalan_three]
  norm_num [w1, w2, w3, w4, w5, w6] at b1 b3
  rw [hev, hev]
  have e : (15872 : ℝ) / (1575 * Real.pi ^ 2) = 8 * (8704 / (1575 * Real.pi ^ 2)) - 12 * (128 / (45 * Real.pi ^ 2)) := by
    field_simp
    norm_num
  rw [e]
  linarith

theorem cubic_rise_gt : 1.02 < 15872 / (1575 * Real.pi ^ 2) := by
  rw [lt_div_iff₀ (by positivity)]
  have : Real.pi ^ 2 < 3.142 ^ 2 := by
    have := Real.pi_lt_d4
    have := Real.pi_pos
    nlinarith
  nlinarith


/-- The hypotheses can be met: there are routines that always return the least-squares polynomial, and the events above are about runs that exist. -/
example : ∃ F : Fitters ℝ, LeastSquaresFit F ∧ ∀ goe poisson kind vals (d : Int) ss, 3 ≤ d → ∃ r, unfold F goe poisson kind vals (.method .polynomial) (.int d) ss false = .ok r := by
  refine ⟨totalFitters, fun x y d c _ h => ?_, fun goe poisson kind vals d ss hd => ?_⟩
  · simp only [totalFitters] at h
    split_ifs at h with h1
    · cases h
      exact h1.choose_spec
  · rw [C53_polynomial _ goe poisson kind vals d hd ss]
    simp only [totalFitters]
    rw [dif_pos (exists_polyFit _ _ (by simp [(npSort_perm vals).length_eq]) _)]
    exact ⟨_, rfl⟩
example : InSupport (semicircleLaw 2) (-2) ∧ InSupport (semicircleLaw 2) 2 ∧ InSupport (gaussianReal 0 1) 7 := ⟨semicircle_support _ ⟨le_rfl, by norm_num⟩, semicircle_support _ ⟨by norm_num, le_rfl⟩, gaussian_support 7⟩
example : ∃ (P : ℕ → Measure (ℕ → ℝ)) (X : ℕ → ℕ → (ℕ → ℝ) → ℝ), ∀ n, NormalDraws (P n) (X n) := ⟨fun _ => Measure.infinitePi fun _ : ℕ => gaussianReal 0 1, fun _ k ω => draw streamRng ω k, fun _ => stream_draws⟩

end Props
end RMT
