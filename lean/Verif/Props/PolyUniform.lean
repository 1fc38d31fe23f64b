import Verif.Lemmas.Chebyshev
import Verif.Props.PolyMeanLimit

/-! # C191: polynomial unfolding of large GOE and GUE spectra is right up to `O(d⁻³)` -/

namespace RMT
namespace Props
open Gen EigValsM EigM Unfold Smooth MeasureTheory ProbabilityTheory Spec Gauss Analytic Filter Topology Semi Polynomial
variable {σ Ω : Type} [MeasurableSpace Ω]

theorem poly_cont (p : ℝ[X]) : Continuous fun x => p.eval x := p.continuous

theorem best_test (d : ℕ) (q : ℝ[X]) (hq : IsBestPoly (semicircleLaw 2) d q) (p : ℝ[X]) (hp : p.natDegree ≤ d) :
    ∫ x, F x * p.eval x ∂(semicircleLaw 2) = ∫ x, q.eval x * p.eval x ∂(semicircleLaw 2) := by
  have e : ∀ g : ℝ → ℝ, Continuous g → ∫ x, g x * p.eval x ∂(semicircleLaw 2) = ∑ j ∈ Finset.range (d + 1), p.coeff j * ∫ x, g x * x ^ j ∂(semicircleLaw 2) := by
    intro g hg
    have e1 : ∀ x, g x * p.eval x = ∑ j ∈ Finset.range (d + 1), p.coeff j * (g x * x ^ j) := by
      intro x
      rw [eval_eq_sum_range' (Nat.lt_succ_of_le hp), Finset.mul_sum]
      exact Finset.sum_congr rfl fun j _ => by ring
    simp only [e1]
    rw [integral_finsetSum _ fun j _ => (integrable_σ (fun x => p.coeff j * (g x * x ^ j)) (by fun_prop))]
    exact Finset.sum_congr rfl fun j _ => integral_const_mul _ _
  rw [e F F_cont, e _ (poly_cont q)]
  refine Finset.sum_congr rfl fun j hj => ?_
  have h := best_orthogonal (semicircleLaw 2) semicircle_atom semicircle_pow d q hq j (by simpa [Nat.lt_succ_iff] using hj)
  simp only [cdf_eq_real] at h
  rw [← h]
  rfl

theorem poly_zero (p : ℝ[X]) (h : ∫ x, p.eval x * p.eval x ∂(semicircleLaw 2) = 0) : p = 0 := by
  by_contra hne
  have hc : (fun j : Fin (p.natDegree + 1) => p.coeff j) ≠ 0 := by
    intro h0
    have := congrFun h0 ⟨p.natDegree, Nat.lt_succ_self _⟩
    exact hne (leadingCoeff_eq_zero.1 this)
  have hpos := PolyLim.form_pos (semicircleLaw 2) semicircle_atom semicircle_pow _ hc
  rw [PolyLim.form_integral _ semicircle_pow] at hpos
  have e : ∀ x, PolyLim.pv (fun j : Fin (p.natDegree + 1) => p.coeff j) x ^ 2 = p.eval x * p.eval x := by
    intro x
    rw [PolyLim.pv, eval_eq_sum_range, Finset.sum_range, sq]
  simp only [e] at hpos
  exact hpos.ne' h

/-- Raising the degree by one adds one multiple of one orthogonal polynomial. -/
theorem best_succ (d : ℕ) (q r : ℝ[X]) (hq : IsBestPoly (semicircleLaw 2) d q) (hr : IsBestPoly (semicircleLaw 2) (d + 1) r) :
    r = q + C (Semi.comp (d + 1)) * cheb (d + 1) := by
  obtain ⟨hm, hdeg⟩ := cheb_monic (d + 1)
  set u := cheb (d + 1) with hu
  set c := r.coeff (d + 1) with hc
  set p := r - q - C c * u with hp
  have hpd : p.natDegree ≤ d := by
    rw [natDegree_le_iff_coeff_eq_zero]
    intro N hN
    rw [hp, coeff_sub, coeff_sub, coeff_C_mul, coeff_eq_zero_of_natDegree_lt (lt_of_le_of_lt hq.1 hN)]
    rcases Nat.lt_or_ge (d + 1) N with h | h
    · rw [coeff_eq_zero_of_natDegree_lt (lt_of_le_of_lt hr.1 h), coeff_eq_zero_of_natDegree_lt (by rw [hdeg]; exact h)]
      simp
    · obtain rfl : N = d + 1 := by omega
      have : u.coeff (d + 1) = 1 := by
        have := hm.coeff_natDegree
        rwa [hdeg] at this
      rw [this, hc]
      ring
  have hi : ∀ a b : ℝ[X], Integrable (fun x => a.eval x * b.eval x) (semicircleLaw 2) := fun a b => integrable_σ _ ((poly_cont a).mul (poly_cont b))
  have h0 : ∫ x, p.eval x * p.eval x ∂(semicircleLaw 2) = 0 := by
    have e : ∀ x, p.eval x * p.eval x = r.eval x * p.eval x - q.eval x * p.eval x - c * (p.eval x * u.eval x) := by
      intro x
      have : p.eval x = r.eval x - q.eval x - c * u.eval x := by rw [hp]; simp
      rw [show p.eval x * p.eval x = (r.eval x - q.eval x - c * u.eval x) * p.eval x by rw [← this]]
      ring
    simp only [e]
    rw [integral_sub (f := fun x => r.eval x * p.eval x - q.eval x * p.eval x) (g := fun x => c * (p.eval x * u.eval x)) ((hi r p).sub (hi q p)) ((hi p u).const_mul c),
      integral_sub (hi r p) (hi q p), integral_const_mul, cheb_orth (d + 1) p (by omega), ← best_test d q hq p hpd, ← best_test (d + 1) r hr p (by omega)]
    ring
  have hz := poly_zero p h0
  have hr' : r = q + C c * u := by
    have := sub_eq_zero.1 hz
    rw [← this]
    ring
  have hcc : Semi.comp (d + 1) = c := by
    have h1 := best_test (d + 1) r hr u (by rw [hdeg])
    rw [Semi.comp, ← hu]
    refine h1.trans ?_
    have e : ∀ x, r.eval x * u.eval x = q.eval x * u.eval x + c * (u.eval x * u.eval x) := by
      intro x
      rw [hr']
      simp
      ring
    simp only [e]
    rw [integral_add (hi q u) ((hi u u).const_mul c), integral_const_mul, cheb_norm (d + 1), cheb_orth (d + 1) q (by have := hq.1; omega)]
    ring
  rw [hcc]
  exact hr'

theorem best_far (d : ℕ) (hd : 2 ≤ d) (q : ℝ[X]) (hq : IsBestPoly (semicircleLaw 2) d q) (x : ℝ) (hx : x ∈ Set.Icc (-2 : ℝ) 2) :
    ∀ (m : ℕ) (r : ℝ[X]), IsBestPoly (semicircleLaw 2) (d + m) r → |r.eval x - q.eval x| ≤ 8 / 3 * (1 / ((d : ℝ) * (d + 1) * (d + 2)) - 1 / (((d + m : ℕ) : ℝ) * ((d + m : ℕ) + 1) * ((d + m : ℕ) + 2)))
  | 0, r, hr => by
    have := (best_exists (semicircleLaw 2) semicircle_atom semicircle_pow d).unique hr hq
    simp [this]
  | m + 1, r, hr => by
    obtain ⟨r', hr', -⟩ := best_exists (semicircleLaw 2) semicircle_atom semicircle_pow (d + m)
    have ih := best_far d hd q hq x hx m r' hr'
    have h1 := best_succ (d + m) r' r hr' hr
    have h2 : |r.eval x - r'.eval x| ≤ ((d + m + 1 : ℕ) + 1) * |Semi.comp (d + m + 1)| := by
      rw [h1]
      simp only [eval_add, eval_mul, eval_C, add_sub_cancel_left, abs_mul]
      rw [mul_comm]
      exact mul_le_mul_of_nonneg_right (cheb_bound (d + m + 1) x hx) (abs_nonneg _)
    have h3 := h2.trans (comp_le (d + m + 1) (by omega))
    have h4 : |r.eval x - q.eval x| ≤ |r.eval x - r'.eval x| + |r'.eval x - q.eval x| := abs_sub_le _ _ _
    have hk : (2 : ℝ) ≤ ((d + m : ℕ) : ℝ) := by exact_mod_cast (by omega : 2 ≤ d + m)
    have e : ((d + (m + 1) : ℕ) : ℝ) = ((d + m : ℕ) : ℝ) + 1 := by push_cast; ring
    have e' : ((d + m + 1 : ℕ) : ℝ) = ((d + m : ℕ) : ℝ) + 1 := by push_cast; ring
    rw [e'] at h3
    rw [e]
    generalize ((d + m : ℕ) : ℝ) = k at *
    generalize 1 / ((d : ℝ) * (d + 1) * (d + 2)) = A at *
    have e5 : 8 / ((k + 1 - 1) * (k + 1) * (k + 1 + 1) * (k + 1 + 2)) = 8 / 3 * (1 / (k * (k + 1) * (k + 2)) - 1 / ((k + 1) * (k + 1 + 1) * (k + 1 + 2))) := by
      have : k ≠ 0 := by linarith
      have : k + 1 ≠ 0 := by linarith
      have : k + 2 ≠ 0 := by linarith
      have : k + 3 ≠ 0 := by linarith
      rw [show k + 1 - 1 = k by ring, show k + 1 + 1 = k + 2 by ring, show k + 1 + 2 = k + 3 by ring]
      field_simp
      ring
    rw [e5] at h3
    linarith

theorem uniform_bound (d : ℕ) (hd : 2 ≤ d) (q : ℝ[X]) (hq : IsBestPoly (semicircleLaw 2) d q) (x : ℝ) (hx : x ∈ Set.Icc (-2 : ℝ) 2) :
    |F x - q.eval x| ≤ 8 / (3 * ((d : ℝ) * (d + 1) * (d + 2))) := by
  set B := 8 / (3 * ((d : ℝ) * (d + 1) * (d + 2))) with hB
  let h : ℝ → ℝ := fun x => max (|F x - q.eval x| - B) 0
  have hF := F_cont
  have hqc := poly_cont q
  have hcont : Continuous h := by fun_prop
  have hle : ∀ D ≥ d, ∀ r, IsBestPoly (semicircleLaw 2) D r → ∀ y ∈ Set.Icc (-2 : ℝ) 2, h y ≤ |F y - r.eval y| := by
    intro D hD r hr y hy
    obtain ⟨m, rfl⟩ := Nat.exists_eq_add_of_le hD
    have h1 := best_far d hd q hq y hy m r hr
    have h2 : (0 : ℝ) ≤ 1 / (((d + m : ℕ) : ℝ) * ((d + m : ℕ) + 1) * ((d + m : ℕ) + 2)) := by positivity
    have h3 : B = 8 / 3 * (1 / ((d : ℝ) * (d + 1) * (d + 2))) := by
      have : (d : ℝ) ≠ 0 := by have : (2 : ℝ) ≤ d := by exact_mod_cast hd
                               linarith
      rw [hB]; field_simp
    have h4 : |F y - q.eval y| ≤ |F y - r.eval y| + |r.eval y - q.eval y| := abs_sub_le _ _ _
    exact max_le (by linarith) (abs_nonneg _)
  have hz : ∫ y in (-2 : ℝ)..2, h y ^ 2 * dens y ≤ 0 := by
    refine le_of_forall_pos_le_add fun ε hε => ?_
    obtain ⟨d0, h0⟩ := C180_degree ε hε
    obtain ⟨r, hr, -⟩ := best_exists (semicircleLaw 2) semicircle_atom semicircle_pow (max d d0)
    have h1 := h0 _ (le_max_right _ _) r hr
    have hi : cdfError (semicircleLaw 2) r = ∫ y in (-2 : ℝ)..2, (F y - r.eval y) ^ 2 * dens y := integral_σ _
    rw [hi] at h1
    have hrc := poly_cont r
    have hdc := dens_cont
    have h2 : ∫ y in (-2 : ℝ)..2, h y ^ 2 * dens y ≤ ∫ y in (-2 : ℝ)..2, (F y - r.eval y) ^ 2 * dens y := by
      refine intervalIntegral.integral_mono_on (by norm_num) ?_ ?_ fun y hy => ?_
      · exact (by fun_prop : Continuous fun y => h y ^ 2 * dens y).intervalIntegrable _ _
      · exact (by fun_prop : Continuous fun y => (F y - r.eval y) ^ 2 * dens y).intervalIntegrable _ _
      · refine mul_le_mul_of_nonneg_right ?_ (dens_nonneg y)
        rw [← sq_abs (F y - r.eval y)]
        exact pow_le_pow_left₀ (le_max_right _ _) (hle _ (le_max_left _ _) r hr y hy) 2
    linarith
  have hI : ∀ y ∈ Set.Ioo (-2 : ℝ) 2, |F y - q.eval y| ≤ B := by
    intro y hy
    by_contra hcon
    push Not at hcon
    have hpos : 0 < ∫ y in (-2 : ℝ)..2, h y ^ 2 * dens y := by
      refine intervalIntegral.integral_pos (by norm_num) (by have := dens_cont; fun_prop) (fun y _ => mul_nonneg (sq_nonneg _) (dens_nonneg y)) ⟨y, Set.Ioo_subset_Icc_self hy, ?_⟩
      have : 0 < h y := lt_max_of_lt_left (by linarith)
      exact mul_pos (by positivity) (dens_pos y hy)
    linarith
  have hcl : IsClosed {y | |F y - q.eval y| ≤ B} := isClosed_le (by fun_prop) continuous_const
  have := hcl.closure_subset_iff.2 (show Set.Ioo (-2 : ℝ) 2 ⊆ {y | |F y - q.eval y| ≤ B} from hI)
  rw [closure_Ioo (by norm_num)] at this
  exact this hx

/-- **C191 (the approximation).** For every degree `d ≥ 2` the best polynomial of degree `d` is within `8 / (3 d (d+1) (d+2))` of the distribution function of the semicircle law at every energy of its support. -/
theorem C191_uniform (d : ℕ) (hd : 2 ≤ d) (q : ℝ[X]) (hq : IsBestPoly (semicircleLaw 2) d q) (x : ℝ) (hx : x ∈ Set.Icc (-2 : ℝ) 2) :
    |(semicircleLaw 2).real (Set.Iic x) - q.eval x| ≤ 8 / (3 * ((d : ℝ) * (d + 1) * (d + 2))) := uniform_bound d hd q hq x hx

theorem rise_exists (q : ℝ[X]) : ∃ M, IsLargestRise q M := by
  have hK := (isCompact_Icc (a := (-2 : ℝ)) (b := 2)).prod (isCompact_Icc (a := (-2 : ℝ)) (b := 2))
  obtain ⟨p, hp, hmax⟩ := hK.exists_isMaxOn ⟨(0, 0), ⟨by norm_num, by norm_num⟩, ⟨by norm_num, by norm_num⟩⟩ (f := fun p : ℝ × ℝ => q.eval p.2 - q.eval p.1)
    (by have := q.continuous; fun_prop)
  exact ⟨_, ⟨p.1, hp.1, p.2, hp.2, rfl⟩, fun x hx y hy => hmax (Set.mk_mem_prod hx hy)⟩

/-- **C191 (the limit of the mean spacing).** The limit of the mean spacing after unfolding with degree `d` differs from 1 by at most `16 / (3 d (d+1) (d+2))`. -/
theorem C191_rise (d : ℕ) (hd : 2 ≤ d) (q : ℝ[X]) (hq : IsBestPoly (semicircleLaw 2) d q) (M : ℝ) (hM : IsLargestRise q M) :
    |M - 1| ≤ 16 / (3 * ((d : ℝ) * (d + 1) * (d + 2))) := by
  have hb := uniform_bound d hd q hq
  have e : 16 / (3 * ((d : ℝ) * (d + 1) * (d + 2))) = 2 * (8 / (3 * ((d : ℝ) * (d + 1) * (d + 2)))) := by ring
  rw [e]
  generalize 8 / (3 * ((d : ℝ) * (d + 1) * (d + 2))) = B at *
  obtain ⟨⟨x, hx, y, hy, rfl⟩, hmax⟩ := hM
  have h1 := abs_le.1 (hb x hx)
  have h2 := abs_le.1 (hb y hy)
  have h3 := abs_le.1 (hb (-2) ⟨le_rfl, by norm_num⟩)
  have h4 := abs_le.1 (hb 2 ⟨by norm_num, le_rfl⟩)
  have h5 := hmax (-2) ⟨le_rfl, by norm_num⟩ 2 ⟨by norm_num, le_rfl⟩
  rw [F_neg_two] at h3
  rw [F_two] at h4
  have h6 : F y ≤ F 2 := F_mono hy.2
  have h7 : F (-2) ≤ F x := F_mono hx.1
  rw [F_two] at h6
  rw [F_neg_two] at h7
  rw [abs_le]
  constructor <;> linarith

/-- What is claimed of polynomial unfolding with degree `d` of the random spectra `vals n` whose energies scale like `a n`. -/
structure NearlyUnfolds (P : ℕ → Measure Ω) (vals : ℕ → Ω → List ℝ) (a : ℕ → ℝ) : Prop where
  /-- the stored smoother, at the energy `x · a n` and divided by `n`, is within `8 / (3 d (d+1) (d+2)) + ε` of the fraction of levels the semicircle law puts below `x`, at all `|x| ≤ 2` at once -/
  smoother : ∀ (F : Fitters ℝ), LeastSquaresFit F → ∀ (goe poisson : List ℝ → List ℝ) (kind : Option MatrixKind) (d : Int), 3 ≤ d → ∀ (ss : PyVal), ∀ ε > 0,
    Tendsto (fun n => P n {ω | ∃ r x y, unfold F goe poisson kind (vals n ω) (.method .polynomial) (.int d) ss false = .ok r ∧ |x| ≤ 2 ∧
      evaluateSmoother r [x * a n] = .ok (some [y]) ∧ 8 / (3 * ((d : ℝ) * (d + 1) * (d + 2))) + ε ≤ |y / n - (semicircleLaw 2).real (Set.Iic x)|}) atTop (𝓝 0)
  /-- the mean spacing of the unfolded values is within `16 / (3 d (d+1) (d+2)) + ε` of 1 -/
  mean : ∀ (F : Fitters ℝ), LeastSquaresFit F → ∀ (goe poisson : List ℝ → List ℝ) (kind : Option MatrixKind) (d : Int), 3 ≤ d → ∀ (ss : PyVal), ∀ ε > 0,
    Tendsto (fun n => P n {ω | ∃ r, unfold F goe poisson kind (vals n ω) (.method .polynomial) (.int d) ss false = .ok r ∧
      16 / (3 * ((d : ℝ) * (d + 1) * (d + 2))) + ε ≤ |avg (gaps r.vals) - 1|}) atTop (𝓝 0)

theorem nearlyUnfolds (P : ℕ → Measure Ω) (vals : ℕ → Ω → List ℝ) (a : ℕ → ℝ) (h : PolyFitLimit P vals a (semicircleLaw 2)) (hm : MeanSpacingLimit P vals) : NearlyUnfolds P vals a := by
  have cast : ∀ d : Int, 3 ≤ d → ((d.toNat : ℕ) : ℝ) = (d : ℝ) := by
    intro d hd
    have : ((d.toNat : ℕ) : ℤ) = d := Int.toNat_of_nonneg (by omega)
    exact_mod_cast congrArg (Int.cast : ℤ → ℝ) this
  constructor
  · intro F hF goe poisson kind d hd ss ε hε
    obtain ⟨q, hq, -⟩ := best_exists (semicircleLaw 2) semicircle_atom semicircle_pow d.toNat
    refine null_of_eventually (h.smoother F hF goe poisson kind d hd ss q hq 2 ε hε) (Eventually.of_forall fun n ω hω => ?_)
    obtain ⟨r, x, y, hr, hx, hy, hlt⟩ := hω
    refine ⟨r, x, y, hr, hx, hy, ?_⟩
    have hb := C191_uniform d.toNat (by omega) q hq x (abs_le.1 hx)
    rw [cast d hd] at hb
    have := abs_sub_le (y / n) (q.eval x) ((semicircleLaw 2).real (Set.Iic x))
    rw [abs_sub_comm (q.eval x)] at this
    linarith
  · intro F hF goe poisson kind d hd ss ε hε
    obtain ⟨q, hq, -⟩ := best_exists (semicircleLaw 2) semicircle_atom semicircle_pow d.toNat
    obtain ⟨M, hM⟩ := rise_exists q
    refine null_of_eventually (hm.mean F hF goe poisson kind d hd ss q hq M hM ε hε) (Eventually.of_forall fun n ω hω => ?_)
    obtain ⟨r, hr, hlt⟩ := hω
    refine ⟨r, hr, ?_⟩
    have hb := C191_rise d.toNat (by omega) q hq M hM
    rw [cast d hd] at hb
    have := abs_sub_le (avg (gaps r.vals)) M 1
    linarith

/-- **C191 (GOE).** For every degree `d ≥ 3`, polynomial unfolding of `generate(n, "goe")` puts the levels where the semicircle law does and gives a mean spacing of 1, up to `O(d⁻³)`, with a probability that tends to 1 as `n` grows. -/
theorem C191_goe (R : Rng σ) (eh : EigSolver) (ehC : (n : Nat) → Matrix (Fin n) (Fin n) ℂ → List ℝ) (hs : ExactSolver eh) (P : ℕ → Measure Ω) [∀ n, IsProbabilityMeasure (P n)] (e s : ℕ → Ω → σ)
    (hX : ∀ n, NormalDraws (P n) fun k ω => draw R (s n ω) k) :
    ∃ vals : ℕ → Ω → List ℝ, (∀ n, GeneratedVals R eh ehC n .goe false (e n) (s n) (vals n)) ∧ NearlyUnfolds P vals fun n => √n := by
  obtain ⟨v, hv, h1⟩ := C180_goe R eh ehC hs P e s hX
  obtain ⟨v', hv', h2⟩ := C183_goe R eh ehC hs P e s hX
  obtain rfl : v = v' := funext fun n => Props.generated_unique _ _ _ _ _ _ _ _ _ _ (hv n) (hv' n)
  exact ⟨v, hv, nearlyUnfolds P v _ h1 h2⟩

/-- **C191 (GUE).** The same for `generate(n, "gue")`. -/
theorem C191_gue (R : Rng σ) (eh : EigSolver) (ehC : (n : Nat) → Matrix (Fin n) (Fin n) ℂ → List ℝ) (hs : ExactHermitian ehC) (P : ℕ → Measure Ω) [∀ n, IsProbabilityMeasure (P n)] (e s : ℕ → Ω → σ)
    (hX : ∀ n, NormalDraws (P n) fun k ω => draw R (s n ω) k) (tri : Bool) :
    ∃ vals : ℕ → Ω → List ℝ, (∀ n, GeneratedVals R eh ehC n .gue tri (e n) (s n) (vals n)) ∧ NearlyUnfolds P vals fun n => √n := by
  obtain ⟨v, hv, h1⟩ := C180_gue R eh ehC hs P e s hX tri
  obtain ⟨v', hv', h2⟩ := C183_gue R eh ehC hs P e s hX tri
  obtain rfl : v = v' := funext fun n => Props.generated_unique _ _ _ _ _ _ _ _ _ _ (hv n) (hv' n)
  exact ⟨v, hv, nearlyUnfolds P v _ h1 h2⟩

/-- **C191 (tridiagonal).** The same for `generate(n, "goe", use_tridiagonal=True)`, whose energies are smaller by `√2`. -/
theorem C191_tridiagonal (R : Rng σ) (eh : EigSolver) (ehC : (n : Nat) → Matrix (Fin n) (Fin n) ℂ → List ℝ) (hs : ExactSolver eh)
    (P : Nat → Measure Ω) [∀ n, IsProbabilityMeasure (P n)] (e s : Nat → Ω → σ)
    (hC : ∀ n > 500, ChiSquareDraws (P n) (n - 1) fun k ω => chiDraws R n (s n ω) k) (hZ : ∀ n > 500, NormalDraws (P n) fun k ω => diagDraws R n (s n ω) k)
    (hi : ∀ n > 500, IndepFun (fun ω => chiDraws R n (s n ω)) (fun ω => diagDraws R n (s n ω)) (P n)) :
    ∃ vals : ℕ → Ω → List ℝ, (∀ n, GeneratedVals R eh ehC n .goe true (e n) (s n) (vals n)) ∧ NearlyUnfolds P vals fun n => √(n / 2) := by
  obtain ⟨v, hv, h1⟩ := C180_tridiagonal R eh ehC hs P e s hC hZ hi
  obtain ⟨v', hv', h2⟩ := C183_tridiagonal R eh ehC hs P e s hC hZ hi
  obtain rfl : v = v' := funext fun n => Props.generated_unique _ _ _ _ _ _ _ _ _ _ (hv n) (hv' n)
  exact ⟨v, hv, nearlyUnfolds P v _ h1 h2⟩

/-- **C191 (the two ways of unfolding).** For such tridiagonal spectra the fitted polynomial and the level count used by `unfold_goe()` agree to within `8 / (3 d (d+1) (d+2)) + ε` of the number of levels, at every energy of the bulk. -/
theorem C191_methods (P : ℕ → Measure Ω) (vals : ℕ → Ω → List ℝ) (h : NearlyUnfolds P vals fun n => √(n / 2)) (F : Fitters ℝ) (hF : LeastSquaresFit F) (goe poisson : List ℝ → List ℝ)
    (kind : Option MatrixKind) (d : Int) (hd : 3 ≤ d) (ss : PyVal) (ε : ℝ) (hε : 0 < ε) :
    Tendsto (fun n => P n {ω | ∃ r E y, unfold F goe poisson kind (vals n ω) (.method .polynomial) (.int d) ss false = .ok r ∧ |E| ≤ √(2 * n) ∧
      evaluateSmoother r [E] = .ok (some [y]) ∧ (8 / (3 * ((d : ℝ) * (d + 1) * (d + 2))) + ε) * n ≤ |y - smoothGoe n E|}) atTop (𝓝 0) := by
  refine null_of_eventually (h.smoother F hF goe poisson kind d hd ss ε hε) ((eventually_gt_atTop 0).mono fun n hn ω hω => ?_)
  obtain ⟨r, E, y, hr, hE, hy, hlt⟩ := hω
  have hn' : (0 : ℝ) < n := by exact_mod_cast hn
  have hp : 0 < √((n : ℝ) / 2) := Real.sqrt_pos.2 (by positivity)
  have e1 : √(2 / (n : ℝ)) * √((n : ℝ) / 2) = 1 := by
    rw [← Real.sqrt_mul (by positivity)]
    have : 2 / (n : ℝ) * (n / 2) = 1 := by field_simp
    rw [this, Real.sqrt_one]
  have e2 : √(2 * (n : ℝ)) = 2 * √((n : ℝ) / 2) := by
    rw [show 2 * (n : ℝ) = 2 ^ 2 * (n / 2) by ring, Real.sqrt_mul (by norm_num), Real.sqrt_sq (by norm_num)]
  have e3 : √(2 / (n : ℝ)) * E * √((n : ℝ) / 2) = E := by rw [mul_right_comm, e1, one_mul]
  refine ⟨r, √(2 / (n : ℝ)) * E, y, hr, ?_, by rw [e3]; exact hy, ?_⟩
  · rw [abs_mul, abs_of_nonneg (Real.sqrt_nonneg _)]
    calc √(2 / (n : ℝ)) * |E| ≤ √(2 / (n : ℝ)) * (2 * √((n : ℝ) / 2)) := mul_le_mul_of_nonneg_left (hE.trans e2.le) (Real.sqrt_nonneg _)
      _ = 2 := by rw [mul_left_comm, e1, mul_one]
  · rw [smooth_eq n hn] at hlt
    have e4 : y - n * Semi.F (√(2 / (n : ℝ)) * E) = n * (y / n - Semi.F (√(2 / (n : ℝ)) * E)) := by field_simp
    rw [e4, abs_mul, abs_of_pos hn', mul_comm] at hlt
    exact le_of_mul_le_mul_left hlt hn'

/-- Degree 7, the library's default, is right to within 1.1 %. -/
example (q : ℝ[X]) (hq : IsBestPoly (semicircleLaw 2) 7 q) (M : ℝ) (hM : IsLargestRise q M) : |M - 1| < 0.011 := by
  have := C191_rise 7 (by norm_num) q hq M hM
  norm_num at this ⊢
  linarith
example : ∃ q : ℝ[X], IsBestPoly (semicircleLaw 2) 7 q ∧ ∃ M, IsLargestRise q M := by
  obtain ⟨q, hq, -⟩ := best_exists (semicircleLaw 2) semicircle_atom semicircle_pow 7
  exact ⟨q, hq, rise_exists q⟩

end Props
end RMT
