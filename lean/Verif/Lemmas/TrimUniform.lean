import Verif.Lemmas.Chebyshev
import Verif.Lemmas.TrimLimit
import Mathlib.Probability.Distributions.Gaussian.Real
import Verif.Spec.BestPolynomial
import Mathlib.Analysis.Analytic.Binomial
import Mathlib.Analysis.Calculus.Deriv.Polynomial
import Mathlib.Analysis.SpecialFunctions.Exponential

/-! # Best polynomials on an interval inside the support of a law with an analytic density -/

namespace RMT
namespace TrimUni
open MeasureTheory Filter Topology Semi Polynomial Set Spec

/-- The value of a polynomial of degree `d` is bounded by its mean square over the semicircle law. -/
theorem sup_semi : ∀ (d : ℕ) (p : ℝ[X]), p.natDegree ≤ d → ∀ x ∈ Icc (-2 : ℝ) 2, p.eval x ^ 2 ≤ (∑ k ∈ Finset.range (d + 1), ((k : ℝ) + 1) ^ 2) * ∫ y, p.eval y * p.eval y ∂(semicircleLaw 2)
  | 0, p, hp, x, _ => by
    obtain ⟨c, rfl⟩ : ∃ c, p = C c := ⟨_, eq_C_of_natDegree_le_zero hp⟩
    simp [sq]
  | d + 1, p, hp, x, hx => by
    obtain ⟨hm, hn⟩ := cheb_monic (d + 1)
    set T := cheb (d + 1) with hT
    set c := p.coeff (d + 1) with hc
    set r := p - C c * T with hr
    have hrd : r.natDegree ≤ d := by
      rw [natDegree_le_iff_coeff_eq_zero]
      intro k hk
      rw [hr, coeff_sub, coeff_C_mul]
      rcases eq_or_lt_of_le (Nat.succ_le_of_lt hk) with h | h
      · have h1 : T.coeff (d + 1) = 1 := by
          have := hm.coeff_natDegree
          rwa [hn] at this
        rw [← h, Nat.succ_eq_add_one, h1, hc]
        ring
      · rw [coeff_eq_zero_of_natDegree_lt (lt_of_le_of_lt hp h), coeff_eq_zero_of_natDegree_lt (lt_of_le_of_lt hn.le h)]
        ring
    have hp' : p = C c * T + r := by rw [hr]; ring
    have ih := sup_semi d r hrd x hx
    have ho := cheb_orth (d + 1) r (Nat.lt_succ_of_le hrd)
    have h1 := cheb_norm (d + 1)
    have hb := cheb_bound (d + 1) x hx
    have cT := T.continuous
    have cr := r.continuous
    have he : ∫ y, p.eval y * p.eval y ∂(semicircleLaw 2) = c ^ 2 + ∫ y, r.eval y * r.eval y ∂(semicircleLaw 2) := by
      have e : ∀ y, p.eval y * p.eval y = c ^ 2 * (T.eval y * T.eval y) + 2 * c * (r.eval y * T.eval y) + r.eval y * r.eval y := by
        intro y
        rw [hp', eval_add, eval_mul, eval_C]
        ring
      simp only [e]
      rw [integral_add (integrable_σ _ (by fun_prop)) (integrable_σ _ (by fun_prop)), integral_add (integrable_σ _ (by fun_prop)) (integrable_σ _ (by fun_prop)), integral_const_mul, integral_const_mul]
      rw [hT, h1, ho]
      ring
    rw [he, Finset.sum_range_succ]
    have hS : 0 ≤ ∑ k ∈ Finset.range (d + 1), ((k : ℝ) + 1) ^ 2 := Finset.sum_nonneg fun _ _ => by positivity
    have hR : 0 ≤ ∫ y, r.eval y * r.eval y ∂(semicircleLaw 2) := integral_nonneg fun y => mul_self_nonneg _
    have hx' : p.eval x = c * T.eval x + r.eval x := by rw [hp', eval_add, eval_mul, eval_C]
    rw [hx']
    generalize (∫ y, r.eval y * r.eval y ∂(semicircleLaw 2)) = R at *
    generalize ∑ k ∈ Finset.range (d + 1), ((k : ℝ) + 1) ^ 2 = S at *
    generalize T.eval x = t at *
    generalize r.eval x = y at *
    have ht : t ^ 2 ≤ (((d + 1 : ℕ) : ℝ) + 1) ^ 2 := by
      rw [← sq_abs]
      exact pow_le_pow_left₀ (abs_nonneg _) hb 2
    generalize (((d + 1 : ℕ) : ℝ) + 1) ^ 2 = U at *
    -- (c t + y)² ≤ (c² + R)(U + S)
    have hU : 0 ≤ U := (sq_nonneg t).trans ht
    have h3 : 2 * (c * t) * y ≤ c ^ 2 * S + R * U := by
      rcases eq_or_lt_of_le hS with h0 | h0
      · have hy : y = 0 := by
          rw [← h0, zero_mul] at ih
          exact pow_eq_zero_iff (two_ne_zero) |>.1 (le_antisymm ih (sq_nonneg y))
        rw [hy, ← h0]
        have := mul_nonneg hR hU
        linarith
      · have k1 : y ^ 2 * t ^ 2 ≤ S * R * U := mul_le_mul ih ht (sq_nonneg t) (by positivity)
        have k2 : 0 ≤ (c * S - t * y) ^ 2 := sq_nonneg _
        have k3 : S * (2 * (c * t) * y) ≤ S * (c ^ 2 * S + R * U) := by nlinarith
        exact le_of_mul_le_mul_left k3 h0
    have h4 : c ^ 2 * t ^ 2 ≤ c ^ 2 * U := mul_le_mul_of_nonneg_left ht (sq_nonneg c)
    nlinarith

theorem sum_sq_le (d : ℕ) : ∑ k ∈ Finset.range (d + 1), ((k : ℝ) + 1) ^ 2 ≤ ((d : ℝ) + 1) ^ 3 := by
  calc ∑ k ∈ Finset.range (d + 1), ((k : ℝ) + 1) ^ 2 ≤ ∑ _k ∈ Finset.range (d + 1), ((d : ℝ) + 1) ^ 2 := by
        refine Finset.sum_le_sum fun k hk => pow_le_pow_left₀ (by positivity) ?_ 2
        have : k ≤ d := by simpa [Nat.lt_succ_iff] using hk
        have : (k : ℝ) ≤ d := by exact_mod_cast this
        linarith
    _ = ((d : ℝ) + 1) ^ 3 := by
        rw [Finset.sum_const, Finset.card_range, nsmul_eq_mul]
        push_cast
        ring

/-- The value of a polynomial of degree `d` on an interval is bounded by its mean square there. -/
theorem sup_interval (u v : ℝ) (h : u < v) (d : ℕ) (p : ℝ[X]) (hp : p.natDegree ≤ d) (x : ℝ) (hx : x ∈ Icc u v) :
    p.eval x ^ 2 ≤ ((d : ℝ) + 1) ^ 3 * (4 / (v - u)) * ∫ y in u..v, p.eval y ^ 2 := by
  have hw : 0 < v - u := by linarith
  set s := (v - u) / 4 with hs
  have hs0 : 0 < s := by positivity
  set L : ℝ[X] := C s * X + C ((u + v) / 2) with hL
  have hLe : ∀ y, L.eval y = s * y + (u + v) / 2 := fun y => by simp [hL]
  have hLd : (p.comp L).natDegree ≤ d := by
    refine natDegree_comp_le.trans ?_
    have : L.natDegree ≤ 1 := natDegree_linear_le
    calc p.natDegree * L.natDegree ≤ d * 1 := Nat.mul_le_mul hp this
      _ = d := mul_one d
  have hy : (x - (u + v) / 2) / s ∈ Icc (-2 : ℝ) 2 := by
    constructor
    · rw [le_div_iff₀ hs0]
      linarith [hx.1]
    · rw [div_le_iff₀ hs0]
      linarith [hx.2]
  have h1 := sup_semi d _ hLd _ hy
  rw [eval_comp, hLe, mul_div_cancel₀ _ hs0.ne', sub_add_cancel] at h1
  have h2 : ∫ y, (p.comp L).eval y * (p.comp L).eval y ∂(semicircleLaw 2) ≤ ∫ y in (-2 : ℝ)..2, p.eval (s * y + (u + v) / 2) ^ 2 := by
    have hc := p.continuous
    have e : ∀ y, (p.comp L).eval y * (p.comp L).eval y = p.eval (s * y + (u + v) / 2) ^ 2 := fun y => by rw [eval_comp, hLe, sq]
    simp only [e]
    rw [integral_σ]
    refine intervalIntegral.integral_mono_on (by norm_num) (Continuous.intervalIntegrable (by have := dens_cont; fun_prop) _ _) (Continuous.intervalIntegrable (by fun_prop) _ _) fun y _ => ?_
    have : dens y ≤ 1 := (dens_le y).trans (by
      rw [div_le_one Real.pi_pos]
      linarith [Real.pi_gt_three])
    exact mul_le_of_le_one_right (sq_nonneg _) this
  have h3 : ∫ y in (-2 : ℝ)..2, p.eval (s * y + (u + v) / 2) ^ 2 = s⁻¹ * ∫ y in u..v, p.eval y ^ 2 := by
    rw [intervalIntegral.integral_comp_mul_add (fun y => p.eval y ^ 2) hs0.ne', smul_eq_mul]
    congr 2 <;> rw [hs] <;> ring
  rw [h3] at h2
  have h4 : s⁻¹ = 4 / (v - u) := by rw [hs, inv_div]
  rw [h4] at h2
  have h5 : 0 ≤ ∫ y, (p.comp L).eval y * (p.comp L).eval y ∂(semicircleLaw 2) := integral_nonneg fun y => mul_self_nonneg _
  calc _ ≤ _ := h1
    _ ≤ ((d : ℝ) + 1) ^ 3 * (4 / (v - u) * ∫ y in u..v, p.eval y ^ 2) := mul_le_mul (sum_sq_le d) h2 h5 (by positivity)
    _ = _ := by ring

/-- A power series approximates its sum by polynomials, with an error that falls geometrically. -/
theorem series_approx (f : ℝ → ℝ) (p : FormalMultilinearSeries ℝ ℝ ℝ) (r : ENNReal) (h : HasFPowerSeriesOnBall f p 0 r) (ρ : NNReal) (hρ : (ρ : ENNReal) < r) :
    ∃ a ∈ Ioo (0 : ℝ) 1, ∃ c > 0, ∀ n : ℕ, ∃ P : ℝ[X], P.natDegree ≤ n ∧ ∀ y : ℝ, |y| < ρ → |f y - P.eval y| ≤ c * a ^ n := by
  obtain ⟨a, ha, c, hc, hb⟩ := h.uniform_geometric_approx hρ
  refine ⟨a, ha, c, hc, fun n => ⟨∑ k ∈ Finset.range n, C (p.coeff k) * X ^ k, ?_, fun y hy => ?_⟩⟩
  · refine natDegree_sum_le_of_forall_le _ _ fun k hk => ?_
    exact (natDegree_C_mul_X_pow_le _ _).trans (Finset.mem_range.1 hk).le
  · have := hb y (by simpa using hy) n
    rw [zero_add, Real.norm_eq_abs] at this
    have e : (∑ k ∈ Finset.range n, C (p.coeff k) * X ^ k).eval y = p.partialSum n y := by
      rw [FormalMultilinearSeries.partialSum, eval_finsetSum]
      refine Finset.sum_congr rfl fun k _ => ?_
      rw [FormalMultilinearSeries.apply_eq_pow_smul_coeff, eval_mul, eval_C, eval_pow, eval_X, smul_eq_mul, mul_comm]
    rw [e]
    exact this

/-- The antiderivative of a polynomial that is 0 at `u`. -/
theorem antiderivative (s : ℝ[X]) (u : ℝ) : ∃ S : ℝ[X], S.natDegree ≤ s.natDegree + 1 ∧ ∀ x, S.eval x = ∫ y in u..x, s.eval y := by
  set S0 : ℝ[X] := ∑ k ∈ Finset.range (s.natDegree + 1), C (s.coeff k / (k + 1)) * X ^ (k + 1) with hS0
  have hd : S0.natDegree ≤ s.natDegree + 1 := by
    refine natDegree_sum_le_of_forall_le _ _ fun k hk => ?_
    exact (natDegree_C_mul_X_pow_le _ _).trans (by have := Finset.mem_range.1 hk; omega)
  have hder : derivative S0 = s := by
    conv_rhs => rw [as_sum_range_C_mul_X_pow s]
    rw [hS0, derivative_sum]
    refine Finset.sum_congr rfl fun k _ => ?_
    rw [derivative_C_mul_X_pow]
    have : ((k : ℝ) + 1) ≠ 0 := by positivity
    push_cast
    rw [div_mul_cancel₀ _ this]
    try simp
  refine ⟨S0 - C (S0.eval u), natDegree_sub_C.le.trans hd, fun x => ?_⟩
  rw [intervalIntegral.integral_eq_sub_of_hasDerivAt (f := fun y => S0.eval y) (fun y _ => by
    have := S0.hasDerivAt y
    rwa [hder] at this) (s.continuous.intervalIntegrable _ _), eval_sub, eval_C]

/-- The law `μ` has on `[u, v]` the density `g`, positive there and approximated there by polynomials, with an error that falls geometrically. -/
structure AnalyticLaw (μ : Measure ℝ) (g : ℝ → ℝ) (u v : ℝ) : Prop where
  law : μ.restrict (Icc u v) = (volume.restrict (Icc u v)).withDensity fun x => ENNReal.ofReal (g x)
  cont : Continuous g
  nonneg : ∀ x, 0 ≤ g x
  pos : ∃ c > 0, ∀ x ∈ Icc u v, c ≤ g x
  approx : ∃ a ∈ Ioo (0 : ℝ) 1, ∃ c > 0, ∀ n : ℕ, ∃ P : ℝ[X], P.natDegree ≤ 2 * n ∧ ∀ y ∈ Icc u v, |g y - P.eval y| ≤ c * a ^ n

variable {μ : Measure ℝ} {g : ℝ → ℝ} {u v : ℝ}

theorem law_icc (h : AnalyticLaw μ g u v) (x y : ℝ) (hxy : x ≤ y) (hx : u ≤ x) (hy : y ≤ v) : μ.real (Icc x y) = ∫ z in x..y, g z := by
  have hi : IntegrableOn g (Icc x y) := h.cont.continuousOn.integrableOn_compact isCompact_Icc
  have hs : Icc x y ⊆ Icc u v := Icc_subset_Icc hx hy
  have e : μ (Icc x y) = μ.restrict (Icc u v) (Icc x y) := by rw [Measure.restrict_apply measurableSet_Icc, inter_eq_self_of_subset_left hs]
  rw [measureReal_def, e, h.law, withDensity_apply _ measurableSet_Icc, Measure.restrict_restrict measurableSet_Icc, inter_eq_self_of_subset_left hs,
    ← ofReal_integral_eq_lintegral_ofReal hi (Eventually.of_forall h.nonneg),
    ENNReal.toReal_ofReal (integral_nonneg fun z => h.nonneg z), intervalIntegral.integral_of_le hxy, integral_Icc_eq_integral_Ioc]

theorem cond_integral (h : AnalyticLaw μ g u v) (huv : u < v) (f : ℝ → ℝ) :
    ∫ x, f x ∂(ProbabilityTheory.cond μ (Icc u v)) = (μ.real (Icc u v))⁻¹ * ∫ x in u..v, f x * g x := by
  have hm : Measurable fun x => ENNReal.ofReal (g x) := h.cont.measurable.ennreal_ofReal
  have e : ∫ x in Icc u v, f x ∂μ = ∫ x in u..v, f x * g x := by
    rw [h.law, integral_withDensity_eq_integral_toReal_smul hm (by simp), intervalIntegral.integral_of_le huv.le, integral_Icc_eq_integral_Ioc]
    refine integral_congr_ae (Eventually.of_forall fun x => ?_)
    simp only [ENNReal.toReal_ofReal (h.nonneg x), smul_eq_mul, mul_comm]
  rw [ProbabilityTheory.cond, integral_smul_measure, e, measureReal_def, ENNReal.toReal_inv, smul_eq_mul]

theorem cond_real (h : AnalyticLaw μ g u v) (x : ℝ) (hx : x ∈ Icc u v) :
    (ProbabilityTheory.cond μ (Icc u v)).real (Iic x) = (μ.real (Icc u v))⁻¹ * ∫ z in u..x, g z := by
  have e : Icc u v ∩ Iic x = Icc u x := by
    ext z
    simp only [mem_inter_iff, mem_Icc, mem_Iic]
    constructor
    · rintro ⟨⟨a, b⟩, c⟩
      exact ⟨a, c⟩
    · rintro ⟨a, b⟩
      exact ⟨⟨a, b.trans hx.2⟩, b⟩
  rw [measureReal_def, ProbabilityTheory.cond_apply measurableSet_Icc, e, ENNReal.toReal_mul, ENNReal.toReal_inv, ← measureReal_def, ← measureReal_def, law_icc h _ _ hx.1 le_rfl hx.2]

theorem weight_pos (h : AnalyticLaw μ g u v) (huv : u < v) : 0 < μ.real (Icc u v) := by
  obtain ⟨c, hc, hg⟩ := h.pos
  rw [law_icc h _ _ huv.le le_rfl le_rfl]
  have h1 : ∫ z in u..v, c ≤ ∫ z in u..v, g z := intervalIntegral.integral_mono_on huv.le (by simp) (h.cont.intervalIntegrable _ _) fun x hx => hg x hx
  rw [intervalIntegral.integral_const, smul_eq_mul] at h1
  have : 0 < (v - u) * c := mul_pos (by linarith) hc
  linarith

/-- Best polynomials are uniformly near the distribution function of the law of the kept levels, with an error that falls geometrically with the degree. -/
theorem best_uniform (h : AnalyticLaw μ g u v) (huv : u < v) : ∃ b ∈ Ioo (0 : ℝ) 1, ∃ K > 0, ∀ d ≥ 1, ∀ q, IsBestPoly (ProbabilityTheory.cond μ (Icc u v)) d q →
    ∀ x ∈ Icc u v, |(ProbabilityTheory.cond μ (Icc u v)).real (Iic x) - q.eval x| ≤ K * b ^ d := by
  obtain ⟨c0, hc0, hg⟩ := h.pos
  obtain ⟨a, ⟨ha0, ha1⟩, c, hc, hap⟩ := h.approx
  have hw := weight_pos h huv
  set w := μ.real (Icc u v) with hwd
  set ν := ProbabilityTheory.cond μ (Icc u v) with hν
  have hl : 0 < v - u := by linarith
  set G : ℝ → ℝ := fun x => w⁻¹ * ∫ z in u..x, g z with hG
  have hGc : Continuous G := continuous_const.mul (intervalIntegral.continuous_primitive (fun a b => h.cont.intervalIntegrable a b) u)
  have hGe : ∀ x ∈ Icc u v, ν.real (Iic x) = G x := fun x hx => cond_real h x hx
  have herr : ∀ p : ℝ[X], cdfError ν p = w⁻¹ * ∫ x in u..v, (G x - p.eval x) ^ 2 * g x := fun p => by
    rw [cdfError, cond_integral h huv]
    congr 1
    refine intervalIntegral.integral_congr fun x hx => ?_
    rw [uIcc_of_le huv.le] at hx
    simp only [hGe x hx]
  have hgi : ∫ x in u..v, g x = w := (law_icc h u v huv.le le_rfl le_rfl).symm
  set κ : ℝ := w / c0 * 2 + 2 * (v - u) with hκ
  have hκ0 : 0 < κ := by positivity
  -- the bound for one degree
  have key : ∀ d ≥ 1, ∀ q, IsBestPoly ν d q → ∀ x ∈ Icc u v, (G x - q.eval x) ^ 2 ≤ ((d : ℝ) + 1) ^ 3 * a ^ d * ((2 + 8 * κ / (v - u)) * ((w⁻¹ * (v - u) * c) ^ 2 / a ^ 2)) := by
    intro d hd q hq x hx
    obtain ⟨s, hs, hsa⟩ := hap ((d - 1) / 2)
    obtain ⟨S, hS, hSe⟩ := antiderivative s u
    set p : ℝ[X] := C w⁻¹ * S with hp
    have hpd : p.natDegree ≤ d := (natDegree_C_mul_le _ _).trans (by omega)
    set δ := w⁻¹ * (v - u) * c * a ^ ((d - 1) / 2) with hδ
    have hδ0 : 0 ≤ δ := by positivity
    have hnear : ∀ y ∈ Icc u v, |G y - p.eval y| ≤ δ := fun y hy => by
      have e : G y - p.eval y = w⁻¹ * ∫ z in u..y, (g z - s.eval z) := by
        rw [intervalIntegral.integral_sub (h.cont.intervalIntegrable _ _) (s.continuous.intervalIntegrable _ _), hp, eval_mul, eval_C, hSe, hG]
        ring
      have e2 : ‖∫ z in u..y, (g z - s.eval z)‖ ≤ c * a ^ ((d - 1) / 2) * |y - u| := intervalIntegral.norm_integral_le_of_norm_le_const fun z hz => by
        rw [uIoc_of_le hy.1] at hz
        exact hsa z ⟨hz.1.le, hz.2.trans hy.2⟩
      rw [Real.norm_eq_abs, abs_of_nonneg (by linarith [hy.1] : 0 ≤ y - u)] at e2
      rw [e, abs_mul, abs_of_pos (inv_pos.2 hw), hδ]
      have e3 : c * a ^ ((d - 1) / 2) * (y - u) ≤ c * a ^ ((d - 1) / 2) * (v - u) := mul_le_mul_of_nonneg_left (by linarith [hy.2]) (by positivity)
      calc _ ≤ w⁻¹ * (c * a ^ ((d - 1) / 2) * (v - u)) := mul_le_mul_of_nonneg_left (e2.trans e3) (by positivity)
        _ = _ := by ring
    have hsq : ∀ y ∈ Icc u v, (G y - p.eval y) ^ 2 ≤ δ ^ 2 := fun y hy => by
      rw [← sq_abs]
      exact pow_le_pow_left₀ (abs_nonneg _) (hnear y hy) 2
    have cq := q.continuous
    have cp := p.continuous
    have cg := h.cont
    have i1 : ∫ y in u..v, (G y - q.eval y) ^ 2 * g y ≤ w * δ ^ 2 := by
      have h1 := hq.2 p hpd
      rw [herr, herr] at h1
      have h2 := le_of_mul_le_mul_left h1 (inv_pos.2 hw)
      refine h2.trans ?_
      have h3 : ∫ y in u..v, (G y - p.eval y) ^ 2 * g y ≤ ∫ y in u..v, δ ^ 2 * g y :=
        intervalIntegral.integral_mono_on huv.le (Continuous.intervalIntegrable (by fun_prop) _ _) (Continuous.intervalIntegrable (by fun_prop) _ _) fun y hy => mul_le_mul_of_nonneg_right (hsq y hy) (h.nonneg y)
      rw [intervalIntegral.integral_const_mul, hgi] at h3
      linarith
    have i2 : c0 * ∫ y in u..v, (G y - q.eval y) ^ 2 ≤ w * δ ^ 2 := by
      refine le_trans ?_ i1
      rw [← intervalIntegral.integral_const_mul]
      refine intervalIntegral.integral_mono_on huv.le (Continuous.intervalIntegrable (by fun_prop) _ _) (Continuous.intervalIntegrable (by fun_prop) _ _) fun y hy => ?_
      rw [mul_comm]
      exact mul_le_mul_of_nonneg_left (hg y hy) (sq_nonneg _)
    have i3 : ∫ y in u..v, (p - q).eval y ^ 2 ≤ κ * δ ^ 2 := by
      have h3 : ∫ y in u..v, (p - q).eval y ^ 2 ≤ ∫ y in u..v, (2 * (G y - q.eval y) ^ 2 + 2 * δ ^ 2) :=
        intervalIntegral.integral_mono_on huv.le (Continuous.intervalIntegrable (by fun_prop) _ _) (Continuous.intervalIntegrable (by fun_prop) _ _) fun y hy => by
          have h4 := hsq y hy
          rw [eval_sub]
          nlinarith [sq_nonneg (G y - q.eval y + (G y - p.eval y))]
      rw [intervalIntegral.integral_add (Continuous.intervalIntegrable (by fun_prop) _ _) (by simp), intervalIntegral.integral_const_mul, intervalIntegral.integral_const, smul_eq_mul] at h3
      have h5 : ∫ y in u..v, (G y - q.eval y) ^ 2 ≤ w / c0 * δ ^ 2 := by
        rw [div_mul_eq_mul_div, le_div_iff₀ hc0]
        linarith
      rw [hκ]
      linarith
    have i4 := sup_interval u v huv d (p - q) ((natDegree_sub_le _ _).trans (max_le hpd hq.1)) x hx
    rw [eval_sub] at i4
    have hcube : (1 : ℝ) ≤ ((d : ℝ) + 1) ^ 3 := one_le_pow₀ (by linarith [Nat.cast_nonneg (α := ℝ) d])
    have i5 : ((d : ℝ) + 1) ^ 3 * (4 / (v - u)) * ∫ y in u..v, (p - q).eval y ^ 2 ≤ ((d : ℝ) + 1) ^ 3 * (4 / (v - u)) * (κ * δ ^ 2) := mul_le_mul_of_nonneg_left i3 (by positivity)
    have i6 := hsq x hx
    have i7 : δ ^ 2 ≤ (w⁻¹ * (v - u) * c) ^ 2 / a ^ 2 * a ^ d := by
      have h8 : a ^ ((d - 1) / 2) ^ 2 = a ^ ((d - 1) / 2) ^ 2 := rfl
      have h7 : (a ^ ((d - 1) / 2)) ^ 2 * a ^ 2 ≤ a ^ d := by
        rw [← pow_mul, ← pow_add]
        exact pow_le_pow_of_le_one ha0.le ha1.le (by omega)
      rw [hδ, mul_pow, div_mul_eq_mul_div, le_div_iff₀ (by positivity), mul_assoc]
      exact mul_le_mul_of_nonneg_left h7 (by positivity)
    have i8 : (G x - q.eval x) ^ 2 ≤ ((d : ℝ) + 1) ^ 3 * (2 + 8 * κ / (v - u)) * δ ^ 2 := by
      have e : ((d : ℝ) + 1) ^ 3 * (2 + 8 * κ / (v - u)) * δ ^ 2 = 2 * (((d : ℝ) + 1) ^ 3 * δ ^ 2) + 2 * (((d : ℝ) + 1) ^ 3 * (4 / (v - u)) * (κ * δ ^ 2)) := by ring
      have e2 : δ ^ 2 ≤ ((d : ℝ) + 1) ^ 3 * δ ^ 2 := le_mul_of_one_le_left (sq_nonneg _) hcube
      rw [e]
      nlinarith [sq_nonneg (G x - p.eval x - (p.eval x - q.eval x))]
    refine i8.trans ?_
    calc _ ≤ ((d : ℝ) + 1) ^ 3 * (2 + 8 * κ / (v - u)) * ((w⁻¹ * (v - u) * c) ^ 2 / a ^ 2 * a ^ d) := mul_le_mul_of_nonneg_left i7 (by positivity)
      _ = _ := by ring
  generalize hK : (2 + 8 * κ / (v - u)) * ((w⁻¹ * (v - u) * c) ^ 2 / a ^ 2) = A at key
  have hA : 0 ≤ A := by rw [← hK]; positivity
  -- cubes are absorbed
  have hr0 : 0 < √a := Real.sqrt_pos.2 ha0
  have hr1 : √a < 1 := by rw [Real.sqrt_lt' one_pos]; simpa using ha1
  obtain ⟨M, hM⟩ : ∃ M : ℝ, ∀ d : ℕ, ((d : ℝ) + 1) ^ 3 * √a ^ d ≤ M := by
    have h1 := tendsto_pow_const_mul_const_pow_of_abs_lt_one 3 (r := √a) (by rw [abs_of_pos hr0]; exact hr1)
    have h2 := (h1.comp (tendsto_add_atTop_nat 1)).bddAbove_range
    obtain ⟨M, hM⟩ := h2
    refine ⟨M / √a, fun d => ?_⟩
    have h3 := hM ⟨d, rfl⟩
    simp only [Function.comp] at h3
    rw [le_div_iff₀ hr0, mul_assoc, ← pow_succ]
    push_cast at h3
    exact h3
  have hM0 : 0 ≤ M := le_trans (by positivity) (hM 0)
  have hb1 : √√a < 1 := by rw [Real.sqrt_lt' one_pos]; simpa using hr1
  refine ⟨√√a, ⟨Real.sqrt_pos.2 hr0, hb1⟩, √(M * A) + 1, by positivity, fun d hd q hq x hx => ?_⟩
  rw [hGe x hx]
  have h1 := key d hd q hq x hx
  have h2 : (G x - q.eval x) ^ 2 ≤ (√(M * A) * √√a ^ d) ^ 2 := by
    rw [mul_pow, Real.sq_sqrt (by positivity), ← pow_mul, mul_comm d 2, pow_mul, Real.sq_sqrt hr0.le]
    calc _ ≤ _ := h1
      _ = ((d : ℝ) + 1) ^ 3 * √a ^ d * (√a ^ d * A) := by
        have : a ^ d = √a ^ d * √a ^ d := by rw [← mul_pow, Real.mul_self_sqrt ha0.le]
        rw [this]
        ring
      _ ≤ M * (√a ^ d * A) := mul_le_mul_of_nonneg_right (hM d) (by positivity)
      _ = _ := by ring
  have h3 := abs_le_of_sq_le_sq h2 (by positivity)
  refine h3.trans ?_
  refine mul_le_mul_of_nonneg_right (by linarith) (by positivity)

theorem comp_square (P : ℝ[X]) (n : ℕ) (hP : P.natDegree ≤ n) (k c : ℝ) : ∃ s : ℝ[X], s.natDegree ≤ 2 * n ∧ ∀ x, s.eval x = k * P.eval (c * x ^ 2) := by
  refine ⟨C k * P.comp (C c * X ^ 2), (natDegree_C_mul_le _ _).trans (natDegree_comp_le.trans ?_), fun x => by simp⟩
  have : (C c * X ^ 2 : ℝ[X]).natDegree ≤ 2 := natDegree_C_mul_X_pow_le _ _
  calc _ ≤ n * 2 := Nat.mul_le_mul hP this
    _ = _ := mul_comm _ _

theorem semicircle_analytic (u v : ℝ) (hu : -2 < u) (huv : u < v) (hv : v < 2) : AnalyticLaw (semicircleLaw 2) dens u v where
  law := by simp only [semicircleLaw, dens_eq, restrict_withDensity measurableSet_Icc]
  cont := dens_cont
  nonneg := dens_nonneg
  pos := by
    obtain ⟨x, hx, hmin⟩ := isCompact_Icc.exists_isMinOn (nonempty_Icc.2 huv.le) dens_cont.continuousOn
    exact ⟨dens x, dens_pos x ⟨by linarith [hx.1], by linarith [hx.2]⟩, fun y hy => hmin hy⟩
  approx := by
    set B := max |u| |v| with hB
    have hB0 : 0 ≤ B := (abs_nonneg u).trans (le_max_left _ _)
    have hB2 : B < 2 := max_lt (abs_lt.2 ⟨hu, by linarith⟩) (abs_lt.2 ⟨by linarith, hv⟩)
    have hq : B ^ 2 / 4 < 1 := by nlinarith
    obtain ⟨ρ, h1, h2⟩ := exists_between hq
    have hρ0 : 0 ≤ ρ := le_trans (by positivity) h1.le
    lift ρ to NNReal using hρ0
    obtain ⟨a, ha, c, hc, hb⟩ := series_approx _ _ _ (Real.one_add_rpow_hasFPowerSeriesOnBall_zero (a := 1 / 2)) ρ (by exact_mod_cast h2)
    refine ⟨a, ha, c, hc, fun n => ?_⟩
    obtain ⟨P, hP, hn⟩ := hb n
    obtain ⟨s, hs, he⟩ := comp_square P n hP (1 / Real.pi) (-1 / 4)
    refine ⟨s, hs, fun y hy => ?_⟩
    have hy2 : |y| ≤ B := abs_le_max_abs_abs hy.1 hy.2
    have hysq : y ^ 2 ≤ B ^ 2 := by rw [← sq_abs]; exact pow_le_pow_left₀ (abs_nonneg _) hy2 2
    have hsm : |(-1 / 4 : ℝ) * y ^ 2| < (ρ : ℝ) := by
      rw [abs_mul, abs_of_nonneg (sq_nonneg y)]
      norm_num
      linarith
    have := hn _ hsm
    have e : dens y = 1 / Real.pi * (1 + -1 / 4 * y ^ 2) ^ (1 / 2 : ℝ) := by
      rw [← Real.sqrt_eq_rpow, dens, show 4 - y ^ 2 = 2 ^ 2 * (1 + -1 / 4 * y ^ 2) by ring, Real.sqrt_mul (by positivity), Real.sqrt_sq (by norm_num)]
      field_simp
    rw [e, he, ← mul_sub, abs_mul, abs_of_pos (by positivity)]
    refine le_trans ?_ this
    refine mul_le_of_le_one_left (abs_nonneg _) ?_
    rw [div_le_one Real.pi_pos]
    linarith [Real.pi_gt_three]

theorem gaussian_analytic (u v : ℝ) (huv : u < v) : AnalyticLaw (ProbabilityTheory.gaussianReal 0 1) (ProbabilityTheory.gaussianPDFReal 0 1) u v where
  law := by
    rw [ProbabilityTheory.gaussianReal_of_var_ne_zero 0 one_ne_zero, restrict_withDensity measurableSet_Icc]
    rfl
  cont := by
    unfold ProbabilityTheory.gaussianPDFReal
    fun_prop
  nonneg := ProbabilityTheory.gaussianPDFReal_nonneg 0 1
  pos := by
    have hcont : Continuous (ProbabilityTheory.gaussianPDFReal 0 1) := by
      unfold ProbabilityTheory.gaussianPDFReal
      fun_prop
    obtain ⟨x, hx, hmin⟩ := isCompact_Icc.exists_isMinOn (nonempty_Icc.2 huv.le) hcont.continuousOn
    exact ⟨_, ProbabilityTheory.gaussianPDFReal_pos 0 1 x one_ne_zero, fun y hy => hmin hy⟩
  approx := by
    set B := max |u| |v| with hB
    have hB0 : 0 ≤ B := (abs_nonneg u).trans (le_max_left _ _)
    have hρ0 : 0 ≤ B ^ 2 := sq_nonneg B
    obtain ⟨a, ha, c, hc, hb⟩ := series_approx _ _ _ (NormedSpace.exp_hasFPowerSeriesOnBall (𝕂 := ℝ) (𝔸 := ℝ)) (⟨B ^ 2 + 1, by positivity⟩ : NNReal) ENNReal.coe_lt_top
    refine ⟨a, ha, c, hc, fun n => ?_⟩
    obtain ⟨P, hP, hn⟩ := hb n
    obtain ⟨s, hs, he⟩ := comp_square P n hP (√(2 * Real.pi))⁻¹ (-1 / 2)
    refine ⟨s, hs, fun y hy => ?_⟩
    have hy2 : |y| ≤ B := abs_le_max_abs_abs hy.1 hy.2
    have hysq : y ^ 2 ≤ B ^ 2 := by rw [← sq_abs]; exact pow_le_pow_left₀ (abs_nonneg _) hy2 2
    have hsm : |(-1 / 2 : ℝ) * y ^ 2| < B ^ 2 + 1 := by
      rw [abs_mul, abs_of_nonneg (sq_nonneg y)]
      norm_num
      linarith [sq_nonneg y]
    have := hn _ hsm
    rw [← Real.exp_eq_exp_ℝ] at this
    have e : ProbabilityTheory.gaussianPDFReal 0 1 y = (√(2 * Real.pi))⁻¹ * Real.exp (-1 / 2 * y ^ 2) := by
      rw [ProbabilityTheory.gaussianPDFReal]
      simp only [NNReal.coe_one, mul_one, sub_zero]
      congr 2
      ring
    rw [e, he, ← mul_sub, abs_mul, abs_of_pos (by positivity)]
    refine le_trans ?_ this
    refine mul_le_of_le_one_left (abs_nonneg _) (inv_le_one_of_one_le₀ ?_)
    rw [Real.one_le_sqrt]
    linarith [Real.pi_gt_three]

end TrimUni
end RMT
