import Verif.Lemmas.Gauss
import Mathlib.Algebra.MvPolynomial.PDeriv
import Mathlib.MeasureTheory.Integral.Pi

/-! # Gaussian integrals of polynomials: integration by parts -/

namespace RMT.Gauss
open MeasureTheory ProbabilityTheory Real MvPolynomial NNReal

/-- The moments of the standard normal law. -/
noncomputable def gm (k : ℕ) : ℝ := ∫ x, x ^ k ∂(gaussianReal 0 1)

theorem gm_integrable (k : ℕ) : Integrable (fun x : ℝ => x ^ k) (gaussianReal 0 1) := by
  have h : MemLp (id : ℝ → ℝ) (k : ℝ≥0) (gaussianReal 0 1) := memLp_id_gaussianReal (k : ℝ≥0)
  have h2 := MemLp.integrable_norm_pow' (p := k) (f := (id : ℝ → ℝ)) (μ := gaussianReal 0 1) (by simpa using h)
  exact (integrable_norm_iff (by fun_prop)).mp (by simpa using h2)

theorem gauss_integral (f : ℝ → ℝ) : ∫ x, f x ∂(gaussianReal 0 1) = (√(2 * π))⁻¹ * ∫ x, exp (-x ^ 2 / 2) * f x := by
  rw [gaussianReal_of_var_ne_zero 0 one_ne_zero, integral_withDensity_eq_integral_toReal_smul (by fun_prop) (by simp [gaussianPDF]), ← integral_const_mul]
  congr 1
  ext x
  simp [gaussianPDF, gaussianPDFReal]
  rw [ENNReal.toReal_ofReal (by positivity)]
  ring

theorem gauss_integrable (k : ℕ) : Integrable (fun x : ℝ => exp (-x ^ 2 / 2) * x ^ k) := by
  have h := gm_integrable k
  rw [gaussianReal_of_var_ne_zero 0 one_ne_zero, integrable_withDensity_iff_integrable_smul' (by fun_prop) (by simp [gaussianPDF])] at h
  have h2 := h.const_mul (√(2 * π))
  refine h2.congr (Filter.Eventually.of_forall fun x => ?_)
  simp only [gaussianPDF, gaussianPDFReal, smul_eq_mul]
  rw [ENNReal.toReal_ofReal (by positivity)]
  have : √(2 * π) ≠ 0 := by positivity
  simp
  field_simp

theorem gm_succ (k : ℕ) : gm (k + 1) = k * gm (k - 1) := by
  unfold gm
  rw [gauss_integral, gauss_integral]
  have hd : ∀ x : ℝ, HasDerivAt (fun x : ℝ => -exp (-x ^ 2 / 2)) (exp (-x ^ 2 / 2) * x) x := by
    intro x
    have h1 : HasDerivAt (fun x : ℝ => -x ^ 2 / 2) (-x) x := by
      have := ((hasDerivAt_pow 2 x).neg).div_const 2
      exact this.congr_deriv (by simp; ring)
    exact (h1.exp.neg).congr_deriv (by ring)
  have hu : ∀ x : ℝ, HasDerivAt (fun x : ℝ => x ^ k) (k * x ^ (k - 1)) x := fun x => hasDerivAt_pow k x
  have h := integral_mul_deriv_eq_deriv_mul_of_integrable (u := fun x : ℝ => x ^ k) (v := fun x : ℝ => -exp (-x ^ 2 / 2)) (u' := fun x => k * x ^ (k - 1)) (v' := fun x => exp (-x ^ 2 / 2) * x) (fun x _ => hu x) (fun x _ => hd x) ?_ ?_ ?_
  · have e1 : ∫ x : ℝ, exp (-x ^ 2 / 2) * x ^ (k + 1) = ∫ x : ℝ, x ^ k * (exp (-x ^ 2 / 2) * x) := by
      congr 1; ext x; ring
    rw [e1, h, mul_left_comm, ← integral_const_mul, ← integral_neg]
    congr 2; ext x; ring
  · refine (gauss_integrable (k + 1)).congr (Filter.Eventually.of_forall fun x => ?_)
    simp only [Pi.mul_apply]; ring
  · refine ((gauss_integrable (k - 1)).const_mul (-(k : ℝ))).congr (Filter.Eventually.of_forall fun x => ?_)
    simp only [Pi.mul_apply]; ring
  · refine ((gauss_integrable k).neg).congr (Filter.Eventually.of_forall fun x => ?_)
    simp only [Pi.mul_apply, Pi.neg_apply]; ring

theorem gm_zero : gm 0 = 1 := by simp [gm]

variable {ι : Type} [Fintype ι] [DecidableEq ι]

/-- The standard normal law on `ι → ℝ`. -/
noncomputable abbrev gpi (ι : Type) [Fintype ι] : Measure (ι → ℝ) := Measure.pi fun _ : ι => gaussianReal 0 1

omit [DecidableEq ι] in
theorem eval_monomial_prod (s : ι →₀ ℕ) (a : ℝ) (x : ι → ℝ) : eval x (monomial s a) = a * ∏ i, x i ^ s i := by
  rw [eval_monomial, Finsupp.prod_fintype _ _ (by simp)]

omit [DecidableEq ι] in
theorem poly_integrable (p : MvPolynomial ι ℝ) : Integrable (fun x => eval x p) (gpi ι) := by
  induction p using MvPolynomial.induction_on' with
  | monomial s a =>
    simp only [eval_monomial_prod]
    refine Integrable.const_mul ?_ a
    exact Integrable.fintype_prod (f := fun i (x : ℝ) => x ^ s i) fun i => gm_integrable _
  | add p q hp hq =>
    simp only [map_add]
    exact hp.add hq

/-- The expected value of a polynomial in independent standard normal variables. -/
noncomputable def ex (p : MvPolynomial ι ℝ) : ℝ := ∫ x, eval x p ∂(gpi ι)

omit [DecidableEq ι] in
theorem ex_add (p q : MvPolynomial ι ℝ) : ex (p + q) = ex p + ex q := by
  simp only [ex, map_add]
  exact integral_add (poly_integrable p) (poly_integrable q)

omit [DecidableEq ι] in
theorem ex_C_mul (a : ℝ) (p : MvPolynomial ι ℝ) : ex (C a * p) = a * ex p := by
  simp only [ex, map_mul, eval_C]
  exact integral_const_mul _ _

/-- As a linear map. -/
noncomputable def exl (ι : Type) [Fintype ι] : MvPolynomial ι ℝ →ₗ[ℝ] ℝ where
  toFun := ex
  map_add' := ex_add
  map_smul' a p := by rw [MvPolynomial.smul_eq_C_mul, ex_C_mul]; rfl

omit [DecidableEq ι] in
theorem ex_monomial (s : ι →₀ ℕ) (a : ℝ) : ex (monomial s a) = a * ∏ i, gm (s i) := by
  simp only [ex, eval_monomial_prod]
  rw [integral_const_mul]
  congr 1
  exact integral_fintype_prod_eq_prod (fun i (x : ℝ) => x ^ s i)

/-- Integration by parts. -/
theorem ex_X_mul (i : ι) (p : MvPolynomial ι ℝ) : ex (X i * p) = ex (pderiv i p) := by
  induction p using MvPolynomial.induction_on' with
  | monomial s a =>
    rw [pderiv_monomial, X, monomial_mul, one_mul, ex_monomial, ex_monomial, mul_assoc]
    congr 1
    rw [← Finset.mul_prod_erase Finset.univ _ (Finset.mem_univ i), ← Finset.mul_prod_erase Finset.univ (fun j => gm ((s - Finsupp.single i 1 : ι →₀ ℕ) j)) (Finset.mem_univ i)]
    have hrest : ∀ j ∈ Finset.univ.erase i, gm ((Finsupp.single i 1 + s : ι →₀ ℕ) j) = gm ((s - Finsupp.single i 1 : ι →₀ ℕ) j) := by
      intro j hj
      have hji : i ≠ j := fun h => by simp [h] at hj
      simp [hji]
    rw [Finset.prod_congr rfl hrest, ← mul_assoc]
    congr 1
    simp only [Finsupp.coe_add, Pi.add_apply, Finsupp.single_eq_same, Finsupp.coe_tsub, Pi.sub_apply]
    rw [add_comm 1, gm_succ]
  | add p q hp hq => rw [mul_add, ex_add, hp, hq, map_add, ex_add]

end RMT.Gauss
