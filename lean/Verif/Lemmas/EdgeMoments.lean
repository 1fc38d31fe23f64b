import Verif.Lemmas.GueSpectralLaw
import Verif.Props.TridiagonalLaw
import Mathlib.LinearAlgebra.Matrix.Gershgorin
import Mathlib.Analysis.SpecialFunctions.Gaussian.GaussianIntegral
import Mathlib.Analysis.Convex.Mul

/-! # High moments of the chi-square law and of generated spectra -/

namespace RMT.Edge
open MeasureTheory ProbabilityTheory Real Spec Filter Topology

/-- The exponential moments of the square of a standard normal variable. -/
theorem exp_sq (t : ℝ) (ht : t < 1 / 2) : Integrable (fun x : ℝ => exp (t * x ^ 2)) (gaussianReal 0 1) ∧ ∫ x, exp (t * x ^ 2) ∂(gaussianReal 0 1) = (√(1 - 2 * t))⁻¹ := by
  have hb : 0 < 1 / 2 - t := by linarith
  have e : ∀ x : ℝ, gaussianPDFReal 0 1 x * exp (t * x ^ 2) = (√(2 * π))⁻¹ * exp (-(1 / 2 - t) * x ^ 2) := by
    intro x
    simp only [gaussianPDFReal, sub_zero, NNReal.coe_one, mul_one]
    rw [mul_assoc, ← exp_add]
    congr 2
    ring
  constructor
  · rw [gaussianReal_of_var_ne_zero _ one_ne_zero, gaussianPDF_def, integrable_withDensity_iff_integrable_smul₀' (by fun_prop) (by simp)]
    simp only [ENNReal.toReal_ofReal (gaussianPDFReal_nonneg 0 1 _), smul_eq_mul, e]
    exact (integrable_exp_neg_mul_sq hb).const_mul _
  · rw [integral_gaussianReal_eq_integral_smul one_ne_zero]
    simp only [smul_eq_mul, e]
    rw [integral_const_mul, integral_gaussian, ← sqrt_inv, ← sqrt_inv, ← sqrt_mul (by positivity)]
    congr 1
    have : (1 / 2 - t) ≠ 0 := hb.ne'
    have h2 : (1 - 2 * t) ≠ 0 := by linarith
    have hp := pi_pos.ne'
    rw [inv_mul_eq_div, div_div, inv_eq_one_div, div_eq_div_iff (by positivity) h2]
    ring

theorem chi_exp (d : ℕ) (t : ℝ) (ht : t < 1 / 2) : Integrable (fun y : ℝ => exp (t * y)) (chiSquared d) ∧ ∫ y, exp (t * y) ∂(chiSquared d) = (√(1 - 2 * t))⁻¹ ^ d := by
  have e : ∀ x : Fin d → ℝ, exp (t * ∑ i, x i ^ 2) = ∏ i, exp (t * x i ^ 2) := fun x => by rw [Finset.mul_sum, exp_sum]
  have hm : Measurable fun x : Fin d → ℝ => ∑ i, x i ^ 2 := by fun_prop
  constructor
  · rw [chiSquared, integrable_map_measure (by fun_prop) hm.aemeasurable]
    simp only [Function.comp_def, e]
    exact Integrable.fintype_prod fun _ => (exp_sq t ht).1
  · rw [chiSquared, integral_map hm.aemeasurable (by fun_prop)]
    simp only [e]
    rw [integral_fintype_prod_eq_pow (fun x : ℝ => exp (t * x ^ 2)), (exp_sq t ht).2]
    simp

theorem chi_nonneg (d : ℕ) : ∀ᵐ y ∂(chiSquared d), 0 ≤ y := by
  have hm : Measurable fun x : Fin d → ℝ => ∑ i, x i ^ 2 := by fun_prop
  rw [chiSquared, ae_map_iff hm.aemeasurable measurableSet_Ici]
  exact Eventually.of_forall fun x => Finset.sum_nonneg fun i _ => sq_nonneg _

theorem pow_le_exp (y a : ℝ) (hy : 0 ≤ y) (ha : 0 < a) (k : ℕ) : y ^ k ≤ a ^ k * (exp (-k) * exp (k / a * y)) := by
  have h : y / a ≤ exp (y / a - 1) := by
    have := add_one_le_exp (y / a - 1)
    linarith
  have h1 : (y / a) ^ k ≤ exp (y / a - 1) ^ k := pow_le_pow_left₀ (by positivity) h k
  rw [← exp_nat_mul] at h1
  have : y ^ k = a ^ k * (y / a) ^ k := by rw [← mul_pow, mul_div_cancel₀ _ ha.ne']
  rw [this, ← exp_add]
  refine mul_le_mul_of_nonneg_left (h1.trans_eq ?_) (by positivity)
  congr 1
  field_simp
  ring

theorem inv_sqrt_le (s : ℝ) (h1 : s < 1 / 2) : (√(1 - 2 * s))⁻¹ ≤ exp (s / (1 - 2 * s)) := by
  have hp : 0 < 1 - 2 * s := by linarith
  have h := add_one_le_exp (2 * s / (1 - 2 * s))
  have e : 2 * s / (1 - 2 * s) + 1 = (1 - 2 * s)⁻¹ := by
    rw [inv_eq_one_div, div_add_one hp.ne']
    congr 1
    ring
  rw [e] at h
  rw [← sqrt_inv]
  refine (sqrt_le_sqrt h).trans_eq ?_
  rw [← exp_half]
  congr 1
  ring

theorem chi_pow_integrable (d k : ℕ) : Integrable (fun y : ℝ => y ^ k) (chiSquared d) := by
  have h := (chi_exp d (1 / 4) (by norm_num)).1
  have ha : (0 : ℝ) < 4 * (k + 1) := by positivity
  refine ((h.const_mul (exp (-k))).const_mul ((4 * (k + 1)) ^ k)).mono' (by fun_prop) ?_
  filter_upwards [chi_nonneg d] with y hy
  rw [norm_of_nonneg (by positivity)]
  refine (pow_le_exp y _ hy ha k).trans ?_
  have hq : (k : ℝ) / (4 * (k + 1)) ≤ 1 / 4 := by
    rw [div_le_div_iff₀ ha (by norm_num)]
    linarith
  have hq2 := mul_le_mul_of_nonneg_right hq hy
  refine mul_le_mul_of_nonneg_left (mul_le_mul_of_nonneg_left (exp_le_exp.mpr hq2) (by positivity)) (by positivity)

theorem chi_pow (d k : ℕ) (a : ℝ) (ha : 0 < a) (hk : (k : ℝ) / a < 1 / 2) (hb : d * ((k : ℝ) / a / (1 - 2 * (k / a))) ≤ k) : ∫ y, y ^ k ∂(chiSquared d) ≤ a ^ k := by
  have h1 : ∫ y, y ^ k ∂(chiSquared d) ≤ ∫ y, a ^ k * (exp (-k) * exp (k / a * y)) ∂(chiSquared d) := by
    refine integral_mono_ae (chi_pow_integrable d k) (((chi_exp d _ hk).1.const_mul _).const_mul _) ?_
    filter_upwards [chi_nonneg d] with y hy
    exact pow_le_exp y a hy ha k
  refine h1.trans ?_
  rw [integral_const_mul, integral_const_mul, (chi_exp d _ hk).2]
  refine mul_le_of_le_one_right (by positivity) ?_
  have h2 : (√(1 - 2 * (k / a)))⁻¹ ^ d ≤ exp (d * ((k : ℝ) / a / (1 - 2 * (k / a)))) := by
    rw [exp_nat_mul]
    exact pow_le_pow_left₀ (by positivity) (inv_sqrt_le _ hk) d
  calc exp (-k) * (√(1 - 2 * (k / a)))⁻¹ ^ d ≤ exp (-k) * exp (d * ((k : ℝ) / a / (1 - 2 * (k / a)))) := by gcongr
    _ = exp (-k + d * ((k : ℝ) / a / (1 - 2 * (k / a)))) := (exp_add _ _).symm
    _ ≤ 1 := by rw [exp_le_one_iff]; linarith

/-- The `k`-th moment of the chi-square law with at most `n` degrees of freedom, for `k` small compared with `n`. -/
theorem chi_pow_large (n d k : ℕ) (hd : d ≤ n) (hn : 0 < n) (η : ℝ) (hη : 0 < η) (hk : 2 * (k : ℝ) ≤ η * n) : ∫ y, y ^ k ∂(chiSquared d) ≤ ((1 + η) * n) ^ k := by
  have hn' : (0 : ℝ) < n := by exact_mod_cast hn
  have ha : 0 < (1 + η) * n := by positivity
  have hlt : (k : ℝ) / ((1 + η) * n) < 1 / 2 := by
    rw [div_lt_div_iff₀ ha (by norm_num)]
    nlinarith
  refine chi_pow d k _ ha hlt ?_
  have hd' : (d : ℝ) ≤ n := by exact_mod_cast hd
  have hp : 0 < 1 - 2 * ((k : ℝ) / ((1 + η) * n)) := by linarith
  rw [← mul_div_assoc, div_le_iff₀ hp]
  have e : (k : ℝ) * (1 - 2 * ((k : ℝ) / ((1 + η) * n))) = k / ((1 + η) * n) * ((1 + η) * n - 2 * k) := by
    field_simp
  rw [e, mul_comm]
  refine mul_le_mul_of_nonneg_left ?_ (by positivity)
  linarith

/-- The even moments of the standard normal law. -/
theorem gauss_pow (k : ℕ) (a : ℝ) (ha : 2 ≤ a) (hk : 4 * (k : ℝ) ≤ a) : ∫ y, y ^ k ∂(chiSquared 1) ≤ a ^ k := by
  have ha0 : 0 < a := by linarith
  have h4 : (k : ℝ) / a ≤ 1 / 4 := by rw [div_le_div_iff₀ ha0 (by norm_num)]; linarith
  refine chi_pow 1 k a ha0 (by linarith) ?_
  rw [Nat.cast_one, one_mul, div_le_iff₀ (by linarith)]
  have h1 : (k : ℝ) / a ≤ k * (1 / 2) := by
    rw [div_le_iff₀ ha0]
    nlinarith [Nat.cast_nonneg (α := ℝ) k]
  nlinarith [Nat.cast_nonneg (α := ℝ) k]

/-! ## The tridiagonal matrix -/
open Gen EigM Props Gauss EigValsM Semi

theorem sq_law : (gaussianReal 0 1).map (fun x => x ^ 2) = chiSquared 1 := by
  have h := (measurePreserving_funUnique (gaussianReal 0 1) (Fin 1)).map_eq
  conv_lhs => rw [← h]
  rw [chiSquared, Measure.map_map (by fun_prop) (MeasurableEquiv.measurable _)]
  congr 1
  funext x
  simp [MeasurableEquiv.funUnique]

/-- The contributions to the `k`-th power of a squared row sum. -/
theorem row_pow (z c c' θ : ℝ) (hc : 0 ≤ c) (hc' : 0 ≤ c') (h0 : 0 < θ) (h1 : θ < 1) (k : ℕ) :
    (√2 * |z| + √c + √c') ^ (2 * k) ≤ θ * ((2 / θ ^ 2) ^ k * (z ^ 2) ^ k) + (1 - θ) / 2 * ((2 / (1 - θ)) ^ 2) ^ k * (c ^ k + c' ^ k) := by
  have hcv := (convexOn_pow (𝕜 := ℝ) (2 * k))
  have h1' : 0 < 1 - θ := by linarith
  have hin := hcv.2 (x := √2 * |z| / θ) (y := (√c + √c') / (1 - θ)) (Set.mem_Ici.mpr (by positivity)) (Set.mem_Ici.mpr (by positivity)) h0.le h1'.le (by ring)
  have hin2 := (convexOn_pow (𝕜 := ℝ) (2 * k)).2 (x := 2 / (1 - θ) * √c) (y := 2 / (1 - θ) * √c') (Set.mem_Ici.mpr (by positivity)) (Set.mem_Ici.mpr (by positivity)) (show (0 : ℝ) ≤ 1 / 2 by norm_num) (show (0 : ℝ) ≤ 1 / 2 by norm_num) (by norm_num)
  simp only [smul_eq_mul] at hin hin2
  have e1 : θ * (√2 * |z| / θ) + (1 - θ) * ((√c + √c') / (1 - θ)) = √2 * |z| + √c + √c' := by
    field_simp
    ring
  have e2 : 1 / 2 * (2 / (1 - θ) * √c) + 1 / 2 * (2 / (1 - θ) * √c') = (√c + √c') / (1 - θ) := by
    field_simp
  have e3 : (√2 * |z| / θ) ^ (2 * k) = (2 / θ ^ 2) ^ k * (z ^ 2) ^ k := by
    rw [pow_mul, div_pow, mul_pow, sq_sqrt (by norm_num), sq_abs, ← mul_pow]
    congr 1
    ring
  have e4 : ∀ x : ℝ, 0 ≤ x → (2 / (1 - θ) * √x) ^ (2 * k) = ((2 / (1 - θ)) ^ 2) ^ k * x ^ k := fun x hx => by
    rw [mul_pow, pow_mul, pow_mul, sq_sqrt hx]
  rw [e1, e3] at hin
  rw [e2, e4 c hc, e4 c' hc'] at hin2
  refine hin.trans ?_
  have := mul_le_mul_of_nonneg_left hin2 h1'.le
  linarith

theorem one_sum {n : ℕ} (p : Fin n → Prop) [DecidablePred p] (v : ℝ) (hv : 0 ≤ v) (hp : ∀ a b, p a → p b → a = b) : ∑ j, (if p j then v else 0) ≤ v := by
  rw [← Finset.sum_filter, Finset.sum_const, nsmul_eq_mul]
  have : (Finset.univ.filter p).card ≤ 1 := Finset.card_le_one.mpr fun a ha b hb => hp a b (Finset.mem_filter.mp ha).2 (Finset.mem_filter.mp hb).2
  have : ((Finset.univ.filter p).card : ℝ) ≤ 1 := by exact_mod_cast this
  nlinarith

/-- Gershgorin's bound for the tridiagonal matrix. -/
theorem tri_row (n : ℕ) (c z : List ℝ) (eh : EigSolver) (hs : ExactSolver eh) (x : ℝ) (hx : x ∈ npSort (eh n (tridiagonalOf n c z))) :
    ∃ i : Fin n, √2 * |x| ≤ √2 * |z.getD i 0| + √(c.getD i 0) + √(if i.val = 0 then 0 else c.getD (i - 1) 0) := by
  set A := tridiagonalOf n c z with hA
  have hsym : A.IsSymm := tridiagonalOf_symm _ _ _
  rw [(npSort_perm _).mem_iff, ← Multiset.mem_coe, hs n A hsym] at hx
  have hev : Module.End.HasEigenvalue (Matrix.toLin' A) x := by
    rw [Module.End.hasEigenvalue_iff_isRoot_charpoly, Matrix.charpoly_toLin']
    exact (Polynomial.mem_roots'.mp hx).2
  obtain ⟨i, hi⟩ := eigenvalue_mem_ball hev
  refine ⟨i, ?_⟩
  have h2 : (0 : ℝ) < √2 := by positivity
  have hd : A i i = z.getD i 0 := by simp [hA, tridiagonalOf, h2.ne']
  have hrow : ∑ j ∈ Finset.univ.erase i, ‖A i j‖ ≤ (√(c.getD i 0) + √(if i.val = 0 then 0 else c.getD (i - 1) 0)) / √2 := by
    have h3 : ∑ j ∈ Finset.univ.erase i, ‖A i j‖ ≤ ∑ j ∈ Finset.univ.erase i, ((if j.val = i.val + 1 then √(c.getD i 0) / √2 else 0) + (if i.val = j.val + 1 then √(if i.val = 0 then 0 else c.getD (i - 1) 0) / √2 else 0)) := by
      refine Finset.sum_le_sum fun j hj => ?_
      have hne : i.val ≠ j.val := fun h => (Finset.ne_of_mem_erase hj) (Fin.ext h).symm
      simp only [hA, tridiagonalOf, if_neg hne]
      by_cases c1 : i.val = j.val + 1
      · have e0 : ¬ (j.val = i.val + 1) := by omega
        have e1 : ¬ (i.val = 0) := by omega
        have e2 : i.val - 1 = j.val := by omega
        rw [if_pos c1, if_neg e0, if_pos c1, if_neg e1, e2, zero_add, norm_of_nonneg (by positivity)]
      · rw [if_neg c1, if_neg c1, add_zero]
        split_ifs
        · rw [norm_of_nonneg (by positivity)]
        · simp
    refine h3.trans ?_
    refine (Finset.sum_le_univ_sum_of_nonneg fun j => by positivity).trans ?_
    rw [Finset.sum_add_distrib, add_div]
    refine add_le_add (one_sum _ _ (by positivity) fun a b h h' => Fin.ext (by omega)) (one_sum _ _ (by positivity) fun a b h h' => Fin.ext (by omega))
  rw [mem_closedBall_iff_norm, hd, norm_eq_abs] at hi
  have h4 : |x| ≤ |z.getD i 0| + |x - z.getD i 0| := by
    have := abs_add_le (z.getD i 0) (x - z.getD i 0)
    simpa using this
  have h5 := hi.trans hrow
  rw [le_div_iff₀ h2] at h5
  nlinarith

variable {Ω : Type} [MeasurableSpace Ω]

/-- What is needed of an off-diagonal draw. -/
theorem chi_entry (P : Measure Ω) [IsProbabilityMeasure P] (n k : ℕ) (hn : 0 < n) (C : ℕ → Ω → ℝ) (hC : ChiSquareDraws P (n - 1) C) (η : ℝ) (hη : 0 < η) (hk : 2 * (k : ℝ) ≤ η * n) (j : ℕ) :
    (∀ᵐ ω ∂P, 0 ≤ ((List.range (n - 1)).map fun k => C k ω).getD j 0) ∧ Integrable (fun ω => ((List.range (n - 1)).map fun k => C k ω).getD j 0 ^ k) P ∧
      ∫ ω, ((List.range (n - 1)).map fun k => C k ω).getD j 0 ^ k ∂P ≤ ((1 + η) * n) ^ k := by
  by_cases hj : j < n - 1
  · have e : ∀ ω, ((List.range (n - 1)).map fun k => C k ω).getD j 0 = C j ω := fun ω => by simp [hj]
    simp only [e]
    have hm := hC.measurable j
    have hl := hC.law j hj
    refine ⟨?_, ?_, ?_⟩
    · have := chi_nonneg (n - 1 - j)
      rw [← hl, ae_map_iff hm.aemeasurable measurableSet_Ici] at this
      exact this
    · have := chi_pow_integrable (n - 1 - j) k
      rw [← hl] at this
      exact this.comp_measurable hm
    · have := chi_pow_large n (n - 1 - j) k (by omega) hn η hη hk
      rwa [← hl, integral_map hm.aemeasurable (by fun_prop)] at this
  · have e : ∀ ω, ((List.range (n - 1)).map fun k => C k ω).getD j 0 = 0 := fun ω => by
      rw [List.getD_eq_getElem?_getD, List.getElem?_eq_none (by simp; omega), Option.getD_none]
    simp only [e]
    refine ⟨Eventually.of_forall fun _ => le_rfl, integrable_const _, ?_⟩
    rw [integral_const]
    simp only [probReal_univ, one_smul]
    exact pow_le_pow_left₀ le_rfl (by positivity) k

theorem gauss_entry (P : Measure Ω) [IsProbabilityMeasure P] (n k : ℕ) (Z : ℕ → Ω → ℝ) (hZ : NormalDraws P Z) (a : ℝ) (ha : 2 ≤ a) (hk : 4 * (k : ℝ) ≤ a) (j : Fin n) :
    Integrable (fun ω => (((List.range n).map fun k => Z k ω).getD j 0 ^ 2) ^ k) P ∧ ∫ ω, (((List.range n).map fun k => Z k ω).getD j 0 ^ 2) ^ k ∂P ≤ a ^ k := by
  have e : ∀ ω, ((List.range n).map fun k => Z k ω).getD j 0 = Z j ω := fun ω => by simp
  simp only [e]
  have hm := hZ.measurable j
  have hl := hZ.law j
  have i1 := chi_pow_integrable 1 k
  have i2 := gauss_pow k a ha hk
  rw [← sq_law, ← hl, Measure.map_map (by fun_prop) hm] at i1 i2
  refine ⟨i1.comp_measurable ((measurable_id.pow_const 2).comp hm), ?_⟩
  rwa [integral_map (by fun_prop) (by fun_prop)] at i2

/-- The ratio by which the bound exceeds the edge. -/
noncomputable def ratio (η θ : ℝ) : ℝ := (1 + η) / (1 - θ) ^ 2

theorem tri_moment (eh : EigSolver) (hs : ExactSolver eh) (P : Measure Ω) [IsProbabilityMeasure P] (n k : ℕ) (hn : 0 < n) (C Z : ℕ → Ω → ℝ) (hC : ChiSquareDraws P (n - 1) C) (hZ : NormalDraws P Z)
    (η θ : ℝ) (hη : 0 < η) (h0 : 0 < θ) (h1 : θ < 1) (hk : 2 * (k : ℝ) ≤ η * n) (hk2 : 4 * (k : ℝ) ≤ 2 * θ ^ 2 * n) (hn2 : 2 ≤ 2 * θ ^ 2 * n) (l : Ω → List ℝ)
    (hl : ∀ ω, l ω = npSort (eh n (tridiagonalOf n ((List.range (n - 1)).map fun k => C k ω) ((List.range n).map fun k => Z k ω))))
    (hint : Integrable (fun ω => ∑ i : Fin n, (√2 * vec n (l ω) i) ^ (2 * k)) P) :
    ∫ ω, ∑ i : Fin n, (√2 * vec n (l ω) i) ^ (2 * k) ∂P ≤ n * (n * (4 * ratio η θ * n) ^ k) := by
  have hn' : (0 : ℝ) < n := by exact_mod_cast hn
  have h1' : 0 < 1 - θ := by linarith
  set c : Ω → ℕ → ℝ := fun ω j => ((List.range (n - 1)).map fun k => C k ω).getD j 0 with hc
  set c' : Ω → ℕ → ℝ := fun ω j => if j = 0 then 0 else ((List.range (n - 1)).map fun k => C k ω).getD (j - 1) 0 with hc'
  set z : Ω → ℕ → ℝ := fun ω j => ((List.range n).map fun k => Z k ω).getD j 0 with hz
  have fc := fun j => chi_entry P n k hn C hC η hη hk j
  have fc' : ∀ j : ℕ, (∀ᵐ ω ∂P, 0 ≤ c' ω j) ∧ Integrable (fun ω => c' ω j ^ k) P ∧ ∫ ω, c' ω j ^ k ∂P ≤ ((1 + η) * n) ^ k := by
    intro j
    by_cases hj : j = 0
    · simp only [hc', if_pos hj]
      refine ⟨Eventually.of_forall fun _ => le_rfl, integrable_const _, ?_⟩
      rw [integral_const]
      simp only [probReal_univ, one_smul]
      exact pow_le_pow_left₀ le_rfl (by positivity) k
    · simp only [hc', if_neg hj]
      exact fc (j - 1)
  have fz := fun j : Fin n => gauss_entry P n k Z hZ _ hn2 hk2 j
  set B : Fin n → Ω → ℝ := fun i ω => θ * ((2 / θ ^ 2) ^ k * (z ω i ^ 2) ^ k) + (1 - θ) / 2 * ((2 / (1 - θ)) ^ 2) ^ k * (c ω i ^ k + c' ω i ^ k) with hB
  have iB : ∀ i, Integrable (B i) P := fun i =>
    (((fz i).1.const_mul _).const_mul _).add (((fc i).2.1.add (fc' i).2.1).const_mul _)
  have bB : ∀ i, ∫ ω, B i ω ∂P ≤ (4 * ratio η θ * n) ^ k := by
    intro i
    have j1 : Integrable (fun ω => θ * ((2 / θ ^ 2) ^ k * (z ω i ^ 2) ^ k)) P := ((fz i).1.const_mul _).const_mul _
    have j2 : Integrable (fun ω => (1 - θ) / 2 * ((2 / (1 - θ)) ^ 2) ^ k * (c ω i ^ k + c' ω i ^ k)) P := ((fc i).2.1.add (fc' i).2.1).const_mul _
    have j3 : Integrable (fun ω => c ω i ^ k) P := (fc i).2.1
    have j4 : Integrable (fun ω => c' ω i ^ k) P := (fc' i).2.1
    rw [hB]
    simp only
    rw [integral_add j1 j2, integral_const_mul, integral_const_mul, integral_const_mul, integral_add j3 j4]
    have b1 : ∫ ω, (z ω i ^ 2) ^ k ∂P ≤ (2 * θ ^ 2 * n) ^ k := (fz i).2
    have b2 : ∫ ω, c ω i ^ k ∂P ≤ ((1 + η) * n) ^ k := (fc i).2.2
    have b3 : ∫ ω, c' ω i ^ k ∂P ≤ ((1 + η) * n) ^ k := (fc' i).2.2
    have e1 : (2 / θ ^ 2) ^ k * (2 * θ ^ 2 * n) ^ k = (4 * n) ^ k := by
      rw [← mul_pow]
      congr 1
      field_simp
      ring
    have e2 : ((2 / (1 - θ)) ^ 2) ^ k * ((1 + η) * n) ^ k = (4 * ratio η θ * n) ^ k := by
      rw [← mul_pow, ratio]
      congr 1
      field_simp
      ring
    have hr : 1 ≤ ratio η θ := by
      rw [ratio, le_div_iff₀ (by positivity)]
      nlinarith
    have e3 : (4 * (n : ℝ)) ^ k ≤ (4 * ratio η θ * n) ^ k := by
      refine pow_le_pow_left₀ (by positivity) ?_ k
      nlinarith
    have p1 := mul_le_mul_of_nonneg_left b1 (show 0 ≤ (2 / θ ^ 2) ^ k by positivity)
    have p2 := mul_le_mul_of_nonneg_left b2 (show 0 ≤ ((2 / (1 - θ)) ^ 2) ^ k by positivity)
    have p3 := mul_le_mul_of_nonneg_left b3 (show 0 ≤ ((2 / (1 - θ)) ^ 2) ^ k by positivity)
    rw [e1] at p1
    rw [e2] at p2 p3
    have q1 := mul_le_mul_of_nonneg_left (p1.trans e3) h0.le
    have q2 := mul_le_mul_of_nonneg_left (add_le_add p2 p3) (show 0 ≤ (1 - θ) / 2 by linarith)
    linarith
  have hpt : ∀ᵐ ω ∂P, ∑ i : Fin n, (√2 * vec n (l ω) i) ^ (2 * k) ≤ n * ∑ i, B i ω := by
    have a1 := ae_all_iff.mpr fun j => (fc j).1
    have a2 := ae_all_iff.mpr fun j => (fc' j).1
    filter_upwards [a1, a2] with ω g1 g2
    have hBn : ∀ i, 0 ≤ B i ω := fun i => by
      have := g1 i
      have := g2 i
      simp only [hB]
      positivity
    have hone : ∀ i : Fin n, (√2 * vec n (l ω) i) ^ (2 * k) ≤ ∑ i, B i ω := by
      intro i
      by_cases hlen : i.val < (l ω).length
      · have hmem : vec n (l ω) i ∈ l ω := by
          simp only [vec, List.getD_eq_getElem?_getD, List.getElem?_eq_getElem hlen, Option.getD_some]
          exact List.getElem_mem hlen
        generalize vec n (l ω) i = x at hmem
        rw [hl] at hmem
        obtain ⟨r, hr⟩ := tri_row n _ _ eh hs x hmem
        have h3 := row_pow (z ω r) (c ω r) (c' ω r) θ (g1 r) (g2 r) h0 h1 k
        have h4 : (√2 * x) ^ (2 * k) ≤ (√2 * |z ω r| + √(c ω r) + √(c' ω r)) ^ (2 * k) := by
          have : (√2 * x) ^ (2 * k) = (√2 * |x|) ^ (2 * k) := by rw [mul_pow, mul_pow, pow_mul |x|, sq_abs, ← pow_mul]
          rw [this]
          exact pow_le_pow_left₀ (by positivity) hr _
        exact (h4.trans h3).trans (Finset.single_le_sum (f := fun i => B i ω) (fun i _ => hBn i) (Finset.mem_univ r))
      · have : vec n (l ω) i = 0 := by
          simp only [vec, List.getD_eq_getElem?_getD, List.getElem?_eq_none (not_lt.mp hlen), Option.getD_none]
        rw [this, mul_zero]
        have h3 := row_pow (z ω i) (c ω i) (c' ω i) θ (g1 i) (g2 i) h0 h1 k
        have h4 : (0 : ℝ) ^ (2 * k) ≤ (√2 * |z ω i| + √(c ω i) + √(c' ω i)) ^ (2 * k) := pow_le_pow_left₀ le_rfl (by positivity) _
        exact (h4.trans h3).trans (Finset.single_le_sum (f := fun i => B i ω) (fun i _ => hBn i) (Finset.mem_univ i))
    calc ∑ i : Fin n, (√2 * vec n (l ω) i) ^ (2 * k) ≤ ∑ _i : Fin n, ∑ i, B i ω := Finset.sum_le_sum fun i _ => hone i
      _ = n * ∑ i, B i ω := by simp
  calc ∫ ω, ∑ i : Fin n, (√2 * vec n (l ω) i) ^ (2 * k) ∂P ≤ ∫ ω, n * ∑ i, B i ω ∂P :=
        integral_mono_ae hint ((integrable_finsetSum _ fun i _ => iB i).const_mul _) hpt
    _ = n * ∑ i, ∫ ω, B i ω ∂P := by rw [integral_const_mul, integral_finsetSum _ fun i _ => iB i]
    _ ≤ n * ∑ _i : Fin n, (4 * ratio η θ * n) ^ k := by
        refine mul_le_mul_of_nonneg_left (Finset.sum_le_sum fun i _ => bB i) hn'.le
    _ = n * (n * (4 * ratio η θ * n) ^ k) := by simp

/-- The expected trace of the `2k`-th power of a generated GOE matrix, for `k` small compared with `n`. -/
theorem W_le (n k : ℕ) (hn : 0 < n) (η θ : ℝ) (hη : 0 < η) (h0 : 0 < θ) (h1 : θ < 1) (hk : 2 * (k : ℝ) ≤ η * n) (hk2 : 4 * (k : ℝ) ≤ 2 * θ ^ 2 * n) (hn2 : 2 ≤ 2 * θ ^ 2 * n) :
    W n [2 * k] ≤ n * (n * (4 * ratio η θ * n) ^ k) := by
  obtain ⟨hN, hC, hZ, hi⟩ := two_hyps n
  obtain ⟨eh, hs⟩ : ∃ eh : EigSolver, ExactSolver eh := ⟨fun _ M => M.charpoly.roots.toList, fun _ _ _ => Multiset.coe_toList _⟩
  have hid := C144_draws eh hs n (twoLaw n) _ hN (twoLaw n) _ _ hC hZ hi
  have hg : Measurable fun v : Fin n → ℝ => ∑ i, v i ^ (2 * k) := by fun_prop
  have hid2 := hid.comp hg
  obtain ⟨f1, -, f3⟩ := full_facts eh hs (fun k ω => draw twoRng ω k) hN.measurable n
  have e : ∀ ω, ∑ i : Fin n, vec n (full eh (fun k ω => draw twoRng ω k) n ω) i ^ (2 * k) = MvPolynomial.eval (pt (fun k ω => draw twoRng ω k) n ω) (tp n (2 * k)) := fun ω => by
    rw [← f3 ω]
    exact Semi.sum_getD _ n (f1 ω) fun x => x ^ (2 * k)
  have i1 : Integrable (fun ω => ∑ i : Fin n, vec n (full eh (fun k ω => draw twoRng ω k) n ω) i ^ (2 * k)) (twoLaw n) := by
    simp only [e]
    exact integrable_pt _ hN n _
  have i2 := hid2.integrable_iff.mp i1
  have h3 := tri_moment eh hs (twoLaw n) n k hn _ _ hC hZ η θ hη h0 h1 hk hk2 hn2 _ (fun _ => rfl) i2
  have h4 := hid2.integral_eq
  have h5 : ∫ ω, ∑ i : Fin n, vec n (full eh (fun k ω => draw twoRng ω k) n ω) i ^ (2 * k) ∂(twoLaw n) = W n [2 * k] := by
    simp only [e]
    rw [integral_pt _ hN, W, pp]
    simp
  rw [← h5]
  exact h4.trans_le h3

/-- The products of traces of a GUE matrix have non-negative expectations, which are at most those of the GOE. -/
theorem V_le_W (n : ℕ) (l : List ℕ) : 0 ≤ (V n l).re ∧ (V n l).re ≤ W n l := by
  induction hm : l.sum using Nat.strong_induction_on generalizing l with
  | _ m ihm =>
    induction l with
    | nil => simp [V_nil, W_nil]
    | cons a l ihl =>
      rcases a with - | k
      · have e : (V n (0 :: l)).re = n * (V n l).re := by rw [V_zero]; simp
        obtain ⟨h1, h2⟩ := ihl (by simpa using hm)
        rw [e, W_zero]
        exact ⟨by positivity, mul_le_mul_of_nonneg_left h2 (by positivity)⟩
      · have hsum : k + 1 + l.sum = m := by simpa using hm
        have ih : ∀ l' : List ℕ, l'.sum < m → 0 ≤ (V n l').re ∧ (V n l').re ≤ W n l' := fun l' h => ihm l'.sum h l' rfl
        rw [V_succ, W_succ, Complex.add_re, Complex.re_sum, re_list_sum]
        have s1 : ∀ j ∈ Finset.range k, 0 ≤ (V n (j :: (k - 1 - j) :: l)).re ∧ (V n (j :: (k - 1 - j) :: l)).re ≤ W n (j :: (k - 1 - j) :: l) := fun j hj => ih _ (by
          rw [Finset.mem_range] at hj
          simp
          omega)
        have s2 : 0 ≤ (k : ℝ) * W n ((k - 1) :: l) := by
          have := ih ((k - 1) :: l) (by simp; omega)
          exact mul_nonneg (by positivity) (this.1.trans this.2)
        have s3 : ∀ p ∈ splits l, 0 ≤ ((p.1 : ℂ) * V n ((k + (p.1 - 1)) :: p.2)).re ∧ ((p.1 : ℂ) * V n ((k + (p.1 - 1)) :: p.2)).re ≤ 2 * (p.1 : ℝ) * W n ((k + (p.1 - 1)) :: p.2) := by
          intro p hp
          obtain ⟨-, h2⟩ := splits_mem l p hp
          have e : ((p.1 : ℂ) * V n ((k + (p.1 - 1)) :: p.2)).re = p.1 * (V n ((k + (p.1 - 1)) :: p.2)).re := by simp
          obtain ⟨h3, h4⟩ := ih ((k + (p.1 - 1)) :: p.2) (by simp; omega)
          rw [e]
          have hp0 : (0 : ℝ) ≤ p.1 := by positivity
          exact ⟨by positivity, by nlinarith [mul_nonneg hp0 h3, mul_le_mul_of_nonneg_left h4 hp0]⟩
        have t1 := Finset.sum_nonneg fun j hj => (s1 j hj).1
        have t2 := Finset.sum_le_sum fun j hj => (s1 j hj).2
        have t3 : 0 ≤ ((splits l).map fun p => ((p.1 : ℂ) * V n ((k + (p.1 - 1)) :: p.2)).re).sum := List.sum_nonneg (by
          intro x hx
          obtain ⟨p, hp, rfl⟩ := List.mem_map.mp hx
          exact (s3 p hp).1)
        have t4 : ((splits l).map fun p => ((p.1 : ℂ) * V n ((k + (p.1 - 1)) :: p.2)).re).sum ≤ ((splits l).map fun p => 2 * (p.1 : ℝ) * W n ((k + (p.1 - 1)) :: p.2)).sum :=
          List.sum_le_sum fun p hp => (s3 p hp).2
        exact ⟨by linarith, by linarith⟩

/-- A level outside `[-b√n, b√n]` makes the sum of the powers large. -/
theorem outside_le (P : Measure Ω) [IsProbabilityMeasure P] (n k : ℕ) (hn : 0 < n) (b M : ℝ) (hb : 0 < b) (l : Ω → List ℝ) (hint : Integrable (fun ω => SpectrumM.powSum (2 * k) (l ω)) P)
    (hM : ∫ ω, SpectrumM.powSum (2 * k) (l ω) ∂P ≤ n * (n * (4 * M * n) ^ k)) :
    P {ω | ∃ x ∈ l ω, b * √n ≤ |x|} ≤ ENNReal.ofReal (n ^ 2 * (4 * M / b ^ 2) ^ k) := by
  have hn' : (0 : ℝ) < n := by exact_mod_cast hn
  have hnn : ∀ ω, 0 ≤ SpectrumM.powSum (2 * k) (l ω) := fun ω => List.sum_nonneg (by
    intro x hx
    obtain ⟨y, -, rfl⟩ := List.mem_map.mp hx
    rw [pow_mul]
    positivity)
  have hsub : {ω | ∃ x ∈ l ω, b * √n ≤ |x|} ⊆ {ω | (b ^ 2 * n) ^ k ≤ SpectrumM.powSum (2 * k) (l ω)} := by
    rintro ω ⟨x, hx, hle⟩
    have h1 : (b ^ 2 * n) ^ k ≤ x ^ (2 * k) := by
      rw [pow_mul, ← sq_abs x]
      refine pow_le_pow_left₀ (by positivity) ?_ k
      have := pow_le_pow_left₀ (by positivity) hle 2
      rwa [mul_pow, sq_sqrt hn'.le] at this
    refine h1.trans ?_
    refine List.single_le_sum (l := (l ω).map (· ^ (2 * k))) ?_ _ (List.mem_map_of_mem (f := (· ^ (2 * k))) hx)
    intro y hy
    obtain ⟨z, -, rfl⟩ := List.mem_map.mp hy
    rw [pow_mul]
    positivity
  have hpos : 0 < (b ^ 2 * n) ^ k := by positivity
  have hmk := mul_meas_ge_le_integral_of_nonneg (Eventually.of_forall hnn) hint ((b ^ 2 * n) ^ k)
  refine (measure_mono hsub).trans ?_
  rw [← ofReal_measureReal]
  refine ENNReal.ofReal_le_ofReal ?_
  have h2 := hmk.trans hM
  rw [mul_comm, ← le_div_iff₀ hpos] at h2
  refine h2.trans_eq ?_
  have : (4 * M / b ^ 2) ^ k = (4 * M * n) ^ k / (b ^ 2 * n) ^ k := by
    rw [← div_pow]
    congr 1
    field_simp
  rw [this]
  ring

/-- The bound is exponentially small if the powers are chosen well. -/
theorem choose_power (b : ℝ) (hb : 2 < b) : ∃ r : ℝ, 0 < r ∧ r < 1 ∧ ∀ᶠ n : ℕ in atTop, 0 < n ∧ ∃ (k : ℕ) (M : ℝ), W n [2 * k] ≤ n * (n * (4 * M * n) ^ k) ∧ (n : ℝ) ^ 2 * (4 * M / b ^ 2) ^ k ≤ r ^ n := by
  have hcont : Tendsto (fun t : ℝ => ratio t t) (𝓝[>] 0) (𝓝 1) := by
    have h : ContinuousAt (fun t : ℝ => ratio t t) 0 := by
      unfold ratio
      refine ContinuousAt.div (by fun_prop) (by fun_prop) (by norm_num)
    have h2 := h.tendsto
    have h3 : ratio 0 0 = 1 := by norm_num [ratio]
    rw [h3] at h2
    exact h2.mono_left nhdsWithin_le_nhds
  have hlt : (1 : ℝ) < b ^ 2 / 4 := by nlinarith
  obtain ⟨t, ⟨htr, ht1⟩, ht0⟩ := (((hcont.eventually_lt_const hlt).and (nhdsWithin_le_nhds (Iio_mem_nhds (show (0 : ℝ) < 1 by norm_num)))).and self_mem_nhdsWithin).exists
  have ht0 : 0 < t := ht0
  have ht1 : t < 1 := ht1
  have h1' : 0 < 1 - t := by linarith
  have hrpos : 0 < ratio t t := by unfold ratio; positivity
  set q := 4 * ratio t t / b ^ 2 with hq
  have hq0 : 0 < q := by positivity
  have hq1 : q < 1 := by
    rw [hq, div_lt_one (by positivity)]
    linarith
  set c := min (t / 2) (t ^ 2 / 2) with hc
  have hc0 : 0 < c := by positivity
  have hs1 : q ^ (c / 2) < 1 := rpow_lt_one hq0.le hq1 (by positivity)
  have hs0 : 0 < q ^ (c / 2) := rpow_pos_of_pos hq0 _
  set r := q ^ (c / 2) with hr
  refine ⟨r, hs0, hs1, ?_⟩
  have hlim := (tendsto_pow_const_mul_const_pow_of_abs_lt_one 2 (show |r| < 1 by rwa [abs_of_pos hs0])).eventually_lt_const (show (0 : ℝ) < q by exact hq0)
  have hbig : ∀ᶠ n : ℕ in atTop, 1 / t ^ 2 ≤ (n : ℝ) := tendsto_natCast_atTop_atTop.eventually_ge_atTop _
  filter_upwards [hlim, hbig, eventually_gt_atTop 0] with n hl hbg hn
  have hn' : (0 : ℝ) < n := by exact_mod_cast hn
  refine ⟨hn, ⌊c * n⌋₊, ratio t t, ?_, ?_⟩
  · have hf := Nat.floor_le (show 0 ≤ c * n by positivity)
    have c1 : c ≤ t / 2 := min_le_left _ _
    have c2 : c ≤ t ^ 2 / 2 := min_le_right _ _
    rw [div_le_iff₀ (by positivity)] at hbg
    refine W_le n _ hn t t ht0 ht0 ht1 ?_ ?_ ?_
    · nlinarith
    · nlinarith
    · nlinarith
  · have hf := Nat.lt_floor_add_one (c * n)
    have h2 : q ^ ⌊c * n⌋₊ ≤ q ^ (c * n - 1) := by
      rw [← rpow_natCast]
      exact rpow_le_rpow_of_exponent_ge hq0 hq1.le (by linarith)
    have h3 : q ^ (c * n - 1) = r ^ n * r ^ n / q := by
      rw [rpow_sub_one hq0.ne', hr, ← rpow_natCast, ← rpow_mul hq0.le, ← rpow_add hq0]
      congr 2
      ring
    rw [h3] at h2
    have h4 : (n : ℝ) ^ 2 * q ^ ⌊c * n⌋₊ ≤ n ^ 2 * (r ^ n * r ^ n / q) := mul_le_mul_of_nonneg_left h2 (by positivity)
    refine h4.trans ?_
    have h5 : (n : ℝ) ^ 2 * (r ^ n * r ^ n / q) = (n ^ 2 * r ^ n / q) * r ^ n := by ring
    rw [h5]
    refine mul_le_of_le_one_left (by positivity) ?_
    rw [div_le_one hq0]
    exact hl.le

/-- **The edge, GOE.** -/
theorem goe_edge (eh : EigSolver) (hs : ExactSolver eh) (P : ℕ → Measure Ω) [∀ n, IsProbabilityMeasure (P n)] (X : ℕ → ℕ → Ω → ℝ) (hX : ∀ n, NormalDraws (P n) (X n)) (b : ℝ) (hb : 2 < b) :
    ∃ r : ℝ, 0 < r ∧ r < 1 ∧ ∀ᶠ n : ℕ in atTop, P n {ω | ∃ x ∈ full eh (X n) n ω, b * √n ≤ |x|} ≤ ENNReal.ofReal (r ^ n) := by
  obtain ⟨r, h0, h1, h⟩ := choose_power b hb
  refine ⟨r, h0, h1, ?_⟩
  filter_upwards [h] with n ⟨hn, k, M, hW, hle⟩
  obtain ⟨-, -, f3⟩ := full_facts eh hs (X n) (hX n).measurable n
  refine (outside_le (P n) n k hn b M (by linarith) _ ?_ ?_).trans (ENNReal.ofReal_le_ofReal hle)
  · simp only [f3]
    exact integrable_pt _ (hX n) n _
  · simp only [f3]
    rw [integral_pt _ (hX n)]
    refine le_of_eq_of_le ?_ hW
    simp [W, pp]

/-- **The edge, GUE.** -/
theorem gue_edge (eh : (n : Nat) → Matrix (Fin n) (Fin n) ℂ → List ℝ) (hs : ExactHermitian eh) (P : ℕ → Measure Ω) [∀ n, IsProbabilityMeasure (P n)] (X : ℕ → ℕ → Ω → ℝ) (hX : ∀ n, NormalDraws (P n) (X n)) (b : ℝ) (hb : 2 < b) :
    ∃ r : ℝ, 0 < r ∧ r < 1 ∧ ∀ᶠ n : ℕ in atTop, P n {ω | ∃ x ∈ fullC eh (X n) n ω, b * √n ≤ |x|} ≤ ENNReal.ofReal (r ^ n) := by
  obtain ⟨r, h0, h1, h⟩ := choose_power b hb
  refine ⟨r, h0, h1, ?_⟩
  filter_upwards [h] with n ⟨hn, k, M, hW, hle⟩
  obtain ⟨-, -, f3⟩ := fullC_facts eh hs (X n) (hX n).measurable n
  have f4 : ∀ ω, SpectrumM.powSum (2 * k) (fullC eh (X n) n ω) = (rev (ptC (X n) n ω) (th n (2 * k))).re := fun ω => by rw [← f3, Complex.ofReal_re]
  refine (outside_le (P n) n k hn b M (by linarith) _ ?_ ?_).trans (ENNReal.ofReal_le_ofReal hle)
  · simp only [f4]
    exact (integrable_ptC _ (hX n) n _).re
  · simp only [f4]
    rw [integral_ptC _ (hX n)]
    refine (le_of_eq_of_le ?_ (V_le_W n [2 * k]).2).trans hW
    simp [V, ph]

end RMT.Edge
