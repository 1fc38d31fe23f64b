import Verif.Lemmas.WignerMoments
import Verif.Lemmas.PolynomialZeros

/-! # Gaussian integrals of complex polynomials, and the loop equations of the GUE -/

namespace RMT.Gauss
open MeasureTheory ProbabilityTheory Real MvPolynomial Matrix

variable {ι : Type} [Fintype ι] [DecidableEq ι]

omit [DecidableEq ι] in
theorem rev_monomial (s : ι →₀ ℕ) (a : ℂ) (x : ι → ℝ) : rev x (monomial s a) = a * ((∏ i, x i ^ s i : ℝ) : ℂ) := by
  rw [rev, eval_monomial, Finsupp.prod_fintype _ _ (by simp)]
  push_cast
  rfl

omit [DecidableEq ι] in
theorem rev_integrable (p : MvPolynomial ι ℂ) : Integrable (fun x => rev x p) (gpi ι) := by
  induction p using MvPolynomial.induction_on' with
  | monomial s a =>
    simp only [rev_monomial]
    refine Integrable.const_mul (Integrable.ofReal ?_) a
    exact Integrable.fintype_prod (f := fun i (x : ℝ) => x ^ s i) fun i => gm_integrable _
  | add p q hp hq =>
    have : (fun x => rev x (p + q)) = fun x => rev x p + rev x q := by funext x; simp [rev]
    rw [this]
    exact hp.add hq

/-- The expected value of a complex polynomial in independent standard normal variables. -/
noncomputable def exC (p : MvPolynomial ι ℂ) : ℂ := ∫ x, rev x p ∂(gpi ι)

omit [DecidableEq ι] in
theorem exC_add (p q : MvPolynomial ι ℂ) : exC (p + q) = exC p + exC q := by
  simp only [exC, rev, map_add]
  exact integral_add (rev_integrable p) (rev_integrable q)

omit [DecidableEq ι] in
theorem exC_C_mul (a : ℂ) (p : MvPolynomial ι ℂ) : exC (C a * p) = a * exC p := by
  simp only [exC, rev, map_mul, eval_C]
  exact integral_const_mul _ _

/-- As a linear map. -/
noncomputable def exlC (ι : Type) [Fintype ι] : MvPolynomial ι ℂ →ₗ[ℂ] ℂ where
  toFun := exC
  map_add' := exC_add
  map_smul' a p := by rw [MvPolynomial.smul_eq_C_mul, exC_C_mul]; rfl

omit [DecidableEq ι] in
theorem exlC_apply (p : MvPolynomial ι ℂ) : exlC ι p = exC p := rfl

omit [DecidableEq ι] in
theorem exC_monomial (s : ι →₀ ℕ) (a : ℂ) : exC (monomial s a) = a * ((∏ i, gm (s i) : ℝ) : ℂ) := by
  simp only [exC, rev_monomial]
  have h : ∫ x, ((∏ i, x i ^ s i : ℝ) : ℂ) ∂(gpi ι) = ((∫ x, ∏ i, x i ^ s i ∂(gpi ι) : ℝ) : ℂ) := integral_complex_ofReal
  rw [integral_const_mul, h]
  congr 2
  exact integral_fintype_prod_eq_prod (fun i (x : ℝ) => x ^ s i)

/-- Integration by parts. -/
theorem exC_X_mul (i : ι) (p : MvPolynomial ι ℂ) : exC (X i * p) = exC (pderiv i p) := by
  induction p using MvPolynomial.induction_on' with
  | monomial s a =>
    rw [pderiv_monomial, X, monomial_mul, one_mul, exC_monomial, exC_monomial, mul_assoc]
    congr 1
    rw [← Finset.mul_prod_erase Finset.univ _ (Finset.mem_univ i), ← Finset.mul_prod_erase Finset.univ (fun j => gm ((s - Finsupp.single i 1 : ι →₀ ℕ) j)) (Finset.mem_univ i)]
    have hrest : ∀ j ∈ Finset.univ.erase i, gm ((Finsupp.single i 1 + s : ι →₀ ℕ) j) = gm ((s - Finsupp.single i 1 : ι →₀ ℕ) j) := by
      intro j hj
      have hji : i ≠ j := fun h => by simp [h] at hj
      simp [hji]
    rw [Finset.prod_congr rfl hrest]
    simp only [Finsupp.coe_add, Pi.add_apply, Finsupp.single_eq_same, Finsupp.coe_tsub, Pi.sub_apply]
    rw [add_comm 1, gm_succ]
    push_cast
    ring
  | add p q hp hq => rw [mul_add, exC_add, hp, hq, map_add, exC_add]

variable {n : ℕ}

/-- Polynomials in the real and imaginary parts of `n²` entries. -/
abbrev PolC (n : ℕ) : Type := MvPolynomial ((Fin n × Fin n) ⊕ (Fin n × Fin n)) ℂ

/-- The GUE matrix with polynomial entries. -/
noncomputable def hm (n : ℕ) : Matrix (Fin n) (Fin n) (PolC n) :=
  Matrix.of fun i j => C (1 / 2 : ℂ) * (X (.inl (i, j)) + X (.inl (j, i))) + C (Complex.I / 2) * (X (.inr (i, j)) - X (.inr (j, i)))

/-- The derivative which integration by parts gives for the entry `(a, b)`. -/
noncomputable def dd (a b : Fin n) : Derivation ℂ (PolC n) (PolC n) :=
  (1 / 2 : ℂ) • (pderiv (.inl (a, b)) + pderiv (.inl (b, a))) + (Complex.I / 2) • (pderiv (.inr (a, b)) - pderiv (.inr (b, a)))

theorem dd_apply (a b : Fin n) (p : PolC n) : dd a b p =
    C (1 / 2 : ℂ) * (pderiv (.inl (a, b)) p + pderiv (.inl (b, a)) p) + C (Complex.I / 2) * (pderiv (.inr (a, b)) p - pderiv (.inr (b, a)) p) := by
  simp [dd, MvPolynomial.smul_eq_C_mul]
  ring

theorem exC_hm_mul (a b : Fin n) (p : PolC n) : exC (hm n a b * p) = exC (dd a b p) := by
  have h1 : hm n a b * p = C (1 / 2 : ℂ) * (X (.inl (a, b)) * p + X (.inl (b, a)) * p) + C (Complex.I / 2) * (X (.inr (a, b)) * p + C (-1) * (X (.inr (b, a)) * p)) := by
    have : (C (-1) : PolC n) = -1 := by simp
    rw [hm, Matrix.of_apply, this]; ring
  have h2 : dd a b p = C (1 / 2 : ℂ) * (pderiv (.inl (a, b)) p + pderiv (.inl (b, a)) p) + C (Complex.I / 2) * (pderiv (.inr (a, b)) p + C (-1) * pderiv (.inr (b, a)) p) := by
    have : (C (-1) : PolC n) = -1 := by simp
    rw [dd_apply, this]; ring
  rw [h1, h2]
  simp only [exC_add, exC_C_mul, exC_X_mul]

theorem dd_hm (a b x y : Fin n) : dd a b (hm n x y) = if x = b ∧ y = a then 1 else 0 := by
  have hI : (C (Complex.I / 2) : PolC n) * C (Complex.I / 2) = -(C (1 / 2) * C (1 / 2)) := by
    rw [← C_mul, ← C_mul, ← map_neg]
    congr 1
    linear_combination (1 / 4 : ℂ) * Complex.I_mul_I
  have hH : (C (1 / 2) : PolC n) * C (1 / 2) * 4 = 1 := by
    rw [← C_mul, show (4 : PolC n) = C 4 from (map_ofNat C 4).symm, ← C_mul, ← C_1]
    congr 1
    norm_num
  rw [dd_apply, hm, Matrix.of_apply]
  simp only [map_add, map_sub, pderiv_C_mul, pderiv_X, Pi.single_apply, Sum.inl.injEq, Sum.inr.injEq, Prod.mk.injEq, reduceCtorEq, if_false, mul_zero, sub_zero, add_zero, zero_add]
  set P : PolC n := if x = a ∧ y = b then 1 else 0 with hP
  have h3 : (if y = a ∧ x = b then (1 : PolC n) else 0) = if x = b ∧ y = a then 1 else 0 := by simp [and_comm]
  have h4 : (if y = b ∧ x = a then (1 : PolC n) else 0) = P := by rw [hP]; simp [and_comm]
  rw [h3, h4]
  set Q : PolC n := if x = b ∧ y = a then 1 else 0
  linear_combination (2 * P - 2 * Q) * hI + Q * hH

theorem dd_pow (a b : Fin n) (k : ℕ) (x y : Fin n) : dd a b ((hm n ^ k) x y) = ∑ j ∈ Finset.range k, (hm n ^ j) x b * (hm n ^ (k - 1 - j)) a y := by
  induction k generalizing x y with
  | zero =>
    simp only [pow_zero, Matrix.one_apply, Finset.range_zero, Finset.sum_empty]
    split_ifs <;> simp
  | succ k ih =>
    rw [pow_succ, Matrix.mul_apply, map_sum]
    simp only [Derivation.leibniz, smul_eq_mul, ih, dd_hm]
    rw [Finset.sum_add_distrib, Finset.sum_range_succ]
    have e1 : ∑ z, (hm n ^ k) x z * (if z = b ∧ y = a then 1 else 0) = (hm n ^ k) x b * (hm n ^ (k + 1 - 1 - k)) a y := by
      rw [show k + 1 - 1 - k = 0 by omega, pow_zero, Matrix.one_apply]
      have : ∀ z, (hm n ^ k) x z * (if z = b ∧ y = a then 1 else 0) = if z = b then (if a = y then (hm n ^ k) x z else 0) else 0 := by
        intro z
        by_cases h1 : z = b <;> by_cases h2 : y = a <;> simp_all [eq_comm]
      simp only [this, Finset.sum_ite_eq', Finset.mem_univ, if_true]
      split_ifs <;> simp
    have e2 : ∑ z, hm n z y * ∑ j ∈ Finset.range k, (hm n ^ j) x b * (hm n ^ (k - 1 - j)) a z = ∑ j ∈ Finset.range k, (hm n ^ j) x b * (hm n ^ (k + 1 - 1 - j)) a y := by
      simp only [Finset.mul_sum]
      rw [Finset.sum_comm]
      refine Finset.sum_congr rfl fun j hj => ?_
      rw [Finset.mem_range] at hj
      rw [show k + 1 - 1 - j = k - 1 - j + 1 by omega, pow_succ, Matrix.mul_apply, Finset.mul_sum]
      exact Finset.sum_congr rfl fun z _ => by ring
    rw [e1, e2]
    ring

/-- The trace of the `k`-th power. -/
noncomputable def th (n k : ℕ) : PolC n := (hm n ^ k).trace

theorem th_zero : th n 0 = n := by simp [th]

theorem th_succ (k : ℕ) : th n (k + 1) = ∑ a, ∑ b, hm n a b * (hm n ^ k) b a := by
  rw [th, pow_succ', Matrix.trace]
  simp only [Matrix.diag_apply, Matrix.mul_apply]

theorem sum_hm_hm (j l : ℕ) : ∑ a, ∑ b, (hm n ^ j) b a * (hm n ^ l) a b = th n (j + l) := by
  rw [th, pow_add, Matrix.trace, Finset.sum_comm]
  simp only [Matrix.diag_apply, Matrix.mul_apply]

theorem sum_dd_pow (k : ℕ) : ∑ a, ∑ b, dd a b ((hm n ^ k) b a) = ∑ j ∈ Finset.range k, th n j * th n (k - 1 - j) := by
  simp only [dd_pow]
  have h : ∀ a : Fin n, ∑ b, ∑ j ∈ Finset.range k, (hm n ^ j) b b * (hm n ^ (k - 1 - j)) a a = ∑ j ∈ Finset.range k, th n j * (hm n ^ (k - 1 - j)) a a := by
    intro a
    rw [Finset.sum_comm]
    refine Finset.sum_congr rfl fun j _ => ?_
    rw [← Finset.sum_mul]
    rfl
  simp only [h]
  rw [Finset.sum_comm]
  refine Finset.sum_congr rfl fun j _ => ?_
  rw [← Finset.mul_sum]
  rfl

theorem dd_th (a b : Fin n) (l : ℕ) : dd a b (th n l) = l * (hm n ^ (l - 1)) a b := by
  rw [th, Matrix.trace, map_sum]
  simp only [Matrix.diag_apply, dd_pow]
  rw [Finset.sum_comm]
  have h : ∀ j ∈ Finset.range l, ∑ x, (hm n ^ j) x b * (hm n ^ (l - 1 - j)) a x = (hm n ^ (l - 1)) a b := by
    intro j hj
    rw [Finset.mem_range] at hj
    have h1 : ∀ x, (hm n ^ j) x b * (hm n ^ (l - 1 - j)) a x = (hm n ^ (l - 1 - j)) a x * (hm n ^ j) x b := fun x => mul_comm _ _
    simp only [h1]
    rw [← Matrix.mul_apply, ← pow_add, show l - 1 - j + j = l - 1 by omega]
  rw [Finset.sum_congr rfl h]
  simp

/-- The product of the traces of the powers in `l`. -/
noncomputable def ph (n : ℕ) (l : List ℕ) : PolC n := (l.map (th n)).prod

theorem dd_ph (a b : Fin n) (l : List ℕ) : dd a b (ph n l) = ((splits l).map fun p => dd a b (th n p.1) * ph n p.2).sum := by
  induction l with
  | nil => simp [ph, splits]
  | cons c l ih =>
    have : ph n (c :: l) = th n c * ph n l := by simp [ph]
    rw [this, Derivation.leibniz, ih]
    simp only [smul_eq_mul, splits, List.map_cons, List.sum_cons, List.map_map, Function.comp_def]
    rw [← List.sum_map_mul_left]
    have h2 : ∀ p : ℕ × List ℕ, th n c * (dd a b (th n p.1) * ph n p.2) = dd a b (th n p.1) * ph n (c :: p.2) := by
      intro p; simp only [ph, List.map_cons, List.prod_cons]; ring
    simp only [h2]
    ring

theorem sum_listC {α κ : Type} (s : Finset κ) (l : List α) (f : κ → α → PolC n) : ∑ i ∈ s, (l.map (f i)).sum = (l.map fun p => ∑ i ∈ s, f i p).sum := by
  induction l with
  | nil => simp
  | cons a l ih => simp [Finset.sum_add_distrib, ih]

theorem loop_polyC (k : ℕ) (l : List ℕ) : ∑ a, ∑ b, dd a b ((hm n ^ k) b a * ph n l) =
    (∑ j ∈ Finset.range k, ph n (j :: (k - 1 - j) :: l)) + ((splits l).map fun p => (p.1 : PolC n) * ph n ((k + (p.1 - 1)) :: p.2)).sum := by
  have h1 : ∀ a b, dd a b ((hm n ^ k) b a * ph n l) = dd a b ((hm n ^ k) b a) * ph n l +
      ((splits l).map fun p => p.1 * ph n p.2 * ((hm n ^ k) b a * (hm n ^ (p.1 - 1)) a b)).sum := by
    intro a b
    rw [Derivation.leibniz, dd_ph, smul_eq_mul, smul_eq_mul, add_comm, mul_comm (ph n l), ← List.sum_map_mul_left]
    congr 3
    ext p
    rw [dd_th]
    ring_nf
  simp only [h1, Finset.sum_add_distrib, ← Finset.sum_mul]
  rw [sum_dd_pow]
  congr 1
  · rw [Finset.sum_mul]
    simp only [ph, List.map_cons, List.prod_cons]
    exact Finset.sum_congr rfl fun j _ => by ring
  · simp only [sum_listC]
    congr 2
    ext1 p
    simp only [← Finset.mul_sum, sum_hm_hm]
    simp only [ph, List.map_cons, List.prod_cons]
    ring

/-- The expected product of traces of powers. -/
noncomputable def V (n : ℕ) (l : List ℕ) : ℂ := exC (ph n l)

theorem V_zero (l : List ℕ) : V n (0 :: l) = n * V n l := by
  have : ph n (0 :: l) = C (n : ℂ) * ph n l := by simp [ph, th_zero]
  rw [V, this, exC_C_mul, V]

theorem V_nil : V n [] = 1 := by
  simp [V, ph, exC, rev]

theorem V_succ (k : ℕ) (l : List ℕ) : V n ((k + 1) :: l) = (∑ j ∈ Finset.range k, V n (j :: (k - 1 - j) :: l)) +
      ((splits l).map fun p => (p.1 : ℂ) * V n ((k + (p.1 - 1)) :: p.2)).sum := by
  have h1 : ph n ((k + 1) :: l) = ∑ a, ∑ b, hm n a b * ((hm n ^ k) b a * ph n l) := by
    have h2 : ph n ((k + 1) :: l) = th n (k + 1) * ph n l := by simp [ph]
    rw [h2, th_succ, Finset.sum_mul]
    simp only [Finset.sum_mul, mul_assoc]
  rw [V, h1, ← exlC_apply, map_sum]
  simp only [map_sum, exlC_apply, exC_hm_mul]
  simp only [← exlC_apply, ← map_sum]
  rw [loop_polyC, map_add, map_sum, map_list_sum, List.map_map]
  congr 1
  congr 2
  ext p
  simp only [Function.comp, exlC_apply, V]
  rw [← exC_C_mul, map_natCast]

end RMT.Gauss
