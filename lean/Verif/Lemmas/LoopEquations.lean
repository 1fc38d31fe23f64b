import Verif.Lemmas.GaussianPoly
import Mathlib.LinearAlgebra.Matrix.Trace
import Mathlib.Data.Matrix.Basis
import Mathlib.LinearAlgebra.Matrix.Symmetric

/-! # The loop equations for the traces of powers of a GOE matrix -/

namespace RMT.Gauss
open MvPolynomial Matrix

variable {n : ℕ}

/-- Polynomials in the `n²` draws. -/
abbrev Pol (n : ℕ) : Type := MvPolynomial (Fin n × Fin n) ℝ

/-- `1 / √2`. -/
noncomputable def cc (n : ℕ) : Pol n := C (1 / √2)

theorem cc_sq (n : ℕ) : 2 * cc n * cc n = 1 := by
  have h : (2 : Pol n) = C 2 := (map_ofNat C 2).symm
  rw [cc, h, ← C_mul, ← C_mul]
  have : (2 * (1 / √2) * (1 / √2) : ℝ) = 1 := by
    have h2 : √2 * √2 = (2 : ℝ) := Real.mul_self_sqrt (by norm_num)
    have : √(2 : ℝ) ≠ 0 := by positivity
    field_simp
    nlinarith
  rw [this, C_1]

/-- The GOE matrix with polynomial entries. -/
noncomputable def pm (n : ℕ) : Matrix (Fin n) (Fin n) (Pol n) := Matrix.of fun i j => cc n * (X (i, j) + X (j, i))

theorem pm_symm : (pm n).IsSymm := by
  ext i j
  simp [pm, add_comm]

theorem pow_symm (k : ℕ) : (pm n ^ k).IsSymm := pm_symm.pow k

theorem pow_swap (k : ℕ) (i j : Fin n) : (pm n ^ k) i j = (pm n ^ k) j i := (pow_symm k).apply j i

/-- The trace of the `k`-th power. -/
noncomputable def tp (n k : ℕ) : Pol n := (pm n ^ k).trace

theorem tp_zero : tp n 0 = n := by simp [tp]

theorem tp_succ (k : ℕ) : tp n (k + 1) = 2 * cc n * ∑ a, ∑ b, X (a, b) * (pm n ^ k) a b := by
  have h1 : tp n (k + 1) = ∑ a, ∑ b, cc n * (X (a, b) + X (b, a)) * (pm n ^ k) a b := by
    rw [tp, pow_succ', Matrix.trace]
    refine Finset.sum_congr rfl fun a _ => ?_
    rw [Matrix.diag_apply, Matrix.mul_apply]
    refine Finset.sum_congr rfl fun b _ => ?_
    rw [pow_swap k a b]
    rfl
  have h2 : ∑ a, ∑ b, X (b, a) * (pm n ^ k) a b = ∑ a, ∑ b, X (a, b) * (pm n ^ k) a b := by
    rw [Finset.sum_comm]
    refine Finset.sum_congr rfl fun a _ => Finset.sum_congr rfl fun b _ => ?_
    rw [pow_swap k a b]
  rw [h1]
  have h3 : ∀ a b : Fin n, cc n * (X (a, b) + X (b, a)) * (pm n ^ k) a b = cc n * (X (a, b) * (pm n ^ k) a b) + cc n * (X (b, a) * (pm n ^ k) a b) := by
    intro a b; ring
  simp only [h3, Finset.sum_add_distrib, ← Finset.mul_sum, h2]
  ring

theorem deriv_pm (a b x y : Fin n) : pderiv (a, b) (pm n x y) = cc n * ((if x = a ∧ y = b then 1 else 0) + (if x = b ∧ y = a then 1 else 0)) := by
  rw [pm, Matrix.of_apply, cc, pderiv_C_mul, map_add, pderiv_X, pderiv_X]
  simp only [Pi.single_apply, Prod.mk.injEq]
  congr 3
  simp [and_comm]

theorem deriv_pow (a b : Fin n) (k : ℕ) (x y : Fin n) : pderiv (a, b) ((pm n ^ k) x y) =
    cc n * ∑ j ∈ Finset.range k, ((pm n ^ j) x a * (pm n ^ (k - 1 - j)) b y + (pm n ^ j) x b * (pm n ^ (k - 1 - j)) a y) := by
  induction k generalizing x y with
  | zero =>
    simp only [pow_zero, Matrix.one_apply, Finset.range_zero, Finset.sum_empty, mul_zero]
    split_ifs <;> simp
  | succ k ih =>
    rw [pow_succ, Matrix.mul_apply, map_sum]
    simp only [Derivation.leibniz, smul_eq_mul, ih, deriv_pm]
    rw [Finset.sum_add_distrib, Finset.sum_range_succ]
    have e1 : ∑ z, (pm n ^ k) x z * (cc n * ((if z = a ∧ y = b then 1 else 0) + if z = b ∧ y = a then 1 else 0)) =
        cc n * ((pm n ^ k) x a * (pm n ^ (k + 1 - 1 - k)) b y + (pm n ^ k) x b * (pm n ^ (k + 1 - 1 - k)) a y) := by
      have h0 : k + 1 - 1 - k = 0 := by omega
      rw [h0, pow_zero, Matrix.one_apply, Matrix.one_apply]
      have : ∀ z, (pm n ^ k) x z * (cc n * ((if z = a ∧ y = b then 1 else 0) + if z = b ∧ y = a then 1 else 0)) =
          cc n * ((if z = a then (if b = y then (pm n ^ k) x z else 0) else 0) + (if z = b then (if a = y then (pm n ^ k) x z else 0) else 0)) := by
        intro z
        by_cases h1 : z = a <;> by_cases h2 : z = b <;> by_cases h3 : y = b <;> by_cases h4 : y = a <;> simp_all [eq_comm] <;> ring
      simp only [this, ← Finset.mul_sum, Finset.sum_add_distrib, Finset.sum_ite_eq', Finset.mem_univ, if_true]
      congr 2 <;> split_ifs <;> simp
    have e2 : ∑ z, pm n z y * (cc n * ∑ j ∈ Finset.range k, ((pm n ^ j) x a * (pm n ^ (k - 1 - j)) b z + (pm n ^ j) x b * (pm n ^ (k - 1 - j)) a z)) =
        cc n * ∑ j ∈ Finset.range k, ((pm n ^ j) x a * (pm n ^ (k + 1 - 1 - j)) b y + (pm n ^ j) x b * (pm n ^ (k + 1 - 1 - j)) a y) := by
      have h : ∀ z, pm n z y * (cc n * ∑ j ∈ Finset.range k, ((pm n ^ j) x a * (pm n ^ (k - 1 - j)) b z + (pm n ^ j) x b * (pm n ^ (k - 1 - j)) a z)) =
          cc n * ∑ j ∈ Finset.range k, ((pm n ^ j) x a * ((pm n ^ (k - 1 - j)) b z * pm n z y) + (pm n ^ j) x b * ((pm n ^ (k - 1 - j)) a z * pm n z y)) := by
        intro z
        rw [mul_left_comm, Finset.mul_sum]
        congr 1
        refine Finset.sum_congr rfl fun j _ => ?_
        ring
      simp only [h]
      rw [← Finset.mul_sum, Finset.sum_comm]
      congr 1
      refine Finset.sum_congr rfl fun j hj => ?_
      rw [Finset.mem_range] at hj
      rw [Finset.sum_add_distrib, ← Finset.mul_sum, ← Finset.mul_sum, ← Matrix.mul_apply, ← Matrix.mul_apply, ← pow_succ]
      rw [show k - 1 - j + 1 = k + 1 - 1 - j by omega]
    rw [e1, e2]
    ring

theorem sum_pow_pow (j l : ℕ) : ∑ a, ∑ b, (pm n ^ j) a b * (pm n ^ l) a b = tp n (j + l) := by
  rw [tp, pow_add, Matrix.trace]
  refine Finset.sum_congr rfl fun a _ => ?_
  rw [Matrix.diag_apply, Matrix.mul_apply]
  refine Finset.sum_congr rfl fun b _ => ?_
  rw [pow_swap l a b]

theorem sum_deriv_pow (k : ℕ) : 2 * cc n * ∑ a, ∑ b, pderiv (a, b) ((pm n ^ k) a b) =
    (∑ j ∈ Finset.range k, tp n j * tp n (k - 1 - j)) + k * tp n (k - 1) := by
  simp only [deriv_pow, ← Finset.mul_sum]
  rw [← mul_assoc, cc_sq, one_mul]
  have h : ∀ a : Fin n, ∑ b, ∑ j ∈ Finset.range k, ((pm n ^ j) a a * (pm n ^ (k - 1 - j)) b b + (pm n ^ j) a b * (pm n ^ (k - 1 - j)) a b) =
      ∑ j ∈ Finset.range k, ((pm n ^ j) a a * tp n (k - 1 - j) + ∑ b, (pm n ^ j) a b * (pm n ^ (k - 1 - j)) a b) := by
    intro a
    rw [Finset.sum_comm]
    refine Finset.sum_congr rfl fun j _ => ?_
    rw [Finset.sum_add_distrib, ← Finset.mul_sum]
    rfl
  simp only [h]
  rw [Finset.sum_comm]
  have h2 : ∀ j ∈ Finset.range k, ∑ a, ((pm n ^ j) a a * tp n (k - 1 - j) + ∑ b, (pm n ^ j) a b * (pm n ^ (k - 1 - j)) a b) = tp n j * tp n (k - 1 - j) + tp n (k - 1) := by
    intro j hj
    rw [Finset.mem_range] at hj
    rw [Finset.sum_add_distrib, sum_pow_pow, ← Finset.sum_mul, show j + (k - 1 - j) = k - 1 by omega]
    rfl
  rw [Finset.sum_congr rfl h2, Finset.sum_add_distrib]
  simp

theorem deriv_tp (a b : Fin n) (l : ℕ) : pderiv (a, b) (tp n l) = 2 * cc n * (l * (pm n ^ (l - 1)) a b) := by
  rw [tp, Matrix.trace, map_sum]
  simp only [Matrix.diag_apply, deriv_pow, ← Finset.mul_sum]
  rw [Finset.sum_comm]
  have h : ∀ j ∈ Finset.range l, ∑ x, ((pm n ^ j) x a * (pm n ^ (l - 1 - j)) b x + (pm n ^ j) x b * (pm n ^ (l - 1 - j)) a x) = 2 * (pm n ^ (l - 1)) a b := by
    intro j hj
    rw [Finset.mem_range] at hj
    have h1 : ∀ x, (pm n ^ j) x a * (pm n ^ (l - 1 - j)) b x = (pm n ^ (l - 1 - j)) b x * (pm n ^ j) x a := fun x => mul_comm _ _
    have h2 : ∀ x, (pm n ^ j) x b * (pm n ^ (l - 1 - j)) a x = (pm n ^ (l - 1 - j)) a x * (pm n ^ j) x b := fun x => mul_comm _ _
    simp only [h1, h2]
    rw [Finset.sum_add_distrib, ← Matrix.mul_apply, ← Matrix.mul_apply, ← pow_add, show l - 1 - j + j = l - 1 by omega, pow_swap (l - 1) b a]
    ring
  rw [Finset.sum_congr rfl h]
  simp
  ring

/-- All ways to take one element out of a list. -/
def splits : List ℕ → List (ℕ × List ℕ)
  | [] => []
  | a :: l => (a, l) :: (splits l).map fun p => (p.1, a :: p.2)

/-- The product of the traces of the powers in `l`. -/
noncomputable def pp (n : ℕ) (l : List ℕ) : Pol n := (l.map (tp n)).prod

theorem deriv_pp (i : Fin n × Fin n) (l : List ℕ) : pderiv i (pp n l) = ((splits l).map fun p => pderiv i (tp n p.1) * pp n p.2).sum := by
  induction l with
  | nil => simp [pp, splits]
  | cons a l ih =>
    have : pp n (a :: l) = tp n a * pp n l := by simp [pp]
    rw [this, Derivation.leibniz, ih]
    simp only [smul_eq_mul, splits, List.map_cons, List.sum_cons, List.map_map, Function.comp_def]
    rw [← List.sum_map_mul_left]
    have h2 : ∀ p : ℕ × List ℕ, tp n a * (pderiv i (tp n p.1) * pp n p.2) = pderiv i (tp n p.1) * pp n (a :: p.2) := by
      intro p; simp only [pp, List.map_cons, List.prod_cons]; ring
    simp only [h2]
    ring

theorem sum_list {α ι : Type} (s : Finset ι) (l : List α) (f : ι → α → Pol n) : ∑ i ∈ s, (l.map (f i)).sum = (l.map fun p => ∑ i ∈ s, f i p).sum := by
  induction l with
  | nil => simp
  | cons a l ih => simp [Finset.sum_add_distrib, ih]

theorem loop_poly (k : ℕ) (l : List ℕ) : 2 * cc n * ∑ a, ∑ b, pderiv (a, b) ((pm n ^ k) a b * pp n l) =
    (∑ j ∈ Finset.range k, pp n (j :: (k - 1 - j) :: l)) + k * pp n ((k - 1) :: l) +
      ((splits l).map fun p => 2 * (p.1 : Pol n) * pp n ((k + (p.1 - 1)) :: p.2)).sum := by
  have h1 : ∀ a b, pderiv (a, b) ((pm n ^ k) a b * pp n l) = pderiv (a, b) ((pm n ^ k) a b) * pp n l +
      ((splits l).map fun p => 2 * cc n * p.1 * pp n p.2 * ((pm n ^ k) a b * (pm n ^ (p.1 - 1)) a b)).sum := by
    intro a b
    rw [Derivation.leibniz, deriv_pp, smul_eq_mul, smul_eq_mul, add_comm, mul_comm (pp n l), ← List.sum_map_mul_left]
    congr 3
    ext p
    rw [deriv_tp]
    ring_nf
  simp only [h1, Finset.sum_add_distrib, ← Finset.sum_mul]
  rw [mul_add, ← mul_assoc, sum_deriv_pow]
  congr 1
  · rw [add_mul, Finset.sum_mul]
    simp only [pp, List.map_cons, List.prod_cons]
    congr 1
    · exact Finset.sum_congr rfl fun j _ => by ring
    · ring
  · simp only [sum_list]
    rw [← List.sum_map_mul_left]
    congr 2
    ext1 p
    simp only [← Finset.mul_sum, sum_pow_pow]
    have h := cc_sq n
    simp only [pp, List.map_cons, List.prod_cons]
    linear_combination (2 * (p.1 : Pol n) * (p.2.map (tp n)).prod * tp n (k + (p.1 - 1))) * h

/-- The expected product of traces of powers. -/
noncomputable def W (n : ℕ) (l : List ℕ) : ℝ := ex (pp n l)

theorem exl_apply {ι : Type} [Fintype ι] (p : MvPolynomial ι ℝ) : exl ι p = ex p := rfl

theorem W_zero (l : List ℕ) : W n (0 :: l) = n * W n l := by
  have : pp n (0 :: l) = C (n : ℝ) * pp n l := by simp [pp, tp_zero]
  rw [W, this, ex_C_mul, W]

theorem W_nil : W n [] = 1 := by
  simp [W, pp, ex]

theorem W_succ (k : ℕ) (l : List ℕ) : W n ((k + 1) :: l) = (∑ j ∈ Finset.range k, W n (j :: (k - 1 - j) :: l)) + k * W n ((k - 1) :: l) +
      ((splits l).map fun p => 2 * (p.1 : ℝ) * W n ((k + (p.1 - 1)) :: p.2)).sum := by
  have h1 : pp n ((k + 1) :: l) = C (2 * (1 / √2)) * ∑ a, ∑ b, X (a, b) * ((pm n ^ k) a b * pp n l) := by
    have h2 : pp n ((k + 1) :: l) = tp n (k + 1) * pp n l := by simp [pp]
    rw [h2, tp_succ, C_mul, cc, show (C 2 : Pol n) = 2 from map_ofNat C 2, mul_assoc, Finset.sum_mul]
    simp only [Finset.sum_mul, mul_assoc]
  rw [W, h1, ex_C_mul, ← exl_apply, map_sum]
  simp only [map_sum, exl_apply, ex_X_mul]
  simp only [← exl_apply, ← map_sum]
  rw [exl_apply, ← ex_C_mul, C_mul, show (C 2 : Pol n) = 2 from map_ofNat C 2]
  have := loop_poly (n := n) k l
  rw [cc] at this
  rw [this, ex_add, ex_add]
  congr 1
  · congr 1
    · rw [← exl_apply, map_sum]; rfl
    · rw [W, ← ex_C_mul, map_natCast]
  · rw [← exl_apply, map_list_sum, List.map_map]
    congr 2
    ext p
    simp only [Function.comp, exl_apply, W]
    rw [← ex_C_mul, C_mul, map_natCast, show (C 2 : Pol n) = 2 from map_ofNat C 2]

end RMT.Gauss
