import Verif.Model.Generate
import Verif.Lemmas.Sort
import Mathlib.LinearAlgebra.Matrix.Trace
import Mathlib.LinearAlgebra.Matrix.Hermitian
import Mathlib.MeasureTheory.Integral.Bochner.Basic
import Mathlib.Tactic.FieldSimp
import Mathlib.Tactic.Positivity

/-! # Lemmas on generated matrices -/

namespace RMT
namespace Gen
open EigValsM

theorem normals_length {σ : Type} (R : Rng σ) (n : Nat) : ∀ s, (normals R n s).1.length = n := by
  induction n with
  | zero => intro s; rfl
  | succ n ih => intro s; simp [normals, ih]

theorem goeOf_symm {n : Nat} (A : Matrix (Fin n) (Fin n) ℝ) : (goeOf A).IsSymm := by
  ext i j
  simp only [Matrix.transpose_apply, goeOf]
  rw [add_comm]

theorem tridiagonalOf_symm (n : Nat) (c z : List ℝ) : (tridiagonalOf n c z).IsSymm := by
  ext i j
  simp only [Matrix.transpose_apply, tridiagonalOf]
  split_ifs <;> first | rfl | omega | (congr 2; omega) | skip
  · rename_i h1 h2
    rw [h1]

theorem gueOf_hermitian {n : Nat} (A B : Matrix (Fin n) (Fin n) ℝ) : (gueOf A B).IsHermitian := by
  ext i j
  simp only [Matrix.conjTranspose_apply, gueOf, Complex.star_def, map_div₀, map_add, map_mul, Complex.conj_ofReal,
    Complex.conj_I, map_neg]
  have : (starRingEnd ℂ) 2 = 2 := Complex.conj_ofNat 2
  rw [this]
  ring

/-- `tr (M²)` of the full matrix. -/
theorem trace_goeOf {n : Nat} (A : Matrix (Fin n) (Fin n) ℝ) :
    (goeOf A * goeOf A).trace = ∑ i, ∑ j, (A i j * A i j + 2 * (A i j * A j i) + A j i * A j i) / 2 := by
  simp only [Matrix.trace, Matrix.diag, Matrix.mul_apply, goeOf]
  refine Finset.sum_congr rfl fun i _ => Finset.sum_congr rfl fun j _ => ?_
  rw [div_mul_div_comm, Real.mul_self_sqrt (by norm_num)]
  ring

theorem sum_lower (c : Nat → ℝ) (n : Nat) :
    ∑ i ∈ Finset.range n, ∑ j ∈ Finset.range n, (if i = j + 1 then c j else 0) = ∑ k ∈ Finset.range (n - 1), c k := by
  rw [Finset.sum_comm]
  cases n with
  | zero => simp
  | succ n =>
    rw [Finset.sum_range_succ]
    have h1 : ∑ i ∈ Finset.range (n + 1), (if i = n + 1 then c n else 0) = 0 := by
      apply Finset.sum_eq_zero
      intro i hi
      rw [if_neg (by have := Finset.mem_range.mp hi; omega)]
    rw [h1, add_zero, Nat.add_sub_cancel]
    refine Finset.sum_congr rfl fun j hj => ?_
    rw [Finset.sum_ite_eq' (Finset.range (n + 1)) (j + 1) (fun _ => c j), if_pos]
    have := Finset.mem_range.mp hj
    exact Finset.mem_range.mpr (by omega)

/-- `tr (M²)` of the tridiagonal matrix. -/
theorem trace_tridiagonalOf (n : Nat) (chi2 z : Nat → ℝ) (hc : ∀ k, 0 ≤ chi2 k) :
    (tridiagonalOf n ((List.range (n - 1)).map chi2) ((List.range n).map z) *
      tridiagonalOf n ((List.range (n - 1)).map chi2) ((List.range n).map z)).trace =
      ∑ i ∈ Finset.range n, z i ^ 2 + ∑ k ∈ Finset.range (n - 1), chi2 k := by
  have hz : ∀ i, i < n → ((List.range n).map z).getD i 0 = z i := by
    intro i hi; simp [List.getD_eq_getElem?_getD, hi]
  have hcc : ∀ i, i < n - 1 → ((List.range (n - 1)).map chi2).getD i 0 = chi2 i := by
    intro i hi; simp [List.getD_eq_getElem?_getD, hi]
  have h2 : Real.sqrt 2 ≠ 0 := by positivity
  have hterm : ∀ i j : Fin n, tridiagonalOf n ((List.range (n - 1)).map chi2) ((List.range n).map z) i j *
      tridiagonalOf n ((List.range (n - 1)).map chi2) ((List.range n).map z) j i =
      (if j.val = i.val then z i.val ^ 2 else 0) + (if i.val = j.val + 1 then chi2 j.val / 2 else 0) +
        (if j.val = i.val + 1 then chi2 i.val / 2 else 0) := by
    intro i j
    have hi := i.isLt
    have hj := j.isLt
    have hsq : ∀ k, Real.sqrt (chi2 k) / Real.sqrt 2 * (Real.sqrt (chi2 k) / Real.sqrt 2) = chi2 k / 2 := by
      intro k
      rw [div_mul_div_comm, Real.mul_self_sqrt (hc k), Real.mul_self_sqrt (by norm_num)]
    by_cases h1 : i.val = j.val
    · have e1 : ¬ i.val = j.val + 1 := by omega
      have e2 : ¬ j.val = i.val + 1 := by omega
      simp only [tridiagonalOf, h1.symm, if_true, hz i.val hi]
      rw [if_neg (by omega)]
      field_simp
      ring
    · by_cases h3 : i.val = j.val + 1
      · have e1 : ¬ j.val = i.val := by omega
        have e2 : ¬ j.val = i.val + 1 := by omega
        simp only [tridiagonalOf, if_neg h1, if_neg e1, if_neg e2, if_pos h3, hcc j.val (by omega)]
        rw [hsq]; ring
      · by_cases h4 : j.val = i.val + 1
        · have e1 : ¬ j.val = i.val := by omega
          simp only [tridiagonalOf, if_neg h1, if_neg h3, if_neg e1, if_pos h4, hcc i.val (by omega)]
          rw [hsq]; ring
        · have e1 : ¬ j.val = i.val := by omega
          simp [tridiagonalOf, h1, h3, h4, e1]
  simp only [Matrix.trace, Matrix.diag, Matrix.mul_apply, hterm]
  have hr : ∀ f : Nat → Nat → ℝ, ∑ i : Fin n, ∑ j : Fin n, f i.val j.val = ∑ i ∈ Finset.range n, ∑ j ∈ Finset.range n, f i j := by
    intro f
    rw [← Fin.sum_univ_eq_sum_range (fun i => ∑ j ∈ Finset.range n, f i j)]
    refine Finset.sum_congr rfl fun i _ => ?_
    rw [Fin.sum_univ_eq_sum_range (fun j => f i.val j)]
  rw [hr fun i j => (if j = i then z i ^ 2 else 0) + (if i = j + 1 then chi2 j / 2 else 0) +
        (if j = i + 1 then chi2 i / 2 else 0)]
  simp only [Finset.sum_add_distrib]
  rw [sum_lower (fun k => chi2 k / 2)]
  have h5 : ∑ i ∈ Finset.range n, ∑ j ∈ Finset.range n, (if j = i + 1 then chi2 i / 2 else 0) =
      ∑ k ∈ Finset.range (n - 1), chi2 k / 2 := by
    rw [Finset.sum_comm, sum_lower (fun k => chi2 k / 2)]
  have h6 : ∑ i ∈ Finset.range n, ∑ j ∈ Finset.range n, (if j = i then z i ^ 2 else 0) = ∑ i ∈ Finset.range n, z i ^ 2 := by
    refine Finset.sum_congr rfl fun i hi => ?_
    rw [Finset.sum_ite_eq' (Finset.range n) i (fun _ => z i ^ 2), if_pos hi]
  rw [h5, h6, add_assoc, ← Finset.sum_add_distrib]
  congr 1
  exact Finset.sum_congr rfl fun k _ => by ring

end Gen
end RMT
