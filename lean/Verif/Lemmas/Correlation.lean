import Verif.Model.Eigenvalues
import Verif.Spec.Correlation
import Verif.Lemmas.Eigenvalues
import Mathlib.LinearAlgebra.Matrix.Charpoly.Basic
import Mathlib.LinearAlgebra.Matrix.PosDef
import Mathlib.Algebra.Polynomial.Roots
import Mathlib.Algebra.Order.BigOperators.Ring.Finset
import Mathlib.Algebra.Order.Star.Real
import Mathlib.Tactic.FieldSimp
import Mathlib.Tactic.Positivity
import Mathlib.Tactic.LinearCombination

/-! # Lemmas on covariance and correlation matrices -/

namespace RMT
namespace EigM
open Spec Matrix

variable {N T : ℕ}

/-- Sum of products of the centred rows. -/
noncomputable def S (X : Matrix (Fin N) (Fin T) ℝ) (i j : Fin N) : ℝ := ∑ t, center X i t * center X j t

theorem S_eq (X : Matrix (Fin N) (Fin T) ℝ) (hT : 0 < T) (i j : Fin N) :
    S X i j = ∑ t, X i t * X j t - (∑ t, X i t) * (∑ t, X j t) / T := by
  have hT' : (T : ℝ) ≠ 0 := by positivity
  have e : ∀ t, center X i t * center X j t =
      X i t * X j t - X i t * rowMean X j - rowMean X i * X j t + rowMean X i * rowMean X j := by
    intro t; simp only [center]; ring
  unfold S
  simp only [e, Finset.sum_add_distrib, Finset.sum_sub_distrib, ← Finset.sum_mul, ← Finset.mul_sum,
    Finset.sum_const, Finset.card_univ, Fintype.card_fin, nsmul_eq_mul, rowMean]
  field_simp
  ring

theorem S_symm (X : Matrix (Fin N) (Fin T) ℝ) (i j : Fin N) : S X i j = S X j i := by
  unfold S
  exact Finset.sum_congr rfl fun t _ => mul_comm _ _

theorem S_self (X : Matrix (Fin N) (Fin T) ℝ) (i : Fin N) : S X i i = ∑ t, center X i t ^ 2 := by
  unfold S
  exact Finset.sum_congr rfl fun t _ => by ring

theorem S_self_nonneg (X : Matrix (Fin N) (Fin T) ℝ) (i : Fin N) : 0 ≤ S X i i := by
  rw [S_self]; positivity

theorem S_self_pos (X : Matrix (Fin N) (Fin T) ℝ) (i : Fin N) (h : NonConstant (X i)) : 0 < S X i i := by
  rcases (S_self_nonneg X i).lt_or_eq with h1 | h1
  · exact h1
  · exfalso
    rw [S_self, eq_comm, Finset.sum_eq_zero_iff_of_nonneg (fun t _ => sq_nonneg _)] at h1
    obtain ⟨s, t, hst⟩ := h
    have hs := h1 s (Finset.mem_univ _)
    have ht := h1 t (Finset.mem_univ _)
    rw [sq_eq_zero_iff] at hs ht
    simp only [center] at hs ht
    exact hst (by linarith)

theorem S_cauchy (X : Matrix (Fin N) (Fin T) ℝ) (i j : Fin N) : S X i j ^ 2 ≤ S X i i * S X j j := by
  rw [S_self, S_self]
  exact Finset.sum_mul_sq_le_sq_mul_sq _ _ _

theorem npCov_eq (X : Matrix (Fin N) (Fin T) ℝ) (d : ℕ) (i j : Fin N) :
    npCov X d i j = S X i j * (1 / ((T : ℝ) - d)) := rfl

theorem npCov_one (X : Matrix (Fin N) (Fin T) ℝ) (hT : 0 < T) : npCov X 1 = covMatrix X := by
  funext i j
  rw [npCov_eq, S_eq X hT, covMatrix, sampleCov]
  push_cast
  ring

theorem pearson_eq (X : Matrix (Fin N) (Fin T) ℝ) (hT : 0 < T) (i j : Fin N) :
    pearson (X i) (X j) = S X i j / (Real.sqrt (S X i i) * Real.sqrt (S X j j)) := by
  have hT' : (0 : ℝ) < T := by exact_mod_cast hT
  have e : ∀ k l, (T : ℝ) * ∑ t, X k t * X l t - (∑ t, X k t) * (∑ t, X l t) = T * S X k l := by
    intro k l; rw [S_eq X hT]; field_simp
  have e2 : ∀ k, (T : ℝ) * ∑ t, X k t ^ 2 - (∑ t, X k t) ^ 2 = T * S X k k := by
    intro k; rw [← e k k]
    congr 1
    · congr 1; exact Finset.sum_congr rfl fun t _ => by ring
    · ring
  rw [pearson, e, e2, e2, Real.sqrt_mul hT'.le, Real.sqrt_mul hT'.le]
  have h2 : Real.sqrt T * Real.sqrt (S X i i) * (Real.sqrt T * Real.sqrt (S X j j)) =
      T * (Real.sqrt (S X i i) * Real.sqrt (S X j j)) := by
    have := Real.mul_self_sqrt hT'.le
    calc _ = (Real.sqrt T * Real.sqrt T) * (Real.sqrt (S X i i) * Real.sqrt (S X j j)) := by ring
      _ = _ := by rw [this]
  rw [h2, mul_div_mul_left _ _ hT'.ne']

theorem pearson_abs_le (X : Matrix (Fin N) (Fin T) ℝ) (hT : 0 < T) (i j : Fin N) : |pearson (X i) (X j)| ≤ 1 := by
  rw [pearson_eq X hT, abs_div, ← Real.sqrt_mul (S_self_nonneg X i), abs_of_nonneg (Real.sqrt_nonneg _)]
  refine div_le_one_of_le₀ ?_ (Real.sqrt_nonneg _)
  rw [← Real.sqrt_sq_eq_abs]
  exact Real.sqrt_le_sqrt (S_cauchy X i j)

/-- Without clipping, `correlate_fast` is Pearson's coefficient whatever `ddof`. -/
theorem unclipped_eq (X : Matrix (Fin N) (Fin T) ℝ) (d : ℕ) (hd : d < T) (i j : Fin N) :
    npCov X d i j / Real.sqrt (npCov X d i i) / Real.sqrt (npCov X d j j) = pearson (X i) (X j) := by
  have hT : 0 < T := by omega
  have hp : 0 < 1 / ((T : ℝ) - d) := by
    have : (d : ℝ) < T := by exact_mod_cast hd
    have := sub_pos.mpr this
    positivity
  rw [pearson_eq X hT, npCov_eq, npCov_eq, npCov_eq, Real.sqrt_mul (S_self_nonneg X i), Real.sqrt_mul (S_self_nonneg X j),
    div_div]
  have h2 : Real.sqrt (S X i i) * Real.sqrt (1 / ((T : ℝ) - d)) * (Real.sqrt (S X j j) * Real.sqrt (1 / ((T : ℝ) - d))) =
      (Real.sqrt (S X i i) * Real.sqrt (S X j j)) * (1 / ((T : ℝ) - d)) := by
    have := Real.mul_self_sqrt hp.le
    calc _ = (Real.sqrt (S X i i) * Real.sqrt (S X j j)) * (Real.sqrt (1 / ((T : ℝ) - d)) * Real.sqrt (1 / ((T : ℝ) - d))) := by ring
      _ = _ := by rw [this]
  rw [h2, mul_div_mul_right _ _ hp.ne']

theorem correlateFast_eq (X : Matrix (Fin N) (Fin T) ℝ) (d : ℕ) (hd : d < T) : correlateFast X d = corrMatrix X := by
  funext i j
  have h := abs_le.mp (pearson_abs_le X (by omega) i j)
  simp only [correlateFast, unclipped_eq X d hd, corrMatrix]
  rw [max_eq_right h.1, min_eq_right h.2]

/-- The matrix `Z` of `_eigs_via_transpose`. -/
noncomputable def zMatrix (X : Matrix (Fin N) (Fin T) ℝ) (covariance : Bool) : Matrix (Fin N) (Fin T) ℝ :=
  fun i t => if covariance then center X i t else center X i t / rowStd X i

theorem z_mul_transpose (X : Matrix (Fin N) (Fin T) ℝ) (hT : 2 ≤ T) (cov : Bool) (h : cov = false → ∀ i, NonConstant (X i)) :
    ((1 / ((T : ℝ) - 1)) • zMatrix X cov) * (zMatrix X cov)ᵀ = if cov then covMatrix X else corrMatrix X := by
  have hr : 0 < (T : ℝ) - 1 := by
    have : (2 : ℝ) ≤ T := by exact_mod_cast hT
    linarith
  funext i j
  cases cov with
  | true =>
    rw [← npCov_one X (by omega)]
    simp only [mul_apply, Matrix.smul_apply, transpose_apply, zMatrix, if_true, npCov, smul_eq_mul, Finset.sum_mul]
    exact Finset.sum_congr rfl fun t _ => by push_cast; ring
  | false =>
    have hi := S_self_pos X i (h rfl i)
    have hj := S_self_pos X j (h rfl j)
    have e : ∀ k, rowStd X k = Real.sqrt (S X k k) / Real.sqrt ((T : ℝ) - 1) := by
      intro k
      rw [rowStd, ← S_self, Real.sqrt_div (S_self_nonneg X k)]
    simp only [Bool.false_eq_true, if_false, corrMatrix]
    rw [pearson_eq X (by omega)]
    simp only [mul_apply, Matrix.smul_apply, transpose_apply, zMatrix, Bool.false_eq_true, if_false, smul_eq_mul, e]
    rw [show S X i j = ∑ t, center X i t * center X j t from rfl, div_eq_mul_inv (∑ t, center X i t * center X j t), Finset.sum_mul]
    refine Finset.sum_congr rfl fun t _ => ?_
    have h1 := (Real.sqrt_pos.mpr hi).ne'
    have h2 := (Real.sqrt_pos.mpr hj).ne'
    have h3 := (Real.sqrt_pos.mpr hr).ne'
    have h4 := Real.mul_self_sqrt hr.le
    field_simp
    rw [sq, h4]
    ring

theorem transposedMatrix_eq (X : Matrix (Fin N) (Fin T) ℝ) (cov : Bool) :
    transposedMatrix X cov = (zMatrix X cov)ᵀ * ((1 / ((T : ℝ) - 1)) • zMatrix X cov) := rfl

theorem transposed_charpoly (X : Matrix (Fin N) (Fin T) ℝ) (hT : 2 ≤ T) (hNT : T ≤ N) (cov : Bool)
    (h : cov = false → ∀ i, NonConstant (X i)) :
    (if cov then covMatrix X else corrMatrix X).charpoly =
      Polynomial.X ^ (N - T) * (transposedMatrix X cov).charpoly := by
  rw [← z_mul_transpose X hT cov h, transposedMatrix_eq]
  have := Matrix.charpoly_mul_comm_of_le ((1 / ((T : ℝ) - 1)) • zMatrix X cov) ((zMatrix X cov)ᵀ) (by simpa using hNT)
  simpa using this

theorem covMatrix_isSymm (X : Matrix (Fin N) (Fin T) ℝ) : (covMatrix X).IsSymm := by
  ext i j
  simp only [transpose_apply, covMatrix, sampleCov]
  congr 1
  congr 1
  · exact Finset.sum_congr rfl fun t _ => mul_comm _ _
  · rw [mul_comm (∑ t, X j t)]

theorem corrMatrix_isSymm (X : Matrix (Fin N) (Fin T) ℝ) : (corrMatrix X).IsSymm := by
  ext i j
  simp only [transpose_apply, corrMatrix, pearson]
  rw [mul_comm (Real.sqrt _), mul_comm (∑ t, X j t)]
  congr 3
  exact Finset.sum_congr rfl fun t _ => mul_comm _ _

theorem transposedMatrix_isSymm (X : Matrix (Fin N) (Fin T) ℝ) (cov : Bool) : (transposedMatrix X cov).IsSymm := by
  rw [Matrix.IsSymm, transposedMatrix_eq, transpose_mul, transpose_transpose, transpose_smul, Matrix.smul_mul, Matrix.mul_smul]

theorem corrMatrix_posSemidef (X : Matrix (Fin N) (Fin T) ℝ) (hT : 2 ≤ T) (h : ∀ i, NonConstant (X i)) :
    (corrMatrix X).PosSemidef := by
  have hz := z_mul_transpose X hT false (fun _ => h)
  simp only [Bool.false_eq_true, if_false] at hz
  rw [← hz, Matrix.smul_mul]
  have hr : 0 ≤ 1 / ((T : ℝ) - 1) := by
    have : (2 : ℝ) ≤ T := by exact_mod_cast hT
    have : 0 < (T : ℝ) - 1 := by linarith
    positivity
  have := Matrix.posSemidef_self_mul_conjTranspose (zMatrix X false)
  rw [conjTranspose_eq_transpose_of_trivial] at this
  exact this.smul hr

theorem covMatrix_posSemidef (X : Matrix (Fin N) (Fin T) ℝ) (hT : 2 ≤ T) : (covMatrix X).PosSemidef := by
  have hz := z_mul_transpose X hT true (fun h => by cases h)
  simp only [if_true] at hz
  rw [← hz, Matrix.smul_mul]
  have hr : 0 ≤ 1 / ((T : ℝ) - 1) := by
    have : (2 : ℝ) ≤ T := by exact_mod_cast hT
    have : 0 < (T : ℝ) - 1 := by linarith
    positivity
  have := Matrix.posSemidef_self_mul_conjTranspose (zMatrix X true)
  rw [conjTranspose_eq_transpose_of_trivial] at this
  exact this.smul hr

end EigM
end RMT
