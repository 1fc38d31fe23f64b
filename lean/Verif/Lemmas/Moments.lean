import Verif.Lemmas.Analytic
import Mathlib.Analysis.Matrix.Spectrum
import Mathlib.Analysis.SpecialFunctions.Pow.Deriv
import Mathlib.Analysis.SpecialFunctions.Sqrt

/-! # Lemmas: second moments of spectra and of the semicircle density -/

namespace RMT
namespace Moments
open MeasureTheory Real Analytic

/-- The sum of squared eigenvalues of a symmetric real matrix is the trace of its square. -/
theorem sum_sq_roots {n : Nat} (M : Matrix (Fin n) (Fin n) ℝ) (hM : M.IsSymm) :
    (M.charpoly.roots.map (· ^ 2)).sum = (M * M).trace := by
  have hH : M.IsHermitian := by rw [Matrix.IsHermitian, Matrix.conjTranspose_eq_transpose_of_trivial]; exact hM
  rw [hH.roots_charpoly_eq_eigenvalues]
  have e : M * M = (Unitary.conjStarAlgAut ℝ _ hH.eigenvectorUnitary)
      (Matrix.diagonal (RCLike.ofReal ∘ hH.eigenvalues) * Matrix.diagonal (RCLike.ofReal ∘ hH.eigenvalues)) := by
    rw [map_mul, ← hH.spectral_theorem]
  rw [e, Unitary.conjStarAlgAut_apply, Matrix.trace_mul_comm, ← mul_assoc]
  simp [pow_two, List.sum_ofFn]

/-- The sum of the eigenvalues of a symmetric real matrix is its trace. -/
theorem sum_roots {n : Nat} (M : Matrix (Fin n) (Fin n) ℝ) (hM : M.IsSymm) :
    M.charpoly.roots.sum = M.trace := by
  have hH : M.IsHermitian := by rw [Matrix.IsHermitian, Matrix.conjTranspose_eq_transpose_of_trivial]; exact hM
  exact (Matrix.trace_eq_sum_roots_charpoly_of_splits hH.splits_charpoly).symm

theorem integral_sq_mul_sqrt : ∫ x in (-1 : ℝ)..1, x ^ 2 * √(1 - x ^ 2) = π / 8 := by
  have hd : ∀ x ∈ Set.Ioo (-1 : ℝ) 1,
      HasDerivAt (fun x : ℝ => x * ((1 - x ^ 2) * √(1 - x ^ 2))) (√(1 - x ^ 2) - 4 * (x ^ 2 * √(1 - x ^ 2))) x := by
    intro x hx
    have hpos : 0 < 1 - x ^ 2 := by nlinarith [hx.1, hx.2]
    have h1 : HasDerivAt (fun x : ℝ => 1 - x ^ 2) (-(2 * x)) x := by
      exact ((hasDerivAt_const x (1 : ℝ)).sub (hasDerivAt_pow 2 x)).congr_deriv (by simp)
    have h2 : HasDerivAt (fun x : ℝ => √(1 - x ^ 2)) (-(2 * x) / (2 * √(1 - x ^ 2))) x := h1.sqrt hpos.ne'
    have h3 := (hasDerivAt_id x).mul (h1.mul h2)
    refine h3.congr_deriv ?_
    have hs : √(1 - x ^ 2) * √(1 - x ^ 2) = 1 - x ^ 2 := mul_self_sqrt hpos.le
    have hs0 : √(1 - x ^ 2) ≠ 0 := (sqrt_pos.mpr hpos).ne'
    simp only [id, Pi.mul_apply]
    field_simp
    nlinarith [hs]
  have hc : Continuous (fun x : ℝ => x * ((1 - x ^ 2) * √(1 - x ^ 2))) := by fun_prop
  have hi : IntervalIntegrable (fun x : ℝ => √(1 - x ^ 2) - 4 * (x ^ 2 * √(1 - x ^ 2))) volume (-1) 1 := by
    apply Continuous.intervalIntegrable; fun_prop
  have h := intervalIntegral.integral_eq_sub_of_hasDerivAt_of_le (by norm_num) hc.continuousOn hd hi
  rw [intervalIntegral.integral_sub (by apply Continuous.intervalIntegrable; fun_prop)
    (by apply Continuous.intervalIntegrable; fun_prop), intervalIntegral.integral_const_mul, integral_sqrt_one_sub_sq] at h
  norm_num at h
  linarith

/-- The second moment of the semicircle density used by the code. -/
theorem semicircle_second_moment (N : Nat) :
    ∫ t in (-edge N)..(edge N), t ^ 2 * semicircle N t = (N : ℝ) ^ 2 / 2 := by
  rcases Nat.eq_zero_or_pos N with rfl | hN
  · simp [edge]
  have he : 0 < edge N := sqrt_pos.mpr (by positivity)
  have h := intervalIntegral.mul_integral_comp_mul_left (f := fun t => t ^ 2 * semicircle N t) (a := -1) (b := 1) (c := edge N)
  rw [mul_neg, mul_one] at h
  rw [← h]
  have e : (fun x : ℝ => (edge N * x) ^ 2 * semicircle N (edge N * x)) =
      fun x => (1 / π) * edge N ^ 3 * (x ^ 2 * √(1 - x ^ 2)) := by
    funext x
    rw [semicircle_eq]
    have : 2 * (N : ℝ) - edge N * x * (edge N * x) = (edge N * edge N) * (1 - x ^ 2) := by
      rw [edge_sq]
      have := edge_sq N
      linear_combination (- x ^ 2) * this
    rw [this, sqrt_mul (mul_self_nonneg _), sqrt_mul_self he.le]
    ring
  simp only [e]
  rw [intervalIntegral.integral_const_mul, integral_sq_mul_sqrt]
  have hp := pi_pos.ne'
  have h2 := edge_sq N
  have h4 : edge N ^ 4 = 4 * (N : ℝ) ^ 2 := by
    calc edge N ^ 4 = (edge N * edge N) ^ 2 := by ring
      _ = _ := by rw [h2]; ring
  field_simp
  nlinarith [h4]

end Moments
end RMT
