import Verif.Spec.Counting
import Mathlib.Data.Matrix.Mul
import Mathlib.Data.Real.Basic
import Mathlib.Analysis.Real.Sqrt
import Mathlib.LinearAlgebra.Matrix.Symmetric
import Mathlib.LinearAlgebra.Matrix.Charpoly.Eigs
import Mathlib.Algebra.Order.Star.Real
import Mathlib.Analysis.Complex.Basic
import Mathlib.LinearAlgebra.Matrix.Hermitian

/-!
# Specification: perturbed symmetric matrices and inexact eigenvalue routines
-/

namespace RMT.Spec
open Matrix

variable {n : ℕ}

/-- The matrices differ by at most `δ` as quadratic forms: for symmetric matrices this says that the operator norm of the difference is at most `δ`. -/
def FormsWithin (δ : ℝ) (A B : Matrix (Fin n) (Fin n) ℝ) : Prop := ∀ v : Fin n → ℝ, |v ⬝ᵥ (A *ᵥ v) - v ⬝ᵥ (B *ᵥ v)| ≤ δ * (v ⬝ᵥ v)

/-- The Frobenius norm: the square root of the sum of the squared entries. -/
noncomputable def frobenius (A : Matrix (Fin n) (Fin n) ℝ) : ℝ := √(∑ i, ∑ j, A i j ^ 2)

/-- Two lists of the same length whose entries at each index differ by at most `δ`. -/
def EntriesWithin (δ : ℝ) (l l' : List ℝ) : Prop := List.Forall₂ (fun x y => |x - y| ≤ δ) l l'

/-- A backward stable eigenvalue routine (the guarantee LAPACK gives for symmetric matrices): on each symmetric matrix it returns, in some order, the exact eigenvalues of a symmetric matrix that differs from
the given one by at most `δ`, which may depend on the matrix. -/
def BackwardStable (eigvalsh : (n : ℕ) → Matrix (Fin n) (Fin n) ℝ → List ℝ) (δ : (n : ℕ) → Matrix (Fin n) (Fin n) ℝ → ℝ) : Prop :=
  ∀ n (M : Matrix (Fin n) (Fin n) ℝ), M.IsSymm → ∃ M' : Matrix (Fin n) (Fin n) ℝ, M'.IsSymm ∧ FormsWithin (δ n M) M M' ∧ (eigvalsh n M : Multiset ℝ) = M'.charpoly.roots

/-- The same for complex Hermitian matrices: they differ by at most `δ` as (real-valued) Hermitian forms, that is, in operator norm. -/
def FormsWithinC (δ : ℝ) (A B : Matrix (Fin n) (Fin n) ℂ) : Prop := ∀ v : Fin n → ℂ, |(star v ⬝ᵥ (A *ᵥ v)).re - (star v ⬝ᵥ (B *ᵥ v)).re| ≤ δ * ∑ i, ‖v i‖ ^ 2

/-- The Frobenius norm of a complex matrix. -/
noncomputable def frobeniusC (A : Matrix (Fin n) (Fin n) ℂ) : ℝ := √(∑ i, ∑ j, ‖A i j‖ ^ 2)

/-- A backward stable eigenvalue routine for complex Hermitian matrices. -/
def BackwardStableC (eigvalsh : (n : ℕ) → Matrix (Fin n) (Fin n) ℂ → List ℝ) (δ : (n : ℕ) → Matrix (Fin n) (Fin n) ℂ → ℝ) : Prop :=
  ∀ n (M : Matrix (Fin n) (Fin n) ℂ), M.IsHermitian → ∃ M' : Matrix (Fin n) (Fin n) ℂ, M'.IsHermitian ∧ FormsWithinC (δ n M) M M' ∧ ((eigvalsh n M : Multiset ℝ).map fun (x : ℝ) => (x : ℂ)) = M'.charpoly.roots

end RMT.Spec
