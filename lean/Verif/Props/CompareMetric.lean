import Verif.Props.Compare
import Mathlib.Analysis.InnerProductSpace.PiL2

/-! # Properties C62 and C80: distances and positive semidefiniteness -/

namespace RMT
namespace Props
open Comparing Spec EigM

theorem sqrt_msqd (T : Nat) (a b : List ℝ) :
    Real.sqrt (msqd T a b) = dist (WithLp.toLp 2 (asFun T a) : EuclideanSpace ℝ (Fin T)) (WithLp.toLp 2 (asFun T b)) / Real.sqrt T := by
  rw [EuclideanSpace.dist_eq, msqd, Real.sqrt_div' _ (Nat.cast_nonneg T), Finset.sum_range]
  congr 2
  refine Finset.sum_congr rfl fun t _ => ?_
  rw [Real.dist_eq, sq_abs]
  rfl

/-- **C62 (triangle inequality of the root mean squared difference).** The square roots of the mean squared differences satisfy the triangle inequality. -/
theorem C62_root_triangle (c : Comp ℝ) (hc : Constructed c) (hb : c.base = none) (T : Nat) (hT : SameLength c T) (junk : List ℝ) (f : Frame ℝ) (hf : meanSqDifference c junk = .ok f)
    (i j k : Nat) (hi : i < c.curves.length) (hj : j < c.curves.length) (hk : k < c.curves.length) :
    Real.sqrt (entry f i k) ≤ Real.sqrt (entry f i j) + Real.sqrt (entry f j k) := by
  obtain ⟨f', g', hf', -, -, -, -, -, -, -, -, -, he⟩ := C62_entries c hc hb T hT junk
  rw [hf] at hf'; cases hf'
  rw [(he i k hi hk).1, (he i j hi hj).1, (he j k hj hk).1, sqrt_msqd, sqrt_msqd, sqrt_msqd, ← add_div]
  exact div_le_div_of_nonneg_right (dist_triangle _ _ _) (Real.sqrt_nonneg _)

/-- **C80 (positive semidefinite).** If no curve is constant, the table of correlations is positive semidefinite: every weighted sum of its entries with weights `w i * w j` is non-negative. -/
theorem C80_positive (c : Comp ℝ) (hc : Constructed c) (hb : c.base = none) (T : Nat) (h2 : 1 < T) (hT : SameLength c T)
    (hn : ∀ i, i < c.curves.length → NonConstant (asFun T (c.curves.getD i []))) (f : Frame ℝ) (hf : correlate c = .ok f) (w : Nat → ℝ) :
    0 ≤ ∑ i ∈ Finset.range c.curves.length, ∑ j ∈ Finset.range c.curves.length, w i * w j * entry f i j := by
  obtain ⟨f', hf', -, -, -, -, he⟩ := C80_correlate c hc hb T h2 hT
  rw [hf] at hf'; cases hf'
  let X : Matrix (Fin c.curves.length) (Fin T) ℝ := fun i => asFun T (c.curves.getD i [])
  have hp := corrMatrix_posSemidef X h2 (fun i => hn i i.isLt)
  have h0 := hp.dotProduct_mulVec_nonneg (fun i => w i)
  have : (star fun i : Fin c.curves.length => w i) ⬝ᵥ (corrMatrix X).mulVec (fun i => w i) = ∑ i ∈ Finset.range c.curves.length, ∑ j ∈ Finset.range c.curves.length, w i * w j * entry f i j := by
    rw [Finset.sum_range]
    simp only [dotProduct, Matrix.mulVec, Finset.mul_sum]
    refine Finset.sum_congr rfl fun i _ => ?_
    rw [Finset.sum_range]
    refine Finset.sum_congr rfl fun j _ => ?_
    rw [(he i j i.isLt j.isLt).1]
    simp only [Pi.star_apply, star_trivial, corrMatrix, X]
    ring
  rw [← this]
  exact h0

/-! ## The hypotheses can be met -/

-- three curves of length 3, none constant
example : ∃ (c : Comp ℝ), Constructed c ∧ c.base = none ∧ SameLength c 3 ∧ c.curves.length = 3 ∧ (∃ f g, meanSqDifference c [] = .ok f ∧ correlate c = .ok g) ∧
    ∀ i, i < c.curves.length → NonConstant (asFun 3 (c.curves.getD i [])) := by
  have hc : Constructed (⟨[[1, 2, 3], [3, 1, 2], [0, 0, 1]], ["a", "b", "c"], none, none⟩ : Comp ℝ) :=
    (C64_construct [[1, 2, 3], [3, 1, 2], [0, 0, 1]] ["a", "b", "c"] none none).2.mpr (by simp)
  have hT : SameLength (⟨[[1, 2, 3], [3, 1, 2], [0, 0, 1]], ["a", "b", "c"], none, none⟩ : Comp ℝ) 3 := by simp [SameLength]
  obtain ⟨f, -, h1, -⟩ := C62_entries _ hc rfl 3 hT []
  obtain ⟨g, h2, -⟩ := C80_correlate _ hc rfl 3 (by norm_num) hT
  refine ⟨_, hc, rfl, hT, rfl, ⟨f, g, h1, h2⟩, fun i hi => ?_⟩
  have hi : i < 3 := hi
  interval_cases i
  · exact ⟨0, 1, by simp [asFun]⟩
  · exact ⟨0, 1, by simp [asFun]⟩
  · exact ⟨0, 2, by simp [asFun]⟩

end Props
end RMT
