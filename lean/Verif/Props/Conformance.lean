import Verif.Props.Compare
import Verif.Props.Step
import Verif.Props.Trim
import Verif.Props.Objects
import Verif.Props.RigiditySample
import Verif.Props.Eigenvalues

/-!
# The literal cases of the project's own unit tests, evaluated in the model

Evidence for the fidelity of the model, not properties: each `example` is an assertion of `/repo/tests` on literal data.
Assertions about random data are instances of the theorems named beside them.
-/

namespace RMT.Conformance
open RMT RMT.Step RMT.Comparing RMT.EigValsM RMT.Rigidity RMT.Spec

/-- tests/test_math.py line 38, `reigs`. -/
def reigs : List ℚ := [-2, -1, 0, 1, 2]

/-! tests/test_math.py lines 37-66, `test_step_fast`, readable cases (`is_correct` compares with `_step_function_correct`). -/
example : stepFunctionFast reigs [-3, -5 / 2, -2, -3 / 2, -1, -1 / 2, 0] = .ok [0, 0, 1, 1, 2, 2, 3] := by decide +kernel
example : stepFunctionCorrect reigs [-3, -5 / 2, -2, -3 / 2, -1, -1 / 2, 0] = [0, 0, 1, 1, 2, 2, 3] := by decide +kernel
example : stepFunctionFast reigs [-2, -3 / 2, -1, -1 / 2, 0, 1 / 2, 1, 3 / 2, 2, 5 / 2] =
    .ok [1, 1, 2, 2, 3, 3, 4, 4, 5, 5] := by decide +kernel
example : stepFunctionCorrect reigs [-2, -3 / 2, -1, -1 / 2, 0, 1 / 2, 1, 3 / 2, 2, 5 / 2] =
    [1, 1, 2, 2, 3, 3, 4, 4, 5, 5] := by decide +kernel
example : stepFunctionFast reigs [-3, -5 / 2, -2, -3 / 2, -1, -1 / 2, 0, 1 / 2, 1, 3 / 2, 2, 5 / 2] =
    .ok [0, 0, 1, 1, 2, 2, 3, 3, 4, 4, 5, 5] := by decide +kernel
example : stepFunctionCorrect reigs [-3, -5 / 2, -2, -3 / 2, -1, -1 / 2, 0, 1 / 2, 1, 3 / 2, 2, 5 / 2] =
    [0, 0, 1, 1, 2, 2, 3, 3, 4, 4, 5, 5] := by decide +kernel
example : stepFunctionFast reigs [0, 1 / 2, 1, 3 / 2, 2, 5 / 2] = .ok [3, 3, 4, 4, 5, 5] := by decide +kernel
example : stepFunctionCorrect reigs [0, 1 / 2, 1, 3 / 2, 2, 5 / 2] = [3, 3, 4, 4, 5, 5] := by decide +kernel

/-! tests/test_math.py lines 126-137, `test_slope`: for every line and all abscissae that are not all equal. -/
example (x : List ℚ) (hne : ¬ AllEqual x) (m b : ℚ) :
    Rigidity.slope x (x.map fun t => m * t + b) = m ∧ intercept x (x.map fun t => m * t + b) m = b := by
  have h := Props.C07_line_recovers x hne m b
  exact ⟨h.1, by rw [h.1] at h; exact h.2⟩

/-! tests/test_math.py lines 141-155, `test_integrate_trapz` on straight lines, for every grid. -/
example (grid : List ℚ) (hg : grid ≠ []) (m b : ℚ) :
    integrateFast grid (grid.map fun t => m * t + b) =
      (m * grid.getLast hg ^ 2 / 2 + b * grid.getLast hg) - (m * grid.head hg ^ 2 / 2 + b * grid.head hg) := by
  have h := Props.C08_trapz_affine grid hg m b
  rw [show quad 0 m b = fun t => m * t + b from funext fun t => by simp [quad]] at h
  rw [h, quadIntegral]; ring

/-! tests/test_math.py lines 190-206, `test_integrate_simps` on quadratics, for every ascending grid of at least three points. -/
example (grid : List ℚ) (hg : grid ≠ []) (h3 : 3 ≤ grid.length) (ha : grid.Pairwise (· < ·)) (a b c : ℚ) :
    intSimpsNonunif grid (grid.map fun t => a * t ^ 2 + b * t + c) =
      (a / 3 * grid.getLast hg ^ 3 + b / 2 * grid.getLast hg ^ 2 + c * grid.getLast hg) -
        (a / 3 * grid.head hg ^ 3 + b / 2 * grid.head hg ^ 2 + c * grid.head hg) := by
  have h := Props.C09_simps_quadratic grid hg h3 (Props.C09_ascending_ok grid ha) a b c
  rw [show quad a b c = fun t => a * t ^ 2 + b * t + c from rfl] at h
  rw [h, quadIntegral]; ring

/-! tests/test_compare.py lines 23-37, `test_validate`: one curve; one curve and no label; three curves of different sizes. -/
example (c : List ℚ) : ∃ e, initCompare [arr1d c] ["0"] none none = .error e := ⟨.valueError, by
  simp [initCompare, convertCurves, convertBase, make1dArray, arr1d, validateLengths, validateCounts, bind, Except.bind]⟩
example (c : List ℚ) : initCompare [arr1d c] [] none none = .error .valueError := by
  simp [initCompare, convertCurves, convertBase, make1dArray, arr1d, validateLengths, validateCounts, bind, Except.bind]
example (a b c : List ℚ) (ha : a.length = 3) (hb : b.length = 4) (_hc : c.length = 5) :
    validateLengths ⟨[a, b, c], ["0", "1", "2"], none, none⟩ true = .error .valueError := by
  simp [validateLengths, validateCounts, baseMismatch, allSameLength, ha, hb, bind, Except.bind]

/-! tests/test_compare.py lines 106-125, `test_msqd`, and lines 159-175, `test_mad`: `df[column][row]`. -/
example : (meanSqDifference (⟨[[1, 1, 1], [2, 2, 2]], ["ones", "twos"], none, none⟩ : Comp ℚ) [7, 8]).map (·.data) =
    .ok [[0, 1], [1, 0]] := by decide +kernel
example : (meanSqDifference (⟨[[1, 1, 1], [3, 3, 3]], ["ones", "threes"], none, none⟩ : Comp ℚ) [7, 8]).map (·.data) =
    .ok [[0, 4], [4, 0]] := by decide +kernel
example : (meanAbsDifference (⟨[[1, 1, 1], [2, 2, 2]], ["ones", "twos"], none, none⟩ : Comp ℚ) [7, 8]).map (·.data) =
    .ok [[0, 1], [1, 0]] := by decide +kernel
example : (meanAbsDifference (⟨[[1, 1, 1], [3, 3, 3]], ["ones", "threes"], none, none⟩ : Comp ℚ) [7, 8]).map (·.data) =
    .ok [[0, 2], [2, 0]] := by decide +kernel

/-! tests/test_smoother.py lines 19-23: a 2-D array is rejected with `ValueError`. -/
example : Objects.initSmoother (⟨[2, 3], [1, 2, 3, 4, 5, 6]⟩ : NDArr ℚ) = .error .valueError := by decide +kernel

/-! tests/test_trim.py lines 34-43, `test_trim_manual`, for every sorted spectrum and all `0 ≤ m ≤ n ≤ len(vals)`. -/
example (vals : List ℚ) (h : Ascending vals) (m n : Nat) (hmn : m ≤ n) (hn : n ≤ vals.length) :
    Report.trimManually vals m n = .ok ((vals.take n).drop m) := by
  obtain ⟨l, h1, h2, -, h4⟩ := Props.C40_ordinary vals h m n hmn hn
  rw [h1]
  congr 1
  refine List.ext_getElem? fun i => ?_
  by_cases hi : i < n - m
  · rw [h4 i hi, List.getElem?_drop, List.getElem?_take_of_lt (by omega)]
  · rw [List.getElem?_eq_none (by omega), List.getElem?_eq_none (by simp; omega)]

end RMT.Conformance
