import Verif.Model.Smoother
import Verif.Lemmas.Numeric
import Verif.Lemmas.Sort
import Mathlib.Data.List.GetD

/-! # Lemmas on the EMD detrending -/

set_option linter.unusedSectionVars false

namespace RMT
namespace Smooth
open EigValsM

variable {K : Type} [Field K] [LinearOrder K]

theorem sum_take_diff (u : List K) (k : Nat) (h : k < u.length) :
    ((diff u).take k).sum = u[k] - u[0]'(by omega) := by
  induction k with
  | zero => simp
  | succ k ih =>
    have hk : k < (diff u).length := by rw [length_diff]; omega
    rw [List.take_add_one, List.getElem?_eq_getElem hk, Option.toList_some, List.sum_append, ih (by omega), getElem_diff]
    simp

theorem sum_map_sub (l : List K) (c : K) : (l.map (· - c)).sum = l.sum - (l.length : K) * c := by
  induction l with
  | nil => simp
  | cons a l ih =>
    simp only [List.map_cons, List.sum_cons, ih, List.length_cons]
    push_cast
    ring

theorem emdDelta_getD (u : List K) (k : Nat) (h : k < u.length) :
    (emdDelta u).getD k 0 = u[k] - u[0]'(by omega) - (k : K) * mean (diff u) := by
  have h1 : k < (emdDelta u).length := by simpa [emdDelta] using h
  rw [List.getD_eq_getElem _ _ h1]
  simp only [emdDelta, List.getElem_map, List.getElem_range]
  rw [← List.map_take, sum_map_sub, sum_take_diff u k h, List.length_take, length_diff,
    Nat.min_eq_left (by omega)]

theorem emdDelta_length (u : List K) : (emdDelta u).length = u.length := by simp [emdDelta]

theorem emdDetrend_length (trend : List K → List K) (u : List K) :
    (emdDetrend trend u).length = u.length := by simp [emdDetrend]

theorem emdDetrend_zero (trend : List K → List K) (u : List K) (h : 0 < u.length) :
    (emdDetrend trend u)[0]'(by rw [emdDetrend_length]; exact h) = u[0] := by
  simp [emdDetrend, h]

theorem emdDetrend_succ (trend : List K → List K) (u : List K)
    (ht : (trend (emdDelta u)).length = u.length) (i : Nat) (h : i + 1 < u.length) :
    (emdDetrend trend u)[i + 1]'(by rw [emdDetrend_length]; exact h) =
      u[i] - (trend (emdDelta u))[i]'(by omega) := by
  have h1 : i < (List.zipWith (· - ·) (emdDelta u) (trend (emdDelta u))).length := by
    simp [emdDelta_length]; omega
  have h2 := emdDelta_getD u i (by omega)
  rw [List.getD_eq_getElem _ _ (by rw [emdDelta_length]; omega)] at h2
  simp only [emdDetrend, List.getElem_map, List.getElem_range, Nat.succ_ne_zero, if_false,
    Nat.add_sub_cancel]
  rw [List.getD_eq_getElem _ _ h1, List.getElem_zipWith, h2, List.getD_eq_getElem _ _ (by omega)]
  push_cast
  ring

end Smooth
end RMT
