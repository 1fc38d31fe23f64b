import Verif.Py

/-! # Lemmas on Python indexing and slicing -/

namespace RMT

variable {α : Type}

theorem pyGet_zero (l : List α) (h : 0 < l.length) : pyGet l 0 = .ok l[0] := by
  simp [pyGet, pyIdx, h]

theorem pyGet_neg_one (l : List α) (h : 0 < l.length) :
    pyGet l (-1) = .ok (l[l.length - 1]'(by omega)) := by
  have h1 : pyIdx l.length (-1) = some (l.length - 1) := by
    simp only [pyIdx]
    rw [if_neg (by omega), if_pos (by omega)]
    congr 1
    omega
  simp only [pyGet, h1]
  rw [List.getElem?_eq_getElem (by omega)]

end RMT
