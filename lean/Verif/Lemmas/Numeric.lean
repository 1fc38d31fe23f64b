import Verif.Model.Numeric
import Verif.Lemmas.Py
import Mathlib.Algebra.BigOperators.Fin

/-! # Lemmas on numpy primitives -/

namespace RMT

open Finset

variable {K : Type}

theorem nth_nat [Zero K] (l : List K) (i : Nat) (h : i < l.length) : nth l (i : Int) = l[i] := by
  have : pyIdx l.length (i : Int) = some i := by
    simp [pyIdx, h]
  simp [nth, this, h]

theorem nth_of_eq [Zero K] (l : List K) (z : Int) (i : Nat) (hz : z = i) (h : i < l.length) :
    nth l z = l[i] := by
  subst hz; exact nth_nat l i h

theorem length_diff [Sub K] (l : List K) : (diff l).length = l.length - 1 := by
  induction l with
  | nil => rfl
  | cons a l ih =>
    cases l with
    | nil => rfl
    | cons b l => simp only [diff, List.length_cons] at *; omega

theorem getElem_diff [Sub K] (l : List K) (i : Nat) (h : i < (diff l).length) :
    (diff l)[i] = l[i + 1]'(by rw [length_diff] at h; omega) -
      l[i]'(by rw [length_diff] at h; omega) := by
  induction l generalizing i with
  | nil => simp [diff] at h
  | cons a l ih =>
    cases l with
    | nil => simp [diff] at h
    | cons b l =>
      cases i with
      | zero => simp [diff]
      | succ i => simp [diff, ih]

@[simp] theorem length_linspace [Field K] (a b : K) (n : Nat) : (linspace a b n).length = n := by
  simp [linspace]

theorem getElem_linspace [Field K] (a b : K) (n i : Nat) (h : i < (linspace a b n).length) :
    (linspace a b n)[i] = a + (i : K) * ((b - a) / ((n : K) - 1)) := by
  simp only [linspace, List.getElem_map, List.getElem_range]

theorem sum_eq_sum_fin [AddCommMonoid K] (l : List K) : l.sum = ∑ i : Fin l.length, l[i] := by
  conv_lhs => rw [← List.ofFn_getElem (xs := l)]
  rw [List.sum_ofFn]
  rfl

theorem sum_eq_sum_range [AddCommMonoid K] (l : List K) (f : Nat → K)
    (hf : ∀ i (h : i < l.length), l[i] = f i) : l.sum = ∑ i ∈ range l.length, f i := by
  rw [sum_eq_sum_fin, ← Fin.sum_univ_eq_sum_range]
  exact Finset.sum_congr rfl fun i _ => hf i i.2

/-! ### extrema -/

section order
variable [LinearOrder K]

theorem le_maxOf (a : K) (l : List K) : ∀ x ∈ a :: l, x ≤ maxOf a l := by
  induction l generalizing a with
  | nil => simp [maxOf]
  | cons b l ih =>
    have h1 : maxOf a (b :: l) = maxOf (max a b) l := rfl
    rw [h1]
    have h2 := ih (max a b) (max a b) (by simp)
    intro x hx
    rcases List.mem_cons.mp hx with rfl | hx
    · exact le_trans (le_max_left _ _) h2
    · rcases List.mem_cons.mp hx with rfl | hx
      · exact le_trans (le_max_right _ _) h2
      · exact ih (max a b) x (List.mem_cons_of_mem _ hx)

theorem maxOf_mem (a : K) (l : List K) : maxOf a l ∈ a :: l := by
  induction l generalizing a with
  | nil => simp [maxOf]
  | cons b l ih =>
    have h1 : maxOf a (b :: l) = maxOf (max a b) l := rfl
    rw [h1]
    rcases List.mem_cons.mp (ih (max a b)) with h | h
    · rw [h]
      rcases max_choice a b with h | h <;> simp [h]
    · simp [h]

theorem minOf_le (a : K) (l : List K) : ∀ x ∈ a :: l, minOf a l ≤ x := by
  induction l generalizing a with
  | nil => simp [minOf]
  | cons b l ih =>
    have h1 : minOf a (b :: l) = minOf (min a b) l := rfl
    rw [h1]
    have h2 := ih (min a b) (min a b) (by simp)
    intro x hx
    rcases List.mem_cons.mp hx with rfl | hx
    · exact le_trans h2 (min_le_left _ _)
    · rcases List.mem_cons.mp hx with rfl | hx
      · exact le_trans h2 (min_le_right _ _)
      · exact ih (min a b) x (List.mem_cons_of_mem _ hx)

theorem minOf_mem (a : K) (l : List K) : minOf a l ∈ a :: l := by
  induction l generalizing a with
  | nil => simp [minOf]
  | cons b l ih =>
    have h1 : minOf a (b :: l) = minOf (min a b) l := rfl
    rw [h1]
    rcases List.mem_cons.mp (ih (min a b)) with h | h
    · rw [h]
      rcases min_choice a b with h | h <;> simp [h]
    · simp [h]

end order

/-! ### parallel loops -/

theorem prangeWrite_ok {β : Type} (order : List Nat) (f : Nat → Py β) (g : Nat → β) (out : List β)
    (hf : ∀ i ∈ order, f i = .ok (g i)) :
    ∃ r, prangeWrite order f out = .ok r ∧ r.length = out.length ∧
      ∀ k, r[k]? = if k ∈ order ∧ k < out.length then some (g k) else out[k]? := by
  induction order generalizing out with
  | nil => exact ⟨out, rfl, rfl, by simp⟩
  | cons i is ih =>
    obtain ⟨r, h1, h2, h3⟩ := ih (out.set i (g i)) (fun j hj => hf j (List.mem_cons_of_mem _ hj))
    refine ⟨r, ?_, by simpa using h2, ?_⟩
    · simp [prangeWrite, hf i (List.mem_cons_self ..), h1]
    · intro k
      rw [h3 k]
      simp only [List.length_set, List.mem_cons]
      by_cases hk : k < out.length
      · by_cases hm : k ∈ is
        · simp [hm, hk]
        · by_cases hki : k = i
          · subst hki; simp [hm, hk]
          · simp [hm, hki, List.getElem?_set_ne (Ne.symm hki)]
      · simp [hk]

end RMT
