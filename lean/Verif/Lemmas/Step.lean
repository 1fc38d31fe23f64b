import Verif.Model.Step
import Verif.Spec.Counting
import Verif.Lemmas.Py

/-! # Lemmas on the step function -/

namespace RMT
namespace Step
open Spec

variable {α : Type} [LinearOrder α]

theorem _root_.RMT.Spec.Ascending.le {l : List α} (hs : Ascending l) (i j : Nat) (hi : i < l.length)
    (hj : j < l.length) (hij : i ≤ j) : l[i] ≤ l[j] := by
  rcases Nat.lt_or_eq_of_le hij with h | rfl
  · exact List.pairwise_iff_getElem.mp hs i j hi hj h
  · exact le_refl _

theorem any_take_iff (x : List α) (k : Nat) (e : α) :
    ((x.take (k + 1)).any fun q => decide (e ≤ q)) = true ↔
      ∃ m, ∃ h : m < x.length, m ≤ k ∧ e ≤ x[m] := by
  simp only [List.any_eq_true, decide_eq_true_eq, List.mem_iff_getElem, List.length_take]
  constructor
  · rintro ⟨q, ⟨m, hm, rfl⟩, he⟩
    refine ⟨m, by omega, by omega, ?_⟩
    simpa using he
  · rintro ⟨m, hm, hk, he⟩
    exact ⟨x[m], ⟨m, by omega, by simp⟩, he⟩

omit [LinearOrder α] in
theorem countP_eq_of_split (l : List α) (p : α → Bool) (i : Nat) (hi : i ≤ l.length)
    (h1 : ∀ a (h : a < l.length), a < i → p l[a] = true)
    (h2 : ∀ a (h : a < l.length), i ≤ a → p l[a] = false) : l.countP p = i := by
  rw [← List.take_append_drop i l, List.countP_append]
  have e1 : (l.take i).countP p = (l.take i).length := by
    rw [List.countP_eq_length]
    intro a ha
    obtain ⟨k, hk, rfl⟩ := List.mem_iff_getElem.mp ha
    simp only [List.length_take] at hk
    simp only [List.getElem_take]
    exact h1 k (by omega) (by omega)
  have e2 : (l.drop i).countP p = 0 := by
    rw [List.countP_eq_zero]
    intro a ha
    obtain ⟨k, hk, rfl⟩ := List.mem_iff_getElem.mp ha
    simp only [List.length_drop] at hk
    simp only [List.getElem_drop]
    rw [h2 (i + k) (by omega) (by omega)]
    simp
  rw [e1, e2, List.length_take]
  omega

theorem countReached_eq (eigs x : List α) (hs : Ascending eigs) (i j : Nat)
    (hi : i ≤ eigs.length)
    (h1 : ∀ a (h : a < eigs.length), a < i → ∃ m, ∃ hm : m < x.length, m ≤ j ∧ eigs[a] ≤ x[m])
    (h2 : ∀ (h : i < eigs.length) m (hm : m < x.length), m ≤ j → x[m] < eigs[i]) :
    countReached eigs x j = i := by
  apply countP_eq_of_split _ _ _ hi
  · intro a h ha
    rw [any_take_iff]
    exact h1 a h ha
  · intro a h ha
    rw [Bool.eq_false_iff, Ne, any_take_iff]
    rintro ⟨m, hm, hmj, hle⟩
    have := h2 (by omega) m hm hmj
    have := hs.le i a (by omega) h ha
    exact absurd (lt_of_le_of_lt (le_trans this hle) ‹x[m] < _›) (lt_irrefl _)

/-! ### loop invariants -/

theorem skipLoop_spec (e0 : α) (x : List α) (j : Nat) (hj : j ≤ x.length)
    (h : ∀ m (hm : m < x.length), m < j → x[m] < e0) :
    skipLoop e0 x j ≤ x.length ∧
      (∀ m (hm : m < x.length), m < skipLoop e0 x j → x[m] < e0) ∧
      (∀ hlt : skipLoop e0 x j < x.length, e0 ≤ x[skipLoop e0 x j]) := by
  fun_induction skipLoop e0 x j with
  | case1 j hlt hx ih =>
    apply ih (by omega)
    intro m hm hmj
    by_cases hm' : m = j
    · subst hm'; exact hx
    · exact h m hm (by omega)
  | case2 j hlt hx => exact ⟨hj, h, fun _ => not_lt.mp hx⟩
  | case3 j hlt => exact ⟨hj, h, fun h' => absurd h' hlt⟩

/-- The invariant of the main loop. -/
structure Inv (eigs x : List α) (i j count : Nat) (ret : List Nat) : Prop where
  cnt : count = i
  ile : i ≤ eigs.length
  jle : j ≤ x.length
  len : ret.length = x.length
  done : ∀ k (h : k < ret.length), k < j → ret[k] = countReached eigs x k
  below : ∀ a (h : a < eigs.length), a < i → ∃ m, ∃ hm : m < x.length, m ≤ j ∧ eigs[a] ≤ x[m]
  above : ∀ (h : i < eigs.length) m (hm : m < x.length), m < j → x[m] < eigs[i]

theorem lookAhead_inv (eigs x : List α) (hs : Ascending eigs) (i count j : Nat) (ret : List Nat)
    (hi : i < eigs.length) (inv : Inv eigs x i j count ret) :
    Inv eigs x i (lookAhead eigs[i] x count j ret).1 count (lookAhead eigs[i] x count j ret).2 := by
  generalize he : eigs[i] = e
  fun_induction lookAhead e x count j ret with
  | case1 j ret hlt hx ih =>
    apply ih
    subst he
    have habove : ∀ (h : i < eigs.length) m (hm : m < x.length), m < j + 1 → x[m] < eigs[i] := by
      intro h m hm hmj
      by_cases hm' : m = j
      · subst hm'; exact hx
      · exact inv.above h m hm (by omega)
    refine ⟨inv.cnt, inv.ile, hlt, by simp [inv.len], ?_, ?_, habove⟩
    · intro k hk hkj
      by_cases hk' : k = j
      · subst hk'
        rw [List.getElem_set_self]
        rw [inv.cnt]
        symm
        exact countReached_eq eigs x hs i k inv.ile inv.below
          (fun h m hm hmk => habove h m hm (by omega))
      · rw [List.getElem_set_ne (by omega)]
        exact inv.done k (by simpa using hk) (by omega)
    · intro a h ha
      obtain ⟨m, hm, hmj, hle⟩ := inv.below a h ha
      exact ⟨m, hm, by omega, hle⟩
  | case2 => exact inv
  | case3 => exact inv

theorem mainLoop_inv (eigs x : List α) (hs : Ascending eigs) (i j count : Nat) (ret : List Nat)
    (inv : Inv eigs x i j count ret) :
    ∃ i', Inv eigs x i' (mainLoop eigs x i j count ret).1 (mainLoop eigs x i j count ret).2.1
        (mainLoop eigs x i j count ret).2.2 ∧
      ((mainLoop eigs x i j count ret).1 < x.length → i' = eigs.length) := by
  fun_induction mainLoop eigs x i j count ret with
  | case1 i j count ret h hle ih =>
    apply ih
    refine ⟨by rw [inv.cnt], h.2, inv.jle, inv.len, inv.done, ?_, ?_⟩
    · intro a ha hai
      by_cases hai' : a = i
      · subst hai'; exact ⟨j, h.1, Nat.le_refl _, hle⟩
      · exact inv.below a ha (by omega)
    · intro ha m hm hmj
      exact lt_of_lt_of_le (inv.above h.2 m hm hmj) (hs.le i (i+1) h.2 ha (by omega))
  | case2 i j count ret h hle ih =>
    exact ih (lookAhead_inv eigs x hs i count j ret h.2 inv)
  | case3 i j count ret h =>
    refine ⟨i, inv, fun hj => ?_⟩
    have := inv.ile
    simp only at hj
    by_contra hne
    exact h ⟨hj, by omega⟩

theorem tailLoop_spec (n count j : Nat) (ret : List Nat) (hn : ret.length = n) :
    (tailLoop n count j ret).length = n ∧
      ∀ k, (tailLoop n count j ret)[k]? =
        if j ≤ k ∧ k < n then some count else ret[k]? := by
  fun_induction tailLoop n count j ret with
  | case1 j ret hlt ih =>
    obtain ⟨h1, h2⟩ := ih (by simpa using hn)
    refine ⟨h1, fun k => ?_⟩
    rw [h2 k]
    by_cases hk : j = k
    · subst hk
      rw [if_neg (by omega), if_pos (by omega)]
      rw [List.getElem?_set_self (by omega)]
    · rw [List.getElem?_set_ne hk]
      by_cases hjk : j + 1 ≤ k ∧ k < n
      · rw [if_pos hjk, if_pos (by omega)]
      · rw [if_neg hjk, if_neg (by omega)]
  | case2 j ret hlt =>
    refine ⟨hn, fun k => ?_⟩
    rw [if_neg (by omega)]

theorem fillLoop_spec (n i : Nat) (ret : List Nat) :
    (fillLoop n i ret).length = ret.length ∧
      ∀ k, (fillLoop n i ret)[k]? = if i ≤ k ∧ k < ret.length then some n else ret[k]? := by
  fun_induction fillLoop n i ret with
  | case1 i ret hlt ih =>
    obtain ⟨h1, h2⟩ := ih
    rw [List.length_set] at h1 h2
    refine ⟨h1, fun k => ?_⟩
    rw [h2 k]
    by_cases hk : i = k
    · subst hk
      rw [if_neg (by omega), if_pos (by omega), List.getElem?_set_self (by omega)]
    · rw [List.getElem?_set_ne hk]
      by_cases hjk : i + 1 ≤ k ∧ k < ret.length
      · rw [if_pos hjk, if_pos (by omega)]
      · rw [if_neg hjk, if_neg (by omega)]
  | case2 i ret hlt =>
    refine ⟨rfl, fun k => ?_⟩
    rw [if_neg (by omega)]

end Step
end RMT
