import Verif.Model.Eigenvalues
import Verif.Lemmas.Sort

/-! # Lemmas on `max`, `min` and filtering -/

namespace RMT
namespace EigM
open EigValsM Spec

variable {α : Type} [LinearOrder α]

theorem foldl_max_spec (l : List α) : ∀ a : α,
    (l.foldl max a = a ∨ l.foldl max a ∈ l) ∧ a ≤ l.foldl max a ∧ ∀ x ∈ l, x ≤ l.foldl max a := by
  induction l with
  | nil => intro a; simp
  | cons b l ih =>
    intro a
    obtain ⟨h1, h2, h3⟩ := ih (max a b)
    simp only [List.foldl_cons]
    refine ⟨?_, le_trans (le_max_left _ _) h2, ?_⟩
    · rcases h1 with h1 | h1
      · rw [h1]
        rcases max_choice a b with h | h
        · left; exact h
        · right; simp [h]
      · right; exact List.mem_cons_of_mem _ h1
    · intro x hx
      rcases List.mem_cons.mp hx with rfl | hx
      · exact le_trans (le_max_right _ _) h2
      · exact h3 x hx

theorem foldl_min_spec (l : List α) : ∀ a : α,
    (l.foldl min a = a ∨ l.foldl min a ∈ l) ∧ l.foldl min a ≤ a ∧ ∀ x ∈ l, l.foldl min a ≤ x := by
  induction l with
  | nil => intro a; simp
  | cons b l ih =>
    intro a
    obtain ⟨h1, h2, h3⟩ := ih (min a b)
    simp only [List.foldl_cons]
    refine ⟨?_, le_trans h2 (min_le_left _ _), ?_⟩
    · rcases h1 with h1 | h1
      · rw [h1]
        rcases min_choice a b with h | h
        · left; exact h
        · right; simp [h]
      · right; exact List.mem_cons_of_mem _ h1
    · intro x hx
      rcases List.mem_cons.mp hx with rfl | hx
      · exact le_trans h2 (min_le_right _ _)
      · exact h3 x hx

theorem npMax_ok {l : List α} (h : l ≠ []) : ∃ m, npMax l = .ok m ∧ m ∈ l ∧ ∀ x ∈ l, x ≤ m := by
  cases l with
  | nil => exact absurd rfl h
  | cons a l =>
    obtain ⟨h1, h2, h3⟩ := foldl_max_spec l a
    refine ⟨_, rfl, ?_, ?_⟩
    · rcases h1 with h1 | h1
      · unfold maxOf; rw [h1]; simp
      · exact List.mem_cons_of_mem _ h1
    · intro x hx
      rcases List.mem_cons.mp hx with rfl | hx
      · exact h2
      · exact h3 x hx

theorem npMin_ok {l : List α} (h : l ≠ []) : ∃ m, npMin l = .ok m ∧ m ∈ l ∧ ∀ x ∈ l, m ≤ x := by
  cases l with
  | nil => exact absurd rfl h
  | cons a l =>
    obtain ⟨h1, h2, h3⟩ := foldl_min_spec l a
    refine ⟨_, rfl, ?_, ?_⟩
    · rcases h1 with h1 | h1
      · unfold minOf; rw [h1]; simp
      · exact List.mem_cons_of_mem _ h1
    · intro x hx
      rcases List.mem_cons.mp hx with rfl | hx
      · exact h2
      · exact h3 x hx

theorem npMax_eq {l : List α} {m : α} (hm : m ∈ l) (h : ∀ x ∈ l, x ≤ m) : npMax l = .ok m := by
  obtain ⟨m', h1, h2, h3⟩ := npMax_ok (List.ne_nil_of_mem hm)
  rw [h1, le_antisymm (h m' h2) (h3 m hm)]

theorem npMin_eq {l : List α} {m : α} (hm : m ∈ l) (h : ∀ x ∈ l, m ≤ x) : npMin l = .ok m := by
  obtain ⟨m', h1, h2, h3⟩ := npMin_ok (List.ne_nil_of_mem hm)
  rw [h1, le_antisymm (h3 m hm) (h m' h2)]

theorem ascending_filter {l : List α} (h : Ascending l) (p : α → Bool) : Ascending (l.filter p) :=
  List.Pairwise.filter p h

theorem npSort_filter (l : List α) (p : α → Bool) : npSort (l.filter p) = (npSort l).filter p :=
  npSort_unique ((npSort_perm l).filter p) (ascending_filter (npSort_ascending l) p)

end EigM
end RMT
