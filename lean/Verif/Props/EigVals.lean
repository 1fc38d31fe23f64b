import Verif.Lemmas.Sort
import Verif.Lemmas.Numeric
import Verif.Props.Step

/-!
# Properties C05, C34-C36: spectra as sorted arrays
-/

set_option linter.unusedSectionVars false

namespace RMT
namespace Props
open EigValsM Step Spec

variable {α : Type} [LinearOrder α]

/-- **C05.** `.steps` of an object holding `n ≥ 1` ascending values (before any caching): if all values
are equal, all zeros; otherwise entry `k` is the number of values `≤ vals[k]` (the rank of the last
duplicate). -/
theorem C05_steps (o : Obj α) (hc : o.cache = none) (hne : o.vals ≠ []) (hs : Ascending o.vals) :
    ∃ s, getSteps o = .ok (s, { o with cache := some s }) ∧ s.length = o.vals.length ∧
      ((∀ a ∈ o.vals, ∀ b ∈ o.vals, a = b) → s = List.replicate o.vals.length 0) ∧
      ((¬ ∀ a ∈ o.vals, ∀ b ∈ o.vals, a = b) → s = o.vals.map (countLE o.vals)) := by
  have hlen : 0 < o.vals.length := List.length_pos_iff.mpr hne
  have heq : (∀ a ∈ o.vals, ∀ b ∈ o.vals, a = b) ↔ o.vals.getLast hne = o.vals.head hne := by
    constructor
    · intro h; exact h _ (List.getLast_mem hne) _ (List.head_mem hne)
    · intro h a ha b hb
      have key : ∀ c ∈ o.vals, c = o.vals.head hne := by
        intro c hc
        obtain ⟨i, hi, rfl⟩ := List.mem_iff_getElem.mp hc
        rw [List.getLast_eq_getElem, List.head_eq_getElem] at h
        rw [List.head_eq_getElem]
        refine le_antisymm ?_ ?_
        · rw [← h]; exact hs.le _ _ hi (by omega) (by omega)
        · exact hs.le _ _ (by omega) hi (by omega)
      rw [key a ha, key b hb]
  by_cases h : o.vals.getLast hne = o.vals.head hne
  · obtain ⟨ret, h1, h2, h3⟩ := C01_step_array o.vals o.vals hne hne hs
    refine ⟨ret, ?_, h2, ?_, ?_⟩
    · simp [getSteps, hc, h1]
    · intro _
      apply List.ext_getElem
      · simpa using h2
      · intro k hk _
        rw [h3 k hk, if_pos h.le, List.getElem_replicate]
    · intro h'; exact absurd (heq.mpr h) h'
  · obtain ⟨h1, -⟩ := C02_step_counts_partial o.vals o.vals hne hne hs hs h
    refine ⟨_, ?_, by simp, ?_, fun _ => rfl⟩
    · simp [getSteps, hc, h1]
    · intro h'; exact absurd (heq.mp h') h

/-- **C05 (distinct values).** For at least two distinct ascending values `.steps` is `1, 2, …, n`. -/
theorem C05_steps_distinct (o : Obj α) (hc : o.cache = none) (hn : 2 ≤ o.vals.length)
    (hs : o.vals.Pairwise (· < ·)) :
    ∃ o', getSteps o = .ok (List.range' 1 o.vals.length, o') := by
  have hne : o.vals ≠ [] := by intro h; rw [h] at hn; simp at hn
  have hs' : Ascending o.vals := hs.imp le_of_lt
  obtain ⟨s, h1, h2, -, h4⟩ := C05_steps o hc hne hs'
  have h5 := h4 (by
    intro h
    have := List.pairwise_iff_getElem.mp hs 0 1 (by omega) (by omega) (by omega)
    exact absurd (h _ (List.getElem_mem _) _ (List.getElem_mem _)) this.ne)
  refine ⟨{ o with cache := some s }, ?_⟩
  rw [h1]
  congr 2
  rw [h5]
  apply List.ext_getElem
  · simp
  · intro k hk _
    rw [List.length_map] at hk
    simp only [List.getElem_map, List.getElem_range', one_mul]
    unfold countLE
    rw [List.countP_eq_length_filter]
    have : o.vals.filter (fun e => decide (e ≤ o.vals[k])) = o.vals.take (k + 1) := by
      have hsplit := List.filter_append (p := fun e => decide (e ≤ o.vals[k])) (o.vals.take (k + 1))
        (o.vals.drop (k + 1))
      rw [List.take_append_drop] at hsplit
      rw [hsplit, List.filter_eq_self.mpr, List.filter_eq_nil_iff.mpr, List.append_nil]
      · intro a ha
        obtain ⟨i, hi, rfl⟩ := List.mem_iff_getElem.mp ha
        rw [List.length_drop] at hi
        rw [List.getElem_drop]
        have := List.pairwise_iff_getElem.mp hs k (k + 1 + i) hk (by omega) (by omega)
        simpa using this
      · intro a ha
        obtain ⟨i, hi, rfl⟩ := List.mem_iff_getElem.mp ha
        rw [List.length_take] at hi
        rw [List.getElem_take]
        simpa using hs'.le i k (by omega) hk (by omega)
    rw [this, List.length_take]
    omega

/-- Non-vacuity for C05: ties and a concrete result. -/
example : getSteps (⟨[], [(1:ℚ), 2, 2, 5], none⟩ : Obj ℚ) =
    .ok ([1, 3, 3, 4], ⟨[], [1, 2, 2, 5], some [1, 3, 3, 4]⟩) := by
  obtain ⟨s, h1, -, -, h4⟩ := C05_steps (⟨[], [(1:ℚ), 2, 2, 5], none⟩ : Obj ℚ) rfl (by simp)
    (by simp [Ascending]; norm_num)
  have h5 : s = [1, 3, 3, 4] := by
    rw [h4 (by simp)]; decide +kernel
  rw [h1, h5]

/-- **C34.** For every 1-D input the constructor of `Eigenvalues` / `Trimmed` succeeds; the object holds
exactly the input values, with multiplicity, in ascending order; `original_values` and `values` agree. -/
theorem C34_sorted (l : List α) :
    ∃ o, initEigVals1d l = .ok o ∧ o.vals.Perm l ∧ Ascending o.vals ∧ o.construct = o.vals ∧
      o.cache = none :=
  ⟨_, initEigVals1d_ok l, npSort_perm l, npSort_ascending l, rfl, rfl⟩

/-- **C34 (canonical).** Two 1-D inputs give objects with equal values iff one is a permutation of the other; a sorted
input is kept as it is. -/
theorem C34_canonical (l l' : List α) (o o' : Obj α) (h : initEigVals1d l = .ok o)
    (h' : initEigVals1d l' = .ok o') : (o.vals = o'.vals ↔ l.Perm l') ∧ (Ascending l → o.vals = l) := by
  rw [initEigVals1d_ok] at h h'
  injection h with h
  injection h' with h'
  subst h h'
  refine ⟨⟨fun he => ?_, fun hp => npSort_eq_of_perm hp⟩, npSort_of_ascending l⟩
  have he' : npSort l = npSort l' := he
  exact (npSort_perm l).symm.trans (he' ▸ npSort_perm l')

/-- **C34 (matrix input).** For a 2-D input the object holds the sorted result of the symmetric eigensolver if the matrix equals
its transpose and of the general eigensolver otherwise. -/
theorem C34_matrix (isSymm : NDArr α → Bool) (eigvalsh eigvals : NDArr α → Py (List α)) (n m : Nat)
    (d l : List α)
    (hl : (if isSymm ⟨[n, m], d⟩ then eigvalsh ⟨[n, m], d⟩ else eigvals ⟨[n, m], d⟩) = .ok l) :
    ∃ o, initEigVals isSymm eigvalsh eigvals (some ⟨[n, m], d⟩) = .ok o ∧ o.vals.Perm l ∧
      Ascending o.vals ∧ o.construct = o.vals := by
  refine ⟨⟨npSort l, npSort (npSort l), none⟩, ?_, ?_, npSort_ascending _, ?_⟩
  · simp only [initEigVals, List.length_cons, List.length_nil]
    rw [if_neg (by norm_num), if_pos trivial, hl]
    rfl
  · exact (npSort_perm _).trans (npSort_perm l)
  · exact (npSort_of_ascending _ (npSort_ascending l)).symm

/-- **C35 (make_1d_array).** For a well-formed array: a 0-dimensional value raises `TypeError`; an array is accepted exactly if its total
size equals its first dimension, and then its entries are returned in row-major order; every other shape
raises `ValueError`. -/
theorem C35_make_1d (a : NDArr α) (hwf : a.WF) :
    (a.shape = [] → make1dArray a = .error .typeError) ∧
    (∀ d ds, a.shape = d :: ds → d * ds.prod = d → make1dArray a = .ok a.data) ∧
    (∀ d ds, a.shape = d :: ds → d * ds.prod ≠ d → make1dArray a = .error .valueError) := by
  unfold NDArr.WF at hwf
  refine ⟨fun h => ?_, fun d ds h hd => ?_, fun d ds h hd => ?_⟩
  · simp [make1dArray, h]
  · rw [h, List.prod_cons] at hwf
    simp [make1dArray, h, hwf, hd]
  · rw [h, List.prod_cons] at hwf
    simp [make1dArray, h, hwf, hd]

/-- **C35 (constructor).** `None` and more than two dimensions raise `ValueError`, a 0-dimensional value raises
`TypeError`, every 1-D array is accepted. -/
theorem C35_constructor (isSymm : NDArr α → Bool) (eigvalsh eigvals : NDArr α → Py (List α)) :
    initEigVals isSymm eigvalsh eigvals none = .error .valueError ∧
    (∀ a : NDArr α, 2 < a.shape.length →
      initEigVals isSymm eigvalsh eigvals (some a) = .error .valueError) ∧
    (∀ x, initEigVals isSymm eigvalsh eigvals (some ⟨[], [x]⟩) = .error .typeError) ∧
    (∀ l, ∃ o, initEigVals isSymm eigvalsh eigvals (some (arr1d l)) = .ok o) := by
  refine ⟨rfl, fun a h => ?_, fun x => ?_, fun l => ?_⟩
  · simp [initEigVals, h]
  · simp [initEigVals, make1dArray, bind, Except.bind]
  · simp [initEigVals, arr1d, make1dArray, bind, Except.bind]

/-- Non-vacuity for C35: a column vector is accepted, a 2 × 2 array is not. -/
example : make1dArray (⟨[3, 1], [1, 2, 3]⟩ : NDArr ℚ) = .ok [1, 2, 3] ∧
    make1dArray (⟨[2, 2], [1, 2, 3, 4]⟩ : NDArr ℚ) = .error .valueError := by
  constructor <;> rfl

section spacings
variable {K : Type} [Field K] [LinearOrder K] [IsStrictOrderedRing K]

private theorem sum_diff (a : K) (l : List K) :
    (diff (a :: l)).sum = (a :: l).getLast (by simp) - a := by
  induction l generalizing a with
  | nil => simp [diff]
  | cons b l ih =>
    have h : (a :: b :: l).getLast (by simp) = (b :: l).getLast (by simp) := List.getLast_cons_cons
    rw [diff, List.sum_cons, ih b, h]
    ring

/-- **C36.** For any object with `n ≥ 1` values, `spacings` has `n - 1` entries, all `≥ 0`, summing to
`max - min`; it does not depend on the order of the stored values. -/
theorem C36_spacings (o : Obj K) (mn mx : K) (hmn : mn ∈ o.vals ∧ ∀ v ∈ o.vals, mn ≤ v)
    (hmx : mx ∈ o.vals ∧ ∀ v ∈ o.vals, v ≤ mx) :
    (spacings o).length = o.vals.length - 1 ∧ (∀ s ∈ spacings o, 0 ≤ s) ∧
      (spacings o).sum = mx - mn ∧
      ∀ o' : Obj K, o'.vals.Perm o.vals → spacings o' = spacings o := by
  have hp := npSort_perm o.vals
  have ha := npSort_ascending o.vals
  refine ⟨?_, ?_, ?_, fun o' h => ?_⟩
  · rw [spacings, length_diff, hp.length_eq]
  · intro s hs
    obtain ⟨i, hi, rfl⟩ := List.mem_iff_getElem.mp hs
    unfold spacings at hi ⊢
    rw [getElem_diff]
    rw [length_diff] at hi
    exact sub_nonneg.mpr (ha.le _ _ (by omega) (by omega) (by omega))
  · unfold spacings
    cases hl : npSort o.vals with
    | nil =>
      rw [hl] at hp
      rw [List.nil_perm.mp hp] at hmn
      simp at hmn
    | cons a l =>
      rw [sum_diff]
      rw [hl] at hp ha
      have h1 : a = mn := by
        refine le_antisymm ?_ (hmn.2 a (hp.mem_iff.mp (by simp)))
        have hm := hp.mem_iff.mpr hmn.1
        rcases List.mem_cons.mp hm with h | h
        · exact h.ge
        · exact (List.pairwise_cons.mp ha).1 mn h
      have h2 : (a :: l).getLast (by simp) = mx := by
        refine le_antisymm (hmx.2 _ (hp.mem_iff.mp (List.getLast_mem _))) ?_
        obtain ⟨i, hi, he⟩ := List.mem_iff_getElem.mp (hp.mem_iff.mpr hmx.1)
        rw [← he, List.getLast_eq_getElem]
        exact ha.le _ _ hi (by simp) (by have := hi; omega)
      rw [h1] at h2
      rw [h1, h2]
  · unfold spacings
    rw [npSort_eq_of_perm h]

/-- Non-vacuity for C36. -/
example : (1 ∈ [(3:ℚ), 1, 2] ∧ ∀ v ∈ [(3:ℚ), 1, 2], 1 ≤ v) ∧ diff [(1:ℚ), 2, 3] = [1, 1] := by
  refine ⟨⟨by simp, by simp⟩, by decide +kernel⟩

end spacings

end Props
end RMT
