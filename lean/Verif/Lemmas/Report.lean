import Verif.Lemmas.Names
import Verif.Lemmas.Numeric
import Verif.Lemmas.Sort
import Mathlib.Data.List.GetD

/-! # Lemmas on the summary table -/

set_option linter.unusedSectionVars false

namespace RMT
namespace Smooth

theorem mapPy_ok {α β : Type} (f : α → Py β) (l : List α) (r : List β) (h : mapPy f l = .ok r) :
    ∃ hl : r.length = l.length, ∀ i (hi : i < l.length), f l[i] = .ok (r[i]'(by omega)) := by
  induction l generalizing r with
  | nil => simp only [mapPy] at h; cases h; exact ⟨rfl, by simp⟩
  | cons a l ih =>
    simp only [mapPy] at h
    rcases ha : f a with e | b
    · simp [ha] at h
    · simp only [ha] at h
      rcases hl : mapPy f l with e | bs
      · simp [hl] at h
      · simp only [hl] at h
        cases h
        obtain ⟨h1, h2⟩ := ih bs hl
        refine ⟨by simp [h1], fun i hi => ?_⟩
        cases i with
        | zero => simpa using ha
        | succ i => simpa using h2 i (by simpa using hi)

theorem mapPy_isOk {α β : Type} (f : α → Py β) (l : List α) (h : ∀ a ∈ l, ∃ b, f a = .ok b) :
    ∃ r, mapPy f l = .ok r := by
  induction l with
  | nil => exact ⟨[], rfl⟩
  | cons a l ih =>
    obtain ⟨b, hb⟩ := h a (by simp)
    obtain ⟨bs, hbs⟩ := ih (fun x hx => h x (by simp [hx]))
    exact ⟨b :: bs, by simp [mapPy, hb, hbs]⟩

end Smooth

namespace Report
open Smooth Trim EigValsM Format

variable {K : Type} [Field K] [LinearOrder K]

theorem writeCell_ok (row row' : List K) (k : Nat) (v : K) (h : writeCell row k v = .ok row') :
    k < row.length ∧ row' = row.set k v := by
  unfold writeCell at h
  split_ifs at h with hk
  cases h
  exact ⟨hk, rfl⟩

theorem fillCols_ok (dup : String → Bool) (j : Nat) (cols : List (Col K)) (row row' : List K)
    (h : fillCols dup j cols row = .ok row') :
    (∀ c ∈ cols, dup c.name = false) ∧ row'.length = row.length ∧ (cols ≠ [] → 4 * (j + cols.length) + 3 ≤ row.length) ∧
    (∀ k, k < 4 * j + 3 → row'[k]? = row[k]?) ∧
    ∀ i (hi : i < cols.length),
      row'[4 * (j + i) + 3]? = some (evaluateUnfolding cols[i].unfolded).1 ∧
      row'[4 * (j + i) + 4]? = some (evaluateUnfolding cols[i].unfolded).2.1 ∧
      row'[4 * (j + i) + 5]? = some cols[i].msqe ∧
      row'[4 * (j + i) + 6]? = some (evaluateUnfolding cols[i].unfolded).2.2 := by
  induction cols generalizing j row with
  | nil =>
    simp only [fillCols] at h
    cases h
    exact ⟨by simp, rfl, by simp, fun _ _ => rfl, by simp⟩
  | cons c cs ih =>
    simp only [fillCols, bind, Except.bind] at h
    rcases h1 : writeCell row (4 * j + 3) (evaluateUnfolding c.unfolded).1 with e | r1
    · simp [h1] at h
    simp only [h1] at h
    rcases h2 : writeCell r1 (4 * j + 4) (evaluateUnfolding c.unfolded).2.1 with e | r2
    · simp [h2] at h
    simp only [h2] at h
    by_cases hdup : dup c.name = true
    · simp [hdup] at h
    simp only [hdup, Bool.false_eq_true, if_false] at h
    rcases h3 : writeCell r2 (4 * j + 5) c.msqe with e | r3
    · simp [h3] at h
    simp only [h3] at h
    rcases h4 : writeCell r3 (4 * j + 6) (evaluateUnfolding c.unfolded).2.2 with e | r4
    · simp [h4] at h
    simp only [h4] at h
    obtain ⟨-, rfl⟩ := writeCell_ok _ _ _ _ h1
    obtain ⟨-, rfl⟩ := writeCell_ok _ _ _ _ h2
    obtain ⟨-, rfl⟩ := writeCell_ok _ _ _ _ h3
    obtain ⟨l4, rfl⟩ := writeCell_ok _ _ _ _ h4
    simp only [List.length_set] at l4
    obtain ⟨a0, a1, a2, a3, a4⟩ := ih (j + 1) _ h
    simp only [List.length_set] at a1 a2
    refine ⟨?_, a1, ?_, ?_, ?_⟩
    · intro x hx
      rcases List.mem_cons.mp hx with rfl | hx
      · simpa using hdup
      · exact a0 x hx
    · intro _
      by_cases hcs : cs = []
      · subst hcs; simp; omega
      · have := a2 hcs
        simp only [List.length_cons]
        omega
    · intro k hk
      rw [a3 k (by omega)]
      rw [List.getElem?_set_ne (by omega), List.getElem?_set_ne (by omega),
        List.getElem?_set_ne (by omega), List.getElem?_set_ne (by omega)]
    · intro i hi
      cases i with
      | zero =>
        simp only [Nat.add_zero, List.getElem_cons_zero]
        refine ⟨?_, ?_, ?_, ?_⟩
        · rw [a3 _ (by omega), List.getElem?_set_ne (by omega), List.getElem?_set_ne (by omega),
            List.getElem?_set_ne (by omega), List.getElem?_set_self (by omega)]
        · rw [a3 _ (by omega), List.getElem?_set_ne (by omega), List.getElem?_set_ne (by omega),
            List.getElem?_set_self (by simp only [List.length_set]; omega)]
        · rw [a3 _ (by omega), List.getElem?_set_ne (by omega),
            List.getElem?_set_self (by simp only [List.length_set]; omega)]
        · rw [a3 _ (by omega), List.getElem?_set_self (by simp only [List.length_set]; omega)]
      | succ i =>
        have := a4 i (by simpa using hi)
        rw [show j + 1 + i = j + (i + 1) by omega] at this
        simpa using this

theorem fillCols_isOk (dup : String → Bool) (j : Nat) (cols : List (Col K)) (row : List K)
    (h : 4 * (j + cols.length) + 3 ≤ row.length) (hd : ∀ c ∈ cols, dup c.name = false) : ∃ row', fillCols dup j cols row = .ok row' := by
  induction cols generalizing j row with
  | nil => exact ⟨row, rfl⟩
  | cons c cs ih =>
    simp only [List.length_cons] at h
    have hw : ∀ (r : List K) k v, r.length = row.length → k ≤ 4 * j + 6 → writeCell r k v = .ok (r.set k v) := by
      intro r k v h1 h2
      unfold writeCell
      rw [if_pos (by omega)]
    simp only [fillCols, bind, Except.bind]
    rw [hw _ _ _ rfl (by omega)]
    simp only
    rw [hw _ _ _ (by simp) (by omega)]
    simp only [hd c List.mem_cons_self, Bool.false_eq_true, if_false]
    rw [hw _ _ _ (by simp) (by omega)]
    simp only
    rw [hw _ _ _ (by simp) (by omega)]
    simp only
    exact ih (j + 1) _ (by simp; omega) fun x hx => hd x (List.mem_cons_of_mem _ hx)

/-! ## Names of the summary -/

theorem flatMap4_getElem? {α β : Type} (f : α → List β) (hf : ∀ a, (f a).length = 4) (l : List α)
    (j t : Nat) (ht : t < 4) (hj : j < l.length) :
    (l.flatMap f)[4 * j + t]? = (f l[j])[t]? := by
  induction l generalizing j with
  | nil => simp at hj
  | cons a l ih =>
    rw [List.flatMap_cons]
    cases j with
    | zero => rw [List.getElem?_append_left (by rw [hf]; omega)]; simp
    | succ j =>
      rw [List.getElem?_append_right (by rw [hf]; omega), hf,
        show 4 * (j + 1) + t - 4 = 4 * j + t by omega, ih j (by simpa using hj)]
      simp

theorem summaryNames_length (names : List String) :
    (summaryNames names).length = names.length * 4 + 3 := by
  induction names with
  | nil => rfl
  | cons n ns ih =>
    simp only [summaryNames, List.flatMap_cons, List.length_append, List.length_cons, List.length_nil] at *
    omega

/-- The four statistics of the summary columns. -/
def suffixes : List String := ["--mean_spacing", "--var_spacing", "--msqe", "--score"]

theorem suffix_inj (n n' s s' : String) (hs : s ∈ suffixes) (hs' : s' ∈ suffixes)
    (h : n ++ s = n' ++ s') : n = n' ∧ s = s' := by
  have h1 : (n ++ s).toList.reverse = (n' ++ s').toList.reverse := by rw [h]
  simp only [String.toList_append, List.reverse_append] at h1
  have key : s = s' := by
    simp only [suffixes, List.mem_cons, List.not_mem_nil, or_false] at hs hs'
    rcases hs with rfl | rfl | rfl | rfl <;> rcases hs' with rfl | rfl | rfl | rfl <;>
      first | rfl | (exfalso; simp at h1)
  subst key
  refine ⟨?_, rfl⟩
  have := List.append_cancel_left h1
  exact String.ext (by simpa using congrArg List.reverse this)

theorem suffix_ne_trim (n s t : String) (hs : s ∈ suffixes)
    (ht : t ∈ ["trim_percent", "trim_low", "trim_high"]) : n ++ s ≠ t := by
  intro h
  have h1 : (n ++ s).toList.reverse = t.toList.reverse := by rw [h]
  simp only [String.toList_append, List.reverse_append] at h1
  simp only [suffixes, List.mem_cons, List.not_mem_nil, or_false] at hs ht
  rcases hs with rfl | rfl | rfl | rfl <;> rcases ht with rfl | rfl | rfl <;> simp at h1

theorem summaryNames_nodup (names : List String) (h : names.Nodup) : (summaryNames names).Nodup := by
  unfold summaryNames
  rw [List.nodup_append]
  refine ⟨by decide, ?_, ?_⟩
  · rw [List.nodup_flatMap]
    refine ⟨fun n _ => ?_, ?_⟩
    · have : ∀ s s', s ∈ suffixes → s' ∈ suffixes → s ≠ s' → n ++ s ≠ n ++ s' :=
        fun s s' hs hs' hne he => hne (suffix_inj n n s s' hs hs' he).2
      simp only [List.nodup_cons, List.mem_cons, List.not_mem_nil, or_false, not_or, not_false_eq_true,
        List.nodup_nil, and_true]
      refine ⟨⟨?_, ?_, ?_⟩, ⟨?_, ?_⟩, ?_⟩ <;> apply this <;> decide
    · refine List.Pairwise.imp ?_ h
      intro a b hab
      simp only [Function.onFun, List.disjoint_left]
      intro x hx hx'
      have hm : ∀ n, x ∈ [n ++ "--mean_spacing", n ++ "--var_spacing", n ++ "--msqe", n ++ "--score"] →
          ∃ s ∈ suffixes, x = n ++ s := by
        intro n hn
        simp only [List.mem_cons, List.not_mem_nil, or_false] at hn
        rcases hn with rfl | rfl | rfl | rfl
        · exact ⟨_, by decide, rfl⟩
        · exact ⟨_, by decide, rfl⟩
        · exact ⟨_, by decide, rfl⟩
        · exact ⟨_, by decide, rfl⟩
      obtain ⟨s, hs, e⟩ := hm a hx
      obtain ⟨s', hs', e'⟩ := hm b hx'
      exact hab (suffix_inj a b s s' hs hs' (e ▸ e')).1
  · intro t ht x hx he
    subst he
    simp only [List.mem_flatMap, List.mem_cons, List.not_mem_nil, or_false] at hx
    obtain ⟨n, -, hx⟩ := hx
    rcases hx with h | h | h | h <;>
      exact suffix_ne_trim n _ t (by decide) ht h.symm

theorem summaryNames_getElem? (names : List String) (j : Nat) (hj : j < names.length) :
    (summaryNames names)[4 * j + 3]? = some (names[j] ++ "--mean_spacing") ∧
    (summaryNames names)[4 * j + 4]? = some (names[j] ++ "--var_spacing") ∧
    (summaryNames names)[4 * j + 5]? = some (names[j] ++ "--msqe") ∧
    (summaryNames names)[4 * j + 6]? = some (names[j] ++ "--score") := by
  have key : ∀ t, t < 4 → (summaryNames names)[4 * j + t + 3]? =
      [names[j] ++ "--mean_spacing", names[j] ++ "--var_spacing", names[j] ++ "--msqe", names[j] ++ "--score"][t]? := by
    intro t ht
    unfold summaryNames
    rw [List.getElem?_append_right (by simp), show 4 * j + t + 3 -
      ["trim_percent", "trim_low", "trim_high"].length = 4 * j + t by simp]
    rw [flatMap4_getElem? _ (by simp) names j t ht hj]
  exact ⟨key 0 (by omega), key 1 (by omega), key 2 (by omega), key 3 (by omega)⟩

theorem idxOf?_of_nodup (l : List String) (h : l.Nodup) (k : Nat) (x : String) (hk : l[k]? = some x) :
    l.idxOf? x = some k := by
  rw [List.idxOf?_eq_some_iff]
  obtain ⟨hk', rfl⟩ := List.getElem?_eq_some_iff.mp hk
  refine ⟨hk', by simp, fun j hj => ?_⟩
  intro hc
  have hjk : l[j] = l[k] := by simpa using hc
  have := (List.Nodup.getElem_inj_iff h).mp hjk
  omega

theorem cell_of_nodup (names : List String) (h : names.Nodup) (row : List K) (k : Nat) (x : String)
    (v : K) (hk : names[k]? = some x) (hv : row[k]? = some v) : cell names row x = .ok v := by
  simp [cell, idxOf?_of_nodup names h k x hk, hv]

end Report
end RMT
