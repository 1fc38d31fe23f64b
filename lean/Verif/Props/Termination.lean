import Verif.Lemmas.StepMachine

/-!
# Property C88: when the step function terminates
-/

namespace RMT
namespace Props
open StepMachine Spec Step

variable {α : Type} [LinearOrder α]

/-- A call either returns, or runs forever, or (on an empty array) is an error; never two of these. -/
theorem C88_returns_or_diverges (eigs x : List (Option α)) (he : eigs ≠ []) (hx : x ≠ []) :
    ((∃ r, Returns eigs x r) ∨ Diverges eigs x) ∧ ¬((∃ r, Returns eigs x r) ∧ Diverges eigs x) := by
  have hxl : 0 < x.length := List.length_pos_iff.mpr hx
  have hel : 0 < eigs.length := List.length_pos_iff.mpr he
  have hs : ∃ s, start eigs x = .ok s := by
    simp only [start, pyGet_neg_one x hxl, pyGet_zero eigs hel, pyGet_zero x hxl,
      pyGet_neg_one eigs hel, bind, Except.bind, pure, Except.pure]
    split
    · exact ⟨_, rfl⟩
    · split <;> exact ⟨_, rfl⟩
  obtain ⟨s, hs⟩ := hs
  constructor
  · by_cases h : ∃ n, (runFrom eigs x n s).pc = .done
    · obtain ⟨n, hn⟩ := h
      exact Or.inl ⟨_, s, hs, n, hn, rfl⟩
    · exact Or.inr ⟨s, hs, fun n hn => h ⟨n, hn⟩⟩
  · rintro ⟨⟨r, s', hs', n, hn, -⟩, s'', hs'', hd⟩
    rw [hs] at hs' hs''
    cases hs'; cases hs''
    exact hd n hn

/-- **C88.** Without NaN the step function terminates on all non-empty arrays (ascending or not) and returns the value of the functional
model, to which C01-C04 apply. -/
theorem C88_terminates_partial (eigs x : List α) (he : eigs ≠ []) (hx : x ≠ []) :
    ∃ r, stepFunctionFast eigs x = .ok r ∧ r.length = x.length ∧ Returns (eigs.map some) (x.map some) r := by
  have hxl : 0 < x.length := List.length_pos_iff.mpr hx
  have hel : 0 < eigs.length := List.length_pos_iff.mpr he
  have hxl' : 0 < (x.map some).length := by simpa using hxl
  have hel' : 0 < (eigs.map some).length := by simpa using hel
  simp only [stepFunctionFast, Returns, start, pyGet_neg_one x hxl, pyGet_zero eigs hel, pyGet_zero x hxl,
    pyGet_neg_one eigs hel, pyGet_neg_one _ hxl', pyGet_zero _ hel', pyGet_zero _ hxl',
    pyGet_neg_one _ hel', bind, Except.bind, pure, Except.pure, List.getElem_map, List.length_map, fle, flt, decide_eq_true_eq]
  by_cases h1 : x[x.length - 1] ≤ eigs[0]
  · simp only [if_pos h1]
    exact ⟨_, rfl, by simp, _, rfl, 0, rfl, rfl⟩
  simp only [if_neg h1]
  by_cases h2 : eigs[eigs.length - 1] < x[0]
  · simp only [if_pos h2, gt_iff_lt]
    obtain ⟨l1, l2⟩ := fillLoop_spec eigs.length 0 (List.replicate x.length 0)
    refine ⟨_, rfl, by simpa using l1, _, rfl, 0, rfl, ?_⟩
    simp only [runFrom, returned]
    symm
    apply List.ext_getElem
    · simpa using l1
    · intro k hk hk'
      have := l2 k
      rw [List.getElem?_eq_getElem hk, if_pos ⟨by omega, by omega⟩] at this
      rw [Option.some.inj this]; simp
  simp only [if_neg h2, gt_iff_lt]
  obtain ⟨i', hm⟩ := reach_main eigs x 0 (skipLoop eigs[0] x 0) 0 (List.replicate x.length 0)
  set r := mainLoop eigs x 0 (skipLoop eigs[0] x 0) 0 (List.replicate x.length 0) with hr
  obtain ⟨j', ht⟩ := reach_tail (eigs.map some) (x.map some) i' r.1 r.2.1 r.2.2
  have hsk := reach_skip (eigs.map some) x eigs[0] (getD_map_some eigs 0 hel) 0 0 0 (List.replicate x.length 0)
  obtain ⟨n, hn⟩ := (hsk.trans hm).trans ht
  refine ⟨_, rfl, ?_, _, rfl, n, by rw [hn], by rw [hn, List.length_map]⟩
  have hl := mainLoop_len eigs x 0 (skipLoop eigs[0] x 0) 0 (List.replicate x.length 0)
  rw [← hr, List.length_replicate] at hl
  exact (tailLoop_spec x.length r.2.1 r.1 r.2.2 hl).1

example : ∃ r, stepFunctionFast [1, 2, 4] [3, 1, (5 : ℤ)] = .ok r ∧ r.length = 3 ∧
    Returns ([1, 2, 4].map some) ([3, 1, (5 : ℤ)].map some) r :=
  C88_terminates_partial [1, 2, 4] [3, 1, (5 : ℤ)] (by simp) (by simp)

/-- **C88.** The smoothed counting curve's data: evaluating the step function of the object constructed from `l` at its own values
terminates exactly if `l` contains no NaN; with a NaN the call runs forever. -/
theorem C88_steps_iff (l : List (Option α)) (hl : l ≠ []) :
    ((∃ r, Returns (sortNaN l) (sortNaN l) r) ↔ none ∉ l) ∧ (Diverges (sortNaN l) (sortNaN l) ↔ none ∈ l) := by
  have hne : sortNaN l ≠ [] := by
    intro h
    have h1 := congrArg List.length h
    simp only [sortNaN, List.length_append, List.length_map, List.length_mergeSort, List.length_replicate, List.length_nil] at h1
    cases l with
    | nil => exact hl rfl
    | cons a l => cases a <;> simp at h1
  have hor := C88_returns_or_diverges _ _ hne hne
  have h1 : none ∉ l → ∃ r, Returns (sortNaN l) (sortNaN l) r := by
    intro h
    have he : sortNaN l = ((l.filterMap id).mergeSort (fun a b => decide (a ≤ b))).map some := by
      simp [sortNaN, List.count_eq_zero.mpr h]
    rw [he] at hne ⊢
    have hne' : ((l.filterMap id).mergeSort (fun a b => decide (a ≤ b))) ≠ [] := by
      intro h; rw [h] at hne; exact hne rfl
    obtain ⟨r, -, -, hr⟩ := C88_terminates_partial _ _ hne' hne'
    exact ⟨r, hr⟩
  have h2 : none ∈ l → Diverges (sortNaN l) (sortNaN l) := by
    intro h
    set f := ((l.filterMap id).mergeSort (fun a b => decide (a ≤ b))).map some with hf
    have hs : sortNaN l = f ++ List.replicate (l.count none) none := rfl
    have hc : 0 < l.count none := List.count_pos_iff.mpr h
    have hlen : f.length < (sortNaN l).length := by rw [hs]; simp; omega
    have hg : (sortNaN l).getD f.length none = none := by
      rw [hs, List.getD_eq_getElem?_getD, List.getElem?_append_right (le_refl _), List.getElem?_replicate]; split <;> rfl
    have hpos : 0 < (sortNaN l).length := by omega
    have hlast : (sortNaN l)[(sortNaN l).length - 1] = none := by
      have : (sortNaN l).getLast? = some none := by
        rw [hs, List.getLast?_append_of_ne_nil _ (by simp; omega)]
        rw [List.getLast?_replicate, if_neg (by omega)]
      rw [List.getLast?_eq_getElem?, List.getElem?_eq_getElem (by omega)] at this
      exact Option.some.inj this
    refine ⟨⟨.skip, 0, 0, 0, List.replicate (sortNaN l).length 0⟩, ?_, ?_⟩
    · simp only [start, pyGet_neg_one _ hpos, pyGet_zero _ hpos, bind, Except.bind, pure, Except.pure, hlast]
      simp [fle, flt]
    · exact stuck f.length f.length hlen hlen hg (fun j _ => by rw [hg]; simp [fle]) _ ⟨Or.inl rfl, Nat.zero_le _, Nat.zero_le _⟩
  refine ⟨⟨fun hr hn => hor.2 ⟨hr, h2 hn⟩, h1⟩, ⟨fun hd => ?_, h2⟩⟩
  by_contra hn
  exact hor.2 ⟨h1 hn, hd⟩

/-- **C88 is false of the code as stated for all float arrays**: one NaN among the values, and the counting curve is never returned. -/
theorem C88_steps_refuted : Diverges (sortNaN [some (1 : ℤ), none, some 0]) (sortNaN [some (1 : ℤ), none, some 0]) :=
  (C88_steps_iff _ (by simp)).2.mpr (by simp)

/-- **C88.** A NaN query: with ascending NaN-free eigenvalues and `v` the queries before the first NaN, the call returns exactly if the last
query is `≤` the least eigenvalue (early exit) or a query before the first NaN is `≥` the greatest eigenvalue; otherwise it runs forever.
-/
theorem C88_query_nan_iff (eigs : List α) (v : List α) (rest : List (Option α)) (he : eigs ≠ []) (hs : Ascending eigs) :
    let x := v.map some ++ none :: rest
    let ends := (∃ w, x.getLast? = some (some w) ∧ w ≤ eigs.head he) ∨ (∃ w ∈ v, eigs.getLast he ≤ w)
    ((∃ r, Returns (eigs.map some) x r) ↔ ends) ∧ (Diverges (eigs.map some) x ↔ ¬ends) := by
  intro x ends
  have hx : x ≠ [] := by simp [x]
  have hxl : 0 < x.length := List.length_pos_iff.mpr hx
  have hel0 : 0 < eigs.length := List.length_pos_iff.mpr he
  have hel : 0 < (eigs.map some).length := by simpa using hel0
  have hem : eigs.map some ≠ [] := by simpa using he
  have hor := C88_returns_or_diverges _ _ hem hx
  have ehead : eigs.head he = eigs[0] := by rw [List.head_eq_getElem]
  have elast : eigs.getLast he = eigs[eigs.length - 1] := by rw [List.getLast_eq_getElem]
  have hp : v.length < x.length := by simp [x]
  have hnan : x.getD v.length none = none := by
    simp only [x]; rw [List.getD_eq_getElem?_getD, List.getElem?_append_right (by simp)]; simp
  have hvj : ∀ j (h : j < v.length), x.getD j none = some v[j] := by
    intro j h
    simp only [x]; rw [List.getD_eq_getElem?_getD, List.getElem?_append_left (by simpa using h)]; simp [h]
  have hxlast : x.getLast? = some x[x.length - 1] := by
    rw [List.getLast?_eq_getElem?, List.getElem?_eq_getElem (by omega)]
  have hstart : start (eigs.map some) x =
      .ok (if fle x[x.length - 1] (some eigs[0]) = true then returned (List.replicate x.length 0)
        else if flt (some eigs[eigs.length - 1]) x[0] = true then returned (List.replicate x.length eigs.length)
        else ⟨.skip, 0, 0, 0, List.replicate x.length 0⟩) := by
    simp only [start, pyGet_neg_one _ hxl, pyGet_zero _ hel, pyGet_zero _ hxl, pyGet_neg_one _ hel, bind, Except.bind, pure,
      Except.pure, List.getElem_map, List.length_map]
    split
    · rfl
    · split <;> rfl
  have h1 : ends → ∃ r, Returns (eigs.map some) x r := by
    intro h
    by_cases c1 : fle x[x.length - 1] (some eigs[0]) = true
    · exact ⟨_, _, by rw [hstart, if_pos c1], 0, rfl, rfl⟩
    by_cases c2 : flt (some eigs[eigs.length - 1]) x[0] = true
    · exact ⟨_, _, by rw [hstart, if_neg c1, if_pos c2], 0, rfl, rfl⟩
    rcases h with ⟨w, hw, hle⟩ | ⟨w, hw, hle⟩
    · rw [hxlast] at hw
      exfalso; apply c1
      rw [Option.some.inj hw, fle, decide_eq_true_eq, ← ehead]; exact hle
    · obtain ⟨q, hq, hqe⟩ := List.mem_iff_getElem.mp hw
      have hall : ∀ i, i < (eigs.map some).length → fle ((eigs.map some).getD i none) (x.getD q none) = true := by
        intro i hi
        have hi' : i < eigs.length := by simpa using hi
        rw [getD_map_some eigs i hi', hvj q hq, fle, decide_eq_true_eq, hqe]
        rw [elast] at hle
        exact le_trans (hs.le i (eigs.length - 1) hi' (by omega) (by omega)) hle
      have hnl : flt (x.getD q none) ((eigs.map some).getD 0 none) = false := by
        have := hall 0 hel
        rw [getD_map_some eigs 0 hel0, hvj q hq, fle, decide_eq_true_eq] at this
        rw [getD_map_some eigs 0 hel0, hvj q hq, flt, decide_eq_false_iff_not]
        exact not_lt.mpr this
      obtain ⟨j', hj', hr1⟩ := skip_main (eigs := eigs.map some) (x := x) q hnl q 0 0 0 (List.replicate x.length 0) (by omega) (by omega)
      obtain ⟨n, hn⟩ := progress (eigs := eigs.map some) (x := x) q (by omega)
        (fun j hj => by rw [hvj j (by omega)]; simp)
        (fun i hi => by rw [getD_map_some eigs i (by simpa using hi)]; simp) hall
        _ 0 j' 0 (List.replicate x.length 0) (le_refl _) hj'
      obtain ⟨n', hn'⟩ := tail_done (eigs.map some) x _ hn
      obtain ⟨m, hm⟩ := hr1
      refine ⟨_, ⟨.skip, 0, 0, 0, List.replicate x.length 0⟩, by rw [hstart, if_neg c1, if_neg c2], m + (n + n'), ?_, rfl⟩
      rw [runFrom_add, hm, runFrom_add]; exact hn'
  have h2 : ¬ends → Diverges (eigs.map some) x := by
    intro h
    have c1 : ¬ fle x[x.length - 1] (some eigs[0]) = true := by
      intro c
      cases hw : x[x.length - 1] with
      | none => rw [hw] at c; simp [fle] at c
      | some w =>
        rw [hw, fle, decide_eq_true_eq] at c
        exact h (Or.inl ⟨w, by rw [hxlast, hw], by rw [ehead]; exact c⟩)
    have c2 : ¬ flt (some eigs[eigs.length - 1]) x[0] = true := by
      intro c
      cases hv : v with
      | nil =>
        have : x[0] = none := by simp [x, hv]
        rw [this] at c; simp [flt] at c
      | cons w v' =>
        have : x[0] = some w := by simp [x, hv]
        rw [this, flt, decide_eq_true_eq] at c
        exact h (Or.inr ⟨w, by simp [hv], by rw [elast]; exact le_of_lt c⟩)
    refine ⟨_, by rw [hstart, if_neg c1, if_neg c2], ?_⟩
    refine stuck v.length (eigs.length - 1) hp (by simp; omega) hnan ?_ _ ⟨Or.inl rfl, Nat.zero_le _, Nat.zero_le _⟩
    intro j hj
    rw [getD_map_some eigs _ (by omega)]
    rcases Nat.lt_or_eq_of_le hj with hlt | heq
    · rw [hvj j hlt, fle, decide_eq_false_iff_not]
      intro hle
      exact h (Or.inr ⟨v[j], List.getElem_mem hlt, by rw [elast]; exact hle⟩)
    · rw [heq, hnan]; simp [fle]
  refine ⟨⟨fun hr => ?_, h1⟩, ⟨fun hd hn => hor.2 ⟨h1 hn, hd⟩, h2⟩⟩
  by_contra hn
  exact hor.2 ⟨hr, h2 hn⟩

example : Diverges ([1, 2, (4 : ℤ)].map some) ([3].map some ++ none :: [some 9]) :=
  (C88_query_nan_iff [1, 2, (4 : ℤ)] [3] [some 9] (by simp) (by unfold Ascending; simp)).2.mpr (by simp)

example : ∃ r, Returns ([1, 2, (4 : ℤ)].map some) ([3, 4].map some ++ none :: [some 9]) r :=
  (C88_query_nan_iff [1, 2, (4 : ℤ)] [3, 4] [some 9] (by simp) (by unfold Ascending; simp)).1.mpr (by simp)

end Props
end RMT
