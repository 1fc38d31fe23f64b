import Verif.Lemmas.Step
import Verif.Model.Utils

/-!
# Properties C01-C06: step function and searching
-/

namespace RMT
namespace Props
open Step Spec Utils

variable {α : Type} [LinearOrder α]

/-- **C01.** For a non-empty ascending spectrum and any non-empty query array (in any order), the
array step function succeeds, returns one count per query, and: if the last query is `≤` the
smallest eigenvalue all counts are zero, otherwise the count at position `k` is the number of
eigenvalues that are `≤` at least one of the queries `x[0..k]`. -/
theorem C01_step_array (eigs x : List α) (he : eigs ≠ []) (hx : x ≠ []) (hs : Ascending eigs) :
    ∃ ret, stepFunctionFast eigs x = .ok ret ∧ ret.length = x.length ∧
      ∀ k (hk : k < ret.length),
        ret[k] = if x.getLast hx ≤ eigs.head he then 0 else countReached eigs x k := by
  have hxl : 0 < x.length := List.length_pos_iff.mpr hx
  have hel : 0 < eigs.length := List.length_pos_iff.mpr he
  have elast : x.getLast hx = x[x.length - 1] := by rw [List.getLast_eq_getElem]
  have ehead : eigs.head he = eigs[0] := by rw [List.head_eq_getElem]
  simp only [elast, ehead]
  simp only [stepFunctionFast, pyGet_neg_one x hxl, pyGet_zero eigs hel, pyGet_zero x hxl,
    pyGet_neg_one eigs hel, bind, Except.bind, pure, Except.pure]
  by_cases h1 : x[x.length - 1] ≤ eigs[0]
  · simp [h1]
  rw [if_neg h1]
  simp only [if_neg h1]
  by_cases h2 : x[0] > eigs[eigs.length - 1]
  · rw [if_pos h2]
    obtain ⟨l1, l2⟩ := fillLoop_spec eigs.length 0 (List.replicate x.length 0)
    refine ⟨_, rfl, by simpa using l1, fun k hk => ?_⟩
    have := l2 k
    rw [List.getElem?_eq_getElem hk, if_pos ⟨by omega, by omega⟩] at this
    rw [Option.some.inj this]
    symm
    apply countReached_eq eigs x hs eigs.length k (Nat.le_refl _)
    · intro a ha _
      exact ⟨0, hxl, by omega, le_trans (hs.le a (eigs.length - 1) ha (by omega) (by omega)) (le_of_lt h2)⟩
    · intro h; exact absurd h (by omega)
  · rw [if_neg h2]
    obtain ⟨s1, s2, s3⟩ := skipLoop_spec eigs[0] x 0 (by omega) (by intro m hm h; omega)
    have inv0 : Inv eigs x 0 (skipLoop eigs[0] x 0) 0 (List.replicate x.length 0) := by
      refine ⟨rfl, by omega, s1, by simp, ?_, ?_, ?_⟩
      · intro k hk hkj
        simp only [List.getElem_replicate]
        symm
        apply countReached_eq eigs x hs 0 k (by omega)
        · intro a _ h; omega
        · intro h m hm hmk
          exact s2 m hm (by omega)
      · intro a _ h; omega
      · intro h m hm hmj; exact s2 m hm hmj
    obtain ⟨i', inv, hend⟩ := mainLoop_inv eigs x hs 0 (skipLoop eigs[0] x 0) 0 _ inv0
    set r := mainLoop eigs x 0 (skipLoop eigs[0] x 0) 0 (List.replicate x.length 0) with hr
    obtain ⟨t1, t2⟩ := tailLoop_spec x.length r.2.1 r.1 r.2.2 inv.len
    refine ⟨_, rfl, t1, fun k hk => ?_⟩
    have := t2 k
    rw [List.getElem?_eq_getElem hk] at this
    by_cases hk' : r.1 ≤ k ∧ k < x.length
    · rw [if_pos hk'] at this
      rw [Option.some.inj this]
      have hi' : i' = eigs.length := hend (by omega)
      symm
      rw [inv.cnt]
      apply countReached_eq eigs x hs i' k inv.ile
      · intro a ha hai
        obtain ⟨m, hm, hmj, hle⟩ := inv.below a ha hai
        exact ⟨m, hm, by omega, hle⟩
      · intro h; exact absurd h (by omega)
    · rw [if_neg hk', List.getElem?_eq_getElem (by have := inv.len; omega)] at this
      rw [Option.some.inj this]
      exact inv.done k _ (by omega)

/-- Non-vacuity of C01: unordered queries over a spectrum with a tie. -/
example : stepFunctionFast [1, 2, 2, 5] [2, 0, 7, 3] = (.ok [3, 3, 4, 4] : Py (List Nat)) ∧
    Ascending [1, 2, 2, 5] := by decide +kernel

/-- **C01 (error branch).** With an empty spectrum or an empty query array there is no result. -/
theorem C01_step_array_empty (eigs x : List α) (h : eigs = [] ∨ x = []) :
    stepFunctionFast eigs x = .error .indexError := by
  rcases h with rfl | rfl
  · by_cases hx : 0 < x.length
    · simp [stepFunctionFast, pyGet_neg_one x hx, bind, Except.bind]
      simp [pyGet, pyIdx]
    · have : x = [] := List.length_eq_zero_iff.mp (by omega)
      subst this
      simp [stepFunctionFast, pyGet, pyIdx, bind, Except.bind]
  · simp [stepFunctionFast, pyGet, pyIdx, bind, Except.bind]

/-- For ascending queries, having been reached by some earlier query is the same as being `≤` the
current one. -/
theorem countReached_ascending (eigs x : List α) (hx : Ascending x) (k : Nat) (hk : k < x.length) :
    countReached eigs x k = countLE eigs x[k] := by
  unfold countReached countLE
  apply List.countP_congr
  intro e _
  rw [any_take_iff, decide_eq_true_iff]
  constructor
  · rintro ⟨m, hm, hmk, hle⟩
    exact le_trans hle (hx.le m k hm hk hmk)
  · intro h
    exact ⟨k, hk, Nat.le_refl _, h⟩

/-- **C02 (partial).** For ascending spectrum and ascending queries the array step function returns
the number of eigenvalues `≤` each query, exactly as the slow reference implementation
— provided the last query differs from the smallest eigenvalue.  Missing: the case in which the last (largest) query
equals the smallest eigenvalue, where the claim is false (`C02_refuted`). -/
theorem C02_step_counts_partial (eigs x : List α) (he : eigs ≠ []) (hx : x ≠ [])
    (hs : Ascending eigs) (hxs : Ascending x) (hne : x.getLast hx ≠ eigs.head he) :
    stepFunctionFast eigs x = .ok (x.map (countLE eigs)) ∧
      stepFunctionCorrect eigs x = x.map (countLE eigs) := by
  constructor
  · obtain ⟨ret, h1, h2, h3⟩ := C01_step_array eigs x he hx hs
    rw [h1]
    congr 1
    apply List.ext_getElem (by simpa using h2)
    intro k hk hk'
    rw [h3 k hk, List.getElem_map]
    split_ifs with hle
    · symm
      rw [countLE, List.countP_eq_zero]
      intro e hemem
      rw [decide_eq_true_iff, not_le]
      have hel : 0 < eigs.length := List.length_pos_iff.mpr he
      obtain ⟨a, ha, rfl⟩ := List.mem_iff_getElem.mp hemem
      have hlt : x.getLast hx < eigs.head he := lt_of_le_of_ne hle hne
      rw [List.getLast_eq_getElem, List.head_eq_getElem] at hlt
      refine lt_of_le_of_lt (hxs.le k (x.length - 1) (by omega) (by omega) (by omega)) ?_
      exact lt_of_lt_of_le hlt (hs.le 0 a hel ha (by omega))
    · exact countReached_ascending eigs x hxs k (by omega)
  · unfold stepFunctionCorrect
    apply List.map_congr_left
    intro q _
    simp [countLE, List.countP_eq_length_filter]

example : Ascending [1, 2, 2, 5] ∧ Ascending [0, 2, 2, 9] ∧
    stepFunctionFast [1, 2, 2, 5] [0, 2, 2, 9] = .ok [0, 3, 3, 4] := by decide +kernel

/-- **C02 (refutation).** The documented contract fails in the excluded case: for one eigenvalue `1`
and the query `1` the count should be `1` (and is, in the slow reference implementation), but the
fast step function returns `0`. -/
theorem C02_refuted :
    ¬ ∀ eigs x : List ℚ, eigs ≠ [] → x ≠ [] → Ascending eigs → Ascending x →
      stepFunctionFast eigs x = .ok (x.map (countLE eigs)) := by
  intro h
  have := h [1] [1] (by simp) (by simp) (by simp) (by simp)
  revert this
  decide +kernel

/-- **C02 (exact failure set).** For ascending inputs the contract fails exactly if the last query
equals the smallest eigenvalue. -/
theorem C02_fails_iff (eigs x : List α) (he : eigs ≠ []) (hx : x ≠ [])
    (hs : Ascending eigs) (hxs : Ascending x) :
    stepFunctionFast eigs x ≠ .ok (x.map (countLE eigs)) ↔ x.getLast hx = eigs.head he := by
  constructor
  · intro h
    by_contra hne
    exact h (C02_step_counts_partial eigs x he hx hs hxs hne).1
  · intro heq hcon
    obtain ⟨ret, h1, h2, h3⟩ := C01_step_array eigs x he hx hs
    rw [h1] at hcon
    have hret : ret = x.map (countLE eigs) := by injection hcon
    have hxl : 0 < x.length := List.length_pos_iff.mpr hx
    have hk := h3 (x.length - 1) (by omega)
    rw [if_pos (le_of_eq heq)] at hk
    have : countLE eigs x[x.length - 1] = 0 := by
      rw [← hk]; simp [hret]
    rw [countLE, List.countP_eq_zero] at this
    have := this (eigs.head he) (List.head_mem he)
    rw [decide_eq_true_iff] at this
    apply this
    rw [← heq, List.getLast_eq_getElem]

/-- **C03.** Whatever the order of the queries, the returned counts are non-decreasing along the array
and never exceed the number of eigenvalues. -/
theorem C03_step_monotone (eigs x : List α) (he : eigs ≠ []) (hx : x ≠ []) (hs : Ascending eigs) :
    ∃ ret, stepFunctionFast eigs x = .ok ret ∧ Ascending ret ∧ ∀ c ∈ ret, c ≤ eigs.length := by
  obtain ⟨ret, h1, h2, h3⟩ := C01_step_array eigs x he hx hs
  refine ⟨ret, h1, ?_, ?_⟩
  · refine List.pairwise_iff_getElem.mpr ?_
    intro i j hi hj hij
    rw [h3 i hi, h3 j hj]
    split_ifs
    · exact Nat.le_refl _
    · unfold countReached
      apply List.countP_mono_left
      intro e _
      rw [any_take_iff, any_take_iff]
      rintro ⟨m, hm, hmi, hle⟩
      exact ⟨m, hm, by omega, hle⟩
  · intro c hc
    obtain ⟨k, hk, rfl⟩ := List.mem_iff_getElem.mp hc
    rw [h3 k hk]
    split_ifs
    · omega
    · exact List.countP_le_length

/-- **C04.** `step_values` with a float counts the eigenvalues `≤ x` for any spectrum, sorted or not; an
argument which is neither a float nor an array raises `ValueError`. -/
theorem C04_step_scalar (eigs : List α) :
    (∀ q, stepValues eigs (.float q) = .ok (.float (countLE eigs q))) ∧
      stepValues eigs .other = .error .valueError := by
  refine ⟨fun q => ?_, rfl⟩
  simp [stepValues, countLE, List.countP_eq_length_filter]

/-- **C04 (array versus scalar).** For ascending spectrum and queries the array form returns the
scalar result (`C04_step_scalar`) for every query exactly when the last query is not the smallest
eigenvalue. -/
theorem C04_step_array_scalar (eigs x : List α) (he : eigs ≠ []) (hx : x ≠ [])
    (hs : Ascending eigs) (hxs : Ascending x) :
    stepValues eigs (.array x) = .ok (.array (x.map (countLE eigs))) ↔
      x.getLast hx ≠ eigs.head he := by
  rw [← not_iff_not, not_not, ← C02_fails_iff eigs x he hx hs hxs]
  obtain ⟨ret, h1, -⟩ := C01_step_array eigs x he hx hs
  simp [stepValues, h1, Except.map]

example : stepValues [3, 1, 2] (.float 2) = .ok (.float 2) := by decide +kernel

/-- **C06 (`find_first`).** Either the value does not occur and `-1` is returned, or the least index holding
the value is returned. -/
theorem C06_find_first (arr : List α) (v : α) :
    (v ∉ arr ∧ findFirst arr v = -1) ∨
      ∃ i, ∃ h : i < arr.length, findFirst arr v = (i : Int) ∧ arr[i] = v ∧
        ∀ m (hm : m < arr.length), m < i → arr[m] ≠ v := by
  have key : ∀ (l : List α) (b : Nat), (v ∉ l ∧ findFirstFrom v b l = -1) ∨
      ∃ i, ∃ h : i < l.length, findFirstFrom v b l = ((b + i : Nat) : Int) ∧ l[i] = v ∧
        ∀ m (hm : m < l.length), m < i → l[m] ≠ v := by
    intro l
    induction l with
    | nil => intro b; left; simp [findFirstFrom]
    | cons a l ih =>
      intro b
      by_cases ha : a = v
      · right
        exact ⟨0, by simp, by simp [findFirstFrom, ha], by simpa using ha, fun m hm h => by omega⟩
      · rcases ih (b + 1) with ⟨h1, h2⟩ | ⟨i, hi, h1, h2, h3⟩
        · left
          refine ⟨by simp [h1, Ne.symm ha], by simp [findFirstFrom, ha, h2]⟩
        · right
          refine ⟨i + 1, by simpa using hi, ?_, by simpa using h2, ?_⟩
          · simp only [findFirstFrom, if_neg ha, h1]
            congr 1
            omega
          · intro m hm hmi
            cases m with
            | zero => simpa using ha
            | succ m => simpa using h3 m (by simpa using hm) (by omega)
  simpa [findFirst] using key arr 0

/-- **C06 (`find_last`).** Either the value does not occur and `-1` is returned, or the greatest index
holding the value is returned. -/
theorem C06_find_last (arr : List α) (v : α) :
    (v ∉ arr ∧ findLast arr v = -1) ∨
      ∃ i, ∃ h : i < arr.length, findLast arr v = (i : Int) ∧ arr[i] = v ∧
        ∀ m (hm : m < arr.length), i < m → arr[m] ≠ v := by
  have key : ∀ b : Nat, (∀ m (hm : m < arr.length), arr.length - b ≤ m → arr[m] ≠ v) →
      (v ∉ arr ∧ findLastFrom arr v b = -1) ∨
      ∃ i, ∃ h : i < arr.length, findLastFrom arr v b = (i : Int) ∧ arr[i] = v ∧
        ∀ m (hm : m < arr.length), i < m → arr[m] ≠ v := by
    intro b
    fun_induction findLastFrom arr v b with
    | case1 b hb heq =>
      intro h
      right
      exact ⟨arr.length - b - 1, by omega, rfl, heq, fun m hm hlt => h m hm (by omega)⟩
    | case2 b hb hne ih =>
      intro h
      apply ih
      intro m hm hle
      by_cases hm' : m = arr.length - b - 1
      · subst hm'; exact hne
      · exact h m hm (by omega)
    | case3 b hb =>
      intro h
      left
      refine ⟨?_, rfl⟩
      intro hmem
      obtain ⟨m, hm, hv⟩ := List.mem_iff_getElem.mp hmem
      exact h m hm (by omega) hv
  exact key 0 (fun m hm h => by omega)

example : findFirst [3, 1, 1, 2] 1 = 1 ∧ findLast [3, 1, 1, 2] 1 = 2 ∧
    findFirst [3, 1, 1, 2] 7 = -1 ∧ findLast [3, 1, 1, 2] 7 = -1 := by decide +kernel

end Props
end RMT
