import Verif.Model.LevelVariance
import Verif.Lemmas.DeltaLoop
import Verif.Spec.Variance

/-! # Lemmas on the Monte-Carlo loop of `sigma_L` -/

namespace RMT
namespace LevelVar
open Spec Utils Finset Rigidity

section field
variable {K : Type} [Field K] [CharZero K]

theorem runMean_step (d : Nat → K) (k : Nat) (m : K) (h : k = 0 ∨ m = runMean d k) :
    m + (d k - m) / ((k + 1 : Nat) : K) = runMean d (k + 1) := by
  by_cases hk : k = 0
  · subst hk; simp [runMean]
  · rcases h with h | h
    · exact absurd h hk
    · rw [h]; exact runMean_succ d k hk

omit [CharZero K] in
theorem runVar_zero (d : Nat → K) : runVar d 0 = 0 := by simp [runVar]

theorem runVar_eq (d : Nat → K) (k : Nat) (hk : k ≠ 0) :
    runMean (fun j => d j * d j) k - runMean d k * runMean d k = runVar d k := by
  have h1 : (k : K) ≠ 0 := by exact_mod_cast hk
  have hm : ∑ j ∈ range k, d j = k * runMean d k := by
    unfold runMean; field_simp
  unfold runVar
  have : ∑ j ∈ range k, (d j - runMean d k) ^ 2 =
      ∑ j ∈ range k, d j * d j - k * (runMean d k * runMean d k) := by
    have h2 : ∀ j ∈ range k, (d j - runMean d k) ^ 2 =
        d j * d j - 2 * runMean d k * d j + runMean d k * runMean d k := by
      intro j _; ring
    rw [Finset.sum_congr rfl h2, Finset.sum_add_distrib, Finset.sum_sub_distrib,
      ← Finset.mul_sum, hm, Finset.sum_const, Finset.card_range, nsmul_eq_mul]
    ring
  rw [this, sub_div]
  congr 1
  field_simp

/-- The buffer after `k` iterations: slot `s` holds the variance of the latest iteration congruent to `s`,
or zero. -/
def swindow (d : Nat → K) (k : Nat) : List K :=
  (List.range 1000).map fun s : Nat => if s ≤ k then runVar d (k - (k - s) % 1000) else 0

omit [CharZero K] in
theorem length_swindow (d : Nat → K) (k : Nat) : (swindow d k).length = 1000 := by simp [swindow]

omit [CharZero K] in
theorem getElem_swindow (d : Nat → K) (k s : Nat) (h : s < (swindow d k).length) :
    (swindow d k)[s] = if s ≤ k then runVar d (k - (k - s) % 1000) else 0 := by
  simp only [swindow, List.getElem_map, List.getElem_range]

omit [CharZero K] in
theorem swindow_zero (d : Nat → K) : (List.replicate 1000 (0 : K)).set 0 0 = swindow d 0 := by
  apply List.ext_getElem
  · rw [List.length_set, List.length_replicate, length_swindow]
  · intro s h1 h2
    rw [getElem_swindow]
    have hs : s < 1000 := by simpa [length_swindow] using h2
    by_cases h0 : s = 0
    · subst h0
      rw [List.getElem_set_self, if_pos (by omega), show 0 - (0 - 0) % 1000 = 0 by omega, runVar_zero]
    · rw [List.getElem_set_ne (by omega), List.getElem_replicate, if_neg (by omega)]

omit [CharZero K] in
theorem swindow_succ (d : Nat → K) (k : Nat) :
    (swindow d k).set ((k + 1) % 1000) (runVar d (k + 1)) = swindow d (k + 1) := by
  apply List.ext_getElem
  · rw [List.length_set, length_swindow, length_swindow]
  · intro s h1 h2
    rw [getElem_swindow]
    have hs : s < 1000 := by simpa [length_swindow] using h2
    by_cases h : (k + 1) % 1000 = s
    · simp only [h, List.getElem_set_self]
      rw [if_pos (by omega)]
      congr 1
      omega
    · rw [List.getElem_set_ne h, getElem_swindow]
      by_cases c : s ≤ k
      · rw [if_pos c, if_pos (by omega)]
        congr 1
        omega
      · rw [if_neg c, if_neg (by omega)]

omit [CharZero K] in
/-- The entries of the buffer are the variances of the last 1000 iterations, iterations before the
first counting as variance `0` (`runVar d 0 = 0`, truncated subtraction). -/
theorem mem_swindow (d : Nat → K) (k : Nat) (x : K) :
    x ∈ swindow d k ↔ ∃ i < 1000, x = runVar d (k - i) := by
  rw [List.mem_iff_getElem]
  constructor
  · rintro ⟨s, hs, rfl⟩
    rw [getElem_swindow]
    rw [length_swindow] at hs
    by_cases c : s ≤ k
    · exact ⟨(k - s) % 1000, by omega, by rw [if_pos c]⟩
    · refine ⟨999, by omega, ?_⟩
      rw [if_neg c, show k - 999 = 0 by omega, runVar_zero]
  · rintro ⟨i, hi, rfl⟩
    by_cases c : i ≤ k
    · refine ⟨(k - i) % 1000, by rw [length_swindow]; omega, ?_⟩
      rw [getElem_swindow, if_pos (by omega)]
      congr 1
      omega
    · refine ⟨0, by rw [length_swindow]; omega, ?_⟩
      rw [getElem_swindow, if_pos (by omega)]
      rw [show k - i = 0 by omega, show k - (k - 0) % 1000 = 0 by omega]

end field

variable {K : Type} [Field K] [LinearOrder K] [IsStrictOrderedRing K]

/-- The loop of `sigma_L` stops at iteration `n`. -/
def Stops (d : Nat → K) (maxI minI : Nat) (tol : K) (n : Nat) : Prop :=
  maxI ≤ n ∨ (minI < n ∧ n % 500 = 0 ∧ rangeBelow (swindow d n) tol = true)

theorem sigmaLoop_spec (n : Nat → Nat) (d : Nat → K) (hd : ∀ j, d j = (n (j + 1) : Nat))
    (maxI minI : Nat) (tol : K) (k : Nat) (cm cs m sq : K) (b : List K)
    (hcm : cm = 0) (hcs : cs = 0) (hm : k = 0 ∨ m = runMean d k)
    (hsq : k = 0 ∨ sq = runMean (fun j => d j * d j) k) (hb : b = swindow d k) :
    ∃ N, sigmaLoop n maxI minI tol k cm cs m sq b = (runVar d N, swindow d N, N) ∧
      k < N ∧ N ≤ max (k + 1) maxI ∧ Stops d maxI minI tol N ∧
      ∀ j, k < j → j < N → ¬ Stops d maxI minI tol j := by
  fun_induction sigmaLoop n maxI minI tol k cm cs m sq b with
  | case1 k cm cs m sq b k' nw nsq mUpd sUpd mk sk sigma b' hstop =>
    have hmk : mk = (runMean d (k + 1), 0) := by
      simp only [mk, mUpd, hcm, kahanAdd_zero, nw, k', ← hd]
      rw [runMean_step d k m hm]
    have hsk : sk = (runMean (fun j => d j * d j) (k + 1), 0) := by
      simp only [sk, sUpd, hcs, kahanAdd_zero, nsq, nw, k', Nat.cast_mul, ← hd]
      rw [runMean_step (fun j => d j * d j) k sq hsq]
    have hsig : sigma = runVar d (k + 1) := by
      simp only [sigma, hmk, hsk]
      exact runVar_eq d (k + 1) (by omega)
    have hb' : b' = swindow d (k + 1) := by
      simp only [b', hsig, hb]; exact swindow_succ d k
    refine ⟨k + 1, ?_, by omega, by omega, Or.inr ⟨hstop.1, hstop.2.1, hb' ▸ hstop.2.2⟩,
      fun j h1 h2 => by omega⟩
    rw [hb', hsig]
  | case2 k cm cs m sq b k' nw nsq mUpd sUpd mk sk sigma b' hstop hmax =>
    have hmk : mk = (runMean d (k + 1), 0) := by
      simp only [mk, mUpd, hcm, kahanAdd_zero, nw, k', ← hd]
      rw [runMean_step d k m hm]
    have hsk : sk = (runMean (fun j => d j * d j) (k + 1), 0) := by
      simp only [sk, sUpd, hcs, kahanAdd_zero, nsq, nw, k', Nat.cast_mul, ← hd]
      rw [runMean_step (fun j => d j * d j) k sq hsq]
    have hsig : sigma = runVar d (k + 1) := by
      simp only [sigma, hmk, hsk]
      exact runVar_eq d (k + 1) (by omega)
    have hb' : b' = swindow d (k + 1) := by
      simp only [b', hsig, hb]; exact swindow_succ d k
    refine ⟨k + 1, ?_, by omega, by omega, Or.inl hmax, fun j h1 h2 => by omega⟩
    rw [hb', hsig]
  | case3 k cm cs m sq b k' nw nsq mUpd sUpd mk sk sigma b' hstop hmax ih =>
    have hmk : mk = (runMean d (k + 1), 0) := by
      simp only [mk, mUpd, hcm, kahanAdd_zero, nw, k', ← hd]
      rw [runMean_step d k m hm]
    have hsk : sk = (runMean (fun j => d j * d j) (k + 1), 0) := by
      simp only [sk, sUpd, hcs, kahanAdd_zero, nsq, nw, k', Nat.cast_mul, ← hd]
      rw [runMean_step (fun j => d j * d j) k sq hsq]
    have hsig : sigma = runVar d (k + 1) := by
      simp only [sigma, hmk, hsk]
      exact runVar_eq d (k + 1) (by omega)
    have hb' : b' = swindow d (k + 1) := by
      simp only [b', hsig, hb]; exact swindow_succ d k
    obtain ⟨N, h1, h2, h3, h4, h5⟩ := ih (by rw [hmk]) (by rw [hsk]) (Or.inr (by rw [hmk]))
      (Or.inr (by rw [hsk])) hb'
    refine ⟨N, h1, by omega, by omega, h4, fun j hj hjN => ?_⟩
    by_cases hjk : j = k + 1
    · subst hjk
      rintro (h | ⟨h6, h7, h8⟩)
      · omega
      · exact hstop ⟨h6, h7, hb' ▸ h8⟩
    · exact h5 j (by omega) hjN

omit [Field K] [IsStrictOrderedRing K] in
theorem npMin_of_isMin (l : List K) (a : K) (h : IsMin l a) : npMin l = .ok a := by
  cases l with
  | nil => exact absurd h.1 (by simp)
  | cons x l =>
    simp only [npMin]
    congr 1
    exact le_antisymm (minOf_le x l a h.1) (h.2 _ (minOf_mem x l))

omit [Field K] [IsStrictOrderedRing K] in
theorem npMax_of_isMax (l : List K) (a : K) (h : IsMax l a) : npMax l = .ok a := by
  cases l with
  | nil => exact absurd h.1 (by simp)
  | cons x l =>
    simp only [npMax]
    congr 1
    exact le_antisymm (h.2 _ (maxOf_mem x l)) (le_maxOf x l a h.1)

omit [IsStrictOrderedRing K] in
theorem nWithin_eq (l : List K) (L c : K) : nWithin l L c = countIn l (c - L / 2) (c + L / 2) := by
  unfold nWithin countIn
  rw [List.countP_eq_length_filter]
  simp only [ge_iff_le, Bool.decide_and]

/-- `sigma_L` in terms of the counts of its windows. -/
theorem sigmaL_spec (unfolded : List K) (mn mx : K) (hmn : IsMin unfolded mn) (hmx : IsMax unfolded mx)
    (L : K) (maxI : Nat) (tol : K) (minI : Nat) (U : Nat → K) (d : Nat → K)
    (hd : ∀ j, d j = (nWithin unfolded L (uniform mn mx (U (j + 1))) : Nat)) :
    ∃ k, sigmaL unfolded L maxI tol minI U = .ok (runVar d k, rangeBelow (swindow d k) tol, k) ∧
      1 ≤ k ∧ k ≤ max 1 maxI ∧ Stops d maxI minI tol k ∧
      ∀ j, 1 ≤ j → j < k → ¬ Stops d maxI minI tol j := by
  obtain ⟨k, h1, h2, h3, h4, h5⟩ := sigmaLoop_spec
    (fun j => nWithin unfolded L (uniform mn mx (U j))) d hd maxI minI tol 0 0 0
    ((nWithin unfolded L (uniform mn mx (U 0)) : Nat) : K)
    ((nWithin unfolded L (uniform mn mx (U 0)) * nWithin unfolded L (uniform mn mx (U 0)) : Nat) : K)
    (swindow d 0) rfl rfl (Or.inl rfl) (Or.inl rfl) rfl
  refine ⟨k, ?_, h2, h3, h4, h5⟩
  rw [← swindow_zero d] at h1
  unfold sigmaL
  simp only [npMin_of_isMin _ _ hmn, npMax_of_isMax _ _ hmx, bind, Except.bind, pure, Except.pure]
  have h0 : (((nWithin unfolded L (uniform mn mx (U 0)) * nWithin unfolded L (uniform mn mx (U 0)) : Nat) : K)
      - (nWithin unfolded L (uniform mn mx (U 0)) : Nat) * (nWithin unfolded L (uniform mn mx (U 0)) : Nat)) = 0 := by
    push_cast; ring
  rw [h0, h1]

theorem rangeBelow_swindow (d : Nat → K) (k : Nat) (tol : K) :
    rangeBelow (swindow d k) tol = true ↔
      ∀ i < 1000, ∀ j < 1000, |runVar d (k - i) - runVar d (k - j)| < tol := by
  rw [rangeBelow_iff]
  constructor
  · rintro ⟨-, h⟩ i hi j hj
    have e1 := h _ ((mem_swindow d k _).mpr ⟨i, hi, rfl⟩) _ ((mem_swindow d k _).mpr ⟨j, hj, rfl⟩)
    have e2 := h _ ((mem_swindow d k _).mpr ⟨j, hj, rfl⟩) _ ((mem_swindow d k _).mpr ⟨i, hi, rfl⟩)
    rw [abs_lt]; constructor <;> linarith
  · intro h
    refine ⟨?_, ?_⟩
    · intro he
      have := length_swindow d k
      rw [he] at this
      simp at this
    · intro x hx y hy
      obtain ⟨i, hi, rfl⟩ := (mem_swindow d k _).mp hx
      obtain ⟨j, hj, rfl⟩ := (mem_swindow d k _).mp hy
      exact lt_of_le_of_lt (le_abs_self _) (h i hi j hj)

omit [Field K] [IsStrictOrderedRing K] in
theorem exists_isMin (l : List K) (h : l ≠ []) : ∃ a, IsMin l a := by
  cases l with
  | nil => exact absurd rfl h
  | cons x l => exact ⟨minOf x l, minOf_mem x l, fun y hy => minOf_le x l y hy⟩

omit [Field K] [IsStrictOrderedRing K] in
theorem exists_isMax (l : List K) (h : l ≠ []) : ∃ a, IsMax l a := by
  cases l with
  | nil => exact absurd rfl h
  | cons x l => exact ⟨maxOf x l, maxOf_mem x l, fun y hy => le_maxOf x l y hy⟩

end LevelVar
end RMT
