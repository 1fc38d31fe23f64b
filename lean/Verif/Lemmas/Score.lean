import Verif.Spec.Score
import Verif.Spec.Variance
import Verif.Lemmas.Report
import Verif.Lemmas.Emd

/-! # Lemmas on scores, quantiles and the selection -/

set_option linter.unusedSectionVars false

namespace RMT
namespace Report
open Smooth Trim EigValsM Format Spec

variable {K : Type} [Field K] [LinearOrder K]

theorem gaps_eq_diff (u : List K) : gaps u = diff u := by
  apply List.ext_getElem
  · simp [gaps, length_diff]
  intro i h1 h2
  rw [length_diff] at h2
  rw [getElem_diff]
  simp only [gaps, List.getElem_map, List.getElem_range]
  rw [List.getD_eq_getElem _ _ (by omega), List.getD_eq_getElem _ _ (by omega)]

theorem zipWith_drop_eq_gaps (u : List K) :
    List.zipWith (fun b a => b - a) (u.drop 1) (u.take (u.length - 1)) = gaps u := by
  rw [gaps_eq_diff]
  apply List.ext_getElem
  · simp [length_diff]
  intro i h1 h2
  rw [length_diff] at h2
  rw [getElem_diff]
  simp

theorem evaluateUnfolding_eq (u : List K) :
    evaluateUnfolding u = (avg (gaps u), sampleVar (gaps u), goeScore u) := by
  simp only [evaluateUnfolding, zipWith_drop_eq_gaps, mean, varSample, sampleVar, goeScore, avg, div_one,
    Prod.mk.injEq, true_and]
  ring

theorem leNaN_trans (a b c : Option K) (h1 : leNaN a b = true) (h2 : leNaN b c = true) :
    leNaN a c = true := by
  cases a <;> cases b <;> cases c <;> simp_all [leNaN]
  exact le_trans h1 h2

theorem leNaN_total (a b : Option K) : (leNaN a b || leNaN b a) = true := by
  cases a <;> cases b <;> simp [leNaN, le_total]

theorem bestScoreCol_ok (cols : List (String × List K)) (b : String × List K)
    (h : bestScoreCol cols = .ok b) :
    b ∈ cols ∧ ∀ c ∈ cols, leNaN (maskedMean b.2) (maskedMean c.2) = true := by
  unfold bestScoreCol at h
  have hp := List.pairwise_mergeSort
    (le := fun a b : String × List K => leNaN (maskedMean a.2) (maskedMean b.2))
    (fun a b c h1 h2 => leNaN_trans _ _ _ h1 h2) (fun a b => leNaN_total _ _) cols
  have hperm := List.mergeSort_perm cols
    (fun a b : String × List K => leNaN (maskedMean a.2) (maskedMean b.2))
  split at h
  · cases h
  · rename_i x c l heq
    cases h
    rw [heq] at hp hperm
    refine ⟨hperm.subset (by simp), fun c hc => ?_⟩
    have hc' := hperm.symm.subset hc
    rcases List.mem_cons.mp hc' with rfl | hc'
    · cases hm : maskedMean c.2 <;> simp [leNaN]
    · exact (List.pairwise_cons.mp hp).1 c hc'

theorem mergeSort_head_of_le {α : Type} (le : α → α → Bool) (a : α) (l : List α)
    (trans : ∀ a b c, le a b = true → le b c = true → le a c = true)
    (total : ∀ a b, (le a b || le b a) = true) (h : ∀ b ∈ l, le a b = true) :
    ∃ l', (a :: l).mergeSort le = a :: l' := by
  obtain ⟨l₁, l₂, h1, h2, h3⟩ := List.mergeSort_cons (le := le) trans total a l
  refine ⟨l₁ ++ l₂, ?_⟩
  have hl1 : l₁ = [] := by
    rcases l₁ with _ | ⟨x, l₁⟩
    · rfl
    · exfalso
      have hx : x ∈ l := by
        have := List.mem_mergeSort (le := le) (l := l) (a := x)
        rw [h2] at this
        exact this.mp (by simp)
      have := h3 x (by simp)
      simp [h x hx] at this
  rw [h1, hl1]
  rfl

theorem foldl_min_le (l : List K) (a : K) : l.foldl min a ≤ a ∧ ∀ x ∈ l, l.foldl min a ≤ x := by
  induction l generalizing a with
  | nil => simp
  | cons b l ih =>
    simp only [List.foldl_cons, List.mem_cons, forall_eq_or_imp]
    obtain ⟨h1, h2⟩ := ih (min a b)
    exact ⟨le_trans h1 (min_le_left _ _), le_trans h1 (min_le_right _ _), h2⟩

theorem foldl_min_mem (l : List K) (a : K) : l.foldl min a ∈ a :: l := by
  induction l generalizing a with
  | nil => simp
  | cons b l ih =>
    simp only [List.foldl_cons]
    rcases List.mem_cons.mp (ih (min a b)) with h | h
    · rcases min_choice a b with h' | h' <;> rw [h, h'] <;> simp
    · simp [h]

theorem idxMin_ok (l : List K) (k : Nat) (h : idxMin l = .ok k) :
    ∃ hk : k < l.length, ∀ x ∈ l, l[k] ≤ x := by
  cases l with
  | nil => simp [idxMin] at h
  | cons a as =>
    simp only [idxMin, Except.ok.injEq] at h
    subst h
    have hm : minOf a as ∈ a :: as := foldl_min_mem as a
    refine ⟨List.idxOf_lt_length_of_mem hm, fun x hx => ?_⟩
    rw [List.getElem_idxOf]
    rcases List.mem_cons.mp hx with rfl | hx
    · exact (foldl_min_le as x).1
    · exact (foldl_min_le as a).2 x hx

theorem idxMin_isOk (l : List K) (h : l ≠ []) : ∃ k, idxMin l = .ok k := by
  cases l with
  | nil => exact absurd rfl h
  | cons a as => exact ⟨_, rfl⟩

variable [IsStrictOrderedRing K]

/-- With two to ten entries an entry is below the 0.9 quantile iff it is not a largest entry. -/
theorem lt_quantile_iff (l : List K) (h2 : 2 ≤ l.length) (h10 : l.length ≤ 10) (x : K) (hx : x ∈ l) :
    x < quantile (9 / 10) l ↔ ∃ y ∈ l, x < y := by
  have hperm := npSort_perm l
  have hasc := npSort_ascending l
  have hlen := hperm.length_eq
  have hn : ∃ n, l.length = n + 2 := ⟨l.length - 2, by omega⟩
  obtain ⟨n, hn⟩ := hn
  have hn8 : n ≤ 8 := by omega
  have hfl : (((npSort l).length - 1 : ℚ) * (9 / 10)).floor.toNat = n := by
    rw [hlen, hn]
    interval_cases n <;> norm_num <;> decide +kernel
  set s := npSort l with hs
  have l1 : n < s.length := by omega
  have l2 : n + 1 < s.length := by omega
  have hmono : ∀ i j (hi : i < s.length) (hj : j < s.length), i ≤ j → s[i] ≤ s[j] := by
    intro i j hi hj hij
    rcases Nat.lt_or_eq_of_le hij with h | rfl
    · exact List.pairwise_iff_getElem.mp hasc i j hi hj h
    · exact le_refl _
  have hq : quantile (9 / 10) l = s[n] + (s[n + 1] - s[n]) * ((9 - n : ℚ) / 10 : ℚ) := by
    unfold quantile
    simp only [← hs, hfl]
    rw [List.getD_eq_getElem _ _ l1, List.getD_eq_getElem _ _ l2, hlen, hn]
    congr 3
    push_cast
    ring
  have hf0 : (0 : K) < (((9 - n : ℚ) / 10 : ℚ) : K) := by
    have : (0 : ℚ) < (9 - n : ℚ) / 10 := by
      have : (n : ℚ) ≤ 8 := by exact_mod_cast hn8
      linarith
    exact_mod_cast this
  have hf1 : (((9 - n : ℚ) / 10 : ℚ) : K) < 1 := by
    have : (9 - n : ℚ) / 10 < 1 := by
      have : (0 : ℚ) ≤ n := Nat.cast_nonneg n
      linarith
    exact_mod_cast this
  have hd : 0 ≤ s[n + 1] - s[n] := sub_nonneg.mpr (hmono _ _ l1 l2 (by omega))
  have hqle : quantile (9 / 10) l ≤ s[n + 1] := by
    rw [hq]; nlinarith
  constructor
  · intro hlt
    exact ⟨s[n + 1], hperm.subset (List.getElem_mem l2), lt_of_lt_of_le hlt hqle⟩
  · rintro ⟨y, hy, hxy⟩
    obtain ⟨i, hi, rfl⟩ := List.mem_iff_getElem.mp (hperm.symm.subset hx)
    obtain ⟨j, hj, rfl⟩ := List.mem_iff_getElem.mp (hperm.symm.subset hy)
    have hxm : s[i] < s[n + 1] := lt_of_lt_of_le hxy (hmono j (n + 1) hj l2 (by omega))
    have hin : i ≤ n := by
      by_contra hc
      have : i = n + 1 := by omega
      subst this
      exact lt_irrefl _ hxm
    have hxn : s[i] ≤ s[n] := hmono i n hi l1 hin
    rw [hq]
    rcases lt_or_eq_of_le hd with hpos | hzero
    · have := mul_pos hpos hf0
      linarith
    · rw [← hzero, zero_mul, add_zero]
      have : s[n] = s[n + 1] := by linarith
      rw [this]; exact hxm

theorem maskedMean_eq (l : List K) (h2 : 2 ≤ l.length) (h10 : l.length ≤ 10) :
    maskedMean l = meanBelowMax l := by
  have hfe : (l.filter fun x => decide (x < quantile (9 / 10) l)) =
      l.filter fun x => l.any fun y => decide (x < y) := by
    apply List.filter_congr
    intro x hx
    rw [Bool.eq_iff_iff, decide_eq_true_iff, List.any_eq_true, lt_quantile_iff l h2 h10 x hx]
    simp only [decide_eq_true_eq]
  unfold maskedMean meanBelowMax
  simp only [hfe, List.length_eq_zero_iff]
  rfl

/-- With a single entry nothing is below the quantile. -/
theorem maskedMean_single (x : K) : maskedMean [x] = none := by
  have : quantile (9 / 10) [x] = x := by
    have hs : npSort [x] = [x] := npSort_of_ascending _ (by simp [Ascending])
    have hz : (Rat.floor 0).toNat = 0 := by decide
    simp [quantile, hs, hz]
  simp [maskedMean, this]

end Report
end RMT
