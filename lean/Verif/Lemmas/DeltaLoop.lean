import Verif.Model.Rigidity
import Verif.Lemmas.Numeric
import Verif.Spec.RunningMean

/-! # Lemmas on the Monte-Carlo loop of `delta_L` -/

namespace RMT
namespace Rigidity
open Spec Utils Finset

variable {K : Type} [Field K]

theorem kahanAdd_zero (m u : K) : kahanAdd m u 0 = (m + u, 0) := by
  simp [kahanAdd]

theorem runMean_succ [CharZero K] (d : Nat → K) (k : Nat) (hk : k ≠ 0) :
    runMean d k + (d k - runMean d k) / ((k + 1 : Nat) : K) = runMean d (k + 1) := by
  unfold runMean
  rw [Finset.sum_range_succ]
  have h1 : (k : K) ≠ 0 := by exact_mod_cast hk
  have h2 : ((k + 1 : Nat) : K) ≠ 0 := by exact_mod_cast Nat.succ_ne_zero k
  push_cast at *
  field_simp
  ring

theorem runMean_one (d : Nat → K) : runMean d 1 = d 0 := by simp [runMean]

theorem length_window (d : Nat → K) (k : Nat) : (window d k).length = 1000 := by simp [window]

theorem getElem_window (d : Nat → K) (k s : Nat) (h : s < (window d k).length) :
    (window d k)[s] = windowSlot d k s := by
  simp only [window, List.getElem_map, List.getElem_range]

theorem slot_first (d : Nat → K) (k s : Nat) (h : s = 0 ∧ k < 1000) :
    windowSlot d k s = runMean d 1 := by simp [windowSlot, h]

theorem slot_one (d : Nat → K) (k s : Nat) (h : s = 1 ∧ k ≤ 1000) : windowSlot d k s = 0 := by
  simp [windowSlot, h]

theorem slot_unreached (d : Nat → K) (k s : Nat) (h : k < s) : windowSlot d k s = 0 := by
  unfold windowSlot
  by_cases c1 : s = 0 ∧ k < 1000
  · omega
  · rw [if_neg c1]
    by_cases c2 : s = 1 ∧ k ≤ 1000
    · rw [if_pos c2]
    · rw [if_neg c2, if_pos h]

theorem slot_recent (d : Nat → K) (k s : Nat) (h1 : ¬ (s = 0 ∧ k < 1000)) (h2 : ¬ (s = 1 ∧ k ≤ 1000))
    (h3 : ¬ k < s) : windowSlot d k s = runMean d (k - (k - s) % 1000) := by
  rw [windowSlot, if_neg h1, if_neg h2, if_neg h3]

theorem window_one (d : Nat → K) : (List.replicate BUF (0 : K)).set 0 (d 0) = window d 1 := by
  apply List.ext_getElem
  · rw [List.length_set, List.length_replicate, length_window]; rfl
  · intro s h1 h2
    rw [getElem_window]
    have hs : s < 1000 := by simpa [length_window] using h2
    by_cases h0 : s = 0
    · subst h0; simp [runMean_one, slot_first]
    · rw [List.getElem_set_ne (by omega), List.getElem_replicate]
      by_cases h1 : s = 1
      · rw [slot_one d 1 s (by omega)]
      · rw [slot_unreached d 1 s (by omega)]

theorem window_succ (d : Nat → K) (k : Nat) (hk : 1 ≤ k) :
    (window d k).set ((k + 1) % BUF) (runMean d (k + 1)) = window d (k + 1) := by
  simp only [BUF]
  apply List.ext_getElem
  · simp [window]
  · intro s h1 h2
    rw [getElem_window]
    have hs : s < 1000 := by simpa [length_window] using h2
    by_cases h : (k + 1) % 1000 = s
    · simp only [h, List.getElem_set_self]
      rw [slot_recent d (k + 1) s (by omega) (by omega) (by omega)]
      congr 1
      omega
    · rw [List.getElem_set_ne h, getElem_window]
      by_cases c1 : s = 0 ∧ k < 1000
      · rw [slot_first d k s c1, slot_first d (k + 1) s (by omega)]
      by_cases c2 : s = 1 ∧ k ≤ 1000
      · rw [slot_one d k s c2, slot_one d (k + 1) s (by omega)]
      by_cases c3 : k < s
      · rw [slot_unreached d k s c3, slot_unreached d (k + 1) s (by omega)]
      rw [slot_recent d k s c1 c2 c3, slot_recent d (k + 1) s (by omega) (by omega) (by omega)]
      congr 1
      omega

theorem runMean_mem_window (d : Nat → K) (k j : Nat) (h2 : 2 ≤ j) (hj : j ≤ k) (hk : k < j + 1000) :
    runMean d j ∈ window d k := by
  rw [List.mem_iff_getElem]
  refine ⟨j % 1000, by rw [length_window]; omega, ?_⟩
  rw [getElem_window]
  rw [slot_recent d k _ (by omega) (by omega) (by omega)]
  congr 1
  omega

/-- Once `k ≥ 1001` the window is, up to order, the list of the last 1000 running means. -/
theorem window_perm (d : Nat → K) (k : Nat) (hk : 1001 ≤ k) :
    (window d k).Perm ((List.range 1000).map fun i : Nat => runMean d (k - i)) := by
  have h : window d k = ((List.range 1000).map fun s : Nat => (k - s) % 1000).map
      fun i : Nat => runMean d (k - i) := by
    unfold window
    rw [List.map_map]
    apply List.map_congr_left
    intro s hs
    rw [List.mem_range] at hs
    simp only [Function.comp]
    rw [slot_recent d k s (by omega) (by omega) (by omega)]
  rw [h]
  apply List.Perm.map
  rw [List.perm_ext_iff_of_nodup]
  · intro a
    simp only [List.mem_map, List.mem_range]
    constructor
    · rintro ⟨s, hs, rfl⟩; omega
    · intro ha
      refine ⟨(k - a) % 1000, by omega, by omega⟩
  · rw [List.nodup_iff_injective_getElem]
    intro a b hab
    have ha := a.2
    have hb := b.2
    simp only [List.length_map, List.length_range] at ha hb
    simp only [List.getElem_map, List.getElem_range] at hab
    ext
    omega
  · exact List.nodup_range

variable [LinearOrder K] [IsStrictOrderedRing K]

theorem rangeBelow_iff (b : List K) (tol : K) :
    rangeBelow b tol = true ↔ b ≠ [] ∧ ∀ x ∈ b, ∀ y ∈ b, x - y < tol := by
  cases b with
  | nil => simp [rangeBelow]
  | cons a l =>
    unfold rangeBelow
    rw [decide_eq_true_iff]
    have h1 : 0 ≤ maxOf a l - minOf a l :=
      sub_nonneg.mpr (le_trans (minOf_le a l a (by simp)) (le_maxOf a l a (by simp)))
    rw [abs_of_nonneg h1]
    constructor
    · intro h
      refine ⟨by simp, fun x hx y hy => ?_⟩
      have := le_maxOf a l x hx
      have := minOf_le a l y hy
      linarith
    · rintro ⟨-, h⟩
      exact h _ (maxOf_mem a l) _ (minOf_mem a l)

theorem sum_le_of_forall_le (b : List K) (M : K) (h : ∀ x ∈ b, x ≤ M) : b.sum ≤ b.length * M := by
  induction b with
  | nil => simp
  | cons a l ih =>
    have h1 := h a (by simp)
    have h2 := ih (fun x hx => h x (List.mem_cons_of_mem _ hx))
    rw [List.sum_cons, List.length_cons]
    push_cast
    linarith

theorem le_sum_of_forall_le (b : List K) (M : K) (h : ∀ x ∈ b, M ≤ x) : b.length * M ≤ b.sum := by
  induction b with
  | nil => simp
  | cons a l ih =>
    have h1 := h a (by simp)
    have h2 := ih (fun x hx => h x (List.mem_cons_of_mem _ hx))
    rw [List.sum_cons, List.length_cons]
    push_cast
    linarith

theorem abs_mean_sub_lt (b : List K) (tol : K) (h : rangeBelow b tol = true) (x : K) (hx : x ∈ b) :
    |mean b - x| < tol := by
  obtain ⟨hne, hr⟩ := (rangeBelow_iff b tol).mp h
  cases b with
  | nil => exact absurd rfl hne
  | cons a l =>
    have hn : (0 : K) < ((a :: l).length : K) := by
      exact_mod_cast List.length_pos_iff.mpr hne
    have h1 : mean (a :: l) ≤ maxOf a l := by
      unfold mean
      rw [div_le_iff₀ hn, mul_comm]
      exact sum_le_of_forall_le _ _ (le_maxOf a l)
    have h2 : minOf a l ≤ mean (a :: l) := by
      unfold mean
      rw [le_div_iff₀ hn, mul_comm]
      exact le_sum_of_forall_le _ _ (minOf_le a l)
    have h3 := hr _ (maxOf_mem a l) x hx
    have h4 := hr x hx _ (minOf_mem a l)
    rw [abs_lt]
    constructor <;> linarith

/-- The loop of `delta_L` stops at iteration `n`. -/
def Stops (d : Nat → K) (maxI minI : Nat) (tol : K) (n : Nat) : Prop :=
  maxI ≤ n ∨ (minI < n ∧ n % 1000 = 0 ∧ rangeBelow (window d n) tol = true)

theorem deltaLoop_spec (dp : Nat → Py K) (d : Nat → K) (hd : ∀ j, dp j = .ok (d j))
    (maxI minI : Nat) (tol : K) (k : Nat) (c m : K) (b : List K) (hk : 1 ≤ k) (hc : c = 0)
    (hm : m = runMean d k) (hb : b = window d k) :
    ∃ n, deltaLoop dp maxI minI tol k c m b = .ok (n, runMean d n, window d n) ∧
      k < n ∧ n ≤ max (k + 1) maxI ∧ Stops d maxI minI tol n ∧
      ∀ j, k < j → j < n → ¬ Stops d maxI minI tol j := by
  fun_induction deltaLoop dp maxI minI tol k c m b with
  | case1 k c m b e he => rw [hd k] at he; cases he
  | case2 c m b d3 h ih => omega
  | case3 k c m b d3 hd3 hk0 k' update mc b' hmax =>
    have hd3' : d3 = d k := by rw [hd k] at hd3; injection hd3 with h; exact h.symm
    have hmc : mc = (runMean d (k + 1), 0) := by
      simp only [mc, update, hc, kahanAdd_zero]
      rw [hm, hd3', runMean_succ d k (by omega)]
    have hb' : b' = window d (k + 1) := by
      simp only [b']
      rw [hmc, hb]
      exact window_succ d k hk
    refine ⟨k + 1, ?_, by omega, by omega, Or.inl hmax, fun j h1 h2 => by omega⟩
    rw [hb', hmc]
  | case4 k c m b d3 hd3 hk0 k' update mc b' hmax hstop =>
    have hd3' : d3 = d k := by rw [hd k] at hd3; injection hd3 with h; exact h.symm
    have hmc : mc = (runMean d (k + 1), 0) := by
      simp only [mc, update, hc, kahanAdd_zero]
      rw [hm, hd3', runMean_succ d k (by omega)]
    have hb' : b' = window d (k + 1) := by
      simp only [b']
      rw [hmc, hb]
      exact window_succ d k hk
    refine ⟨k + 1, ?_, by omega, by omega, Or.inr ⟨hstop.1, hstop.2.1, hb' ▸ hstop.2.2⟩,
      fun j h1 h2 => by omega⟩
    rw [hb', hmc]
  | case5 k c m b d3 hd3 hk0 k' update mc b' hmax hstop ih =>
    have hd3' : d3 = d k := by rw [hd k] at hd3; injection hd3 with h; exact h.symm
    have hmc : mc = (runMean d (k + 1), 0) := by
      simp only [mc, update, hc, kahanAdd_zero]
      rw [hm, hd3', runMean_succ d k (by omega)]
    have hb' : b' = window d (k + 1) := by
      simp only [b']
      rw [hmc, hb]
      exact window_succ d k hk
    obtain ⟨n, h1, h2, h3, h4, h5⟩ := ih (by omega) (by rw [hmc]) (by rw [hmc]) hb'
    refine ⟨n, h1, by omega, by omega, h4, fun j hj hjn => ?_⟩
    by_cases hjk : j = k + 1
    · subst hjk
      rintro (h | ⟨h6, h7, h8⟩)
      · omega
      · exact hstop ⟨h6, h7, hb' ▸ h8⟩
    · exact h5 j (by omega) hjn

theorem deltaLoop_zero (dp : Nat → Py K) (d : Nat → K) (hd : ∀ j, dp j = .ok (d j))
    (maxI minI : Nat) (tol : K) :
    ∃ n, deltaLoop dp maxI minI tol 0 0 0 (List.replicate BUF 0) =
        .ok (n, runMean d n, window d n) ∧
      2 ≤ n ∧ n ≤ max 2 maxI ∧ Stops d maxI minI tol n ∧
      ∀ j, 2 ≤ j → j < n → ¬ Stops d maxI minI tol j := by
  rw [deltaLoop]
  simp only [hd 0, dite_true]
  obtain ⟨n, h1, h2, h3, h4, h5⟩ := deltaLoop_spec dp d hd maxI minI tol 1 0 (d 0)
    ((List.replicate BUF 0).set 0 (d 0)) (le_refl _) rfl (runMean_one d).symm (window_one d)
  exact ⟨n, h1, by omega, h3, h4, fun j hj hjn => h5 j (by omega) hjn⟩

end Rigidity
end RMT
