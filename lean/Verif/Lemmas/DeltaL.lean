import Verif.Lemmas.DeltaLoop
import Verif.Lemmas.Rigidity

/-! # `delta_L` in terms of its sample stream -/

namespace RMT
namespace Rigidity
open Spec Finset

variable {K : Type} [Field K] [LinearOrder K] [IsStrictOrderedRing K]

/-- Everything about `delta_L` in one statement: the samples exist, and value, flag and count are
determined by the running means. -/
theorem deltaL_spec (unfolded : List K) (hu : unfolded ≠ []) (L : K) (hL : 0 < L) (n : Nat)
    (hn : 1 ≤ n) (maxI minI : Nat) (tol : K) (simp? : Bool) (U : Nat → K) :
    ∃ d : Nat → K,
      (∀ j, d3Sample unfolded L n simp?
        (uniform (unfolded.head hu) (unfolded.getLast hu) (U j)) = .ok (d j) ∧ 0 ≤ d j) ∧
      ∃ k, deltaL unfolded L n maxI minI tol simp? U =
          .ok (mean (window d k), rangeBelow (window d k) tol, k) ∧
        2 ≤ k ∧ k ≤ max 2 maxI ∧ Stops d maxI minI tol k ∧
        ∀ j, 2 ≤ j → j < k → ¬ Stops d maxI minI tol j := by
  have hlen : 0 < unfolded.length := List.length_pos_iff.mpr hu
  choose d hd using fun j => d3Sample_nonneg unfolded hu L hL n hn simp?
    (uniform (unfolded.head hu) (unfolded.getLast hu) (U j))
  refine ⟨d, hd, ?_⟩
  obtain ⟨k, h1, h2, h3, h4, h5⟩ := deltaLoop_zero
    (fun j => d3Sample unfolded L n simp?
      (uniform (unfolded.head hu) (unfolded.getLast hu) (U j))) d (fun j => (hd j).1) maxI minI tol
  refine ⟨k, ?_, h2, h3, h4, h5⟩
  unfold deltaL
  rw [List.head_eq_getElem, List.getLast_eq_getElem] at h1
  simp only [pyGet_zero unfolded hlen, pyGet_neg_one unfolded hlen, bind, Except.bind, h1, pure,
    Except.pure]

omit [LinearOrder K] [IsStrictOrderedRing K] in
theorem sum_window_late (d : Nat → K) (k : Nat) (hk : 1001 ≤ k) :
    (window d k).sum = ∑ i ∈ range 1000, runMean d (k - i) := by
  rw [(window_perm d k hk).sum_eq]
  rw [sum_eq_sum_range _ (fun i => runMean d (k - i))]
  · simp
  · intro i h; simp

omit [LinearOrder K] [IsStrictOrderedRing K] in
theorem sum_window_early (d : Nat → K) (k : Nat) (h1 : 1 ≤ k) (hk : k ≤ 999) :
    (window d k).sum = ∑ j ∈ Icc 1 k, runMean d j := by
  rw [sum_eq_sum_range _ (fun s => windowSlot d k s) (fun i h => getElem_window d k i h), length_window]
  have hsplit : ∑ s ∈ range 1000, windowSlot d k s = ∑ s ∈ range (k + 1), windowSlot d k s := by
    symm
    apply Finset.sum_subset
    · intro s hs; simp only [Finset.mem_range] at *; omega
    · intro s hs hs'
      simp only [Finset.mem_range] at hs hs'
      exact slot_unreached d k s (by omega)
  rw [hsplit]
  clear hsplit
  have hIcc : ∑ j ∈ Icc 1 k, runMean d j = runMean d 1 + ∑ j ∈ Icc 2 k, runMean d j := by
    rw [← Finset.add_sum_Ioc_eq_sum_Icc (by omega)]
    rfl
  rw [hIcc]
  have hr : range (k + 1) = insert 0 (insert 1 (Icc 2 k)) := by
    ext s; simp only [Finset.mem_range, Finset.mem_insert, Finset.mem_Icc]; omega
  rw [hr, Finset.sum_insert (by simp), Finset.sum_insert (by simp),
    slot_first d k 0 (by omega), slot_one d k 1 (by omega), zero_add]
  congr 1
  apply Finset.sum_congr rfl
  intro s hs
  rw [Finset.mem_Icc] at hs
  rw [slot_recent d k s (by omega) (by omega) (by omega)]
  congr 1
  omega

omit [LinearOrder K] [IsStrictOrderedRing K] in
theorem sum_window_1000 (d : Nat → K) (k : Nat) (hk : k = 1000) :
    (window d k).sum = ∑ j ∈ Icc 2 k, runMean d j := by
  rw [sum_eq_sum_range _ (fun s => windowSlot d k s) (fun i h => getElem_window d k i h),
    length_window, ← hk]
  have hr : range k = insert 0 (insert 1 (Icc 2 (k - 1))) := by
    ext s; simp only [Finset.mem_range, Finset.mem_insert, Finset.mem_Icc]; omega
  have hr' : Icc 2 k = insert k (Icc 2 (k - 1)) := by
    ext s; simp only [Finset.mem_insert, Finset.mem_Icc]; omega
  rw [hr, hr', Finset.sum_insert (by simp), Finset.sum_insert (by simp),
    Finset.sum_insert (by simp only [Finset.mem_Icc]; omega),
    slot_recent d k 0 (by omega) (by omega) (by omega), slot_one d k 1 (by omega), zero_add]
  congr 1
  · congr 1; omega
  · apply Finset.sum_congr rfl
    intro s hs
    rw [Finset.mem_Icc] at hs
    rw [slot_recent d k s (by omega) (by omega) (by omega)]
    congr 1
    omega

end Rigidity
end RMT
