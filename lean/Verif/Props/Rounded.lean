import Verif.Lemmas.RoundedLoop
import Verif.Lemmas.DeltaL
import Verif.Props.LevelVariance

/-!
# C131-C133: compensated summation and the Monte-Carlo observables in rounded arithmetic
-/

set_option linter.unusedSectionVars false

namespace RMT
namespace Rounded
namespace Props
open Utils Spec Rigidity LevelVar Finset

variable {K : Type} [Field K] [LinearOrder K] [IsStrictOrderedRing K]

/-- The number of unfolded values in the `j`-th window whose centre is `C j`, with rounded ends. -/
def roundedCount (fl : K → K) (unfolded : List K) (L : K) (C : Nat → K) (j : Nat) : K :=
  ((countIn unfolded (fl (C j - fl (L / 2))) (fl (C j + fl (L / 2))) : Nat) : K)

theorem roundedCount_eq (fl : K → K) (unfolded : List K) (L : K) (C : Nat → K) (j : Nat) :
    roundedCount fl unfolded L C j = (nWithinFl fl unfolded L (C j) : Nat) := by
  unfold roundedCount nWithinFl countIn
  rw [List.countP_eq_length_filter]
  congr 2
  apply List.filter_congr
  intro e _
  simp [Bool.decide_and]

/-- **C131 (compensated sums).** With any rounding of relative error `ε ≤ 1/1000`, feeding `n ≤ 1/ε` numbers to `kahan_add` from `(0, 0)` gives
their sum up to `(8 ε + 15 n ε²) · Σ|xᵢ|`: the error bound does not grow with `n` to first order in `ε`. -/
theorem C131_kahan_sum (fl : K → K) (ε : K) (h0 : 0 ≤ ε) (h1 : ε ≤ 1 / 1000) (h : RelRounding fl ε) (xs : List K) (hn : (xs.length : K) * ε ≤ 1) :
    |(xs.foldl (fun s x => kahanAddFl fl s.1 x s.2) (0, 0)).1 - xs.sum| ≤ (8 * ε + 15 * xs.length * ε ^ 2) * (xs.map fun x => |x|).sum := by
  obtain ⟨a1, a2, -⟩ := kahan_sum_inv h0 h1 h (xs.map fun x => |x|).sum xs.length hn xs le_rfl le_rfl
  set r := xs.foldl (fun s x => kahanAddFl fl s.1 x s.2) (0, 0) with hr
  have e : r.1 - xs.sum = (r.1 - r.2 - xs.sum) + r.2 := by ring
  have t := abs_add_le (r.1 - r.2 - xs.sum) r.2
  rw [← e] at t
  have hA0 : 0 ≤ (xs.map fun x => |x|).sum := List.sum_nonneg (by simp only [List.mem_map]; rintro _ ⟨a, -, rfl⟩; exact abs_nonneg a)
  have := mul_nonneg h0 hA0
  linarith

/-- **C132.** `sigma_L` in rounded arithmetic (relative error `ε ≤ 1/1000`, at most `1/ε` iterations) on a non-empty spectrum of `N` levels returns a value within
`300 ε N²` of the population variance of the counts in windows `1 … k` — however many iterations were made. It stops before the
budget only at a multiple of 500 above `min_iters`; when it reports convergence, the last 1000 variances differ pairwise by less than
`tol / (1 - ε) + 600 ε N²`. -/
theorem C132_sigma_rounded (fl : K → K) (ε : K) (h0 : 0 ≤ ε) (h1 : ε ≤ 1 / 1000) (h : RelRounding fl ε) (unfolded : List K) (hu : unfolded ≠ []) (L : K) (maxI : Nat)
    (hmax : ((max 1 maxI : Nat) : K) * ε ≤ 1) (tol : K) (minI : Nat) (C : Nat → K) :
    ∃ v conv k, sigmaLFl fl unfolded L maxI tol minI C = .ok (v, conv, k) ∧ 1 ≤ k ∧ k ≤ max 1 maxI ∧
      |v - runVar (fun j => roundedCount fl unfolded L C (j + 1)) k| ≤ 300 * ε * (unfolded.length : K) ^ 2 ∧
      (k < maxI → minI < k ∧ k % 500 = 0 ∧ conv = true) ∧
      (conv = true → ∀ i < 1000, ∀ j < 1000,
        |runVar (fun j => roundedCount fl unfolded L C (j + 1)) (k - i) - runVar (fun j => roundedCount fl unfolded L C (j + 1)) (k - j)| <
          tol / (1 - ε) + 600 * ε * (unfolded.length : K) ^ 2) := by
  set B : K := (unfolded.length : K) with hBdef
  have hB : 0 ≤ B := Nat.cast_nonneg _
  set d : Nat → K := fun j => roundedCount fl unfolded L C (j + 1) with hddef
  set n : Nat → Nat := fun j => nWithinFl fl unfolded L (C j) with hndef
  have hnB : ∀ j, (n j : K) ≤ B := fun j => by
    rw [hBdef]; exact_mod_cast List.length_filter_le _ _
  have hd : ∀ j, d j = (n (j + 1) : Nat) := fun j => roundedCount_eq fl unfolded L C (j + 1)
  obtain ⟨mn, hmn'⟩ := exists_isMin unfolded hu
  obtain ⟨mx, hmx'⟩ := exists_isMax unfolded hu
  have hmn := npMin_of_isMin _ _ hmn'
  have hmx := npMax_of_isMax _ _ hmx'
  have hBB : 0 ≤ B * B := mul_nonneg hB hB
  have hδ : 0 ≤ 300 * (ε * (B * B)) := by have := mul_nonneg h0 hBB; linarith
  -- the initial buffer
  have hn0 : |((n 0 : Nat) : K)| ≤ B := by rw [abs_of_nonneg (Nat.cast_nonneg _)]; exact hnB 0
  have hnn : |((n 0 : Nat) : K) * ((n 0 : Nat) : K)| ≤ B * B := by rw [abs_mul]; exact mul_le_mul hn0 hn0 (abs_nonneg _) hB
  have ib : Close (300 * (ε * (B * B))) ((List.replicate 1000 (0 : K)).set 0 (fl (((n 0 * n 0 : Nat) : K) - fl (((n 0 : Nat) : K) * ((n 0 : Nat) : K))))) (swindow d 0) := by
    rw [← swindow_zero d]
    refine (Close.refl hδ _).set _ ?_
    have a1 := h (((n 0 : Nat) : K) * ((n 0 : Nat) : K))
    set p := fl (((n 0 : Nat) : K) * ((n 0 : Nat) : K)) with hp
    have e : ((n 0 * n 0 : Nat) : K) = ((n 0 : Nat) : K) * ((n 0 : Nat) : K) := by push_cast; ring
    rw [e]
    set q := ((n 0 : Nat) : K) * ((n 0 : Nat) : K) with hq
    have a2 := h (q - p)
    have a3 : |q - p| ≤ ε * (B * B) := by rw [abs_sub_comm]; exact a1.trans (mul_le_mul_of_nonneg_left hnn h0)
    have a4 : ε * |q - p| ≤ 1 * |q - p| := mul_le_mul_of_nonneg_right (by linarith) (abs_nonneg _)
    have e2 : fl (q - p) - 0 = (fl (q - p) - (q - p)) + (q - p) := by ring
    rw [e2]
    refine (abs_add_le _ _).trans ?_
    have := mul_nonneg h0 hBB
    linarith
  obtain ⟨v, b', N, r1, r2, r3, r4, r5, r6⟩ := sigmaLoopFl_spec h0 h1 h hB n d hd (fun j => by rw [hd]; exact hnB _) maxI minI tol 0 0 0 ((n 0 : Nat) : K) ((n 0 * n 0 : Nat) : K) _ hmax
    (by simpa using MeanInv.start h0 hB _ hn0) (by simpa using MeanInv.start h0 hBB _ hnn) ib
  refine ⟨v, rangeBelowFl fl b' tol, N, ?_, by omega, by simpa using r3, ?_, r6, ?_⟩
  · simp only [sigmaLFl, hmn, hmx, bind, Except.bind, pure, Except.pure]
    have e : (fun j => nWithinFl fl unfolded L (C j)) = n := rfl
    rw [e, r1]
  · have e : 300 * ε * B ^ 2 = 300 * (ε * (B * B)) := by ring
    rw [e]; exact r4
  · intro hc i hi j hj
    have h1' : 0 < 1 - ε := by linarith
    have key : ∀ i < 1000, ∀ j < 1000, runVar d (N - i) - runVar d (N - j) < tol / (1 - ε) + 600 * ε * B ^ 2 := by
      intro i hi j hj
      obtain ⟨x, hx, hx'⟩ := r5.mem _ ((mem_swindow d N _).mpr ⟨i, hi, rfl⟩)
      obtain ⟨y, hy, hy'⟩ := r5.mem _ ((mem_swindow d N _).mpr ⟨j, hj, rfl⟩)
      have hxy := rangeBelowFl_lt (by linarith) h b' tol hc x y hx hy
      have hxy' : x - y < tol / (1 - ε) := by rw [lt_div_iff₀ h1']; linarith
      have f1 := abs_le.mp hx'
      have f2 := abs_le.mp hy'
      have e : 600 * ε * B ^ 2 = 300 * (ε * (B * B)) + 300 * (ε * (B * B)) := by ring
      rw [e]
      linarith [f1.1, f2.2]
    rw [abs_lt]
    constructor
    · have := key j hj i hi; linarith
    · exact key i hi j hj

/-- The rounded mean of a buffer of 1000 entries, summed in any association. -/
theorem buffer_mean_err {fl : K → K} {ε : K} (h0 : 0 ≤ ε) (h1 : ε ≤ 1 / 4000) (h : RelRounding fl ε) {B : K} (hB : 0 ≤ B) (t : SumTree K) (b W : List K)
    (hperm : t.leaves.Perm b) (hlen : b.length = 1000) (r5 : Close (64 * (ε * B)) b W) (hwB : ∀ y ∈ W, |y| ≤ B) :
    |fl (t.evalFl fl / ((BUF : Nat) : K)) - W.sum / 1000| ≤ 2200 * (ε * B) := by
  have hεB : 0 ≤ ε * B := mul_nonneg h0 hB
  have hεB' : ε * B ≤ 1 / 4000 * B := mul_le_mul_of_nonneg_right h1 hB
  have hWlen : W.length = 1000 := by rw [← List.Forall₂.length_eq r5, hlen]
  have hl : t.leaves.length = 1000 := by rw [hperm.length_eq, hlen]
  have habs : (t.leaves.map fun x => |x|).sum ≤ 1000 * (1016 / 1000 * B) := by
    rw [(hperm.map _).sum_eq]
    have := r5.abs_sum hwB
    rw [hlen] at this
    push_cast at this
    linarith
  have hpow := one_add_pow_le h0 1000 (by push_cast; linarith)
  push_cast at hpow
  have he := evalFl_err h0 h t
  rw [hl, hperm.sum_eq] at he
  generalize (1 + ε) ^ 1000 = P at hpow he
  have habs0 : 0 ≤ (t.leaves.map fun x => |x|).sum := List.sum_nonneg (by simp only [List.mem_map]; rintro _ ⟨a, -, rfl⟩; exact abs_nonneg a)
  have he2 : |t.evalFl fl - b.sum| ≤ 2000 * ε * (1000 * (1016 / 1000 * B)) := by
    refine he.trans (mul_le_mul (by linarith) habs habs0 (by linarith))
  have hbs := r5.sum
  rw [hlen] at hbs
  push_cast at hbs
  set w := W.sum with hw
  have hwsum : |t.evalFl fl - w| ≤ 2096 * 1000 * (ε * B) := by
    have e : t.evalFl fl - w = (t.evalFl fl - b.sum) + (b.sum - w) := by ring
    rw [e]; exact (abs_add_le _ _).trans (by linarith)
  have hwle : |w| ≤ 1000 * B := by
    have := (Close.refl (le_refl (0 : K)) W).abs_sum hwB
    rw [hWlen] at this
    push_cast at this
    have h2 : |w| ≤ (W.map fun x => |x|).sum := by
      rw [hw]
      clear * -
      induction W with
      | nil => simp
      | cons a l ih => simp only [List.sum_cons, List.map_cons]; exact (abs_add_le _ _).trans (by linarith)
    linarith
  have hbuf : ((BUF : Nat) : K) = 1000 := by norm_num [BUF]
  have hdiv : |t.evalFl fl / 1000 - w / 1000| ≤ 2096 * (ε * B) := by
    rw [← sub_div, abs_div, abs_of_pos (by norm_num : (0 : K) < 1000), div_le_iff₀ (by norm_num)]
    linarith
  rw [hbuf]
  have a1 := h (t.evalFl fl / 1000)
  have a2 : |t.evalFl fl / 1000| ≤ 2 * B := by
    have e : t.evalFl fl / 1000 = (t.evalFl fl / 1000 - w / 1000) + w / 1000 := by ring
    have t1 := abs_add_le (t.evalFl fl / 1000 - w / 1000) (w / 1000)
    rw [← e] at t1
    have t2 : |w / 1000| ≤ B := by
      rw [abs_div, abs_of_pos (by norm_num : (0 : K) < 1000), div_le_iff₀ (by norm_num)]; linarith
    linarith
  have a3 := mul_le_mul_of_nonneg_left a2 h0
  have e : fl (t.evalFl fl / 1000) - w / 1000 = (fl (t.evalFl fl / 1000) - t.evalFl fl / 1000) + (t.evalFl fl / 1000 - w / 1000) := by ring
  rw [e]; exact (abs_add_le _ _).trans (by linarith)

/-- **C133.** `delta_L` in rounded arithmetic (relative error `ε ≤ 1/4000`, at most `1/ε` iterations), for samples bounded by `B`: after `k` samples (`2 ≤ k ≤ max 2 max_iters`) the returned value is within `2200 ε B`
of the value in exact arithmetic — the average of the last 1000 running means once `k > 1000`, and a thousandth of the sum of all of them if `k < 1000` — however many iterations
were made and however the final sum is associated. It stops before the budget only at a multiple of 1000 above `min_iters`. -/
theorem C133_delta_rounded (fl : K → K) (ε : K) (h0 : 0 ≤ ε) (h1 : ε ≤ 1 / 4000) (h : RelRounding fl ε) (assoc : List K → SumTree K)
    (ha : ∀ b, b ≠ [] → (assoc b).leaves.Perm b) (d : Nat → K) (B : K) (hdB : ∀ j, |d j| ≤ B) (maxI minI : Nat) (hmax : ((max 2 maxI : Nat) : K) * ε ≤ 1) (tol : K) :
    ∃ v conv k, deltaLFl fl assoc d maxI minI tol = (v, conv, k) ∧ 2 ≤ k ∧ k ≤ max 2 maxI ∧
      (1001 ≤ k → |v - (∑ i ∈ range 1000, runMean d (k - i)) / 1000| ≤ 2200 * (ε * B)) ∧
      (k = 1000 → |v - (∑ j ∈ Icc 2 1000, runMean d j) / 1000| ≤ 2200 * (ε * B)) ∧
      (k ≤ 999 → |v - (∑ j ∈ Icc 1 k, runMean d j) / 1000| ≤ 2200 * (ε * B)) ∧
      (k < maxI → minI < k ∧ k % 1000 = 0 ∧ conv = true) ∧
      (conv = true → 1001 ≤ k → ∀ i < 1000, ∀ j < 1000, |runMean d (k - i) - runMean d (k - j)| < tol / (1 - ε) + 128 * (ε * B)) := by
  have hB : 0 ≤ B := (abs_nonneg _).trans (hdB 0)
  have hεB : 0 ≤ ε * B := mul_nonneg h0 hB
  have hεB' : ε * B ≤ 1 / 4000 * B := mul_le_mul_of_nonneg_right h1 hB
  have ib : Close (64 * (ε * B)) ((List.replicate BUF (0 : K)).set 0 (d 0)) (window d 1) := by
    rw [window_one d]; exact Close.refl (by linarith) _
  obtain ⟨k, m, b, r1, r2, r3, r4, r5, r6⟩ := deltaLoopFl_spec h0 (by linarith) h hB d hdB maxI minI tol 1 0 (d 0) _ le_rfl hmax
    (by simpa using MeanInv.first h0 hB (d 0) (hdB 0)) ib
  have hlen : b.length = 1000 := by rw [List.Forall₂.length_eq r5, length_window]
  have hbne : b ≠ [] := by intro e; rw [e] at hlen; simp at hlen
  have hwB : ∀ y ∈ window d k, |y| ≤ B := by
    intro y hy
    obtain ⟨s, hs, rfl⟩ := List.mem_iff_getElem.mp hy
    rw [getElem_window]
    unfold windowSlot
    split_ifs
    · exact abs_runMean_le d B hB hdB _
    · simpa using hB
    · simpa using hB
    · exact abs_runMean_le d B hB hdB _
  have hv := buffer_mean_err h0 h1 h hB (assoc b) b (window d k) (ha b hbne) hlen r5 hwB
  set t := assoc b with ht
  refine ⟨fl (t.evalFl fl / ((BUF : Nat) : K)), rangeBelowFl fl b tol, k, ?_, by omega, by omega, ?_, ?_, ?_, r6, ?_⟩
  · simp only [deltaLFl]
    rw [deltaLoopFl, dif_pos rfl, r1]
  · intro hk; rw [← sum_window_late d k hk]; exact hv
  · intro hk
    have e : ∑ j ∈ Icc 2 1000, runMean d j = ∑ j ∈ Icc 2 k, runMean d j := by rw [hk]
    rw [e, ← sum_window_1000 d k hk]; exact hv
  · intro hk; rw [← sum_window_early d k (by omega) hk]; exact hv
  · intro hc hk i hi j hj
    have h1' : 0 < 1 - ε := by linarith
    have hp := window_perm d k hk
    have key : ∀ i < 1000, ∀ j < 1000, runMean d (k - i) - runMean d (k - j) < tol / (1 - ε) + 128 * (ε * B) := by
      intro i hi j hj
      obtain ⟨x, hx, hx'⟩ := r5.mem (runMean d (k - i)) (hp.mem_iff.mpr (List.mem_map.mpr ⟨i, List.mem_range.mpr hi, rfl⟩))
      obtain ⟨y, hy, hy'⟩ := r5.mem (runMean d (k - j)) (hp.mem_iff.mpr (List.mem_map.mpr ⟨j, List.mem_range.mpr hj, rfl⟩))
      have hxy := rangeBelowFl_lt (by linarith) h b tol hc x y hx hy
      have hxy' : x - y < tol / (1 - ε) := by rw [lt_div_iff₀ h1']; linarith
      have f1 := abs_le.mp hx'
      have f2 := abs_le.mp hy'
      linarith [f1.1, f2.2]
    rw [abs_lt]
    constructor
    · have := key j hj i hi; linarith
    · exact key i hi j hj

/-! ## Without rounding the rounded model is the exact one -/

theorem rangeBelowFl_id (b : List K) (tol : K) : rangeBelowFl (fun x => x) b tol = rangeBelow b tol := by
  cases b <;> rfl

theorem sigmaLoopFl_id (n : Nat → Nat) (maxI minI : Nat) (tol : K) (k : Nat) (cm cs m sq : K) (b : List K) :
    sigmaLoopFl (fun x => x) n maxI minI tol k cm cs m sq b = sigmaLoop n maxI minI tol k cm cs m sq b := by
  fun_induction sigmaLoop n maxI minI tol k cm cs m sq b with
  | case1 k cm cs m sq b k' nw nsq mUpd sUpd mk sk sigma b' hstop =>
    rw [sigmaLoopFl]; simp only [rangeBelowFl_id]
    exact if_pos hstop
  | case2 k cm cs m sq b k' nw nsq mUpd sUpd mk sk sigma b' hstop hm =>
    rw [sigmaLoopFl]; simp only [rangeBelowFl_id]
    exact (if_neg hstop).trans (dif_pos hm)
  | case3 k cm cs m sq b k' nw nsq mUpd sUpd mk sk sigma b' hstop hm ih =>
    rw [sigmaLoopFl]; simp only [rangeBelowFl_id]
    exact ((if_neg hstop).trans (dif_neg hm)).trans ih

/-- **C132 (exact arithmetic).** With the identity as rounding, the rounded `sigma_L` is the exact one. -/
theorem C132_sigma_exact (unfolded : List K) (mn mx : K) (hmn : IsMin unfolded mn) (hmx : IsMax unfolded mx) (L : K) (maxI : Nat) (tol : K) (minI : Nat) (U : Nat → K) :
    sigmaLFl (fun x => x) unfolded L maxI tol minI (fun j => mn + (mx - mn) * U j) = sigmaL unfolded L maxI tol minI U := by
  simp only [sigmaLFl, sigmaL, npMin_of_isMin _ _ hmn, npMax_of_isMax _ _ hmx, bind, Except.bind, pure, Except.pure, sigmaLoopFl_id, rangeBelowFl_id, uniform]
  rfl

theorem deltaLoopFl_id (d : Nat → K) (maxI minI : Nat) (tol : K) (k : Nat) (c m : K) (b : List K) :
    deltaLoop (fun j => .ok (d j)) maxI minI tol k c m b = .ok (deltaLoopFl (fun x => x) d maxI minI tol k c m b) := by
  fun_induction deltaLoopFl (fun x => x) d maxI minI tol k c m b with
  | case1 c m b ih => rw [deltaLoop]; exact ih
  | case2 k c m b hk0 k' update mc b' hmax' =>
    rw [deltaLoop]; simp only [dif_neg hk0]
    exact dif_pos hmax'
  | case3 k c m b hk0 k' update mc b' hmax' hstop =>
    rw [rangeBelowFl_id] at hstop
    rw [deltaLoop]; simp only [dif_neg hk0]
    exact (dif_neg hmax').trans (if_pos hstop)
  | case4 k c m b hk0 k' update mc b' hmax' hstop ih =>
    rw [rangeBelowFl_id] at hstop
    rw [deltaLoop]; simp only [dif_neg hk0]
    rw [← ih]
    exact (dif_neg hmax').trans (if_neg hstop)

theorem evalFl_id (t : SumTree K) : t.evalFl (fun x => x) = t.leaves.sum := by
  induction t with
  | leaf x => simp [SumTree.evalFl, SumTree.leaves]
  | node l r ihl ihr => simp only [SumTree.evalFl, SumTree.leaves, List.sum_append, ihl, ihr]

/-- **C133 (exact arithmetic).** With the identity as rounding, the rounded `delta_L` applied to the samples is the exact one, however the final sum is associated. -/
theorem C133_delta_exact (unfolded : List K) (hu : unfolded ≠ []) (L : K) (hL : 0 < L) (n : Nat) (hn : 1 ≤ n) (maxI minI : Nat) (tol : K) (useSimpson : Bool)
    (U : Nat → K) (d : Nat → K) (hd : ∀ j, d3Sample unfolded L n useSimpson (uniform (unfolded.head hu) (unfolded.getLast hu) (U j)) = .ok (d j))
    (assoc : List K → SumTree K) (ha : ∀ b, b ≠ [] → (assoc b).leaves.Perm b) :
    deltaL unfolded L n maxI minI tol useSimpson U = .ok (deltaLFl (fun x => x) assoc d maxI minI tol) := by
  obtain ⟨d', hd', k, e1, -⟩ := deltaL_spec unfolded hu L hL n hn maxI minI tol useSimpson U
  have hdd : d' = d := by
    funext j
    have := (hd' j).1
    rw [hd j] at this
    injection this with this
    exact this.symm
  have hlen : 0 < unfolded.length := List.length_pos_iff.mpr hu
  have hfun : (fun j => d3Sample unfolded L n useSimpson (uniform (unfolded.head hu) (unfolded.getLast hu) (U j))) = fun j => Except.ok (d j) := funext hd
  obtain ⟨N, g1, -⟩ := deltaLoop_zero (fun j => .ok (d j)) d (fun _ => rfl) maxI minI tol
  have g2 := deltaLoopFl_id d maxI minI tol 0 0 0 (List.replicate BUF 0)
  unfold deltaL
  simp only [pyGet_zero unfolded hlen, pyGet_neg_one unfolded hlen, bind, Except.bind, pure, Except.pure]
  have eh : unfolded[0] = unfolded.head hu := by rw [List.head_eq_getElem]
  have el : unfolded[unfolded.length - 1] = unfolded.getLast hu := by rw [List.getLast_eq_getElem]
  rw [eh, el, hfun, g2]
  simp only [deltaLFl, rangeBelowFl_id, evalFl_id]
  rw [g1] at g2
  injection g2 with g2
  rw [← g2]
  have hne : window d N ≠ [] := by intro e; have := length_window d N; rw [e] at this; simp at this
  have : mean (window d N) = (assoc (window d N)).leaves.sum / ((BUF : Nat) : K) := by
    rw [(ha _ hne).sum_eq, mean, length_window]; rfl
  rw [this]

/-! ## Concrete cases -/

/-- A rounding on `ℚ` with relative error `1/4000`: down below one, up from one on. -/
def flTest (x : ℚ) : ℚ := if x < 1 then x * (1 - 1 / 4000) else x * (1 + 1 / 4000)

theorem flTest_rel : RelRounding flTest (1 / 4000) := by
  intro x
  unfold flTest
  split_ifs with hx
  · rw [show x * (1 - 1 / 4000) - x = (-(1 / 4000)) * x by ring, abs_mul]; norm_num
  · rw [show x * (1 + 1 / 4000) - x = (1 / 4000) * x by ring, abs_mul]; norm_num

/-- C131: four summands; the computed sum is not the exact one. -/
example : |([1, 1 / 2, -3, 7].foldl (fun s x => kahanAddFl flTest s.1 x s.2) (0, 0)).1 - [1, 1 / 2, -3, 7].sum| ≤
    (8 * (1 / 4000) + 15 * (4 : Nat) * (1 / 4000) ^ 2) * ([1, 1 / 2, -3, 7].map fun x : ℚ => |x|).sum :=
  C131_kahan_sum flTest (1 / 4000) (by norm_num) (by norm_num) flTest_rel [1, 1 / 2, -3, 7] (by norm_num)

example : ([1, 1 / 2, -3, 7].foldl (fun s x => kahanAddFl flTest s.1 x s.2) ((0 : ℚ), (0 : ℚ))).1 ≠ 11 / 2 := by decide +kernel

/-- C132: a spectrum of five levels, 2000 iterations. -/
example (C : Nat → ℚ) : ∃ v conv k, sigmaLFl flTest [0, 1, 2, 2, 5] 2 2000 (1 / 10) 100 C = .ok (v, conv, k) ∧ 1 ≤ k ∧ k ≤ 2000 ∧
    |v - runVar (fun j => roundedCount flTest [0, 1, 2, 2, 5] 2 C (j + 1)) k| ≤ 300 * (1 / 4000) * 5 ^ 2 := by
  obtain ⟨v, conv, k, a, b, c, d, -⟩ := C132_sigma_rounded flTest (1 / 4000) (by norm_num) (by norm_num) flTest_rel [0, 1, 2, 2, 5] (by simp) 2 2000 (by norm_num) (1 / 10) 100 C
  exact ⟨v, conv, k, a, b, by simpa using c, by simpa using d⟩

/-- A sum from the right. -/
def sumRight : List ℚ → SumTree ℚ
  | [] => .leaf 0
  | [x] => .leaf x
  | x :: y :: l => .node (.leaf x) (sumRight (y :: l))

theorem sumRight_leaves (b : List ℚ) (hb : b ≠ []) : (sumRight b).leaves.Perm b := by
  induction b with
  | nil => exact absurd rfl hb
  | cons x l ih =>
    cases l with
    | nil => simp [sumRight, SumTree.leaves]
    | cons y l => simpa [sumRight, SumTree.leaves] using ih (by simp)

/-- C133: alternating samples, 3000 iterations. -/
example : ∃ v conv k, deltaLFl flTest sumRight (fun j => if j % 2 = 0 then 1 else 1 / 2) 3000 100 (1 / 100) = (v, conv, k) ∧ 2 ≤ k ∧ k ≤ 3000 ∧
    (1001 ≤ k → |v - (∑ i ∈ range 1000, runMean (fun j => if j % 2 = 0 then 1 else 1 / 2) (k - i)) / 1000| ≤ 2200 * (1 / 4000 * 1)) := by
  obtain ⟨v, conv, k, a, b, c, d, -⟩ := C133_delta_rounded flTest (1 / 4000) (by norm_num) (by norm_num) flTest_rel sumRight sumRight_leaves
    (fun j => if j % 2 = 0 then 1 else 1 / 2) 1 (fun j => by split_ifs <;> norm_num) 3000 100 (by norm_num) (1 / 100)
  exact ⟨v, conv, k, a, b, by simpa using c, d⟩

end Props
end Rounded
end RMT
