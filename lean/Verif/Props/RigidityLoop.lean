import Verif.Lemmas.DeltaL

/-!
# Properties C13-C18: the Monte-Carlo loop of the spectral rigidity

`deltaL unfolded L n maxI minI tol s U` is `delta_L`; it returns `(value, converged, iterations)`.
-/

namespace RMT
namespace Props
open Rigidity Spec Finset

variable {K : Type} [Field K] [LinearOrder K] [IsStrictOrderedRing K]

/-- **C13.** For every stream of random draws `delta_L` terminates with a result; the iteration count `k` satisfies
`2 ≤ k ≤ max 2 max_iters`; it stops before the budget only at a multiple of 1000 greater than
`min_iters`, and then reports convergence; if it reports no convergence the whole budget was used. -/
theorem C13_delta_budget (unfolded : List K) (hu : unfolded ≠ []) (L : K) (hL : 0 < L) (n : Nat)
    (hn : 1 ≤ n) (maxI minI : Nat) (tol : K) (useSimpson : Bool) (U : Nat → K) :
    ∃ v conv k, deltaL unfolded L n maxI minI tol useSimpson U = .ok (v, conv, k) ∧
      2 ≤ k ∧ k ≤ max 2 maxI ∧
      (k < maxI → minI < k ∧ k % 1000 = 0 ∧ conv = true) ∧
      (conv = false → k = max 2 maxI) := by
  obtain ⟨d, -, k, h1, h2, h3, h4, -⟩ := deltaL_spec unfolded hu L hL n hn maxI minI tol useSimpson U
  refine ⟨_, _, k, h1, h2, h3, ?_, ?_⟩
  · intro hk
    rcases h4 with h | h
    · omega
    · exact h
  · intro hc
    rcases h4 with h | ⟨_, _, h⟩
    · omega
    · rw [h] at hc; cases hc

/-- **C13 (error branch).** An empty spectrum or an empty grid raises. -/
theorem C13_delta_error (unfolded : List K) (L : K) (n : Nat) (maxI minI : Nat) (tol : K)
    (useSimpson : Bool) (U : Nat → K) (h : unfolded = [] ∨ n = 0) :
    deltaL unfolded L n maxI minI tol useSimpson U = .error .indexError := by
  unfold deltaL
  by_cases hu : unfolded = []
  · subst hu; simp [pyGet, pyIdx, bind, Except.bind]
  · have hlen : 0 < unfolded.length := List.length_pos_iff.mpr hu
    simp only [pyGet_zero unfolded hlen, pyGet_neg_one unfolded hlen, bind, Except.bind]
    rw [deltaLoop, d3Sample_error _ _ _ _ _ h]

/-- **C14 / C15 / C16 (full description of the result).**  Let `d j` be the `j`-th sample. Then `delta_L` returns, for some
iteration count `k`:
* the value is one thousandth of the sum of the last 1000 running means if `k ≥ 1001`, of the
  running means `m₂ … m₁₀₀₀` if `k = 1000`, and of `m₁ … m_k` if `k < 1000`;
* if it reports convergence, the value is within `tol` of the final running mean `m_k` (the arithmetic mean of all
  samples so far);
* if `k ≥ 1001` convergence is reported exactly if any two of the last 1000 running means differ by
  less than `tol`.
Here `m_j = runMean d j` is the arithmetic mean of the first `j` samples. -/
theorem C14_delta_value (unfolded : List K) (hu : unfolded ≠ []) (L : K) (hL : 0 < L) (n : Nat)
    (hn : 1 ≤ n) (maxI minI : Nat) (tol : K) (useSimpson : Bool) (U : Nat → K) (d : Nat → K)
    (hd : ∀ j, d3Sample unfolded L n useSimpson
      (uniform (unfolded.head hu) (unfolded.getLast hu) (U j)) = .ok (d j)) :
    ∃ v conv k, deltaL unfolded L n maxI minI tol useSimpson U = .ok (v, conv, k) ∧ 0 ≤ v ∧
      (1001 ≤ k → v = (∑ i ∈ range 1000, runMean d (k - i)) / 1000) ∧
      (k = 1000 → v = (∑ j ∈ Icc 2 1000, runMean d j) / 1000) ∧
      (k ≤ 999 → v = (∑ j ∈ Icc 1 k, runMean d j) / 1000) ∧
      (conv = true → |v - runMean d k| < tol) ∧
      (1001 ≤ k → (conv = true ↔ ∀ i < 1000, ∀ j < 1000,
        |runMean d (k - i) - runMean d (k - j)| < tol)) := by
  obtain ⟨d', hd', k, h1, h2, h3, h4, -⟩ := deltaL_spec unfolded hu L hL n hn maxI minI tol useSimpson U
  have hdd : d' = d := by
    funext j
    have := (hd' j).1
    rw [hd j] at this
    injection this with this
    exact this.symm
  subst hdd
  have hmean : mean (window d' k) = (window d' k).sum / 1000 := by
    unfold mean; rw [length_window]; norm_num
  have hnn : ∀ j, 0 ≤ runMean d' j := by
    intro j
    unfold runMean
    exact div_nonneg (Finset.sum_nonneg fun i _ => (hd' i).2) (Nat.cast_nonneg _)
  have hwin : ∀ x, x ∈ window d' k → 0 ≤ x := by
    intro x hx
    obtain ⟨s, hs, rfl⟩ := List.mem_iff_getElem.mp hx
    rw [getElem_window]
    unfold windowSlot
    split_ifs
    · exact hnn _
    · exact le_refl _
    · exact le_refl _
    · exact hnn _
  refine ⟨_, _, k, h1, ?_, ?_, ?_, ?_, ?_, ?_⟩
  · rw [hmean]
    exact div_nonneg (List.sum_nonneg hwin) (by norm_num)
  · intro hk; rw [hmean, sum_window_late d' k hk]
  · intro hk; rw [hmean, sum_window_1000 d' k hk, hk]
  · intro hk; rw [hmean, sum_window_early d' k (by omega) hk]
  · intro hc
    exact abs_mean_sub_lt _ _ hc _ (runMean_mem_window d' k k h2 (le_refl _) (by omega))
  · intro hk
    have hperm := window_perm d' k hk
    rw [rangeBelow_iff]
    constructor
    · rintro ⟨-, h⟩ i hi j hj
      have mi : runMean d' (k - i) ∈ window d' k :=
        hperm.mem_iff.mpr (List.mem_map.mpr ⟨i, List.mem_range.mpr hi, rfl⟩)
      have mj : runMean d' (k - j) ∈ window d' k :=
        hperm.mem_iff.mpr (List.mem_map.mpr ⟨j, List.mem_range.mpr hj, rfl⟩)
      have e1 := h _ mi _ mj
      have e2 := h _ mj _ mi
      rw [abs_lt]; constructor <;> linarith
    · intro h
      refine ⟨?_, ?_⟩
      · intro he
        have := length_window d' k
        rw [he] at this
        simp at this
      · intro x hx y hy
        obtain ⟨i, hi, rfl⟩ := List.mem_map.mp (hperm.mem_iff.mp hx)
        obtain ⟨j, hj, rfl⟩ := List.mem_map.mp (hperm.mem_iff.mp hy)
        have := h i (List.mem_range.mp hi) j (List.mem_range.mp hj)
        exact lt_of_le_of_lt (le_abs_self _) this

/-- **C13 (earliest stop).** For `min_iters ≥ 1000`, `delta_L` stops with success at the first multiple of 1000 above
`min_iters` (and below the budget) at which any two of the last 1000 running means differ by less than
`tol`. -/
theorem C13_delta_first_stop (unfolded : List K) (hu : unfolded ≠ []) (L : K) (hL : 0 < L) (n : Nat)
    (hn : 1 ≤ n) (maxI minI : Nat) (tol : K) (useSimpson : Bool) (U : Nat → K) (d : Nat → K)
    (hd : ∀ j, d3Sample unfolded L n useSimpson
      (uniform (unfolded.head hu) (unfolded.getLast hu) (U j)) = .ok (d j)) (hmin : 1000 ≤ minI)
    (q : Nat) (hq : minI < 1000 * q) (hqm : 1000 * q < maxI)
    (hconv : ∀ i < 1000, ∀ j < 1000, |runMean d (1000 * q - i) - runMean d (1000 * q - j)| < tol)
    (hfirst : ∀ q' < q, minI < 1000 * q' → ∃ i < 1000, ∃ j < 1000,
      tol ≤ |runMean d (1000 * q' - i) - runMean d (1000 * q' - j)|) :
    ∃ v, deltaL unfolded L n maxI minI tol useSimpson U = .ok (v, true, 1000 * q) := by
  obtain ⟨d', hd', k, h1, h2, h3, h4, h5⟩ := deltaL_spec unfolded hu L hL n hn maxI minI tol useSimpson U
  have hdd : d' = d := by
    funext j
    have := (hd' j).1
    rw [hd j] at this
    injection this with this
    exact this.symm
  subst hdd
  have hrange : ∀ m, 1001 ≤ m → (rangeBelow (window d' m) tol = true ↔ ∀ i < 1000, ∀ j < 1000,
      |runMean d' (m - i) - runMean d' (m - j)| < tol) := by
    intro m hm
    have hperm := window_perm d' m hm
    rw [rangeBelow_iff]
    constructor
    · rintro ⟨-, h⟩ i hi j hj
      have mi : runMean d' (m - i) ∈ window d' m :=
        hperm.mem_iff.mpr (List.mem_map.mpr ⟨i, List.mem_range.mpr hi, rfl⟩)
      have mj : runMean d' (m - j) ∈ window d' m :=
        hperm.mem_iff.mpr (List.mem_map.mpr ⟨j, List.mem_range.mpr hj, rfl⟩)
      have e1 := h _ mi _ mj
      have e2 := h _ mj _ mi
      rw [abs_lt]; constructor <;> linarith
    · intro h
      refine ⟨?_, ?_⟩
      · intro he
        have := length_window d' m
        rw [he] at this
        simp at this
      · intro x hx y hy
        obtain ⟨i, hi, rfl⟩ := List.mem_map.mp (hperm.mem_iff.mp hx)
        obtain ⟨j, hj, rfl⟩ := List.mem_map.mp (hperm.mem_iff.mp hy)
        have := h i (List.mem_range.mp hi) j (List.mem_range.mp hj)
        exact lt_of_le_of_lt (le_abs_self _) this
  have hstopq : Stops d' maxI minI tol (1000 * q) :=
    Or.inr ⟨hq, by omega, (hrange _ (by omega)).mpr hconv⟩
  have hk : k = 1000 * q := by
    rcases Nat.lt_trichotomy k (1000 * q) with h | h | h
    · exfalso
      rcases h4 with h6 | ⟨h6, h7, h8⟩
      · omega
      · obtain ⟨i, hi, j, hj, hle⟩ := hfirst (k / 1000) (by omega) (by omega)
        have hk' : 1000 * (k / 1000) = k := by omega
        rw [hk'] at hle
        have := (hrange k (by omega)).mp h8 i hi j hj
        exact absurd this (not_lt.mpr hle)
    · exact h
    · exact absurd hstopq (h5 _ (by omega) h)
  subst hk
  exact ⟨_, by rw [h1, (hrange _ (by omega)).mpr hconv]⟩

/-- **C15.** If `delta_L` reports convergence then the returned value is within `tol` of the final running mean, and (once
`k ≥ 1001`) any two of the last 1000 running means differ by less than `tol`. -/
theorem C15_delta_converged (unfolded : List K) (hu : unfolded ≠ []) (L : K) (hL : 0 < L) (n : Nat)
    (hn : 1 ≤ n) (maxI minI : Nat) (tol : K) (useSimpson : Bool) (U : Nat → K) (d : Nat → K)
    (hd : ∀ j, d3Sample unfolded L n useSimpson
      (uniform (unfolded.head hu) (unfolded.getLast hu) (U j)) = .ok (d j))
    (v : K) (k : Nat) (h : deltaL unfolded L n maxI minI tol useSimpson U = .ok (v, true, k)) :
    |v - runMean d k| < tol ∧
      (1001 ≤ k → ∀ i < 1000, ∀ j < 1000, |runMean d (k - i) - runMean d (k - j)| < tol) := by
  obtain ⟨v', conv, k', h1, -, -, -, -, h2, h3⟩ :=
    C14_delta_value unfolded hu L hL n hn maxI minI tol useSimpson U d hd
  rw [h] at h1
  injection h1 with h1
  rw [Prod.mk.injEq, Prod.mk.injEq] at h1
  obtain ⟨rfl, rfl, rfl⟩ := h1
  exact ⟨h2 rfl, fun hk => (h3 hk).mp rfl⟩

/-- **C11 (reported value).** The value `delta_L` reports is never negative, whatever the draws. -/
theorem C11_reported (unfolded : List K) (hu : unfolded ≠ []) (L : K) (hL : 0 < L) (n : Nat) (hn : 1 ≤ n) (maxI minI : Nat) (tol : K) (useSimpson : Bool) (U : Nat → K)
    (v : K) (conv : Bool) (k : Nat) (h : deltaL unfolded L n maxI minI tol useSimpson U = .ok (v, conv, k)) : 0 ≤ v := by
  obtain ⟨d, hd, -⟩ := deltaL_spec unfolded hu L hL n hn maxI minI tol useSimpson U
  obtain ⟨v', conv', k', h1, h2, -⟩ := C14_delta_value unfolded hu L hL n hn maxI minI tol useSimpson U d fun j => (hd j).1
  rw [h] at h1
  injection h1 with h1
  rw [Prod.mk.injEq] at h1
  rw [h1.1]
  exact h2

/-- **C16 (partial).** Once the loop has run for at least 1001 iterations the returned value is the average of
the last 1000 running means; in particular it equals `c` if all samples equal `c`. Missing: shorter
runs, where unfilled buffer slots (zeros) are averaged in and the claim is false (`C16_refuted`). -/
theorem C16_delta_average_partial (unfolded : List K) (hu : unfolded ≠ []) (L : K) (hL : 0 < L) (n : Nat)
    (hn : 1 ≤ n) (maxI minI : Nat) (tol : K) (useSimpson : Bool) (U : Nat → K) (d : Nat → K)
    (hd : ∀ j, d3Sample unfolded L n useSimpson
      (uniform (unfolded.head hu) (unfolded.getLast hu) (U j)) = .ok (d j))
    (v : K) (conv : Bool) (k : Nat)
    (h : deltaL unfolded L n maxI minI tol useSimpson U = .ok (v, conv, k)) (hk : 1001 ≤ k) :
    v = (∑ i ∈ range 1000, runMean d (k - i)) / 1000 ∧ ((∀ j, d j = d 0) → v = d 0) := by
  obtain ⟨v', conv', k', h1, -, h2, -⟩ :=
    C14_delta_value unfolded hu L hL n hn maxI minI tol useSimpson U d hd
  rw [h] at h1
  injection h1 with h1
  rw [Prod.mk.injEq, Prod.mk.injEq] at h1
  obtain ⟨rfl, rfl, rfl⟩ := h1
  refine ⟨h2 hk, fun hc => ?_⟩
  rw [h2 hk]
  have : ∀ i ∈ range 1000, runMean d (k - i) = d 0 := by
    intro i hi
    rw [Finset.mem_range] at hi
    unfold runMean
    rw [Finset.sum_congr rfl (fun j _ => hc j), Finset.sum_const, Finset.card_range, nsmul_eq_mul]
    have : ((k - i : Nat) : K) ≠ 0 := by
      have : k - i ≠ 0 := by omega
      exact_mod_cast this
    field_simp
  rw [Finset.sum_congr rfl this, Finset.sum_const, Finset.card_range, nsmul_eq_mul]
  push_cast
  field_simp

/-- **C16 (exact failure).** If all samples equal `c` and the loop runs for `k ≤ 999` iterations, the value returned is
`k c / 1000`. -/
theorem C16_delta_short_runs (unfolded : List K) (hu : unfolded ≠ []) (L : K) (hL : 0 < L) (n : Nat)
    (hn : 1 ≤ n) (maxI minI : Nat) (tol : K) (useSimpson : Bool) (U : Nat → K) (c : K)
    (hd : ∀ j, d3Sample unfolded L n useSimpson
      (uniform (unfolded.head hu) (unfolded.getLast hu) (U j)) = .ok c)
    (v : K) (conv : Bool) (k : Nat)
    (h : deltaL unfolded L n maxI minI tol useSimpson U = .ok (v, conv, k)) (hk : k ≤ 999) :
    v = k * c / 1000 := by
  obtain ⟨v', conv', k', h1, -, -, -, h2, -⟩ :=
    C14_delta_value unfolded hu L hL n hn maxI minI tol useSimpson U (fun _ => c) hd
  rw [h] at h1
  injection h1 with h1
  rw [Prod.mk.injEq, Prod.mk.injEq] at h1
  obtain ⟨rfl, rfl, rfl⟩ := h1
  rw [h2 hk]
  have : ∀ i ∈ Icc 1 k, runMean (fun _ => c) i = c := by
    intro i hi
    rw [Finset.mem_Icc] at hi
    unfold runMean
    rw [Finset.sum_const, Finset.card_range, nsmul_eq_mul]
    have : (i : K) ≠ 0 := by
      have : i ≠ 0 := by omega
      exact_mod_cast this
    field_simp
  rw [Finset.sum_congr rfl this, Finset.sum_const, Nat.card_Icc, nsmul_eq_mul]
  simp

/-- **C16 (refutation).** The returned value need not be an average of running means: for the spectrum `0, 1, 2, 5`
with every sample equal to `7/100` and `max_iters = 2` the value `2 * (7/100) / 1000` is returned. -/
theorem C16_refuted :
    ¬ ∀ (unfolded : List ℚ) (L : ℚ) (n maxI minI : Nat) (tol : ℚ) (s : Bool) (U : Nat → ℚ) (c : ℚ)
        (hu : unfolded ≠ []), 0 < L → 3 ≤ n → 1 ≤ maxI →
        (∀ j, d3Sample unfolded L n s
          (uniform (unfolded.head hu) (unfolded.getLast hu) (U j)) = .ok c) →
        ∃ conv k, deltaL unfolded L n maxI minI tol s U = .ok (c, conv, k) := by
  intro h
  have hd : ∀ j : Nat, d3Sample [(0:ℚ), 1, 2, 5] 3 5 false
      (uniform ([(0:ℚ), 1, 2, 5].head (by simp)) ([(0:ℚ), 1, 2, 5].getLast (by simp)) (1 / 5)) =
        .ok (7 / 100) := by
    intro _; decide +kernel
  obtain ⟨conv, k, hk⟩ := h [0, 1, 2, 5] 3 5 2 100 (1 / 100) false (fun _ => 1 / 5) (7 / 100)
    (by simp) (by norm_num) (by norm_num) (by norm_num) hd
  obtain ⟨v', conv', k', h1, h2, h3, -⟩ := C13_delta_budget [(0:ℚ), 1, 2, 5] (by simp) 3 (by norm_num)
    5 (by norm_num) 2 100 (1 / 100) false (fun _ => 1 / 5)
  rw [hk] at h1
  injection h1 with h1
  rw [Prod.mk.injEq, Prod.mk.injEq] at h1
  obtain ⟨-, -, rfl⟩ := h1
  have hk2 : k = 2 := by omega
  subst hk2
  have := C16_delta_short_runs [(0:ℚ), 1, 2, 5] (by simp) 3 (by norm_num) 5 (by norm_num) 2 100
    (1 / 100) false (fun _ => 1 / 5) (7 / 100) hd _ _ _ hk (by norm_num)
  norm_num at this

/-- Non-vacuity for C13-C16: a concrete run (two iterations). -/
example : ∃ conv, deltaL [(0:ℚ), 1, 2, 5] 3 5 2 100 (1 / 100) false (fun _ => 1 / 5) =
    .ok (7 / 50000, conv, 2) := by
  have hd : ∀ j : Nat, d3Sample [(0:ℚ), 1, 2, 5] 3 5 false
      (uniform ([(0:ℚ), 1, 2, 5].head (by simp)) ([(0:ℚ), 1, 2, 5].getLast (by simp)) (1 / 5)) =
        .ok (7 / 100) := by
    intro _; decide +kernel
  obtain ⟨v, conv, k, h1, h2, h3, -⟩ := C13_delta_budget [(0:ℚ), 1, 2, 5] (by simp) 3 (by norm_num)
    5 (by norm_num) 2 100 (1 / 100) false (fun _ => 1 / 5)
  have hk2 : k = 2 := by omega
  subst hk2
  have := C16_delta_short_runs [(0:ℚ), 1, 2, 5] (by simp) 3 (by norm_num) 5 (by norm_num) 2 100
    (1 / 100) false (fun _ => 1 / 5) (7 / 100) hd _ _ _ h1 (by norm_num)
  refine ⟨conv, ?_⟩
  rw [h1, this]
  norm_num

/-! ### C17: the driver -/

private theorem bne_eq_decide' (s : String) : (s != "trapz") = decide (s ≠ "trapz") := by
  by_cases h : s = "trapz" <;> simp [h]


/-- The per-`L` computation: position `i` of the result arrays is `delta_L` for `L[i]` with the
`i`-th stream of draws, whatever the execution order of the parallel loop. -/
theorem C17_parallel (order : List Nat) (unfolded L : List K) (hu : unfolded ≠ [])
    (hL : ∀ l ∈ L, 0 < l) (n : Nat) (hn : 1 ≤ n) (maxI minI : Nat) (tol : K) (useSimpson : Bool)
    (U : Nat → Nat → K) (ho : order.Perm (List.range L.length)) :
    ∃ res, deltaParallel order unfolded L n maxI minI tol useSimpson U = .ok res ∧
      res.length = L.length ∧
      ∀ i (h : i < L.length) (h' : i < res.length),
        deltaL unfolded L[i] n maxI minI tol useSimpson (U i) = .ok res[i] := by
  have hg : ∀ i, ∃ r, i < L.length → deltaL unfolded (nth L i) n maxI minI tol useSimpson (U i) = .ok r := by
    intro i
    by_cases hi : i < L.length
    · obtain ⟨v, conv, k, h, -⟩ := C13_delta_budget unfolded hu (nth L i)
        (by rw [nth_nat L i hi]; exact hL _ (List.getElem_mem _)) n hn maxI minI tol useSimpson (U i)
      exact ⟨_, fun _ => h⟩
    · exact ⟨(0, false, 0), fun h => absurd h hi⟩
  choose g hg using hg
  obtain ⟨r, h1, h2, h3⟩ := prangeWrite_ok order
    (fun i => deltaL unfolded (nth L i) n maxI minI tol useSimpson (U i)) g
    (List.replicate L.length (0, false, 0))
    (fun i hi => hg i (by simpa using ho.mem_iff.mp hi))
  rw [List.length_replicate] at h2 h3
  refine ⟨r, h1, h2, fun i hi hi' => ?_⟩
  have := h3 i
  rw [List.getElem?_eq_getElem hi', if_pos ⟨ho.mem_iff.mpr (by simpa using hi), hi⟩] at this
  rw [Option.some.inj this, ← hg i hi, nth_nat L i hi]

/-- **C17 (explicit budget).** With `max_iters > 0`, `spectral_rigidity` never raises (for a non-empty spectrum,
`gridsize ≥ 1`, positive `L`): it returns `L` itself and, in the order of `L`, for every `L[i]` the value, flag and
count computed by `delta_L` with the budget `max_iters` and `min_iters = 100`; `"trapz"` selects the trapezoid rule, every other name
Simpson's rule. -/
theorem C17_rigidity_explicit (order : List Nat) (unfolded L : List K) (hu : unfolded ≠ [])
    (hL : ∀ l ∈ L, 0 < l) (tol : K) (maxIters : Int) (hm : 0 < maxIters) (n : Nat) (hn : 1 ≤ n)
    (integration : String) (Up : Nat → K) (U : Nat → Nat → K)
    (ho : order.Perm (List.range L.length)) :
    ∃ vals conv iters,
      spectralRigidity order unfolded L tol maxIters n integration Up U = .ok (L, vals, conv, iters) ∧
      vals.length = L.length ∧ conv.length = L.length ∧ iters.length = L.length ∧
      ∀ i (h : i < L.length) (h1 : i < vals.length) (h2 : i < conv.length) (h3 : i < iters.length),
        deltaL unfolded L[i] n maxIters.toNat 100 tol (decide (integration ≠ "trapz")) (U i) =
          .ok (vals[i], conv[i], iters[i]) := by
  have hb : (integration != "trapz") = decide (integration ≠ "trapz") := by
    rw [bne_eq_decide' integration]
  obtain ⟨res, h1, h2, h3⟩ := C17_parallel order unfolded L hu hL n hn maxIters.toNat MIN_ITERS tol
    (decide (integration ≠ "trapz")) U ho
  refine ⟨res.map (·.1), res.map (·.2.1), res.map (·.2.2), ?_, by simpa using h2, by simpa using h2,
    by simpa using h2, ?_⟩
  · unfold spectralRigidity
    rw [hb]
    simp only [not_le.mpr hm, if_false, pure, Except.pure, bind, Except.bind, h1]
  · intro i h _ _ _
    simp only [List.getElem_map]
    exact h3 i h (by omega)

/-- **C17 (automatic budget).** With `max_iters ≤ 0`: an empty `L` raises `ValueError`; otherwise the pilot run of `delta_L` at the
largest `L` (grid 100, budget 10⁹, `min_iters = 1000`) decides: if it does not converge a
`ConvergenceError` is raised, and if it converges after `k` iterations the result is that of the
explicit budget `2 k`. -/
theorem C17_rigidity_auto (order : List Nat) (unfolded L : List K) (hu : unfolded ≠ [])
    (hL : ∀ l ∈ L, 0 < l) (tol : K) (maxIters : Int) (hm : maxIters ≤ 0) (n : Nat) (_hn : 1 ≤ n)
    (integration : String) (Up : Nat → K) (U : Nat → Nat → K) :
    (L = [] → spectralRigidity order unfolded L tol maxIters n integration Up U = .error .valueError) ∧
    (∀ Lmax ∈ L, (∀ l ∈ L, l ≤ Lmax) →
      ∃ v conv k, deltaL unfolded Lmax 100 1000000000 1000 tol (decide (integration ≠ "trapz")) Up =
          .ok (v, conv, k) ∧
        (conv = false →
          spectralRigidity order unfolded L tol maxIters n integration Up U = .error .convergenceError) ∧
        (conv = true →
          spectralRigidity order unfolded L tol maxIters n integration Up U =
            spectralRigidity order unfolded L tol ((2 * k : Nat) : Int) n integration Up U)) := by
  have hb : (integration != "trapz") = decide (integration ≠ "trapz") := by
    rw [bne_eq_decide' integration]
  constructor
  · rintro rfl
    unfold spectralRigidity
    simp only [hm, if_true, npMax, bind, Except.bind]
  · intro Lmax hmem hmax
    obtain ⟨v, conv, k, h1, h2, -⟩ := C13_delta_budget unfolded hu Lmax (hL _ hmem) 100 (by norm_num)
      1000000000 1000 tol (decide (integration ≠ "trapz")) Up
    have hnp : npMax L = .ok Lmax := by
      cases L with
      | nil => simp at hmem
      | cons a l =>
        simp only [npMax]
        congr 1
        exact le_antisymm (hmax _ (maxOf_mem a l)) (le_maxOf a l _ hmem)
    have h1' : deltaL unfolded Lmax RIGIDITY_GRID AUTO_MAX_ITERS (10 * MIN_ITERS) tol
        (decide (integration ≠ "trapz")) Up = .ok (v, conv, k) := h1
    refine ⟨v, conv, k, h1, ?_, ?_⟩
    · rintro rfl
      unfold spectralRigidity
      rw [hb]
      simp only [hm, if_true, hnp, bind, Except.bind, h1']
      rfl
    · rintro rfl
      unfold spectralRigidity
      rw [hb]
      have hneg : ¬ (((2 * k : Nat) : Int) ≤ 0) := by omega
      simp only [hm, if_true, hnp, bind, Except.bind, h1', hneg, if_false, pure, Except.pure,
        Int.toNat_natCast, Nat.mul_comm k 2]

/-- Non-vacuity for C17. -/
example : ([1, 0] : List Nat).Perm (List.range ([2, 3] : List ℚ).length) ∧
    ∀ l ∈ ([2, 3] : List ℚ), 0 < l := by
  refine ⟨by decide, by simp⟩

/-! ### C18: schedule independence -/

/-- **C18 (any parallel loop).** If every iteration of a `prange` loop writes a value to its own slot, the
resulting array is the same for every execution order; it holds at each index in range the value of that
iteration. -/
theorem C18_prange {β : Type} (n : Nat) (f : Nat → Py β) (g : Nat → β) (hf : ∀ i < n, f i = .ok (g i))
    (order : List Nat) (ho : order.Perm (List.range n)) (out : List β) (hout : out.length = n) :
    prangeWrite order f out = .ok ((List.range n).map g) := by
  obtain ⟨r, h1, h2, h3⟩ := prangeWrite_ok order f g out
    (fun i hi => hf i (by simpa using ho.mem_iff.mp hi))
  rw [h1]
  congr 1
  apply List.ext_getElem
  · simp [h2, hout]
  · intro i hi hi'
    have hin : i < n := by omega
    have := h3 i
    rw [List.getElem?_eq_getElem hi, if_pos ⟨ho.mem_iff.mpr (by simpa using hin), by omega⟩] at this
    rw [Option.some.inj this]
    simp

/-- **C18 (rigidity).** `spectral_rigidity` returns the same arrays for every execution order of its parallel
loop. -/
theorem C18_rigidity_schedule (order order' : List Nat) (unfolded L : List K) (hu : unfolded ≠ [])
    (hL : ∀ l ∈ L, 0 < l) (tol : K) (maxIters : Int) (n : Nat) (hn : 1 ≤ n)
    (integration : String) (Up : Nat → K) (U : Nat → Nat → K)
    (ho : order.Perm (List.range L.length)) (ho' : order'.Perm (List.range L.length)) :
    spectralRigidity order unfolded L tol maxIters n integration Up U =
      spectralRigidity order' unfolded L tol maxIters n integration Up U := by
  have hpar : ∀ budget b, deltaParallel order unfolded L n budget MIN_ITERS tol b U =
      deltaParallel order' unfolded L n budget MIN_ITERS tol b U := by
    intro budget b
    obtain ⟨r, h1, h2, h3⟩ := C17_parallel order unfolded L hu hL n hn budget MIN_ITERS tol b U ho
    obtain ⟨r', h1', h2', h3'⟩ := C17_parallel order' unfolded L hu hL n hn budget MIN_ITERS tol b U ho'
    rw [h1, h1']
    congr 1
    apply List.ext_getElem (by omega)
    intro i hi hi'
    have e := h3 i (by omega) hi
    rw [h3' i (by omega) hi'] at e
    injection e with e
    exact e.symm
  unfold spectralRigidity
  simp only [hpar]

/-- **C16 (grid version).** `_delta_grid`, the deterministic variant with prescribed window centres, returns for a non-empty spectrum, grid and list of centres the arithmetic mean of all the samples, one for each
centre, each counted once; it is non-negative, and equal to `c` if all samples are. -/
theorem C16_grid (unfolded starts : List K) (hu : unfolded ≠ []) (hs : starts ≠ []) (L : K) (hL : 0 < L) (n : Nat) (hn : 1 ≤ n) (useSimpson : Bool) :
    ∃ d : List K, d.length = starts.length ∧
      (∀ i (h : i < starts.length) (h' : i < d.length), d3Sample unfolded L n useSimpson starts[i] = .ok d[i]) ∧
      deltaGrid unfolded starts L n useSimpson = .ok (d.sum / (starts.length : K)) ∧ 0 ≤ d.sum / (starts.length : K) ∧
      ∀ c, (∀ x ∈ d, x = c) → d.sum / (starts.length : K) = c := by
  choose f hf hf0 using fun x => d3Sample_nonneg unfolded hu L hL n hn useSimpson x
  have hm : ∀ l : List K, l.mapM (d3Sample unfolded L n useSimpson) = .ok (l.map f) := by
    intro l
    induction l with
    | nil => rfl
    | cons a l ih => simp only [List.mapM_cons, hf, ih, bind, Except.bind, pure, Except.pure, List.map_cons]
  refine ⟨starts.map f, by simp, ?_, ?_, ?_, ?_⟩
  · intro i h h'
    rw [List.getElem_map, hf]
  · simp only [deltaGrid, hm, bind, Except.bind, pure, Except.pure, mean, List.length_map]
  · refine div_nonneg (List.sum_nonneg fun x hx => ?_) (Nat.cast_nonneg _)
    obtain ⟨y, -, rfl⟩ := List.mem_map.mp hx
    exact hf0 y
  · intro c hc
    have hlen : (starts.length : K) ≠ 0 := by
      have := List.length_pos_iff.mpr hs
      exact_mod_cast this.ne'
    rw [List.eq_replicate_of_mem hc, List.sum_replicate, List.length_map, nsmul_eq_mul]
    field_simp

/-- The hypotheses are met by four levels and two centres. -/
example : ∃ d : List ℚ, d.length = 2 ∧ deltaGrid ([0, 1, 2, 5] : List ℚ) [1, 2] 1 3 false = .ok (d.sum / 2) := by
  obtain ⟨d, h1, -, h2, -⟩ := C16_grid ([0, 1, 2, 5] : List ℚ) [1, 2] (by simp) (by simp) 1 (by norm_num) 3 (by norm_num) false
  exact ⟨d, h1, by simpa using h2⟩

end Props
end RMT
