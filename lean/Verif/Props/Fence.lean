import Verif.Props.PoissonLimits
import Verif.Lemmas.Fence

/-!
# Property C157: calibration of the observables on equally spaced levels

The most rigid spectrum of unit mean spacing consists of the levels `0, 1, ..., n`. On it the number variance and the rigidity have classical closed forms; the library's estimators tend to them.
-/

namespace RMT
namespace Props
open EigValsM MeasureTheory ProbabilityTheory Spec UniformM Rigidity LevelVar
open Real Set Filter Topology

/-- The levels `0, 1, ..., n`. -/
noncomputable def fence (n : ℕ) : List ℝ := (List.range (n + 1)).map fun (k : ℕ) => (k : ℝ)

theorem fence_ne (n : ℕ) : fence n ≠ [] := by simp [fence]

theorem fence_ascending (n : ℕ) : Ascending (fence n) := by
  unfold fence Ascending
  rw [List.pairwise_map]
  exact (List.pairwise_lt_range).imp fun h => by exact_mod_cast h.le

theorem fence_head (n : ℕ) : (fence n).head (fence_ne n) = 0 := by
  simp only [fence, List.range_succ_eq_map, List.map_cons, List.head_cons, Nat.cast_zero]

theorem fence_last (n : ℕ) : (fence n).getLast (fence_ne n) = n := by
  simp only [fence, List.range_succ, List.map_append, List.map_cons, List.map_nil, List.getLast_append_singleton]

theorem fence_min (n : ℕ) : Spec.IsMin (fence n) 0 := by
  refine ⟨by simp [fence], fun x hx => ?_⟩
  obtain ⟨k, -, rfl⟩ := List.mem_map.mp hx
  exact Nat.cast_nonneg k

theorem fence_max (n : ℕ) : Spec.IsMax (fence n) n := by
  refine ⟨by simp [fence], fun x hx => ?_⟩
  obtain ⟨k, hk, rfl⟩ := List.mem_map.mp hx
  have := List.mem_range.mp hk
  exact_mod_cast Nat.lt_succ_iff.mp this

theorem fence_count (n : ℕ) (p : ℝ → Prop) [DecidablePred p] : ((fence n).countP fun x => decide (p x)) = ∑ k ∈ Finset.range (n + 1), if p (pickets k ()) then 1 else 0 := by
  unfold fence
  rw [List.countP_map]
  induction n + 1 with
  | zero => simp
  | succ m ih =>
    rw [List.range_succ, List.countP_append, ih, Finset.sum_range_succ]
    simp only [pickets, List.countP_cons, List.countP_nil, Function.comp, decide_eq_true_eq, Nat.zero_add]
    congr 1

theorem fence_levelsIn (n : ℕ) (L c : ℝ) : levelsIn (fence n) L c = ∑ j ∈ Finset.range (n + 1), near (L / 2) c (pickets j ()) := by
  classical
  rw [levelsIn, countIn]
  rw [fence_count n fun z => c - L / 2 ≤ z ∧ z ≤ c + L / 2]
  push_cast
  refine Finset.sum_congr rfl fun k _ => ?_
  unfold near
  congr 1
  rw [abs_le]
  exact propext ⟨fun h => ⟨by linarith, by linarith⟩, fun h => ⟨by linarith, by linarith⟩⟩

theorem fence_stairs (n : ℕ) : (fun t => (countLE (fence n) t : ℝ)) = stairs pickets (n + 1) () := by
  funext t
  rw [countLE, fence_count n fun z => z ≤ t]
  push_cast
  rfl

/-- **C157 (number variance).** The number variance of `0, 1, ..., n` over all windows of length `L` with centres between the least and the greatest level tends to `{L} (1 - {L})`, where `{L}` is the
fractional part of `L`: it vanishes for windows of integer length. -/
theorem C157_variance (L : ℝ) (hL : 0 ≤ L) : Tendsto (fun n : ℕ => numberVariance (fence n) 0 n L) atTop (𝓝 (Int.fract L * (1 - Int.fract L))) := by
  obtain ⟨c1, c2⟩ := pickets_counts L hL
  have h := c2.sub (c1.pow 2)
  rw [add_sub_cancel_left] at h
  refine h.congr fun n => ?_
  rw [numberVariance_eq, show levelsIn (fence n) L = _ from funext fun c => fence_levelsIn n L c]

/-- **C157 (rigidity).** The average of the Dyson-Mehta statistic of `0, 1, ..., n` over all windows of length `L` with centres between the least and the greatest level tends to a value `D L` which is at most `1/12`,
at least `1/12 - 1/(4 L²)`, and equal to `1/12 - 1/(60 L²)` for integer `L`. -/
theorem C157_rigidity : ∃ D : ℝ → ℝ, (∀ L, 0 < L → 1 / 12 - 1 / (4 * L ^ 2) ≤ D L ∧ D L ≤ 1 / 12 ∧ 0 ≤ D L) ∧ (∀ m : ℕ, 0 < m → D m = 1 / 12 - 1 / (60 * (m : ℝ) ^ 2)) ∧
    ∀ L, 0 < L → ∀ Δ : ℕ → ℝ → ℝ, (∀ n c, IsDysonMehta (fence n) L c (Δ n c)) → Tendsto (fun n : ℕ => Spec.average 0 n (Δ n)) atTop (𝓝 (D L)) := by
  refine ⟨fenceRigidity, fenceRigidity_bounds, fenceRigidity_nat, fun L hL Δ hΔ => ?_⟩
  refine (pickets_rigidity L hL).congr fun n => ?_
  congr 1
  funext c
  rw [dysonMehta_eq _ _ _ _ (hΔ n c), fence_stairs]

/-- **C157 (level_number_variance).** For every list of window lengths and every `ε > 0`: for all sufficiently large `n`, with probability one over the window centres, every result of `level_number_variance` on the
levels `0, 1, ..., n` that used sufficiently many iterations is within `ε` of `{L} (1 - {L})`, for every tolerance, budget and execution order. -/
theorem C157_level_number_variance {Ω : Type} [MeasurableSpace Ω] (P : Measure Ω) [IsProbabilityMeasure P] (Ls : List ℝ) (hL : ∀ l ∈ Ls, 0 ≤ l)
    (Up : Nat → ℝ) (U : Nat → Nat → Ω → ℝ) (hU : ∀ i, UniformDraws P (U i)) (junk : Nat) (ε : ℝ) (hε : 0 < ε) :
    ∃ N : ℕ, ∀ n ≥ N, ∀ᵐ ω ∂P, ∃ M : Nat, ∀ (order : List Nat) (tol : ℝ) (maxIters : Int), order.Perm (List.range Ls.length) → 0 < maxIters →
      ∃ vs conv iters, levelNumberVariance order (fence n) Ls tol maxIters Up (fun i j => U i j ω) junk = .ok (Ls, vs, conv, iters) ∧
        vs.length = Ls.length ∧ iters.length = Ls.length ∧
        ∀ i (h : i < Ls.length) (h1 : i < vs.length) (h2 : i < iters.length),
          (M ≤ iters[i] → |vs[i] - Int.fract Ls[i] * (1 - Int.fract Ls[i])| < ε) ∧ (tol ≤ 0 → maxIters ≤ iters[i]) := by
  have hev : ∀ᶠ n : ℕ in atTop, ∀ l ∈ Ls.toFinset, |numberVariance (fence n) 0 n l - Int.fract l * (1 - Int.fract l)| < ε / 2 := by
    rw [Filter.eventually_all_finset]
    intro l hl
    have := (C157_variance l (hL l (List.mem_toFinset.mp hl)))
    have := (Metric.tendsto_nhds.mp this) (ε / 2) (by positivity)
    simpa only [Real.dist_eq] using this
  obtain ⟨N, hN⟩ := eventually_atTop.mp hev
  refine ⟨N, fun n hn => ?_⟩
  filter_upwards [C115_consistent P (fence n) 0 n (fence_min n) (fence_max n) Ls Up U hU junk] with ω hω
  obtain ⟨M, hM⟩ := hω (ε / 2) (by positivity)
  refine ⟨M, fun order tol maxIters ho hm => ?_⟩
  obtain ⟨vs, conv, iters, e1, e2, e3, e4⟩ := hM order tol maxIters ho hm
  refine ⟨vs, conv, iters, e1, e2, e3, fun i h h1 h2 => ⟨fun hk => ?_, (e4 i h h1 h2).2⟩⟩
  have a1 := (e4 i h h1 h2).1 hk
  have a2 := hN n hn Ls[i] (List.mem_toFinset.mpr (List.getElem_mem h))
  have a3 := abs_sub_le vs[i] (numberVariance (fence n) 0 n Ls[i]) (Int.fract Ls[i] * (1 - Int.fract Ls[i]))
  linarith

/-- **C157 (spectral_rigidity).** For every list of window lengths and every `ε > 0`: for all sufficiently large `n` and every sufficiently fine grid, with probability one, every result of `spectral_rigidity` on the levels
`0, 1, ..., n` that used sufficiently many iterations is between `1/12 - 1/(4 L²) - ε` and `1/12 + ε`, and within `ε` of `1/12 - 1/(60 L²)` when `L` is an integer. -/
theorem C157_spectral_rigidity {Ω : Type} [MeasurableSpace Ω] (P : Measure Ω) [IsProbabilityMeasure P] (Ls : List ℝ) (hL : ∀ l ∈ Ls, 0 < l) (integration : String)
    (Up : Nat → ℝ) (U : Nat → Nat → Ω → ℝ) (hU : ∀ i, UniformDraws P (U i)) (ε : ℝ) (hε : 0 < ε) :
    ∃ N : ℕ, ∀ n ≥ N, ∃ G : Nat, ∀ gridsize, G ≤ gridsize → ∀ᵐ ω ∂P, ∃ M : Nat, ∀ (order : List Nat) (tol : ℝ) (maxIters : Int), order.Perm (List.range Ls.length) → 0 < maxIters →
      ∃ vs conv iters, spectralRigidity order (fence n) Ls tol maxIters gridsize integration Up (fun i j => U i j ω) = .ok (Ls, vs, conv, iters) ∧
        vs.length = Ls.length ∧ iters.length = Ls.length ∧
        ∀ i (h : i < Ls.length) (h1 : i < vs.length) (h2 : i < iters.length),
          (M ≤ iters[i] → (1 / 12 - 1 / (4 * Ls[i] ^ 2) - ε < vs[i] ∧ vs[i] < 1 / 12 + ε) ∧ ∀ m : ℕ, Ls[i] = m → |vs[i] - (1 / 12 - 1 / (60 * (m : ℝ) ^ 2))| < ε) ∧ (tol ≤ 0 → maxIters ≤ iters[i]) := by
  obtain ⟨D, D1, D2, D3⟩ := C157_rigidity
  have hex : ∀ (n : ℕ) (L c : ℝ), ∃ d, 0 < L → IsDysonMehta (fence n) L c d := by
    intro n L c
    by_cases h : 0 < L
    · obtain ⟨A, B, h1, -⟩ := C107_sample (fence n) (fence_ne n) (fence_ascending n) L c h
      refine ⟨lineDeviation (fence n) L c A B, fun _ => ⟨⟨(A, B), rfl⟩, ?_⟩⟩
      rintro _ ⟨p, rfl⟩
      exact h1 p.1 p.2
    · exact ⟨0, fun h2 => absurd h2 h⟩
  choose Δ hΔ using hex
  have hev : ∀ᶠ n : ℕ in atTop, ∀ l ∈ Ls.toFinset, |Spec.average 0 n (Δ n l) - D l| < ε / 2 := by
    rw [Filter.eventually_all_finset]
    intro l hl
    have hl0 := hL l (List.mem_toFinset.mp hl)
    have := D3 l hl0 (fun n => Δ n l) fun n c => hΔ n l c hl0
    have := (Metric.tendsto_nhds.mp this) (ε / 2) (by positivity)
    simpa only [Real.dist_eq] using this
  obtain ⟨N, hN⟩ := eventually_atTop.mp hev
  refine ⟨N, fun n hn => ?_⟩
  obtain ⟨G, hG⟩ := C116_rigidity P (fence n) (fence_ne n) (fence_ascending n) Ls hL integration Up U hU (Δ n) (fun l hl c => hΔ n l c (hL l hl)) (ε / 2) (by positivity)
  refine ⟨G, fun g hg => ?_⟩
  filter_upwards [hG g hg] with ω ⟨M, hM⟩
  refine ⟨M, fun order tol maxIters ho hm => ?_⟩
  obtain ⟨vs, conv, iters, e1, e2, e3, e4⟩ := hM order tol maxIters ho hm
  refine ⟨vs, conv, iters, e1, e2, e3, fun i h h1 h2 => ⟨fun hk => ?_, (e4 i h h1 h2).2⟩⟩
  have a1 := (e4 i h h1 h2).1 hk
  rw [fence_head, fence_last] at a1
  have a2 := hN n hn Ls[i] (List.mem_toFinset.mpr (List.getElem_mem h))
  have a3 := abs_sub_le vs[i] (Spec.average 0 n (Δ n Ls[i])) (D Ls[i])
  have a4 : |vs[i] - D Ls[i]| < ε := by linarith
  have hp := hL _ (List.getElem_mem h)
  obtain ⟨b1, b2, -⟩ := D1 _ hp
  obtain ⟨c1, c2⟩ := abs_lt.mp a4
  refine ⟨⟨by linarith, by linarith⟩, fun m hm => ?_⟩
  rw [hm] at hp a4
  rwa [D2 m (by exact_mod_cast hp)] at a4

/-- The limits for a window of length `5/2`: number variance `1/4`; for a window of length `2`: number variance `0`, rigidity `1/12 - 1/240 = 19/240`. -/
example : Tendsto (fun n : ℕ => numberVariance (fence n) 0 n (5 / 2)) atTop (𝓝 (1 / 4)) ∧ Tendsto (fun n : ℕ => numberVariance (fence n) 0 n 2) atTop (𝓝 0) := by
  have h1 := C157_variance (5 / 2) (by norm_num)
  have h2 := C157_variance 2 (by norm_num)
  have f1 : Int.fract (5 / 2 : ℝ) = 1 / 2 := by
    rw [Int.fract_eq_iff]
    exact ⟨by norm_num, by norm_num, 2, by norm_num⟩
  have f2 : Int.fract (2 : ℝ) = 0 := by
    rw [Int.fract_eq_iff]
    exact ⟨by norm_num, by norm_num, 2, by norm_num⟩
  rw [f1] at h1
  rw [f2] at h2
  norm_num at h1 h2
  exact ⟨by simpa only [one_div] using h1, h2⟩

/-- The hypotheses are met: draws exist. -/
example : ∃ (Ω : Type) (_ : MeasurableSpace Ω) (P : Measure Ω) (_ : IsProbabilityMeasure P) (U : Nat → Nat → Ω → ℝ), (∀ i, UniformDraws P (U i)) ∧
    ∀ ε > 0, ∃ N : ℕ, ∀ n ≥ N, ∀ᵐ ω ∂P, ∃ M : Nat, ∀ maxIters : Int, 0 < maxIters →
      ∃ vs conv iters, levelNumberVariance [0] (fence n) [2] 0 maxIters (fun _ => 1) (fun i j => U i j ω) 0 = .ok ([2], vs, conv, iters) ∧ (∀ h1 : 0 < vs.length, ∀ h2 : 0 < iters.length, M ≤ iters[0] → |vs[0]| < ε) := by
  obtain ⟨Ω, m, P, hP, X, hX⟩ := draws_exist
  refine ⟨Ω, m, P, hP, X, hX, fun ε hε => ?_⟩
  obtain ⟨N, hN⟩ := C157_level_number_variance P [2] (by simp) (fun _ => 1) X hX 0 ε hε
  refine ⟨N, fun n hn => ?_⟩
  filter_upwards [hN n hn] with ω ⟨M, hM⟩
  refine ⟨M, fun mi hmi => ?_⟩
  obtain ⟨vs, conv, iters, e1, -, -, e4⟩ := hM [0] 0 mi (by simp) hmi
  refine ⟨vs, conv, iters, e1, fun h1 h2 hk => ?_⟩
  have := (e4 0 (by simp) h1 h2).1 hk
  have f2 : Int.fract (2 : ℝ) = 0 := by
    rw [Int.fract_eq_iff]
    exact ⟨by norm_num, by norm_num, 2, by norm_num⟩
  simp only [List.getElem_cons_zero, f2, zero_mul, sub_zero] at this
  exact this

end Props
end RMT
