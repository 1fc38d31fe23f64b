import Verif.Props.Delta3
import Verif.Props.Consistency
import Verif.Props.RigiditySample

/-!
# Property C116: `spectral_rigidity` estimates the mean Dyson-Mehta statistic
-/

namespace RMT
namespace Delta3
open Rigidity Step Spec

/-- A weighted Simpson sum is at most twice the plain sum. -/
theorem pairs_bound (δ : ℝ) (hδ : 0 ≤ δ) (v : Nat → ℝ) (hv : ∀ i, 0 ≤ v i) (m : Nat) :
    pairs δ v m + δ * v (2 * m) ≤ 2 * δ * ∑ i ∈ Finset.range (2 * m + 1), v i := by
  induction m with
  | zero =>
    simp [pairs]
    nlinarith [mul_nonneg hδ (hv 0)]
  | succ m ih =>
    rw [pairs, Finset.sum_range_succ, ← pairs, show 2 * (m + 1) = 2 * m + 1 + 1 by ring, Finset.sum_range_succ _ (2 * m + 1 + 1), Finset.sum_range_succ _ (2 * m + 1)]
    have h0 := mul_nonneg hδ (hv (2 * m))
    have h1 := mul_nonneg hδ (hv (2 * m + 1))
    have h2 := mul_nonneg hδ (hv (2 * m + 2))
    nlinarith

theorem simps_bound (n : Nat) (δ : ℝ) (hδ : 0 ≤ δ) (v : Nat → ℝ) (hv : ∀ i, 0 ≤ v i) :
    pairs δ v (n / 2) + (if n % 2 = 1 then δ / 12 * (5 * v n + 8 * v (n - 1) - v (n - 2)) else 0) ≤ 2 * δ * ∑ i ∈ Finset.range (n + 1), v i := by
  have h := pairs_bound δ hδ v hv (n / 2)
  have a0 := fun i => mul_nonneg hδ (hv i)
  split_ifs with hn
  · have e : n = 2 * (n / 2) + 1 := by omega
    generalize hm : n / 2 = m at *
    subst e
    rw [Finset.sum_range_succ]
    have e1 : 2 * m + 1 - 1 = 2 * m := by omega
    rw [e1]
    have h1 := a0 (2 * m)
    have h2 := a0 (2 * m + 1)
    have h3 := a0 (2 * m + 1 - 2)
    nlinarith
  · have e : n = 2 * (n / 2) := by omega
    rw [← e] at h
    have := a0 n
    linarith

theorem trapz_bound (n : Nat) (δ : ℝ) (hδ : 0 ≤ δ) (v : Nat → ℝ) (hv : ∀ i, 0 ≤ v i) :
    ∑ i ∈ Finset.range n, δ / 2 * (v i + v (i + 1)) + δ * v n ≤ 2 * δ * ∑ i ∈ Finset.range (n + 1), v i := by
  induction n with
  | zero =>
    have := mul_nonneg hδ (hv 0)
    simp
    linarith
  | succ n ih =>
    rw [Finset.sum_range_succ, Finset.sum_range_succ _ (n + 1)]
    have h1 := mul_nonneg hδ (hv n)
    have h2 := mul_nonneg hδ (hv (n + 1))
    nlinarith

/-- The equally spaced grid of a window. -/
theorem linspace_tab (L : ℝ) (n : Nat) : linspace (-(L / 2)) (L / 2) (n + 1) = tab n fun i => -(L / 2) + i * (L / n) := by
  unfold linspace tab
  apply List.map_congr_left
  intro i _
  push_cast
  rw [add_sub_cancel_right]
  ring

/-- A rigidity sample is bounded independently of the grid. -/
theorem fromCounts_bound (L : ℝ) (hL : 0 < L) (n : Nat) (hn : 2 ≤ n) (s : Bool) (v : Nat → ℝ) (N : ℝ) (hv : ∀ i, i ≤ n → 0 ≤ v i ∧ v i ≤ N) :
    fromCounts L (n + 1) s (tab n v) ≤ 4 * N ^ 2 := by
  have hn0 : (0 : ℝ) < n := by positivity
  have hδ : 0 ≤ L / n := by positivity
  have hstep : ∀ i < n, (-(L / 2) + ((i + 1 : Nat) : ℝ) * (L / n)) - (-(L / 2) + (i : ℝ) * (L / n)) = L / n := by
    intro i _
    push_cast
    ring
  set x : Nat → ℝ := fun i => -(L / 2) + (i : ℝ) * (L / n) with hx
  have hopt := Props.C07_line_optimal (tab n x) (tab n v) (by simp [tab]) (by simp [tab]) 0 0
  unfold fromCounts
  simp only [linspace_tab, ← hx]
  set k := Rigidity.slope (tab n x) (tab n v) with hk
  set w := intercept (tab n x) (tab n v) k with hw
  clear_value k w
  simp only [sqLinDeviation, zipWith_tab]
  set y : Nat → ℝ := fun i => (v i - k * x i - w) * (v i - k * x i - w) with hy
  have hy0 : ∀ i, 0 ≤ y i := fun i => mul_self_nonneg _
  have hsum : ∑ i ∈ Finset.range (n + 1), y i ≤ (n + 1) * N ^ 2 := by
    have e1 : Spec.sse (tab n x) (tab n v) k w = ∑ i ∈ Finset.range (n + 1), y i := by
      unfold Spec.sse
      rw [zipWith_tab, sum_tab]
      exact Finset.sum_congr rfl fun i _ => by simp only [hy]; ring
    have e2 : Spec.sse (tab n x) (tab n v) 0 0 = ∑ i ∈ Finset.range (n + 1), v i ^ 2 := by
      unfold Spec.sse
      rw [zipWith_tab, sum_tab]
      exact Finset.sum_congr rfl fun i _ => by ring
    rw [e1, e2] at hopt
    refine hopt.trans ?_
    have : ∑ i ∈ Finset.range (n + 1), v i ^ 2 ≤ ∑ i ∈ Finset.range (n + 1), N ^ 2 := by
      apply Finset.sum_le_sum
      intro i hi
      obtain ⟨h1, h2⟩ := hv i (by have := Finset.mem_range.mp hi; omega)
      exact pow_le_pow_left₀ h1 h2 2
    simpa using this
  have hrule : (if s = true then intSimpsNonunif (tab n x) (tab n y) else integrateFast (tab n x) (tab n y)) ≤ 2 * (L / n) * ∑ i ∈ Finset.range (n + 1), y i := by
    cases s with
    | true =>
      simp only [if_true]
      rw [simps_tab n hn x y (L / n) hstep]
      exact simps_bound n _ hδ y hy0
    | false =>
      simp only [Bool.false_eq_true, if_false]
      rw [trapz_tab n x y (L / n) hstep]
      have := trapz_bound n _ hδ y hy0
      have := mul_nonneg hδ (hy0 n)
      linarith
  rw [div_le_iff₀ hL]
  refine hrule.trans ?_
  have h1 : 2 * (L / n) * ∑ i ∈ Finset.range (n + 1), y i ≤ 2 * (L / n) * ((n + 1) * N ^ 2) := mul_le_mul_of_nonneg_left hsum (by positivity)
  refine h1.trans ?_
  have h2 : (n : ℝ) + 1 ≤ 2 * n := by
    have : (1 : ℝ) ≤ n := by exact_mod_cast (by omega : 1 ≤ n)
    linarith
  have h3 : 2 * (L / n) * ((n + 1) * N ^ 2) ≤ 2 * (L / n) * ((2 * n) * N ^ 2) := by gcongr
  refine h3.trans (le_of_eq ?_)
  field_simp
  ring

theorem d3Sample_bound (levels : List ℝ) (hne : levels ≠ []) (hs : Ascending levels) (L : ℝ) (hL : 0 < L) (n : Nat) (hn : 3 ≤ n) (s : Bool) (c d : ℝ) (h : d3Sample levels L n s c = .ok d) :
    |d| ≤ 4 * (levels.length : ℝ) ^ 2 := by
  obtain ⟨d', h1, h2⟩ := d3Sample_nonneg levels hne L hL n (by omega) s c
  rw [h] at h1
  cases h1
  rw [abs_of_nonneg h2]
  obtain ⟨m, rfl⟩ : ∃ m, n = m + 1 := ⟨n - 1, by omega⟩
  have hlen : linspace (c - L / 2) (c + L / 2) (m + 1) ≠ [] := by
    intro h
    have := length_linspace (c - L / 2) (c + L / 2) (m + 1)
    rw [h] at this
    simp at this
  obtain ⟨ret, g1, g2, g3⟩ := Props.C01_step_array levels (linspace (c - L / 2) (c + L / 2) (m + 1)) hne hlen hs
  rw [d3Sample_counts levels L (m + 1) (by omega) s c ret g1] at h
  cases h
  have e : ret.map (fun k : Nat => (k : ℝ)) = tab m fun i => (countAt levels hne L m i c : ℝ) := by
    apply List.ext_getElem
    · simp [g2, tab_length]
    · intro i hi hi'
      simp only [List.getElem_map, g3, tab, List.getElem_range]
      rfl
  rw [e]
  exact fromCounts_bound L hL m (by omega) s _ _ fun i _ => ⟨Nat.cast_nonneg _, by exact_mod_cast countAt_le levels hne L m i c⟩

end Delta3

namespace Props
open Rigidity Spec Delta3 MeasureTheory

/-- `d` is the Dyson-Mehta statistic of the window of length `L` centred at `c`: the least value, over all straight lines, of the mean square deviation of the counting function from the line. -/
def IsDysonMehta (levels : List ℝ) (L c d : ℝ) : Prop := IsLeast (Set.range fun p : ℝ × ℝ => lineDeviation levels L c p.1 p.2) d

/-- **C116 (grid).** As the grid is refined, the average of the rigidity samples over the window centres converges to the average of the Dyson-Mehta statistic. -/
theorem C116_grid (levels : List ℝ) (hne : levels ≠ []) (hs : Ascending levels) (L : ℝ) (hL : 0 < L) (useSimpson : Bool) (Δ : ℝ → ℝ) (hΔ : ∀ c, IsDysonMehta levels L c (Δ c))
    (D : Nat → ℝ → ℝ) (hD : ∀ n c, 1 ≤ n → d3Sample levels L n useSimpson c = .ok (D n c)) :
    Filter.Tendsto (fun n => average (levels.head hne) (levels.getLast hne) (D n)) Filter.atTop (nhds (average (levels.head hne) (levels.getLast hne) Δ)) := by
  have hlim : ∀ c, Filter.Tendsto (fun n => D n c) Filter.atTop (nhds (Δ c)) := by
    intro c
    obtain ⟨A, B, h1, h2⟩ := C107_sample levels hne hs L c hL
    have : Δ c = lineDeviation levels L c A B := by
      apply (hΔ c).unique
      refine ⟨⟨(A, B), rfl⟩, ?_⟩
      rintro _ ⟨p, rfl⟩
      exact h1 p.1 p.2
    rw [this, Metric.tendsto_atTop]
    intro ε hε
    obtain ⟨G, hG⟩ := h2 useSimpson ε hε
    refine ⟨G + 1, fun n hn => ?_⟩
    obtain ⟨d, e1, e2⟩ := hG n (by omega)
    rw [hD n c (by omega)] at e1
    cases e1
    exact e2
  have hmeas : ∀ n, 1 ≤ n → Measurable (D n) := by
    intro n hn
    obtain ⟨D', h1, h2, -⟩ := d3Sample_measurable levels hne hs L n hn useSimpson
    have : D' = D n := by
      funext c
      have := h1 c
      rw [hD n c hn] at this
      exact (Except.ok.inj this).symm
    rwa [← this]
  simp only [← Draws.average_eq]
  have : ∀ᶠ n : Nat in Filter.atTop, 3 ≤ n := Filter.eventually_ge_atTop 3
  refine tendsto_integral_filter_of_dominated_convergence (fun _ => 4 * (levels.length : ℝ) ^ 2) ?_ ?_ (integrable_const _) ?_
  · filter_upwards [this] with n hn
    exact ((hmeas n (by omega)).comp (Draws.uniform_measurable _ _)).aestronglyMeasurable
  · filter_upwards [this] with n hn
    refine Filter.Eventually.of_forall fun u => ?_
    rw [Real.norm_eq_abs]
    exact d3Sample_bound levels hne hs L hL n hn useSimpson _ _ (hD n _ (by omega))
  · exact Filter.Eventually.of_forall fun u => hlim _

/-- **C116.** Let `Δ l c` be the Dyson-Mehta statistic of the window of length `l` centred at `c`. For every `ε > 0`, every sufficiently fine grid, and with probability one, every result of `spectral_rigidity` that used sufficiently many iterations is within `ε` of the average of `Δ l` over
all window centres between the least and greatest level: for every list of window lengths, both integration rules, every tolerance, budget and execution order. -/
theorem C116_rigidity {Ω : Type} [MeasurableSpace Ω] (P : Measure Ω) [IsProbabilityMeasure P] (levels : List ℝ) (hne : levels ≠ []) (hs : Ascending levels) (Ls : List ℝ) (hL : ∀ l ∈ Ls, 0 < l)
    (integration : String) (Up : Nat → ℝ) (U : Nat → Nat → Ω → ℝ) (hU : ∀ i, UniformDraws P (U i)) (Δ : ℝ → ℝ → ℝ) (hΔ : ∀ l ∈ Ls, ∀ c, IsDysonMehta levels l c (Δ l c)) (ε : ℝ) (hε : 0 < ε) :
    ∃ G : Nat, ∀ gridsize, G ≤ gridsize → ∀ᵐ ω ∂P, ∃ M : Nat, ∀ (order : List Nat) (tol : ℝ) (maxIters : Int), order.Perm (List.range Ls.length) → 0 < maxIters →
      ∃ vals conv iters, spectralRigidity order levels Ls tol maxIters gridsize integration Up (fun i j => U i j ω) = .ok (Ls, vals, conv, iters) ∧
        vals.length = Ls.length ∧ iters.length = Ls.length ∧
        ∀ i (h : i < Ls.length) (h1 : i < vals.length) (h2 : i < iters.length),
          (M ≤ iters[i] → |vals[i] - average (levels.head hne) (levels.getLast hne) (Δ Ls[i])| < ε) ∧ (tol ≤ 0 → maxIters ≤ iters[i]) := by
  have hex : ∀ (n : Nat) (l c : ℝ), ∃ d, l ∈ Ls → 1 ≤ n → d3Sample levels l n (decide (integration ≠ "trapz")) c = .ok d := by
    intro n l c
    by_cases h : l ∈ Ls ∧ 1 ≤ n
    · obtain ⟨d, h1, -⟩ := d3Sample_nonneg levels hne l (hL l h.1) n h.2 (decide (integration ≠ "trapz")) c
      exact ⟨d, fun _ _ => h1⟩
    · exact ⟨0, fun h1 h2 => absurd ⟨h1, h2⟩ h⟩
  choose D hD using hex
  have hG : ∀ i, ∃ G : Nat, ∀ h : i < Ls.length, ∀ n, G ≤ n → |average (levels.head hne) (levels.getLast hne) (D n Ls[i]) - average (levels.head hne) (levels.getLast hne) (Δ Ls[i])| < ε / 2 := by
    intro i
    by_cases h : i < Ls.length
    · have := C116_grid levels hne hs Ls[i] (hL _ (List.getElem_mem h)) (decide (integration ≠ "trapz")) (Δ Ls[i]) (hΔ _ (List.getElem_mem h)) (fun n => D n Ls[i])
        (fun n c hn => hD n _ c (List.getElem_mem h) hn)
      rw [Metric.tendsto_atTop] at this
      obtain ⟨G, hG⟩ := this (ε / 2) (by linarith)
      exact ⟨G, fun _ n hn => hG n hn⟩
    · exact ⟨0, fun h' => absurd h' h⟩
  choose G hG using hG
  refine ⟨(Finset.range Ls.length).sup G + 1, fun gridsize hg => ?_⟩
  filter_upwards [C114_consistent P levels hne hs Ls hL gridsize (by omega) integration Up U hU (D gridsize) (fun l hl c => hD gridsize l c hl (by omega))] with ω hω
  obtain ⟨M, hM⟩ := hω (ε / 2) (by linarith)
  refine ⟨M, fun order tol maxIters ho hm => ?_⟩
  obtain ⟨vals, conv, iters, e1, e2, e3, e4⟩ := hM order tol maxIters ho hm
  refine ⟨vals, conv, iters, e1, e2, e3, fun i h h1 h2 => ?_⟩
  obtain ⟨f1, f2⟩ := e4 i h h1 h2
  refine ⟨fun hk => ?_, f2⟩
  have g1 := f1 hk
  have g2 := hG i h gridsize (le_trans (Finset.le_sup (f := G) (Finset.mem_range.mpr h)) (by omega))
  rw [abs_lt] at *
  constructor <;> linarith [g1.1, g1.2, g2.1, g2.2]

/-- Non-vacuity of C116: the Dyson-Mehta statistic exists for every window. -/
example : ∃ Δ : ℝ → ℝ → ℝ, ∀ l ∈ [(1 : ℝ), 2], ∀ c, IsDysonMehta [0, 1, 1, 3] l c (Δ l c) := by
  have : ∀ l c : ℝ, ∃ d, 0 < l → IsDysonMehta [0, 1, 1, 3] l c d := by
    intro l c
    by_cases h : 0 < l
    · obtain ⟨A, B, h1, -⟩ := C107_sample [0, 1, 1, 3] (by simp) (by simp [Ascending]) l c h
      exact ⟨_, fun _ => ⟨⟨(A, B), rfl⟩, by rintro _ ⟨p, rfl⟩; exact h1 p.1 p.2⟩⟩
    · exact ⟨0, fun h' => absurd h' h⟩
  choose Δ hΔ using this
  refine ⟨Δ, fun l hl c => hΔ l c ?_⟩
  simp at hl
  rcases hl with rfl | rfl <;> norm_num

end Props
end RMT
