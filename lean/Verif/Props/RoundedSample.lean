import Verif.Lemmas.RoundedSample
import Verif.Lemmas.Rigidity
import Verif.Props.Rounded

/-! # Property C172: rigidity samples in floating point -/

namespace RMT
namespace Rounded
open Utils Rigidity Step Filter Topology Spec

variable {ι : Type} {F : Filter ι} {fl : ι → ℝ → ℝ} {ε : ι → ℝ}

theorem linspace_strict (a L : ℝ) (hL : 0 < L) (n : Nat) (hn : 2 ≤ n) (i j : Nat) (hi : i < (linspace (a - L / 2) (a + L / 2) n).length) (hj : j < (linspace (a - L / 2) (a + L / 2) n).length) (h : i < j) :
    (linspace (a - L / 2) (a + L / 2) n)[i] < (linspace (a - L / 2) (a + L / 2) n)[j] := by
  have hn1 : (0 : ℝ) < (n : ℝ) - 1 := by
    have : (2 : ℝ) ≤ n := by exact_mod_cast hn
    linarith
  rw [getElem_linspace, getElem_linspace]
  have h1 : 0 < (a + L / 2 - (a - L / 2)) / ((n : ℝ) - 1) := div_pos (by linarith) hn1
  have h2 : (i : ℝ) < j := by exact_mod_cast h
  nlinarith

theorem linspace_ascending (a L : ℝ) (hL : 0 < L) (n : Nat) (hn : 2 ≤ n) : Ascending (linspace (a - L / 2) (a + L / 2) n) :=
  List.pairwise_iff_getElem.mpr fun i j hi hj h => (linspace_strict a L hL n hn i j hi hj h).le

theorem TL.ascending {g : ι → List ℝ} {g0 : List ℝ} (hg : TL F g g0) (h : ∀ i j (hi : i < g0.length) (hj : j < g0.length), i < j → g0[i] < g0[j]) : ∀ᶠ i in F, Ascending (g i) := by
  have h1 : ∀ᶠ i in F, ∀ a b : Fin g0.length, a < b → (g i)[(a : Nat)]'(by rw [hg.len]; exact a.2) < (g i)[(b : Nat)]'(by rw [hg.len]; exact b.2) := by
    refine eventually_all.mpr fun a => eventually_all.mpr fun b => ?_
    by_cases hab : a < b
    · filter_upwards [(hg.elem a a.2).eventually_lt (hg.elem b b.2) (h a b a.2 b.2 hab)] with i hi _
      exact hi
    · exact Eventually.of_forall fun i hc => absurd hc hab
  filter_upwards [h1] with i hi
  refine List.pairwise_iff_getElem.mpr fun a b ha hb hab => ?_
  rw [hg.len] at ha hb
  exact (hi ⟨a, ha⟩ ⟨b, hb⟩ hab).le

theorem d3_lim (hp : Precise F fl ε) {assoc : ι → List ℝ → SumTree ℝ} (ha : ∀ i b, b ≠ [] → (assoc i b).leaves.Perm b) (levels : List ℝ) (hne : levels ≠ []) (hs : Ascending levels) (L c : ℝ) (hL : 0 < L)
    (n : Nat) (hn : 3 ≤ n) (simpson : Bool) (hgrid : ∀ x ∈ linspace (c - L / 2) (c + L / 2) n, ∀ e ∈ levels, e ≠ x) :
    ∃ d, d3Sample levels L n simpson c = .ok d ∧ ∀ η > 0, ∀ᶠ i in F, ∃ d', d3SampleFl (fl i) (assoc i) levels L n simpson c = .ok d' ∧ |d' - d| ≤ η := by
  set g0 := linspace (c - L / 2) (c + L / 2) n with hg0
  have hlen0 : g0.length = n := by simp [hg0]
  have hne0 : g0 ≠ [] := fun h => by rw [h] at hlen0; simp at hlen0; omega
  have hstrict := linspace_strict c L hL n (by omega)
  rw [← hg0] at hstrict
  have hc : ∀ c : ℝ, Tendsto (fun _ : ι => c) F (𝓝 c) := fun _ => tendsto_const_nhds
  have hg : TL F (fun i => linspaceFl (fl i) (fl i (c - fl i (L / 2))) (fl i (c + fl i (L / 2))) n) g0 :=
    linspaceFl_lim hp (hp.rnd ((hc c).sub (hp.rnd (hc (L / 2))))) (hp.rnd ((hc c).add (hp.rnd (hc (L / 2))))) n (by omega)
  set g := fun i => linspaceFl (fl i) (fl i (c - fl i (L / 2))) (fl i (c + fl i (L / 2))) n with hgdef
  have hgne : ∀ i, g i ≠ [] := fun i h => by
    have := hg.len i
    rw [h, hlen0] at this
    simp at this; omega
  set st : List ℝ := (g0.map (countLE levels)).map (fun m : Nat => (m : ℝ)) with hst
  have hstlen : st.length = g0.length := by simp [hst]
  have hsteps0 : stepFunctionFast levels g0 = .ok (g0.map (countLE levels)) :=
    (Props.C02_step_counts_partial levels g0 hne hne0 hs (linspace_ascending c L hL n (by omega)) (fun h => hgrid _ (List.getLast_mem hne0) _ (List.head_mem hne) h.symm)).1
  have hlast : ∀ᶠ i in F, (g i).getLast (hgne i) ≠ levels.head hne := by
    have h1 := hg.elem (n - 1) (by omega)
    have h2 : g0[n - 1]'(by omega) ≠ levels.head hne := fun h => hgrid _ (List.getElem_mem _) _ (List.head_mem hne) h.symm
    filter_upwards [h1.eventually_ne h2] with i hi
    have hl : (g i).length = n := by rw [hg.len, hlen0]
    rw [List.getLast_eq_getElem]
    simpa only [hl] using hi
  have hsteps : ∀ᶠ i in F, stepFunctionFast levels (g i) = .ok (g0.map (countLE levels)) := by
    filter_upwards [hlast, hg.ascending hstrict, counts_eventually hg levels hgrid] with i h1 h2 h3
    rw [(Props.C02_step_counts_partial levels (g i) hne (hgne i) hs h2 h1).1, h3]
  have hvar : (List.zipWith (· * ·) (g0.map (· - mean g0)) (g0.map (· - mean g0))).sum ≠ 0 := by
    intro h
    have h2 := (var_eq_zero_iff g0 hne0).mp h
    have h01 := hstrict 0 1 (by omega) (by omega) one_pos
    have e0 := h2 _ (List.getElem_mem (by omega : 0 < g0.length)) _ (List.getElem_mem (by omega : 1 < g0.length))
    rw [e0] at h01
    exact lt_irrefl _ h01
  have hstL : TL F (fun _ => st) st := TL.const st
  have hk := slopeFl_lim hp ha hg hstL hstlen.symm hvar
  have hw := hp.rnd ((hstL.meanFl hp ha).sub (hp.rnd (hk.mul (hg.meanFl hp ha))))
  have hy : TL F (fun i => sqLinDeviationFl (fl i) st (slopeFl (fl i) (assoc i) (g i) st) (interceptFl (fl i) (assoc i) (g i) st (slopeFl (fl i) (assoc i) (g i) st)) (g i))
      (sqLinDeviation st (Rigidity.slope g0 st) (intercept g0 st (Rigidity.slope g0 st)) g0) := by
    refine hstL.zipWith hg hstlen _ _ fun x y a b hx hy => ?_
    have hdev := hp.rnd ((hp.rnd (hx.sub (hp.rnd (hk.mul hy)))).sub hw)
    exact hp.rnd (hdev.mul hdev)
  have hpos : ∀ j : Nat, j < g0.length - 1 → 0 < nth (diff g0) (j : Int) := by
    intro j hj
    rw [nth_nat _ _ (by rw [length_diff]; exact hj), getElem_diff]
    exact sub_pos.mpr (hstrict _ _ _ _ (by omega))
  set y := fun i => sqLinDeviationFl (fl i) st (slopeFl (fl i) (assoc i) (g i) st) (interceptFl (fl i) (assoc i) (g i) st (slopeFl (fl i) (assoc i) (g i) st)) (g i) with hydef
  set y0 := sqLinDeviation st (Rigidity.slope g0 st) (intercept g0 st (Rigidity.slope g0 st)) g0 with hy0
  have hint : Tendsto (fun i => if simpson then intSimpsNonunifFl (fl i) (g i) (y i) else integrateFastFl (fl i) (g i) (y i)) F
      (𝓝 (if simpson then intSimpsNonunif g0 y0 else integrateFast g0 y0)) := by
    cases simpson
    · exact trapz_lim hp hg hy 0 (hc 0)
    · exact intSimps_lim hp hg hy (by omega) hpos
  have hd := hp.rnd (hint.div_const L)
  refine ⟨(if simpson then intSimpsNonunif g0 y0 else integrateFast g0 y0) / L, ?_, fun η hη => ?_⟩
  · simp only [d3Sample, ← hg0, hsteps0, Bind.bind, Except.bind, Pure.pure, Except.pure]
    rfl
  · filter_upwards [hsteps, hd.eventually (Metric.closedBall_mem_nhds _ hη)] with i h1 h2
    refine ⟨_, ?_, h2⟩
    simp only [d3SampleFl, Bind.bind, Except.bind, Pure.pure, Except.pure]
    rw [show linspaceFl (fl i) (fl i (c - fl i (L / 2))) (fl i (c + fl i (L / 2))) n = g i from rfl, h1]

theorem deltaLoopFl_congr {K : Type} [Field K] [LinearOrder K] (fl : K → K) (d d' : Nat → K) (maxI minI : Nat) (tol : K) (h : ∀ j < max 2 maxI, d j = d' j) (k : Nat) (hk : k < max 2 maxI) (c m : K) (b : List K) :
    deltaLoopFl fl d maxI minI tol k c m b = deltaLoopFl fl d' maxI minI tol k c m b := by
  have main : ∀ n k, max 2 maxI - k = n → k ≠ 0 → k < max 2 maxI → ∀ c m b, deltaLoopFl fl d maxI minI tol k c m b = deltaLoopFl fl d' maxI minI tol k c m b := by
    intro n
    induction n using Nat.strong_induction_on with
    | _ n ih =>
      intro k hn h0 hk c m b
      conv_lhs => rw [deltaLoopFl, dif_neg h0]
      conv_rhs => rw [deltaLoopFl, dif_neg h0]
      simp only [h k hk]
      by_cases hmax : k + 1 ≥ maxI
      · simp only [hmax, dite_true]
      · simp only [hmax, dite_false]
        split_ifs
        · rfl
        · exact ih (max 2 maxI - (k + 1)) (by omega) (k + 1) rfl (by omega) (by omega) _ _ _
  by_cases h0 : k = 0
  · subst h0
    conv_lhs => rw [deltaLoopFl, dif_pos rfl]
    conv_rhs => rw [deltaLoopFl, dif_pos rfl]
    simp only [h 0 hk]
    exact main _ 1 rfl (by omega) (by omega) _ _ _
  · exact main _ k rfl h0 hk c m b

theorem deltaLFl_congr {K : Type} [Field K] [LinearOrder K] (fl : K → K) (assoc : List K → SumTree K) (d d' : Nat → K) (maxI minI : Nat) (tol : K) (h : ∀ j < max 2 maxI, d j = d' j) :
    deltaLFl fl assoc d maxI minI tol = deltaLFl fl assoc d' maxI minI tol := by
  simp only [deltaLFl, deltaLoopFl_congr fl d d' maxI minI tol h 0 (by omega)]

/-! ### Exact arithmetic -/

section exact
variable {K : Type} [Field K] [LinearOrder K]

omit [LinearOrder K] in
theorem evalFl_id (t : SumTree K) : t.evalFl (fun x => x) = t.leaves.sum := by
  induction t with
  | leaf x => simp [SumTree.evalFl, SumTree.leaves]
  | node l r hl hr => simp [SumTree.evalFl, SumTree.leaves, hl, hr]

theorem sumFl_id (assoc : List K → SumTree K) (ha : ∀ b, b ≠ [] → (assoc b).leaves.Perm b) (l : List K) : sumFl (fun x => x) assoc l = l.sum := by
  simp only [sumFl]
  split_ifs with h
  · simp [h]
  · rw [evalFl_id, (ha l h).sum_eq]

theorem linspaceFl_id [IsStrictOrderedRing K] (a b : K) (n : Nat) : linspaceFl (fun x => x) a b n = linspace a b n := by
  simp only [linspaceFl, linspace]
  refine List.map_congr_left fun i _ => ?_
  split_ifs with h
  · have hn1 : (n : K) - 1 ≠ 0 := by
      have : (2 : K) ≤ n := by exact_mod_cast h.2
      have h0 : (0 : K) < n - 1 := by linarith
      exact h0.ne'
    have hkn : (n : K) = i + 1 := by rw [← h.1]; push_cast; ring
    rw [hkn] at hn1 ⊢
    field_simp
    ring
  · rfl

theorem trapz_id (g v : List K) (k : Nat) (r : K) : trapzFromFl (fun x => x) g v k r = trapzFrom g v k r := by
  induction hk : g.length - k using Nat.strong_induction_on generalizing k r with
  | _ n ih =>
    rw [trapzFrom, trapzFromFl]
    split_ifs with h
    · exact ih (g.length - (k + 1)) (by omega) (k + 1) _ rfl
    · rfl

omit [LinearOrder K] in
theorem cube_id (x : K) : cubeFl (fun x => x) x = x ^ 3 := by simp only [cubeFl]; ring

omit [LinearOrder K] in
theorem square_id (x : K) : squareFl (fun x => x) x = x ^ 2 := by simp only [squareFl]; ring

theorem simps_id (h v : List K) (N k : Nat) (r : K) : simpsFromFl (fun x => x) h v N k r = simpsFrom h v N k r := by
  induction hk : N - k using Nat.strong_induction_on generalizing k r with
  | _ n ih =>
    rw [simpsFrom, simpsFromFl]
    split_ifs with hlt
    · simp only [cube_id, square_id]
      exact ih (N - (k + 2)) (by omega) (k + 2) _ rfl
    · rfl

end exact

end Rounded

namespace Props
open Rounded Rigidity Spec Filter Topology

/-- **C172 (exact arithmetic).** With the identity as rounding, the rounded computation of a sample is the exact one, however the sums are associated. -/
theorem C172_exact {K : Type} [Field K] [LinearOrder K] [IsStrictOrderedRing K] (assoc : List K → SumTree K) (ha : ∀ b, b ≠ [] → (assoc b).leaves.Perm b) (levels : List K) (L : K) (gridsize : Nat) (useSimpson : Bool) (c : K) :
    d3SampleFl (fun x => x) assoc levels L gridsize useSimpson c = d3Sample levels L gridsize useSimpson c := by
  have hm : ∀ l : List K, meanFl (fun x => x) assoc l = mean l := fun l => by simp only [meanFl, sumFl_id assoc ha, mean]
  have hs : ∀ x y : List K, slopeFl (fun x => x) assoc x y = Rigidity.slope x y := fun x y => by simp only [slopeFl, hm, sumFl_id assoc ha, Rigidity.slope]
  have hi : ∀ x y k, interceptFl (fun x => x) assoc x y k = intercept x y k := fun x y k => by simp only [interceptFl, hm, intercept]
  have hint : ∀ g v : List K, intSimpsNonunifFl (fun x => x) g v = intSimpsNonunif g v := fun g v => by
    simp only [intSimpsNonunifFl, intSimpsNonunif, simps_id, cube_id, square_id, List.map_id']
  simp only [d3SampleFl, d3Sample, linspaceFl_id, hs, hi, hint, integrateFastFl, integrateFast, trapz_id]
  rfl

/-- The roundings of a given precision, with an association of sums. -/
def Arithmetic : Type := {p : ℝ × (ℝ → ℝ) × (List ℝ → SumTree ℝ) // 0 ≤ p.1 ∧ RelRounding p.2.1 p.1 ∧ ∀ b, b ≠ [] → (p.2.2 b).leaves.Perm b}

/-- **C172.** A rigidity sample in floating point is numerically consistent: let no level lie exactly on a point `c - L/2 + i L/(gridsize - 1)` of the grid. Then for every `η > 0` there is a precision `ε > 0` such that with every
rounding of relative error at most `ε`, and every association of the sums, the sample of `delta_L` in rounded arithmetic is within `η` of the sample in exact arithmetic. -/
theorem C172_sample (levels : List ℝ) (hne : levels ≠ []) (hs : Ascending levels) (L c : ℝ) (hL : 0 < L) (gridsize : Nat) (hg : 3 ≤ gridsize) (useSimpson : Bool)
    (hgrid : ∀ i : ℕ, i < gridsize → c - L / 2 + i * (L / (gridsize - 1)) ∉ levels) :
    ∃ d, d3Sample levels L gridsize useSimpson c = .ok d ∧ ∀ η > 0, ∃ ε > 0, ∀ fl, RelRounding fl ε → ∀ assoc : List ℝ → SumTree ℝ, (∀ b, b ≠ [] → (assoc b).leaves.Perm b) →
      ∃ d', d3SampleFl fl assoc levels L gridsize useSimpson c = .ok d' ∧ |d' - d| ≤ η := by
  have hp : Precise (comap (fun p : Arithmetic => p.1.1) (𝓝 0)) (fun p => p.1.2.1) (fun p => p.1.1) := ⟨fun p => p.2.1, tendsto_comap, fun p => p.2.2.1⟩
  obtain ⟨d, h1, h2⟩ := d3_lim hp (assoc := fun p => p.1.2.2) (fun p => p.2.2.2) levels hne hs L c hL gridsize hg useSimpson (by
    intro x hx e he hex
    obtain ⟨i, hi, rfl⟩ := List.getElem_of_mem hx
    rw [getElem_linspace] at hex
    refine hgrid i (by simpa using hi) ?_
    rw [show c + L / 2 - (c - L / 2) = L by ring] at hex
    rw [← hex]; exact he)
  refine ⟨d, h1, fun η hη => ?_⟩
  have h3 := h2 η hη
  rw [Filter.eventually_comap, Metric.eventually_nhds_iff] at h3
  obtain ⟨δ, hδ, h3⟩ := h3
  refine ⟨δ / 2, half_pos hδ, fun fl hfl assoc ha => ?_⟩
  exact h3 (y := δ / 2) (by rw [Real.dist_eq, sub_zero, abs_of_pos (half_pos hδ)]; linarith) ⟨(δ / 2, fl, assoc), (half_pos hδ).le, hfl, ha⟩ rfl

/-- **C172 (which centres).** The condition of `C172_sample` holds for all but finitely many window centres `c`. -/
theorem C172_centres (levels : List ℝ) (L : ℝ) (gridsize : Nat) : {c : ℝ | ¬ ∀ i : ℕ, i < gridsize → c - L / 2 + i * (L / (gridsize - 1)) ∉ levels}.Finite := by
  have h : {c : ℝ | ¬ ∀ i : ℕ, i < gridsize → c - L / 2 + i * (L / (gridsize - 1)) ∉ levels} ⊆
      ⋃ i ∈ Finset.range gridsize, (fun e => e + L / 2 - i * (L / (gridsize - 1))) '' {e | e ∈ levels} := by
    intro c hc
    simp only [Set.mem_ofPred_eq, not_forall, not_not] at hc
    obtain ⟨i, hi, hm⟩ := hc
    simp only [Set.mem_iUnion]
    exact ⟨i, Finset.mem_range.mpr hi, _, hm, by ring⟩
  refine Set.Finite.subset (Set.Finite.biUnion (Finset.finite_toSet _) fun i _ => Set.Finite.image _ ?_) h
  exact List.finite_toSet levels

/-- **C172 (delta_L).** The whole of `delta_L` in floating point is numerically consistent: let the window centres `C 0, C 1, …` drawn be such that no level lies exactly on a point of the grids, and let `d j` be the exact
samples. Then for every budget and every `η > 0` there is a precision `ε > 0` such that, with every rounding of relative error at most `ε` and every association of the sums, the run with every operation rounded stops after some
`k ≤ max 2 max_iters` samples with a value within `η` of what exact arithmetic gives for `k` samples. -/
theorem C172_delta (levels : List ℝ) (hne : levels ≠ []) (hs : Ascending levels) (L : ℝ) (hL : 0 < L) (gridsize : Nat) (hg : 3 ≤ gridsize) (useSimpson : Bool) (C : ℕ → ℝ)
    (hgrid : ∀ j i : ℕ, i < gridsize → C j - L / 2 + i * (L / (gridsize - 1)) ∉ levels) (maxI minI : Nat) (tol : ℝ) :
    ∃ d : ℕ → ℝ, (∀ j, d3Sample levels L gridsize useSimpson (C j) = .ok (d j)) ∧
      ∀ η > 0, ∃ ε > 0, ∀ fl, RelRounding fl ε → ∀ assoc : List ℝ → SumTree ℝ, (∀ b, b ≠ [] → (assoc b).leaves.Perm b) →
        ∀ d' : ℕ → ℝ, (∀ j, d3SampleFl fl assoc levels L gridsize useSimpson (C j) = .ok (d' j)) →
        ∃ v conv k, deltaLFl fl assoc d' maxI minI tol = (v, conv, k) ∧ 2 ≤ k ∧ k ≤ max 2 maxI ∧ (k < maxI → minI < k ∧ k % 1000 = 0 ∧ conv = true) ∧
          (1001 ≤ k → |v - (∑ i ∈ Finset.range 1000, runMean d (k - i)) / 1000| ≤ η) ∧
          (k = 1000 → |v - (∑ j ∈ Finset.Icc 2 1000, runMean d j) / 1000| ≤ η) ∧
          (k ≤ 999 → |v - (∑ j ∈ Finset.Icc 1 k, runMean d j) / 1000| ≤ η) := by
  choose d hd hlim using fun j => C172_sample levels hne hs L (C j) hL gridsize hg useSimpson (hgrid j)
  refine ⟨d, hd, fun η hη => ?_⟩
  set M := max 2 maxI with hM
  -- a bound for the first `M` samples
  obtain ⟨B, hB0, hB⟩ : ∃ B : ℝ, 0 < B ∧ ∀ j < M, |d j| ≤ B := by
    refine ⟨1 + ∑ j ∈ Finset.range M, |d j|, by have := Finset.sum_nonneg (s := Finset.range M) (f := fun j => |d j|) fun _ _ => abs_nonneg _; linarith, fun j hj => ?_⟩
    have := Finset.single_le_sum (f := fun j => |d j|) (fun _ _ => abs_nonneg _) (Finset.mem_range.mpr hj)
    linarith
  choose e he0 he using fun j => hlim j (min 1 (η / 2)) (lt_min one_pos (half_pos hη))
  -- one precision for the first `M` samples
  obtain ⟨e0, he00, he0'⟩ : ∃ e0 : ℝ, 0 < e0 ∧ ∀ j < M, e0 ≤ e j := by
    have : ∀ n : ℕ, ∃ e0 : ℝ, 0 < e0 ∧ ∀ j < n, e0 ≤ e j := by
      intro n
      induction n with
      | zero => exact ⟨1, one_pos, fun j hj => absurd hj (Nat.not_lt_zero j)⟩
      | succ n ih =>
        obtain ⟨x, hx, hx'⟩ := ih
        refine ⟨min x (e n), lt_min hx (he0 n), fun j hj => ?_⟩
        rcases Nat.lt_succ_iff_lt_or_eq.mp hj with h | h
        · exact (min_le_left _ _).trans (hx' j h)
        · rw [h]; exact min_le_right _ _
    exact this M
  have hM0 : (0 : ℝ) < M := by
    have : 2 ≤ M := le_max_left _ _
    exact_mod_cast (by omega : 0 < M)
  refine ⟨min (min e0 (1 / 4000)) (min (1 / M) (η / (2 * (2200 * (B + 1))))), by positivity, fun fl hfl assoc ha d' hd' => ?_⟩
  set ε := min (min e0 (1 / 4000)) (min (1 / M) (η / (2 * (2200 * (B + 1))))) with hε
  have hε0 : 0 < ε := by positivity
  have hε1 : ε ≤ 1 / 4000 := (min_le_left _ _).trans (min_le_right _ _)
  have hε2 : ε ≤ 1 / M := (min_le_right _ _).trans (min_le_left _ _)
  have hε3 : ε ≤ η / (2 * (2200 * (B + 1))) := (min_le_right _ _).trans (min_le_right _ _)
  have hmono : ∀ j < M, RelRounding fl (e j) := fun j hj x => (hfl x).trans (mul_le_mul_of_nonneg_right (((min_le_left _ _).trans (min_le_left _ _)).trans (he0' j hj)) (abs_nonneg _))
  have hclose : ∀ j < M, |d' j - d j| ≤ min 1 (η / 2) := by
    intro j hj
    obtain ⟨x, hx, hx'⟩ := he j fl (hmono j hj) assoc ha
    rw [hd' j] at hx
    injection hx with hx
    rwa [hx]
  -- cut the samples off after the budget
  set d'' : ℕ → ℝ := fun j => if j < M then d' j else 0 with hd''
  have hcongr : deltaLFl fl assoc d' maxI minI tol = deltaLFl fl assoc d'' maxI minI tol :=
    deltaLFl_congr fl assoc d' d'' maxI minI tol fun j hj => by simp only [hd'']; rw [if_pos hj]
  have hB' : ∀ j, |d'' j| ≤ B + 1 := by
    intro j
    simp only [hd'']
    split_ifs with hj
    · have h1 := (hclose j hj).trans (min_le_left _ _)
      have h2 := abs_sub_abs_le_abs_sub (d' j) (d j)
      linarith [hB j hj]
    · simp; linarith
  have hbudget : ((max 2 maxI : ℕ) : ℝ) * ε ≤ 1 := by
    calc (M : ℝ) * ε ≤ M * (1 / M) := mul_le_mul_of_nonneg_left hε2 hM0.le
      _ = 1 := by field_simp
  obtain ⟨v, conv, k, h1, h2, h3, h4, h5, h6, h7, -⟩ := Rounded.Props.C133_delta_rounded fl ε hε0.le hε1 hfl assoc ha d'' (B + 1) hB' maxI minI hbudget tol
  have herr : 2200 * (ε * (B + 1)) ≤ η / 2 := by
    have := mul_le_mul_of_nonneg_right hε3 (by positivity : (0 : ℝ) ≤ 2200 * (B + 1))
    calc 2200 * (ε * (B + 1)) = ε * (2200 * (B + 1)) := by ring
      _ ≤ _ := this
      _ = η / 2 := by field_simp
  have hrun : ∀ m ≤ M, |runMean d'' m - runMean d m| ≤ η / 2 := by
    intro m hm
    rcases Nat.eq_zero_or_pos m with rfl | hm0
    · simp [runMean]; linarith
    simp only [runMean]
    rw [← sub_div, ← Finset.sum_sub_distrib, abs_div, abs_of_pos (by exact_mod_cast hm0 : (0 : ℝ) < m), div_le_iff₀ (by exact_mod_cast hm0)]
    calc |∑ j ∈ Finset.range m, (d'' j - d j)| ≤ ∑ j ∈ Finset.range m, |d'' j - d j| := Finset.abs_sum_le_sum_abs _ _
      _ ≤ ∑ _j ∈ Finset.range m, η / 2 := Finset.sum_le_sum fun j hj => by
          have hj' : j < M := lt_of_lt_of_le (Finset.mem_range.mp hj) hm
          simp only [hd'', if_pos hj']
          exact (hclose j hj').trans (min_le_right _ _)
      _ = η / 2 * m := by rw [Finset.sum_const, Finset.card_range, nsmul_eq_mul]; ring
  have hsum : ∀ (s : Finset ℕ) (f : ℕ → ℕ), s.card ≤ 1000 → (∀ i ∈ s, f i ≤ M) → |(∑ i ∈ s, runMean d'' (f i)) / 1000 - (∑ i ∈ s, runMean d (f i)) / 1000| ≤ η / 2 := by
    intro s f hs' hf
    rw [← sub_div, ← Finset.sum_sub_distrib, abs_div, abs_of_pos (by norm_num : (0 : ℝ) < 1000), div_le_iff₀ (by norm_num)]
    calc |∑ i ∈ s, (runMean d'' (f i) - runMean d (f i))| ≤ ∑ i ∈ s, |runMean d'' (f i) - runMean d (f i)| := Finset.abs_sum_le_sum_abs _ _
      _ ≤ ∑ _i ∈ s, η / 2 := Finset.sum_le_sum fun i hi => hrun _ (hf i hi)
      _ = s.card * (η / 2) := by rw [Finset.sum_const, nsmul_eq_mul]
      _ ≤ 1000 * (η / 2) := mul_le_mul_of_nonneg_right (by exact_mod_cast hs') (half_pos hη).le
      _ = η / 2 * 1000 := by ring
  have htri : ∀ a b : ℝ, |v - a| ≤ 2200 * (ε * (B + 1)) → |a - b| ≤ η / 2 → |v - b| ≤ η := by
    intro a b hab hbc
    have := abs_sub_le v a b
    linarith
  refine ⟨v, conv, k, by rw [hcongr]; exact h1, h2, h3, h7, fun hk => ?_, fun hk => ?_, fun hk => ?_⟩
  · exact htri _ _ (h4 hk) (hsum (Finset.range 1000) (fun i => k - i) (by simp) fun i _ => by omega)
  · exact htri _ _ (h5 hk) (hsum (Finset.Icc 2 1000) (fun j => j) (by simp) fun i hi => by have := (Finset.mem_Icc.mp hi).2; omega)
  · exact htri _ _ (h6 hk) (hsum (Finset.Icc 1 k) (fun j => j) (by simp; omega) fun i hi => by have := (Finset.mem_Icc.mp hi).2; omega)

/-- The hypotheses of `C172_sample` are met by two levels and a window of three grid points off both; an association of sums exists. -/
example : ∃ d, d3Sample [0, 2] 1 3 true (1 : ℝ) = .ok d ∧ ∀ η > 0, ∃ ε > 0, ∀ fl, RelRounding fl ε → ∀ assoc : List ℝ → SumTree ℝ, (∀ b, b ≠ [] → (assoc b).leaves.Perm b) →
    ∃ d', d3SampleFl fl assoc [0, 2] 1 3 true 1 = .ok d' ∧ |d' - d| ≤ η :=
  C172_sample [0, 2] (by simp) (by simp [Ascending]) 1 1 one_pos 3 le_rfl true (by
    intro i hi hm
    have hi' : (i : ℝ) ≤ 2 := by exact_mod_cast (by omega : i ≤ 2)
    have hi0 : (0 : ℝ) ≤ i := Nat.cast_nonneg i
    simp only [List.mem_cons, List.not_mem_nil, or_false] at hm
    norm_num at hm
    rcases hm with h | h <;> linarith)

/-- The hypotheses of `C172_delta` are met by the same two levels, with every centre drawn equal to 1. -/
example : ∃ d : ℕ → ℝ, ∀ j, d3Sample [0, 2] 1 3 true (1 : ℝ) = .ok (d j) := by
  obtain ⟨d, h, -⟩ := C172_delta [0, 2] (by simp) (by simp [Ascending]) 1 one_pos 3 le_rfl true (fun _ => 1) (by
    intro _ i hi hm
    have hi' : (i : ℝ) ≤ 2 := by exact_mod_cast (by omega : i ≤ 2)
    have hi0 : (0 : ℝ) ≤ i := Nat.cast_nonneg i
    simp only [List.mem_cons, List.not_mem_nil, or_false] at hm
    norm_num at hm
    rcases hm with h | h <;> linarith) 2000 100 (1 / 100)
  exact ⟨d, h⟩

end Props
end RMT
