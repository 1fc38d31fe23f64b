import Verif.Props.SampleSize
import Verif.Lemmas.Maximal

/-!
# Property C160: the error of the Monte-Carlo observables under every stopping rule

One exceptional event of small probability outside of which every run on these draws — with any tolerance, budget, automatic budget, order of execution — is accurate.
-/

namespace RMT
namespace Props
open Rigidity LevelVar Spec MeasureTheory Draws Real

variable {Ω : Type} [MeasurableSpace Ω] (P : Measure Ω) [IsProbabilityMeasure P]

/-- The results of `level_number_variance`, with an explicit or an automatic budget. -/
theorem levelvar_result (levels : List ℝ) (lo hi : ℝ) (hlo : Spec.IsMin levels lo) (hhi : Spec.IsMax levels hi) (Ls : List ℝ) (order : List Nat) (tol : ℝ) (maxIters : Int) (Up : Nat → ℝ) (U : Nat → Nat → ℝ) (junk : Nat) (ho : order.Perm (List.range Ls.length))
    (vals : List ℝ) (conv : List Bool) (iters : List Nat) (hr : levelNumberVariance order levels Ls tol maxIters Up U junk = .ok (Ls, vals, conv, iters)) (i : ℕ) (h : i < Ls.length) :
    ∃ (h1 : i < vals.length) (h2 : i < iters.length), vals[i] = runVar (fun j => levelsIn levels Ls[i] (uniform lo hi (U i (j + 1)))) iters[i] ∧ 1 ≤ iters[i] ∧
      (maxIters ≤ 0 ∨ 500 ≤ maxIters → 500 ≤ iters[i]) := by
  have hne : levels ≠ [] := List.ne_nil_of_mem hlo.1
  have main : ∀ b : ℕ, 0 < b → levelNumberVariance order levels Ls tol b Up U junk = .ok (Ls, vals, conv, iters) →
      ∃ (h1 : i < vals.length) (h2 : i < iters.length), vals[i] = runVar (fun j => levelsIn levels Ls[i] (uniform lo hi (U i (j + 1)))) iters[i] ∧ 1 ≤ iters[i] ∧ (500 ≤ b → 500 ≤ iters[i]) := by
    intro b hb hr
    obtain ⟨vals', conv', iters', e1, e2, e3, e4, e5⟩ := C20_levelvar_explicit order levels Ls hne tol b (by exact_mod_cast hb) Up U junk ho
    rw [hr] at e1
    injection e1 with e1
    rw [Prod.mk.injEq, Prod.mk.injEq, Prod.mk.injEq] at e1
    obtain ⟨-, rfl, rfl, rfl⟩ := e1
    refine ⟨by omega, by omega, ?_⟩
    have h5 := e5 i h (by omega) (by omega) (by omega)
    obtain ⟨k, f1, f2, f3, f4, -⟩ := sigmaL_spec levels lo hi hlo hhi Ls[i] (b : Int).toNat tol 100 (U i) (fun j => levelsIn levels Ls[i] (uniform lo hi (U i (j + 1)))) fun j => levelsIn_eq _ _ _
    rw [f1] at h5
    injection h5 with h5
    rw [Prod.mk.injEq, Prod.mk.injEq] at h5
    obtain ⟨a1, a2, a3⟩ := h5
    rw [← a1, ← a3]
    refine ⟨rfl, f2, fun hb5 => ?_⟩
    rw [Int.toNat_natCast] at f4
    rcases f4 with f | ⟨f, f', -⟩ <;> omega
  by_cases hm : 0 < maxIters
  · obtain ⟨b, rfl⟩ := Int.eq_ofNat_of_zero_le hm.le
    obtain ⟨h1, h2, h3, h4, h5⟩ := main b (by exact_mod_cast hm) hr
    exact ⟨h1, h2, h3, h4, fun hb => h5 (by omega)⟩
  · have hm' : maxIters ≤ 0 := by omega
    have hLne : Ls ≠ [] := List.ne_nil_of_length_pos (by omega)
    obtain ⟨Lmax, hLmax⟩ := exists_isMax Ls hLne
    obtain ⟨v, c, k, g1, g2, g3⟩ := (C20_levelvar_auto order levels Ls hne tol maxIters hm' Up U junk).2 Lmax hLmax
    obtain ⟨k', f1, f2, f3, f4, -⟩ := sigmaL_spec levels lo hi hlo hhi Lmax 1000000000 tol 1000 Up (fun j => levelsIn levels Lmax (uniform lo hi (Up (j + 1)))) fun j => levelsIn_eq _ _ _
    rw [f1] at g1
    injection g1 with g1
    rw [Prod.mk.injEq, Prod.mk.injEq] at g1
    obtain ⟨-, -, rfl⟩ := g1
    cases c with
    | false =>
      rw [g2 rfl] at hr
      cases hr
    | true =>
      rw [g3 rfl] at hr
      obtain ⟨h1, h2, h3, h4, h5⟩ := main (2 * k') (by omega) hr
      refine ⟨h1, h2, h3, h4, fun _ => h5 ?_⟩
      rcases f4 with f | ⟨f, f', -⟩ <;> omega

/-- **C160 (level_number_variance).** Let `Σ²` be the number variance of the levels for a window length `L` over all windows between the least and greatest level, and let no window contain more than `K` levels. The probability that there is any run of
`level_number_variance` on these random draws — any tolerance, any budget including the automatic one, any draws of the probe that determines it, any order of execution — that returns for `L` a value computed from at least `m` iterations and off by `t` or more
is at most `(16 K²/t² + 8/t) Σ² / m`. With a budget of at least 500, or the automatic budget, every value is computed from at least 500 iterations. -/
theorem C160_level_number_variance (levels : List ℝ) (lo hi : ℝ) (hlo : Spec.IsMin levels lo) (hhi : Spec.IsMax levels hi) (Ls : List ℝ)
    (U : Nat → Nat → Ω → ℝ) (hU : ∀ i, IndependentDraws P (U i)) (i : ℕ) (h : i < Ls.length) (K : ℝ) (hK : ∀ c, levelsIn levels Ls[i] c ≤ K) (t : ℝ) (ht : 0 < t) :
    (∀ m : ℕ, 1 ≤ m → P {ω | ∃ (order : List Nat) (tol : ℝ) (maxIters : Int) (Up : Nat → ℝ) (junk : Nat) (vals : List ℝ) (conv : List Bool) (iters : List Nat), order.Perm (List.range Ls.length) ∧
        levelNumberVariance order levels Ls tol maxIters Up (fun i j => U i j ω) junk = .ok (Ls, vals, conv, iters) ∧
        m ≤ iters.getD i 0 ∧ t ≤ |vals.getD i 0 - numberVariance levels lo hi Ls[i]|} ≤ ENNReal.ofReal ((16 * K ^ 2 / t ^ 2 + 8 / t) * numberVariance levels lo hi Ls[i] / m)) ∧
    P {ω | ∃ (order : List Nat) (tol : ℝ) (maxIters : Int) (Up : Nat → ℝ) (junk : Nat) (vals : List ℝ) (conv : List Bool) (iters : List Nat), order.Perm (List.range Ls.length) ∧
        (maxIters ≤ 0 ∨ 500 ≤ maxIters) ∧ levelNumberVariance order levels Ls tol maxIters Up (fun i j => U i j ω) junk = .ok (Ls, vals, conv, iters) ∧
        t ≤ |vals.getD i 0 - numberVariance levels lo hi Ls[i]|} ≤ ENNReal.ofReal ((16 * K ^ 2 / t ^ 2 + 8 / t) * numberVariance levels lo hi Ls[i] / 500) := by
  obtain ⟨hm, hb⟩ := levelsIn_draw_measurable levels Ls[i] lo hi
  obtain ⟨g1, g2⟩ := gvar_counts levels Ls[i] lo hi
  have hU' : IndependentDraws P (fun j => U i (j + 1)) := ⟨fun j => (hU i).measurable _, (hU i).indep.precomp (g := fun j => j + 1) (fun a b hab => by simpa using hab), fun j => (hU i).law _⟩
  have h0 : ∀ c, 0 ≤ levelsIn levels Ls[i] c := fun c => Nat.cast_nonneg _
  have hmean : 0 ≤ gmean (fun u => levelsIn levels Ls[i] (uniform lo hi u)) ∧ gmean (fun u => levelsIn levels Ls[i] (uniform lo hi u)) ≤ K := by
    unfold gmean
    refine ⟨integral_nonneg fun u => h0 _, ?_⟩
    have hint : IntegrableOn (fun u => levelsIn levels Ls[i] (uniform lo hi u)) (Set.Ico (0 : ℝ) 1) :=
      Integrable.of_bound hm.aestronglyMeasurable _ (Filter.Eventually.of_forall fun u => by rw [Real.norm_eq_abs]; exact hb u)
    have := integral_mono hint (integrable_const K) fun u => hK _
    simpa using this
  have key : ∀ m : ℕ, 1 ≤ m → P {ω | ∃ k ≥ m, t ≤ |runVar (fun j => levelsIn levels Ls[i] (uniform lo hi (U i (j + 1) ω))) k - numberVariance levels lo hi Ls[i]|} ≤
      ENNReal.ofReal ((16 * K ^ 2 / t ^ 2 + 8 / t) * numberVariance levels lo hi Ls[i] / m) := fun m hm1 => by
    have := runVar_maximal hU' hm hb K (fun u => by
      rw [abs_le]
      constructor <;> linarith [h0 (uniform lo hi u), hK (uniform lo hi u), hmean.1, hmean.2]) m hm1 t ht
    rw [g1] at this
    exact this
  refine ⟨fun m hm1 => (measure_mono ?_).trans (key m hm1), (measure_mono ?_).trans (by exact_mod_cast key 500 (by norm_num))⟩
  · rintro ω ⟨order, tol, maxIters, Up, junk, vals, conv, iters, ho, hr, h1, h2⟩
    obtain ⟨b1, b2, b3, b4, -⟩ := levelvar_result levels lo hi hlo hhi Ls order tol maxIters Up _ junk ho vals conv iters hr i h
    rw [List.getD_eq_getElem _ _ b2] at h1
    rw [List.getD_eq_getElem _ _ b1, b3] at h2
    exact ⟨_, h1, h2⟩
  · rintro ω ⟨order, tol, maxIters, Up, junk, vals, conv, iters, ho, hb5, hr, h2⟩
    obtain ⟨b1, b2, b3, -, b4⟩ := levelvar_result levels lo hi hlo hhi Ls order tol maxIters Up _ junk ho vals conv iters hr i h
    rw [List.getD_eq_getElem _ _ b1, b3] at h2
    exact ⟨_, b4 hb5, h2⟩

/-- The results of `spectral_rigidity`, with an explicit or an automatic budget. -/
theorem rigidity_result (levels : List ℝ) (hne : levels ≠ []) (Ls : List ℝ) (hL : ∀ l ∈ Ls, 0 < l) (gridsize : Nat) (hg : 1 ≤ gridsize) (integration : String) (order : List Nat) (tol : ℝ) (maxIters : Int) (Up : Nat → ℝ) (U : Nat → Nat → ℝ)
    (ho : order.Perm (List.range Ls.length)) (i : ℕ) (h : i < Ls.length) (D : ℝ → ℝ)
    (hD : ∀ c, d3Sample levels Ls[i] gridsize (decide (integration ≠ "trapz")) c = .ok (D c))
    (vals : List ℝ) (conv : List Bool) (iters : List Nat) (hr : spectralRigidity order levels Ls tol maxIters gridsize integration Up U = .ok (Ls, vals, conv, iters)) :
    ∃ (h1 : i < vals.length) (h2 : i < iters.length), (1001 ≤ iters[i] → vals[i] = (∑ a ∈ Finset.range 1000, runMean (fun j => D (uniform (levels.head hne) (levels.getLast hne) (U i j))) (iters[i] - a)) / 1000) ∧
      (maxIters ≤ 0 ∨ 2000 ≤ maxIters → iters[i] = 1000 ∨ 2000 ≤ iters[i]) := by
  have main : ∀ b : ℕ, 0 < b → spectralRigidity order levels Ls tol b gridsize integration Up U = .ok (Ls, vals, conv, iters) →
      ∃ (h1 : i < vals.length) (h2 : i < iters.length), (1001 ≤ iters[i] → vals[i] = (∑ a ∈ Finset.range 1000, runMean (fun j => D (uniform (levels.head hne) (levels.getLast hne) (U i j))) (iters[i] - a)) / 1000) ∧
        (2000 ≤ b → iters[i] = 1000 ∨ 2000 ≤ iters[i]) := by
    intro b hb hr
    obtain ⟨vals', conv', iters', e1, e2, e3, e4, e5⟩ := C17_rigidity_explicit order levels Ls hne hL tol b (by exact_mod_cast hb) gridsize hg integration Up U ho
    rw [hr] at e1
    injection e1 with e1
    rw [Prod.mk.injEq, Prod.mk.injEq, Prod.mk.injEq] at e1
    obtain ⟨-, rfl, rfl, rfl⟩ := e1
    refine ⟨by omega, by omega, ?_⟩
    have h5 := e5 i h (by omega) (by omega) (by omega)
    obtain ⟨v, c, k, f1, -, f2, -⟩ := C14_delta_value levels hne Ls[i] (hL _ (List.getElem_mem h)) gridsize hg (b : Int).toNat 100 tol (decide (integration ≠ "trapz")) (U i) _ fun j => hD _
    obtain ⟨v', c', k', f1', b1, b2, b3, b4⟩ := C13_delta_budget levels hne Ls[i] (hL _ (List.getElem_mem h)) gridsize hg (b : Int).toNat 100 tol (decide (integration ≠ "trapz")) (U i)
    rw [f1] at h5 f1'
    injection h5 with h5
    injection f1' with f1'
    rw [Prod.mk.injEq, Prod.mk.injEq] at h5 f1'
    obtain ⟨a1, a2, a3⟩ := h5
    obtain ⟨c1, c2, c3⟩ := f1'
    rw [← a1, ← a3]
    refine ⟨f2, fun hb5 => ?_⟩
    rw [← c3, Int.toNat_natCast] at b3
    by_cases hk : k < b
    · have := b3 hk
      omega
    · omega
  by_cases hm : 0 < maxIters
  · obtain ⟨b, rfl⟩ := Int.eq_ofNat_of_zero_le hm.le
    obtain ⟨h1, h2, h3, h5⟩ := main b (by exact_mod_cast hm) hr
    exact ⟨h1, h2, h3, fun hb => h5 (by omega)⟩
  · have hm' : maxIters ≤ 0 := by omega
    have hLne : Ls ≠ [] := List.ne_nil_of_length_pos (by omega)
    obtain ⟨Lmax, hLmax⟩ := exists_isMax Ls hLne
    obtain ⟨v, c, k, g1, g2, g3⟩ := (C17_rigidity_auto order levels Ls hne hL tol maxIters hm' gridsize hg integration Up U).2 Lmax hLmax.1 hLmax.2
    obtain ⟨v', c', k', f1', b1, b2, b3, b4⟩ := C13_delta_budget levels hne Lmax (hL _ hLmax.1) 100 (by norm_num) 1000000000 1000 tol (decide (integration ≠ "trapz")) Up
    rw [f1'] at g1
    injection g1 with g1
    rw [Prod.mk.injEq, Prod.mk.injEq] at g1
    obtain ⟨-, -, rfl⟩ := g1
    cases c with
    | false =>
      rw [g2 rfl] at hr
      cases hr
    | true =>
      rw [g3 rfl] at hr
      obtain ⟨h1, h2, h3, h5⟩ := main (2 * k') (by omega) hr
      refine ⟨h1, h2, h3, fun _ => h5 ?_⟩
      by_cases hk : k' < 1000000000
      · have := b3 hk
        omega
      · omega

/-- **C160 (spectral_rigidity).** Let `D c` be the rigidity sample with window centre `c` for a window length `L`, `μ` its average over all centres between the least and the greatest level and `s²` the mean squared deviation from `μ`. The probability that there is any run of
`spectral_rigidity` on these random draws — any tolerance, any budget including the automatic one, any draws of the probe that determines it, any order of execution — that returns for `L` a value computed from at least `m + 999` iterations, `m ≥ 2`, and off by `t` or more
is at most `4 s² / (m t²)`. With a budget of at least 2000, or the automatic budget, every value is computed from exactly 1000 or from at least 2000 iterations. -/
theorem C160_spectral_rigidity (levels : List ℝ) (hne : levels ≠ []) (hs : Ascending levels) (Ls : List ℝ) (hL : ∀ l ∈ Ls, 0 < l) (gridsize : Nat) (hg : 1 ≤ gridsize) (integration : String)
    (U : Nat → Nat → Ω → ℝ) (hU : ∀ i, IndependentDraws P (U i)) (i : ℕ) (h : i < Ls.length) (D : ℝ → ℝ)
    (hD : ∀ c, d3Sample levels Ls[i] gridsize (decide (integration ≠ "trapz")) c = .ok (D c)) (μ s2 : ℝ) (hμ : μ = average (levels.head hne) (levels.getLast hne) D)
    (hs2 : s2 = average (levels.head hne) (levels.getLast hne) (fun c => (D c - μ) ^ 2)) (t : ℝ) (ht : 0 < t) :
    (∀ m : ℕ, 2 ≤ m → P {ω | ∃ (order : List Nat) (tol : ℝ) (maxIters : Int) (Up : Nat → ℝ) (vals : List ℝ) (conv : List Bool) (iters : List Nat), order.Perm (List.range Ls.length) ∧
        spectralRigidity order levels Ls tol maxIters gridsize integration Up (fun i j => U i j ω) = .ok (Ls, vals, conv, iters) ∧
        m + 999 ≤ iters.getD i 0 ∧ t ≤ |vals.getD i 0 - μ|} ≤ ENNReal.ofReal (4 * s2 / (m * t ^ 2))) ∧
    P {ω | ∃ (order : List Nat) (tol : ℝ) (maxIters : Int) (Up : Nat → ℝ) (vals : List ℝ) (conv : List Bool) (iters : List Nat), order.Perm (List.range Ls.length) ∧
        (maxIters ≤ 0 ∨ 2000 ≤ maxIters) ∧ spectralRigidity order levels Ls tol maxIters gridsize integration Up (fun i j => U i j ω) = .ok (Ls, vals, conv, iters) ∧
        iters.getD i 0 ≠ 1000 ∧ t ≤ |vals.getD i 0 - μ|} ≤ ENNReal.ofReal (4 * s2 / (1001 * t ^ 2)) := by
  set lo := levels.head hne with hlo
  set hi := levels.getLast hne with hhi
  obtain ⟨D', h1, h2, B, h3⟩ := d3Sample_measurable levels hne hs Ls[i] gridsize hg (decide (integration ≠ "trapz"))
  have hDD : D' = D := by
    funext c
    have := h1 c
    rw [hD] at this
    exact (Except.ok.inj this).symm
  subst hDD
  have hm : Measurable fun u => D' (uniform lo hi u) := h2.comp (uniform_measurable lo hi)
  have hb : ∀ u, |D' (uniform lo hi u)| ≤ B := fun u => h3 _
  have g1 : gmean (fun u => D' (uniform lo hi u)) = μ := by rw [hμ]; exact average_eq lo hi D'
  have g2 : gvar (fun u => D' (uniform lo hi u)) = s2 := by
    rw [hs2, gvar, g1]
    exact average_eq lo hi fun c => (D' c - μ) ^ 2
  have key : ∀ m : ℕ, 1 ≤ m → P {ω | ∃ k ≥ m, t ≤ |runMean (fun j => D' (uniform lo hi (U i j ω))) k - μ|} ≤ ENNReal.ofReal (4 * s2 / (m * t ^ 2)) := fun m hm1 => by
    have := runMean_maximal (hU i) hm hb m hm1 t ht
    rw [g1, g2] at this
    exact this
  -- an average of running means that is off has a running mean that is off
  have avg : ∀ (d : ℕ → ℝ) (k m : ℕ), m + 999 ≤ k → t ≤ |(∑ a ∈ Finset.range 1000, runMean d (k - a)) / 1000 - μ| → ∃ k ≥ m, t ≤ |runMean d k - μ| := by
    intro d k m hk hle
    by_contra hcon
    push Not at hcon
    have e : (∑ a ∈ Finset.range 1000, runMean d (k - a)) / 1000 - μ = (∑ a ∈ Finset.range 1000, (runMean d (k - a) - μ)) / 1000 := by
      rw [Finset.sum_sub_distrib, Finset.sum_const, Finset.card_range, nsmul_eq_mul]
      push_cast
      ring
    rw [e, abs_div, abs_of_pos (by norm_num : (0 : ℝ) < 1000), le_div_iff₀ (by norm_num)] at hle
    have h4 : |∑ a ∈ Finset.range 1000, (runMean d (k - a) - μ)| < ∑ _a ∈ Finset.range 1000, t :=
      (Finset.abs_sum_le_sum_abs _ _).trans_lt (Finset.sum_lt_sum_of_nonempty ⟨0, by simp⟩ fun a ha => hcon _ (by have := Finset.mem_range.mp ha; omega))
    rw [Finset.sum_const, Finset.card_range, nsmul_eq_mul] at h4
    push_cast at h4
    linarith
  refine ⟨fun m hm1 => (measure_mono ?_).trans (key m (by omega)), (measure_mono ?_).trans (by exact_mod_cast key 1001 (by norm_num))⟩
  · rintro ω ⟨order, tol, maxIters, Up, vals, conv, iters, ho, hr, q1, q2⟩
    obtain ⟨b1, b2, b3, -⟩ := rigidity_result levels hne Ls hL gridsize hg integration order tol maxIters Up _ ho i h D' hD vals conv iters hr
    rw [List.getD_eq_getElem _ _ b2] at q1
    rw [List.getD_eq_getElem _ _ b1, b3 (by omega)] at q2
    exact avg _ _ m q1 q2
  · rintro ω ⟨order, tol, maxIters, Up, vals, conv, iters, ho, hb5, hr, q1, q2⟩
    obtain ⟨b1, b2, b3, b4⟩ := rigidity_result levels hne Ls hL gridsize hg integration order tol maxIters Up _ ho i h D' hD vals conv iters hr
    rw [List.getD_eq_getElem _ _ b2] at q1
    have b5 := b4 hb5
    rw [List.getD_eq_getElem _ _ b1, b3 (by omega)] at q2
    exact avg _ _ 1001 (by omega) q2

/-- Independent uniform draws exist. -/
theorem independent_draws_exist : ∃ (Ω : Type) (_ : MeasurableSpace Ω) (P : Measure Ω) (_ : IsProbabilityMeasure P) (U : Nat → Nat → Ω → ℝ), ∀ i, IndependentDraws P (U i) := by
  have : IsProbabilityMeasure ((volume : Measure ℝ).restrict (Set.Ico 0 1)) := ⟨by simp⟩
  refine ⟨Nat × Nat → ℝ, inferInstance, Measure.infinitePi fun _ => (volume : Measure ℝ).restrict (Set.Ico 0 1), inferInstance, fun i j ω => ω (i, j), fun i => ⟨fun j => by fun_prop, ?_, ?_⟩⟩
  · have h := ProbabilityTheory.iIndepFun_infinitePi (P := fun _ : Nat × Nat => (volume : Measure ℝ).restrict (Set.Ico 0 1)) (X := fun _ x => x) (fun _ => measurable_id)
    exact h.precomp (g := fun j => (i, j)) fun a b hab => by simpa using hab
  · intro j
    exact Measure.infinitePi_map_eval _ _

/-- Non-vacuity: for the levels `3, 0, 1` and windows of length 2 no window contains more than three levels; runs with a budget of 5000 exist for all draws; the probability that any run with at least 40000 iterations is off by 1/2 or more is at most 0.0148 times the number variance. -/
example : ∃ (Ω : Type) (_ : MeasurableSpace Ω) (P : Measure Ω) (_ : IsProbabilityMeasure P) (U : Nat → Nat → Ω → ℝ), (∀ i, IndependentDraws P (U i)) ∧
    (∀ ω, ∃ vals conv iters, levelNumberVariance [0] [3, 0, 1] [2] 0.01 5000 (fun _ => 0) (fun i j => U i j ω) 0 = .ok ([2], vals, conv, iters) ∧ 500 ≤ iters.getD 0 0) ∧
    P {ω | ∃ (order : List Nat) (tol : ℝ) (maxIters : Int) (Up : Nat → ℝ) (junk : Nat) (vals : List ℝ) (conv : List Bool) (iters : List Nat), order.Perm (List.range 1) ∧
        levelNumberVariance order [3, 0, 1] [2] tol maxIters Up (fun i j => U i j ω) junk = .ok ([2], vals, conv, iters) ∧
        40000 ≤ iters.getD 0 0 ∧ 1 / 2 ≤ |vals.getD 0 0 - numberVariance [3, 0, 1] 0 3 2|} ≤ ENNReal.ofReal (0.0148 * numberVariance [3, 0, 1] 0 3 2) := by
  obtain ⟨Ω, m, P, hP, U, hU⟩ := independent_draws_exist
  refine ⟨Ω, m, P, hP, U, hU, fun ω => ?_, ?_⟩
  · obtain ⟨vals, conv, iters, e1, -⟩ := C20_levelvar_explicit [0] [(3 : ℝ), 0, 1] [2] (by simp) 0.01 5000 (by norm_num) (fun _ => 0) (fun i j => U i j ω) 0 (by simp)
    obtain ⟨-, h2, -, -, h5⟩ := levelvar_result [3, 0, 1] 0 3 (by simp [Spec.IsMin]) (by simp [Spec.IsMax]) [2] [0] 0.01 5000 (fun _ => 0) (fun i j => U i j ω) 0 (by simp) vals conv iters e1 0 (by simp)
    exact ⟨vals, conv, iters, e1, by rw [List.getD_eq_getElem _ _ h2]; exact h5 (by norm_num)⟩
  · have := (C160_level_number_variance P [3, 0, 1] 0 3 (by simp [Spec.IsMin]) (by simp [Spec.IsMax]) [2] U hU 0 (by simp) 3 (fun c => (le_abs_self _).trans (by
      have := (nWithin_measurable [3, 0, 1] 2).2 c
      simp only [levelsIn_eq]
      simpa using this)) (1 / 2) (by norm_num)).1 40000 (by norm_num)
    refine this.trans (ENNReal.ofReal_le_ofReal (le_of_eq ?_))
    show (16 * 3 ^ 2 / (1 / 2) ^ 2 + 8 / (1 / 2)) * numberVariance [3, 0, 1] 0 3 2 / ((40000 : ℕ) : ℝ) = _
    push_cast
    ring

/-- Non-vacuity: the levels `0, 1, 1, 3` and two window lengths meet the hypotheses of the theorem on the rigidity. -/
example : ∃ (Ω : Type) (_ : MeasurableSpace Ω) (P : Measure Ω) (_ : IsProbabilityMeasure P) (U : Nat → Nat → Ω → ℝ) (D : ℝ → ℝ), (∀ i, IndependentDraws P (U i)) ∧ Ascending [(0 : ℝ), 1, 1, 3] ∧
    (∀ c, d3Sample [0, 1, 1, 3] 2 100 (decide ("simps" ≠ "trapz")) c = .ok (D c)) ∧
    P {ω | ∃ (order : List Nat) (tol : ℝ) (maxIters : Int) (Up : Nat → ℝ) (vals : List ℝ) (conv : List Bool) (iters : List Nat), order.Perm (List.range 2) ∧
        spectralRigidity order [0, 1, 1, 3] [1, 2] tol maxIters 100 "simps" Up (fun i j => U i j ω) = .ok ([1, 2], vals, conv, iters) ∧
        10000 + 999 ≤ iters.getD 1 0 ∧ 1 / 10 ≤ |vals.getD 1 0 - average 0 3 D|} ≤ ENNReal.ofReal (average 0 3 (fun c => (D c - average 0 3 D) ^ 2) / 25) := by
  obtain ⟨Ω, m, P, hP, U, hU⟩ := independent_draws_exist
  have hA : Ascending [(0 : ℝ), 1, 1, 3] := by simp [Ascending]
  obtain ⟨D, hD, -⟩ := d3Sample_measurable [0, 1, 1, 3] (by simp) hA 2 100 (by norm_num) (decide ("simps" ≠ "trapz"))
  refine ⟨Ω, m, P, hP, U, D, hU, hA, hD, ?_⟩
  have := (C160_spectral_rigidity P [0, 1, 1, 3] (by simp) hA [1, 2] (by simp) 100 (by norm_num) "simps" U hU 1 (by simp) D hD _ _ rfl rfl (1 / 10) (by norm_num)).1 10000 (by norm_num)
  refine this.trans (ENNReal.ofReal_le_ofReal (le_of_eq ?_))
  simp only [List.head_cons, List.getLast_cons_cons, List.getLast_singleton]
  push_cast
  ring

end Props
end RMT
