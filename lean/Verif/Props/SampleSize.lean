import Verif.Props.Consistency
import Verif.Lemmas.SampleSize
import Mathlib.Data.List.GetD

/-!
# Property C159: the error after a given number of iterations

The mean, and bounds for the error, of the Monte-Carlo observables after `k` iterations.
-/

namespace RMT
namespace Props
open Rigidity LevelVar Spec MeasureTheory Draws Real

variable {Ω : Type} [MeasurableSpace Ω] (P : Measure Ω) [IsProbabilityMeasure P]

theorem levelsIn_draw_measurable (levels : List ℝ) (L lo hi : ℝ) : Measurable (fun u => levelsIn levels L (uniform lo hi u)) ∧ ∀ u, |levelsIn levels L (uniform lo hi u)| ≤ levels.length := by
  obtain ⟨h1, h2⟩ := nWithin_measurable levels L
  simp only [levelsIn_eq]
  exact ⟨h1.comp (uniform_measurable lo hi), fun u => h2 _⟩

theorem gvar_counts (levels : List ℝ) (L lo hi : ℝ) : gvar (fun u => levelsIn levels L (uniform lo hi u)) = numberVariance levels lo hi L ∧
    gmean (fun u => levelsIn levels L (uniform lo hi u)) = average lo hi (levelsIn levels L) := by
  have e : gmean (fun u => levelsIn levels L (uniform lo hi u)) = average lo hi (levelsIn levels L) := average_eq lo hi (levelsIn levels L)
  refine ⟨?_, e⟩
  unfold gvar numberVariance
  rw [e]
  exact average_eq lo hi fun c => (levelsIn levels L c - average lo hi (levelsIn levels L)) ^ 2

/-- With a tolerance that is never met, `sigma_L` uses the whole budget. -/
theorem sigmaL_full (levels : List ℝ) (lo hi : ℝ) (hlo : Spec.IsMin levels lo) (hhi : Spec.IsMax levels hi) (L : ℝ) (k : ℕ) (hk : 1 ≤ k) (tol : ℝ) (ht : tol ≤ 0) (m : ℕ) (U : ℕ → ℝ) :
    ∃ conv, sigmaL levels L k tol m U = .ok (runVar (fun j => levelsIn levels L (uniform lo hi (U (j + 1)))) k, conv, k) := by
  obtain ⟨k', f1, f2, f3, f4, -⟩ := sigmaL_spec levels lo hi hlo hhi L k tol m U (fun j => levelsIn levels L (uniform lo hi (U (j + 1)))) fun j => levelsIn_eq _ _ _
  have : k' = k := by
    rcases f4 with f | ⟨-, -, f⟩
    · omega
    · have := (rangeBelow_swindow _ _ _).mp f 0 (by norm_num) 0 (by norm_num)
      rw [sub_self, abs_zero] at this
      linarith
  subst this
  exact ⟨_, f1⟩

/-- **C159 (level_number_variance).** With a budget of `k ≥ 1` iterations and a tolerance `≤ 0` (so that the budget is used up), the value returned for a window length `L` has the expected value `(1 - 1/k) Σ²`, where `Σ²` is the number
variance over all windows between the least and the greatest level; its mean absolute error is at most `K Σ / √k + Σ² / k` if no window of length `L` contains more than `K` levels; and the probability of an error of at least `t`
is at most `1/t` times that. -/
theorem C159_level_number_variance (levels : List ℝ) (lo hi : ℝ) (hlo : Spec.IsMin levels lo) (hhi : Spec.IsMax levels hi) (Ls : List ℝ)
    (Up : Nat → ℝ) (U : Nat → Nat → Ω → ℝ) (hU : ∀ i, UniformDraws P (U i)) (junk : Nat) (tol : ℝ) (ht : tol ≤ 0) (k : ℕ) (hk : 1 ≤ k) :
    ∃ v : ℕ → Ω → ℝ, (∀ (order : List Nat) ω, order.Perm (List.range Ls.length) →
        ∃ conv, levelNumberVariance order levels Ls tol k Up (fun i j => U i j ω) junk = .ok (Ls, (List.range Ls.length).map (v · ω), conv, List.replicate Ls.length k)) ∧
      ∀ i (h : i < Ls.length), Integrable (v i) P ∧ ∫ ω, v i ω ∂P = (1 - 1 / k) * numberVariance levels lo hi Ls[i] ∧
        ∀ K, (∀ c, levelsIn levels Ls[i] c ≤ K) →
          ∫ ω, |v i ω - numberVariance levels lo hi Ls[i]| ∂P ≤ K * √(numberVariance levels lo hi Ls[i]) / √k + numberVariance levels lo hi Ls[i] / k ∧
          ∀ t > 0, P.real {ω | t ≤ |v i ω - numberVariance levels lo hi Ls[i]|} ≤ (K * √(numberVariance levels lo hi Ls[i]) / √k + numberVariance levels lo hi Ls[i] / k) / t := by
  have hne : levels ≠ [] := List.ne_nil_of_mem hlo.1
  refine ⟨fun i ω => runVar (fun j => levelsIn levels (Ls.getD i 0) (uniform lo hi (U i (j + 1) ω))) k, fun order ω ho => ?_, fun i h => ?_⟩
  · obtain ⟨vals, conv, iters, e1, e2, e3, e4, e5⟩ := C20_levelvar_explicit order levels Ls hne tol k (by exact_mod_cast hk) Up (fun i j => U i j ω) junk ho
    have hval : ∀ i (h : i < Ls.length) (h1 : i < vals.length) (h2 : i < iters.length), vals[i] = runVar (fun j => levelsIn levels Ls[i] (uniform lo hi (U i (j + 1) ω))) k ∧ iters[i] = k := by
      intro i h h1 h2
      obtain ⟨c, hc⟩ := sigmaL_full levels lo hi hlo hhi Ls[i] k hk tol ht 100 fun j => U i j ω
      have := e5 i h h1 (by omega) h2
      rw [Int.toNat_natCast, hc] at this
      injection this with this
      rw [Prod.mk.injEq, Prod.mk.injEq] at this
      exact ⟨this.1.symm, this.2.2.symm⟩
    refine ⟨conv, ?_⟩
    rw [e1]
    have q1 : vals = (List.range Ls.length).map fun i => runVar (fun j => levelsIn levels (Ls.getD i 0) (uniform lo hi (U i (j + 1) ω))) k := by
      refine List.ext_getElem (by simp [e2]) fun i h1 h2 => ?_
      have hi : i < Ls.length := by omega
      rw [List.getElem_map, List.getElem_range, (hval i hi h1 (by omega)).1, List.getD_eq_getElem _ _ hi]
    have q2 : iters = List.replicate Ls.length k := by
      refine List.ext_getElem (by simp [e4]) fun i h1 h2 => ?_
      rw [List.getElem_replicate, (hval i (by omega) (by omega) h1).2]
    rw [q1, q2]
  · simp only [List.getD_eq_getElem _ _ h]
    obtain ⟨hm, hb⟩ := levelsIn_draw_measurable levels Ls[i] lo hi
    obtain ⟨g1, g2⟩ := gvar_counts levels Ls[i] lo hi
    have hU' := Draws.shift P (U i) (hU i)
    have i1 := (runVar_integrable hU' hm hb k hk).1
    have i2 := runVar_integral hU' hm hb k hk
    rw [g1] at i2
    refine ⟨i1, i2, fun K hK => ?_⟩
    have h0 : ∀ c, 0 ≤ levelsIn levels Ls[i] c := fun c => Nat.cast_nonneg _
    have hK0 : 0 ≤ K := (h0 0).trans (hK 0)
    have hmean : 0 ≤ gmean (fun u => levelsIn levels Ls[i] (uniform lo hi u)) ∧ gmean (fun u => levelsIn levels Ls[i] (uniform lo hi u)) ≤ K := by
      unfold gmean
      refine ⟨integral_nonneg fun u => h0 _, ?_⟩
      have hint : IntegrableOn (fun u => levelsIn levels Ls[i] (uniform lo hi u)) (Set.Ico (0 : ℝ) 1) :=
        Integrable.of_bound hm.aestronglyMeasurable _ (Filter.Eventually.of_forall fun u => by rw [Real.norm_eq_abs]; exact hb u)
      have := integral_mono hint (integrable_const K) fun u => hK _
      simpa using this
    have err := runVar_error hU' hm hb k hk K hK0 fun u => by
      rw [abs_le]
      constructor <;> linarith [h0 (uniform lo hi u), hK (uniform lo hi u), hmean.1, hmean.2]
    rw [g1] at err
    refine ⟨err, fun t htp => ?_⟩
    rw [le_div_iff₀ htp, mul_comm]
    refine (mul_meas_ge_le_integral_of_nonneg (Filter.Eventually.of_forall fun ω => abs_nonneg _) (i1.sub (integrable_const _)).abs t).trans err

/-- With a tolerance that is never met, `delta_L` uses the whole budget. -/
theorem deltaL_full (levels : List ℝ) (hne : levels ≠ []) (L : ℝ) (hL : 0 < L) (gridsize : ℕ) (hg : 1 ≤ gridsize) (k : ℕ) (hk : 2 ≤ k) (tol : ℝ) (ht : tol ≤ 0) (m : ℕ) (s : Bool) (U : ℕ → ℝ) (d : ℕ → ℝ)
    (hd : ∀ j, d3Sample levels L gridsize s (uniform (levels.head hne) (levels.getLast hne) (U j)) = .ok (d j)) :
    ∃ v, deltaL levels L gridsize k m tol s U = .ok (v, false, k) ∧ (1001 ≤ k → v = (∑ i ∈ Finset.range 1000, runMean d (k - i)) / 1000) ∧
      (k = 1000 → v = (∑ j ∈ Finset.Icc 2 1000, runMean d j) / 1000) ∧ (k ≤ 999 → v = (∑ j ∈ Finset.Icc 1 k, runMean d j) / 1000) := by
  obtain ⟨v, conv, k', f1, -, f2, f3, f4, f5, -⟩ := C14_delta_value levels hne L hL gridsize hg k m tol s U d hd
  obtain ⟨v', conv', k'', f1', -, -, -, f6⟩ := C13_delta_budget levels hne L hL gridsize hg k m tol s U
  rw [f1] at f1'
  injection f1' with f1'
  rw [Prod.mk.injEq, Prod.mk.injEq] at f1'
  obtain ⟨rfl, rfl, rfl⟩ := f1'
  have hc : conv = false := by
    by_contra h
    have := f5 (by simpa using h)
    linarith [abs_nonneg (v - runMean d k')]
  have hk' : k' = k := by
    rw [f6 hc]
    omega
  subst hk'
  rw [hc] at f1
  exact ⟨v, f1, f2, f3, f4⟩

/-- **C159 (spectral_rigidity).** Let `D l c` be the rigidity sample for window length `l` and centre `c`, `μ` its average over all window centres between the least and the greatest level and `s²` the mean squared deviation from `μ`.
With a budget of `k ≥ 1001` iterations and a tolerance `≤ 0` the value returned has expected value `μ` and mean squared error at most `s² / (k - 999)`, and the probability of an error of at least `t` is at most
`s² / ((k - 999) t²)`. With a budget of `2 ≤ k ≤ 999` iterations the expected value is `k μ / 1000`. -/
theorem C159_spectral_rigidity (levels : List ℝ) (hne : levels ≠ []) (hs : Ascending levels) (Ls : List ℝ) (hL : ∀ l ∈ Ls, 0 < l) (gridsize : Nat) (hg : 1 ≤ gridsize) (integration : String)
    (Up : Nat → ℝ) (U : Nat → Nat → Ω → ℝ) (hU : ∀ i, UniformDraws P (U i)) (D : ℝ → ℝ → ℝ)
    (hD : ∀ l ∈ Ls, ∀ c, d3Sample levels l gridsize (decide (integration ≠ "trapz")) c = .ok (D l c)) (tol : ℝ) (ht : tol ≤ 0) (k : ℕ) (hk : 2 ≤ k) :
    ∃ v : ℕ → Ω → ℝ, (∀ (order : List Nat) ω, order.Perm (List.range Ls.length) →
        spectralRigidity order levels Ls tol k gridsize integration Up (fun i j => U i j ω) = .ok (Ls, (List.range Ls.length).map (v · ω), List.replicate Ls.length false, List.replicate Ls.length k)) ∧
      ∀ i (h : i < Ls.length) (μ s2 : ℝ), μ = average (levels.head hne) (levels.getLast hne) (D Ls[i]) → s2 = average (levels.head hne) (levels.getLast hne) (fun c => (D Ls[i] c - μ) ^ 2) →
        (1001 ≤ k → ∫ ω, v i ω ∂P = μ ∧ ∫ ω, (v i ω - μ) ^ 2 ∂P ≤ s2 / (k - 999) ∧ ∀ t > 0, P.real {ω | t ≤ |v i ω - μ|} ≤ s2 / ((k - 999) * t ^ 2)) ∧
        (k ≤ 999 → ∫ ω, v i ω ∂P = k * μ / 1000) := by
  set lo := levels.head hne
  set hi := levels.getLast hne
  set V : ℕ → Ω → ℝ := fun i ω => if 1001 ≤ k then (∑ m ∈ Finset.range 1000, runMean (fun j => D (Ls.getD i 0) (uniform lo hi (U i j ω))) (k - m)) / 1000
    else if k = 1000 then (∑ m ∈ Finset.Icc 2 1000, runMean (fun j => D (Ls.getD i 0) (uniform lo hi (U i j ω))) m) / 1000
    else (∑ m ∈ Finset.Icc 1 k, runMean (fun j => D (Ls.getD i 0) (uniform lo hi (U i j ω))) m) / 1000 with hV
  refine ⟨V, fun order ω ho => ?_, fun i h μ s2 hμ hs2 => ?_⟩
  · obtain ⟨vals, conv, iters, e1, e2, e3, e4, e5⟩ := C17_rigidity_explicit order levels Ls hne hL tol k (by omega) gridsize hg integration Up (fun i j => U i j ω) ho
    have hval : ∀ i (h : i < Ls.length) (h1 : i < vals.length) (h2 : i < conv.length) (h3 : i < iters.length), vals[i] = V i ω ∧ conv[i] = false ∧ iters[i] = k := by
      intro i h h1 h2 h3
      obtain ⟨v, f1, f2, f3, f4⟩ := deltaL_full levels hne Ls[i] (hL _ (List.getElem_mem h)) gridsize hg k hk tol ht 100 (decide (integration ≠ "trapz")) (fun j => U i j ω) _ fun j => hD _ (List.getElem_mem h) _
      have := e5 i h h1 h2 h3
      rw [Int.toNat_natCast, f1] at this
      injection this with this
      rw [Prod.mk.injEq, Prod.mk.injEq] at this
      obtain ⟨a1, a2, a3⟩ := this
      refine ⟨?_, a2.symm, a3.symm⟩
      rw [← a1]
      simp only [hV, List.getD_eq_getElem _ _ h]
      split_ifs with b1 b2
      · exact f2 b1
      · exact f3 b2
      · exact f4 (by omega)
    rw [e1]
    have q1 : vals = (List.range Ls.length).map (V · ω) := by
      refine List.ext_getElem (by simp [e2]) fun i h1 h2 => ?_
      rw [List.getElem_map, List.getElem_range, (hval i (by omega) h1 (by omega) (by omega)).1]
    have q2 : iters = List.replicate Ls.length k := by
      refine List.ext_getElem (by simp [e4]) fun i h1 h2 => ?_
      rw [List.getElem_replicate, (hval i (by omega) (by omega) (by omega) h1).2.2]
    have q3 : conv = List.replicate Ls.length false := by
      refine List.ext_getElem (by simp [e3]) fun i h1 h2 => ?_
      rw [List.getElem_replicate, (hval i (by omega) (by omega) h1 (by omega)).2.1]
    rw [q1, q2, q3]
  · obtain ⟨D', h1, h2, B, h3⟩ := d3Sample_measurable levels hne hs Ls[i] gridsize hg (decide (integration ≠ "trapz"))
    have hDD : D' = D Ls[i] := by
      funext c
      have := h1 c
      rw [hD _ (List.getElem_mem h)] at this
      exact (Except.ok.inj this).symm
    subst hDD
    have hm : Measurable fun u => D Ls[i] (uniform lo hi u) := h2.comp (uniform_measurable lo hi)
    have hb : ∀ u, |D Ls[i] (uniform lo hi u)| ≤ B := fun u => h3 _
    have g1 : gmean (fun u => D Ls[i] (uniform lo hi u)) = μ := by rw [hμ]; exact average_eq lo hi (D Ls[i])
    have g2 : gvar (fun u => D Ls[i] (uniform lo hi u)) = s2 := by
      rw [hs2, gvar, g1]
      exact average_eq lo hi fun c => (D Ls[i] c - μ) ^ 2
    refine ⟨fun hk1 => ?_, fun hk1 => ?_⟩
    · set I : Finset ℕ := (Finset.range 1000).image fun m => k - m with hI
      have hinj : Set.InjOn (fun m => k - m) (Finset.range 1000 : Set ℕ) := fun a ha b hb hab => by
        have := Finset.mem_range.mp ha
        have := Finset.mem_range.mp hb
        simp only at hab
        omega
      have hcard : I.card = 1000 := by rw [hI, Finset.card_image_of_injOn hinj, Finset.card_range]
      have hve : V i = fun ω => (∑ j ∈ I, runMean (fun j => D Ls[i] (uniform lo hi (U i j ω))) j) / I.card := by
        funext ω
        rw [hcard, hI, Finset.sum_image hinj]
        simp only [hV, if_pos hk1, List.getD_eq_getElem _ _ h, Nat.cast_ofNat]
      have key := means_average (hU i) hm hb I (Finset.card_pos.mp (by omega)) (k - 999) (by omega) fun j hj => by
        obtain ⟨m, hm, rfl⟩ := Finset.mem_image.mp hj
        have := Finset.mem_range.mp hm
        omega
      rw [← hve, g1, g2] at key
      obtain ⟨k1, k2, k3⟩ := key
      have hcast : ((k - 999 : ℕ) : ℝ) = k - 999 := by
        rw [Nat.cast_sub (by omega)]
        norm_num
      rw [hcast] at k2
      have hve' : ∀ ω, V i ω = (∑ j ∈ I, runMean (fun j => D Ls[i] (uniform lo hi (U i j ω))) j) / I.card := fun ω => congrFun hve ω
      have k2' : ∫ ω, (V i ω - μ) ^ 2 ∂P ≤ s2 / (k - 999) := by
        simp only [hve']
        exact k2
      refine ⟨k1, k2', fun t htp => ?_⟩
      have hpos : (0 : ℝ) < k - 999 := by
        have : (1001 : ℝ) ≤ k := by exact_mod_cast hk1
        linarith
      have hmar := mul_meas_ge_le_integral_of_nonneg (μ := P) (f := fun ω => (V i ω - μ) ^ 2) (Filter.Eventually.of_forall fun ω => sq_nonneg _) (by
        have := (k3.sub (memLp_const μ)).integrable_sq
        simpa only [Pi.sub_apply] using this) (t ^ 2)
      have hset : {ω | t ≤ |V i ω - μ|} = {ω | t ^ 2 ≤ (V i ω - μ) ^ 2} := by
        ext ω
        simp only [Set.mem_ofPred_eq]
        rw [← sq_abs (V i ω - μ)]
        exact ⟨fun h => pow_le_pow_left₀ htp.le h 2, fun h => le_of_sq_le_sq h (abs_nonneg _)⟩
      rw [hset, ← div_div, le_div_iff₀ (by positivity), mul_comm]
      exact hmar.trans k2'
    · have hV' : ∀ ω, V i ω = (∑ m ∈ Finset.Icc 1 k, runMean (fun j => D Ls[i] (uniform lo hi (U i j ω))) m) / 1000 := fun ω => by
        simp only [hV, if_neg (by omega : ¬ 1001 ≤ k), if_neg (by omega : ¬ k = 1000), List.getD_eq_getElem _ _ h]
      simp only [hV']
      rw [integral_div, integral_finsetSum _ fun j _ => (runMean_memLp (hU i) hm hb j).integrable one_le_two]
      rw [Finset.sum_congr rfl fun j hj => runMean_integral (hU i) hm hb j (Finset.mem_Icc.mp hj).1, Finset.sum_const, Nat.card_Icc, nsmul_eq_mul, g1, Nat.add_sub_cancel]

/-- Non-vacuity: draws exist, and for the levels `3, 0, 1` and windows of length 2 no window contains more than three levels, so that after 900 iterations the mean absolute error is at most `Σ/10 + Σ²/900`. -/
example : ∃ (Ω : Type) (_ : MeasurableSpace Ω) (P : Measure Ω) (_ : IsProbabilityMeasure P) (U : Nat → Nat → Ω → ℝ) (v : ℕ → Ω → ℝ),
    (∀ ω, ∃ conv, levelNumberVariance [0] [3, 0, 1] [2] 0 900 (fun _ => 0) (fun i j => U i j ω) 0 = .ok ([2], [v 0 ω], conv, [900])) ∧
    ∫ ω, |v 0 ω - numberVariance [3, 0, 1] 0 3 2| ∂P ≤ √(numberVariance [3, 0, 1] 0 3 2) / 10 + numberVariance [3, 0, 1] 0 3 2 / 900 := by
  obtain ⟨Ω, m, P, hP, U, hU⟩ := draws_exist
  obtain ⟨v, h1, h2⟩ := C159_level_number_variance P [3, 0, 1] 0 3 (by simp [Spec.IsMin]) (by simp [Spec.IsMax]) [2] (fun _ => 0) U hU 0 0 le_rfl 900 (by norm_num)
  refine ⟨Ω, m, P, hP, U, v, fun ω => ?_, ?_⟩
  · obtain ⟨c, hc⟩ := h1 [0] ω (by simp)
    exact ⟨c, by simpa using hc⟩
  · have := ((h2 0 (by simp)).2.2 3 fun c => (le_abs_self _).trans (by
      have := (nWithin_measurable [3, 0, 1] 2).2 c
      simp only [levelsIn_eq]
      simpa using this)).1
    have e : √(900 : ℝ) = 30 := by
      rw [show (900 : ℝ) = 30 ^ 2 by norm_num]
      exact Real.sqrt_sq (by norm_num)
    simp only [List.getElem_cons_zero, Nat.cast_ofNat] at this
    rw [e] at this
    refine this.trans (le_of_eq ?_)
    ring

/-- Non-vacuity: the levels `0, 1, 1, 3`, two window lengths and 10000 iterations meet the hypotheses of the theorem on the rigidity. -/
example : ∃ (Ω : Type) (_ : MeasurableSpace Ω) (P : Measure Ω) (_ : IsProbabilityMeasure P) (U : Nat → Nat → Ω → ℝ) (D : ℝ → ℝ → ℝ), (∀ i, UniformDraws P (U i)) ∧ Ascending [(0 : ℝ), 1, 1, 3] ∧
    (∀ l ∈ [(1 : ℝ), 2], ∀ c, d3Sample [0, 1, 1, 3] l 100 (decide ("simps" ≠ "trapz")) c = .ok (D l c)) ∧ ∃ v : ℕ → Ω → ℝ,
      (∀ ω, spectralRigidity [1, 0] [0, 1, 1, 3] [1, 2] 0 10000 100 "simps" (fun _ => 0) (fun i j => U i j ω) = .ok ([1, 2], [v 0 ω, v 1 ω], [false, false], [10000, 10000])) ∧
      ∫ ω, v 1 ω ∂P = average 0 3 (D 2) ∧ ∫ ω, (v 1 ω - average 0 3 (D 2)) ^ 2 ∂P ≤ average 0 3 (fun c => (D 2 c - average 0 3 (D 2)) ^ 2) / 9001 := by
  obtain ⟨Ω, m, P, hP, U, hU⟩ := draws_exist
  have hA : Ascending [(0 : ℝ), 1, 1, 3] := by simp [Ascending]
  have h : ∀ l : ℝ, ∃ D : ℝ → ℝ, ∀ c, d3Sample [0, 1, 1, 3] l 100 (decide ("simps" ≠ "trapz")) c = .ok (D c) := fun l =>
    (d3Sample_measurable [0, 1, 1, 3] (by simp) hA l 100 (by norm_num) _).imp fun D h => h.1
  choose D hD using h
  refine ⟨Ω, m, P, hP, U, D, hU, hA, fun l _ c => hD l c, ?_⟩
  obtain ⟨v, h1, h2⟩ := C159_spectral_rigidity P [0, 1, 1, 3] (by simp) hA [1, 2] (by simp) 100 (by norm_num) "simps" (fun _ => 0) U hU D (fun l _ c => hD l c) 0 le_rfl 10000 (by norm_num)
  refine ⟨v, fun ω => ?_, ?_⟩
  · have := h1 [1, 0] ω (by
      show ([1, 0] : List ℕ).Perm [0, 1]
      decide)
    exact this
  · have h3 := (h2 1 (by simp) _ _ rfl rfl).1 (by norm_num)
    refine ⟨h3.1, ?_⟩
    have h4 := h3.2.1
    rw [show (((10000 : ℕ) : ℝ) - 999) = 9001 by norm_num] at h4
    exact h4

end Props
end RMT
