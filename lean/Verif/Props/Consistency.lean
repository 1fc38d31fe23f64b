import Verif.Lemmas.Convergence
import Verif.Lemmas.Measurable
import Verif.Props.RigidityLoop
import Verif.Props.LevelVariance
import Mathlib.Probability.Independence.InfinitePi

/-!
# Properties C114, C115: with independent uniform draws the Monte-Carlo observables converge, with probability one, to the averages they estimate

`UniformDraws` and `average` are in `Spec/Draws.lean`.
-/

namespace RMT
namespace Props
open Rigidity LevelVar Spec MeasureTheory

variable {Ω : Type} [MeasurableSpace Ω] (P : Measure Ω) [IsProbabilityMeasure P]

/-- Independent uniform draws exist. -/
theorem draws_exist : ∃ (Ω : Type) (_ : MeasurableSpace Ω) (P : Measure Ω) (_ : IsProbabilityMeasure P) (U : Nat → Nat → Ω → ℝ), ∀ i, UniformDraws P (U i) := by
  have : IsProbabilityMeasure ((volume : Measure ℝ).restrict (Set.Ico 0 1)) := ⟨by simp⟩
  refine ⟨Nat × Nat → ℝ, inferInstance, Measure.infinitePi fun _ => (volume : Measure ℝ).restrict (Set.Ico 0 1), inferInstance, fun i j ω => ω (i, j), fun i => ⟨fun j => by fun_prop, ?_, ?_⟩⟩
  · intro j k hjk
    have h := ProbabilityTheory.iIndepFun_infinitePi (P := fun _ : Nat × Nat => (volume : Measure ℝ).restrict (Set.Ico 0 1)) (X := fun _ x => x) (fun _ => measurable_id)
    exact h.indepFun (i := (i, j)) (j := (i, k)) (by simpa using hjk)
  · intro j
    exact Measure.infinitePi_map_eval _ _

/-- **C114 (stops by itself).** With probability one the loop of `delta_L` meets its convergence criterion: for every tolerance `> 0` and minimum there is an iteration by which it has stopped with success, whenever the budget is larger. -/
theorem C114_stops (levels : List ℝ) (hne : levels ≠ []) (hs : Ascending levels) (L : ℝ) (hL : 0 < L) (gridsize : Nat) (hg : 1 ≤ gridsize) (useSimpson : Bool) (U : Nat → Ω → ℝ) (hU : UniformDraws P U) :
    ∀ᵐ ω ∂P, ∀ (tol : ℝ) (minIters : Nat), 0 < tol → ∃ M, ∀ maxIters, M < maxIters →
      ∃ v k, deltaL levels L gridsize maxIters minIters tol useSimpson (fun j => U j ω) = .ok (v, true, k) ∧ k ≤ M := by
  obtain ⟨D, h1, h2, B, h3⟩ := d3Sample_measurable levels hne hs L gridsize hg useSimpson
  filter_upwards [Draws.lln_centre P U hU (levels.head hne) (levels.getLast hne) D h2 B h3] with ω hω
  intro tol minI ht
  exact deltaL_stops levels hne L hL gridsize hg minI tol ht useSimpson (fun j => U j ω) _ (fun j => h1 _) _ hω

/-- **C114 (consistency).** Let `D l c` be the rigidity sample for window length `l` and centre `c`. With probability one: for every `ε > 0` there is an `M` such that every result of `spectral_rigidity` that used at least `M` iterations is within `ε` of the average
of `D l` over all window centres between the least and the greatest level, for every tolerance, budget, and execution order of the parallel loop. With `tol ≤ 0` the whole budget is used, so the result converges as the budget grows. -/
theorem C114_consistent (levels : List ℝ) (hne : levels ≠ []) (hs : Ascending levels) (Ls : List ℝ) (hL : ∀ l ∈ Ls, 0 < l) (gridsize : Nat) (hg : 1 ≤ gridsize) (integration : String)
    (Up : Nat → ℝ) (U : Nat → Nat → Ω → ℝ) (hU : ∀ i, UniformDraws P (U i)) (D : ℝ → ℝ → ℝ)
    (hD : ∀ l ∈ Ls, ∀ c, d3Sample levels l gridsize (decide (integration ≠ "trapz")) c = .ok (D l c)) :
    ∀ᵐ ω ∂P, ∀ ε > 0, ∃ M : Nat, ∀ (order : List Nat) (tol : ℝ) (maxIters : Int), order.Perm (List.range Ls.length) → 0 < maxIters →
      ∃ vals conv iters, spectralRigidity order levels Ls tol maxIters gridsize integration Up (fun i j => U i j ω) = .ok (Ls, vals, conv, iters) ∧
        vals.length = Ls.length ∧ iters.length = Ls.length ∧
        ∀ i (h : i < Ls.length) (h1 : i < vals.length) (h2 : i < iters.length),
          (M ≤ iters[i] → |vals[i] - average (levels.head hne) (levels.getLast hne) (D Ls[i])| < ε) ∧ (tol ≤ 0 → maxIters ≤ iters[i]) := by
  have hall : ∀ i, ∀ᵐ ω ∂P, ∀ h : i < Ls.length, Filter.Tendsto (runMean fun j => D Ls[i] (uniform (levels.head hne) (levels.getLast hne) (U i j ω))) Filter.atTop
      (nhds (average (levels.head hne) (levels.getLast hne) (D Ls[i]))) := by
    intro i
    by_cases h : i < Ls.length
    · obtain ⟨D', h1, h2, B, h3⟩ := d3Sample_measurable levels hne hs Ls[i] gridsize hg (decide (integration ≠ "trapz"))
      have : D' = D Ls[i] := by
        funext c
        have := h1 c
        rw [hD _ (List.getElem_mem h)] at this
        exact (Except.ok.inj this).symm
      subst this
      filter_upwards [Draws.lln_centre P (U i) (hU i) (levels.head hne) (levels.getLast hne) _ h2 B h3] with ω hω
      exact fun _ => hω
    · exact Filter.Eventually.of_forall fun ω h' => absurd h' h
  filter_upwards [ae_all_iff.mpr hall] with ω hω
  intro ε hε
  have hM : ∀ i, ∃ M : Nat, ∀ h : i < Ls.length, ∀ maxI minI tol, ∃ v conv k, deltaL levels Ls[i] gridsize maxI minI tol (decide (integration ≠ "trapz")) (fun j => U i j ω) = .ok (v, conv, k) ∧
      (M ≤ k → |v - average (levels.head hne) (levels.getLast hne) (D Ls[i])| < ε) := by
    intro i
    by_cases h : i < Ls.length
    · obtain ⟨M, hM⟩ := deltaL_close levels hne Ls[i] (hL _ (List.getElem_mem h)) gridsize hg (decide (integration ≠ "trapz")) (fun j => U i j ω) _ (fun j => hD _ (List.getElem_mem h) _) _ (hω i h) ε hε
      exact ⟨M, fun _ => hM⟩
    · exact ⟨0, fun h' => absurd h' h⟩
  choose M hM using hM
  refine ⟨(Finset.range Ls.length).sup M, fun order tol maxIters ho hm => ?_⟩
  obtain ⟨vals, conv, iters, e1, e2, e3, e4, e5⟩ := C17_rigidity_explicit order levels Ls hne hL tol maxIters hm gridsize hg integration Up (fun i j => U i j ω) ho
  refine ⟨vals, conv, iters, e1, e2, e4, fun i h h1 h2 => ?_⟩
  have e := e5 i h h1 (by omega) h2
  constructor
  · intro hk
    obtain ⟨v, c, k, f1, f2⟩ := hM i h maxIters.toNat 100 tol
    rw [e] at f1
    injection f1 with f1
    rw [Prod.mk.injEq, Prod.mk.injEq] at f1
    obtain ⟨rfl, -, rfl⟩ := f1
    exact f2 (le_trans (Finset.le_sup (f := M) (Finset.mem_range.mpr h)) hk)
  · intro ht
    obtain ⟨d, -, k, f1, f2, f3, f4, -⟩ := deltaL_spec levels hne Ls[i] (hL _ (List.getElem_mem h)) gridsize hg maxIters.toNat 100 tol (decide (integration ≠ "trapz")) (fun j => U i j ω)
    rw [e] at f1
    injection f1 with f1
    rw [Prod.mk.injEq, Prod.mk.injEq] at f1
    obtain ⟨-, -, rfl⟩ := f1
    rcases f4 with f | ⟨-, -, f⟩
    · omega
    · obtain ⟨-, f⟩ := (rangeBelow_iff _ _).mp f
      obtain ⟨x, l, hx⟩ := List.exists_cons_of_ne_nil (window_ne d iters[i])
      have := f x (by rw [hx]; simp) x (by rw [hx]; simp)
      linarith

/-- The number of levels in the closed window of length `L` centred at `c`. -/
noncomputable def levelsIn (levels : List ℝ) (L c : ℝ) : ℝ := countIn levels (c - L / 2) (c + L / 2)

/-- The number variance: the mean squared deviation of the number of levels in a window of length `L` from its mean, over all window centres between `lo` and `hi`. -/
noncomputable def numberVariance (levels : List ℝ) (lo hi L : ℝ) : ℝ :=
  average lo hi fun c => (levelsIn levels L c - average lo hi (levelsIn levels L)) ^ 2

theorem levelsIn_eq (levels : List ℝ) (L c : ℝ) : levelsIn levels L c = (nWithin levels L c : ℝ) := by
  rw [levelsIn, nWithin_eq]

theorem sigma_ae (levels : List ℝ) (lo hi L : ℝ) (U : Nat → Ω → ℝ) (hU : UniformDraws P U) :
    ∀ᵐ ω ∂P, Filter.Tendsto (runVar fun j => (nWithin levels L (uniform lo hi (U (j + 1) ω)) : ℝ)) Filter.atTop (nhds (numberVariance levels lo hi L)) := by
  obtain ⟨h1, h2⟩ := nWithin_measurable levels L
  have := Draws.variance_centre P (fun j => U (j + 1)) (Draws.shift P U hU) lo hi _ h1 _ h2
  have e : numberVariance levels lo hi L = average lo hi fun c => ((nWithin levels L c : ℝ) - average lo hi fun c => (nWithin levels L c : ℝ)) ^ 2 := by
    unfold numberVariance
    simp only [levelsIn_eq]
    have : levelsIn levels L = fun c => (nWithin levels L c : ℝ) := funext fun c => levelsIn_eq levels L c
    rw [this]
  rw [e]
  exact this

/-- **C115 (stops by itself).** With probability one the loop of `sigma_L` meets its convergence criterion, for every tolerance `> 0` and minimum, if the budget is large enough. -/
theorem C115_stops (levels : List ℝ) (hne : levels ≠ []) (L : ℝ) (U : Nat → Ω → ℝ) (hU : UniformDraws P U) :
    ∀ᵐ ω ∂P, ∀ (tol : ℝ) (minIters : Nat), 0 < tol → ∃ M, ∀ maxIters, M < maxIters →
      ∃ v k, sigmaL levels L maxIters tol minIters (fun j => U j ω) = .ok (v, true, k) ∧ k ≤ M := by
  obtain ⟨mn, hmn⟩ := exists_isMin levels hne
  obtain ⟨mx, hmx⟩ := exists_isMax levels hne
  filter_upwards [sigma_ae P levels mn mx L U hU] with ω hω
  intro tol minI ht
  exact sigmaL_stops levels mn mx hmn hmx L minI tol ht (fun j => U j ω) _ (fun j => rfl) _ hω

/-- **C115 (consistency).** With probability one: for every `ε > 0` there is an `M` such that every result of `level_number_variance` that used at least `M` iterations is within `ε` of the number variance of the spectrum over all window
centres between its least and greatest level, for every tolerance, budget and execution order. With `tol ≤ 0` the whole budget is used. Levels need not be sorted. -/
theorem C115_consistent (levels : List ℝ) (lo hi : ℝ) (hlo : Spec.IsMin levels lo) (hhi : Spec.IsMax levels hi) (Ls : List ℝ)
    (Up : Nat → ℝ) (U : Nat → Nat → Ω → ℝ) (hU : ∀ i, UniformDraws P (U i)) (junk : Nat) :
    ∀ᵐ ω ∂P, ∀ ε > 0, ∃ M : Nat, ∀ (order : List Nat) (tol : ℝ) (maxIters : Int), order.Perm (List.range Ls.length) → 0 < maxIters →
      ∃ vals conv iters, levelNumberVariance order levels Ls tol maxIters Up (fun i j => U i j ω) junk = .ok (Ls, vals, conv, iters) ∧
        vals.length = Ls.length ∧ iters.length = Ls.length ∧
        ∀ i (h : i < Ls.length) (h1 : i < vals.length) (h2 : i < iters.length),
          (M ≤ iters[i] → |vals[i] - numberVariance levels lo hi Ls[i]| < ε) ∧ (tol ≤ 0 → maxIters ≤ iters[i]) := by
  have hne : levels ≠ [] := List.ne_nil_of_mem hlo.1
  have hall : ∀ i, ∀ᵐ ω ∂P, ∀ h : i < Ls.length, Filter.Tendsto (runVar fun j => (nWithin levels Ls[i] (uniform lo hi (U i (j + 1) ω)) : ℝ)) Filter.atTop (nhds (numberVariance levels lo hi Ls[i])) := by
    intro i
    by_cases h : i < Ls.length
    · filter_upwards [sigma_ae P levels lo hi Ls[i] (U i) (hU i)] with ω hω
      exact fun _ => hω
    · exact Filter.Eventually.of_forall fun ω h' => absurd h' h
  filter_upwards [ae_all_iff.mpr hall] with ω hω
  intro ε hε
  have hM : ∀ i, ∃ M : Nat, ∀ h : i < Ls.length, ∀ maxI minI tol, ∃ v conv k, sigmaL levels Ls[i] maxI tol minI (fun j => U i j ω) = .ok (v, conv, k) ∧
      (M ≤ k → |v - numberVariance levels lo hi Ls[i]| < ε) := by
    intro i
    by_cases h : i < Ls.length
    · obtain ⟨M, hM⟩ := sigmaL_close levels lo hi hlo hhi Ls[i] (fun j => U i j ω) _ (fun j => rfl) _ (hω i h) ε hε
      exact ⟨M, fun _ => hM⟩
    · exact ⟨0, fun h' => absurd h' h⟩
  choose M hM using hM
  refine ⟨(Finset.range Ls.length).sup M, fun order tol maxIters ho hm => ?_⟩
  obtain ⟨vals, conv, iters, e1, e2, e3, e4, e5⟩ := C20_levelvar_explicit order levels Ls hne tol maxIters hm Up (fun i j => U i j ω) junk ho
  refine ⟨vals, conv, iters, e1, e2, e4, fun i h h1 h2 => ?_⟩
  have e := e5 i h h1 (by omega) h2
  constructor
  · intro hk
    obtain ⟨v, c, k, f1, f2⟩ := hM i h maxIters.toNat 100 tol
    rw [e] at f1
    injection f1 with f1
    rw [Prod.mk.injEq, Prod.mk.injEq] at f1
    obtain ⟨rfl, -, rfl⟩ := f1
    exact f2 (le_trans (Finset.le_sup (f := M) (Finset.mem_range.mpr h)) hk)
  · intro ht
    obtain ⟨k, f1, f2, f3, f4, -⟩ := sigmaL_spec levels lo hi hlo hhi Ls[i] maxIters.toNat tol 100 (fun j => U i j ω) _ (fun j => rfl)
    rw [e] at f1
    injection f1 with f1
    rw [Prod.mk.injEq, Prod.mk.injEq] at f1
    obtain ⟨-, -, rfl⟩ := f1
    rcases f4 with f | ⟨-, -, f⟩
    · omega
    · have := (rangeBelow_swindow _ _ _).mp f 0 (by norm_num) 0 (by norm_num)
      rw [sub_self, abs_zero] at this
      linarith

/-- Non-vacuity of C114 and C115: draws exist, the samples exist for a concrete spectrum, and the averages are those of a concrete function. -/
example : (∃ (Ω : Type) (_ : MeasurableSpace Ω) (P : Measure Ω) (_ : IsProbabilityMeasure P) (U : Nat → Nat → Ω → ℝ), ∀ i, UniformDraws P (U i)) ∧
    (∃ D : ℝ → ℝ → ℝ, ∀ l ∈ [(1 : ℝ), 2], ∀ c, d3Sample [0, 1, 1, 3] l 100 (decide ("simps" ≠ "trapz")) c = .ok (D l c)) ∧
    Spec.IsMin [(3 : ℝ), 0, 1] 0 ∧ Spec.IsMax [(3 : ℝ), 0, 1] 3 ∧ average 0 2 (fun _ => 5) = 5 := by
  refine ⟨draws_exist, ?_, ?_, ?_, ?_⟩
  · have h : ∀ l : ℝ, ∃ D : ℝ → ℝ, ∀ c, d3Sample [0, 1, 1, 3] l 100 (decide ("simps" ≠ "trapz")) c = .ok (D c) := fun l =>
      (d3Sample_measurable [0, 1, 1, 3] (by simp) (by simp [Ascending]) l 100 (by norm_num) _).imp fun D h => h.1
    choose D hD using h
    exact ⟨D, fun l _ c => hD l c⟩
  · simp [Spec.IsMin]
  · simp [Spec.IsMax]
  · simp [Spec.average]

end Props
end RMT
