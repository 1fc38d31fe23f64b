import Verif.Props.ComputedEdges

/-! # C154 for `time_series_eigs` -/

namespace RMT
namespace Props
open Gen EigValsM EigM Unfold MeasureTheory ProbabilityTheory Spec Gauss Inertia Semi Weyl Helpers
open Real Set Filter Topology

variable {σ Ω : Type} [MeasurableSpace Ω]

/-- **C154 (time_series_eigs).** The Marchenko-Pastur law for `time_series_eigs(n, t)` with a backward stable eigenvalue routine. -/
theorem C154_time_series (P : ℕ → Measure Ω) [∀ n, IsProbabilityMeasure (P n)] (R : Rng σ) (eigvalsh : EigSolver) (δ : (n : ℕ) → Matrix (Fin n) (Fin n) ℝ → ℝ) (hs : BackwardStable eigvalsh δ)
    (c : ℕ → ℝ) (hδ : RelativeError δ c) (hc : Tendsto (fun n : ℕ => c n * √n) atTop (𝓝 0)) (s : ℕ → Ω → σ) (hX : ∀ n, NormalDraws (P n) fun k ω => draw R (s n ω) k) (N T : ℕ → ℕ)
    (hN2 : ∀ n, 2 ≤ N n) (hT2 : ∀ n, 2 ≤ T n) (hN : Tendsto N atTop atTop) (hT : Tendsto T atTop atTop) (q : ℝ) (hq : 0 < q) (hr : Tendsto (fun n => (N n : ℝ) / T n) atTop (𝓝 q)) :
    ∃ vals : ℕ → Ω → List ℝ, (∀ n ω, (timeSeriesEigs R eigvalsh (N n) (T n) "normal" (s n ω)).1 = .ok (vals n ω)) ∧
      ∀ a > 0, InProbability P (fun n ω => (countGT (vals n ω) a : ℝ) / N n) (∫ x in Ioi a, mpDensity q x) := by
  set Z : ℕ → ℕ → Ω → ℝ := fun n k ω => draw R (s n ω) k with hZdef
  have hdata : ∀ n ω, (fun (i : Fin (N n)) (j : Fin (T n)) => (normals R (N n * T n) (s n ω)).1.getD (i.val * T n + j.val) 0 : Matrix (Fin (N n)) (Fin (T n)) ℝ) = noise (Z n) (N n) (T n) ω := by
    intro n ω
    funext i j
    have hlt : i.val * T n + j.val < N n * T n := by
      have := i.isLt
      have := j.isLt
      nlinarith
    rw [normals_draws]
    simp [noise, Z, List.getD, hlt]
  refine ⟨fun n ω => eigvalsh (N n) (corrMatrix (noise (Z n) (N n) (T n) ω)), fun n ω => ?_, fun a ha => ?_⟩
  · have h1 := hN2 n
    have h2 := hT2 n
    simp only [timeSeriesEigs, if_true, hdata, if_neg (show N n ≠ 1 by omega), correlateFast_eq _ 0 (show 0 < T n by omega)]
  · refine inProb_sandwich (fun n ω b => (cnt (wantedMatrix (noise (Z n) (N n) (T n) ω) false) b : ℝ) / N n) _ (fun n ω => δ (N n) (corrMatrix (noise (Z n) (N n) (T n) ω))) (tail q) a (tail_cont q hq a ha)
      ?_ ?_ ⟨a, ha, fun η h0 hη => ?_⟩
    · filter_upwards [lt_mem_nhds ha] with b hb
      exact inProb_wanted Z hX N T hT2 hN hT q hq hr false b hb
    · intro η hη
      have hd : Tendsto (fun n => c (N n) * √(N n)) atTop (𝓝 0) := hc.comp hN
      refine noise_error_small P Z hX N T hN2 hT2 hT q hr false (fun n => c (N n)) hd (fun n ω => δ (N n) (corrMatrix (noise (Z n) (N n) (T n) ω))) (fun n => Eventually.of_forall fun ω => ?_) η hη
      simp only [wantedMatrix, Bool.false_eq_true, if_false]
      rw [← frob_sq _ (corrMatrix_isSymm _), Real.sqrt_sq (show 0 ≤ frobenius (corrMatrix (noise (Z n) (N n) (T n) ω)) from Real.sqrt_nonneg _)]
      exact hδ _ _ (corrMatrix_isSymm _)
    · refine Eventually.of_forall fun n ω he => ?_
      have hw := countGT_within (backward_within eigvalsh δ hs (N n) _ (corrMatrix_isSymm (noise (Z n) (N n) (T n) ω))) a
      have e1 : countGT (npSort (eigvalsh (N n) (corrMatrix (noise (Z n) (N n) (T n) ω)))) a = countGT (eigvalsh (N n) (corrMatrix (noise (Z n) (N n) (T n) ω))) a := by
        rw [countGT_eq, countGT_eq, Multiset.coe_eq_coe.mpr (npSort_perm _)]
      have e2 : ∀ b, countGT (npSort (exactRoutine (N n) (corrMatrix (noise (Z n) (N n) (T n) ω)))) b = cnt (corrMatrix (noise (Z n) (N n) (T n) ω)) b := fun b => by
        rw [countGT_eq, cnt, show ((npSort (exactRoutine (N n) (corrMatrix (noise (Z n) (N n) (T n) ω))) : List ℝ) : Multiset ℝ) = _ from sorted_roots _]
      rw [e1, e2, e2] at hw
      simp only [wantedMatrix, Bool.false_eq_true, if_false]
      rw [max_comm]
      refine between (div_le_div_of_nonneg_right ?_ (by positivity)) (div_le_div_of_nonneg_right ?_ (by positivity))
      · exact_mod_cast (cnt_anti _ (by linarith)).trans hw.1
      · exact_mod_cast hw.2.trans (cnt_anti _ (by linarith))

/-- Non-vacuity: a routine that is not exact, on matrices of `n + 2` series of `n + 2` independent normal numbers. -/
example : ∃ vals : ℕ → (ℕ → ℝ) → List ℝ, (∀ n ω, (timeSeriesEigs streamRng relativeSolver (n + 2) (n + 2) "normal" ω).1 = .ok (vals n ω)) ∧ ¬ ExactSolver relativeSolver ∧
    ∀ a > 0, InProbability (fun _ => Measure.infinitePi fun _ : ℕ => gaussianReal 0 1) (fun n ω => (countGT (vals n ω) a : ℝ) / (n + 2 : ℕ)) (∫ x in Ioi a, mpDensity 1 x) := by
  have hN : Tendsto (fun n : ℕ => n + 2) atTop atTop := tendsto_add_atTop_nat 2
  have hr : Tendsto (fun n : ℕ => ((n + 2 : ℕ) : ℝ) / ((n + 2 : ℕ) : ℝ)) atTop (𝓝 1) := tendsto_const_nhds.congr fun n => by
    rw [div_self]
    positivity
  obtain ⟨v, h1, h2⟩ := C154_time_series (fun _ => Measure.infinitePi fun _ : ℕ => gaussianReal 0 1) streamRng relativeSolver _ relativeSolver_stable _ relativeSolver_error relative_vanishes (fun _ => id) (fun _ => stream_draws)
    (fun n => n + 2) (fun n => n + 2) (fun n => by omega) (fun n => by omega) hN hN 1 one_pos hr
  exact ⟨v, h1, relative_inexact, h2⟩

end Props
end RMT
