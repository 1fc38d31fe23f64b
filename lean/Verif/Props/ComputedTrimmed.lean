import Verif.Props.ComputedUnfold
import Verif.Props.TrimmedLimits

/-! # C194 for computed spectra -/

namespace RMT
namespace Props
open Gen EigValsM EigM Unfold Smooth MeasureTheory ProbabilityTheory Spec Gauss Analytic Filter Topology Semi Helpers Weyl

variable {σ Ω : Type} [MeasurableSpace Ω]

/-- **C194 (computed spectra).** `C194_goe` with an eigenvalue routine that makes rounding errors: it is backward stable with a relative error `c n` on `n × n` matrices such that `c n √n → 0`. -/
theorem C194_computed (R : Rng σ) (eh : EigSolver) (ehC : (n : Nat) → Matrix (Fin n) (Fin n) ℂ → List ℝ) (δ : (n : ℕ) → Matrix (Fin n) (Fin n) ℝ → ℝ) (hs : BackwardStable eh δ)
    (c : ℕ → ℝ) (hδ : RelativeError δ c) (hc : Tendsto (fun n : ℕ => c n * √n) atTop (𝓝 0))
    (P : ℕ → Measure Ω) [∀ n, IsProbabilityMeasure (P n)] (e s : ℕ → Ω → σ) (hX : ∀ n, NormalDraws (P n) fun k ω => draw R (s n ω) k)
    (u v : ℝ) (hu : -2 < u) (huv : u < v) (hv : v < 2) (N K : ℕ → ℕ) (hN : Tendsto N atTop atTop) (hKN : ∀ m, K m + m ≤ N m)
    (hK : Tendsto (fun m => (K m : ℝ) / N m) atTop (𝓝 ((semicircleLaw 2).real (Set.Iic u)))) (hm : Tendsto (fun m : ℕ => (m : ℝ) / N m) atTop (𝓝 ((semicircleLaw 2).real (Set.Icc u v)))) :
    ∃ vals : ℕ → Ω → List ℝ, (∀ n, GeneratedVals R eh ehC n .goe false (e n) (s n) (vals n)) ∧
      ∀ t : ℕ → Ω → List ℝ, (∀ m ω, Report.trimManually (vals (N m) ω) (K m : Int) (K m + m : Int) = .ok (t m ω)) →
        TrimmedFitLimit (fun m => P (N m)) t (fun m => √(N m)) u v (ProbabilityTheory.cond (semicircleLaw 2) (Set.Icc u v)) := by
  rw [TrimLim.icc_real _ semicircle_atom u v huv.le] at hm
  rw [← cdf_eq_real] at hK
  obtain ⟨vals, hg, hl, -⟩ := computed_goe R eh ehC δ hs c hδ hc P e s hX
  exact ⟨vals, hg, fun t ht => trimmed_fit P _ (fun n => √n) _ semicircle_atom hl u v huv (semicircle_increases u hu (by linarith)) (semicircle_increases v (by linarith) hv) N K hN hKN hK hm t ht⟩

/-- **C194 (computed spectra).** The same for `generate(N, "gue")`, with a routine that is backward stable on complex Hermitian matrices. -/
theorem C194_computed_gue (R : Rng σ) (eh : EigSolver) (ehC : (n : Nat) → Matrix (Fin n) (Fin n) ℂ → List ℝ) (δ : (n : ℕ) → Matrix (Fin n) (Fin n) ℂ → ℝ) (hs : BackwardStableC ehC δ)
    (c : ℕ → ℝ) (hδ : RelativeErrorC δ c) (hc : Tendsto (fun n : ℕ => c n * √n) atTop (𝓝 0))
    (P : ℕ → Measure Ω) [∀ n, IsProbabilityMeasure (P n)] (e s : ℕ → Ω → σ) (hX : ∀ n, NormalDraws (P n) fun k ω => draw R (s n ω) k) (tri : Bool)
    (u v : ℝ) (hu : -2 < u) (huv : u < v) (hv : v < 2) (N K : ℕ → ℕ) (hN : Tendsto N atTop atTop) (hKN : ∀ m, K m + m ≤ N m)
    (hK : Tendsto (fun m => (K m : ℝ) / N m) atTop (𝓝 ((semicircleLaw 2).real (Set.Iic u)))) (hm : Tendsto (fun m : ℕ => (m : ℝ) / N m) atTop (𝓝 ((semicircleLaw 2).real (Set.Icc u v)))) :
    ∃ vals : ℕ → Ω → List ℝ, (∀ n, GeneratedVals R eh ehC n .gue tri (e n) (s n) (vals n)) ∧
      ∀ t : ℕ → Ω → List ℝ, (∀ m ω, Report.trimManually (vals (N m) ω) (K m : Int) (K m + m : Int) = .ok (t m ω)) →
        TrimmedFitLimit (fun m => P (N m)) t (fun m => √(N m)) u v (ProbabilityTheory.cond (semicircleLaw 2) (Set.Icc u v)) := by
  rw [TrimLim.icc_real _ semicircle_atom u v huv.le] at hm
  rw [← cdf_eq_real] at hK
  obtain ⟨vals, hg, hl, -⟩ := computed_gue R eh ehC δ hs c hδ hc P e s hX tri
  exact ⟨vals, hg, fun t ht => trimmed_fit P _ (fun n => √n) _ semicircle_atom hl u v huv (semicircle_increases u hu (by linarith)) (semicircle_increases v (by linarith) hv) N K hN hKN hK hm t ht⟩

/-- **C194 (computed spectra).** The same for `generate(N, "goe", use_tridiagonal=True)`. -/
theorem C194_computed_tridiagonal (R : Rng σ) (eh : EigSolver) (ehC : (n : Nat) → Matrix (Fin n) (Fin n) ℂ → List ℝ) (δ : (n : ℕ) → Matrix (Fin n) (Fin n) ℝ → ℝ) (hs : BackwardStable eh δ)
    (c : ℕ → ℝ) (hδ : RelativeError δ c) (hc : Tendsto (fun n : ℕ => c n * √n) atTop (𝓝 0))
    (P : ℕ → Measure Ω) [∀ n, IsProbabilityMeasure (P n)] (e s : ℕ → Ω → σ)
    (hC : ∀ n > 500, ChiSquareDraws (P n) (n - 1) fun k ω => chiDraws R n (s n ω) k) (hZ : ∀ n > 500, NormalDraws (P n) fun k ω => diagDraws R n (s n ω) k)
    (hi : ∀ n > 500, IndepFun (fun ω => chiDraws R n (s n ω)) (fun ω => diagDraws R n (s n ω)) (P n))
    (u v : ℝ) (hu : -2 < u) (huv : u < v) (hv : v < 2) (N K : ℕ → ℕ) (hN : Tendsto N atTop atTop) (hKN : ∀ m, K m + m ≤ N m)
    (hK : Tendsto (fun m => (K m : ℝ) / N m) atTop (𝓝 ((semicircleLaw 2).real (Set.Iic u)))) (hm : Tendsto (fun m : ℕ => (m : ℝ) / N m) atTop (𝓝 ((semicircleLaw 2).real (Set.Icc u v)))) :
    ∃ vals : ℕ → Ω → List ℝ, (∀ n, GeneratedVals R eh ehC n .goe true (e n) (s n) (vals n)) ∧
      ∀ t : ℕ → Ω → List ℝ, (∀ m ω, Report.trimManually (vals (N m) ω) (K m : Int) (K m + m : Int) = .ok (t m ω)) →
        TrimmedFitLimit (fun m => P (N m)) t (fun m => √((N m : ℝ) / 2)) u v (ProbabilityTheory.cond (semicircleLaw 2) (Set.Icc u v)) := by
  rw [TrimLim.icc_real _ semicircle_atom u v huv.le] at hm
  rw [← cdf_eq_real] at hK
  obtain ⟨vals, hg, hl, -⟩ := computed_tridiagonal R eh ehC δ hs c hδ hc P e s hC hZ hi
  exact ⟨vals, hg, fun t ht => trimmed_fit P _ (fun n => √((n : ℝ) / 2)) _ semicircle_atom hl u v huv (semicircle_increases u hu (by linarith)) (semicircle_increases v (by linarith) hv) N K hN hKN hK hm t ht⟩

/-- Routines with errors meet the hypotheses on the routine. -/
example : BackwardStable relativeSolver (fun n M => frobenius M / (n + 1)) ∧ RelativeError (fun n M => frobenius M / (n + 1)) (fun n => 1 / (n + 1)) ∧
    Tendsto (fun n : ℕ => 1 / ((n : ℝ) + 1) * √n) atTop (𝓝 0) ∧ ¬ ExactSolver relativeSolver := ⟨relativeSolver_stable, relativeSolver_error, relative_vanishes, relative_inexact⟩

end Props
end RMT
