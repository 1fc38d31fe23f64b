import Verif.Lemmas.WeylComplex
import Verif.Props.InexactSpectra

/-!
# Properties C152 and C154 for GUE spectra: inexact eigenvalue routines for complex Hermitian matrices
-/

namespace RMT
namespace Props
open Gen EigValsM EigM Unfold MeasureTheory ProbabilityTheory Spec Gauss Inertia Semi Weyl
open Real Set Filter Topology

variable {σ Ω : Type} [MeasurableSpace Ω] {n : ℕ}

/-- An exact routine to compare with. -/
noncomputable def exactHermitian : (n : ℕ) → Matrix (Fin n) (Fin n) ℂ → List ℝ := fun _ M => M.charpoly.roots.toList.map Complex.re

theorem exactHermitian_exact : ExactHermitian exactHermitian := fun n M hM => by
  rw [exactHermitian, ← Multiset.map_coe, Multiset.coe_toList, Multiset.map_map, hM.roots_charpoly_eq_eigenvalues, Multiset.map_map]
  exact Multiset.map_congr rfl fun x _ => by simp

theorem sorted_rootsC (ehC : (n : ℕ) → Matrix (Fin n) (Fin n) ℂ → List ℝ) (M M' : Matrix (Fin n) (Fin n) ℂ) (h : ((ehC n M : Multiset ℝ).map fun (x : ℝ) => (x : ℂ)) = M'.charpoly.roots) :
    ((npSort (ehC n M) : Multiset ℝ).map fun (x : ℝ) => (x : ℂ)) = M'.charpoly.roots := by
  rw [Multiset.coe_eq_coe.mpr (npSort_perm _), h]

/-- **C152 (generated GUE spectra).** The same for `generate(n, "gue")`, with a routine that is backward stable on complex Hermitian matrices. -/
theorem C152_generate_gue (R : Rng σ) (eh : EigSolver) (ehC : (n : Nat) → Matrix (Fin n) (Fin n) ℂ → List ℝ) (δ : (n : ℕ) → Matrix (Fin n) (Fin n) ℂ → ℝ) (h : BackwardStableC ehC δ)
    (seed : Option Nat) (tri : Bool) (e s : σ) :
    ∃ o l, (generate R eh ehC n (.kind .gue) seed tri e s).1 = .ok (o, .gue) ∧ IsSpectrum (generateGUE R n seed s).1 l ∧ Ascending l ∧
      EntriesWithin (δ n (generateGUE R n seed s).1) l o.vals ∧
      ∀ x, countLE l (x - δ n (generateGUE R n seed s).1) ≤ countLE o.vals x ∧ countLE o.vals x ≤ countLE l (x + δ n (generateGUE R n seed s).1) := by
  obtain ⟨o, h1, h2⟩ := (C49_values R eh ehC n seed tri e s).2.1
  have hM : (generateGUE R n seed s).1.IsHermitian := (C49_symmetric R n seed tri s).2
  obtain ⟨M', hM', hf, e'⟩ := h n _ hM
  have r1 := sorted_rootsC exactHermitian _ _ (exactHermitian_exact n _ hM)
  have r2 := sorted_rootsC ehC _ _ e'
  refine ⟨o, npSort (exactHermitian n (generateGUE R n seed s).1), h1, ?_, npSort_ascending _, ?_, fun x => ⟨?_, ?_⟩⟩
  · rw [IsSpectrum]
    simpa using r1
  · rw [h2]
    exact weylC hM hM' hf _ _ r1 r2 (npSort_ascending _) (npSort_ascending _)
  · have := countsC_shift hM' hM (formsC_symm hf) _ _ r2 r1 (x - δ n (generateGUE R n seed s).1)
    rw [sub_add_cancel] at this
    rwa [h2]
  · rw [h2]
    exact countsC_shift hM hM' hf _ _ r1 r2 x

/-- The relative error of a routine for complex Hermitian matrices. -/
def RelativeErrorC (δ : (n : ℕ) → Matrix (Fin n) (Fin n) ℂ → ℝ) (c : ℕ → ℝ) : Prop := ∀ n (M : Matrix (Fin n) (Fin n) ℂ), M.IsHermitian → δ n M ≤ c n * frobeniusC M

theorem frobC_vals (M : Matrix (Fin n) (Fin n) ℂ) (hM : M.IsHermitian) (l : List ℝ) (hl : ((l : Multiset ℝ).map fun (x : ℝ) => (x : ℂ)) = M.charpoly.roots) :
    frobeniusC M ^ 2 = (l.map (· ^ 2)).sum := by
  have h0 : 0 ≤ ∑ i, ∑ j, ‖M i j‖ ^ 2 := Finset.sum_nonneg fun i _ => Finset.sum_nonneg fun j _ => sq_nonneg _
  have h1 : frobeniusC M ^ 2 = ∑ i, ∑ j, ‖M i j‖ ^ 2 := Real.sq_sqrt h0
  have h2 := SpectrumM.trace_pow M hM 2
  have h3 : (l.map (· ^ 2)).sum = ∑ i, hM.eigenvalues i ^ 2 := by
    rw [← Multiset.sum_coe, ← Multiset.map_coe, levels_eq hM l hl, Multiset.map_map]
    rfl
  rw [h1, h3]
  apply Complex.ofReal_injective
  rw [← Complex.coe_algebraMap, Complex.coe_algebraMap] at *
  refine Eq.trans ?_ h2
  rw [sq, Matrix.trace, Complex.ofReal_sum]
  refine Finset.sum_congr rfl fun i _ => ?_
  rw [Matrix.diag_apply, Matrix.mul_apply, Complex.ofReal_sum]
  refine Finset.sum_congr rfl fun j _ => ?_
  rw [← hM.apply j i, ← Complex.normSq_eq_norm_sq, ← Complex.mul_conj]
  rfl

theorem countsC_within (ehC : (n : ℕ) → Matrix (Fin n) (Fin n) ℂ → List ℝ) (δ : (n : ℕ) → Matrix (Fin n) (Fin n) ℂ → ℝ) (h : BackwardStableC ehC δ) (M : Matrix (Fin n) (Fin n) ℂ) (hM : M.IsHermitian)
    (r a η f m : ℝ) (hr : 0 < r) (hm : 0 ≤ m) (he : δ n M / r ≤ η) :
    |(countLE (npSort (ehC n M)) (a * r) : ℝ) / m - f| ≤
      max |(countLE (npSort (exactHermitian n M)) ((a - η) * r) : ℝ) / m - f| |(countLE (npSort (exactHermitian n M)) ((a + η) * r) : ℝ) / m - f| := by
  obtain ⟨M', hM', hf, e⟩ := h n M hM
  have e1 := sorted_rootsC ehC _ _ e
  have e2 := sorted_rootsC exactHermitian _ _ (exactHermitian_exact n M hM)
  have hd : δ n M ≤ η * r := (div_le_iff₀ hr).mp he
  refine between (div_le_div_of_nonneg_right ?_ hm) (div_le_div_of_nonneg_right ?_ hm)
  · have h1 := countsC_shift hM' hM (formsC_symm hf) _ _ e1 e2 (a * r - δ n M)
    rw [sub_add_cancel] at h1
    exact_mod_cast (countLE_le _ (by linarith)).trans h1
  · have h1 := countsC_shift hM hM' hf _ _ e2 e1 (a * r)
    exact_mod_cast h1.trans (countLE_le _ (by linarith))

/-- **C154 (GUE).** The same for `generate(n, "gue")`, with a routine that is backward stable on complex Hermitian matrices. -/
theorem C154_gue (R : Rng σ) (eh : EigSolver) (ehC : (n : Nat) → Matrix (Fin n) (Fin n) ℂ → List ℝ) (δ : (n : ℕ) → Matrix (Fin n) (Fin n) ℂ → ℝ) (hs : BackwardStableC ehC δ)
    (c : ℕ → ℝ) (hδ : RelativeErrorC δ c) (hc : Tendsto (fun n : ℕ => c n * √n) atTop (𝓝 0))
    (P : Nat → Measure Ω) [∀ n, IsProbabilityMeasure (P n)] (e s : Nat → Ω → σ) (hX : ∀ n, NormalDraws (P n) fun k ω => draw R (s n ω) k) (tri : Bool) :
    ∃ vals : Nat → Ω → List ℝ, (∀ n, GeneratedVals R eh ehC n .gue tri (e n) (s n) (vals n)) ∧
      ∀ a : ℝ, InProbability P (fun n ω => (countLE (vals n ω) (a * √n) : ℝ) / n) ((semicircleLaw 2).real (Set.Iic a)) := by
  refine ⟨fun n ω => npSort (ehC n (generateGUE R n none (s n ω)).1), fun n ω => (C49_values R eh ehC n none tri (e n ω) (s n ω)).2.1, fun a => ?_⟩
  set X : ℕ → ℕ → Ω → ℝ := fun n k ω => draw R (s n ω) k with hXd
  have hM : ∀ n ω, (generateGUE R n none (s n ω)).1.IsHermitian := fun n ω => (C49_symmetric R n none tri (s n ω)).2
  have hL : ∀ n ω, npSort (exactHermitian n (generateGUE R n none (s n ω)).1) = fullC exactHermitian (X n) n ω := fun n ω => by rw [gue_draws]; rfl
  have hfacts := fun n => fullC_facts exactHermitian exactHermitian_exact (X n) (hX n).measurable n
  refine inProb_sandwich (fun n ω b => (countLE (npSort (exactHermitian n (generateGUE R n none (s n ω)).1)) (b * √n) : ℝ) / n) _
    (fun n ω => δ n (generateGUE R n none (s n ω)).1 / √n) F a F_cont.continuousAt (Eventually.of_forall fun b => ?_) ?_ ⟨1, one_pos, fun η _ _ => ?_⟩
  · simp only [hL]
    refine inProb_of_mean _ _ (fun n => fraction_integrable (P n) _ (hfacts n).1 (hfacts n).2.1 _ _) ?_
    refine (tendsto_fullC (P := P) exactHermitian exactHermitian_exact X hX b).congr' ?_
    filter_upwards [eventually_gt_atTop 0] with n hn
    refine integral_congr_ae (Eventually.of_forall fun ω => ?_)
    simp only
    rw [frac_levels _ n hn ((hfacts n).1 ω)]
    rfl
  · have h2 := tendsto_v [2]
    refine err_small (fun n ω => emp n (fun i => scaledC exactHermitian (X n) n i ω) fun y => y ^ 2) _ (fun n => c n * √n) hc 2 ?_ (fun n ω => ?_) ?_
    · have hw : (([2].map fun k => (wig k : ℝ)).prod) = 1 := by simp [wig]
      rw [hw] at h2
      filter_upwards [h2.eventually (gt_mem_nhds (show (1 : ℝ) < 2 by norm_num))] with n hn
      refine ⟨momentC_integrable exactHermitian exactHermitian_exact (X n) (hX n) n 2, ?_⟩
      rw [momentC_first exactHermitian exactHermitian_exact (X n) (hX n)]
      exact hn.le
    · exact div_nonneg (Finset.sum_nonneg fun i _ => sq_nonneg _) (by positivity)
    · filter_upwards [eventually_gt_atTop 0] with n hn
      refine Eventually.of_forall fun ω => ?_
      have hn' : (0 : ℝ) < n := by exact_mod_cast hn
      have hq : emp n (fun i => scaledC exactHermitian (X n) n i ω) (fun y => y ^ 2) = (frobeniusC (generateGUE R n none (s n ω)).1 / n) ^ 2 := by
        rw [div_pow, frobC_vals _ (hM n ω) (fullC exactHermitian (X n) n ω) (by rw [← hL]; exact sorted_rootsC exactHermitian _ _ (exactHermitian_exact n _ (hM n ω))), emp]
        have h4 := Semi.sum_getD (fullC exactHermitian (X n) n ω) n ((hfacts n).1 ω) (fun y => y ^ 2)
        simp only [scaledC, div_pow]
        rw [← Finset.sum_div, h4, Real.sq_sqrt hn'.le]
        field_simp
      have hf : 0 ≤ frobeniusC (generateGUE R n none (s n ω)).1 := Real.sqrt_nonneg _
      rw [hq, Real.sqrt_sq (by positivity), div_le_iff₀ (Real.sqrt_pos.mpr hn')]
      refine (hδ n _ (hM n ω)).trans (le_of_eq ?_)
      have := Real.mul_self_sqrt hn'.le
      field_simp
      rw [sq, this]
  · filter_upwards [eventually_gt_atTop 0] with n hn ω he
    exact countsC_within ehC δ hs _ (hM n ω) (√n) a η (F a) n (Real.sqrt_pos.mpr (by exact_mod_cast hn)) (by positivity) he

/-- A routine with relative error `1 / (n + 1)`. -/
noncomputable def relativeHermitian : (n : ℕ) → Matrix (Fin n) (Fin n) ℂ → List ℝ := fun n M => exactHermitian n (M + ((frobeniusC M / (n + 1) : ℝ) : ℂ) • (1 : Matrix _ _ ℂ))

theorem relativeHermitian_stable : BackwardStableC relativeHermitian fun n M => frobeniusC M / (n + 1) := fun n M hM => by
  have hf : 0 ≤ frobeniusC M / ((n : ℝ) + 1) := div_nonneg (Real.sqrt_nonneg _) (by positivity)
  set t := frobeniusC M / ((n : ℝ) + 1)
  have hH : (M + (t : ℂ) • (1 : Matrix _ _ ℂ)).IsHermitian := hM.add (by
    rw [Matrix.IsHermitian, Matrix.conjTranspose_smul, Matrix.conjTranspose_one]
    simp)
  refine ⟨_, hH, fun v => ?_, exactHermitian_exact n _ hH⟩
  have e : (star v ⬝ᵥ v).re = ∑ i, ‖v i‖ ^ 2 := by
    rw [dotProduct, Complex.re_sum]
    refine Finset.sum_congr rfl fun i _ => ?_
    rw [← Complex.normSq_eq_norm_sq, ← Complex.ofReal_re (Complex.normSq (v i)), Complex.normSq_eq_conj_mul_self]
    rfl
  rw [Matrix.add_mulVec, Matrix.smul_mulVec, Matrix.one_mulVec, dotProduct_add, dotProduct_smul, smul_eq_mul, Complex.add_re, Complex.re_ofReal_mul, e, sub_add_cancel_left, abs_neg, abs_of_nonneg]
  exact mul_nonneg hf (Finset.sum_nonneg fun _ _ => sq_nonneg _)

theorem relativeHermitian_inexact : ¬ ExactHermitian relativeHermitian := by
  intro h
  have hf : frobeniusC (1 : Matrix (Fin 1) (Fin 1) ℂ) = 1 := by simp [frobeniusC]
  have h1 := h 1 1 Matrix.isHermitian_one
  obtain ⟨M', hM', hw, e⟩ := relativeHermitian_stable 1 1 Matrix.isHermitian_one
  have hH : ((1 : Matrix (Fin 1) (Fin 1) ℂ) + ((frobeniusC (1 : Matrix (Fin 1) (Fin 1) ℂ) / ((1 : ℕ) + 1 : ℝ) : ℝ) : ℂ) • 1).IsHermitian := Matrix.isHermitian_one.add (by
    rw [Matrix.IsHermitian, Matrix.conjTranspose_smul, Matrix.conjTranspose_one]
    simp)
  have h2 := exactHermitian_exact 1 _ hH
  have h3 : ((relativeHermitian 1 1 : Multiset ℝ).map fun (x : ℝ) => (x : ℂ)) = ((1 : Matrix (Fin 1) (Fin 1) ℂ) + ((frobeniusC (1 : Matrix (Fin 1) (Fin 1) ℂ) / ((1 : ℕ) + 1 : ℝ) : ℝ) : ℂ) • 1).charpoly.roots := h2
  rw [h1, hf] at h3
  have h4 : (1 : ℂ) ∈ (1 : Matrix (Fin 1) (Fin 1) ℂ).charpoly.roots := by
    rw [Polynomial.mem_roots (Matrix.charpoly_monic _).ne_zero, Polynomial.IsRoot, Matrix.charpoly, Matrix.det_fin_one]
    simp [Matrix.charmatrix]
  rw [h3, Polynomial.mem_roots (Matrix.charpoly_monic _).ne_zero, Polynomial.IsRoot, Matrix.charpoly, Matrix.det_fin_one] at h4
  simp [Matrix.charmatrix] at h4

-- C152, C154 for GUE spectra: a routine that is not exact
example : ∃ (ehC : (n : ℕ) → Matrix (Fin n) (Fin n) ℂ → List ℝ) (δ : (n : ℕ) → Matrix (Fin n) (Fin n) ℂ → ℝ) (c : ℕ → ℝ), BackwardStableC ehC δ ∧ RelativeErrorC δ c ∧ Tendsto (fun n : ℕ => c n * √n) atTop (𝓝 0) ∧
    ¬ ExactHermitian ehC ∧
    ∃ vals : Nat → (ℕ → ℝ) → List ℝ, (∀ n, GeneratedVals streamRng exactRoutine ehC n .gue false id id (vals n)) ∧
      ∀ a : ℝ, InProbability (fun _ => Measure.infinitePi fun _ : ℕ => gaussianReal 0 1) (fun n ω => (countLE (vals n ω) (a * √n) : ℝ) / n) ((semicircleLaw 2).real (Set.Iic a)) := by
  have herr : RelativeErrorC (fun n M => frobeniusC M / (n + 1)) fun n => 1 / (n + 1) := fun n M _ => le_of_eq (by ring)
  exact ⟨relativeHermitian, _, _, relativeHermitian_stable, herr, relative_vanishes, relativeHermitian_inexact,
    C154_gue streamRng exactRoutine relativeHermitian _ relativeHermitian_stable _ herr relative_vanishes (fun _ => Measure.infinitePi fun _ : ℕ => gaussianReal 0 1) (fun _ => id) (fun _ => id) (fun _ => stream_draws) false⟩

end Props
end RMT
