import Verif.Lemmas.SpectralLaw
import Verif.Lemmas.GueSpectralLaw
import Verif.Model.GoeUnfolded
import Verif.Spec.Score

/-!
# Properties C147 and C148: Wigner's semicircle law for generated GOE levels, and the unfolding with it
-/

namespace RMT
namespace Props
open Gen EigValsM EigM Unfold MeasureTheory ProbabilityTheory Spec Gauss Analytic Filter Topology Semi

variable {σ Ω : Type} [MeasurableSpace Ω]

theorem goe_full_draws (R : Rng σ) (n : Nat) (s : σ) : (goeMatrix R n none false s).1 = goeOf (ofRowMajor n ((List.range (n * n)).map fun k => draw R s k)) := by
  simp only [goeMatrix, Bool.false_eq_true, and_false, if_false, generateGOEMatrix, seedIfGiven, normals_draws]

theorem goe_tri_draws (R : Rng σ) (n : Nat) (s : σ) : (generateGOETridiagonal R n none s).1 =
    tridiagonalOf n ((List.range (n - 1)).map fun k => chiDraws R n s k) ((List.range n).map fun k => diagDraws R n s k) := by
  have h1 : (chisquares R (chiRange n) s).1 = (List.range (n - 1)).map fun k => chiDraws R n s k := by
    apply List.ext_getElem
    · simp [chisquares_length, chiRange]
    · intro k hk _
      simp [chiDraws_eq, List.getElem?_eq_getElem hk]
  simp only [generateGOETridiagonal, seedIfGiven, normals_draws]
  rw [h1, chisquares_draws]
  rfl

/-- **C147.** Let `generate(n, "goe")` (without `use_tridiagonal`) be run for every size `n`, each time with independent standard normal draws and an exact eigenvalue routine. For every `a`, the fraction
of the returned levels which are at most `a √n` tends in the mean to the probability of `(-∞, a]` under Wigner's semicircle law on `[-2, 2]`. -/
theorem C147_full (R : Rng σ) (eh : EigSolver) (ehC : (n : Nat) → Matrix (Fin n) (Fin n) ℂ → List ℝ) (hs : ExactSolver eh)
    (P : Nat → Measure Ω) [∀ n, IsProbabilityMeasure (P n)] (e s : Nat → Ω → σ) (hX : ∀ n, NormalDraws (P n) fun k ω => draw R (s n ω) k) :
    ∃ vals : Nat → Ω → List ℝ, (∀ n, GeneratedVals R eh ehC n .goe false (e n) (s n) (vals n)) ∧
      ∀ a : ℝ, Tendsto (fun n : Nat => ∫ ω, |(countLE (vals n ω) (a * √n) : ℝ) / n - (semicircleLaw 2).real (Set.Iic a)| ∂(P n)) atTop (𝓝 0) := by
  refine ⟨fun n ω => full eh (fun k ω => draw R (s n ω) k) n ω, fun n ω => ?_, fun a => ?_⟩
  · have := (C49_values R eh ehC n none false (e n ω) (s n ω)).1
    rwa [goe_full_draws] at this
  · refine (tendsto_full (P := P) eh hs (fun n k ω => draw R (s n ω) k) hX a).congr' ?_
    filter_upwards [eventually_gt_atTop 0] with n hn
    refine integral_congr_ae (Eventually.of_forall fun ω => ?_)
    simp only
    rw [frac_levels _ n hn ((full_facts eh hs _ (hX n).measurable n).1 ω)]
    rfl

/-- **C147 (GUE).** The same for `generate(n, "gue")`: the fraction of the returned levels which are at most `a √n` tends in the mean to the probability of `(-∞, a]` under the semicircle law on `[-2, 2]`. -/
theorem C147_gue (R : Rng σ) (eh : EigSolver) (ehC : (n : Nat) → Matrix (Fin n) (Fin n) ℂ → List ℝ) (hs : ExactHermitian ehC)
    (P : Nat → Measure Ω) [∀ n, IsProbabilityMeasure (P n)] (e s : Nat → Ω → σ) (hX : ∀ n, NormalDraws (P n) fun k ω => draw R (s n ω) k) (tri : Bool) :
    ∃ vals : Nat → Ω → List ℝ, (∀ n, GeneratedVals R eh ehC n .gue tri (e n) (s n) (vals n)) ∧
      ∀ a : ℝ, Tendsto (fun n : Nat => ∫ ω, |(countLE (vals n ω) (a * √n) : ℝ) / n - (semicircleLaw 2).real (Set.Iic a)| ∂(P n)) atTop (𝓝 0) := by
  refine ⟨fun n ω => fullC ehC (fun k ω => draw R (s n ω) k) n ω, fun n ω => ?_, fun a => ?_⟩
  · have := (C49_values R eh ehC n none tri (e n ω) (s n ω)).2.1
    rwa [gue_draws] at this
  · refine (tendsto_fullC (P := P) ehC hs (fun n k ω => draw R (s n ω) k) hX a).congr' ?_
    filter_upwards [eventually_gt_atTop 0] with n hn
    refine integral_congr_ae (Eventually.of_forall fun ω => ?_)
    simp only
    rw [frac_levels _ n hn ((fullC_facts ehC hs _ (hX n).measurable n).1 ω)]
    rfl

/-- The tridiagonal matrix of every size, and a full matrix on another space. -/
theorem tri_ident (R : Rng σ) (eh : EigSolver) (hs : ExactSolver eh) (P : Nat → Measure Ω) [∀ n, IsProbabilityMeasure (P n)] (s : Nat → Ω → σ) (n : Nat)
    (hC : ChiSquareDraws (P n) (n - 1) fun k ω => chiDraws R n (s n ω) k)
    (hZ : NormalDraws (P n) fun k ω => diagDraws R n (s n ω) k) (hi : IndepFun (fun ω => chiDraws R n (s n ω)) (fun ω => diagDraws R n (s n ω)) (P n)) :
    IdentDistrib (fun ω => vec n (full eh (fun k (ω : ℕ → ℝ) => draw streamRng ω k) n ω)) (fun ω i => √2 * vec n (npSort (eh n (generateGOETridiagonal R n none (s n ω)).1)) i)
      (Measure.infinitePi fun _ : ℕ => gaussianReal 0 1) (P n) := by
  have := C144_draws eh hs n (Measure.infinitePi fun _ : ℕ => gaussianReal 0 1) _ stream_draws (P n) _ _ hC hZ hi
  simp only [goe_tri_draws]
  exact this

theorem tri_length (R : Rng σ) (eh : EigSolver) (hs : ExactSolver eh) (n : Nat) (s : σ) : (eh n (generateGOETridiagonal R n none s).1).length = n := by
  have hsym : (generateGOETridiagonal R n none s).1.IsSymm := by
    rw [goe_tri_draws]
    exact tridiagonalOf_symm _ _ _
  have h := congrArg Multiset.card (hs n _ hsym)
  rw [Multiset.coe_card] at h
  rw [h, (symm_hermitian hsym).roots_charpoly_eq_eigenvalues]
  simp

theorem tendsto_tri (R : Rng σ) (eh : EigSolver) (hs : ExactSolver eh) (P : Nat → Measure Ω) [∀ n, IsProbabilityMeasure (P n)] (s : Nat → Ω → σ)
    (hC : ∀ n > 500, ChiSquareDraws (P n) (n - 1) fun k ω => chiDraws R n (s n ω) k) (hZ : ∀ n > 500, NormalDraws (P n) fun k ω => diagDraws R n (s n ω) k)
    (hi : ∀ n > 500, IndepFun (fun ω => chiDraws R n (s n ω)) (fun ω => diagDraws R n (s n ω)) (P n)) (b : ℝ) :
    Tendsto (fun n => ∫ ω, |emp n (fun i => √2 * vec n (npSort (eh n (generateGOETridiagonal R n none (s n ω)).1)) i / √n) (ind b) - F b| ∂(P n)) atTop (𝓝 0) := by
  refine tendsto_ident (P := fun _ => Measure.infinitePi fun _ : ℕ => gaussianReal 0 1) eh hs _ (fun _ k (ω : ℕ → ℝ) => draw streamRng ω k) (fun _ => stream_draws) ?_ b
  filter_upwards [eventually_gt_atTop 500] with n hn
  exact tri_ident R eh hs P s n (hC n hn) (hZ n hn) (hi n hn)

/-- **C147 (tridiagonal).** The same for sizes above 500 with `use_tridiagonal`, whose levels are smaller by the factor `√2`: the fraction of levels at most `a √(n/2)` tends in the mean to the
probability of `(-∞, a]` under the semicircle law on `[-2, 2]`. -/
theorem C147_tridiagonal (R : Rng σ) (eh : EigSolver) (ehC : (n : Nat) → Matrix (Fin n) (Fin n) ℂ → List ℝ) (hs : ExactSolver eh)
    (P : Nat → Measure Ω) [∀ n, IsProbabilityMeasure (P n)] (e s : Nat → Ω → σ)
    (hC : ∀ n > 500, ChiSquareDraws (P n) (n - 1) fun k ω => chiDraws R n (s n ω) k) (hZ : ∀ n > 500, NormalDraws (P n) fun k ω => diagDraws R n (s n ω) k)
    (hi : ∀ n > 500, IndepFun (fun ω => chiDraws R n (s n ω)) (fun ω => diagDraws R n (s n ω)) (P n)) :
    ∃ vals : Nat → Ω → List ℝ, (∀ n, GeneratedVals R eh ehC n .goe true (e n) (s n) (vals n)) ∧
      ∀ a : ℝ, Tendsto (fun n : Nat => ∫ ω, |(countLE (vals n ω) (a * √(n / 2)) : ℝ) / n - (semicircleLaw 2).real (Set.Iic a)| ∂(P n)) atTop (𝓝 0) := by
  refine ⟨fun n ω => npSort (eh n (goeMatrix R n none true (s n ω)).1), fun n ω => (C49_values R eh ehC n none true (e n ω) (s n ω)).1, fun a => ?_⟩
  refine (tendsto_tri R eh hs P s hC hZ hi a).congr' ?_
  filter_upwards [eventually_gt_atTop 500] with n hn
  refine integral_congr_ae (Eventually.of_forall fun ω => ?_)
  simp only
  have hn0 : 0 < n := by omega
  have hM : (goeMatrix R n none true (s n ω)).1 = (generateGOETridiagonal R n none (s n ω)).1 := by rw [goeMatrix, if_pos ⟨hn, rfl⟩]
  rw [hM]
  have hl : (npSort (eh n (generateGOETridiagonal R n none (s n ω)).1)).length = n := by rw [(npSort_perm _).length_eq]; exact tri_length R eh hs n _
  have := frac_levels _ n hn0 hl (a / √2)
  have e1 : a * √((n : ℝ) / 2) = a / √2 * √n := by rw [Real.sqrt_div (by positivity)]; ring
  rw [e1, this]
  congr 2
  unfold emp
  congr 1
  refine Finset.sum_congr rfl fun i _ => ?_
  unfold ind
  have h2 : (0 : ℝ) < √2 := by positivity
  have : ∀ x : ℝ, √2 * x / √n ≤ a ↔ x / √n ≤ a / √2 := by
    intro x
    rw [le_div_iff₀ h2, mul_div_assoc, mul_comm]
  simp only [this]

/-- The unfolded values of `goe_unfolded`. -/
theorem goe_unfolded_vals (R : Rng σ) (eh : EigSolver) (hs : ExactSolver eh) (n : Nat) (s : σ) :
    ∃ u, (goeUnfoldedRun R eh n s).1 = .ok u ∧ u.vals = (npSort (eh n (generateGOETridiagonal R n none s).1)).map (smoothGoe n) ∧ u.vals.length = n ∧ Ascending u.vals ∧ ∀ v ∈ u.vals, 0 ≤ v ∧ v ≤ n := by
  have hl := tri_length R eh hs n s
  obtain ⟨u, h1, -, h2, h3, h4, h5⟩ := C51_unfold (eh n (generateGOETridiagonal R n none s).1)
  rw [hl] at h2 h4 h5
  refine ⟨u, ?_, h2, h4, h3, h5⟩
  simp only [goeUnfoldedRun]
  rw [C51_goe_unfolded _ _ hl, h1]

/-- The values `u n` fill `[0, n]` evenly: for every `t` in `[0, 1]` the fraction of values at most `t n` tends in the mean to `t`, and the mean spacing tends in the mean to 1. -/
structure EvenInTheLimit (P : Nat → Measure Ω) (u : Nat → Ω → List ℝ) : Prop where
  /-- the fraction of values at most `t n` -/
  fraction : ∀ t : ℝ, 0 ≤ t → t ≤ 1 → Tendsto (fun n : Nat => ∫ ω, |(countLE (u n ω) (t * n) : ℝ) / n - t| ∂(P n)) atTop (𝓝 0)
  /-- the mean spacing -/
  spacing : Tendsto (fun n : Nat => ∫ ω, |avg (gaps (u n ω)) - 1| ∂(P n)) atTop (𝓝 0)

theorem even_of_tri (R : Rng σ) (eh : EigSolver) (hs : ExactSolver eh) (P : Nat → Measure Ω) [∀ n, IsProbabilityMeasure (P n)] (s : Nat → Ω → σ)
    (hC : ∀ n > 500, ChiSquareDraws (P n) (n - 1) fun k ω => chiDraws R n (s n ω) k) (hZ : ∀ n > 500, NormalDraws (P n) fun k ω => diagDraws R n (s n ω) k)
    (hi : ∀ n > 500, IndepFun (fun ω => chiDraws R n (s n ω)) (fun ω => diagDraws R n (s n ω)) (P n)) (u : Nat → Ω → List ℝ)
    (hu : ∀ n > 500, ∀ ω, u n ω = (npSort (eh n (generateGOETridiagonal R n none (s n ω)).1)).map (smoothGoe n)) : EvenInTheLimit P u := by
  have hl : ∀ n ω, (npSort (eh n (generateGOETridiagonal R n none (s n ω)).1)).length = n := fun n ω => by rw [(npSort_perm _).length_eq]; exact tri_length R eh hs n _
  have hfacts : ∀ n > 500, ∀ ω, (u n ω).length = n ∧ Ascending (u n ω) ∧ ∀ v ∈ u n ω, 0 ≤ v ∧ v ≤ n := by
    intro n hn ω
    obtain ⟨v, -, h2, h3, h4, h5⟩ := goe_unfolded_vals R eh hs n (s n ω)
    rw [hu n hn ω, ← h2]
    exact ⟨h3, h4, h5⟩
  have hfr : ∀ t ∈ Set.Icc (0 : ℝ) 1, Tendsto (fun n : Nat => ∫ ω, |(countLE (u n ω) (t * n) : ℝ) / n - t| ∂(P n)) atTop (𝓝 0) := by
    intro t ht
    rcases lt_or_eq_of_le ht.2 with h1 | h1
    · obtain ⟨b, hb1, hb2, rfl⟩ := exists_quantile t ht.1 h1
      refine (tendsto_tri R eh hs P s hC hZ hi b).congr' ?_
      filter_upwards [eventually_gt_atTop 500] with n hn
      refine integral_congr_ae (Eventually.of_forall fun ω => ?_)
      simp only
      rw [hu n hn ω, frac_unfolded _ n (by omega) (hl n ω) b hb1 hb2]
    · subst h1
      refine tendsto_const_nhds.congr' ?_
      filter_upwards [eventually_gt_atTop 500] with n hn
      have : ∀ ω, (countLE (u n ω) (1 * n) : ℝ) / n - 1 = 0 := by
        intro ω
        obtain ⟨a1, -, a3⟩ := hfacts n hn ω
        have : countLE (u n ω) (1 * (n : ℝ)) = n := by
          have h9 : (u n ω).countP (fun e => decide (e ≤ 1 * (n : ℝ))) = (u n ω).length := by
            rw [List.countP_eq_length]
            intro x hx
            simpa using (a3 x hx).2
          rw [countLE, h9, a1]
        have hn0 : (n : ℝ) ≠ 0 := by
          have : n ≠ 0 := by omega
          exact_mod_cast this
        rw [this, div_self hn0, sub_self]
      simp only [this, abs_zero, integral_zero]
  refine ⟨fun t h0 h1 => hfr t ⟨h0, h1⟩, tendsto_spacing u ?_ ?_ hfr⟩
  · filter_upwards [eventually_gt_atTop 500] with n hn
    exact hfacts n hn
  · filter_upwards [eventually_gt_atTop 500] with n hn i
    have hid := (tri_ident R eh hs P s n (hC n hn) (hZ n hn) (hi n hn)).aemeasurable_snd
    have hcont : Continuous (smoothGoe n) := continuous_iff_continuousAt.mpr fun x => ((C51_map n).2.2.2.2.2.1 x).continuousAt
    by_cases h : i < n
    · have e1 : ∀ ω, (u n ω).getD i 0 = smoothGoe n ((√2 * vec n (npSort (eh n (generateGOETridiagonal R n none (s n ω)).1)) ⟨i, h⟩) / √2) := by
        intro ω
        rw [mul_div_cancel_left₀ _ (by positivity), hu n hn ω, vec]
        have := hl n ω
        simp only [List.getD_eq_getElem?_getD, List.getElem?_map, List.getElem?_eq_getElem (show i < _ by rw [this]; exact h), Option.map_some, Option.getD_some]
      simp only [e1]
      exact hcont.measurable.comp_aemeasurable ((aemeasurable_pi_iff.mp hid ⟨i, h⟩).div_const _)
    · have e1 : ∀ ω, (u n ω).getD i 0 = 0 := by
        intro ω
        have := (hfacts n hn ω).1
        rw [List.getD_eq_getElem?_getD, List.getElem?_eq_none (by omega), Option.getD_none]
      simp only [e1]
      exact aemeasurable_const

/-- **C148 (`goe_unfolded`).** Let `goe_unfolded(n)` be run for every size `n`, with independent normal draws, chi-square draws independent of each other and of the normal draws, and an exact eigenvalue routine. It never
fails, and as `n` grows the unfolded values fill `[0, n]` evenly, with mean spacing 1. -/
theorem C148_goe_unfolded (R : Rng σ) (eh : EigSolver) (hs : ExactSolver eh) (P : Nat → Measure Ω) [∀ n, IsProbabilityMeasure (P n)] (s : Nat → Ω → σ)
    (hC : ∀ n, ChiSquareDraws (P n) (n - 1) fun k ω => chiDraws R n (s n ω) k) (hZ : ∀ n, NormalDraws (P n) fun k ω => diagDraws R n (s n ω) k)
    (hi : ∀ n, IndepFun (fun ω => chiDraws R n (s n ω)) (fun ω => diagDraws R n (s n ω)) (P n)) :
    ∃ u : Nat → Ω → Unfolded ℝ, (∀ n ω, (goeUnfoldedRun R eh n (s n ω)).1 = .ok (u n ω)) ∧ EvenInTheLimit P fun n ω => (u n ω).vals := by
  choose u h1 h2 h3 using fun n ω => goe_unfolded_vals R eh hs n (s n ω)
  exact ⟨u, h1, even_of_tri R eh hs P s (fun n _ => hC n) (fun n _ => hZ n) (fun n _ => hi n) _ fun n _ ω => h2 n ω⟩

/-- **C148 (partial: with `use_tridiagonal`).** `generate(n, "goe", use_tridiagonal=True).unfold_goe()`: as `n` grows the unfolded values fill `[0, n]` evenly, with mean spacing 1. Without `use_tridiagonal`, which is the default,
this is false (`C148_full_refuted`). -/
theorem C148_tridiagonal_partial (R : Rng σ) (eh : EigSolver) (ehC : (n : Nat) → Matrix (Fin n) (Fin n) ℂ → List ℝ) (hs : ExactSolver eh)
    (P : Nat → Measure Ω) [∀ n, IsProbabilityMeasure (P n)] (e s : Nat → Ω → σ)
    (hC : ∀ n > 500, ChiSquareDraws (P n) (n - 1) fun k ω => chiDraws R n (s n ω) k) (hZ : ∀ n > 500, NormalDraws (P n) fun k ω => diagDraws R n (s n ω) k)
    (hi : ∀ n > 500, IndepFun (fun ω => chiDraws R n (s n ω)) (fun ω => diagDraws R n (s n ω)) (P n)) :
    ∃ (vals : Nat → Ω → List ℝ) (u : Nat → Ω → Unfolded ℝ), (∀ n, GeneratedVals R eh ehC n .goe true (e n) (s n) (vals n)) ∧ (∀ n ω, unfoldGoe (vals n ω) = .ok (u n ω)) ∧
      EvenInTheLimit P fun n ω => (u n ω).vals := by
  choose u h1 h2 h3 using fun n ω => C51_unfold (npSort (eh n (goeMatrix R n none true (s n ω)).1))
  refine ⟨fun n ω => npSort (eh n (goeMatrix R n none true (s n ω)).1), u, fun n ω => (C49_values R eh ehC n none true (e n ω) (s n ω)).1, h1, ?_⟩
  refine even_of_tri R eh hs P s hC hZ hi _ fun n hn ω => ?_
  rw [(h3 n ω).1, npSort_of_ascending _ (npSort_ascending _), (npSort_perm _).length_eq, goeMatrix, if_pos ⟨hn, rfl⟩, tri_length R eh hs]

/-- **C148 (refuted by default).** Without `use_tridiagonal` the levels are larger by the factor `√2` than the semicircle `unfold_goe` assumes. For every `b` in `[-2, 2)`, the fraction of unfolded values at most
`n F(b)`, where `F` is the distribution function of the semicircle law on `[-2, 2]`, tends in the mean to `F(b/√2)` instead of `F(b)`. In particular, of the values, which all are at least 0, the fraction which is 0 tends
to `1/4 - 1/(2π)`, about 9 percent. -/
theorem C148_full_refuted (R : Rng σ) (eh : EigSolver) (ehC : (n : Nat) → Matrix (Fin n) (Fin n) ℂ → List ℝ) (hs : ExactSolver eh)
    (P : Nat → Measure Ω) [∀ n, IsProbabilityMeasure (P n)] (e s : Nat → Ω → σ) (hX : ∀ n, NormalDraws (P n) fun k ω => draw R (s n ω) k) :
    ∃ (vals : Nat → Ω → List ℝ) (u : Nat → Ω → Unfolded ℝ), (∀ n, GeneratedVals R eh ehC n .goe false (e n) (s n) (vals n)) ∧ (∀ n ω, unfoldGoe (vals n ω) = .ok (u n ω)) ∧
      (∀ b : ℝ, -2 ≤ b → b < 2 → Tendsto (fun n : Nat => ∫ ω, |(countLE (u n ω).vals ((semicircleLaw 2).real (Set.Iic b) * n) : ℝ) / n - (semicircleLaw 2).real (Set.Iic (b / √2))| ∂(P n)) atTop (𝓝 0)) ∧
      (∀ n ω, ∀ v ∈ (u n ω).vals, 0 ≤ v) ∧
      Tendsto (fun n : Nat => ∫ ω, |(countLE (u n ω).vals 0 : ℝ) / n - (1 / 4 - 1 / (2 * Real.pi))| ∂(P n)) atTop (𝓝 0) ∧
      ¬ EvenInTheLimit P fun n ω => (u n ω).vals := by
  set X : Nat → Nat → Ω → ℝ := fun n k ω => draw R (s n ω) k with hXd
  choose u h1 h2 h3 using fun n ω => C51_unfold (full eh (X n) n ω)
  have hlen : ∀ n ω, (full eh (X n) n ω).length = n := fun n => (full_facts eh hs (X n) (hX n).measurable n).1
  have hasc : ∀ n ω, Ascending (full eh (X n) n ω) := fun n ω => npSort_ascending _
  have hmain : ∀ b : ℝ, -2 ≤ b → b < 2 → Tendsto (fun n : Nat => ∫ ω, |(countLE (u n ω).vals (F b * n) : ℝ) / n - F (b / √2)| ∂(P n)) atTop (𝓝 0) := by
    intro b hb1 hb2
    refine (tendsto_full (P := P) eh hs X hX (b / √2)).congr' ?_
    filter_upwards [eventually_gt_atTop 0] with n hn
    refine integral_congr_ae (Eventually.of_forall fun ω => ?_)
    simp only
    rw [(h3 n ω).1, npSort_of_ascending _ (hasc n ω), hlen n ω, frac_unfolded _ n hn (hlen n ω) b hb1 hb2]
    congr 2
    unfold emp
    congr 1
    refine Finset.sum_congr rfl fun i _ => ?_
    unfold ind scaled vec
    have h2 : (0 : ℝ) < √2 := by positivity
    have : ∀ x : ℝ, √2 * x / √n ≤ b ↔ x / √n ≤ b / √2 := by
      intro x
      rw [le_div_iff₀ h2, mul_div_assoc, mul_comm]
    simp only [this]
  have hzero : Tendsto (fun n : Nat => ∫ ω, |(countLE (u n ω).vals 0 : ℝ) / n - (1 / 4 - 1 / (2 * Real.pi))| ∂(P n)) atTop (𝓝 0) := by
    have := hmain (-2) le_rfl (by norm_num)
    have e1 : (-2 : ℝ) / √2 = -√2 := by
      have : √2 * √2 = (2 : ℝ) := Real.mul_self_sqrt (by norm_num)
      have h0 : √2 ≠ (0 : ℝ) := by positivity
      field_simp
      linarith
    simpa only [F_neg_two, zero_mul, e1, F_atom] using this
  refine ⟨fun n ω => full eh (X n) n ω, u, fun n ω => ?_, h1, hmain, fun n ω v hv => ((h3 n ω).2.2.2 v hv).1, hzero, fun hE => ?_⟩
  · have := (C49_values R eh ehC n none false (e n ω) (s n ω)).1
    rwa [goe_full_draws] at this
  · have h4 := hE.fraction 0 le_rfl (by norm_num)
    simp only [zero_mul, sub_zero] at h4
    have hc : 0 < 1 / 4 - 1 / (2 * Real.pi) := by
      rw [sub_pos, div_lt_div_iff₀ (by positivity) (by norm_num)]
      linarith [Real.pi_gt_three]
    have h5 := h4.add hzero
    rw [add_zero] at h5
    refine absurd h5 ?_
    intro h6
    obtain ⟨n, hn⟩ := (h6.eventually (gt_mem_nhds hc)).exists
    -- the two deviations add up to at least the constant
    have hle : ∀ ω, (1 / 4 - 1 / (2 * Real.pi)) ≤ |(countLE (u n ω).vals 0 : ℝ) / n| + |(countLE (u n ω).vals 0 : ℝ) / n - (1 / 4 - 1 / (2 * Real.pi))| := by
      intro ω
      have a1 := le_abs_self ((countLE (u n ω).vals 0 : ℝ) / n)
      have a2 := neg_abs_le ((countLE (u n ω).vals 0 : ℝ) / n - (1 / 4 - 1 / (2 * Real.pi)))
      linarith
    have hmeas : Integrable (fun ω => (countLE (u n ω).vals 0 : ℝ) / n) (P n) := by
      rcases Nat.eq_zero_or_pos n with h0 | h0
      · subst h0; simp
      · have e1 : ∀ ω, (countLE (u n ω).vals 0 : ℝ) / n = emp n (fun i => √2 * vec n (full eh (X n) n ω) i / √n) (ind (-2)) := by
          intro ω
          have := frac_unfolded (full eh (X n) n ω) n h0 (hlen n ω) (-2) le_rfl (by norm_num)
          rw [F_neg_two, zero_mul] at this
          rw [(h3 n ω).1, npSort_of_ascending _ (hasc n ω), hlen n ω, this]
        simp only [e1]
        unfold emp
        refine Integrable.div_const (integrable_finsetSum _ fun i _ => ?_) _
        have hm : Measurable fun ω => √2 * vec n (full eh (X n) n ω) i / √n := (((full_facts eh hs (X n) (hX n).measurable n).2.1 i.val).const_mul _).div_const _
        refine Integrable.mono' (integrable_const 1) ((ind_measurable _).comp hm).aestronglyMeasurable (Eventually.of_forall fun ω => ?_)
        unfold ind
        split_ifs <;> simp
    have i1 := hmeas.abs
    have i2 : Integrable (fun ω => |(countLE (u n ω).vals 0 : ℝ) / n - (1 / 4 - 1 / (2 * Real.pi))|) (P n) := (hmeas.sub (integrable_const _)).abs
    have h7 := integral_mono (integrable_const _) (i1.add i2) hle
    rw [integral_add' i1 i2] at h7
    simp only [integral_const, probReal_univ, one_smul] at h7
    linarith

-- C147, C148: the hypotheses can be met (for every size, two independent streams of normal and chi-square draws; an exact eigenvalue routine exists)
example (eh : EigSolver) (ehC : (n : Nat) → Matrix (Fin n) (Fin n) ℂ → List ℝ) (hs : ExactSolver eh) :=
  C147_full twoRng eh ehC hs twoLaw (fun _ => id) (fun _ => id) fun n => (two_hyps n).1
example (eh : EigSolver) (ehC : (n : Nat) → Matrix (Fin n) (Fin n) ℂ → List ℝ) (hs : ExactHermitian ehC) :=
  C147_gue twoRng eh ehC hs twoLaw (fun _ => id) (fun _ => id) (fun n => (two_hyps n).1) false
example (eh : EigSolver) (ehC : (n : Nat) → Matrix (Fin n) (Fin n) ℂ → List ℝ) (hs : ExactSolver eh) :=
  C147_tridiagonal twoRng eh ehC hs twoLaw (fun _ => id) (fun _ => id) (fun n _ => (two_hyps n).2.1) (fun n _ => (two_hyps n).2.2.1) fun n _ => (two_hyps n).2.2.2
example (eh : EigSolver) (hs : ExactSolver eh) :=
  C148_goe_unfolded twoRng eh hs twoLaw (fun _ => id) (fun n => (two_hyps n).2.1) (fun n => (two_hyps n).2.2.1) fun n => (two_hyps n).2.2.2
example (eh : EigSolver) (ehC : (n : Nat) → Matrix (Fin n) (Fin n) ℂ → List ℝ) (hs : ExactSolver eh) :=
  C148_full_refuted twoRng eh ehC hs twoLaw (fun _ => id) (fun _ => id) fun n => (two_hyps n).1

end Props
end RMT
