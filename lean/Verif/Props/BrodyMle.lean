import Verif.Lemmas.BrodyMle
import Verif.Props.BrodyConsistency

/-!
# C169: what `fit_brody(method='mle')` estimates
-/

namespace RMT
namespace Props
open Real Brody Ensembles EigValsM Spec Filter Topology MeasureTheory ProbabilityTheory BrodyC

section sample
variable {Ω : Type} [MeasurableSpace Ω] (P : Measure Ω) (X : ℕ → Ω → ℝ) (μ : Measure ℝ)

/-- The mean, under the distribution `μ` of the spacings, of the Brody density with parameter `b` itself (not of its logarithm). -/
noncomputable def meanDensity (μ : Measure ℝ) (b : ℝ) : ℝ := ∫ s, brodyDist s b ∂μ

theorem mle_avg (x : ℕ → ℝ) (n : ℕ) (b : ℝ) : mleObjective ((List.range n).map x) b = -(n * avg x (fun s => brodyDist s b) n) := by
  unfold mleObjective avg
  rw [List.map_map]
  rcases Nat.eq_zero_or_pos n with rfl | hn
  · simp
  · have : (n : ℝ) ≠ 0 := by positivity
    rw [mul_div_cancel₀ _ this]
    rfl

/-- **C169 (criterion).** For spacings drawn independently from any distribution, what `fit_brody(s, 'mle')` maximises, divided by the number of spacings, tends almost surely, uniformly over the parameters, to the
mean density. -/
theorem C169_criterion (h : IsSample P X μ) (hμ : SpacingLaw μ) : ∀ᵐ ω ∂P, ∀ η > 0, ∀ᶠ n : ℕ in atTop, ∀ b ∈ fitBounds,
    |-mleObjective ((List.range n).map fun i => X i ω) b / n - meanDensity μ b| ≤ η := by
  have := hμ.prob
  obtain ⟨K, hK, hlip⟩ := dens_lip
  have hint : ∀ b ∈ Set.Icc (0 : ℝ) 1, Integrable (fun s => brodyDist s b) μ := fun b hb => by
    refine Integrable.mono' (integrable_const 6) (dist_measurable b).aestronglyMeasurable ?_
    filter_upwards [hμ.pos] with s hs
    obtain ⟨p0, p1⟩ := dens_bound hb hs
    rw [norm_of_nonneg p0.le]
    have : exp (-(s / 4)) ≤ 1 := exp_le_one_iff.mpr (by linarith)
    linarith
  have hw : Integrable (fun s => K * (1 + |log s| + s ^ 3)) μ := (((integrable_const 1).add hμ.log.abs).add hμ.cube).const_mul K
  have hH : Integrable (fun s => K * (1 + |log s| + s ^ 3) * exp (-(s / 4))) μ := by
    refine Integrable.mono' hw (by fun_prop) ?_
    filter_upwards [hμ.pos] with s hs
    have h1 : exp (-(s / 4)) ≤ 1 := exp_le_one_iff.mpr (by linarith)
    have h2 : 0 ≤ K * (1 + |log s| + s ^ 3) := by positivity
    rw [norm_of_nonneg (by positivity)]
    exact mul_le_of_le_one_right h2 h1
  filter_upwards [uniform_lln h hμ.pos (fun b s => brodyDist s b) _ dist_measurable (by fun_prop) hint hH hlip] with ω hω η hη
  filter_upwards [hω η hη, eventually_gt_atTop 0] with n hn hpos b hb
  have hn0 : (n : ℝ) ≠ 0 := by positivity
  rw [mle_avg, neg_neg, mul_div_cancel_left₀ _ hn0]
  exact hn b (fitBounds_sub hb)

omit [MeasurableSpace Ω] in
theorem mle_minimises {opt : Optimizer} (hopt : ExactOptimizer opt) {s : List ℝ} {b : ℝ} (h : fitBrody opt s "mle" = .ok b) : MinimisesInBounds (mleObjective s) b := by
  rw [(C78_dispatch opt s "mle").2.1 (by unfold SameUpToCase; decide)] at h
  simp only [fitBrodyMle, optimise] at h
  split at h
  · rename_i hs
    cases h
    exact hopt _ _ _ hs
  · cases h

/-- **C169 (partial: the parameter of the largest mean density).** For spacings drawn independently from any distribution, the estimates of `fit_brody(s, 'mle')` with an exact optimiser almost surely
lie in the bounds, and their mean densities tend to the largest mean density in the bounds. -/
theorem C169_estimates_partial (h : IsSample P X μ) (hμ : SpacingLaw μ) : ∀ᵐ ω ∂P, ∀ η > 0, ∀ᶠ n : ℕ in atTop,
    ∀ opt, ExactOptimizer opt → ∀ b, fitBrody opt ((List.range n).map fun i => X i ω) "mle" = .ok b → b ∈ fitBounds ∧ ∀ c ∈ fitBounds, meanDensity μ c ≤ meanDensity μ b + η := by
  filter_upwards [C169_criterion P X μ h hμ] with ω hω η hη
  filter_upwards [hω (η / 2) (by positivity), eventually_gt_atTop 0] with n hn hpos opt hopt b hb
  obtain ⟨m1, m2⟩ := mle_minimises hopt hb
  refine ⟨m1, fun c hc => ?_⟩
  have h1 := abs_le.mp (hn b m1)
  have h2 := abs_le.mp (hn c hc)
  have hn0 : (0 : ℝ) < n := by exact_mod_cast hpos
  have h3 := div_le_div_of_nonneg_right (neg_le_neg (m2 c hc)) hn0.le
  linarith [h1.1, h1.2, h2.1, h2.2]

end sample

/-- **C169 is false.** There is a parameter `β` inside the bounds of the fit such that, for every sample of spacings from the Brody distribution with parameter `β`, the estimates of
`fit_brody(s, 'mle')` with an exact optimiser almost surely stay away from `β` by a fixed distance once the sample is large. -/
theorem C169_refuted : ∃ β ∈ fitBounds, ∃ δ > 0, ∀ (Ω : Type) [MeasurableSpace Ω] (P : Measure Ω) (X : ℕ → Ω → ℝ), IsSample P X (densityLaw fun s => brodyDist s β) →
    ∀ᵐ ω ∂P, ∀ᶠ n : ℕ in atTop, ∀ opt, ExactOptimizer opt → ∀ b, fitBrody opt ((List.range n).map fun i => X i ω) "mle" = .ok b → δ ≤ |b - β| := by
  obtain ⟨β, hβ, c, hc, hlt⟩ := overlap_not_best
  have inB : ∀ b ∈ Set.Icc (1 / 3 : ℝ) (1 / 2), b ∈ fitBounds := fun b hb => ⟨by have := hb.1; norm_num at this ⊢; linarith, by have := hb.2; norm_num at this ⊢; linarith⟩
  have hmean : ∀ b, meanDensity (densityLaw fun s => brodyDist s β) b = overlap β b := fun b => law_integral β (by linarith [hβ.1]) _
  have hβI := fitBounds_sub (inB β hβ)
  obtain ⟨K, hK, hlip⟩ := dens_lip
  -- the mean density is continuous at `β`
  have hL : SpacingLaw (law β) := law_spacing β hβI.1
  have := hL.prob
  set G := ∫ s, K * (1 + |log s| + s ^ 3) ∂(law β) with hG
  have hw : Integrable (fun s => K * (1 + |log s| + s ^ 3)) (law β) := (((integrable_const 1).add hL.log.abs).add hL.cube).const_mul K
  have hG0 : 0 ≤ G := integral_nonneg_of_ae (by filter_upwards [hL.pos] with s hs; show (0 : ℝ) ≤ _; positivity)
  have hint : ∀ b ∈ Set.Icc (0 : ℝ) 1, Integrable (fun s => brodyDist s b) (law β) := fun b hb => by
    refine Integrable.mono' (integrable_const 6) (dist_measurable b).aestronglyMeasurable ?_
    filter_upwards [hL.pos] with s hs
    obtain ⟨p0, p1⟩ := dens_bound hb hs
    rw [norm_of_nonneg p0.le]
    have : exp (-(s / 4)) ≤ 1 := exp_le_one_iff.mpr (by linarith)
    linarith
  have hcont : ∀ b ∈ Set.Icc (0 : ℝ) 1, |overlap β b - overlap β β| ≤ |b - β| * G := fun b hb => by
    rw [← hmean, ← hmean]
    show |∫ s, brodyDist s b ∂(law β) - ∫ s, brodyDist s β ∂(law β)| ≤ _
    rw [← integral_sub (hint b hb) (hint β hβI), hG, ← integral_const_mul]
    refine norm_integral_le_of_norm_le (f := fun s => brodyDist s b - brodyDist s β) (hw.const_mul _) ?_
    filter_upwards [hL.pos] with s hs
    refine (hlip s hs b hb β hβI).trans (mul_le_mul_of_nonneg_left ?_ (abs_nonneg _))
    exact mul_le_of_le_one_right (by positivity) (exp_le_one_iff.mpr (by linarith))
  set g := overlap β c - overlap β β with hg
  have hg0 : 0 < g := by rw [hg]; linarith
  refine ⟨β, inB β hβ, g / (2 * (G + 1)), by positivity, fun Ω _ P X hX => ?_⟩
  filter_upwards [C169_estimates_partial P X _ hX hL] with ω hω
  filter_upwards [hω (g / 4) (by positivity)] with n hn opt hopt b hb
  obtain ⟨m1, m2⟩ := hn opt hopt b hb
  have h1 := m2 c (inB c hc)
  rw [hmean, hmean] at h1
  have h2 := (abs_le.mp (hcont b (fitBounds_sub m1))).2
  rw [div_le_iff₀ (by positivity)]
  have h3 := abs_nonneg (b - β)
  nlinarith

/-- Non-vacuity: samples from every Brody distribution exist, and there is an exact optimiser that finds a minimiser for every sample of positive spacings. -/
example : (∀ β ∈ fitBounds, IsSample (Measure.infinitePi fun _ : ℕ => densityLaw fun s => brodyDist s β) (fun i (ω : ℕ → ℝ) => ω i) (densityLaw fun s => brodyDist s β)) ∧
    ∃ opt, ExactOptimizer opt ∧ ∀ s : List ℝ, (∀ x ∈ s, 0 < x) → ∃ b, fitBrody opt s "mle" = .ok b := by
  classical
  refine ⟨fun β hβ => ?_, ?_⟩
  · have hL := law_spacing β (fitBounds_sub hβ).1
    have := hL.prob
    exact sample_exists (law β)
  · refine ⟨fun f lo hi => if h : ∃ b ∈ Set.Icc lo hi, ∀ b' ∈ Set.Icc lo hi, f b ≤ f b' then ⟨true, h.choose⟩ else ⟨false, lo⟩, fun f lo hi hs => ?_, fun s hs => ?_⟩
    · by_cases h : ∃ b ∈ Set.Icc lo hi, ∀ b' ∈ Set.Icc lo hi, f b ≤ f b'
      · simp only [dif_pos h]
        exact h.choose_spec
      · simp only [dif_neg h] at hs
        cases hs
    · obtain ⟨K, hK, hlip⟩ := dens_lip
      have hc1 : ∀ x ∈ s, ContinuousOn (fun b => brodyDist x b) (Set.Icc (1e-5 : ℝ) (1 - 1e-5)) := fun x hx => by
        refine LipschitzOnWith.continuousOn (K := ⟨K * (1 + |log x| + x ^ 3) * exp (-(x / 4)), by have := hs x hx; positivity⟩) (LipschitzOnWith.of_dist_le_mul fun b hb c hc => ?_)
        rw [Real.dist_eq, Real.dist_eq, mul_comm]
        exact hlip x (hs x hx) b (fitBounds_sub hb) c (fitBounds_sub hc)
      have hcs : ∀ l : List ℝ, (∀ x ∈ l, x ∈ s) → ContinuousOn (fun b => (l.map fun x => brodyDist x b).sum) (Set.Icc (1e-5 : ℝ) (1 - 1e-5)) := fun l => by
        induction l with
        | nil => intro _; simpa using continuousOn_const
        | cons x l ih =>
          intro hl
          simp only [List.map_cons, List.sum_cons]
          exact (hc1 x (hl x List.mem_cons_self)).add (ih fun y hy => hl y (List.mem_cons_of_mem _ hy))
      obtain ⟨b, hb, hmin⟩ := isCompact_Icc.exists_isMinOn (⟨1e-5, by constructor <;> norm_num⟩ : (Set.Icc (1e-5 : ℝ) (1 - 1e-5)).Nonempty) (f := mleObjective s) (hcs s fun x hx => hx).neg
      rw [(C78_dispatch _ s "mle").2.1 (by unfold SameUpToCase; decide)]
      simp only [fitBrodyMle, optimise]
      rw [dif_pos ⟨b, hb, fun c hc => hmin hc⟩]
      exact ⟨_, rfl⟩

end Props
end RMT
