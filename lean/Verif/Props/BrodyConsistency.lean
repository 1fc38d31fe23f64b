import Verif.Lemmas.BrodyConcave
import Verif.Lemmas.Glivenko
import Mathlib.Probability.Independence.InfinitePi
import Mathlib.Probability.ProductMeasure

/-!
# C167: the Brody fit converges to the best parameter
-/

namespace RMT
namespace Props
open Real Brody Ensembles EigValsM Spec Filter Topology MeasureTheory ProbabilityTheory BrodyC

/-- The interval in which both fits look for the parameter. -/
abbrev fitBounds : Set ℝ := Set.Icc (1e-5 : ℝ) (1 - 1e-5)

theorem fitBounds_sub : fitBounds ⊆ Set.Icc (0 : ℝ) 1 := fun b hb => ⟨by have := hb.1; norm_num at this ⊢; linarith, by have := hb.2; norm_num at this ⊢; linarith⟩

/-- The mean, under the distribution `μ` of the spacings, of the logarithm of the Brody density with parameter `b`. -/
noncomputable def meanLogLik (μ : Measure ℝ) (b : ℝ) : ℝ := ∫ s, log (brodyDist s b) ∂μ

/-- The first `n + 1` levels of a spectrum that starts at `a` and has the spacings `x 0, x 1, …`. -/
noncomputable def levelsOf (a : ℝ) (x : ℕ → ℝ) (n : ℕ) : List ℝ := (List.range (n + 1)).map fun (k : ℕ) => a + ∑ i ∈ Finset.range k, x i

theorem diff_map_range (p : ℕ → ℝ) (n : ℕ) : diff ((List.range (n + 1)).map p) = (List.range n).map fun (k : ℕ) => p (k + 1) - p k := by
  induction n generalizing p with
  | zero => rfl
  | succ n ih =>
    have := ih fun k => p (k + 1)
    rw [List.range_succ_eq_map, List.map_cons, List.map_map] at this ⊢
    rw [List.range_succ_eq_map (n := n), List.map_cons, List.map_map, List.map_cons, List.map_map]
    simp only [diff]
    refine congrArg₂ List.cons rfl ?_
    exact this

theorem levels_spacings (a : ℝ) (x : ℕ → ℝ) (hx : ∀ i, 0 < x i) (n : ℕ) (L : List ℝ) (hL : L.Perm (levelsOf a x n)) : (diff (npSort L)).filter (fun s => decide (0 < s)) = (List.range n).map x := by
  have hasc : Ascending (levelsOf a x n) := by
    rw [Ascending, levelsOf, List.pairwise_map]
    refine List.pairwise_lt_range.imp fun {i j} hij => ?_
    have := Finset.sum_le_sum_of_subset_of_nonneg (f := x) (Finset.range_mono hij.le) (fun i _ _ => (hx i).le)
    linarith
  rw [npSort_eq_of_perm hL, npSort_of_ascending _ hasc, levelsOf, diff_map_range]
  have : ((List.range n).map fun (k : ℕ) => a + ∑ i ∈ Finset.range (k + 1), x i - (a + ∑ i ∈ Finset.range k, x i)) = (List.range n).map x := by
    refine List.map_congr_left fun k _ => ?_
    rw [Finset.sum_range_succ]
    ring
  rw [this]
  refine List.filter_eq_self.mpr fun y hy => ?_
  obtain ⟨i, -, rfl⟩ := List.mem_map.mp hy
  simpa using hx i

section sample
variable {Ω : Type} [MeasurableSpace Ω] (P : Measure Ω) [IsProbabilityMeasure P] (X : ℕ → Ω → ℝ) (μ : Measure ℝ)

/-- **C167 (criterion).** For spacings drawn independently from any distribution, the differences of what `fit_brody(s, 'spacing')` minimises tend, almost surely and uniformly over the
parameters, to the differences of the mean log-likelihood: the criterion estimates a Kullback–Leibler distance. -/
theorem C167_criterion (h : IsSample P X μ) (hμ : SpacingLaw μ) : ∀ᵐ ω ∂P, ∀ η > 0, ∀ᶠ n : ℕ in atTop, ∀ b ∈ fitBounds, ∀ c ∈ fitBounds,
    |(spacingObjective ((List.range n).map fun i => X i ω) c - spacingObjective ((List.range n).map fun i => X i ω) b) - (meanLogLik μ b - meanLogLik μ c)| ≤ η := by
  filter_upwards [sample_typical h hμ] with ω hω η hη
  filter_upwards [hω.criterion η hη] with n hn b hb c hc
  have := hn b (fitBounds_sub hb) c (fitBounds_sub hc)
  rwa [(meanLogDens_eq hμ (fitBounds_sub hb)).1, (meanLogDens_eq hμ (fitBounds_sub hc)).1] at this

omit [IsProbabilityMeasure P] in
theorem meanLogLik_eq {μ : Measure ℝ} (hμ : SpacingLaw μ) : Set.EqOn (meanLogLik μ) (meanLogDens (∫ s, log s ∂μ) (meanPow μ)) (Set.Icc 0 1) := fun _ hb => ((meanLogDens_eq hμ hb).1).symm

/-- **C167 (best parameter).** For every distribution of spacings there is exactly one parameter in the bounds of the fit with the largest mean log-likelihood; for spacings
that follow a Brody distribution it is their own parameter, moved into the bounds. -/
theorem C167_best (hμ : SpacingLaw μ) :
    (∃! b, b ∈ fitBounds ∧ ∀ c ∈ fitBounds, meanLogLik μ c ≤ meanLogLik μ b) ∧
    ∀ b₀ ∈ Set.Icc (0 : ℝ) 1, μ = densityLaw (fun s => brodyDist s b₀) → ∀ b, (b ∈ fitBounds ∧ ∀ c ∈ fitBounds, meanLogLik μ c ≤ meanLogLik μ b) ↔ b = max 1e-5 (min b₀ (1 - 1e-5)) := by
  have hE := meanLogLik_eq hμ
  have hC : StrictConcaveOn ℝ (Set.Icc 0 1) (meanLogLik μ) := (meanLogDens_concave hμ).congr hE.symm
  have hcont : ContinuousOn (meanLogLik μ) (Set.Icc 0 1) := (meanLogDens_continuousOn hμ).congr hE
  have hex : ∃! b, b ∈ fitBounds ∧ ∀ c ∈ fitBounds, meanLogLik μ c ≤ meanLogLik μ b := by
    obtain ⟨b, hb, hmax⟩ := isCompact_Icc.exists_isMaxOn (⟨1e-5, by constructor <;> norm_num⟩ : fitBounds.Nonempty) (hcont.mono fitBounds_sub)
    refine ⟨b, ⟨hb, fun c hc => hmax hc⟩, fun c hc => ?_⟩
    exact (hC.subset fitBounds_sub (convex_Icc _ _)).eq_of_isMaxOn (fun d hd => hc.2 d hd) hmax hc.1 hb
  refine ⟨hex, fun b₀ hb₀ hl b => ?_⟩
  have hmem : max (1e-5 : ℝ) (min b₀ (1 - 1e-5)) ∈ fitBounds := ⟨le_max_left _ _, max_le (by norm_num) (min_le_right _ _)⟩
  have hbest := strictConcave_clamp hC (b₀ := b₀) (lo := 1e-5) (hi := 1 - 1e-5) (by norm_num) (by norm_num) (by norm_num) hb₀ (fun b hb => by
    by_cases e : b = b₀
    · rw [e]
    · have := gibbs hb hb₀ e
      rw [hl]
      exact this.le)
  constructor
  · intro hb
    by_contra hne
    have := hbest b hb.1 hne
    linarith [hb.2 _ hmem]
  · rintro rfl
    refine ⟨hmem, fun c hc => ?_⟩
    by_cases e : c = max (1e-5 : ℝ) (min b₀ (1 - 1e-5))
    · rw [e]
    · exact (hbest c hc e).le

/-- **C167 (estimates).** For spacings drawn independently from any distribution, almost surely: parameters at which the criterion of `fit_brody(s, 'spacing')` is nearly as small as
anywhere in the bounds are near the best parameter; and the estimates of an exact optimiser converge to it. -/
theorem C167_estimates (h : IsSample P X μ) (hμ : SpacingLaw μ) (best : ℝ) (hbest : best ∈ fitBounds ∧ ∀ c ∈ fitBounds, meanLogLik μ c ≤ meanLogLik μ best) : ∀ᵐ ω ∂P,
    (∀ δ > 0, ∃ η > 0, ∀ᶠ n : ℕ in atTop, ∀ b ∈ fitBounds,
      (∀ c ∈ fitBounds, spacingObjective ((List.range n).map fun i => X i ω) b ≤ spacingObjective ((List.range n).map fun i => X i ω) c + η) → |b - best| < δ) ∧
    ∀ opt, ExactOptimizer opt → ∀ b : ℕ → ℝ, (∀ᶠ n : ℕ in atTop, fitBrody opt ((List.range n).map fun i => X i ω) "spacing" = .ok (b n)) → Tendsto b atTop (𝓝 best) := by
  have hcont : ContinuousOn (meanLogLik μ) fitBounds := ((meanLogDens_continuousOn hμ).congr (meanLogLik_eq hμ)).mono fitBounds_sub
  have hstrict : ∀ b ∈ fitBounds, b ≠ best → meanLogLik μ b < meanLogLik μ best := fun b hb hne => by
    refine lt_of_le_of_ne (hbest.2 b hb) fun e => hne ?_
    exact (C167_best μ hμ).1.unique ⟨hb, fun c hc => by rw [e]; exact hbest.2 c hc⟩ hbest
  filter_upwards [C167_criterion P X μ h hμ, sample_typical h hμ] with ω hω hT
  have hnear := near_minimisers (S := fun n => spacingObjective ((List.range n).map fun i => X i ω)) isCompact_Icc hcont best hbest.1 hstrict hω
  refine ⟨hnear, fun opt hopt b hb => ?_⟩
  rw [Metric.tendsto_nhds]
  intro δ hδ
  obtain ⟨η, hη, hev⟩ := hnear δ hδ
  filter_upwards [hev, hb, eventually_gt_atTop 0] with n hn hbn hpos
  have hne : (List.range n).map (fun i => X i ω) ≠ [] := by
    intro e
    have := congrArg List.length e
    simp at this
    omega
  have hm := (C106_spacing_partial _ hne (fun x hx => by
    obtain ⟨i, -, rfl⟩ := List.mem_map.mp hx
    exact hT.pos i)).2.2 opt hopt _ hbn
  exact hn _ hm.1 fun c hc => (hm.2 c hc).trans (by linarith)

/-- **C167 (Brody spacings).** For spacings drawn independently from the Brody distribution with parameter `β` between 0 (exponential spacings) and 1 (Wigner's surmise), the estimates of
`fit_brody(s, 'spacing')` with an exact optimiser converge almost surely to `β`, moved into the bounds `[1e-5, 1 - 1e-5]` of the fit. -/
theorem C167_brody (β : ℝ) (hβ : β ∈ Set.Icc (0 : ℝ) 1) (h : IsSample P X (densityLaw fun s => brodyDist s β)) : ∀ᵐ ω ∂P,
    ∀ opt, ExactOptimizer opt → ∀ b : ℕ → ℝ, (∀ᶠ n : ℕ in atTop, fitBrody opt ((List.range n).map fun i => X i ω) "spacing" = .ok (b n)) →
      Tendsto b atTop (𝓝 (max 1e-5 (min β (1 - 1e-5)))) := by
  have hL : SpacingLaw (densityLaw fun s => brodyDist s β) := law_spacing β hβ.1
  filter_upwards [C167_estimates P X _ h hL _ (((C167_best _ hL).2 β hβ rfl _).mpr rfl)] with ω hω
  exact hω.2

/-- **C167 (what is reported about a spectrum).** For a spectrum whose spacings are drawn independently from any distribution `μ`, almost surely: the parameter reported by
`Unfolded.fit_brody(method='spacing')` for its first `n + 1` levels, given in any order, converges to the best parameter, `mad` to the mean absolute and `msqd` to the mean squared difference,
under `μ`, of the distribution functions of `μ` and of the best Brody distribution. -/
theorem C167_report (h : IsSample P X μ) (hμ : SpacingLaw μ) (best : ℝ) (hbest : best ∈ fitBounds ∧ ∀ c ∈ fitBounds, meanLogLik μ c ≤ meanLogLik μ best) : ∀ᵐ ω ∂P,
    ∀ opt, ExactOptimizer opt → ∀ (a : ℝ) (L : ℕ → List ℝ), (∀ n, (L n).Perm (levelsOf a (fun i => X i ω) n)) →
      ∀ r : ℕ → Eval, (∀ᶠ n : ℕ in atTop, unfoldedFitBrody opt (L n) "spacing" = .ok (r n)) →
        Tendsto (fun n => (r n).beta) atTop (𝓝 best) ∧ Tendsto (fun n => (r n).mad) atTop (𝓝 (∫ s, |cdf μ s - brodyCdf s best| ∂μ)) ∧
        Tendsto (fun n => (r n).msqd) atTop (𝓝 (∫ s, (cdf μ s - brodyCdf s best) ^ 2 ∂μ)) := by
  have hp := hμ.prob
  have hbI := fitBounds_sub hbest.1
  have hmeas : Measurable fun s => cdf μ s - brodyCdf s best := ((monotone_cdf μ).measurable).sub (by unfold brodyCdf; fun_prop)
  have hint : ∀ f : ℝ → ℝ, Measurable f → (∀ s, 0 < s → |f s| ≤ 1) → Integrable f μ := fun f hf hf1 => by
    refine Integrable.mono' (integrable_const 1) hf.aestronglyMeasurable ?_
    filter_upwards [hμ.pos] with s hs using hf1 s hs
  have hb1 : ∀ s, 0 < s → |cdf μ s - brodyCdf s best| ≤ 1 := fun s hs => by
    have h1 := cdf_nonneg μ s
    have h2 := cdf_le_one μ s
    have h3 := (C68_cdf best (by linarith [hbI.1])).2.2.1 s hs.le
    rw [abs_le]
    constructor <;> linarith [h3.1, h3.2]
  filter_upwards [C167_estimates P X μ h hμ best hbest, sample_typical h hμ, glivenko h hμ.noAtoms,
    sample_lln h (fun s => |cdf μ s - brodyCdf s best|) (by fun_prop) (hint _ (by fun_prop) fun s hs => by rw [abs_abs]; exact hb1 s hs),
    sample_lln h (fun s => (cdf μ s - brodyCdf s best) ^ 2) (by fun_prop) (hint _ (by fun_prop) fun s hs => by rw [abs_pow]; exact pow_le_one₀ (abs_nonneg _) (hb1 s hs))]
    with ω h1 h2 h3 h4 h5 opt hopt a L hL r hr
  set x : ℕ → ℝ := fun i => X i ω with hx
  have hrep : ∀ᶠ n : ℕ in atTop, fitBrody opt ((List.range n).map x) "spacing" = .ok (r n).beta ∧
      (r n).mad = avg x (fun y => |empirical x n y - brodyCdf y (r n).beta|) n ∧ (r n).msqd = avg x (fun y => (empirical x n y - brodyCdf y (r n).beta) ^ 2) n := by
    filter_upwards [hr, eventually_gt_atTop 0] with n hn hpos
    have hsp : unfoldedFitBrody opt (L n) "spacing" = brodyFitEvaluate opt ((List.range n).map x) "spacing" := by
      unfold unfoldedFitBrody
      rw [levels_spacings a x h2.pos n (L n) (hL n)]
    rw [hsp] at hn
    have hne : (List.range n).map x ≠ [] := by
      intro e
      have := congrArg List.length e
      simp at this
      omega
    rcases hf : fitBrody opt ((List.range n).map x) "spacing" with e | b
    · simp only [brodyFitEvaluate, hf] at hn
      cases hn
    obtain ⟨r', q1, q2, q3, q4, q5, q6, q7, q8⟩ := C84_report opt _ hne "spacing" b hf
    rw [hn] at q1
    cases q1
    have hlen : ((List.range n).map x).length = n := by simp
    rw [hlen] at q4 q5 q7 q8
    rw [q6] at q7 q8
    refine ⟨by rw [q2], ?_, ?_⟩
    · rw [q7, q2]; exact columns x h2.inj n (fun u v => |u - v|) _ _ q4 q5
    · rw [q8, q2]; exact columns x h2.inj n (fun u v => (u - v) ^ 2) _ _ q4 q5
  have hbeta : Tendsto (fun n => (r n).beta) atTop (𝓝 best) := h1.2 opt hopt _ (hrep.mono fun n hn => hn.1)
  have hin : ∀ᶠ n in atTop, (r n).beta ∈ Set.Icc (0 : ℝ) 1 := by
    filter_upwards [hrep, eventually_gt_atTop 0] with n hn hpos
    have hne : (List.range n).map x ≠ [] := by
      intro e
      have := congrArg List.length e
      simp at this
      omega
    exact fitBounds_sub ((C106_spacing_partial _ hne (fun y hy => by
      obtain ⟨i, -, rfl⟩ := List.mem_map.mp hy
      exact h2.pos i)).2.2 opt hopt _ hn.1).1
  have hF0 : ∀ t, 0 ≤ cdf μ t ∧ cdf μ t ≤ 1 := fun t => ⟨cdf_nonneg μ t, cdf_le_one μ t⟩
  refine ⟨hbeta, ?_, ?_⟩
  · refine (columns_limit h2 hF0 h3 (φ := fun u v => |u - v|) (L := 1) one_pos ?_ hbI hin hbeta h4).congr' (hrep.mono fun n hn => hn.2.1.symm)
    intro u v u' v' _ _ _ _
    rw [one_mul]
    refine (abs_abs_sub_abs_le _ _).trans ?_
    rw [show u - v - (u' - v') = (u - u') - (v - v') by ring]
    exact abs_sub _ _
  · refine (columns_limit h2 hF0 h3 (φ := fun u v => (u - v) ^ 2) (L := 2) two_pos ?_ hbI hin hbeta h5).congr' (hrep.mono fun n hn => hn.2.2.symm)
    intro u v u' v' hu hv hu' hv'
    have e : (u - v) ^ 2 - (u' - v') ^ 2 = ((u - v) + (u' - v')) * ((u - u') - (v - v')) := by ring
    simp only [e, abs_mul]
    refine mul_le_mul ?_ (abs_sub _ _) (abs_nonneg _) (by norm_num)
    rw [abs_le]
    constructor <;> linarith [hu.1, hu.2, hv.1, hv.2, hu'.1, hu'.2, hv'.1, hv'.2]

/-- **C167 (a spectrum with Brody spacings).** For spacings from the Brody distribution with a parameter `β` inside the bounds of the fit, the parameter reported by `Unfolded.fit_brody` converges almost surely
to `β`, and `mad` and `msqd` converge to 0. -/
theorem C167_report_brody (β : ℝ) (hβ : β ∈ fitBounds) (h : IsSample P X (densityLaw fun s => brodyDist s β)) : ∀ᵐ ω ∂P,
    ∀ opt, ExactOptimizer opt → ∀ (a : ℝ) (L : ℕ → List ℝ), (∀ n, (L n).Perm (levelsOf a (fun i => X i ω) n)) →
      ∀ r : ℕ → Eval, (∀ᶠ n : ℕ in atTop, unfoldedFitBrody opt (L n) "spacing" = .ok (r n)) →
        Tendsto (fun n => (r n).beta) atTop (𝓝 β) ∧ Tendsto (fun n => (r n).mad) atTop (𝓝 0) ∧ Tendsto (fun n => (r n).msqd) atTop (𝓝 0) := by
  have hI := fitBounds_sub hβ
  have hL : SpacingLaw (densityLaw fun s => brodyDist s β) := law_spacing β hI.1
  have hb := ((C167_best _ hL).2 β hI rfl β).mpr (by rw [min_eq_left hβ.2, max_eq_right hβ.1])
  have hz : ∀ᵐ s ∂(densityLaw fun s => brodyDist s β), cdf (densityLaw fun s => brodyDist s β) s - brodyCdf s β = 0 := by
    filter_upwards [hL.pos] with s hs
    have := law_cdf hI.1 hs
    unfold law at this
    rw [this, sub_self]
  have e1 : ∫ s, |cdf (densityLaw fun s => brodyDist s β) s - brodyCdf s β| ∂(densityLaw fun s => brodyDist s β) = 0 := by
    rw [integral_congr_ae (hz.mono fun s hs => show _ = (fun _ => (0 : ℝ)) s by simp only [hs, abs_zero])]
    simp
  have e2 : ∫ s, (cdf (densityLaw fun s => brodyDist s β) s - brodyCdf s β) ^ 2 ∂(densityLaw fun s => brodyDist s β) = 0 := by
    rw [integral_congr_ae (hz.mono fun s hs => show _ = (fun _ => (0 : ℝ)) s by simp only [hs]; ring)]
    simp
  have := C167_report P X _ h hL β hb
  rwa [e1, e2] at this

end sample

/-- Samples from every distribution exist. -/
theorem sample_exists (μ : Measure ℝ) [IsProbabilityMeasure μ] : IsSample (Measure.infinitePi fun _ : ℕ => μ) (fun i ω => ω i) μ := by
  refine ⟨fun i => by fun_prop, fun i j hij => ?_, fun i => Measure.infinitePi_map_eval _ _⟩
  exact (iIndepFun_infinitePi (P := fun _ : ℕ => μ) (X := fun _ x => x) (fun _ => measurable_id)).indepFun hij

/-- Non-vacuity: the exponential distribution and Wigner's surmise are distributions of spacings, samples from them exist, and there is an exact optimiser that succeeds on every sample of positive spacings. -/
example : (∀ β ∈ Set.Icc (0 : ℝ) 1, SpacingLaw (densityLaw fun s => brodyDist s β) ∧
      IsSample (Measure.infinitePi fun _ : ℕ => densityLaw fun s => brodyDist s β) (fun i (ω : ℕ → ℝ) => ω i) (densityLaw fun s => brodyDist s β)) ∧
    ∃ opt, ExactOptimizer opt ∧ ∀ s : List ℝ, s ≠ [] → (∀ x ∈ s, 0 < x) → ∃ b, fitBrody opt s "spacing" = .ok b := by
  classical
  refine ⟨fun β hβ => ?_, ?_⟩
  · have hL := law_spacing β hβ.1
    have := hL.prob
    exact ⟨hL, sample_exists (law β)⟩
  · refine ⟨fun f lo hi => if h : ∃ b ∈ Set.Icc lo hi, ∀ b' ∈ Set.Icc lo hi, f b ≤ f b' then ⟨true, h.choose⟩ else ⟨false, lo⟩, fun f lo hi hs => ?_, fun s hne hs => ?_⟩
    · by_cases h : ∃ b ∈ Set.Icc lo hi, ∀ b' ∈ Set.Icc lo hi, f b ≤ f b'
      · simp only [dif_pos h]
        exact h.choose_spec
      · simp only [dif_neg h] at hs
        cases hs
    · obtain ⟨b, hb⟩ := (C106_spacing_partial s hne hs).2.1
      rw [(C78_dispatch _ s "spacing").1 (Or.inl (by unfold SameUpToCase; decide))]
      simp only [fitBrodyMaxSpacing, optimise]
      rw [dif_pos ⟨b, hb.1, hb.2⟩]
      exact ⟨_, rfl⟩


end Props
end RMT
