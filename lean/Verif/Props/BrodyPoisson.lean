import Verif.Lemmas.BrodyPoisson
import Verif.Lemmas.UniformGaps
import Verif.Lemmas.Score
import Verif.Props.BrodyConsistency
import Verif.Props.SpacingLimits

/-!
# C168: the Brody fit of a generated Poisson spectrum
-/

namespace RMT
namespace Props
open Gen EigValsM EigM Unfold MeasureTheory ProbabilityTheory Spec UniformM Ensembles Brody BrodyC
open Real Filter
open scoped Topology

variable {σ Ω : Type} [MeasurableSpace Ω]

/-- For exponential spacings a smaller parameter in the bounds is more likely. -/
theorem poisson_prefers {c b : ℝ} (hc : c ∈ Set.Icc (0 : ℝ) 1) (hb : b ∈ Set.Icc (0 : ℝ) 1) (hcb : c < b) :
    0 < ∫ t in Set.Ioi (0 : ℝ), (logDens c t - logDens b t) * exp (-t) ∧ IntegrableOn (fun t => (logDens c t - logDens b t) * exp (-t)) (Set.Ioi 0) := by
  have hL : SpacingLaw (law 0) := law_spacing 0 le_rfl
  have := hL.prob
  have hE := meanLogLik_eq hL
  have hC : StrictConcaveOn ℝ (Set.Icc 0 1) (meanLogLik (law 0)) := (meanLogDens_concave hL).congr hE.symm
  have hlt : meanLogLik (law 0) b < meanLogLik (law 0) c := by
    rcases eq_or_lt_of_le hc.1 with h0 | h0
    · rw [← h0]
      exact gibbs hb ⟨le_rfl, zero_le_one⟩ (by linarith [hc.1])
    · have h1 := gibbs hc ⟨le_rfl, zero_le_one⟩ (by linarith [hc.1])
      have h2 := hC.slope_anti_adjacent (x := 0) (y := c) (z := b) ⟨le_rfl, zero_le_one⟩ hb h0 hcb
      have h3 : (meanLogLik (law 0) c - meanLogLik (law 0) 0) / (c - 0) < 0 := div_neg_of_neg_of_pos (sub_neg.mpr h1) (by linarith)
      have h4 := h2.trans h3
      have h5 := (div_neg_iff.mp h4)
      rcases h5 with ⟨_, h⟩ | ⟨h, _⟩ <;> linarith
  obtain ⟨-, i1⟩ := meanLogDens_eq hL hc
  obtain ⟨-, i2⟩ := meanLogDens_eq hL hb
  have hexp : ∀ t ∈ Set.Ioi (0 : ℝ), brodyDist t 0 = exp (-t) := fun t ht => by
    rw [(C68_interpolates t (le_of_lt ht)).1, poissonDensity]
  have e : ∫ s, (log (brodyDist s c) - log (brodyDist s b)) ∂(law 0) = ∫ t in Set.Ioi (0 : ℝ), (logDens c t - logDens b t) * exp (-t) := by
    rw [law_integral 0 le_rfl]
    refine setIntegral_congr_fun measurableSet_Ioi fun t ht => ?_
    rw [hexp t ht, logDens_eq hc.1 ht, logDens_eq hb.1 ht, mul_comm]
  constructor
  · rw [← e, integral_sub i1 i2]
    unfold meanLogLik at hlt
    linarith
  · refine IntegrableOn.congr_fun ((law_integrable 0 le_rfl _).mp (i1.sub i2)) (fun t ht => ?_) measurableSet_Ioi
    simp only [Pi.sub_apply]
    rw [hexp t ht, logDens_eq hc.1 ht, logDens_eq hb.1 ht, mul_comm]

/-- The log-likelihood lost between `c` and `b` is at least that lost between `c` and a parameter between them. -/
theorem loss_concave {c d b x : ℝ} (hc : 0 ≤ c) (hcd : c < d) (hdb : d ≤ b) (hx : 0 < x) : logDens c x - logDens d x ≤ (d - c) / (b - c) * (logDens c x - logDens b x) := by
  have hbc : 0 < b - c := by linarith
  have h := (logDens_concave hx).concaveOn.2 (show c ∈ Set.Ioi (-1) from Set.mem_Ioi.mpr (by linarith)) (show b ∈ Set.Ioi (-1) from Set.mem_Ioi.mpr (by linarith))
    (show 0 ≤ 1 - (d - c) / (b - c) by rw [sub_nonneg, div_le_one hbc]; linarith) (show 0 ≤ (d - c) / (b - c) from div_nonneg (by linarith) hbc.le) (by ring)
  simp only [smul_eq_mul] at h
  rw [show (1 - (d - c) / (b - c)) * c + (d - c) / (b - c) * b = d by field_simp; ring] at h
  linarith

/-- **C168 (criterion).** For one spectrum of `generate(n, "poisson")`, unfolded exactly, with probability tending to 1 every parameter at which the criterion of `fit_brody(method='spacing')` is nearly as small as
anywhere in the bounds of the fit is near the lower bound `1e-5`. -/
theorem C168_criterion (R : Rng σ) (eh : EigSolver) (ehC : (n : Nat) → Matrix (Fin n) (Fin n) ℂ → List ℝ) (P : ℕ → Measure Ω) [∀ n, IsProbabilityMeasure (P n)] (e s : ℕ → Ω → σ)
    (hX : ∀ n, NormalDraws (P n) fun k ω => draw R (e n ω) k) (tri : Bool) :
    ∃ vals : ℕ → Ω → List ℝ, (∀ n, GeneratedVals R eh ehC n .poisson tri (e n) (s n) (vals n)) ∧
      ∀ δ : ℝ, 0 < δ → ∃ η > 0, Tendsto (fun n : ℕ => P n {ω | ¬ ((∀ x ∈ gaps (normalUnfold n (vals n ω)), 0 < x) ∧ ∀ b ∈ fitBounds,
        (∀ c ∈ fitBounds, spacingObjective (gaps (normalUnfold n (vals n ω))) b ≤ spacingObjective (gaps (normalUnfold n (vals n ω))) c + η) → |b - 1e-5| < δ)}) atTop (𝓝 0) := by
  obtain ⟨vals, hv, hcdf⟩ := C156_spacings R eh ehC P e s hX tri
  have hvals : vals = fun n => poissonVals R (e n) n :=
    funext fun n => funext fun ω => by
      obtain ⟨o, h1, h2⟩ := hv n ω
      obtain ⟨o', h1', h2'⟩ := poissonVals_generated R eh ehC (e n) (s n) n tri ω
      rw [h1] at h1'
      cases h1'
      rw [← h2, ← h2']
  subst hvals
  refine ⟨_, hv, fun δ hδ => ?_⟩
  obtain ⟨hY, -⟩ := drawn_uniform R P e hX
  have hl : ∀ n ω, Ascending (normalUnfold n (poissonVals R (e n) n ω)) ∧ (normalUnfold n (poissonVals R (e n) n ω)).Perm ((List.range n).map fun k => drawn R e n k ω) := fun n ω => poisson_unfolded R (e n) n ω
  set S : ℕ → Ω → List ℝ := fun n ω => gaps (normalUnfold n (poissonVals R (e n) n ω)) with hS
  have hSn : ∀ n ω, S n ω = nbr 1 (normalUnfold n (poissonVals R (e n) n ω)) := fun n ω => rfl
  have hlen : ∀ n ω, (S n ω).length = n - 1 := fun n ω => by rw [hSn, nbr_length]
  -- what holds with high probability
  have hdist : ∀ n : ℕ, 0 < n → P n {ω | ¬ ((S n ω).Nodup ∧ ∀ x ∈ S n ω, 0 < x)} = 0 := fun n hn => gaps_distinct (hY n hn) n _ (hl n)
  have hrange := spacing_range P (drawn R e) hY _ hl
  by_cases hδ1 : (1 - 1e-5 : ℝ) < 1e-5 + δ
  · refine ⟨1, one_pos, tendsto_const_nhds.congr' ?_⟩
    filter_upwards [eventually_gt_atTop 0] with n hn
    symm
    refine measure_mono_null (fun ω hω => ?_) (hdist n hn)
    refine fun hgood => hω ⟨hgood.2, fun b hb _ => ?_⟩
    rw [abs_lt]
    constructor <;> linarith [hb.1, hb.2]
  push Not at hδ1
  have hc0 : (1e-5 : ℝ) ∈ Set.Icc (0 : ℝ) 1 := by constructor <;> norm_num
  have hcf : (1e-5 : ℝ) ∈ fitBounds := by constructor <;> norm_num
  have hd0 : (1e-5 + δ : ℝ) ∈ Set.Icc (0 : ℝ) 1 := ⟨by norm_num; linarith, by norm_num at hδ1 ⊢; linarith⟩
  obtain ⟨hpos, hint⟩ := poisson_prefers hc0 hd0 (by linarith)
  obtain ⟨ε, hε, η, hη, hgain⟩ := gain_exists hc0 hd0 (by linarith) hpos hint
  refine ⟨η / 4, by positivity, ?_⟩
  have hsum := (hcdf ε hε).add hrange
  rw [add_zero] at hsum
  have herr : Tendsto (fun n : ℕ => (7 * √(n : ℝ) + 6) / ((n : ℝ) - 1)) atTop (𝓝 0) := by
    have hs : Tendsto (fun n : ℕ => √(n : ℝ)) atTop atTop := tendsto_sqrt_atTop.comp tendsto_natCast_atTop_atTop
    have h1 : Tendsto (fun n : ℕ => 1 / (√(n : ℝ) - 1)) atTop (𝓝 0) := by
      simpa only [one_div, Function.comp_def, sub_eq_add_neg] using tendsto_inv_atTop_zero.comp (tendsto_atTop_add_const_right _ (-1) hs)
    have h2 := h1.const_mul 7
    rw [mul_zero] at h2
    refine squeeze_zero' ?_ ?_ h2
    · filter_upwards [eventually_ge_atTop 2] with n hn
      have : (2 : ℝ) ≤ n := by exact_mod_cast hn
      have := sqrt_nonneg (n : ℝ)
      exact div_nonneg (by linarith) (by linarith)
    · filter_upwards [eventually_ge_atTop 4] with n hn
      have hn4 : (4 : ℝ) ≤ n := by exact_mod_cast hn
      have h2s : 2 ≤ √(n : ℝ) := by exact le_sqrt_of_sq_le (by linarith)
      have hsq : √(n : ℝ) ^ 2 = n := sq_sqrt (by linarith)
      rw [mul_one_div, div_le_div_iff₀ (by linarith) (by linarith)]
      nlinarith
  refine tendsto_of_tendsto_of_tendsto_of_le_of_le' tendsto_const_nhds hsum (Eventually.of_forall fun n => zero_le) ?_
  filter_upwards [eventually_ge_atTop 2, herr.eventually (gt_mem_nhds (by positivity : (0 : ℝ) < η / 4))] with n hn2 herrn
  have hn2' : (2 : ℝ) ≤ n := by exact_mod_cast hn2
  refine le_trans (measure_mono (t := ({ω | ∃ d : ℝ, ε ≤ |((S n ω).countP (fun x => decide (x ≤ d)) : ℝ) / (n - 1) - poissonCdf d|} ∪
    {ω | ∃ x ∈ nbr 1 (normalUnfold n (poissonVals R (e n) n ω)), √√(n : ℝ) < x ∨ x ≤ exp (-√√(n : ℝ))}) ∪ {ω | ¬ ((S n ω).Nodup ∧ ∀ x ∈ S n ω, 0 < x)}) ?_) ?_
  swap
  · refine (measure_union_le _ _).trans ?_
    rw [hdist n (by omega), add_zero]
    exact measure_union_le _ _
  intro ω hω
  by_contra hcon
  simp only [Set.mem_union, not_or] at hcon
  obtain ⟨⟨g1, g2⟩, g3⟩ := hcon
  simp only [Set.mem_ofPred_eq, not_not] at g3
  simp only [Set.mem_ofPred_eq, not_exists, not_le, not_and, not_or, not_lt] at g1 g2
  obtain ⟨hnd, hp⟩ := g3
  refine hω ⟨hp, fun b hb hmin => ?_⟩
  by_contra hfar
  push Not at hfar
  rw [abs_of_nonneg (by linarith [hb.1])] at hfar
  have hlR : ((S n ω).length : ℝ) = n - 1 := by rw [hlen, Nat.cast_sub (by omega), Nat.cast_one]
  have hlpos : (0 : ℝ) < n - 1 := by linarith
  have hne : S n ω ≠ [] := by
    intro h
    have := hlen n ω
    rw [h, List.length_nil] at this
    omega
  -- the gain of the lower bound
  have hg := hgain (S n ω) hne hp fun t => by
    rcases lt_or_ge t 0 with h | h
    · exact Or.inr h
    · left
      have h1 := (g1 t).le
      have h2 := above_below (S n ω) (n - 1) hlpos hlR t (1 - poissonCdf t)
      rw [sub_sub_cancel] at h2
      rw [h2, poissonCdf, clip0, max_eq_left h, sub_sub_cancel] at h1
      rw [above, hlR]
      exact h1
  set N : ℝ := ((S n ω).length : ℝ) with hN
  have hNpos : 0 < N := by rw [hlR]; exact hlpos
  have hbc : 0 < b - 1e-5 := by linarith
  have hsumle : ((S n ω).map fun x => logDens 1e-5 x - logDens (1e-5 + δ) x).sum ≤ (1e-5 + δ - 1e-5) / (b - 1e-5) * ((S n ω).map fun x => logDens 1e-5 x - logDens b x).sum := by
    rw [← List.sum_map_mul_left]
    exact List.sum_le_sum fun x hx => loss_concave (by norm_num) (by linarith) (by linarith) (hp x hx)
  have hgb : η ≤ ((S n ω).map fun x => logDens 1e-5 x - logDens b x).sum / N := by
    rw [le_div_iff₀ hNpos] at hg ⊢
    have hq : (1e-5 + δ - 1e-5) / (b - 1e-5) ≤ 1 := by rw [div_le_one hbc]; linarith
    have hq0 : 0 < (1e-5 + δ - 1e-5) / (b - 1e-5) := div_pos (by linarith) hbc
    have h0 : 0 < η * N := by positivity
    generalize (1e-5 + δ - 1e-5) / (b - 1e-5) = q at *
    generalize ((S n ω).map fun x => logDens 1e-5 x - logDens b x).sum = T at *
    have hT : 0 ≤ T := by
      by_contra hT
      push Not at hT
      have := mul_neg_of_pos_of_neg hq0 hT
      linarith
    nlinarith
  -- the criterion is near the likelihood
  have hr1 : (1 : ℝ) ≤ √(n : ℝ) := by rw [one_le_sqrt]; linarith
  have hy1 : (1 : ℝ) ≤ √√(n : ℝ) := by rw [one_le_sqrt]; exact hr1
  have hy2 : √√(n : ℝ) ^ 2 = √(n : ℝ) := sq_sqrt (sqrt_nonneg _)
  have hcr := criterion_likelihood (S n ω) hne hnd hp (√(n : ℝ)) (fun x hx => by
    obtain ⟨u1, u2⟩ := g2 x hx
    have hx0 := hp x hx
    have l1 : -√√(n : ℝ) ≤ log x := by rw [le_log_iff_exp_le hx0]; exact u2.le
    have l2 : log x ≤ √√(n : ℝ) := by
      have := log_le_sub_one_of_pos hx0
      linarith
    refine ⟨?_, ?_⟩
    · have : |log x| ≤ √√(n : ℝ) := abs_le.mpr ⟨l1, l2⟩
      nlinarith
    · rw [← hy2]
      exact pow_le_pow_left₀ hx0.le u1 2) (b := 1e-5) (c := b) hc0 (fitBounds_sub hb)
  have hm := hmin 1e-5 hcf
  rw [← hN, hlR] at hcr
  have hcr' := (abs_le.mp hcr).1
  rw [hlR] at hgb
  linarith

/-- **C168 (what is reported).** The parameter reported by `Unfolded.fit_brody(method='spacing')` with an exact optimiser, for one spectrum of `generate(n, "poisson")` unfolded exactly,
tends in probability to the lower bound `1e-5` of the fit; and with probability tending to 1 the fit has a minimiser to find. -/
theorem C168_report (R : Rng σ) (eh : EigSolver) (ehC : (n : Nat) → Matrix (Fin n) (Fin n) ℂ → List ℝ) (P : ℕ → Measure Ω) [∀ n, IsProbabilityMeasure (P n)] (e s : ℕ → Ω → σ)
    (hX : ∀ n, NormalDraws (P n) fun k ω => draw R (e n ω) k) (tri : Bool) :
    ∃ vals : ℕ → Ω → List ℝ, (∀ n, GeneratedVals R eh ehC n .poisson tri (e n) (s n) (vals n)) ∧
      ∀ δ : ℝ, 0 < δ → Tendsto (fun n : ℕ => P n {ω | ¬ ((∃ b, MinimisesInBounds (spacingObjective (gaps (normalUnfold n (vals n ω)))) b) ∧
        ∀ opt, ExactOptimizer opt → ∀ r, unfoldedFitBrody opt (normalUnfold n (vals n ω)) "spacing" = .ok r → |r.beta - 1e-5| < δ)}) atTop (𝓝 0) := by
  obtain ⟨vals, hv, h⟩ := C168_criterion R eh ehC P e s hX tri
  refine ⟨vals, hv, fun δ hδ => ?_⟩
  have hvals : vals = fun n => poissonVals R (e n) n :=
    funext fun n => funext fun ω => by
      obtain ⟨o, h1, h2⟩ := hv n ω
      obtain ⟨o', h1', h2'⟩ := poissonVals_generated R eh ehC (e n) (s n) n tri ω
      rw [h1] at h1'
      cases h1'
      rw [← h2, ← h2']
  obtain ⟨η, hη, hlim⟩ := h δ hδ
  refine tendsto_of_tendsto_of_tendsto_of_le_of_le' tendsto_const_nhds hlim (Eventually.of_forall fun n => zero_le) ?_
  filter_upwards [eventually_ge_atTop 2] with n hn
  refine measure_mono fun ω hω hgood => hω ?_
  obtain ⟨hp, hnear⟩ := hgood
  have hasc : Ascending (normalUnfold n (vals n ω)) := by rw [hvals]; exact (poisson_unfolded R (e n) n ω).1
  have hne : gaps (normalUnfold n (vals n ω)) ≠ [] := by
    intro h0
    have h1 : (gaps (normalUnfold n (vals n ω))).length = n - 1 := by rw [hvals]; exact nbr_length R (e n) n 1 ω
    rw [h0, List.length_nil] at h1
    omega
  have hC := C106_spacing_partial _ hne hp
  refine ⟨hC.2.1, fun opt hopt r hr => ?_⟩
  have hsp : unfoldedFitBrody opt (normalUnfold n (vals n ω)) "spacing" = brodyFitEvaluate opt (gaps (normalUnfold n (vals n ω))) "spacing" := by
    unfold unfoldedFitBrody
    rw [npSort_of_ascending _ hasc, ← Report.gaps_eq_diff]
    congr 1
    exact List.filter_eq_self.mpr fun x hx => by simpa using hp x hx
  rw [hsp] at hr
  rcases hf : fitBrody opt (gaps (normalUnfold n (vals n ω))) "spacing" with e' | b
  · simp only [brodyFitEvaluate, hf] at hr
    cases hr
  obtain ⟨r', q1, q2, -⟩ := C84_report opt _ hne "spacing" b hf
  rw [hr] at q1
  cases q1
  obtain ⟨m1, m2⟩ := hC.2.2 opt hopt b hf
  rw [q2]
  exact hnear b m1 fun c hc => (m2 c hc).trans (by linarith)

/-- Non-vacuity: there are independent normal draws. (An exact optimiser that finds every minimiser is given with C167.) -/
example (eh : EigSolver) (ehC : (n : Nat) → Matrix (Fin n) (Fin n) ℂ → List ℝ) :=
  C168_criterion streamRng eh ehC (fun _ => Measure.infinitePi fun _ : ℕ => gaussianReal 0 1) (fun _ => id) (fun _ => id) (fun _ => stream_draws) false

example (eh : EigSolver) (ehC : (n : Nat) → Matrix (Fin n) (Fin n) ℂ → List ℝ) :=
  C168_report streamRng eh ehC (fun _ => Measure.infinitePi fun _ : ℕ => gaussianReal 0 1) (fun _ => id) (fun _ => id) (fun _ => stream_draws) false

end Props
end RMT
