import Verif.Lemmas.BrodyConsistency
import Verif.Spec.Sample
import Mathlib.Probability.StrongLaw
import Mathlib.MeasureTheory.Measure.OpenPos
import Mathlib.MeasureTheory.Integral.Gamma

/-!
# Lemmas for C167: samples are typical, and the parameter of the sample is the best one
-/

namespace RMT
namespace BrodyC
open Real Brody Ensembles EigValsM Spec Props Filter Topology MeasureTheory ProbabilityTheory

section sample
variable {Ω : Type} [MeasurableSpace Ω] {P : Measure Ω} [IsProbabilityMeasure P] {X : ℕ → Ω → ℝ} {μ : Measure ℝ}

omit [IsProbabilityMeasure P] in
theorem sample_lln (h : IsSample P X μ) (f : ℝ → ℝ) (hf : Measurable f) (hi : Integrable f μ) :
    ∀ᵐ ω ∂P, Tendsto (avg (fun i => X i ω) f) atTop (𝓝 (∫ s, f s ∂μ)) := by
  have h1 := strong_law_ae_real (μ := P) (fun i ω => f (X i ω))
    (by
      have := hi
      rw [← h.law 0] at this
      exact this.comp_measurable (h.measurable 0))
    (fun i j hij => (h.indep hij).comp hf hf)
    (fun i => IdentDistrib.comp ⟨(h.measurable i).aemeasurable, (h.measurable 0).aemeasurable, by rw [h.law, h.law]⟩ hf)
  have h2 : ∫ ω, f (X 0 ω) ∂P = ∫ s, f s ∂μ := by
    rw [← h.law 0, integral_map (h.measurable 0).aemeasurable hf.aestronglyMeasurable]
  rw [h2] at h1
  exact h1

theorem sample_injective (h : IsSample P X μ) (ha : ∀ s, μ {s} = 0) : ∀ᵐ ω ∂P, Function.Injective fun i => X i ω := by
  have key : ∀ i j : ℕ, i ≠ j → ∀ᵐ ω ∂P, X i ω ≠ X j ω := by
    intro i j hij
    have hm : IsProbabilityMeasure μ := by rw [← h.law 0]; exact Measure.isProbabilityMeasure_map (h.measurable 0).aemeasurable
    have hpair : P.map (fun ω => (X i ω, X j ω)) = μ.prod μ := by
      rw [(indepFun_iff_map_prod_eq_prod_map_map (h.measurable i).aemeasurable (h.measurable j).aemeasurable).mp (h.indep hij), h.law, h.law]
    have hz : (μ.prod μ) {p : ℝ × ℝ | p.1 = p.2} = 0 := by
      rw [Measure.measure_prod_null (measurableSet_eq_fun measurable_fst measurable_snd)]
      refine Filter.Eventually.of_forall fun s => ?_
      have : Prod.mk s ⁻¹' {p : ℝ × ℝ | p.1 = p.2} = {s} := by ext y; simp [eq_comm]
      show μ (Prod.mk s ⁻¹' {p : ℝ × ℝ | p.1 = p.2}) = 0
      rw [this]
      exact ha s
    rw [← hpair, Measure.map_apply ((h.measurable i).prodMk (h.measurable j)) (measurableSet_eq_fun measurable_fst measurable_snd)] at hz
    exact measure_eq_zero_iff_ae_notMem.mp hz
  have : ∀ᵐ ω ∂P, ∀ i j : ℕ, i ≠ j → X i ω ≠ X j ω := by
    rw [ae_all_iff]; intro i
    rw [ae_all_iff]; intro j
    by_cases hij : i = j
    · exact Filter.Eventually.of_forall fun ω hne => absurd hij hne
    · filter_upwards [key i j hij] with ω hω _ using hω
  filter_upwards [this] with ω hω i j hij
  by_contra hne
  exact hω i j hne hij

theorem pow_le_cube {y b : ℝ} (hy : 0 < y) (hb : b ∈ Set.Icc (0 : ℝ) 1) : y ^ (b + 1) ≤ 1 + y ^ 3 := by
  have h3 : 0 < y ^ 3 := by positivity
  rcases le_total y 1 with h | h
  · linarith [rpow_le_one hy.le h (by linarith [hb.1] : 0 ≤ b + 1)]
  · have := rpow_le_rpow_of_exponent_le h (by push_cast; linarith [hb.2] : b + 1 ≤ ((3 : ℕ) : ℝ))
    rw [rpow_natCast] at this
    linarith

theorem pow_integrable (h : SpacingLaw μ) {b : ℝ} (hb : b ∈ Set.Icc (0 : ℝ) 1) : Integrable (fun y : ℝ => y ^ (b + 1)) μ := by
  have := h.prob
  refine Integrable.mono' ((integrable_const 1).add h.cube) (by fun_prop) ?_
  filter_upwards [h.pos] with y hy
  rw [norm_of_nonneg (rpow_pos_of_pos hy _).le]
  exact pow_le_cube hy hb

/-- The mean of the power `b + 1`. -/
noncomputable def meanPow (μ : Measure ℝ) (b : ℝ) : ℝ := ∫ y, y ^ (b + 1) ∂μ

theorem meanPow_lip (h : SpacingLaw μ) {b c : ℝ} (hb : b ∈ Set.Icc (0 : ℝ) 1) (hc : c ∈ Set.Icc (0 : ℝ) 1) :
    |meanPow μ b - meanPow μ c| ≤ |b - c| * ∫ y, (1 + y ^ 3) ∂μ := by
  have := h.prob
  unfold meanPow
  rw [← integral_sub (pow_integrable h hb) (pow_integrable h hc), ← integral_const_mul]
  refine norm_integral_le_of_norm_le (f := fun y : ℝ => y ^ (b + 1) - y ^ (c + 1)) (((integrable_const 1).add h.cube).const_mul _) ?_
  filter_upwards [h.pos] with y hy
  exact pow_lip hy hb hc

theorem sample_typical (h : IsSample P X μ) (hμ : SpacingLaw μ) : ∀ᵐ ω ∂P, Typical (fun i => X i ω) (∫ s, log s ∂μ) (meanPow μ) := by
  have hpos : ∀ᵐ ω ∂P, ∀ i, 0 < X i ω := by
    rw [ae_all_iff]
    intro i
    have := hμ.pos
    rw [← h.law i] at this
    exact ae_of_ae_map (h.measurable i).aemeasurable this
  have hpow : ∀ᵐ ω ∂P, ∀ q : ℚ, (q : ℝ) ∈ Set.Icc (0 : ℝ) 1 → Tendsto (avg (fun i => X i ω) fun y => y ^ ((q : ℝ) + 1)) atTop (𝓝 (meanPow μ q)) := by
    rw [ae_all_iff]
    intro q
    by_cases hq : (q : ℝ) ∈ Set.Icc (0 : ℝ) 1
    · filter_upwards [sample_lln h (fun y => y ^ ((q : ℝ) + 1)) (by fun_prop) (pow_integrable hμ hq)] with ω hω _ using hω
    · exact Filter.Eventually.of_forall fun ω hh => absurd hh hq
  filter_upwards [hpos, hpow, sample_injective h hμ.noAtoms, sample_lln h log measurable_log hμ.log, sample_lln h (fun y => |log y|) (by fun_prop) hμ.log.abs,
    sample_lln h (fun y => y ^ 3) (by fun_prop) hμ.cube] with ω a1 a2 a3 a4 a5 a6
  exact ⟨a1, a3, a4, ⟨_, a5⟩, ⟨_, a6⟩, a2, ⟨_, fun b hb c hc => meanPow_lip hμ hb hc⟩⟩

theorem meanLogDens_eq (hμ : SpacingLaw μ) {b : ℝ} (hb : b ∈ Set.Icc (0 : ℝ) 1) :
    meanLogDens (∫ s, log s ∂μ) (meanPow μ) b = ∫ s, log (brodyDist s b) ∂μ ∧ Integrable (fun s => log (brodyDist s b)) μ := by
  have := hμ.prob
  have i1 : Integrable (fun s => log ((b + 1) * brodyAlpha b) + b * log s) μ := (integrable_const _).add (hμ.log.const_mul b)
  have i2 : Integrable (fun s : ℝ => brodyAlpha b * s ^ (b + 1)) μ := (pow_integrable hμ hb).const_mul _
  have e : (fun s => logDens b s) =ᵐ[μ] fun s => log (brodyDist s b) := by
    filter_upwards [hμ.pos] with s hs using logDens_eq hb.1 hs
  constructor
  · rw [← integral_congr_ae e]
    unfold logDens
    rw [integral_sub i1 i2, integral_add (integrable_const _) (hμ.log.const_mul b), integral_const_mul, integral_const_mul, integral_const]
    simp [meanLogDens, meanPow]
  · exact (i1.sub i2).congr e

theorem brodyAlpha_continuousOn' : ContinuousOn brodyAlpha (Set.Icc (0 : ℝ) 1) := by
  have harg : ContinuousOn (fun b : ℝ => (b + 2) / (b + 1)) (Set.Icc (0 : ℝ) 1) := by
    apply ContinuousOn.div (by fun_prop) (by fun_prop)
    intro b hb; linarith [hb.1]
  have hG : ContinuousOn (fun b : ℝ => Gamma ((b + 2) / (b + 1))) (Set.Icc (0 : ℝ) 1) := by
    intro b hb
    have hb' := hb.1
    have hc : ContinuousAt Gamma ((b + 2) / (b + 1)) := by
      apply (differentiableAt_Gamma _).continuousAt
      intro m
      have : 0 < (b + 2) / (b + 1) := by positivity
      have : (0 : ℝ) ≤ m := by positivity
      linarith
    exact ContinuousAt.comp_continuousWithinAt (g := Gamma) (f := fun b : ℝ => (b + 2) / (b + 1)) hc (harg b hb)
  apply ContinuousOn.rpow hG (by fun_prop)
  intro b hb; left
  have hb' := hb.1
  exact (Gamma_pos_of_pos (by positivity)).ne'

theorem meanLogDens_continuousOn (hμ : SpacingLaw μ) : ContinuousOn (meanLogDens (∫ s, log s ∂μ) (meanPow μ)) (Set.Icc (0 : ℝ) 1) := by
  have hA := brodyAlpha_continuousOn'
  have hE : ContinuousOn (meanPow μ) (Set.Icc (0 : ℝ) 1) := by
    refine (LipschitzOnWith.of_dist_le_mul (K := Real.toNNReal (∫ y, (1 + y ^ 3) ∂μ)) fun b hb c hc => ?_).continuousOn
    rw [Real.dist_eq, Real.dist_eq, Real.coe_toNNReal', mul_comm]
    exact (meanPow_lip hμ hb hc).trans (mul_le_mul_of_nonneg_left (le_max_left _ _) (abs_nonneg _))
  unfold meanLogDens
  refine ContinuousOn.sub (ContinuousOn.add (ContinuousOn.log ((continuousOn_id.add continuousOn_const).mul hA) fun b hb => ?_) (by fun_prop)) (hA.mul hE)
  have := brodyAlpha_pos b (by linarith [hb.1])
  have : 0 < b + 1 := by linarith [hb.1]
  positivity

end sample

/-! ### The Brody laws -/

/-- The Brody distribution. -/
noncomputable def law (b : ℝ) : Measure ℝ := densityLaw fun s => brodyDist s b

theorem dist_measurable (b : ℝ) : Measurable fun s => brodyDist s b := by unfold brodyDist; fun_prop

theorem law_integral (b : ℝ) (hb : 0 ≤ b) (f : ℝ → ℝ) : ∫ s, f s ∂(law b) = ∫ s in Set.Ioi (0 : ℝ), brodyDist s b * f s := by
  unfold law densityLaw
  rw [integral_withDensity_eq_integral_toReal_smul (dist_measurable b).ennreal_ofReal (Filter.Eventually.of_forall fun _ => ENNReal.ofReal_lt_top)]
  refine setIntegral_congr_fun measurableSet_Ioi fun s hs => ?_
  simp only [smul_eq_mul]
  rw [ENNReal.toReal_ofReal (dist_pos hs hb).le]

theorem law_integrable (b : ℝ) (hb : 0 ≤ b) (f : ℝ → ℝ) : Integrable f (law b) ↔ IntegrableOn (fun s => brodyDist s b * f s) (Set.Ioi (0 : ℝ)) := by
  unfold law densityLaw
  rw [integrable_withDensity_iff_integrable_smul' (dist_measurable b).ennreal_ofReal (Filter.Eventually.of_forall fun _ => ENNReal.ofReal_lt_top)]
  refine integrable_congr ?_
  filter_upwards [ae_restrict_mem measurableSet_Ioi] with s hs
  rw [ENNReal.toReal_ofReal (dist_pos hs hb).le, smul_eq_mul]

theorem dist_rpow_integrable (b : ℝ) (hb : 0 ≤ b) (q : ℝ) (hq : -1 < q) : IntegrableOn (fun s => brodyDist s b * s ^ q) (Set.Ioi (0 : ℝ)) := by
  have ha := brodyAlpha_pos b (by linarith)
  have h := (integrableOn_rpow_mul_exp_neg_mul_rpow (p := b + 1) (s := b + q) (by linarith) (by linarith) ha).const_mul ((b + 1) * brodyAlpha b)
  refine IntegrableOn.congr_fun h (fun s hs => ?_) measurableSet_Ioi
  have hs' : (0 : ℝ) < s := hs
  simp only [brodyDist]
  rw [rpow_add hs']
  ring

theorem dist_integrable (b : ℝ) (hb : 0 ≤ b) : IntegrableOn (fun s => brodyDist s b) (Set.Ioi (0 : ℝ)) := by
  simpa using dist_rpow_integrable b hb 0 (by norm_num)

theorem law_spacing (b : ℝ) (hb : 0 ≤ b) : SpacingLaw (law b) := by
  have hac : law b ≪ volume.restrict (Set.Ioi (0 : ℝ)) := withDensity_absolutelyContinuous _ _
  refine ⟨⟨?_⟩, ?_, ?_, ?_, ?_⟩
  · unfold law densityLaw
    rw [withDensity_apply _ MeasurableSet.univ, Measure.restrict_univ, ← ofReal_integral_eq_lintegral_ofReal (dist_integrable b hb), brody_mass b (by linarith), ENNReal.ofReal_one]
    filter_upwards [ae_restrict_mem measurableSet_Ioi] with s hs using (dist_pos hs hb).le
  · exact hac.ae_le (ae_restrict_mem measurableSet_Ioi)
  · exact fun s => hac (by simp)
  · rw [law_integrable b hb]
    refine Integrable.mono' ((dist_rpow_integrable b hb 1 (by norm_num)).add ((dist_rpow_integrable b hb (-1 / 2) (by norm_num)).const_mul 2)) ((dist_measurable b).mul measurable_log).aestronglyMeasurable ?_
    filter_upwards [ae_restrict_mem measurableSet_Ioi] with s hs
    have hs' : (0 : ℝ) < s := hs
    have hp := dist_pos hs' hb
    rw [norm_mul, norm_of_nonneg hp.le, Pi.add_apply, rpow_one]
    have h1 : ‖log s‖ ≤ s + 2 * s ^ (-1 / 2 : ℝ) := by
      have hh := rpow_pos_of_pos hs' (-1 / 2 : ℝ)
      have a := log_le_sub_one_of_pos hs'
      have c := log_le_sub_one_of_pos hh
      rw [log_rpow hs'] at c
      rw [norm_eq_abs, abs_le]
      constructor <;> linarith
    nlinarith
  · rw [law_integrable b hb]
    have := dist_rpow_integrable b hb ((3 : ℕ) : ℝ) (by norm_num)
    simpa only [rpow_natCast] using this

/-- Gibbs' inequality for the Brody family. -/
theorem gibbs {b b₀ : ℝ} (hb : b ∈ Set.Icc (0 : ℝ) 1) (hb₀ : b₀ ∈ Set.Icc (0 : ℝ) 1) (hne : b ≠ b₀) :
    ∫ s, log (brodyDist s b) ∂(law b₀) < ∫ s, log (brodyDist s b₀) ∂(law b₀) := by
  have hL := law_spacing b₀ hb₀.1
  have := hL.prob
  obtain ⟨-, i1⟩ := meanLogDens_eq hL hb
  obtain ⟨-, i0⟩ := meanLogDens_eq hL hb₀
  set r : ℝ → ℝ := fun s => brodyDist s b / brodyDist s b₀ with hr
  have er : ∀ s ∈ Set.Ioi (0 : ℝ), brodyDist s b₀ * r s = brodyDist s b := fun s hs => by
    have := (dist_pos hs hb₀.1).ne'
    simp only [hr]
    field_simp
  have ir : Integrable r (law b₀) := by
    rw [law_integrable b₀ hb₀.1]
    exact (dist_integrable b hb.1).congr_fun (fun s hs => (er s hs).symm) measurableSet_Ioi
  have mr : ∫ s, r s ∂(law b₀) = 1 := by
    rw [law_integral b₀ hb₀.1, setIntegral_congr_fun measurableSet_Ioi er, brody_mass b (by linarith [hb.1])]
  set g : ℝ → ℝ := fun s => r s - 1 - (log (brodyDist s b) - log (brodyDist s b₀)) with hg
  have ig : Integrable g (law b₀) := (ir.sub (integrable_const 1)).sub (i1.sub i0)
  have hg0 : ∀ s, 0 < s → 0 ≤ g s := fun s hs => by
    have p1 := dist_pos hs hb.1
    have p0 := dist_pos hs hb₀.1
    have := log_le_sub_one_of_pos (div_pos p1 p0)
    rw [log_div p1.ne' p0.ne'] at this
    simp only [hg, hr]
    linarith
  have mg : ∫ s, g s ∂(law b₀) = ∫ s, log (brodyDist s b₀) ∂(law b₀) - ∫ s, log (brodyDist s b) ∂(law b₀) := by
    have hr1 : Integrable (fun s => r s - 1) (law b₀) := ir.sub (integrable_const 1)
    have hl : Integrable (fun s => log (brodyDist s b) - log (brodyDist s b₀)) (law b₀) := i1.sub i0
    simp only [hg]
    rw [integral_sub hr1 hl, integral_sub ir (integrable_const 1), integral_sub i1 i0, mr]
    simp
  have hge : 0 ≤ᵐ[law b₀] g := by filter_upwards [hL.pos] with s hs using hg0 s hs
  have h0 : 0 ≤ ∫ s, g s ∂(law b₀) := integral_nonneg_of_ae hge
  rcases h0.lt_or_eq with h | h
  · linarith
  exfalso
  have hz := (integral_eq_zero_iff_of_nonneg_ae hge ig).mp h.symm
  -- back to Lebesgue measure
  have hz' : ∀ᵐ s ∂(volume.restrict (Set.Ioi (0 : ℝ))), logDens b s = logDens b₀ s := by
    have h1 : ∀ᵐ s ∂(law b₀), g s = 0 := hz
    unfold law densityLaw at h1
    rw [ae_withDensity_iff (dist_measurable b₀).ennreal_ofReal] at h1
    filter_upwards [h1, ae_restrict_mem measurableSet_Ioi] with s hs hs0
    have p1 := dist_pos hs0 hb.1
    have p0 := dist_pos hs0 hb₀.1
    have hs' := hs (by simpa using p0)
    rw [logDens_eq hb.1 hs0, logDens_eq hb₀.1 hs0]
    by_contra hcon
    have h3 : r s ≠ 1 := fun h4 => hcon (by
      simp only [hr] at h4
      rw [div_eq_one_iff_eq p0.ne'] at h4
      rw [h4])
    have := log_lt_sub_one_of_pos (div_pos p1 p0) h3
    rw [log_div p1.ne' p0.ne'] at this
    simp only [hg, hr] at hs'
    linarith
  have hcont : ∀ c : ℝ, ContinuousOn (logDens c) (Set.Ioi 0) := fun c => by
    unfold logDens
    refine ContinuousOn.sub (ContinuousOn.add continuousOn_const (continuousOn_const.mul (continuousOn_log.mono fun x hx => (ne_of_gt hx)))) (continuousOn_const.mul ?_)
    exact continuousOn_id.rpow_const fun x hx => Or.inl (ne_of_gt hx)
  have heq := Measure.eqOn_open_of_ae_eq hz' isOpen_Ioi (hcont b) (hcont b₀)
  -- compare near 0
  set C := |log ((b + 1) * brodyAlpha b) - log ((b₀ + 1) * brodyAlpha b₀)| + 3 with hC
  have hd : 0 < |b - b₀| := abs_pos.mpr (sub_ne_zero.mpr hne)
  set N := C / |b - b₀| with hN
  have hN0 : 0 ≤ N := by positivity
  have hx0 : (0 : ℝ) < exp (-N) := exp_pos _
  have hx1 : exp (-N) ≤ 1 := exp_le_one_iff.mpr (by linarith)
  have := heq (show exp (-N) ∈ Set.Ioi 0 from hx0)
  unfold logDens at this
  rw [log_exp] at this
  have q1 : 0 ≤ brodyAlpha b * exp (-N) ^ (b + 1) ∧ brodyAlpha b * exp (-N) ^ (b + 1) ≤ 1 := by
    have a := rpow_le_one hx0.le hx1 (by linarith [hb.1] : 0 ≤ b + 1)
    have a' := rpow_pos_of_pos hx0 (b + 1)
    have c := alpha_le_one hb.1
    have c' := brodyAlpha_pos b (by linarith [hb.1])
    exact ⟨by positivity, by nlinarith⟩
  have q2 : 0 ≤ brodyAlpha b₀ * exp (-N) ^ (b₀ + 1) ∧ brodyAlpha b₀ * exp (-N) ^ (b₀ + 1) ≤ 1 := by
    have a := rpow_le_one hx0.le hx1 (by linarith [hb₀.1] : 0 ≤ b₀ + 1)
    have a' := rpow_pos_of_pos hx0 (b₀ + 1)
    have c := alpha_le_one hb₀.1
    have c' := brodyAlpha_pos b₀ (by linarith [hb₀.1])
    exact ⟨by positivity, by nlinarith⟩
  have e1 : |(b - b₀) * N| = C := by
    rw [abs_mul, abs_of_nonneg hN0, hN]
    field_simp
  have e2 : (b - b₀) * N = (log ((b + 1) * brodyAlpha b) - log ((b₀ + 1) * brodyAlpha b₀)) - brodyAlpha b * exp (-N) ^ (b + 1) + brodyAlpha b₀ * exp (-N) ^ (b₀ + 1) := by linarith
  have e3 : |(b - b₀) * N| ≤ |log ((b + 1) * brodyAlpha b) - log ((b₀ + 1) * brodyAlpha b₀)| + 2 := by
    rw [e2, abs_le]
    have := neg_abs_le (log ((b + 1) * brodyAlpha b) - log ((b₀ + 1) * brodyAlpha b₀))
    have := le_abs_self (log ((b + 1) * brodyAlpha b) - log ((b₀ + 1) * brodyAlpha b₀))
    constructor <;> linarith
  rw [e1, hC] at e3
  linarith

end BrodyC
end RMT
