import Verif.Lemmas.Gauss
import Mathlib.Analysis.InnerProductSpace.Projection.FiniteDimensional
import Mathlib.Analysis.InnerProductSpace.Projection.Reflection

/-! # Lemmas: moments of centred Gaussian vectors -/

namespace RMT
namespace Gauss
open MeasureTheory ProbabilityTheory Real Set
open scoped RealInnerProductSpace ENNReal

variable {E : Type} [NormedAddCommGroup E] [InnerProductSpace ℝ E] [FiniteDimensional ℝ E] [MeasurableSpace E] [BorelSpace E]

/-- The fourth moment and the second moment of the norm. -/
theorem mean_norm_pow [Nontrivial E] :
    ∫ x, ‖x‖ ^ 2 ∂(stdGaussian E) = Module.finrank ℝ E ∧ ∫ x, ‖x‖ ^ 4 ∂(stdGaussian E) = (Module.finrank ℝ E + 2) * Module.finrank ℝ E := by
  have hd : 0 < Module.finrank ℝ E := Module.finrank_pos
  obtain ⟨d, hd'⟩ : ∃ d, Module.finrank ℝ E = d + 1 := ⟨Module.finrank ℝ E - 1, by omega⟩
  have h := fun k => integral_norm (E := E) (fun r => r ^ k)
  have e : ∀ k, ∫ r in Ioi (0 : ℝ), r ^ d * exp (-r ^ 2 / 2) * r ^ k = mom (d + k) := by
    intro k
    rw [mom]
    refine setIntegral_congr_fun measurableSet_Ioi fun r _ => ?_
    ring_nf
  have hm := mom_pos d
  have h0 : (∫ r in Ioi (0 : ℝ), r ^ d * exp (-r ^ 2 / 2)) = mom d := rfl
  simp only [hd', Nat.add_sub_cancel, h0, e] at h
  constructor
  · have h2 := h 2
    rw [mom_succ] at h2
    rw [hd']
    push_cast
    have : mom d * (∫ x, ‖x‖ ^ 2 ∂(stdGaussian E)) = mom d * (d + 1) := by rw [h2]; ring
    exact mul_left_cancel₀ hm.ne' this
  · have h4 := h 4
    rw [show d + 4 = (d + 2) + 2 by ring, mom_succ, mom_succ] at h4
    rw [hd']
    have : mom d * (∫ x, ‖x‖ ^ 4 ∂(stdGaussian E)) = mom d * ((((d + 1 : ℕ) : ℝ) + 2) * ((d + 1 : ℕ) : ℝ)) := by rw [h4]; push_cast; ring
    exact mul_left_cancel₀ hm.ne' this

theorem ae_ne_zero [Nontrivial E] : ∀ᵐ x ∂(stdGaussian E), x ≠ 0 := by
  rw [density]
  refine (withDensity_absolutelyContinuous _ _) ?_
  simp

omit [FiniteDimensional ℝ E] [MeasurableSpace E] [BorelSpace E] in
theorem ratio_le (u x : E) : ⟪u, x⟫ ^ 2 / ‖x‖ ^ 2 ≤ ‖u‖ ^ 2 := by
  by_cases hx : x = 0
  · subst hx
    simp
  · have : 0 < ‖x‖ := norm_pos_iff.mpr hx
    rw [div_le_iff₀ (by positivity), ← mul_pow]
    exact sq_le_sq' (by have := neg_le_of_abs_le (abs_real_inner_le_norm u x); linarith) (real_inner_le_norm u x)

theorem ratio_integrable (u : E) : Integrable (fun x => ⟪u, x⟫ ^ 2 / ‖x‖ ^ 2) (stdGaussian E) := by
  refine Integrable.of_bound (C := ‖u‖ ^ 2) ?_ (Filter.Eventually.of_forall fun x => ?_)
  · exact Measurable.aestronglyMeasurable (by fun_prop)
  · rw [Real.norm_of_nonneg (by positivity)]
    exact ratio_le u x

/-- The direction of a Gaussian vector has no preference. -/
theorem mean_ratio [Nontrivial E] (u : E) : ∫ x, ⟪u, x⟫ ^ 2 / ‖x‖ ^ 2 ∂(stdGaussian E) = ‖u‖ ^ 2 / Module.finrank ℝ E := by
  have hrot : ∀ u v : E, ‖u‖ = ‖v‖ → ∫ x, ⟪u, x⟫ ^ 2 / ‖x‖ ^ 2 ∂(stdGaussian E) = ∫ x, ⟪v, x⟫ ^ 2 / ‖x‖ ^ 2 ∂(stdGaussian E) := by
    intro u v huv
    set L : E ≃ₗᵢ[ℝ] E := (ℝ ∙ (u - v))ᗮ.reflection with hL
    have hLu : L u = v := Submodule.reflection_sub huv
    have hmap : (stdGaussian E).map L = stdGaussian E := stdGaussian_map L
    conv_rhs => rw [← hmap]
    rw [integral_map (by fun_prop) (Measurable.aestronglyMeasurable (by fun_prop))]
    refine integral_congr_ae (Filter.Eventually.of_forall fun x => ?_)
    simp only [← hLu, LinearIsometryEquiv.inner_map_map, LinearIsometryEquiv.norm_map]
  have hd : 0 < Module.finrank ℝ E := Module.finrank_pos
  set d := Module.finrank ℝ E with hdd
  have hd0 : (d : ℝ) ≠ 0 := by exact_mod_cast hd.ne'
  set b := stdOrthonormalBasis ℝ E with hb
  set c := ∫ x, ⟪b ⟨0, hd⟩, x⟫ ^ 2 / ‖x‖ ^ 2 ∂(stdGaussian E) with hc
  have hall : ∀ i, ∫ x, ⟪b i, x⟫ ^ 2 / ‖x‖ ^ 2 ∂(stdGaussian E) = c := fun i => hrot _ _ (by rw [b.orthonormal.1, b.orthonormal.1])
  have hsum : (d : ℝ) * c = 1 := by
    have h1 : ∑ i, ∫ x, ⟪b i, x⟫ ^ 2 / ‖x‖ ^ 2 ∂(stdGaussian E) = 1 := by
      rw [← integral_finsetSum _ fun i _ => ratio_integrable (b i)]
      have : ∀ᵐ x ∂(stdGaussian E), ∑ i, ⟪b i, x⟫ ^ 2 / ‖x‖ ^ 2 = 1 := by
        filter_upwards [ae_ne_zero (E := E)] with x hx
        have hx' : ‖x‖ ≠ 0 := norm_ne_zero_iff.mpr hx
        rw [← Finset.sum_div]
        have := b.sum_sq_norm_inner_right x
        simp only [Real.norm_eq_abs, sq_abs] at this
        rw [this, div_self (by positivity)]
      rw [integral_congr_ae this]
      simp
    simp only [hall, Finset.sum_const, Finset.card_univ, Fintype.card_fin, nsmul_eq_mul] at h1
    exact h1
  by_cases hu : u = 0
  · subst hu
    simp
  have hu' : ‖u‖ ≠ 0 := norm_ne_zero_iff.mpr hu
  have h1 := hrot (‖u‖ • b ⟨0, hd⟩) u (by rw [norm_smul, b.orthonormal.1]; simp)
  rw [← h1]
  have h2 : ∀ x, ⟪‖u‖ • b ⟨0, hd⟩, x⟫ ^ 2 / ‖x‖ ^ 2 = ‖u‖ ^ 2 * (⟪b ⟨0, hd⟩, x⟫ ^ 2 / ‖x‖ ^ 2) := by
    intro x
    rw [inner_smul_left]
    simp
    ring
  simp only [h2]
  rw [integral_const_mul, ← hc]
  field_simp
  linarith

/-- The second moment of a linear functional. -/
theorem mean_inner_sq (u : E) : ∫ x, ⟪u, x⟫ ^ 2 ∂(stdGaussian E) = ‖u‖ ^ 2 ∧ Integrable (fun x => ⟪u, x⟫ ^ 2) (stdGaussian E) := by
  have h1 := variance_dual_stdGaussian (E := E) (innerSL ℝ u)
  have h2 := integral_strongDual_stdGaussian (E := E) (innerSL ℝ u)
  have hm : MemLp (fun x => ⟪u, x⟫) 2 (stdGaussian E) := IsGaussian.memLp_dual (stdGaussian E) (innerSL ℝ u) 2 (by simp)
  refine ⟨?_, hm.integrable_sq⟩
  have hm' : MemLp (⇑(innerSL ℝ u)) 2 (stdGaussian E) := hm
  rw [variance_eq_sub hm', h2] at h1
  simpa using h1

/-! ## Centred vectors -/

variable {T : ℕ}

/-- The constant vector. -/
noncomputable def ones (T : ℕ) : EuclideanSpace ℝ (Fin T) := WithLp.toLp 2 fun _ => 1

/-- The space of centred vectors. -/
noncomputable abbrev Cen (T : ℕ) : Submodule ℝ (EuclideanSpace ℝ (Fin T)) := (ℝ ∙ ones T)ᗮ

/-- Centring. -/
noncomputable def cen (x : EuclideanSpace ℝ (Fin T)) : Cen T := (Cen T).orthogonalProjectionOnto x

theorem finrank_cen (hT : 1 ≤ T) : Module.finrank ℝ (Cen T) = T - 1 := by
  obtain ⟨n, rfl⟩ : ∃ n, T = n + 1 := ⟨T - 1, by omega⟩
  have : Fact (Module.finrank ℝ (EuclideanSpace ℝ (Fin (n + 1))) = n + 1) := ⟨by simp⟩
  rw [Submodule.finrank_orthogonal_span_singleton (n := n)]
  · simp
  · intro h
    have := congrArg (fun v : EuclideanSpace ℝ (Fin (n + 1)) => v 0) h
    simp [ones] at this

theorem cen_law (T : ℕ) : (stdGaussian (EuclideanSpace ℝ (Fin T))).map cen = stdGaussian (Cen T) := by
  refine map_coisometry cen (fun t => (t : EuclideanSpace ℝ (Fin T))) (by unfold cen; fun_prop) (fun x t => ?_) fun t => rfl
  exact Submodule.inner_orthogonalProjectionOnto_eq_of_mem_right t x

theorem cen_inner (hT : 1 ≤ T) (x y : EuclideanSpace ℝ (Fin T)) : ⟪cen x, cen y⟫ = ∑ t, x t * y t - (∑ t, x t) * (∑ t, y t) / T := by
  have hT' : (T : ℝ) ≠ 0 := by
    have : (1 : ℝ) ≤ T := by exact_mod_cast hT
    linarith
  have h11 : ⟪ones T, ones T⟫ = (T : ℝ) := by
    rw [PiLp.inner_apply]
    simp [ones]
  have h1x : ∀ x : EuclideanSpace ℝ (Fin T), ⟪ones T, x⟫ = ∑ t, x t := by
    intro x
    rw [PiLp.inner_apply]
    simp [ones]
  have hx1 : ∀ x : EuclideanSpace ℝ (Fin T), ⟪x, ones T⟫ = ∑ t, x t := by
    intro x
    rw [real_inner_comm, h1x]
  have hxy : ⟪x, y⟫ = ∑ t, x t * y t := by
    rw [PiLp.inner_apply]
    exact Finset.sum_congr rfl fun t _ => by simp [mul_comm]
  have hc : ∀ x : EuclideanSpace ℝ (Fin T), ((cen x : Cen T) : EuclideanSpace ℝ (Fin T)) = x - ((∑ t, x t) / T) • ones T := by
    intro x
    refine (Submodule.eq_starProjection_of_mem_of_inner_eq_zero ?_ ?_)
    · rw [Submodule.mem_orthogonal_singleton_iff_inner_right, inner_sub_right, inner_smul_right]
      rw [h1x, h11]
      field_simp
      ring
    · intro w hw
      rw [sub_sub_cancel, inner_smul_left, (Submodule.mem_orthogonal_singleton_iff_inner_right.mp hw), mul_zero]
  rw [Submodule.coe_inner, hc x, hc y, inner_sub_left, inner_sub_right, inner_sub_right]
  simp only [inner_smul_left, inner_smul_right, conj_trivial, h11]
  simp only [h1x, hx1, hxy]
  field_simp
  ring


/-! ## Two independent vectors -/

theorem norm_sq_integrable [Nontrivial E] : Integrable (fun x => ‖x‖ ^ 2) (stdGaussian E) ∧ Integrable (fun x => ‖x‖ ^ 4) (stdGaussian E) := by
  have hd : (0 : ℝ) < Module.finrank ℝ E := by exact_mod_cast Module.finrank_pos
  refine ⟨Integrable.of_integral_ne_zero ?_, Integrable.of_integral_ne_zero ?_⟩
  · rw [mean_norm_pow.1]; positivity
  · rw [mean_norm_pow.2]; positivity

/-- The squared cosine of the angle between two independent Gaussian vectors. -/
theorem mean_cos_sq [Nontrivial E] :
    Integrable (fun p : E × E => ⟪p.1, p.2⟫ ^ 2 / (‖p.1‖ ^ 2 * ‖p.2‖ ^ 2)) ((stdGaussian E).prod (stdGaussian E)) ∧
    ∫ p, ⟪p.1, p.2⟫ ^ 2 / (‖p.1‖ ^ 2 * ‖p.2‖ ^ 2) ∂((stdGaussian E).prod (stdGaussian E)) = 1 / Module.finrank ℝ E := by
  have hi : Integrable (fun p : E × E => ⟪p.1, p.2⟫ ^ 2 / (‖p.1‖ ^ 2 * ‖p.2‖ ^ 2)) ((stdGaussian E).prod (stdGaussian E)) := by
    refine Integrable.of_bound (C := 1) (Measurable.aestronglyMeasurable (by fun_prop)) (Filter.Eventually.of_forall fun p => ?_)
    rw [Real.norm_of_nonneg (by positivity), ← mul_pow]
    refine div_le_one_of_le₀ ?_ (by positivity)
    exact sq_le_sq' (by have := neg_le_of_abs_le (abs_real_inner_le_norm p.1 p.2); linarith) (real_inner_le_norm p.1 p.2)
  refine ⟨hi, ?_⟩
  rw [integral_prod _ hi]
  have h : ∀ᵐ x ∂(stdGaussian E), ∫ y, ⟪x, y⟫ ^ 2 / (‖x‖ ^ 2 * ‖y‖ ^ 2) ∂(stdGaussian E) = 1 / Module.finrank ℝ E := by
    filter_upwards [ae_ne_zero (E := E)] with x hx
    have hx' : ‖x‖ ≠ 0 := norm_ne_zero_iff.mpr hx
    have e : ∀ y, ⟪x, y⟫ ^ 2 / (‖x‖ ^ 2 * ‖y‖ ^ 2) = (1 / ‖x‖ ^ 2) * (⟪x, y⟫ ^ 2 / ‖y‖ ^ 2) := fun y => by
      rw [div_mul_div_comm, one_mul]
    simp only [e]
    rw [integral_const_mul, mean_ratio]
    field_simp
  rw [integral_congr_ae h]
  simp

/-- The squared inner product of two independent Gaussian vectors. -/
theorem mean_prod_sq [Nontrivial E] :
    Integrable (fun p : E × E => ⟪p.1, p.2⟫ ^ 2) ((stdGaussian E).prod (stdGaussian E)) ∧
    ∫ p, ⟪p.1, p.2⟫ ^ 2 ∂((stdGaussian E).prod (stdGaussian E)) = Module.finrank ℝ E := by
  have hi : Integrable (fun p : E × E => ⟪p.1, p.2⟫ ^ 2) ((stdGaussian E).prod (stdGaussian E)) := by
    have hb : Integrable (fun p : E × E => ‖p.1‖ ^ 2 * ‖p.2‖ ^ 2) ((stdGaussian E).prod (stdGaussian E)) :=
      (norm_sq_integrable (E := E)).1.mul_prod (norm_sq_integrable (E := E)).1
    refine hb.mono (Measurable.aestronglyMeasurable (by fun_prop)) (Filter.Eventually.of_forall fun p => ?_)
    rw [Real.norm_of_nonneg (by positivity), Real.norm_of_nonneg (by positivity), ← mul_pow]
    exact sq_le_sq' (by have := neg_le_of_abs_le (abs_real_inner_le_norm p.1 p.2); linarith) (real_inner_le_norm p.1 p.2)
  refine ⟨hi, ?_⟩
  rw [integral_prod _ hi]
  simp only [(mean_inner_sq _).1]
  exact mean_norm_pow.1

/-! ## Rows of draws -/

variable {Ω : Type} [MeasurableSpace Ω]

/-- Two vectors of different draws are independent. -/
theorem law_two (P : Measure Ω) [IsProbabilityMeasure P] (X : Nat → Ω → ℝ) (hX : Spec.NormalDraws P X)
    (g h : Fin T → Nat) (hg : Function.Injective g) (hh : Function.Injective h) (hgh : ∀ s t, g s ≠ h t) :
    P.map (fun ω => ((WithLp.toLp 2 fun t => X (g t) ω : EuclideanSpace ℝ (Fin T)), (WithLp.toLp 2 fun t => X (h t) ω : EuclideanSpace ℝ (Fin T)))) =
      (stdGaussian (EuclideanSpace ℝ (Fin T))).prod (stdGaussian (EuclideanSpace ℝ (Fin T))) := by
  have hm := fun f : Fin T → Nat => measurable_draws X hX.measurable f
  have hi : IndepFun (fun ω => (WithLp.toLp 2 fun t => X (g t) ω : EuclideanSpace ℝ (Fin T))) (fun ω => (WithLp.toLp 2 fun t => X (h t) ω : EuclideanSpace ℝ (Fin T))) P := by
    have h0 := hX.indep.indepFun_finset (Finset.univ.image g) (Finset.univ.image h) (by
      rw [Finset.disjoint_left]
      intro a ha hb
      obtain ⟨s, -, rfl⟩ := Finset.mem_image.mp ha
      obtain ⟨t, -, ht⟩ := Finset.mem_image.mp hb
      exact hgh s t ht.symm) hX.measurable
    have hc : ∀ f : Fin T → Nat, Measurable fun p : {k // k ∈ Finset.univ.image f} → ℝ => (WithLp.toLp 2 fun t => p ⟨f t, Finset.mem_image_of_mem f (Finset.mem_univ t)⟩ : EuclideanSpace ℝ (Fin T)) := by
      intro f
      have : Measurable fun p : {k // k ∈ Finset.univ.image f} → ℝ => fun t => p ⟨f t, Finset.mem_image_of_mem f (Finset.mem_univ t)⟩ := measurable_pi_lambda _ fun t => measurable_pi_apply _
      fun_prop
    exact h0.comp (hc g) (hc h)
  rw [(indepFun_iff_map_prod_eq_prod_map_map (hm g).aemeasurable (hm h).aemeasurable).mp hi, law_draws P X hX g hg, law_draws P X hX h hh]

theorem cen_measurable : Measurable (cen : EuclideanSpace ℝ (Fin T) → Cen T) := by unfold cen; fun_prop

theorem cen_two (P : Measure Ω) [IsProbabilityMeasure P] (X : Nat → Ω → ℝ) (hX : Spec.NormalDraws P X)
    (g h : Fin T → Nat) (hg : Function.Injective g) (hh : Function.Injective h) (hgh : ∀ s t, g s ≠ h t) :
    P.map (fun ω => (cen (WithLp.toLp 2 fun t => X (g t) ω : EuclideanSpace ℝ (Fin T)), cen (WithLp.toLp 2 fun t => X (h t) ω : EuclideanSpace ℝ (Fin T)))) =
      (stdGaussian (Cen T)).prod (stdGaussian (Cen T)) := by
  have hm := fun f : Fin T → Nat => measurable_draws X hX.measurable f
  have e := law_two P X hX g h hg hh hgh
  have : P.map (fun ω => (cen (WithLp.toLp 2 fun t => X (g t) ω : EuclideanSpace ℝ (Fin T)), cen (WithLp.toLp 2 fun t => X (h t) ω : EuclideanSpace ℝ (Fin T)))) =
      (P.map (fun ω => ((WithLp.toLp 2 fun t => X (g t) ω : EuclideanSpace ℝ (Fin T)), (WithLp.toLp 2 fun t => X (h t) ω : EuclideanSpace ℝ (Fin T))))).map (Prod.map cen cen) := by
    rw [Measure.map_map (cen_measurable.prodMap cen_measurable) ((hm g).prodMk (hm h))]
    rfl
  rw [this, e, ← Measure.map_prod_map _ _ cen_measurable cen_measurable, cen_law]

end Gauss
end RMT
