import Verif.Props.SpectralEdge
import Verif.Props.PolyLimits
import Mathlib.Probability.Distributions.Gaussian.Real
import Mathlib.Probability.Moments.Basic

/-! # C187: where the spectra of `generate(n, "poisson")` end -/

namespace RMT
namespace Edge
open MeasureTheory ProbabilityTheory Spec Filter Topology
variable {Ω : Type} [MeasurableSpace Ω]

/-- The upper tail of the normal law. -/
theorem normal_tail_le (t : ℝ) (ht : 0 ≤ t) : gaussianReal 0 1 (Set.Ici t) ≤ ENNReal.ofReal (Real.exp (-t ^ 2 / 2)) := by
  have h := measure_ge_le_exp_mul_mgf (μ := gaussianReal 0 1) (X := id) (t := t) t ht (by simpa using integrable_exp_mul_gaussianReal (μ := 0) (v := 1) t)
  rw [mgf_gaussianReal (μ := 0) (v := 1) (by simp)] at h
  have e : {ω : ℝ | t ≤ id ω} = Set.Ici t := rfl
  rw [e, ← Real.exp_add] at h
  rw [← ofReal_measureReal]
  refine ENNReal.ofReal_le_ofReal (h.trans (le_of_eq ?_))
  congr 1
  push_cast
  ring

/-- It is not smaller than the density one unit further. -/
theorem normal_tail_ge (t : ℝ) (ht : 0 ≤ t) : (√(2 * Real.pi))⁻¹ * Real.exp (-(t + 1) ^ 2 / 2) ≤ (gaussianReal 0 1).real (Set.Ici t) := by
  have h1 : (gaussianReal 0 1).real (Set.Icc t (t + 1)) ≤ (gaussianReal 0 1).real (Set.Ici t) := measureReal_mono Set.Icc_subset_Ici_self
  refine le_trans ?_ h1
  rw [measureReal_def, gaussianReal_apply_eq_integral 0 one_ne_zero, ENNReal.toReal_ofReal (integral_nonneg fun x => gaussianPDFReal_nonneg _ _ _)]
  have h2 : ∫ x in Set.Icc t (t + 1), (√(2 * Real.pi))⁻¹ * Real.exp (-(t + 1) ^ 2 / 2) = (√(2 * Real.pi))⁻¹ * Real.exp (-(t + 1) ^ 2 / 2) := by
    rw [setIntegral_const]
    simp
  rw [← h2]
  refine setIntegral_mono_on continuous_const.integrableOn_Icc (integrable_gaussianPDFReal 0 1).integrableOn measurableSet_Icc fun x hx => ?_
  rw [gaussianPDFReal]
  simp only [NNReal.coe_one, mul_one, sub_zero]
  gcongr
  · linarith [hx.1]
  · exact hx.2

variable {P : Measure Ω} {X : ℕ → Ω → ℝ}

theorem draws_neg (hX : NormalDraws P X) : NormalDraws P fun k ω => -X k ω := by
  refine ⟨fun k => (hX.measurable k).neg, hX.indep.comp (fun _ x => -x) fun _ => measurable_neg, fun k => ?_⟩
  have : (fun ω => -X k ω) = (fun x => -x) ∘ X k := rfl
  rw [this, ← Measure.map_map measurable_neg (hX.measurable k), hX.law k, gaussianReal_map_neg, neg_zero]

theorem some_above (hX : NormalDraws P X) (n : ℕ) (t : ℝ) (ht : 0 ≤ t) : P {ω | ∃ k < n, t ≤ X k ω} ≤ ENNReal.ofReal (n * Real.exp (-t ^ 2 / 2)) := by
  have e : {ω | ∃ k < n, t ≤ X k ω} = ⋃ k ∈ Finset.range n, X k ⁻¹' Set.Ici t := by ext ω; simp
  rw [e]
  refine (measure_biUnion_finset_le _ _).trans ?_
  have h : ∀ k ∈ Finset.range n, P (X k ⁻¹' Set.Ici t) ≤ ENNReal.ofReal (Real.exp (-t ^ 2 / 2)) := fun k _ => by
    rw [← Measure.map_apply (hX.measurable k) measurableSet_Ici, hX.law k]
    exact normal_tail_le t ht
  refine (Finset.sum_le_sum h).trans (le_of_eq ?_)
  rw [Finset.sum_const, Finset.card_range, nsmul_eq_mul, ENNReal.ofReal_mul (by positivity), ENNReal.ofReal_natCast]

theorem none_above (hX : NormalDraws P X) (n : ℕ) (t : ℝ) (ht : 0 ≤ t) :
    P {ω | ∀ k < n, X k ω < t} ≤ ENNReal.ofReal (Real.exp (-(n * ((√(2 * Real.pi))⁻¹ * Real.exp (-(t + 1) ^ 2 / 2))))) := by
  have e : {ω | ∀ k < n, X k ω < t} = ⋂ k ∈ Finset.range n, X k ⁻¹' Set.Iio t := by ext ω; simp
  rw [e, hX.indep.measure_inter_preimage_eq_mul (Finset.range n) fun _ _ => measurableSet_Iio]
  set p := (√(2 * Real.pi))⁻¹ * Real.exp (-(t + 1) ^ 2 / 2) with hp
  have h : ∀ k ∈ Finset.range n, P (X k ⁻¹' Set.Iio t) ≤ ENNReal.ofReal (Real.exp (-p)) := fun k _ => by
    rw [← Measure.map_apply (hX.measurable k) measurableSet_Iio, hX.law k, ← ofReal_measureReal]
    refine ENNReal.ofReal_le_ofReal ?_
    have h1 : (gaussianReal 0 1).real (Set.Iio t) = 1 - (gaussianReal 0 1).real (Set.Ici t) := by
      rw [← Set.compl_Ici, probReal_compl_eq_one_sub measurableSet_Ici]
    have h2 := normal_tail_ge t ht
    have h3 := Real.add_one_le_exp (-p)
    rw [h1]
    linarith
  refine (Finset.prod_le_prod' h).trans (le_of_eq ?_)
  rw [Finset.prod_const, Finset.card_range, ← ENNReal.ofReal_pow (Real.exp_pos _).le, ← Real.exp_nat_mul]
  congr 2
  ring

/-- `n` times the normal density near `a √(2 log n)`, `a < 1`, is unbounded. -/
theorem density_large (a : ℝ) (h0 : 0 ≤ a) (h1 : a < 1) : Tendsto (fun n : ℕ => (n : ℝ) * ((√(2 * Real.pi))⁻¹ * Real.exp (-(a * √(2 * Real.log n) + 1) ^ 2 / 2))) atTop atTop := by
  have hlog : Tendsto (fun n : ℕ => √(2 * Real.log n)) atTop atTop :=
    (Real.tendsto_sqrt_atTop).comp ((Real.tendsto_log_atTop.comp tendsto_natCast_atTop_atTop).const_mul_atTop two_pos)
  have hpoly : Tendsto (fun x : ℝ => x * ((1 - a ^ 2) / 2 * x - a) - 1 / 2) atTop atTop := by
    have h2 : 0 < (1 - a ^ 2) / 2 := by nlinarith
    have h3 : Tendsto (fun x : ℝ => (1 - a ^ 2) / 2 * x - a) atTop atTop := tendsto_atTop_add_const_right _ (-a) (tendsto_id.const_mul_atTop h2)
    exact tendsto_atTop_add_const_right _ (-(1 / 2)) (tendsto_id.atTop_mul_atTop₀ h3)
  have hexp := (Real.tendsto_exp_atTop.comp (hpoly.comp hlog)).const_mul_atTop (show 0 < (√(2 * Real.pi))⁻¹ by positivity)
  refine hexp.congr' ?_
  filter_upwards [eventually_ge_atTop 1] with n hn
  have hn' : (0 : ℝ) < n := by exact_mod_cast hn
  have hl : 0 ≤ Real.log n := Real.log_natCast_nonneg n
  simp only [Function.comp]
  rw [mul_left_comm]
  congr 1
  conv_rhs => rw [← Real.exp_log hn', ← Real.exp_add]
  congr 1
  have hs := Real.sq_sqrt (show 0 ≤ 2 * Real.log n by positivity)
  rw [Real.exp_log hn']
  nlinarith

/-- **The largest of `n` normal draws.** -/
theorem normal_max (P : ℕ → Measure Ω) (X : ℕ → ℕ → Ω → ℝ) (hX : ∀ n, NormalDraws (P n) (X n)) :
    (∀ b > 1, Tendsto (fun n : ℕ => P n {ω | ∃ k < n, b * √(2 * Real.log n) ≤ X n k ω}) atTop (𝓝 0)) ∧
    ∀ a < 1, Tendsto (fun n : ℕ => P n {ω | ∀ k < n, X n k ω < a * √(2 * Real.log n)}) atTop (𝓝 0) := by
  constructor
  · intro b hb
    have ht : Tendsto (fun n : ℕ => ENNReal.ofReal ((n : ℝ) ^ (-(b ^ 2 - 1)))) atTop (𝓝 0) := by
      have := ENNReal.tendsto_ofReal ((tendsto_rpow_neg_atTop (show 0 < b ^ 2 - 1 by nlinarith)).comp tendsto_natCast_atTop_atTop)
      simpa using this
    refine tendsto_of_tendsto_of_tendsto_of_le_of_le' tendsto_const_nhds ht (Eventually.of_forall fun _ => zero_le) ?_
    filter_upwards [eventually_ge_atTop 1] with n hn
    have hn' : (0 : ℝ) < n := by exact_mod_cast hn
    have hl : 0 ≤ Real.log n := Real.log_natCast_nonneg n
    refine (some_above (hX n) n _ (by positivity)).trans (ENNReal.ofReal_le_ofReal (le_of_eq ?_))
    rw [mul_pow, Real.sq_sqrt (by positivity), Real.rpow_def_of_pos hn']
    conv_lhs => rw [← Real.exp_log hn', ← Real.exp_add]
    congr 1
    rw [Real.exp_log hn']
    ring
  · have key : ∀ a, 0 ≤ a → a < 1 → Tendsto (fun n : ℕ => P n {ω | ∀ k < n, X n k ω < a * √(2 * Real.log n)}) atTop (𝓝 0) := by
      intro a h0 h1
      have h2 : Tendsto (fun n : ℕ => ENNReal.ofReal (Real.exp (-((n : ℝ) * ((√(2 * Real.pi))⁻¹ * Real.exp (-(a * √(2 * Real.log n) + 1) ^ 2 / 2)))))) atTop (𝓝 0) := by
        have := ENNReal.tendsto_ofReal (Real.tendsto_exp_neg_atTop_nhds_zero.comp (density_large a h0 h1))
        simpa using this
      exact tendsto_of_tendsto_of_tendsto_of_le_of_le tendsto_const_nhds h2 (fun _ => zero_le) fun n => none_above (hX n) n _ (by positivity)
    intro a ha
    refine tendsto_of_tendsto_of_tendsto_of_le_of_le tendsto_const_nhds (key (max a 0) (le_max_right _ _) (max_lt ha one_pos)) (fun _ => zero_le) fun n => measure_mono fun ω hω k hk => ?_
    exact (hω k hk).trans_le (mul_le_mul_of_nonneg_right (le_max_left _ _) (Real.sqrt_nonneg _))

end Edge
namespace Props
open Gen EigValsM EigM Unfold MeasureTheory ProbabilityTheory Spec Gauss Filter Topology Semi
variable {σ Ω : Type} [MeasurableSpace Ω]

omit [MeasurableSpace Ω] in
theorem mem_poissonVals (R : Rng σ) (e : Ω → σ) (n : ℕ) (ω : Ω) (x : ℝ) : x ∈ poissonVals R e n ω ↔ ∃ k < n, draw R (e ω) k = x := by
  unfold poissonVals
  rw [(npSort_perm _).mem_iff, normals_draws]
  simp

omit [MeasurableSpace Ω] in
theorem poissonVals_length (R : Rng σ) (e : Ω → σ) (n : ℕ) (ω : Ω) : (poissonVals R e n ω).length = n := by
  unfold poissonVals
  rw [(npSort_perm _).length_eq, normals_draws]
  simp

/-- **C187.** The spectrum of `generate(n, "poisson")` lies in `[-b√(2 log n), b√(2 log n)]` except with a probability of at most `2 n^(1 - b²)`, for every `n ≥ 1` and `b ≥ 0`; its largest level divided by `√(2 log n)` tends to 1
and its smallest to -1 in probability, and its mean spacing times `n / √(2 log n)` to 2: the mean spacing of the levels is not 1 before they are unfolded, it tends to 0. -/
theorem C187_poisson (R : Rng σ) (eh : EigSolver) (ehC : (n : Nat) → Matrix (Fin n) (Fin n) ℂ → List ℝ) (P : ℕ → Measure Ω) (e s : ℕ → Ω → σ)
    (hX : ∀ n, NormalDraws (P n) fun k ω => draw R (e n ω) k) (tri : Bool) :
    ∃ vals : ℕ → Ω → List ℝ, (∀ n, GeneratedVals R eh ehC n .poisson tri (e n) (s n) (vals n)) ∧
      (∀ n : ℕ, 1 ≤ n → ∀ b : ℝ, 0 ≤ b → P n {ω | ∃ x ∈ vals n ω, b * √(2 * Real.log n) ≤ |x|} ≤ ENNReal.ofReal (2 * (n : ℝ) ^ (1 - b ^ 2))) ∧
      (∀ ε > 0, Tendsto (fun n : ℕ => P n {ω | ¬ ∃ m, IsLargest (vals n ω) m ∧ |m / √(2 * Real.log n) - 1| < ε}) atTop (𝓝 0)) ∧
      (∀ ε > 0, Tendsto (fun n : ℕ => P n {ω | ¬ ∃ m, IsSmallest (vals n ω) m ∧ |m / √(2 * Real.log n) + 1| < ε}) atTop (𝓝 0)) ∧
      InProbability P (fun (n : ℕ) ω => avg (gaps (vals n ω)) * (n / √(2 * Real.log n))) 2 ∧ InProbability P (fun (n : ℕ) ω => avg (gaps (vals n ω))) 0 := by
  refine ⟨fun n ω => poissonVals R (e n) n ω, fun n => poissonVals_generated R eh ehC (e n) (s n) n tri, ?_⟩
  have hlog : Tendsto (fun n : ℕ => √(2 * Real.log n)) atTop atTop :=
    (Real.tendsto_sqrt_atTop).comp ((Real.tendsto_log_atTop.comp tendsto_natCast_atTop_atTop).const_mul_atTop two_pos)
  have hpos : ∀ᶠ n : ℕ in atTop, 0 < √(2 * Real.log n) := hlog.eventually_gt_atTop 0
  have hX' := fun n => Edge.draws_neg (hX n)
  obtain ⟨u1, u2⟩ := Edge.normal_max P _ hX
  obtain ⟨l1, l2⟩ := Edge.normal_max P _ hX'
  have hL : ∀ ε > 0, Tendsto (fun n : ℕ => P n {ω | ¬ ∃ m, IsLargest (poissonVals R (e n) n ω) m ∧ |m / √(2 * Real.log n) - 1| < ε}) atTop (𝓝 0) := by
    intro ε hε
    have t := (u1 (1 + ε) (by linarith)).add (u2 (1 - ε / 2) (by linarith))
    rw [add_zero] at t
    refine tendsto_of_tendsto_of_tendsto_of_le_of_le' tendsto_const_nhds t (Eventually.of_forall fun _ => zero_le) ?_
    filter_upwards [hpos] with n hn
    refine (measure_mono fun ω hω => ?_).trans (measure_union_le _ _)
    by_contra hcon
    simp only [Set.mem_union, Set.mem_ofPred_eq, not_or] at hcon hω
    obtain ⟨g1, g2⟩ := hcon
    push Not at g1 g2 hω
    obtain ⟨k, hk, hle⟩ := g2
    have hmem := (mem_poissonVals R (e n) n ω _).mpr ⟨k, hk, rfl⟩
    obtain ⟨m, hm⟩ := (PolyLim.exists_extremes _ _ hmem).1
    refine absurd (hω m hm) (not_le.mpr ?_)
    obtain ⟨j, hj, hjm⟩ := (mem_poissonVals R (e n) n ω m).mp hm.1
    have h1 := g1 j hj
    rw [hjm] at h1
    have h2 := hle.trans (hm.2 _ hmem)
    have h3 : m / √(2 * Real.log n) < 1 + ε := (div_lt_iff₀ hn).mpr h1
    have h4 : 1 - ε / 2 ≤ m / √(2 * Real.log n) := (le_div_iff₀ hn).mpr h2
    exact abs_lt.mpr ⟨by linarith, by linarith⟩
  have hS : ∀ ε > 0, Tendsto (fun n : ℕ => P n {ω | ¬ ∃ m, IsSmallest (poissonVals R (e n) n ω) m ∧ |m / √(2 * Real.log n) + 1| < ε}) atTop (𝓝 0) := by
    intro ε hε
    have t := (l1 (1 + ε) (by linarith)).add (l2 (1 - ε / 2) (by linarith))
    rw [add_zero] at t
    refine tendsto_of_tendsto_of_tendsto_of_le_of_le' tendsto_const_nhds t (Eventually.of_forall fun _ => zero_le) ?_
    filter_upwards [hpos] with n hn
    refine (measure_mono fun ω hω => ?_).trans (measure_union_le _ _)
    by_contra hcon
    simp only [Set.mem_union, Set.mem_ofPred_eq, not_or] at hcon hω
    obtain ⟨g1, g2⟩ := hcon
    push Not at g1 g2 hω
    obtain ⟨k, hk, hle⟩ := g2
    have hmem := (mem_poissonVals R (e n) n ω _).mpr ⟨k, hk, rfl⟩
    obtain ⟨m, hm⟩ := (PolyLim.exists_extremes _ _ hmem).2
    refine absurd (hω m hm) (not_le.mpr ?_)
    obtain ⟨j, hj, hjm⟩ := (mem_poissonVals R (e n) n ω m).mp hm.1
    have h1 := g1 j hj
    rw [hjm] at h1
    have h2 := hm.2 _ hmem
    have h3 : -(1 + ε) < m / √(2 * Real.log n) := (lt_div_iff₀ hn).mpr (by linarith)
    have h4 : m / √(2 * Real.log n) ≤ -(1 - ε / 2) := (div_le_iff₀ hn).mpr (by linarith)
    exact abs_lt.mpr ⟨by linarith, by linarith⟩
  have hsp : InProbability P (fun (n : ℕ) ω => avg (gaps (poissonVals R (e n) n ω)) * (n / √(2 * Real.log n))) 2 := by
    have key := spacing_of_ends P (fun n ω => poissonVals R (e n) n ω) (fun n : ℕ => √(2 * Real.log n) / 2) (hpos.mono fun n hn => by positivity)
      (fun n ω => ⟨poissonVals_length R (e n) n ω, npSort_ascending _⟩) (fun ε hε => ?_) fun ε hε => ?_
    · intro ε hε
      refine tendsto_of_tendsto_of_tendsto_of_le_of_le tendsto_const_nhds (key (2 * ε) (by positivity)) (fun _ => zero_le) fun n => measure_mono fun ω hω => ?_
      simp only [Set.mem_ofPred_eq] at hω ⊢
      rw [show avg (gaps (poissonVals R (e n) n ω)) * ((n : ℝ) / (√(2 * Real.log n) / 2)) - 4 = 2 * (avg (gaps (poissonVals R (e n) n ω)) * (n / √(2 * Real.log n)) - 2) by
        rw [div_div_eq_mul_div]; ring, abs_mul, abs_two]
      linarith
    · refine tendsto_of_tendsto_of_tendsto_of_le_of_le tendsto_const_nhds (hL (ε / 2) (by positivity)) (fun _ => zero_le) fun n => measure_mono fun ω hω hex => hω ?_
      obtain ⟨m, hm, hlt⟩ := hex
      refine ⟨m, hm, ?_⟩
      rw [show m / (√(2 * Real.log n) / 2) - 2 = 2 * (m / √(2 * Real.log n) - 1) by rw [div_div_eq_mul_div]; ring, abs_mul, abs_two]
      linarith
    · refine tendsto_of_tendsto_of_tendsto_of_le_of_le tendsto_const_nhds (hS (ε / 2) (by positivity)) (fun _ => zero_le) fun n => measure_mono fun ω hω hex => hω ?_
      obtain ⟨m, hm, hlt⟩ := hex
      refine ⟨m, hm, ?_⟩
      rw [show m / (√(2 * Real.log n) / 2) + 2 = 2 * (m / √(2 * Real.log n) + 1) by rw [div_div_eq_mul_div]; ring, abs_mul, abs_two]
      linarith
  refine ⟨fun n hn b hb => ?_, hL, hS, hsp, fun ε hε => ?_⟩
  · have hn' : (0 : ℝ) < n := by exact_mod_cast hn
    have hl : 0 ≤ Real.log n := Real.log_natCast_nonneg n
    have hb' : 0 ≤ b * √(2 * Real.log n) := by positivity
    have hval : (n : ℝ) * Real.exp (-(b * √(2 * Real.log n)) ^ 2 / 2) = (n : ℝ) ^ (1 - b ^ 2) := by
      rw [mul_pow, Real.sq_sqrt (by positivity), Real.rpow_def_of_pos hn']
      conv_lhs => rw [← Real.exp_log hn', ← Real.exp_add]
      congr 1
      rw [Real.exp_log hn']
      ring
    have t := add_le_add (Edge.some_above (hX n) n _ hb') (Edge.some_above (hX' n) n _ hb')
    rw [hval, ← ENNReal.ofReal_add (by positivity) (by positivity), ← two_mul] at t
    refine le_trans ((measure_mono fun ω hω => ?_).trans (measure_union_le _ _)) t
    obtain ⟨x, hx, hle⟩ := hω
    obtain ⟨k, hk, rfl⟩ := (mem_poissonVals R (e n) n ω x).mp hx
    rcases le_abs.mp hle with h | h
    · exact Or.inl ⟨k, hk, h⟩
    · exact Or.inr ⟨k, hk, h⟩
  · have hsmall : Tendsto (fun n : ℕ => 3 * (√(2 * Real.log n) / n)) atTop (𝓝 0) := by
      have h1 : Tendsto (fun n : ℕ => 3 * √(2 * (Real.log n / n) * (n : ℝ)⁻¹)) atTop (𝓝 (3 * √(2 * 0 * 0))) := by
        have h2 : Tendsto (fun n : ℕ => Real.log n / (n : ℝ)) atTop (𝓝 0) := by
          have := Real.isLittleO_log_id_atTop.tendsto_div_nhds_zero.comp (tendsto_natCast_atTop_atTop (R := ℝ))
          simpa [Function.comp_def] using this
        exact ((((h2.const_mul 2).mul (tendsto_inv_atTop_zero.comp tendsto_natCast_atTop_atTop)).sqrt).const_mul 3)
      simp only [mul_zero, Real.sqrt_zero] at h1
      refine h1.congr' ?_
      filter_upwards [eventually_gt_atTop 0] with n hn
      have hn' : (0 : ℝ) < n := by exact_mod_cast hn
      congr 1
      rw [show 2 * (Real.log n / n) * (n : ℝ)⁻¹ = 2 * Real.log n / (n : ℝ) ^ 2 by field_simp, Real.sqrt_div' _ (by positivity), Real.sqrt_sq hn'.le]
    refine tendsto_of_tendsto_of_tendsto_of_le_of_le' tendsto_const_nhds (hsp 1 one_pos) (Eventually.of_forall fun _ => zero_le) ?_
    filter_upwards [hpos, hsmall.eventually_lt_const hε, eventually_gt_atTop 0] with n h1 h2 hn
    have hn' : (0 : ℝ) < n := by exact_mod_cast hn
    refine measure_mono fun ω hω => ?_
    by_contra hcon
    simp only [Set.mem_ofPred_eq, not_le, sub_zero] at hcon hω
    refine absurd hω (not_le.mpr ?_)
    generalize avg (gaps (poissonVals R (e n) n ω)) = A at *
    have h3 := abs_lt.mp hcon
    have hr : 0 < √(2 * Real.log n) / n := by positivity
    have e1 : A = A * (n / √(2 * Real.log n)) * (√(2 * Real.log n) / n) := by field_simp
    have b1 : 1 < A * (n / √(2 * Real.log n)) := by linarith [h3.1]
    have b2 : A * (n / √(2 * Real.log n)) < 3 := by linarith [h3.2]
    generalize A * (n / √(2 * Real.log n)) = B at *
    generalize √(2 * Real.log n) / n = c at *
    rw [abs_lt, e1]
    constructor <;> nlinarith

-- the hypotheses hold for a stream of independent draws
example : ∃ vals : ℕ → (ℕ → ℝ) → List ℝ, (∀ n, GeneratedVals streamRng (fun _ _ => []) (fun _ _ => []) n .poisson false id id (vals n)) ∧
    InProbability (fun _ => Measure.infinitePi fun _ : ℕ => gaussianReal 0 1) (fun (n : ℕ) ω => avg (gaps (vals n ω))) 0 := by
  obtain ⟨vals, h1, -, -, -, -, h2⟩ := C187_poisson streamRng (fun _ _ => []) (fun _ _ => []) (fun _ => Measure.infinitePi fun _ : ℕ => gaussianReal 0 1) (fun _ => id) (fun _ => id) (fun _ => stream_draws) false
  exact ⟨vals, h1, h2⟩

end Props
end RMT
