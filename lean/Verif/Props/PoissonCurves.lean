import Verif.Props.Invariance
import Verif.Lemmas.UniformLevels
import Verif.Spec.Score
import Verif.Spec.Variance
import Mathlib.Analysis.SpecialFunctions.Complex.LogBounds

/-!
# Property C145: the Poisson curves are those of generated Poisson spectra
-/

namespace RMT
namespace Props
open Gen EigValsM EigM Unfold MeasureTheory ProbabilityTheory Spec UniformM Ensembles
open Real Set Filter
open scoped Topology

variable {σ Ω : Type} [MeasurableSpace Ω]

/-- The exact unfolding of a spectrum of `n` standard normal values: each level `x` becomes `n Φ(x)`, the expected number of levels up to `x`. -/
noncomputable def normalUnfold (n : Nat) (vals : List ℝ) : List ℝ := vals.map fun x => (n : ℝ) * cdf (gaussianReal 0 1) x

/-- The levels `generate(n, "poisson")` returns, for each size. -/
noncomputable def poissonVals (R : Rng σ) (e : Ω → σ) (n : Nat) (ω : Ω) : List ℝ := npSort (normals R n (e ω)).1

omit [MeasurableSpace Ω] in
theorem poissonVals_generated (R : Rng σ) (eh : EigSolver) (ehC : (n : Nat) → Matrix (Fin n) (Fin n) ℂ → List ℝ) (e s : Ω → σ) (n : Nat) (tri : Bool) :
    GeneratedVals R eh ehC n .poisson tri e s (poissonVals R e n) := fun ω => by
  obtain ⟨o, h1, -, h3⟩ := (C49_values R eh ehC n none tri (e ω) (s ω)).2.2
  exact ⟨o, h1, h3⟩

omit [MeasurableSpace Ω] in
theorem poisson_unfolded (R : Rng σ) (e : Ω → σ) (n : Nat) (ω : Ω) :
    Ascending (normalUnfold n (poissonVals R e n ω)) ∧ (normalUnfold n (poissonVals R e n ω)).Perm ((List.range n).map fun k => (n : ℝ) * Phi (draw R (e ω) k)) := by
  constructor
  · unfold normalUnfold Ascending
    rw [List.pairwise_map]
    exact (npSort_ascending _).imp fun h => mul_le_mul_of_nonneg_left (Phi_mono h) (Nat.cast_nonneg n)
  · unfold normalUnfold poissonVals
    rw [normals_draws]
    have := (npSort_perm ((List.range n).map (draw R (e ω)))).map fun x => (n : ℝ) * cdf (gaussianReal 0 1) x
    rw [List.map_map] at this
    exact this

omit [MeasurableSpace Ω] in
theorem poisson_count (R : Rng σ) (e : Ω → σ) (n : Nat) (ω : Ω) (p : ℝ → Prop) [DecidablePred p] :
    ((normalUnfold n (poissonVals R e n ω)).countP fun z => decide (p z)) = ∑ k ∈ Finset.range n, if p ((n : ℝ) * Phi (draw R (e ω) k)) then 1 else 0 := by
  rw [(poisson_unfolded R e n ω).2.countP_eq, List.countP_map, ← Finset.card_filter]
  exact countP_range n fun k => p ((n : ℝ) * Phi (draw R (e ω) k))

/-- **C145 (rigidity).** For every size `n` and every interval of the unfolded axis, the expected spectral rigidity of the levels of `generate(n, "poisson")`, unfolded exactly, is the
value `Poisson.spectral_rigidity` gives for the length of the interval. -/
theorem C145_rigidity (R : Rng σ) (eh : EigSolver) (ehC : (n : Nat) → Matrix (Fin n) (Fin n) ℂ → List ℝ) (P : Measure Ω) [IsProbabilityMeasure P] (e s : Ω → σ)
    (hX : NormalDraws P fun k ω => draw R (e ω) k) (n : Nat) (tri : Bool) (a b : ℝ) (h0 : 0 ≤ a) (hab : a < b) (hb : b ≤ n) :
    ∃ vals, GeneratedVals R eh ehC n .poisson tri e s vals ∧
      ∫ ω, delta3 (fun t => (countLE (normalUnfold n (vals ω)) t : ℝ)) a b ∂P = poissonRigidity (b - a) := by
  refine ⟨_, poissonVals_generated R eh ehC e s n tri, ?_⟩
  have hn : 0 < n := by
    have : (0 : ℝ) < n := by linarith
    exact_mod_cast this
  rw [poissonRigidity, ← mean_rigidity (uniform_of_normal hX n hn) a b h0 hab hb]
  have e1 : ∀ ω, (fun t => (countLE (normalUnfold n (poissonVals R e n ω)) t : ℝ)) = stairs (fun k ω => (n : ℝ) * Phi (draw R (e ω) k)) n ω := by
    intro ω
    funext t
    rw [countLE, poisson_count R e n ω fun z => z ≤ t]
    simp [stairs, step]
  simp only [e1]

/-- **C145 (level variance).** The number of unfolded levels in an interval of length `L` has expectation `L` and a variance that differs by `L² / n` from the value
`Poisson.level_variance` gives for `L`. -/
theorem C145_variance (R : Rng σ) (eh : EigSolver) (ehC : (n : Nat) → Matrix (Fin n) (Fin n) ℂ → List ℝ) (P : Measure Ω) [IsProbabilityMeasure P] (e s : Ω → σ)
    (hX : NormalDraws P fun k ω => draw R (e ω) k) (n : Nat) (hn : 0 < n) (tri : Bool) (a L : ℝ) (h0 : 0 ≤ a) (hL : 0 ≤ L) (hb : a + L ≤ n) :
    ∃ vals, GeneratedVals R eh ehC n .poisson tri e s vals ∧
      ∫ ω, (countIn (normalUnfold n (vals ω)) a (a + L) : ℝ) ∂P = L ∧
      Var[fun ω => (countIn (normalUnfold n (vals ω)) a (a + L) : ℝ); P] = poissonLevelVar L - L ^ 2 / n := by
  refine ⟨_, poissonVals_generated R eh ehC e s n tri, ?_⟩
  have hn' : (0 : ℝ) < n := by exact_mod_cast hn
  set g : ℝ → ℝ := (Icc a (a + L)).indicator 1 with hg
  have hgm : Measurable g := measurable_one.indicator measurableSet_Icc
  have hgb : ∀ y, |g y| ≤ 1 := fun y => by
    by_cases h : y ∈ Icc a (a + L) <;> simp [hg, h]
  have hg2 : ∀ y, g y ^ 2 = g y := fun y => by
    by_cases h : y ∈ Icc a (a + L) <;> simp [hg, h]
  have hi : ∫ y in (0 : ℝ)..n, g y = L := by
    rw [intervalIntegral.integral_of_le hn'.le, ← integral_Icc_eq_integral_Ioc, hg, integral_indicator_one measurableSet_Icc, measureReal_restrict_apply measurableSet_Icc,
      inter_eq_left.mpr (Icc_subset_Icc h0 hb)]
    simp [hL]
  have e1 : ∀ ω, (countIn (normalUnfold n (poissonVals R e n ω)) a (a + L) : ℝ) = ∑ k ∈ Finset.range n, g ((n : ℝ) * Phi (draw R (e ω) k)) := by
    intro ω
    rw [countIn, poisson_count R e n ω fun z => a ≤ z ∧ z ≤ a + L]
    push_cast
    refine Finset.sum_congr rfl fun k _ => ?_
    simp only [hg, indicator, mem_Icc, Pi.one_apply]
  obtain ⟨m1, m2, -⟩ := sum_moments (P := P) hn'.le (uniform_of_normal hX n hn) n g hgm 1 hgb
  simp only [e1]
  simp only [hg2, hi] at m1 m2
  rw [m1, m2, poissonLevelVar]
  constructor <;> field_simp

theorem pow_limit (s : ℝ) : Tendsto (fun n : ℕ => (1 - s / n) ^ n) atTop (𝓝 (exp (-s))) := by
  have := Real.tendsto_one_add_div_pow_exp (-s)
  refine this.congr fun n => ?_
  ring

/-- **C145 (spacings).** For `n` levels, the expected fraction of the nearest-neighbour spacings above `s` is `(1 - s/n)^n` for all `0 ≤ s ≤ n`; as `n` grows it tends to
`1 - Poisson.nnsd_cdf(s)`. -/
theorem C145_spacings (R : Rng σ) (eh : EigSolver) (ehC : (n : Nat) → Matrix (Fin n) (Fin n) ℂ → List ℝ) (P : Measure Ω) [IsProbabilityMeasure P] (e s : Ω → σ)
    (hX : NormalDraws P fun k ω => draw R (e ω) k) (tri : Bool) :
    ∃ vals : Nat → Ω → List ℝ, (∀ n, GeneratedVals R eh ehC n .poisson tri e s (vals n)) ∧
      (∀ n : Nat, 2 ≤ n → ∀ d : ℝ, 0 ≤ d → d ≤ n →
        ∫ ω, ((gaps (normalUnfold n (vals n ω))).countP (fun x => decide (d < x)) : ℝ) / (n - 1) ∂P = (1 - d / n) ^ n) ∧
      ∀ d : ℝ, 0 ≤ d → Tendsto (fun n : ℕ => ∫ ω, ((gaps (normalUnfold n (vals n ω))).countP (fun x => decide (d < x)) : ℝ) / (n - 1) ∂P) atTop (𝓝 (1 - poissonCdf d)) := by
  have main : ∀ n : Nat, 2 ≤ n → ∀ d : ℝ, 0 ≤ d → d ≤ n →
      ∫ ω, ((gaps (normalUnfold n (poissonVals R e n ω))).countP (fun x => decide (d < x)) : ℝ) / (n - 1) ∂P = (1 - d / n) ^ n := by
    intro n hn d h0 h1
    have hn' : (2 : ℝ) ≤ n := by exact_mod_cast hn
    rw [integral_div]
    have := mean_spacings_one (N := n) (by linarith) (uniform_of_normal hX n (by omega)) (fun ω => normalUnfold n (poissonVals R e n ω)) (fun ω => poisson_unfolded R e n ω) (by omega) d h0 h1
    have e1 : (fun ω => ((gaps (normalUnfold n (poissonVals R e n ω))).countP (fun x => decide (d < x)) : ℝ)) = fun ω => ((nbr 1 (normalUnfold n (poissonVals R e n ω))).countP (fun x => decide (d < x)) : ℝ) := rfl
    rw [e1, this]
    have : (n : ℝ) - 1 ≠ 0 := by linarith
    field_simp
  refine ⟨poissonVals R e, fun n => poissonVals_generated R eh ehC e s n tri, main, fun d hd => ?_⟩
  have h1 : 1 - poissonCdf d = exp (-d) := by
    rw [poissonCdf, clip0, max_eq_left hd]
    ring
  rw [h1]
  refine (pow_limit d).congr' ?_
  filter_upwards [eventually_ge_atTop (max 2 ⌈d⌉₊)] with n hn
  exact (main n (le_of_max_le_left hn) d hd ((Nat.le_ceil d).trans (by exact_mod_cast le_of_max_le_right hn))).symm

/-- **C145 (next-nearest spacings).** The expected fraction of the next-nearest-neighbour spacings, halved as the plots do, above `d` tends to `(1 + 2d) exp(-2d)`. The curve
`Poisson.nnnsd` gives, which its documentation calls a heuristic approximation, is not this law: its distribution function differs from `1 - (1 + 2d) exp(-2d)`. -/
theorem C145_next (R : Rng σ) (eh : EigSolver) (ehC : (n : Nat) → Matrix (Fin n) (Fin n) ℂ → List ℝ) (P : Measure Ω) [IsProbabilityMeasure P] (e s : Ω → σ)
    (hX : NormalDraws P fun k ω => draw R (e ω) k) (tri : Bool) :
    ∃ vals : Nat → Ω → List ℝ, (∀ n, GeneratedVals R eh ehC n .poisson tri e s (vals n)) ∧
      (∀ n : Nat, 3 ≤ n → ∀ d : ℝ, 0 ≤ d → 2 * d ≤ n →
        ∫ ω, ((nbr 2 (normalUnfold n (vals n ω))).countP (fun x => decide (d < x / 2)) : ℝ) / (n - 2) ∂P = (1 - 2 * d / n) ^ n + 2 * d * (1 - 2 * d / n) ^ (n - 1)) ∧
      (∀ d : ℝ, 0 ≤ d → Tendsto (fun n : ℕ => ∫ ω, ((nbr 2 (normalUnfold n (vals n ω))).countP (fun x => decide (d < x / 2)) : ℝ) / (n - 2) ∂P) atTop (𝓝 ((1 + 2 * d) * exp (-(2 * d))))) ∧
      ∃ d : ℝ, 0 < d ∧ 1 - brodyCdf d 0.6 ≠ (1 + 2 * d) * exp (-(2 * d)) := by
  have main : ∀ n : Nat, 3 ≤ n → ∀ d : ℝ, 0 ≤ d → 2 * d ≤ n →
      ∫ ω, ((nbr 2 (normalUnfold n (poissonVals R e n ω))).countP (fun x => decide (d < x / 2)) : ℝ) / (n - 2) ∂P = (1 - 2 * d / n) ^ n + 2 * d * (1 - 2 * d / n) ^ (n - 1) := by
    intro n hn d h0 h1
    have hn' : (3 : ℝ) ≤ n := by exact_mod_cast hn
    rw [integral_div]
    have := mean_spacings_two (N := n) (by linarith) (uniform_of_normal hX n (by omega)) (fun ω => normalUnfold n (poissonVals R e n ω)) (fun ω => poisson_unfolded R e n ω) (by omega) (2 * d) (by linarith) h1
    have e1 : ∀ x : ℝ, (d < x / 2) = (2 * d < x) := fun x => propext ⟨fun h => by linarith, fun h => by linarith⟩
    simp only [e1]
    rw [this]
    have : (n : ℝ) - 2 ≠ 0 := by linarith
    field_simp
  refine ⟨poissonVals R e, fun n => poissonVals_generated R eh ehC e s n tri, main, fun d hd => ?_, ?_⟩
  · have h2 : Tendsto (fun n : ℕ => (1 - 2 * d / n) ^ n + 2 * d * (1 - 2 * d / n) ^ (n - 1)) atTop (𝓝 ((1 + 2 * d) * exp (-(2 * d)))) := by
      have t1 := pow_limit (2 * d)
      have t0 : Tendsto (fun n : ℕ => 1 - 2 * d / (n : ℝ)) atTop (𝓝 1) := by
        have := (tendsto_const_div_atTop_nhds_zero_nat (2 * d)).const_sub 1
        simpa using this
      have t2 : Tendsto (fun n : ℕ => (1 - 2 * d / n) ^ (n - 1)) atTop (𝓝 (exp (-(2 * d)))) := by
        have := t1.div t0 one_ne_zero
        rw [div_one] at this
        refine this.congr' ?_
        filter_upwards [t0.eventually_ne one_ne_zero, eventually_ge_atTop 1] with n h1 h2
        obtain ⟨k, rfl⟩ : ∃ k, n = k + 1 := ⟨n - 1, by omega⟩
        rw [Nat.add_sub_cancel, Pi.div_apply, pow_succ, mul_div_assoc, div_self h1, mul_one]
      have := t1.add (t2.const_mul (2 * d))
      have e2 : (1 + 2 * d) * exp (-(2 * d)) = exp (-(2 * d)) + 2 * d * exp (-(2 * d)) := by ring
      rw [e2]
      exact this
    refine h2.congr' ?_
    filter_upwards [eventually_ge_atTop (max 3 ⌈2 * d⌉₊)] with n hn
    exact (main n (le_of_max_le_left hn) d hd ((Nat.le_ceil _).trans (by exact_mod_cast le_of_max_le_right hn))).symm
  · by_contra hc
    push Not at hc
    have hα : 0 < brodyAlpha 0.6 := by
      unfold brodyAlpha
      exact Real.rpow_pos_of_pos (Real.Gamma_pos_of_pos (by norm_num)) _
    have h1 : ∀ d : ℝ, 0 < d → brodyAlpha 0.6 * d ^ (0.6 : ℝ) ≤ 2 := by
      intro d hd
      have h := hc d hd
      rw [brodyCdf, sub_sub_cancel] at h
      have h2 : exp (-(2 * d)) ≤ exp (-brodyAlpha 0.6 * d ^ ((0.6 : ℝ) + 1)) := by
        rw [h]
        have := exp_pos (-(2 * d))
        nlinarith
      rw [exp_le_exp, Real.rpow_add hd, Real.rpow_one] at h2
      nlinarith
    have h2 := h1 ((3 / brodyAlpha 0.6) ^ (1 / 0.6 : ℝ)) (by positivity)
    rw [← Real.rpow_mul (by positivity)] at h2
    have h3 : (1 / 0.6 * 0.6 : ℝ) = 1 := by norm_num
    rw [h3, Real.rpow_one, mul_div_cancel₀ _ hα.ne'] at h2
    norm_num at h2

/-! ## The hypotheses can be met -/

-- C145: independent standard normal streams, 10 levels, the interval [1, 3]
example (eh : EigSolver) (ehC : (n : Nat) → Matrix (Fin n) (Fin n) ℂ → List ℝ) :
    ∃ vals, GeneratedVals streamRng eh ehC 10 .poisson false id id vals ∧
      ∫ ω, delta3 (fun t => (countLE (normalUnfold 10 (vals ω)) t : ℝ)) 1 3 ∂(Measure.infinitePi fun _ : ℕ => gaussianReal 0 1) = 2 / 15 := by
  obtain ⟨vals, h1, h2⟩ := C145_rigidity streamRng eh ehC (Measure.infinitePi fun _ : ℕ => gaussianReal 0 1) id id stream_draws 10 false 1 3 (by norm_num) (by norm_num) (by norm_num)
  refine ⟨vals, h1, h2.trans ?_⟩
  norm_num [poissonRigidity]

example (eh : EigSolver) (ehC : (n : Nat) → Matrix (Fin n) (Fin n) ℂ → List ℝ) :=
  C145_variance streamRng eh ehC (Measure.infinitePi fun _ : ℕ => gaussianReal 0 1) id id stream_draws 10 (by norm_num) false 1 2 (by norm_num) (by norm_num) (by norm_num)

example (eh : EigSolver) (ehC : (n : Nat) → Matrix (Fin n) (Fin n) ℂ → List ℝ) :=
  And.intro (C145_spacings streamRng eh ehC (Measure.infinitePi fun _ : ℕ => gaussianReal 0 1) id id stream_draws false)
    (C145_next streamRng eh ehC (Measure.infinitePi fun _ : ℕ => gaussianReal 0 1) id id stream_draws false)

end Props
end RMT
