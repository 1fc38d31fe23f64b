import Verif.Lemmas.Measurable
import Mathlib.Probability.Moments.Variance
import Mathlib.Algebra.Order.Chebyshev

/-!
# Means and variances of finitely many samples: mean square errors
-/

namespace RMT
namespace Draws
open Spec MeasureTheory ProbabilityTheory Rigidity Real

variable {Ω : Type} [MeasurableSpace Ω] {P : Measure Ω} [IsProbabilityMeasure P] {U : Nat → Ω → ℝ}

/-- The mean of `g` over the draws. -/
noncomputable def gmean (g : ℝ → ℝ) : ℝ := ∫ u in Set.Ico (0 : ℝ) 1, g u

/-- The variance of `g` over the draws. -/
noncomputable def gvar (g : ℝ → ℝ) : ℝ := ∫ u in Set.Ico (0 : ℝ) 1, (g u - gmean g) ^ 2

section
variable (hU : UniformDraws P U) {g : ℝ → ℝ} (hg : Measurable g) {B : ℝ} (hB : ∀ x, |g x| ≤ B)
include hU hg

omit [IsProbabilityMeasure P] in
theorem draw_integral (j : ℕ) : ∫ ω, g (U j ω) ∂P = gmean g := by
  unfold gmean
  rw [← hU.law j, integral_map (hU.measurable j).aemeasurable hg.aestronglyMeasurable]

include hB in
theorem draw_memLp (j : ℕ) : MemLp (fun ω => g (U j ω)) 2 P :=
  MemLp.of_bound (hg.comp (hU.measurable j)).aestronglyMeasurable B (Filter.Eventually.of_forall fun ω => by rw [Real.norm_eq_abs]; exact hB _)

include hB in
theorem runMean_memLp (k : ℕ) : MemLp (fun ω => runMean (fun j => g (U j ω)) k) 2 P := by
  unfold runMean
  have := memLp_finsetSum (Finset.range k) fun j _ => draw_memLp hU hg hB j
  simp only [div_eq_inv_mul]
  exact this.const_mul _

include hB in
theorem runMean_integral (k : ℕ) (hk : 1 ≤ k) : ∫ ω, runMean (fun j => g (U j ω)) k ∂P = gmean g := by
  unfold runMean
  rw [integral_div, integral_finsetSum _ fun j _ => (draw_memLp hU hg hB j).integrable one_le_two]
  simp only [draw_integral hU hg, Finset.sum_const, Finset.card_range, nsmul_eq_mul]
  have : (k : ℝ) ≠ 0 := by positivity
  field_simp

omit [IsProbabilityMeasure P] in
theorem draw_variance (j : ℕ) : Var[fun ω => g (U j ω); P] = gvar g := by
  have hm : Measurable fun ω => g (U j ω) := hg.comp (hU.measurable j)
  rw [variance_eq_integral hm.aemeasurable, draw_integral hU hg]
  exact draw_integral hU (g := fun u => (g u - gmean g) ^ 2) ((hg.sub_const _).pow_const 2) j

include hB in
theorem runMean_sq (k : ℕ) (hk : 1 ≤ k) : ∫ ω, (runMean (fun j => g (U j ω)) k - gmean g) ^ 2 ∂P = gvar g / k := by
  have h1 : Var[fun ω => runMean (fun j => g (U j ω)) k; P] = gvar g / k := by
    have e : (fun ω => runMean (fun j => g (U j ω)) k) = fun ω => (k : ℝ)⁻¹ * (∑ j ∈ Finset.range k, fun ω => g (U j ω)) ω := by
      funext ω
      simp only [runMean, Finset.sum_apply, div_eq_inv_mul]
    rw [e, variance_const_mul, IndepFun.variance_sum (fun j _ => draw_memLp hU hg hB j) fun i _ j _ hij => (hU.indep hij).comp hg hg]
    simp only [draw_variance hU hg, Finset.sum_const, Finset.card_range, nsmul_eq_mul]
    have : (k : ℝ) ≠ 0 := by positivity
    field_simp
  rw [variance_eq_integral (runMean_memLp hU hg hB k).aemeasurable, runMean_integral hU hg hB k hk] at h1
  exact h1

end

/-- The sample variance and the true variance. -/
theorem runVar_split (d : ℕ → ℝ) (m : ℝ) (k : ℕ) (hk : 1 ≤ k) : runVar d k = runMean (fun j => (d j - m) ^ 2) k - (runMean d k - m) ^ 2 := by
  have hk' : (k : ℝ) ≠ 0 := by positivity
  unfold runVar runMean
  set S := ∑ j ∈ Finset.range k, d j with hS
  have e1 : ∀ a : ℝ, ∑ j ∈ Finset.range k, (d j - a) ^ 2 = ∑ j ∈ Finset.range k, d j ^ 2 - 2 * a * S + k * a ^ 2 := fun a => by
    have : ∀ j, (d j - a) ^ 2 = d j ^ 2 - 2 * a * d j + a ^ 2 := fun j => by ring
    simp only [this, Finset.sum_add_distrib, Finset.sum_sub_distrib, ← Finset.mul_sum, Finset.sum_const, Finset.card_range, nsmul_eq_mul, ← hS]
  rw [e1, e1]
  field_simp
  ring

section
theorem centred_bound {g : ℝ → ℝ} {B : ℝ} (hB : ∀ x, |g x| ≤ B) (x : ℝ) : |(g x - gmean g) ^ 2| ≤ (B + |gmean g|) ^ 2 := by
  rw [abs_pow]
  exact pow_le_pow_left₀ (abs_nonneg _) ((abs_sub _ _).trans (add_le_add (hB x) le_rfl)) 2

/-- The variance of the squared deviation. -/
theorem gvar_sq_le {g : ℝ → ℝ} (hg : Measurable g) {B : ℝ} (hB : ∀ x, |g x| ≤ B) (K : ℝ) (hgK : ∀ u, |g u - gmean g| ≤ K) : gvar (fun u => (g u - gmean g) ^ 2) ≤ K ^ 2 * gvar g := by
  set h : ℝ → ℝ := fun u => (g u - gmean g) ^ 2 with hh
  have hgm : Measurable h := (hg.sub_const _).pow_const 2
  have hhB := centred_bound hB
  have hb : ∀ u, h u ≤ K ^ 2 := fun u => by
    rw [hh]
    simp only
    rw [← sq_abs]
    exact pow_le_pow_left₀ (abs_nonneg _) (hgK u) 2
  have : gvar h = (∫ u in Set.Ico (0 : ℝ) 1, h u ^ 2) - gvar g ^ 2 := by
    have hprob : IsProbabilityMeasure ((volume : Measure ℝ).restrict (Set.Ico 0 1)) := ⟨by simp⟩
    have hlp : MemLp h 2 (volume.restrict (Set.Ico (0 : ℝ) 1)) := MemLp.of_bound hgm.aestronglyMeasurable _ (Filter.Eventually.of_forall fun u => by rw [Real.norm_eq_abs]; exact hhB u)
    have e1 : gvar h = Var[h; volume.restrict (Set.Ico (0 : ℝ) 1)] := by
      rw [variance_eq_integral hgm.aemeasurable]
      rfl
    rw [e1, variance_eq_sub hlp]
    rfl
  rw [this]
  have hi : IntegrableOn h (Set.Ico (0 : ℝ) 1) := Integrable.of_bound hgm.aestronglyMeasurable _ (Filter.Eventually.of_forall fun u => by rw [Real.norm_eq_abs]; exact hhB u)
  have hi2 : IntegrableOn (fun u => h u ^ 2) (Set.Ico (0 : ℝ) 1) := Integrable.of_bound (hgm.pow_const 2).aestronglyMeasurable (((B + |gmean g|) ^ 2) ^ 2) (Filter.Eventually.of_forall fun u => by
    rw [Real.norm_eq_abs, abs_pow]
    exact pow_le_pow_left₀ (abs_nonneg _) (hhB u) 2)
  have : ∫ u in Set.Ico (0 : ℝ) 1, h u ^ 2 ≤ ∫ u in Set.Ico (0 : ℝ) 1, K ^ 2 * h u := integral_mono hi2 (hi.const_mul _) fun u => by
    have h0 : 0 ≤ h u := sq_nonneg _
    have := hb u
    nlinarith
  rw [integral_const_mul] at this
  have e2 : ∫ u in Set.Ico (0 : ℝ) 1, h u = gvar g := rfl
  rw [e2] at this
  nlinarith [sq_nonneg (gvar g)]

variable (hU : UniformDraws P U) {g : ℝ → ℝ} (hg : Measurable g) {B : ℝ} (hB : ∀ x, |g x| ≤ B)
include hU hg hB

theorem runVar_integrable (k : ℕ) (hk : 1 ≤ k) : Integrable (fun ω => runVar (fun j => g (U j ω)) k) P ∧ Measurable (fun ω => runVar (fun j => g (U j ω)) k) := by
  constructor
  · simp only [runVar_split _ (gmean g) k hk]
    have h1 := (runMean_memLp hU (g := fun u => (g u - gmean g) ^ 2) ((hg.sub_const _).pow_const 2) (centred_bound hB) k).integrable one_le_two
    have h2 := ((runMean_memLp hU hg hB k).sub (memLp_const (gmean g))).integrable_sq
    exact h1.sub h2
  · unfold runVar runMean
    have := fun j => hg.comp (hU.measurable j)
    simp only [Function.comp_def] at this
    exact (Finset.measurable_sum _ fun j _ => (((this j).sub ((Finset.measurable_sum _ fun i _ => this i).div_const _)).pow_const 2)).div_const _

/-- The expected value of the sample variance. -/
theorem runVar_integral (k : ℕ) (hk : 1 ≤ k) : ∫ ω, runVar (fun j => g (U j ω)) k ∂P = (1 - 1 / k) * gvar g := by
  simp only [runVar_split _ (gmean g) k hk]
  have hgm : Measurable fun u => (g u - gmean g) ^ 2 := (hg.sub_const _).pow_const 2
  have h1 := (runMean_memLp hU (g := fun u => (g u - gmean g) ^ 2) hgm (centred_bound hB) k).integrable one_le_two
  have h2 := ((runMean_memLp hU hg hB k).sub (memLp_const (gmean g))).integrable_sq
  simp only [Pi.sub_apply] at h2
  rw [integral_sub h1 h2, runMean_integral hU (g := fun u => (g u - gmean g) ^ 2) hgm (centred_bound hB) k hk]
  rw [runMean_sq hU hg hB k hk]
  show gvar g - gvar g / k = _
  ring

/-- The mean absolute error of the sample variance. -/
theorem runVar_error (k : ℕ) (hk : 1 ≤ k) (K : ℝ) (hK : 0 ≤ K) (hgK : ∀ u, |g u - gmean g| ≤ K) :
    ∫ ω, |runVar (fun j => g (U j ω)) k - gvar g| ∂P ≤ K * √(gvar g) / √k + gvar g / k := by
  set h : ℝ → ℝ := fun u => (g u - gmean g) ^ 2 with hh
  have hgm : Measurable h := (hg.sub_const _).pow_const 2
  have hhB := centred_bound hB
  have hmean : gmean h = gvar g := rfl
  have m1 := (runMean_memLp hU hgm hhB k).sub (memLp_const (gvar g))
  have m2 := ((runMean_memLp hU hg hB k).sub (memLp_const (gmean g))).integrable_sq
  simp only [Pi.sub_apply] at m2
  have i1 : Integrable (fun ω => |runMean (fun j => h (U j ω)) k - gvar g|) P := (m1.integrable one_le_two).abs
  have step : ∫ ω, |runVar (fun j => g (U j ω)) k - gvar g| ∂P ≤ ∫ ω, (|runMean (fun j => h (U j ω)) k - gvar g| + (runMean (fun j => g (U j ω)) k - gmean g) ^ 2) ∂P := by
    refine integral_mono (((runVar_integrable hU hg hB k hk).1.sub (integrable_const _)).abs) (i1.add m2) fun ω => ?_
    simp only
    rw [runVar_split _ (gmean g) k hk]
    have : runMean (fun j => h (U j ω)) k - (runMean (fun j => g (U j ω)) k - gmean g) ^ 2 - gvar g = (runMean (fun j => h (U j ω)) k - gvar g) - (runMean (fun j => g (U j ω)) k - gmean g) ^ 2 := by ring
    show |runMean (fun j => h (U j ω)) k - (runMean (fun j => g (U j ω)) k - gmean g) ^ 2 - gvar g| ≤ _
    rw [this]
    refine (abs_sub _ _).trans ?_
    rw [abs_of_nonneg (sq_nonneg (runMean (fun j => g (U j ω)) k - gmean g))]
  refine step.trans ?_
  rw [integral_add i1 m2, runMean_sq hU hg hB k hk]
  refine add_le_add ?_ le_rfl
  -- the first term, by the Cauchy-Schwarz inequality
  have hsq := runMean_sq hU hgm hhB k hk
  rw [hmean] at hsq
  have jensen : (∫ ω, |runMean (fun j => h (U j ω)) k - gvar g| ∂P) ^ 2 ≤ ∫ ω, |runMean (fun j => h (U j ω)) k - gvar g| ^ 2 ∂P := by
    have hv := variance_nonneg (fun ω => |runMean (fun j => h (U j ω)) k - gvar g|) P
    have m3 : MemLp (fun ω => |runMean (fun j => h (U j ω)) k - gvar g|) 2 P := m1.abs
    rw [variance_eq_sub m3] at hv
    simp only [Pi.pow_apply] at hv
    linarith
  simp only [sq_abs] at jensen
  rw [hsq] at jensen
  have hgv : gvar h ≤ K ^ 2 * gvar g := gvar_sq_le hg hB K hgK
  have hgv0 : 0 ≤ gvar g := integral_nonneg fun u => sq_nonneg _
  have hk0 : (0 : ℝ) < k := by positivity
  have hrhs : 0 ≤ K * √(gvar g) / √k := by positivity
  refine abs_le_of_sq_le_sq' ?_ hrhs |>.2
  rw [div_pow, mul_pow, Real.sq_sqrt hgv0, Real.sq_sqrt hk0.le]
  exact jensen.trans (by gcongr)

/-- An average of running means of length at least `m`. -/
theorem means_average (I : Finset ℕ) (hI : I.Nonempty) (m : ℕ) (hm : 1 ≤ m) (hIm : ∀ j ∈ I, m ≤ j) :
    ∫ ω, (∑ j ∈ I, runMean (fun i => g (U i ω)) j) / I.card ∂P = gmean g ∧
    ∫ ω, ((∑ j ∈ I, runMean (fun i => g (U i ω)) j) / I.card - gmean g) ^ 2 ∂P ≤ gvar g / m ∧
    MemLp (fun ω => (∑ j ∈ I, runMean (fun i => g (U i ω)) j) / I.card) 2 P := by
  have hc : (0 : ℝ) < I.card := by exact_mod_cast Finset.card_pos.mpr hI
  have hlp : ∀ j, MemLp (fun ω => runMean (fun i => g (U i ω)) j) 2 P := fun j => runMean_memLp hU hg hB j
  have hsum : MemLp (fun ω => (∑ j ∈ I, runMean (fun i => g (U i ω)) j) / I.card) 2 P := by
    simp only [div_eq_inv_mul]
    exact (memLp_finsetSum I fun j _ => hlp j).const_mul _
  refine ⟨?_, ?_, hsum⟩
  · rw [integral_div, integral_finsetSum _ fun j _ => (hlp j).integrable one_le_two]
    rw [Finset.sum_congr rfl fun j hj => runMean_integral hU hg hB j (hm.trans (hIm j hj)), Finset.sum_const, nsmul_eq_mul]
    field_simp
  · have hgv0 : 0 ≤ gvar g := integral_nonneg fun u => sq_nonneg _
    have hsq : ∀ j, Integrable (fun ω => (runMean (fun i => g (U i ω)) j - gmean g) ^ 2) P := fun j => by
      have := ((hlp j).sub (memLp_const (gmean g))).integrable_sq
      simpa only [Pi.sub_apply] using this
    have hi : Integrable (fun ω => (∑ j ∈ I, (runMean (fun i => g (U i ω)) j - gmean g) ^ 2) / I.card) P := (integrable_finsetSum I fun j _ => hsq j).div_const _
    have hle : ∫ ω, ((∑ j ∈ I, runMean (fun i => g (U i ω)) j) / I.card - gmean g) ^ 2 ∂P ≤ ∫ ω, (∑ j ∈ I, (runMean (fun i => g (U i ω)) j - gmean g) ^ 2) / I.card ∂P := by
      refine integral_mono ?_ hi fun ω => ?_
      · have := (hsum.sub (memLp_const (gmean g))).integrable_sq
        simpa only [Pi.sub_apply] using this
      · simp only
        have e : (∑ j ∈ I, runMean (fun i => g (U i ω)) j) / I.card - gmean g = (∑ j ∈ I, (runMean (fun i => g (U i ω)) j - gmean g)) / I.card := by
          rw [Finset.sum_sub_distrib, Finset.sum_const, nsmul_eq_mul]
          field_simp
        rw [e, div_pow, div_le_div_iff₀ (by positivity) hc]
        have := sq_sum_le_card_mul_sum_sq (s := I) (f := fun j => runMean (fun i => g (U i ω)) j - gmean g)
        nlinarith
    refine hle.trans ?_
    rw [integral_div, integral_finsetSum _ fun j _ => hsq j, div_le_iff₀ hc]
    calc ∑ j ∈ I, ∫ ω, (runMean (fun i => g (U i ω)) j - gmean g) ^ 2 ∂P ≤ ∑ j ∈ I, gvar g / m := Finset.sum_le_sum fun j hj => by
          rw [runMean_sq hU hg hB j (hm.trans (hIm j hj))]
          have : (m : ℝ) ≤ j := by exact_mod_cast hIm j hj
          have hm0 : (0 : ℝ) < m := by exact_mod_cast hm
          gcongr
      _ = gvar g / m * I.card := by rw [Finset.sum_const, nsmul_eq_mul, mul_comm]

end

end Draws
end RMT
