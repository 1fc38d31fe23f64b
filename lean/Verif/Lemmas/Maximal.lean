import Verif.Spec.IndependentDraws
import Verif.Lemmas.SampleSize
import Mathlib.Probability.Martingale.OptionalStopping
import Mathlib.Probability.BorelCantelli

/-!
# Kolmogorov's inequality, and a bound for all running means at once
-/

namespace RMT
namespace Draws
open Spec MeasureTheory ProbabilityTheory Rigidity Real

variable {Ω : Type} [MeasurableSpace Ω] {P : Measure Ω} [IsProbabilityMeasure P] {U : Nat → Ω → ℝ}

omit [IsProbabilityMeasure P] in
theorem IndependentDraws.uniform (h : IndependentDraws P U) : UniformDraws P U :=
  ⟨h.measurable, fun _ _ hij => h.indep.indepFun hij, h.law⟩

/-- Squares of sums of independent centred variables form a submartingale. -/
theorem sq_submartingale (X : ℕ → Ω → ℝ) (hX : ∀ j, StronglyMeasurable (X j)) (hi : iIndepFun X P) (h2 : ∀ j, MemLp (X j) 2 P) (h0 : ∀ j, ∫ ω, X j ω ∂P = 0) :
    Submartingale (fun n ω => (∑ j ∈ Finset.range (n + 1), X j ω) ^ 2) (Filtration.natural X hX) P := by
  have hadj : ∀ n j, j ≤ n → StronglyMeasurable[Filtration.natural X hX n] (X j) := fun n j hj =>
    (Filtration.stronglyAdapted_natural hX j).mono ((Filtration.natural X hX).mono hj)
  have hS : ∀ n, StronglyMeasurable[Filtration.natural X hX n] (fun ω => ∑ j ∈ Finset.range (n + 1), X j ω) := fun n =>
    Finset.stronglyMeasurable_fun_sum _ fun j hj => hadj n j (by have := Finset.mem_range.mp hj; omega)
  have hS2 : ∀ n, MemLp (fun ω => ∑ j ∈ Finset.range n, X j ω) 2 P := fun n => memLp_finsetSum _ fun j _ => h2 j
  refine submartingale_of_setIntegral_le_succ (fun n => (hS n).pow 2) (fun n => (hS2 (n + 1)).integrable_sq) fun n s hs => ?_
  have hs' : MeasurableSet s := (Filtration.natural X hX).le n s hs
  set S : Ω → ℝ := fun ω => ∑ j ∈ Finset.range (n + 1), X j ω with hSd
  have e : ∀ ω, (∑ j ∈ Finset.range (n + 1 + 1), X j ω) ^ 2 = S ω ^ 2 + (2 * (S ω * X (n + 1) ω) + X (n + 1) ω ^ 2) := fun ω => by
    rw [Finset.sum_range_succ]
    simp only [hSd]
    ring
  simp only [e]
  have i1 : Integrable (fun ω => S ω ^ 2) P := (hS2 (n + 1)).integrable_sq
  have i2 : Integrable (fun ω => X (n + 1) ω ^ 2) P := (h2 (n + 1)).integrable_sq
  have i3 : Integrable (fun ω => S ω * X (n + 1) ω) P := (hS2 (n + 1)).integrable_mul (h2 (n + 1))
  have i4 : Integrable (fun ω => 2 * (S ω * X (n + 1) ω) + X (n + 1) ω ^ 2) P := (i3.const_mul 2).add i2
  rw [integral_add i1.integrableOn i4.integrableOn, integral_add (i3.const_mul 2).integrableOn i2.integrableOn]
  have hz : ∫ ω in s, 2 * (S ω * X (n + 1) ω) ∂P = 0 := by
    rw [integral_const_mul, ← integral_indicator hs']
    have e2 : s.indicator (fun ω => S ω * X (n + 1) ω) = fun ω => s.indicator S ω * X (n + 1) ω := by
      funext ω
      by_cases h : ω ∈ s <;> simp [h]
    rw [e2]
    have hind : IndepFun (s.indicator S) (X (n + 1)) P := by
      have := hi.indep_comap_natural_of_lt hX (Nat.lt_succ_self n)
      rw [IndepFun_iff_Indep]
      refine indep_of_indep_of_le_left this.symm ?_
      exact ((hS n).indicator hs).measurable.comap_le
    have := hind.integral_mul_eq_mul_integral (((hS2 (n + 1)).aestronglyMeasurable).indicator hs') (h2 (n + 1)).aestronglyMeasurable
    simp only [Pi.mul_apply] at this
    have h3 : ∫ ω, s.indicator S ω * X (n + 1) ω ∂P = 0 := by
      rw [this, h0, mul_zero]
    rw [h3, mul_zero]
  have hp : 0 ≤ ∫ ω in s, X (n + 1) ω ^ 2 ∂P := integral_nonneg fun ω => sq_nonneg _
  linarith

/-- Kolmogorov's inequality. -/
theorem kolmogorov (X : ℕ → Ω → ℝ) (hX : ∀ j, StronglyMeasurable (X j)) (hi : iIndepFun X P) (h2 : ∀ j, MemLp (X j) 2 P) (h0 : ∀ j, ∫ ω, X j ω ∂P = 0) (v : ℝ) (hv : ∀ j, ∫ ω, X j ω ^ 2 ∂P = v) (n : ℕ) (t : ℝ) (ht : 0 < t) :
    P {ω | ∃ k ≤ n, t ≤ |∑ j ∈ Finset.range k, X j ω|} ≤ ENNReal.ofReal (n * v / t ^ 2) := by
  rcases Nat.eq_zero_or_pos n with rfl | hn
  · have : {ω | ∃ k ≤ 0, t ≤ |∑ j ∈ Finset.range k, X j ω|} = ∅ := by
      ext ω
      simp [ht]
    rw [this]
    simp
  obtain ⟨n, rfl⟩ : ∃ m, n = m + 1 := ⟨n - 1, by omega⟩
  have hsub := sq_submartingale X hX hi h2 h0
  have hS2 : ∀ n, MemLp (fun ω => ∑ j ∈ Finset.range n, X j ω) 2 P := fun n => memLp_finsetSum _ fun j _ => h2 j
  have hvar : ∫ ω, (∑ j ∈ Finset.range (n + 1), X j ω) ^ 2 ∂P = (n + 1 : ℕ) * v := by
    have hz : ∫ ω, ∑ j ∈ Finset.range (n + 1), X j ω ∂P = 0 := by
      rw [integral_finsetSum _ fun j _ => (h2 j).integrable one_le_two]
      simp [h0]
    have hV := IndepFun.variance_sum (X := X) (s := Finset.range (n + 1)) (fun j _ => h2 j) fun i _ j _ hij => hi.indepFun hij
    have e1 : Var[∑ j ∈ Finset.range (n + 1), X j; P] = ∫ ω, (∑ j ∈ Finset.range (n + 1), X j ω) ^ 2 ∂P := by
      have e0 : (∑ j ∈ Finset.range (n + 1), X j) = fun ω => ∑ j ∈ Finset.range (n + 1), X j ω := by
        funext ω
        simp
      rw [e0, variance_of_integral_eq_zero (hS2 (n + 1)).aemeasurable hz]
    have e2 : ∀ j, Var[X j; P] = v := fun j => by
      rw [variance_of_integral_eq_zero (h2 j).aemeasurable (h0 j), hv]
    rw [e1] at hV
    rw [hV]
    simp [e2]
  set ε : NNReal := ⟨t ^ 2, sq_nonneg t⟩ with hε
  have key := maximal_ineq hsub (fun k ω => sq_nonneg _) (ε := ε) n
  set A := {ω | (ε : ℝ) ≤ (Finset.range (n + 1)).sup' Finset.nonempty_range_add_one fun k => (∑ j ∈ Finset.range (k + 1), X j ω) ^ 2} with hA
  have hle : ∫ ω in A, (∑ j ∈ Finset.range (n + 1), X j ω) ^ 2 ∂P ≤ (n + 1 : ℕ) * v := by
    rw [← hvar]
    exact setIntegral_le_integral (hS2 (n + 1)).integrable_sq (Filter.Eventually.of_forall fun ω => sq_nonneg _)
  have hincl : {ω | ∃ k ≤ n + 1, t ≤ |∑ j ∈ Finset.range k, X j ω|} ⊆ A := by
    rintro ω ⟨k, hk, h⟩
    have hk0 : k ≠ 0 := by
      rintro rfl
      simp at h
      linarith
    obtain ⟨k, rfl⟩ : ∃ m, k = m + 1 := ⟨k - 1, by omega⟩
    show (ε : ℝ) ≤ _
    have h1 : (ε : ℝ) ≤ (∑ j ∈ Finset.range (k + 1), X j ω) ^ 2 := by
      rw [← sq_abs (∑ j ∈ Finset.range (k + 1), X j ω)]
      exact pow_le_pow_left₀ ht.le h 2
    exact h1.trans (Finset.le_sup' (fun k => (∑ j ∈ Finset.range (k + 1), X j ω) ^ 2) (Finset.mem_range.mpr (by omega)))
  refine (measure_mono hincl).trans ?_
  have hε0 : (ε : ENNReal) = ENNReal.ofReal (t ^ 2) := by
    rw [ENNReal.ofReal, hε]
    congr 1
    ext
    rw [Real.coe_toNNReal _ (sq_nonneg t)]
    rfl
  have h3 := key.trans (ENNReal.ofReal_le_ofReal hle)
  rw [hε0] at h3
  rw [ENNReal.ofReal_div_of_pos (by positivity), ENNReal.le_div_iff_mul_le (Or.inl (by simpa using ht.ne')) (Or.inl ENNReal.ofReal_ne_top), mul_comm]
  exact h3

/-- All running means of length at least `m` at once. -/
theorem runMean_maximal (hU : IndependentDraws P U) {g : ℝ → ℝ} (hg : Measurable g) {B : ℝ} (hB : ∀ x, |g x| ≤ B) (m : ℕ) (hm : 1 ≤ m) (t : ℝ) (ht : 0 < t) :
    P {ω | ∃ k ≥ m, t ≤ |runMean (fun j => g (U j ω)) k - gmean g|} ≤ ENNReal.ofReal (4 * gvar g / (m * t ^ 2)) := by
  have hu := IndependentDraws.uniform hU
  set X : ℕ → Ω → ℝ := fun j ω => g (U j ω) - gmean g with hXd
  have hX : ∀ j, StronglyMeasurable (X j) := fun j => ((hg.comp (hU.measurable j)).sub_const _).stronglyMeasurable
  have hi : iIndepFun X P := hU.indep.comp (fun _ u => g u - gmean g) fun _ => hg.sub_const _
  have h2 : ∀ j, MemLp (X j) 2 P := fun j => (draw_memLp hu hg hB j).sub (memLp_const _)
  have h0 : ∀ j, ∫ ω, X j ω ∂P = 0 := fun j => by
    simp only [hXd]
    rw [integral_sub ((draw_memLp hu hg hB j).integrable one_le_two) (integrable_const _), draw_integral hu hg]
    simp
  have hv : ∀ j, ∫ ω, X j ω ^ 2 ∂P = gvar g := fun j => draw_integral hu (g := fun u => (g u - gmean g) ^ 2) ((hg.sub_const _).pow_const 2) j
  have hgv0 : 0 ≤ gvar g := integral_nonneg fun u => sq_nonneg _
  have hm0 : (0 : ℝ) < m := by exact_mod_cast hm
  have hincl : {ω | ∃ k ≥ m, t ≤ |runMean (fun j => g (U j ω)) k - gmean g|} ⊆ ⋃ i : ℕ, {ω | ∃ k ≤ m * 2 ^ (i + 1), t * (m * 2 ^ i : ℕ) ≤ |∑ j ∈ Finset.range k, X j ω|} := by
    rintro ω ⟨k, hk, h⟩
    have hk1 : k / m ≠ 0 := by
      have := Nat.div_pos hk hm
      omega
    rw [Set.mem_iUnion]
    refine ⟨Nat.log 2 (k / m), k, ?_, ?_⟩
    · have := Nat.lt_pow_succ_log_self (by norm_num : 1 < 2) (k / m)
      have h5 := (Nat.div_lt_iff_lt_mul hm).mp this
      rw [mul_comm]
      exact h5.le
    · have hlow : m * 2 ^ Nat.log 2 (k / m) ≤ k := by
        have := Nat.pow_log_le_self 2 hk1
        calc m * 2 ^ Nat.log 2 (k / m) ≤ m * (k / m) := Nat.mul_le_mul_left _ this
          _ ≤ k := Nat.mul_div_le k m
      have hk0 : (0 : ℝ) < k := by
        have : 0 < k := by omega
        exact_mod_cast this
      have e : ∑ j ∈ Finset.range k, X j ω = k * (runMean (fun j => g (U j ω)) k - gmean g) := by
        simp only [hXd, Finset.sum_sub_distrib, Finset.sum_const, Finset.card_range, nsmul_eq_mul, runMean]
        field_simp
      rw [e, abs_mul, abs_of_pos hk0, mul_comm t]
      exact mul_le_mul (by exact_mod_cast hlow) h ht.le hk0.le
  refine (measure_mono hincl).trans ((measure_iUnion_le _).trans ?_)
  have hterm : ∀ i : ℕ, P {ω | ∃ k ≤ m * 2 ^ (i + 1), t * (m * 2 ^ i : ℕ) ≤ |∑ j ∈ Finset.range k, X j ω|} ≤ ENNReal.ofReal (2 * gvar g / (m * t ^ 2) * (1 / 2) ^ i) := fun i => by
    have := kolmogorov X hX hi h2 h0 (gvar g) hv (m * 2 ^ (i + 1)) (t * (m * 2 ^ i : ℕ)) (by positivity)
    refine this.trans (ENNReal.ofReal_le_ofReal (le_of_eq ?_))
    push_cast
    rw [pow_succ]
    have h2i : (2 : ℝ) ^ i ≠ 0 := by positivity
    rw [one_div, inv_pow]
    field_simp
  refine (ENNReal.tsum_le_tsum hterm).trans ?_
  rw [← ENNReal.ofReal_tsum_of_nonneg (fun i => by positivity) ((summable_geometric_of_lt_one (by norm_num) (by norm_num)).mul_left _), tsum_mul_left, tsum_geometric_of_lt_one (by norm_num) (by norm_num)]
  refine ENNReal.ofReal_le_ofReal (le_of_eq ?_)
  ring

/-- All sample variances of at least `m` samples at once. -/
theorem runVar_maximal (hU : IndependentDraws P U) {g : ℝ → ℝ} (hg : Measurable g) {B : ℝ} (hB : ∀ x, |g x| ≤ B) (K : ℝ) (hgK : ∀ u, |g u - gmean g| ≤ K) (m : ℕ) (hm : 1 ≤ m) (t : ℝ) (ht : 0 < t) :
    P {ω | ∃ k ≥ m, t ≤ |runVar (fun j => g (U j ω)) k - gvar g|} ≤ ENNReal.ofReal ((16 * K ^ 2 / t ^ 2 + 8 / t) * gvar g / m) := by
  set h : ℝ → ℝ := fun u => (g u - gmean g) ^ 2 with hh
  have hgm : Measurable h := (hg.sub_const _).pow_const 2
  have hhB := centred_bound hB
  have hmean : gmean h = gvar g := rfl
  have hgv0 : 0 ≤ gvar g := integral_nonneg fun u => sq_nonneg _
  have hm0 : (0 : ℝ) < m := by exact_mod_cast hm
  have hst : 0 < √(t / 2) := Real.sqrt_pos.mpr (by positivity)
  have hincl : {ω | ∃ k ≥ m, t ≤ |runVar (fun j => g (U j ω)) k - gvar g|} ⊆
      {ω | ∃ k ≥ m, t / 2 ≤ |runMean (fun j => h (U j ω)) k - gmean h|} ∪ {ω | ∃ k ≥ m, √(t / 2) ≤ |runMean (fun j => g (U j ω)) k - gmean g|} := by
    rintro ω ⟨k, hk, hω⟩
    rw [runVar_split _ (gmean g) k (hm.trans hk)] at hω
    by_cases hc : t / 2 ≤ |runMean (fun j => h (U j ω)) k - gmean h|
    · exact Or.inl ⟨k, hk, hc⟩
    · refine Or.inr ⟨k, hk, ?_⟩
      rw [not_le] at hc
      rw [← Real.sqrt_sq_eq_abs]
      refine Real.sqrt_le_sqrt ?_
      have e : runMean (fun j => (g (U j ω) - gmean g) ^ 2) k - (runMean (fun j => g (U j ω)) k - gmean g) ^ 2 - gvar g = (runMean (fun j => h (U j ω)) k - gmean h) - (runMean (fun j => g (U j ω)) k - gmean g) ^ 2 := by
        rw [hmean]
        simp only [hh]
        ring
      rw [e] at hω
      have := hω.trans (abs_sub _ _)
      rw [abs_of_nonneg (sq_nonneg (runMean (fun j => g (U j ω)) k - gmean g))] at this
      linarith
  refine (measure_mono hincl).trans ((measure_union_le _ _).trans ?_)
  have a1 := runMean_maximal hU hgm hhB m hm (t / 2) (by positivity)
  have a2 := runMean_maximal hU hg hB m hm (√(t / 2)) hst
  rw [Real.sq_sqrt (by positivity)] at a2
  have hgv := gvar_sq_le hg hB K hgK
  refine (add_le_add a1 a2).trans ?_
  have hgh0 : 0 ≤ gvar h := integral_nonneg fun u => sq_nonneg _
  rw [← ENNReal.ofReal_add (by positivity) (by positivity)]
  refine ENNReal.ofReal_le_ofReal ?_
  have b1 : 4 * gvar h / (m * (t / 2) ^ 2) ≤ 4 * (K ^ 2 * gvar g) / (m * (t / 2) ^ 2) := by gcongr
  refine (add_le_add b1 le_rfl).trans (le_of_eq ?_)
  field_simp
  ring

end Draws
end RMT
