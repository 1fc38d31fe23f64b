import Verif.Lemmas.SampleSize
import Verif.Spec.IndependentDraws
import Mathlib.Probability.Moments.SubGaussian

/-!
# Exponential bounds for means and variances of finitely many samples (Hoeffding's inequality)
-/

namespace RMT
namespace Draws
open Spec MeasureTheory ProbabilityTheory Rigidity Real

section
variable {Ω : Type} [MeasurableSpace Ω] {P : Measure Ω} [IsProbabilityMeasure P] {U : Nat → Ω → ℝ}
variable (hU : IndependentDraws P U) {g : ℝ → ℝ} (hg : Measurable g) {a b : ℝ} (hab : ∀ u ∈ Set.Ico (0 : ℝ) 1, g u ∈ Set.Icc a b)
include hU hg

omit [IsProbabilityMeasure P] in
theorem indep_integral (j : ℕ) : ∫ ω, g (U j ω) ∂P = gmean g := by
  unfold gmean
  rw [← hU.law j, integral_map (hU.measurable j).aemeasurable hg.aestronglyMeasurable]

omit [IsProbabilityMeasure P] hg in
include hab in
theorem ae_range (j : ℕ) : ∀ᵐ ω ∂P, g (U j ω) ∈ Set.Icc a b := by
  have h1 : ∀ᵐ u ∂(P.map (U j)), u ∈ Set.Ico (0 : ℝ) 1 := by
    rw [hU.law j]
    exact ae_restrict_mem measurableSet_Ico
  have h2 := ae_of_ae_map (hU.measurable j).aemeasurable h1
  filter_upwards [h2] with ω hω using hab _ hω

include hab in
theorem draw_subgaussian (j : ℕ) : HasSubgaussianMGF (fun ω => g (U j ω) - gmean g) ((‖b - a‖₊ / 2) ^ 2) P := by
  have := hasSubgaussianMGF_of_mem_Icc (μ := P) (X := fun ω => g (U j ω)) (hg.comp (hU.measurable j)).aemeasurable (ae_range hU hab j)
  rwa [indep_integral hU hg] at this

include hab in
/-- Hoeffding's inequality for a weighted sum. -/
theorem weighted_tail (n : ℕ) (w : ℕ → ℝ) (m : ℝ) (hm : 0 < m) (hw0 : 0 < ∑ i ∈ Finset.range n, w i ^ 2) (hw : ∑ i ∈ Finset.range n, w i ^ 2 ≤ 1 / m) (t : ℝ) (ht : 0 ≤ t) :
    P.real {ω | t ≤ ∑ i ∈ Finset.range n, w i * (g (U i ω) - gmean g)} ≤ exp (-2 * m * t ^ 2 / (b - a) ^ 2) := by
  have hind : iIndepFun (fun i ω => w i * (g (U i ω) - gmean g)) P := hU.indep.comp (fun i u => w i * (g u - gmean g)) fun i => (hg.sub_const _).const_mul _
  have hs : ∀ i ∈ Finset.range n, HasSubgaussianMGF (fun ω => w i * (g (U i ω) - gmean g)) (Real.toNNReal (w i ^ 2) * (‖b - a‖₊ / 2) ^ 2) P := fun i _ => by
    have := (draw_subgaussian hU hg hab i).const_mul (w i)
    rw [Real.toNNReal_of_nonneg (sq_nonneg (w i))]
    exact this
  refine (HasSubgaussianMGF.measure_sum_ge_le_of_iIndepFun hind hs ht).trans ?_
  rw [exp_le_exp]
  push_cast
  have e : ∑ i ∈ Finset.range n, (max (w i ^ 2) 0) * (‖b - a‖ / 2) ^ 2 = (∑ i ∈ Finset.range n, w i ^ 2) * ((b - a) ^ 2 / 4) := by
    rw [Finset.sum_mul]
    refine Finset.sum_congr rfl fun i _ => ?_
    rw [Real.norm_eq_abs, div_pow, sq_abs, max_eq_left (sq_nonneg _)]
    norm_num
  simp only [Real.coe_toNNReal', e]
  generalize ∑ i ∈ Finset.range n, w i ^ 2 = S at *
  by_cases h0 : (b - a) ^ 2 = 0
  · rw [h0]; simp
  · have hp : 0 < (b - a) ^ 2 := lt_of_le_of_ne (sq_nonneg _) (Ne.symm h0)
    have hSm : S * m ≤ 1 := by rwa [le_div_iff₀ hm] at hw
    rw [div_le_div_iff₀ (by positivity) hp]
    have : 0 ≤ t ^ 2 * (b - a) ^ 2 := by positivity
    nlinarith

include hab in
/-- Both tails. -/
theorem weighted_tails (n : ℕ) (w : ℕ → ℝ) (m : ℝ) (hm : 0 < m) (hw0 : 0 < ∑ i ∈ Finset.range n, w i ^ 2) (hw : ∑ i ∈ Finset.range n, w i ^ 2 ≤ 1 / m) (t : ℝ) (ht : 0 ≤ t) :
    P.real {ω | t ≤ |∑ i ∈ Finset.range n, w i * (g (U i ω) - gmean g)|} ≤ 2 * exp (-2 * m * t ^ 2 / (b - a) ^ 2) := by
  have h1 := weighted_tail hU hg hab n w m hm hw0 hw t ht
  have h2 := weighted_tail hU hg hab n (fun i => - w i) m hm (by simpa using hw0) (by simpa using hw) t ht
  have hsub : {ω | t ≤ |∑ i ∈ Finset.range n, w i * (g (U i ω) - gmean g)|} ⊆ {ω | t ≤ ∑ i ∈ Finset.range n, w i * (g (U i ω) - gmean g)} ∪ {ω | t ≤ ∑ i ∈ Finset.range n, -w i * (g (U i ω) - gmean g)} := by
    intro ω hω
    have hω' : t ≤ |∑ i ∈ Finset.range n, w i * (g (U i ω) - gmean g)| := hω
    rcases le_abs.mp hω' with h | h
    · exact Or.inl h
    · right
      show t ≤ _
      simp only [neg_mul, Finset.sum_neg_distrib]
      exact h
  have := (measureReal_mono hsub).trans (measureReal_union_le (μ := P) _ _)
  linarith

include hab in
/-- The mean of `k` samples. -/
theorem runMean_tails (k : ℕ) (hk : 1 ≤ k) (t : ℝ) (ht : 0 ≤ t) :
    P.real {ω | t ≤ |runMean (fun j => g (U j ω)) k - gmean g|} ≤ 2 * exp (-2 * k * t ^ 2 / (b - a) ^ 2) := by
  have hk0 : (0 : ℝ) < k := by exact_mod_cast hk
  have hs : ∑ _i ∈ Finset.range k, ((1 : ℝ) / k) ^ 2 = 1 / k := by
    rw [Finset.sum_const, Finset.card_range, nsmul_eq_mul]
    field_simp
  have := weighted_tails hU hg hab k (fun _ => 1 / k) k hk0 (by rw [hs]; positivity) hs.le t ht
  have e : ∀ ω, ∑ i ∈ Finset.range k, 1 / (k : ℝ) * (g (U i ω) - gmean g) = runMean (fun j => g (U j ω)) k - gmean g := fun ω => by
    rw [← Finset.mul_sum, Finset.sum_sub_distrib, Finset.sum_const, Finset.card_range, nsmul_eq_mul, runMean]
    field_simp
  simpa only [e] using this

include hab in
/-- An average of running means of length at least `m`. -/
theorem means_tails (I : Finset ℕ) (hI : I.Nonempty) (m : ℕ) (hm : 1 ≤ m) (hIm : ∀ j ∈ I, m ≤ j) (t : ℝ) (ht : 0 ≤ t) :
    P.real {ω | t ≤ |(∑ j ∈ I, runMean (fun i => g (U i ω)) j) / I.card - gmean g|} ≤ 2 * exp (-2 * m * t ^ 2 / (b - a) ^ 2) := by
  have hc : (0 : ℝ) < I.card := by exact_mod_cast Finset.card_pos.mpr hI
  have hm0 : (0 : ℝ) < m := by exact_mod_cast hm
  obtain ⟨n, hn⟩ : ∃ n, ∀ j ∈ I, j ≤ n := ⟨I.sup id, fun j hj => Finset.le_sup (f := id) hj⟩
  set w : ℕ → ℝ := fun i => (∑ j ∈ I, if i < j then 1 / (j : ℝ) else 0) / I.card with hw
  have hj0 : ∀ j ∈ I, (0 : ℝ) < j := fun j hj => by exact_mod_cast lt_of_lt_of_le hm (hIm j hj)
  have hrow : ∀ (j : ℕ), j ∈ I → ∀ f : ℕ → ℝ, ∑ i ∈ Finset.range n, (if i < j then f i else 0) = ∑ i ∈ Finset.range j, f i := by
    intro j hj f
    rw [← Finset.sum_filter]
    congr 1
    ext i
    have := hn j hj
    simp only [Finset.mem_filter, Finset.mem_range]
    omega
  -- the weighted sum
  have e : ∀ ω, ∑ i ∈ Finset.range n, w i * (g (U i ω) - gmean g) = (∑ j ∈ I, runMean (fun i => g (U i ω)) j) / I.card - gmean g := by
    intro ω
    have e1 : ∑ i ∈ Finset.range n, w i * (g (U i ω) - gmean g) = (∑ j ∈ I, ∑ i ∈ Finset.range n, if i < j then 1 / (j : ℝ) * (g (U i ω) - gmean g) else 0) / I.card := by
      rw [Finset.sum_comm, Finset.sum_div]
      refine Finset.sum_congr rfl fun i _ => ?_
      rw [hw]
      simp only
      rw [div_mul_eq_mul_div, Finset.sum_mul]
      congr 1
      refine Finset.sum_congr rfl fun j _ => ?_
      rw [ite_mul, zero_mul]
    rw [e1, Finset.sum_congr rfl fun j hj => hrow j hj fun i => 1 / (j : ℝ) * (g (U i ω) - gmean g)]
    have e2 : ∀ j ∈ I, ∑ i ∈ Finset.range j, 1 / (j : ℝ) * (g (U i ω) - gmean g) = runMean (fun i => g (U i ω)) j - gmean g := fun j hj => by
      have := hj0 j hj
      rw [← Finset.mul_sum, Finset.sum_sub_distrib, Finset.sum_const, Finset.card_range, nsmul_eq_mul, runMean]
      field_simp
    rw [Finset.sum_congr rfl e2, Finset.sum_sub_distrib, Finset.sum_const, nsmul_eq_mul]
    field_simp
  -- the weights
  have hle : ∑ i ∈ Finset.range n, w i ^ 2 ≤ 1 / m := by
    have h1 : ∀ i, w i ^ 2 ≤ (∑ j ∈ I, if i < j then 1 / (j : ℝ) ^ 2 else 0) / I.card := by
      intro i
      rw [hw]
      simp only
      rw [div_pow, div_le_div_iff₀ (by positivity) hc]
      have := sq_sum_le_card_mul_sum_sq (s := I) (f := fun j => if i < j then 1 / (j : ℝ) else 0)
      have h2 : ∑ j ∈ I, (if i < j then 1 / (j : ℝ) else 0) ^ 2 = ∑ j ∈ I, if i < j then 1 / (j : ℝ) ^ 2 else 0 := Finset.sum_congr rfl fun j _ => by
        split_ifs
        · rw [div_pow, one_pow]
        · norm_num
      rw [h2] at this
      nlinarith
    refine (Finset.sum_le_sum fun i _ => h1 i).trans ?_
    rw [← Finset.sum_div, Finset.sum_comm, Finset.sum_congr rfl fun j hj => hrow j hj fun _ => 1 / (j : ℝ) ^ 2, div_le_iff₀ hc]
    calc ∑ j ∈ I, ∑ _i ∈ Finset.range j, 1 / (j : ℝ) ^ 2 ≤ ∑ j ∈ I, 1 / (m : ℝ) := Finset.sum_le_sum fun j hj => by
          have := hj0 j hj
          rw [Finset.sum_const, Finset.card_range, nsmul_eq_mul]
          have e3 : (j : ℝ) * (1 / (j : ℝ) ^ 2) = 1 / j := by field_simp
          rw [e3]
          exact one_div_le_one_div_of_le hm0 (by exact_mod_cast hIm j hj)
      _ = 1 / m * I.card := by rw [Finset.sum_const, nsmul_eq_mul, mul_comm]
  have hpos : 0 < ∑ i ∈ Finset.range n, w i ^ 2 := by
    obtain ⟨j, hj⟩ := hI
    have hn0 : 0 < n := lt_of_lt_of_le (lt_of_lt_of_le hm (hIm j hj)) (hn j hj)
    have hw0 : 0 < w 0 := by
      rw [hw]
      refine div_pos (Finset.sum_pos (fun j hj => ?_) ⟨j, hj⟩) hc
      have := hIm j hj
      have := hj0 j hj
      rw [if_pos (by omega)]
      positivity
    exact lt_of_lt_of_le (by positivity) (Finset.single_le_sum (f := fun i => w i ^ 2) (fun i _ => sq_nonneg _) (Finset.mem_range.mpr hn0))
  have := weighted_tails hU hg hab n w m hm0 hpos hle t ht
  simpa only [e] using this

omit hU hg in
include hab in
theorem gmean_range (hg : Measurable g) : gmean g ∈ Set.Icc a b := by
  have hi : IntegrableOn g (Set.Ico (0 : ℝ) 1) := by
    refine Integrable.of_bound hg.aestronglyMeasurable (max |a| |b|) ?_
    filter_upwards [ae_restrict_mem measurableSet_Ico] with u hu
    rw [Real.norm_eq_abs]
    exact abs_le_max_abs_abs (hab u hu).1 (hab u hu).2
  unfold gmean
  constructor
  · have := setIntegral_mono_on (integrable_const a) hi measurableSet_Ico fun u hu => (hab u hu).1
    simpa using this
  · have := setIntegral_mono_on hi (integrable_const b) measurableSet_Ico fun u hu => (hab u hu).2
    simpa using this

/-- The variance of `k` samples between `0` and `K`. -/
theorem runVar_tails (K : ℝ) (hK : ∀ u ∈ Set.Ico (0 : ℝ) 1, g u ∈ Set.Icc 0 K) (k : ℕ) (hk : 1 ≤ k) (t : ℝ) (ht : 0 < t) :
    P.real {ω | t ≤ |runVar (fun j => g (U j ω)) k - gvar g|} ≤ 4 * exp (-k * t ^ 2 / (2 * K ^ 4)) := by
  have hk0 : (0 : ℝ) < k := by exact_mod_cast hk
  obtain ⟨m0, m1⟩ := gmean_range hK hg
  have hK0 : 0 ≤ K := m0.trans m1
  set h : ℝ → ℝ := fun u => (g u - gmean g) ^ 2 with hh
  have hhm : Measurable h := (hg.sub_const _).pow_const 2
  have sqr : ∀ x y : ℝ, x ∈ Set.Icc 0 K → y ∈ Set.Icc 0 K → (x - y) ^ 2 ∈ Set.Icc 0 (K ^ 2) := fun x y hx hy =>
    ⟨sq_nonneg _, sq_le_sq' (by linarith [hx.1, hy.2]) (by linarith [hx.2, hy.1])⟩
  have hhr : ∀ u ∈ Set.Ico (0 : ℝ) 1, h u ∈ Set.Icc 0 (K ^ 2) := fun u hu => sqr _ _ (hK u hu) ⟨m0, m1⟩
  have hgv : gmean h = gvar g := rfl
  obtain ⟨v0, v1⟩ := gmean_range hhr hhm
  rw [hgv] at v0 v1
  by_cases hbig : 2 * K ^ 2 < t
  · -- such errors do not occur
    have hz : P.real {ω | t ≤ |runVar (fun j => g (U j ω)) k - gvar g|} = 0 := by
      rw [measureReal_def, ENNReal.toReal_eq_zero_iff]
      left
      have hae : ∀ᵐ ω ∂P, ∀ j, g (U j ω) ∈ Set.Icc 0 K := ae_all_iff.mpr fun j => ae_range hU hK j
      have : ∀ᵐ ω ∂P, ¬ t ≤ |runVar (fun j => g (U j ω)) k - gvar g| := by
        filter_upwards [hae] with ω hω
        have hm : runMean (fun j => g (U j ω)) k ∈ Set.Icc 0 K := by
          unfold runMean
          constructor
          · exact div_nonneg (Finset.sum_nonneg fun j _ => (hω j).1) hk0.le
          · rw [div_le_iff₀ hk0]
            refine (Finset.sum_le_sum fun j _ => (hω j).2).trans (le_of_eq ?_)
            rw [Finset.sum_const, Finset.card_range, nsmul_eq_mul, mul_comm]
        have hv : runVar (fun j => g (U j ω)) k ∈ Set.Icc 0 (K ^ 2) := by
          unfold runVar
          constructor
          · exact div_nonneg (Finset.sum_nonneg fun j _ => sq_nonneg _) hk0.le
          · rw [div_le_iff₀ hk0]
            refine (Finset.sum_le_sum fun j _ => (sqr _ _ (hω j) hm).2).trans (le_of_eq ?_)
            rw [Finset.sum_const, Finset.card_range, nsmul_eq_mul, mul_comm]
        rw [not_le, abs_lt]
        constructor <;> nlinarith [hv.1, hv.2, sq_nonneg K]
      exact measure_eq_zero_iff_ae_notMem.mpr (by filter_upwards [this] with ω hω using hω)
    rw [hz]
    positivity
  · have h1 := runMean_tails hU hhm hhr k hk (t / 2) (by positivity)
    have h2 := runMean_tails hU hg hK k hk (√(t / 2)) (Real.sqrt_nonneg _)
    rw [hgv, sub_zero] at h1
    rw [Real.sq_sqrt (by positivity), sub_zero] at h2
    have e1 : -2 * (k : ℝ) * (t / 2) ^ 2 / (K ^ 2) ^ 2 = -k * t ^ 2 / (2 * K ^ 4) := by
      rw [show (K ^ 2) ^ 2 = K ^ 4 by ring]
      by_cases h0 : K ^ 4 = 0
      · rw [h0]; simp
      · field_simp
    have e2 : -2 * (k : ℝ) * (t / 2) / K ^ 2 ≤ -k * t ^ 2 / (2 * K ^ 4) := by
      rcases hK0.eq_or_lt with h0 | h0
      · rw [← h0]; simp
      · rw [div_le_div_iff₀ (by positivity) (by positivity)]
        have a1 : 0 ≤ (k : ℝ) * t * K ^ 2 := by positivity
        have a2 : 0 ≤ 2 * K ^ 2 - t := by linarith
        have := mul_nonneg a1 a2
        nlinarith
    rw [e1] at h1
    have h3 := h2.trans (mul_le_mul_of_nonneg_left (exp_le_exp.mpr e2) zero_le_two)
    have hsub : {ω | t ≤ |runVar (fun j => g (U j ω)) k - gvar g|} ⊆ {ω | t / 2 ≤ |runMean (fun j => h (U j ω)) k - gvar g|} ∪ {ω | √(t / 2) ≤ |runMean (fun j => g (U j ω)) k - gmean g|} := by
      intro ω hω
      have hω' : t ≤ |runVar (fun j => g (U j ω)) k - gvar g| := hω
      by_contra hn
      rw [Set.mem_union, not_or] at hn
      obtain ⟨n1, n2⟩ := hn
      have n1' : |runMean (fun j => h (U j ω)) k - gvar g| < t / 2 := not_le.mp n1
      have n2' : |runMean (fun j => g (U j ω)) k - gmean g| < √(t / 2) := not_le.mp n2
      rw [runVar_split _ (gmean g) k hk] at hω'
      have n3 : (runMean (fun j => g (U j ω)) k - gmean g) ^ 2 < t / 2 := by
        rw [← sq_abs, ← Real.sq_sqrt (show 0 ≤ t / 2 by positivity)]
        exact pow_lt_pow_left₀ n2' (abs_nonneg _) two_ne_zero
      have n4 := abs_lt.mp n1'
      have n5 : t ≤ |runMean (fun j => h (U j ω)) k - (runMean (fun j => g (U j ω)) k - gmean g) ^ 2 - gvar g| := hω'
      have n6 := sq_nonneg (runMean (fun j => g (U j ω)) k - gmean g)
      rcases le_abs.mp n5 with h | h <;> linarith [n4.1, n4.2]
    have := (measureReal_mono hsub).trans (measureReal_union_le (μ := P) _ _)
    linarith

end

variable {Ω : Type} [MeasurableSpace Ω] {P : Measure Ω}

/-! ### Unions -/

theorem geometric_tail [IsFiniteMeasure P] (A : ℕ → Set Ω) (C c : ℝ) (hC : 0 ≤ C) (hc : 0 < c) (m : ℕ) (h : ∀ k ≥ m, P.real (A k) ≤ C * exp (-c * k)) :
    P {ω | ∃ k ≥ m, ω ∈ A k} ≤ ENNReal.ofReal (C * (1 + 1 / c) * exp (-c * m)) := by
  have hr0 : 0 ≤ exp (-c) := (exp_pos _).le
  have hr1 : exp (-c) < 1 := by rw [exp_lt_one_iff]; linarith
  have e : ∀ j : ℕ, C * exp (-c * ((m + j : ℕ) : ℝ)) = C * exp (-c * m) * exp (-c) ^ j := fun j => by
    rw [← Real.exp_nat_mul, mul_assoc, ← exp_add]
    congr 2
    push_cast
    ring
  have hsub : {ω | ∃ k ≥ m, ω ∈ A k} ⊆ ⋃ j : ℕ, A (m + j) := by
    rintro ω ⟨k, hk, hω⟩
    exact Set.mem_iUnion.mpr ⟨k - m, by rw [Nat.add_sub_cancel' hk]; exact hω⟩
  have hsum : Summable fun j : ℕ => C * exp (-c * m) * exp (-c) ^ j := (summable_geometric_of_lt_one hr0 hr1).mul_left _
  have hle : ∀ j : ℕ, P (A (m + j)) ≤ ENNReal.ofReal (C * exp (-c * m) * exp (-c) ^ j) := fun j => by
    rw [← e j, ← ofReal_measureReal]
    exact ENNReal.ofReal_le_ofReal (h _ (by omega))
  refine (measure_mono hsub).trans ((measure_iUnion_le _).trans ((ENNReal.tsum_le_tsum hle).trans ?_))
  rw [← ENNReal.ofReal_tsum_of_nonneg (fun j => by positivity) hsum, tsum_mul_left, tsum_geometric_of_lt_one hr0 hr1]
  apply ENNReal.ofReal_le_ofReal
  have h1 : (1 - exp (-c))⁻¹ ≤ 1 + 1 / c := by
    have hexp : exp (-c) ≤ 1 / (1 + c) := by
      rw [exp_neg, one_div]
      exact inv_anti₀ (by linarith) (by linarith [add_one_le_exp c])
    rw [inv_le_comm₀ (by linarith) (by positivity)]
    have : (1 + 1 / c)⁻¹ = 1 - 1 / (1 + c) := by field_simp; ring
    rw [this]
    linarith
  calc C * exp (-c * m) * (1 - exp (-c))⁻¹ ≤ C * exp (-c * m) * (1 + 1 / c) := mul_le_mul_of_nonneg_left h1 (by positivity)
    _ = _ := by ring

theorem finite_union (n : ℕ) (A : ℕ → Set Ω) (B : ℝ) (h : ∀ i < n, P (A i) ≤ ENNReal.ofReal B) : P {ω | ∃ i < n, ω ∈ A i} ≤ ENNReal.ofReal (n * B) := by
  have hsub : {ω | ∃ i < n, ω ∈ A i} ⊆ ⋃ i ∈ Finset.range n, A i := by
    rintro ω ⟨i, hi, hω⟩
    exact Set.mem_biUnion (Finset.mem_coe.mpr (Finset.mem_range.mpr hi)) hω
  refine (measure_mono hsub).trans ((measure_biUnion_finset_le _ _).trans ((Finset.sum_le_sum fun i hi => h i (Finset.mem_range.mp hi)).trans ?_))
  rw [Finset.sum_const, Finset.card_range, nsmul_eq_mul, ENNReal.ofReal_mul (Nat.cast_nonneg n), ENNReal.ofReal_natCast]

end Draws
end RMT
