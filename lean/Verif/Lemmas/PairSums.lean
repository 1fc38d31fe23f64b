import Verif.Lemmas.UniformLevels

/-!
# Sums of a local pair function over independent uniform levels: the variance is of the order of the number of levels
-/

namespace RMT
namespace UniformM
open MeasureTheory ProbabilityTheory Real Set Spec

variable {Ω : Type} [MeasurableSpace Ω]

/-- One if `x` and `y` are within `L` of each other, zero otherwise. -/
noncomputable def near (L x y : ℝ) : ℝ := if |x - y| ≤ L then 1 else 0

theorem near_comm (L x y : ℝ) : near L x y = near L y x := by
  unfold near
  rw [abs_sub_comm]

theorem near_nonneg (L x y : ℝ) : 0 ≤ near L x y := by
  unfold near
  split_ifs <;> norm_num

theorem near_le (L x y : ℝ) : near L x y ≤ 1 := by
  unfold near
  split_ifs <;> norm_num

theorem near_sq (L x y : ℝ) : near L x y ^ 2 = near L x y := by
  unfold near
  split_ifs <;> norm_num

theorem near_measurable (L : ℝ) : Measurable fun p : ℝ × ℝ => near L p.1 p.2 :=
  Measurable.ite (measurableSet_le (by fun_prop) measurable_const) measurable_const measurable_const

theorem near_integral (L n x : ℝ) (hL : 0 ≤ L) (hn : 0 ≤ n) : ∫ y in (0 : ℝ)..n, near L x y ≤ 2 * L := by
  have e : (fun y => near L x y) = (Icc (x - L) (x + L)).indicator 1 := by
    funext y
    simp only [near, indicator, mem_Icc, Pi.one_apply, abs_le]
    congr 1
    exact propext ⟨fun h => ⟨by linarith, by linarith⟩, fun h => ⟨by linarith, by linarith⟩⟩
  rw [e, intervalIntegral.integral_of_le hn, integral_indicator_one measurableSet_Icc, measureReal_restrict_apply measurableSet_Icc]
  have : volume.real (Icc (x - L) (x + L) ∩ Ioc 0 n) ≤ volume.real (Icc (x - L) (x + L)) := measureReal_mono inter_subset_left (by simp)
  refine this.trans ?_
  rw [volume_real_Icc]
  exact max_le (by linarith) (by linarith)

theorem near_second {P : Measure Ω} [IsProbabilityMeasure P] {n : ℝ} (hn : 0 < n) {Y : Nat → Ω → ℝ} (hY : UniformLevels P n Y) (N : Nat) (L : ℝ) (hL : 0 ≤ L) (x : ℝ) :
    ∫ ω, (∑ j ∈ Finset.range N, near L x (Y j ω)) ^ 2 ∂P ≤ N * (2 * L / n) + (N * (2 * L / n)) ^ 2 := by
  have hm : Measurable fun y => near L x y := (near_measurable L).comp (measurable_const.prodMk measurable_id)
  have h := (sum_moments hn.le hY N (fun y => near L x y) hm 1 fun y => by rw [abs_of_nonneg (near_nonneg L x y)]; exact near_le L x y).2.2
  rw [h]
  simp only [near_sq]
  have h1 := near_integral L n x hL hn.le
  have h0 : 0 ≤ ∫ y in (0 : ℝ)..n, near L x y := intervalIntegral.integral_nonneg hn.le fun y _ => near_nonneg L x y
  set I := ∫ y in (0 : ℝ)..n, near L x y
  have h2 : 1 / n * I ≤ 2 * L / n := by
    rw [div_mul_eq_mul_div, one_mul]
    gcongr
  have h3 : 0 ≤ 1 / n * I := by positivity
  gcongr
  nlinarith [sq_nonneg (1 / n * I)]

/-- The mean square of the number of levels near a level. -/
theorem near_row {P : Measure Ω} [IsProbabilityMeasure P] {n : ℝ} (hn : 0 < n) {Y : Nat → Ω → ℝ} (hY : UniformLevels P n Y) (N : Nat) (L : ℝ) (hL : 0 ≤ L) (i : Nat) :
    ∫ ω, (∑ j ∈ Finset.range N, near L (Y i ω) (Y j ω)) ^ 2 ∂P ≤ 2 * (1 + N * (2 * L / n) + (N * (2 * L / n)) ^ 2) := by
  classical
  set S := (Finset.range N).erase i with hS
  have hiS : i ∉ S := Finset.notMem_erase _ _
  have hm2 : ∀ a b : Nat, Measurable fun ω => near L (Y a ω) (Y b ω) := fun a b => (near_measurable L).comp ((hY.measurable a).prodMk (hY.measurable b))
  have hsum : ∀ ω, (∑ j ∈ Finset.range N, near L (Y i ω) (Y j ω)) ^ 2 ≤ 2 + 2 * (∑ j ∈ S, near L (Y i ω) (Y j ω)) ^ 2 := by
    intro ω
    have h1 : ∑ j ∈ Finset.range N, near L (Y i ω) (Y j ω) ≤ 1 + ∑ j ∈ S, near L (Y i ω) (Y j ω) := by
      by_cases h : i ∈ Finset.range N
      · rw [← Finset.add_sum_erase _ _ h]
        gcongr
        exact near_le _ _ _
      · rw [hS, Finset.erase_eq_of_notMem h]
        linarith
    have h0 : 0 ≤ ∑ j ∈ Finset.range N, near L (Y i ω) (Y j ω) := Finset.sum_nonneg fun j _ => near_nonneg _ _ _
    have h2 := pow_le_pow_left₀ h0 h1 2
    nlinarith [sq_nonneg (1 - ∑ j ∈ S, near L (Y i ω) (Y j ω))]
  have hbd : ∀ (T : Finset Nat) ω, |(∑ j ∈ T, near L (Y i ω) (Y j ω)) ^ 2| ≤ (T.card : ℝ) ^ 2 := fun T ω => by
    have h0 : 0 ≤ ∑ j ∈ T, near L (Y i ω) (Y j ω) := Finset.sum_nonneg fun j _ => near_nonneg _ _ _
    rw [abs_of_nonneg (by positivity)]
    refine pow_le_pow_left₀ h0 ?_ 2
    calc _ ≤ ∑ j ∈ T, (1 : ℝ) := Finset.sum_le_sum fun j _ => near_le _ _ _
      _ = _ := by simp
  have hint : ∀ T : Finset Nat, Integrable (fun ω => (∑ j ∈ T, near L (Y i ω) (Y j ω)) ^ 2) P := fun T =>
    Integrable.of_bound ((Finset.measurable_sum _ fun j _ => hm2 i j).pow_const 2).aestronglyMeasurable _ (Filter.Eventually.of_forall fun ω => hbd T ω)
  have hR : ∫ ω, (∑ j ∈ S, near L (Y i ω) (Y j ω)) ^ 2 ∂P ≤ N * (2 * L / n) + (N * (2 * L / n)) ^ 2 := by
    have hind := hY.indep.indepFun_finset {i} S (by simpa using hiS) hY.measurable
    have hZ : Measurable fun ω (j : S) => Y j ω := measurable_pi_lambda _ fun j => hY.measurable j
    have hind2 : IndepFun (Y i) (fun ω (j : S) => Y j ω) P :=
      hind.comp (φ := fun f : ({i} : Finset Nat) → ℝ => f ⟨i, Finset.mem_singleton_self i⟩) (ψ := id) (measurable_pi_apply _) measurable_id
    have hlaw := (indepFun_iff_map_prod_eq_prod_map_map (hY.measurable i).aemeasurable hZ.aemeasurable).mp hind2
    set G : ℝ × (S → ℝ) → ℝ := fun q => (∑ j : S, near L q.1 (q.2 j)) ^ 2 with hG
    have hGm : Measurable G := by
      refine Measurable.pow_const (Finset.measurable_sum _ fun j _ => ?_) 2
      exact (near_measurable L).comp (measurable_fst.prodMk ((measurable_pi_apply j).comp measurable_snd))
    have hGb : ∀ q, |G q| ≤ (S.card : ℝ) ^ 2 := fun q => by
      have h0 : 0 ≤ ∑ j : S, near L q.1 (q.2 j) := Finset.sum_nonneg fun j _ => near_nonneg _ _ _
      rw [abs_of_nonneg (by positivity)]
      refine pow_le_pow_left₀ h0 ?_ 2
      calc _ ≤ ∑ j : S, (1 : ℝ) := Finset.sum_le_sum fun j _ => near_le _ _ _
        _ = _ := by simp
    have hpm : IsProbabilityMeasure (P.map fun ω (j : S) => Y j ω) := Measure.isProbabilityMeasure_map hZ.aemeasurable
    have hpi : IsProbabilityMeasure (P.map (Y i)) := Measure.isProbabilityMeasure_map (hY.measurable i).aemeasurable
    have hGi : Integrable G ((P.map (Y i)).prod (P.map fun ω (j : S) => Y j ω)) := Integrable.of_bound hGm.aestronglyMeasurable _ (Filter.Eventually.of_forall hGb)
    have e0 : ∀ y ω, ∑ j ∈ S, near L y (Y j ω) = ∑ j : S, near L y (Y j ω) := fun y ω => (Finset.sum_coe_sort S fun j => near L y (Y j ω)).symm
    have e1 : ∫ ω, (∑ j ∈ S, near L (Y i ω) (Y j ω)) ^ 2 ∂P = ∫ q, G q ∂((P.map (Y i)).prod (P.map fun ω (j : S) => Y j ω)) := by
      rw [← hlaw, integral_map ((hY.measurable i).prodMk hZ).aemeasurable hGm.aestronglyMeasurable]
      simp only [hG, e0]
    rw [e1, integral_prod _ hGi]
    have hle : ∀ y, ∫ z, G (y, z) ∂(P.map fun ω (j : S) => Y j ω) ≤ N * (2 * L / n) + (N * (2 * L / n)) ^ 2 := by
      intro y
      rw [integral_map (f := fun z => G (y, z)) hZ.aemeasurable (hGm.comp measurable_prodMk_left).aestronglyMeasurable]
      refine le_trans ?_ (near_second hn hY N L hL y)
      have hmy : ∀ j, Measurable fun ω => near L y (Y j ω) := fun j => (near_measurable L).comp (measurable_const.prodMk (hY.measurable j))
      refine integral_mono_of_nonneg (Filter.Eventually.of_forall fun ω => by positivity) ?_ (Filter.Eventually.of_forall fun ω => ?_)
      · refine Integrable.of_bound ((Finset.measurable_sum _ fun j _ => hmy j).pow_const 2).aestronglyMeasurable ((N : ℝ) ^ 2) (Filter.Eventually.of_forall fun ω => ?_)
        have h0 : 0 ≤ ∑ j ∈ Finset.range N, near L y (Y j ω) := Finset.sum_nonneg fun j _ => near_nonneg _ _ _
        rw [Real.norm_eq_abs, abs_of_nonneg (by positivity)]
        refine pow_le_pow_left₀ h0 ?_ 2
        calc _ ≤ ∑ j ∈ Finset.range N, (1 : ℝ) := Finset.sum_le_sum fun j _ => near_le _ _ _
          _ = _ := by simp
      · show (∑ j : S, near L y (Y j ω)) ^ 2 ≤ _
        rw [← e0]
        refine pow_le_pow_left₀ (Finset.sum_nonneg fun j _ => near_nonneg _ _ _) ?_ 2
        exact Finset.sum_le_sum_of_subset_of_nonneg (Finset.erase_subset _ _) fun j _ _ => near_nonneg _ _ _
    calc _ ≤ ∫ _, (N * (2 * L / n) + (N * (2 * L / n)) ^ 2 : ℝ) ∂(P.map (Y i)) := integral_mono hGi.integral_prod_left (integrable_const _) hle
      _ = _ := by simp
  calc _ ≤ ∫ ω, (2 + 2 * (∑ j ∈ S, near L (Y i ω) (Y j ω)) ^ 2) ∂P := integral_mono (hint _) ((integrable_const _).add ((hint S).const_mul 2)) hsum
    _ = 2 + 2 * ∫ ω, (∑ j ∈ S, near L (Y i ω) (Y j ω)) ^ 2 ∂P := by
      rw [integral_add (integrable_const _) ((hint S).const_mul 2), integral_const_mul]
      simp
    _ ≤ _ := by linarith

/-- The variance of the sum of a bounded function of pairs of levels that vanishes for levels more than `L` apart. -/
theorem pair_variance {P : Measure Ω} [IsProbabilityMeasure P] {n : ℝ} (hn : 0 < n) {Y : Nat → Ω → ℝ} (hY : UniformLevels P n Y) (N : Nat) (L : ℝ) (hL : 0 ≤ L)
    (K : ℝ → ℝ → ℝ) (hK : Measurable fun p : ℝ × ℝ => K p.1 p.2) (B : ℝ) (hB : ∀ x y, |K x y| ≤ B * near L x y) :
    Var[fun ω => ∑ i ∈ Finset.range N, ∑ j ∈ Finset.range N, K (Y i ω) (Y j ω); P] ≤ 16 * B ^ 2 * (N * (1 + N * (2 * L / n) + (N * (2 * L / n)) ^ 2)) := by
  classical
  have hB0 : 0 ≤ B := by
    have := (abs_nonneg _).trans (hB 0 0)
    simpa [near, hL] using this
  set X : Nat × Nat → Ω → ℝ := fun p ω => K (Y p.1 ω) (Y p.2 ω) with hX
  set E : Nat × Nat → Ω → ℝ := fun p ω => near L (Y p.1 ω) (Y p.2 ω) with hE
  have hYm : ∀ p : Nat × Nat, Measurable fun ω => (Y p.1 ω, Y p.2 ω) := fun p => (hY.measurable p.1).prodMk (hY.measurable p.2)
  have hXm : ∀ p, Measurable (X p) := fun p => hK.comp (hYm p)
  have hEm : ∀ p, Measurable (E p) := fun p => (near_measurable L).comp (hYm p)
  have hE0 : ∀ p ω, 0 ≤ E p ω := fun p ω => near_nonneg _ _ _
  have hE1 : ∀ p ω, E p ω ≤ 1 := fun p ω => near_le _ _ _
  have hXE : ∀ p ω, |X p ω| ≤ B * E p ω := fun p ω => hB _ _
  have hXb : ∀ p ω, |X p ω| ≤ B := fun p ω => (hXE p ω).trans (by nlinarith [hE1 p ω])
  have hXL : ∀ p, MemLp (X p) 2 P := fun p => MemLp.of_bound (hXm p).aestronglyMeasurable B (Filter.Eventually.of_forall (hXb p))
  have hEi : ∀ p, Integrable (E p) P := fun p => Integrable.of_bound (hEm p).aestronglyMeasurable 1 (Filter.Eventually.of_forall fun ω => by
    rw [Real.norm_eq_abs, abs_of_nonneg (hE0 p ω)]; exact hE1 p ω)
  have hEEi : ∀ p q, Integrable (fun ω => E p ω * E q ω) P := fun p q => Integrable.of_bound ((hEm p).mul (hEm q)).aestronglyMeasurable 1 (Filter.Eventually.of_forall fun ω => by
    rw [Real.norm_eq_abs, abs_of_nonneg (mul_nonneg (hE0 p ω) (hE0 q ω))]
    exact mul_le_one₀ (hE1 p ω) (hE0 q ω) (hE1 q ω))
  set Q := Finset.range N ×ˢ Finset.range N with hQ
  have e0 : (fun ω => ∑ i ∈ Finset.range N, ∑ j ∈ Finset.range N, K (Y i ω) (Y j ω)) = ∑ p ∈ Q, X p := by
    funext ω
    rw [Finset.sum_apply, hQ, Finset.sum_product]
  rw [e0, variance_sum' fun p _ => hXL p]
  set W : Nat × Nat → Nat × Nat → ℝ := fun p q => (∫ ω, E p ω * E q ω ∂P) + (∫ ω, E p ω ∂P) * ∫ ω, E q ω ∂P with hW
  have hW0 : ∀ p q, 0 ≤ W p q := fun p q => add_nonneg (integral_nonneg fun ω => mul_nonneg (hE0 p ω) (hE0 q ω))
    (mul_nonneg (integral_nonneg (hE0 p)) (integral_nonneg (hE0 q)))
  have hcov : ∀ p q, cov[X p, X q; P] ≤ B ^ 2 * W p q := by
    intro p q
    rw [covariance_eq_sub (hXL p) (hXL q)]
    have h1 : |∫ ω, X p ω * X q ω ∂P| ≤ B ^ 2 * ∫ ω, E p ω * E q ω ∂P := by
      rw [← integral_const_mul]
      refine (abs_integral_le_integral_abs).trans (integral_mono_of_nonneg (Filter.Eventually.of_forall fun ω => abs_nonneg _) ((hEEi p q).const_mul _) (Filter.Eventually.of_forall fun ω => ?_))
      show |X p ω * X q ω| ≤ B ^ 2 * (E p ω * E q ω)
      rw [abs_mul]
      calc _ ≤ (B * E p ω) * (B * E q ω) := mul_le_mul (hXE p ω) (hXE q ω) (abs_nonneg _) (mul_nonneg hB0 (hE0 p ω))
        _ = _ := by ring
    have h2 : ∀ p, |∫ ω, X p ω ∂P| ≤ B * ∫ ω, E p ω ∂P := by
      intro p
      rw [← integral_const_mul]
      exact (abs_integral_le_integral_abs).trans (integral_mono_of_nonneg (Filter.Eventually.of_forall fun ω => abs_nonneg _) ((hEi p).const_mul _) (Filter.Eventually.of_forall fun ω => hXE p ω))
    have h3 : |(∫ ω, X p ω ∂P) * ∫ ω, X q ω ∂P| ≤ (B * ∫ ω, E p ω ∂P) * (B * ∫ ω, E q ω ∂P) := by
      rw [abs_mul]
      exact mul_le_mul (h2 p) (h2 q) (abs_nonneg _) (mul_nonneg hB0 (integral_nonneg (hE0 p)))
    have h4 : ∫ ω, (X p * X q) ω ∂P = ∫ ω, X p ω * X q ω ∂P := rfl
    have h5 : B ^ 2 * W p q = B ^ 2 * (∫ ω, E p ω * E q ω ∂P) + (B * ∫ ω, E p ω ∂P) * (B * ∫ ω, E q ω ∂P) := by
      rw [hW]; ring
    rw [h5, h4]
    have := le_abs_self (∫ ω, X p ω * X q ω ∂P)
    have := neg_abs_le ((∫ ω, X p ω ∂P) * ∫ ω, X q ω ∂P)
    linarith
  have hterm : ∀ i j k l : Nat, cov[X (i, j), X (k, l); P] ≤
      B ^ 2 * ((if k = i then W (i, j) (i, l) else 0) + (if k = j then W (j, i) (j, l) else 0) + (if l = i then W (i, j) (i, k) else 0) + (if l = j then W (j, i) (j, k) else 0)) := by
    intro i j k l
    have hsym : ∀ a b, E (a, b) = E (b, a) := fun a b => funext fun ω => near_comm _ _ _
    have hWs1 : ∀ a b q, W (a, b) q = W (b, a) q := fun a b q => by simp only [hW, hsym a b]
    have hWs2 : ∀ a b q, W q (a, b) = W q (b, a) := fun a b q => by simp only [hW, hsym a b]
    have n1 : 0 ≤ if k = i then W (i, j) (i, l) else 0 := by split_ifs; exacts [hW0 _ _, le_rfl]
    have n2 : 0 ≤ if k = j then W (j, i) (j, l) else 0 := by split_ifs; exacts [hW0 _ _, le_rfl]
    have n3 : 0 ≤ if l = i then W (i, j) (i, k) else 0 := by split_ifs; exacts [hW0 _ _, le_rfl]
    have n4 : 0 ≤ if l = j then W (j, i) (j, k) else 0 := by split_ifs; exacts [hW0 _ _, le_rfl]
    have hB2 : 0 ≤ B ^ 2 := sq_nonneg B
    have hc := hcov (i, j) (k, l)
    by_cases h1 : k = i
    · refine hc.trans (mul_le_mul_of_nonneg_left ?_ hB2)
      subst h1
      rw [if_pos rfl]
      linarith
    by_cases h2 : k = j
    · refine hc.trans (mul_le_mul_of_nonneg_left ?_ hB2)
      subst h2
      rw [if_pos (rfl : k = k), hWs1 i k]
      linarith
    by_cases h3 : l = i
    · refine hc.trans (mul_le_mul_of_nonneg_left ?_ hB2)
      subst h3
      rw [if_pos (rfl : l = l), hWs2 k l]
      linarith
    by_cases h4 : l = j
    · refine hc.trans (mul_le_mul_of_nonneg_left ?_ hB2)
      subst h4
      rw [if_pos (rfl : l = l), hWs2 k l, hWs1 i l]
      linarith
    have hind := hY.indep.indepFun_prodMk_prodMk hY.measurable i j k l (Ne.symm h1) (Ne.symm h3) (Ne.symm h2) (Ne.symm h4)
    have : IndepFun (X (i, j)) (X (k, l)) P := hind.comp hK hK
    rw [this.covariance_eq_zero (hXL _) (hXL _)]
    exact mul_nonneg hB2 (by linarith)
  have hrow : ∀ i, ∑ j ∈ Finset.range N, ∑ l ∈ Finset.range N, W (i, j) (i, l) ≤ 4 * (1 + N * (2 * L / n) + (N * (2 * L / n)) ^ 2) := by
    intro i
    have hr := near_row hn hY N L hL i
    set M : Ω → ℝ := fun ω => ∑ j ∈ Finset.range N, E (i, j) ω with hM
    have hMm : Measurable M := Finset.measurable_sum _ fun j _ => hEm (i, j)
    have hML : MemLp M 2 P := by
      have : M = fun ω => ∑ j ∈ Finset.range N, E (i, j) ω := rfl
      rw [this]
      exact memLp_finsetSum _ fun j _ => MemLp.of_bound (hEm (i, j)).aestronglyMeasurable 1 (Filter.Eventually.of_forall fun ω => by
        rw [Real.norm_eq_abs, abs_of_nonneg (hE0 _ ω)]; exact hE1 _ ω)
    have e1 : ∑ j ∈ Finset.range N, ∑ l ∈ Finset.range N, W (i, j) (i, l) = (∫ ω, M ω ^ 2 ∂P) + (∫ ω, M ω ∂P) ^ 2 := by
      have a1 : ∫ ω, M ω ∂P = ∑ j ∈ Finset.range N, ∫ ω, E (i, j) ω ∂P := integral_finsetSum _ fun j _ => hEi _
      have a2 : ∫ ω, M ω ^ 2 ∂P = ∑ j ∈ Finset.range N, ∑ l ∈ Finset.range N, ∫ ω, E (i, j) ω * E (i, l) ω ∂P := by
        have : ∀ ω, M ω ^ 2 = ∑ j ∈ Finset.range N, ∑ l ∈ Finset.range N, E (i, j) ω * E (i, l) ω := fun ω => by
          rw [hM, sq, Finset.sum_mul_sum]
        simp only [this]
        rw [integral_finsetSum _ fun j _ => integrable_finsetSum _ fun l _ => hEEi _ _]
        exact Finset.sum_congr rfl fun j _ => integral_finsetSum _ fun l _ => hEEi _ _
      rw [a1, a2, sq, Finset.sum_mul_sum, ← Finset.sum_add_distrib]
      exact Finset.sum_congr rfl fun j _ => by rw [← Finset.sum_add_distrib]
    have e2 : (∫ ω, M ω ∂P) ^ 2 ≤ ∫ ω, M ω ^ 2 ∂P := by
      have := variance_nonneg M P
      rw [variance_eq_sub hML] at this
      simp only [Pi.pow_apply] at this
      linarith
    have e3 : ∫ ω, M ω ^ 2 ∂P ≤ 2 * (1 + N * (2 * L / n) + (N * (2 * L / n)) ^ 2) := hr
    rw [e1]
    linarith
  set T := 1 + N * (2 * L / n) + (N * (2 * L / n)) ^ 2 with hT
  have htot : ∑ i ∈ Finset.range N, ∑ j ∈ Finset.range N, ∑ l ∈ Finset.range N, W (i, j) (i, l) ≤ N * (4 * T) := by
    calc _ ≤ ∑ i ∈ Finset.range N, 4 * T := Finset.sum_le_sum fun i _ => hrow i
      _ = _ := by simp
  have hsum : ∑ p ∈ Q, ∑ q ∈ Q, cov[X p, X q; P] ≤ ∑ i ∈ Finset.range N, ∑ j ∈ Finset.range N, ∑ k ∈ Finset.range N, ∑ l ∈ Finset.range N,
      B ^ 2 * ((if k = i then W (i, j) (i, l) else 0) + (if k = j then W (j, i) (j, l) else 0) + (if l = i then W (i, j) (i, k) else 0) + (if l = j then W (j, i) (j, k) else 0)) := by
    simp only [hQ, Finset.sum_product]
    exact Finset.sum_le_sum fun i _ => Finset.sum_le_sum fun j _ => Finset.sum_le_sum fun k _ => Finset.sum_le_sum fun l _ => hterm i j k l
  have hin : ∀ i ∈ Finset.range N, ∀ j ∈ Finset.range N, ∑ k ∈ Finset.range N, ∑ l ∈ Finset.range N,
      B ^ 2 * ((if k = i then W (i, j) (i, l) else 0) + (if k = j then W (j, i) (j, l) else 0) + (if l = i then W (i, j) (i, k) else 0) + (if l = j then W (j, i) (j, k) else 0)) =
      B ^ 2 * (2 * (∑ l ∈ Finset.range N, W (i, j) (i, l)) + 2 * ∑ l ∈ Finset.range N, W (j, i) (j, l)) := by
    intro i hi j hj
    simp only [← Finset.mul_sum, Finset.sum_add_distrib]
    congr 1
    have s1 : ∑ k ∈ Finset.range N, ∑ l ∈ Finset.range N, (if k = i then W (i, j) (i, l) else 0) = ∑ l ∈ Finset.range N, W (i, j) (i, l) := by
      rw [Finset.sum_comm]
      exact Finset.sum_congr rfl fun l _ => by rw [Finset.sum_ite_eq' , if_pos hi]
    have s2 : ∑ k ∈ Finset.range N, ∑ l ∈ Finset.range N, (if k = j then W (j, i) (j, l) else 0) = ∑ l ∈ Finset.range N, W (j, i) (j, l) := by
      rw [Finset.sum_comm]
      exact Finset.sum_congr rfl fun l _ => by rw [Finset.sum_ite_eq' , if_pos hj]
    have s3 : ∑ k ∈ Finset.range N, ∑ l ∈ Finset.range N, (if l = i then W (i, j) (i, k) else 0) = ∑ l ∈ Finset.range N, W (i, j) (i, l) :=
      Finset.sum_congr rfl fun k _ => by rw [Finset.sum_ite_eq' , if_pos hi]
    have s4 : ∑ k ∈ Finset.range N, ∑ l ∈ Finset.range N, (if l = j then W (j, i) (j, k) else 0) = ∑ l ∈ Finset.range N, W (j, i) (j, l) :=
      Finset.sum_congr rfl fun k _ => by rw [Finset.sum_ite_eq' , if_pos hj]
    rw [s1, s2, s3, s4]
    ring
  refine hsum.trans ?_
  rw [Finset.sum_congr rfl fun i hi => Finset.sum_congr rfl fun j hj => hin i hi j hj]
  simp only [← Finset.mul_sum, Finset.sum_add_distrib]
  rw [Finset.sum_comm (f := fun i j => ∑ l ∈ Finset.range N, W (j, i) (j, l))]
  have hB2 : 0 ≤ B ^ 2 := sq_nonneg B
  nlinarith

end UniformM
end RMT
