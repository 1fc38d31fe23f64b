import Verif.Lemmas.SpacingChange

/-!
# Lemmas for C168: the spacings of independent uniform levels are distinct, and neither very large nor very small
-/

namespace RMT
namespace UniformM
open Real Set Filter MeasureTheory ProbabilityTheory Spec EigValsM
open scoped Topology

variable {Ω : Type} [MeasurableSpace Ω]

theorem no_relation {P : Measure Ω} [IsProbabilityMeasure P] {n : ℝ} {Y : Nat → Ω → ℝ} (hY : UniformLevels P n Y) :
    ∀ᵐ ω ∂P, ∀ a b c d : Nat, a ≠ b → a ≠ c → a ≠ d → Y a ω ≠ Y b ω + Y c ω - Y d ω := by
  rw [ae_all_iff]; intro a
  rw [ae_all_iff]; intro b
  rw [ae_all_iff]; intro c
  rw [ae_all_iff]; intro d
  by_cases hab : a ≠ b
  swap
  · exact Filter.Eventually.of_forall fun ω h => absurd h hab
  by_cases hac : a ≠ c
  swap
  · exact Filter.Eventually.of_forall fun ω _ h => absurd h hac
  by_cases had : a ≠ d
  swap
  · exact Filter.Eventually.of_forall fun ω _ _ h => absurd h had
  simp only [ne_eq, hab, hac, had, not_false_eq_true, true_imp_iff]
  have hind : IndepFun (fun ω => Y b ω + Y c ω - Y d ω) (Y a) P := by
    have := hY.indep.indepFun_finset {b, c, d} {a} (by
      rw [Finset.disjoint_singleton_right]
      simp [hab, hac, had]) hY.measurable
    exact this.comp (φ := fun v : (({b, c, d} : Finset Nat) → ℝ) => v ⟨b, by simp⟩ + v ⟨c, by simp⟩ - v ⟨d, by simp⟩) (ψ := fun v : (({a} : Finset Nat) → ℝ) => v ⟨a, by simp⟩) (by fun_prop) (by fun_prop)
  have hZ : Measurable fun ω => Y b ω + Y c ω - Y d ω := ((hY.measurable b).add (hY.measurable c)).sub (hY.measurable d)
  have hlaw := (indepFun_iff_map_prod_eq_prod_map_map hZ.aemeasurable (hY.measurable a).aemeasurable).mp hind
  have hpm : IsProbabilityMeasure (P.map (Y a)) := Measure.isProbabilityMeasure_map (hY.measurable a).aemeasurable
  have hd : MeasurableSet {q : ℝ × ℝ | q.2 = q.1} := measurableSet_eq_fun measurable_snd measurable_fst
  have h0 : (P.map fun ω => (Y b ω + Y c ω - Y d ω, Y a ω)) {q : ℝ × ℝ | q.2 = q.1} = 0 := by
    rw [hlaw, Measure.prod_apply hd, lintegral_eq_zero_iff (measurable_measure_prodMk_left hd)]
    refine Filter.Eventually.of_forall fun x => ?_
    have : Prod.mk x ⁻¹' {q : ℝ × ℝ | q.2 = q.1} = {x} := by ext y; simp
    show (P.map (Y a)) (Prod.mk x ⁻¹' {q : ℝ × ℝ | q.2 = q.1}) = 0
    rw [this, hY.law]
    simp
  rw [Measure.map_apply (hZ.prodMk (hY.measurable a)) hd] at h0
  exact measure_eq_zero_iff_ae_notMem.mp h0

/-- The spacings of independent uniform levels are positive and distinct, almost surely. -/
theorem gaps_distinct {P : Measure Ω} [IsProbabilityMeasure P] {n : ℝ} {Y : Nat → Ω → ℝ} (hY : UniformLevels P n Y) (N : Nat) (l : Ω → List ℝ)
    (hl : ∀ ω, Ascending (l ω) ∧ (l ω).Perm ((List.range N).map fun k => Y k ω)) : ∀ᵐ ω ∂P, (nbr 1 (l ω)).Nodup ∧ ∀ x ∈ nbr 1 (l ω), 0 < x := by
  filter_upwards [no_relation hY, levels_distinct hY] with ω h1 h2
  obtain ⟨hasc, hperm⟩ := hl ω
  have hnd : (l ω).Nodup := by
    rw [hperm.nodup_iff]
    refine List.Nodup.map_on (fun i _ j _ hij => ?_) List.nodup_range
    rcases lt_trichotomy i j with h | h | h
    · exact absurd hij (h2.2 i j h)
    · exact h
    · exact absurd hij.symm (h2.2 j i h)
  have hlt : ∀ (i j : Nat), i < j → (hj : j < (l ω).length) → (l ω).getD i 0 < (l ω).getD j 0 := fun i j hij hj => by
    have hs : (l ω).Pairwise (· < ·) := (List.Pairwise.and hasc hnd).imp fun h => lt_of_le_of_ne h.1 h.2
    rw [List.pairwise_iff_getElem] at hs
    rw [List.getD_eq_getElem _ _ hj, List.getD_eq_getElem _ _ (by omega)]
    exact hs i j (by omega) hj hij
  have hmem : ∀ i < (l ω).length, ∃ k, Y k ω = (l ω).getD i 0 := fun i hi => by
    have := hperm.mem_iff.mp (List.getElem_mem hi)
    obtain ⟨k, -, hk⟩ := List.mem_map.mp this
    exact ⟨k, by rw [List.getD_eq_getElem _ _ hi, hk]⟩
  have hne : ∀ i j : Nat, i < j → j + 1 < (l ω).length → (l ω).getD (i + 1) 0 - (l ω).getD i 0 ≠ (l ω).getD (j + 1) 0 - (l ω).getD j 0 := fun i j hij hj he => by
    obtain ⟨a, ea⟩ := hmem (j + 1) hj
    obtain ⟨b, eb⟩ := hmem j (by omega)
    obtain ⟨c, ec⟩ := hmem (i + 1) (by omega)
    obtain ⟨d, ed⟩ := hmem i (by omega)
    refine h1 a b c d ?_ ?_ ?_ (by linarith)
    · rintro rfl; linarith [hlt j (j + 1) (by omega) hj]
    · rintro rfl; linarith [hlt (i + 1) (j + 1) (by omega) hj]
    · rintro rfl; linarith [hlt i (j + 1) (by omega) hj]
  unfold nbr
  constructor
  · refine List.Nodup.map_on (fun i hi j hj hij => ?_) List.nodup_range
    rw [List.mem_range] at hi hj
    rcases lt_trichotomy i j with h | h | h
    · exact absurd hij (hne i j h (by omega))
    · exact h
    · exact absurd hij.symm (hne j i h (by omega))
  · intro x hx
    obtain ⟨i, hi, rfl⟩ := List.mem_map.mp hx
    rw [List.mem_range] at hi
    linarith [hlt i (i + 1) (by omega) (by omega)]

/-- Markov's inequality for the number of spacings which satisfy `p`. -/
theorem exists_spacing {P : Measure Ω} [IsProbabilityMeasure P] {n : ℝ} {Y : Nat → Ω → ℝ} (hY : UniformLevels P n Y) (N : Nat) (l : Ω → List ℝ)
    (hl : ∀ ω, Ascending (l ω) ∧ (l ω).Perm ((List.range N).map fun k => Y k ω)) (p : ℝ → Bool) (hp : MeasurableSet {x | p x = true}) :
    Integrable (fun ω => ((nbr 1 (l ω)).countP p : ℝ)) P ∧ P {ω | ∃ x ∈ nbr 1 (l ω), p x = true} ≤ ENNReal.ofReal (∫ ω, ((nbr 1 (l ω)).countP p : ℝ) ∂P) := by
  have e : (fun ω => ((nbr 1 (l ω)).countP p : ℝ)) = fun ω => sortedSpacings 1 p N fun i => Y i ω := by
    funext ω
    rw [sortedSpacings, spacingsWith, ← sorted_levels Y N ω (l ω) (hl ω).1 (hl ω).2]
  have hmeas : Measurable fun ω => sortedSpacings 1 p N fun i => Y i ω := (sortedSpacings_measurable 1 p hp N).comp (measurable_pi_lambda _ fun i => hY.measurable i)
  have hint : Integrable (fun ω => ((nbr 1 (l ω)).countP p : ℝ)) P := by
    rw [e]
    exact Integrable.of_bound hmeas.aestronglyMeasurable N (Eventually.of_forall fun ω => sortedSpacings_bound 1 p N _)
  refine ⟨hint, ?_⟩
  have h := mul_meas_ge_le_integral_of_nonneg (μ := P) (f := fun ω => ((nbr 1 (l ω)).countP p : ℝ)) (Eventually.of_forall fun ω => Nat.cast_nonneg _) hint 1
  rw [one_mul] at h
  calc P {ω | ∃ x ∈ nbr 1 (l ω), p x = true} ≤ P {ω | (1 : ℝ) ≤ ((nbr 1 (l ω)).countP p : ℝ)} := measure_mono fun ω ⟨x, hx, hpx⟩ => by
        have : 0 < (nbr 1 (l ω)).countP p := List.countP_pos_iff.mpr ⟨x, hx, hpx⟩
        show (1 : ℝ) ≤ _
        exact_mod_cast this
    _ = ENNReal.ofReal (P.real {ω | (1 : ℝ) ≤ ((nbr 1 (l ω)).countP p : ℝ)}) := (ofReal_measureReal).symm
    _ ≤ _ := ENNReal.ofReal_le_ofReal h

/-- With high probability all spacings lie between `exp (-n^{1/4})` and `n^{1/4}`. -/
theorem spacing_range (P : ℕ → Measure Ω) [∀ n, IsProbabilityMeasure (P n)] (Y : ℕ → Nat → Ω → ℝ) (hY : ∀ n : ℕ, 0 < n → UniformLevels (P n) n (Y n)) (l : ℕ → Ω → List ℝ)
    (hl : ∀ n ω, Ascending (l n ω) ∧ (l n ω).Perm ((List.range n).map fun k => Y n k ω)) :
    Tendsto (fun n : ℕ => P n {ω | ∃ x ∈ nbr 1 (l n ω), √√(n : ℝ) < x ∨ x ≤ exp (-√√(n : ℝ))}) atTop (𝓝 0) := by
  have hy : Tendsto (fun n : ℕ => √√(n : ℝ)) atTop atTop := tendsto_sqrt_atTop.comp (tendsto_sqrt_atTop.comp tendsto_natCast_atTop_atTop)
  have hlim : Tendsto (fun n : ℕ => ENNReal.ofReal (n * exp (-√√(n : ℝ)))) atTop (𝓝 0) := by
    have h := (Real.tendsto_pow_mul_exp_neg_atTop_nhds_zero 4).comp hy
    have e : (fun n : ℕ => (n : ℝ) * exp (-√√(n : ℝ))) = (fun x => x ^ 4 * exp (-x)) ∘ fun n : ℕ => √√(n : ℝ) := by
      funext n
      simp only [Function.comp_apply]
      rw [show √√(n : ℝ) ^ 4 = (√√(n : ℝ) ^ 2) ^ 2 by ring, sq_sqrt (sqrt_nonneg _), sq_sqrt (Nat.cast_nonneg n)]
    rw [← e] at h
    simpa using ENNReal.tendsto_ofReal h
  have hsum := hlim.add hlim
  rw [add_zero] at hsum
  refine tendsto_of_tendsto_of_tendsto_of_le_of_le' tendsto_const_nhds hsum (Eventually.of_forall fun n => zero_le) ?_
  filter_upwards [eventually_ge_atTop 1] with n hn
  have hn1 : (1 : ℝ) ≤ n := by exact_mod_cast hn
  have hn0 : (0 : ℝ) < n := by linarith
  have hr1 : (1 : ℝ) ≤ √(n : ℝ) := by rw [one_le_sqrt]; exact hn1
  set y := √√(n : ℝ) with hyd
  have hy1 : (1 : ℝ) ≤ y := by rw [hyd, one_le_sqrt]; exact hr1
  have hy4 : y ^ 4 = n := by rw [hyd, show √√(n : ℝ) ^ 4 = (√√(n : ℝ) ^ 2) ^ 2 by ring, sq_sqrt (sqrt_nonneg _), sq_sqrt hn0.le]
  have hyn : y ≤ n := by rw [← hy4]; exact le_self_pow₀ hy1 (by norm_num)
  have m1 : MeasurableSet {x : ℝ | decide (y < x) = true} := by simp only [decide_eq_true_eq]; exact measurableSet_Ioi
  have m2 : MeasurableSet {x : ℝ | decide (x ≤ exp (-y)) = true} := by simp only [decide_eq_true_eq]; exact measurableSet_Iic
  have m3 : MeasurableSet {x : ℝ | decide (exp (-y) < x) = true} := by simp only [decide_eq_true_eq]; exact measurableSet_Ioi
  obtain ⟨-, b1⟩ := exists_spacing (hY n hn) n (l n) (hl n) (fun x => decide (y < x)) m1
  obtain ⟨-, b2⟩ := exists_spacing (hY n hn) n (l n) (hl n) (fun x => decide (x ≤ exp (-y))) m2
  obtain ⟨i3, -⟩ := exists_spacing (hY n hn) n (l n) (hl n) (fun x => decide (exp (-y) < x)) m3
  have ey : exp (-y) ≤ 1 := exp_le_one_iff.mpr (by linarith)
  have ey0 := exp_pos (-y)
  have c1 : ∫ ω, ((nbr 1 (l n ω)).countP (fun x => decide (y < x)) : ℝ) ∂(P n) ≤ n * exp (-y) := by
    rw [mean_spacings_one hn0 (hY n hn) (l n) (hl n) hn y (by linarith) hyn]
    have h1 : (1 - y / n) ^ n ≤ exp (-y) := Real.one_sub_div_pow_le_exp_neg hyn
    have h0 : 0 ≤ (1 - y / n) ^ n := pow_nonneg (by rw [sub_nonneg, div_le_one hn0]; exact hyn) _
    nlinarith
  have c2 : ∫ ω, ((nbr 1 (l n ω)).countP (fun x => decide (x ≤ exp (-y))) : ℝ) ∂(P n) ≤ n * exp (-y) := by
    have e : ∀ ω, ((nbr 1 (l n ω)).countP (fun x => decide (x ≤ exp (-y))) : ℝ) = (n - 1) - ((nbr 1 (l n ω)).countP (fun x => decide (exp (-y) < x)) : ℝ) := fun ω => by
      have h := List.length_eq_countP_add_countP (fun x => decide (x ≤ exp (-y))) (l := nbr 1 (l n ω))
      have e : ((nbr 1 (l n ω)).countP fun a => decide (¬ decide (a ≤ exp (-y)) = true)) = (nbr 1 (l n ω)).countP fun x => decide (exp (-y) < x) := by
        congr 1
        funext x
        simp
      have hlen : (nbr 1 (l n ω)).length = n - 1 := by
        rw [nbr, List.length_map, List.length_range, (hl n ω).2.length_eq]
        simp
      rw [e, hlen] at h
      have h' : ((n - 1 : ℕ) : ℝ) = (nbr 1 (l n ω)).countP (fun x => decide (x ≤ exp (-y))) + (nbr 1 (l n ω)).countP (fun x => decide (exp (-y) < x)) := by exact_mod_cast h
      rw [Nat.cast_sub hn, Nat.cast_one] at h'
      linarith
    simp only [e]
    rw [integral_sub (integrable_const _) i3, integral_const, mean_spacings_one hn0 (hY n hn) (l n) (hl n) hn (exp (-y)) ey0.le (ey.trans hn1)]
    simp only [probReal_univ, one_smul]
    have hq : exp (-y) / n ≤ 1 := by rw [div_le_one hn0]; linarith
    have hb := one_add_mul_le_pow (a := -(exp (-y) / n)) (by linarith) n
    have e2 : 1 + (n : ℝ) * -(exp (-y) / n) = 1 - exp (-y) := by field_simp; ring
    rw [e2, ← sub_eq_add_neg] at hb
    nlinarith
  have hsub : {ω | ∃ x ∈ nbr 1 (l n ω), y < x ∨ x ≤ exp (-y)} ⊆ {ω | ∃ x ∈ nbr 1 (l n ω), decide (y < x) = true} ∪ {ω | ∃ x ∈ nbr 1 (l n ω), decide (x ≤ exp (-y)) = true} := by
    rintro ω ⟨x, hx, h | h⟩
    · exact Or.inl ⟨x, hx, by simpa using h⟩
    · exact Or.inr ⟨x, hx, by simpa using h⟩
  exact (measure_mono hsub).trans ((measure_union_le _ _).trans (add_le_add (b1.trans (ENNReal.ofReal_le_ofReal c1)) (b2.trans (ENNReal.ofReal_le_ofReal c2))))

end UniformM
end RMT
