import Verif.Lemmas.LowerEdge
import Verif.Props.NoiseSpectrumEdge
import Verif.Props.SeriesRank
import Verif.Props.ComputedEdges

/-! # C188: where spectra of noise begin -/

namespace RMT
namespace Edge
open MeasureTheory ProbabilityTheory Real Spec Filter Topology Gen EigM Props Gauss Gauss.Wishart EigValsM Inertia Semi
open scoped ENNReal

theorem cnt_mul {N : ℕ} (C : Matrix (Fin N) (Fin N) ℝ) (hC : C.IsHermitian) (c a : ℝ) (hc : 0 < c) : cnt (c • C) (a * c) = cnt C a := by
  have hC' : (c • C).IsHermitian := by
    unfold Matrix.IsHermitian
    rw [Matrix.conjTranspose_smul, hC.eq]
    simp
  have e : ∀ v : Fin N → ℝ, v ⬝ᵥ ((c • C).mulVec v) = c * (v ⬝ᵥ (C.mulVec v)) := fun v => by rw [Matrix.smul_mulVec, dotProduct_smul, smul_eq_mul]
  refine le_antisymm (cnt_le _ _ 1 hC' hC _ _ fun v h => ?_) (cnt_le _ _ 1 hC hC' _ _ fun v h => ?_)
  · rw [Matrix.one_mulVec]
    rw [e] at h
    refine lt_of_mul_lt_mul_left (a := c) ?_ hc.le
    linarith
  · rw [Matrix.one_mulVec, e]
    have := mul_lt_mul_of_pos_left h hc
    linarith

/-- The probability of a short vector, for arrays of growing sizes. -/
theorem small_rate (A B : ℕ → ℕ) (hB : Tendsto B atTop atTop) (ρ : ℝ) (h0 : 0 < ρ) (h1 : ρ < 1) (hr : Tendsto (fun n => (A n : ℝ) / B n) atTop (𝓝 ρ)) (a : ℝ) (ha : a < (1 - √ρ) ^ 2) :
    ∃ r : ℝ, 0 < r ∧ r < 1 ∧ ∀ᶠ n : ℕ in atTop, gau (Fin (A n) × Fin (B n)) {v | Small (a * B n) v} ≤ ENNReal.ofReal (r ^ B n) := by
  set κ := √ρ with hκ
  have hκ0 : 0 < κ := sqrt_pos.mpr h0
  have hκ1 : κ < 1 := by rw [hκ, sqrt_lt' one_pos]; simpa using h1
  have hκ2 : κ ^ 2 = ρ := sq_sqrt h0.le
  set g := (1 - κ) ^ 2 - a with hg
  have hg0 : 0 < g := by rw [hg]; linarith
  set ε := min 1 (g / (2 * (1 + 1 / κ))) with hε
  have hε0 : 0 < ε := by positivity
  have hε1 : ε ≤ 1 := min_le_left _ _
  have hlim : Tendsto (fun n => (1 - κ) * (1 - ε - ((A n : ℝ) / B n + ε) / κ)) atTop (𝓝 ((1 - κ) * (1 - ε - (ρ + ε) / κ))) :=
    (((hr.add_const ε).div_const κ).const_sub (1 - ε)).const_mul (1 - κ)
  have hgt : a < (1 - κ) * (1 - ε - (ρ + ε) / κ) := by
    have e : (1 - κ) * (1 - ε - (ρ + ε) / κ) = (1 - κ) ^ 2 - (1 - κ) * (ε * (1 + 1 / κ)) := by
      rw [← hκ2]
      field_simp
      ring
    have h2 : ε * (1 + 1 / κ) ≤ g / 2 := by
      have : ε ≤ g / (2 * (1 + 1 / κ)) := min_le_right _ _
      calc ε * (1 + 1 / κ) ≤ g / (2 * (1 + 1 / κ)) * (1 + 1 / κ) := mul_le_mul_of_nonneg_right this (by positivity)
        _ = g / 2 := by field_simp
    have h3 : (1 - κ) * (ε * (1 + 1 / κ)) ≤ 1 * (g / 2) := mul_le_mul (by linarith) h2 (by positivity) (by norm_num)
    rw [e]
    linarith
  set r := exp (-(ε ^ 2 / 16)) with hrdef
  have hr0 : 0 < r := exp_pos _
  have hr1 : r < 1 := by
    rw [hrdef, exp_lt_one_iff]
    have : 0 < ε ^ 2 / 16 := by positivity
    linarith
  refine ⟨r, hr0, hr1, ?_⟩
  have ev1 := hlim.eventually_const_lt hgt
  have ev2 : ∀ᶠ n in atTop, (A n : ℝ) / B n < 1 := hr.eventually_lt_const h1
  have ev3 : ∀ᶠ n in atTop, 1 ≤ B n := hB.eventually_ge_atTop 1
  have t4 : Tendsto (fun n : ℕ => (n : ℝ) ^ 1 * r ^ n) atTop (𝓝 0) := tendsto_pow_const_mul_const_pow_of_abs_lt_one 1 (by rwa [abs_of_pos hr0])
  have ev4 := hB.eventually (t4.eventually_lt_const (show (0 : ℝ) < 1 / 4 by norm_num))
  filter_upwards [ev1, ev2, ev3, ev4] with n g1 g2 g3 g4
  have hBp : (0 : ℝ) < B n := by exact_mod_cast g3
  have hAB : A n ≤ B n := by
    rw [div_lt_one hBp] at g2
    exact_mod_cast g2.le
  have hb : a * B n ≤ (1 - κ) * (B n - ε * B n - (A n + ε * B n) / κ) := by
    have := mul_le_mul_of_nonneg_right g1.le hBp.le
    refine this.trans_eq ?_
    field_simp
  refine (small_prob (A n) (B n) hAB (ε * B n) κ (a * B n) (by positivity) hκ0 hκ1.le hb _ fun d hd => chi_tail d (B n) ε (by exact_mod_cast hd) hε0 hε1).trans ?_
  have e1 : exp (-((B n : ℝ) * ε ^ 2 / 8)) = r ^ B n * r ^ B n := by
    rw [hrdef, ← exp_nat_mul, ← exp_add]
    congr 1
    ring
  rw [e1, show (2 : ℝ≥0∞) = ENNReal.ofReal 2 by simp, show ((A n : ℕ) : ℝ≥0∞) = ENNReal.ofReal (A n) by simp, ← ENNReal.ofReal_mul (by norm_num), ← ENNReal.ofReal_mul (by positivity)]
  refine ENNReal.ofReal_le_ofReal ?_
  have hA : (A n : ℝ) ≤ B n := by exact_mod_cast hAB
  have hp : 0 < r ^ B n := by positivity
  rw [pow_one] at g4
  generalize r ^ B n = R at *
  have h5 : (A n : ℝ) * R ≤ B n * R := mul_le_mul_of_nonneg_right hA hp.le
  have h6 : ((A n : ℝ) * R) * R ≤ 1 / 4 * R := mul_le_mul_of_nonneg_right (by linarith) hp.le
  linarith

variable {Ω : Type} [MeasurableSpace Ω]

theorem noise_prob (P : Measure Ω) [IsProbabilityMeasure P] (Z : ℕ → Ω → ℝ) (hZ : NormalDraws P Z) (N T : ℕ) (V : Matrix (Fin (T + 1)) (Fin (T + 1)) ℝ) (hV : V ∈ Matrix.orthogonalGroup (Fin (T + 1)) ℝ)
    (S : Set (Fin N × Fin T → ℝ)) (hS : MeasurableSet S) : P {ω | cols (rmul (ptW Z N (T + 1) ω) V) ∈ S} = gau (Fin N × Fin T) S := by
  rw [← cols_prob N T V hV S hS]
  have hmc : Measurable fun v : Fin N × Fin (T + 1) → ℝ => cols v := measurable_pi_lambda _ fun p => measurable_pi_apply _
  have hmr : Measurable fun v : Fin N × Fin (T + 1) → ℝ => rmul v V := by
    refine measurable_pi_lambda _ fun p => ?_
    simp only [rmul]
    fun_prop
  have hm : MeasurableSet {v : Fin N × Fin (T + 1) → ℝ | cols (rmul v V) ∈ S} := (hmc.comp hmr) hS
  have hl : P.map (ptW Z N (T + 1)) = gau (Fin N × Fin (T + 1)) := ptW_law Z hZ
  rw [← hl, Measure.map_apply (ptW_measurable Z hZ.measurable) hm]
  rfl

/-- Few eigenvalues above `a` make some vector short. -/
theorem below_le (P : Measure Ω) [IsProbabilityMeasure P] (Z : ℕ → Ω → ℝ) (hZ : NormalDraws P Z) (N T : ℕ) (hT : 2 ≤ T) (a : ℝ) (ha : 0 ≤ a) (b : ℝ) (hb : a * ((T - 1 : ℕ) : ℝ) < b) :
    (N ≤ T - 1 → P {ω | cnt (covMatrix (noise Z N T ω)) a < min N (T - 1)} ≤ gau (Fin N × Fin (T - 1)) {v | Small b v}) ∧
    (T - 1 ≤ N → P {ω | cnt (covMatrix (noise Z N T ω)) a < min N (T - 1)} ≤ gau (Fin (T - 1) × Fin N) {v | Small b v}) := by
  obtain ⟨T, rfl⟩ : ∃ t, T = t + 1 := ⟨T - 1, by omega⟩
  rw [Nat.add_sub_cancel] at hb ⊢
  have hT0 : (0 : ℝ) < T := by exact_mod_cast (by omega : 0 < T)
  obtain ⟨V, hV, hcen⟩ := centred_cols N T
  have hc : ∀ ω, cnt (covMatrix (noise Z N (T + 1) ω)) a = cnt (mat (cols (rmul (ptW Z N (T + 1) ω) V)) * (mat (cols (rmul (ptW Z N (T + 1) ω) V))).transpose) (a * T) := by
    intro ω
    have h1 := cov_centred (noise Z N (T + 1) ω) hT
    have h2 : noise Z N (T + 1) ω = mat (ptW Z N (T + 1) ω) := rfl
    rw [h2, hcen] at h1
    rw [← h1, ← h2, show ((T + 1 : ℕ) : ℝ) - 1 = T by push_cast; ring, cnt_mul _ (symm_herm _ (covMatrix_isSymm _)) _ _ hT0]
  constructor
  · intro hNT
    rw [← noise_prob P Z hZ N T V hV _ (small_open b).measurableSet]
    refine measure_mono fun ω hω => ?_
    rw [Set.mem_ofPred_eq, hc, min_eq_left hNT] at hω
    exact small_of_cnt _ _ _ hb hω
  · intro hNT
    have hm : MeasurableSet {v : Fin N × Fin T → ℝ | Small b (flip v)} := by
      refine (IsOpen.preimage (f := fun v : Fin N × Fin T → ℝ => flip v) ?_ (small_open b)).measurableSet
      unfold flip
      fun_prop
    rw [← flip_prob, ← noise_prob P Z hZ N T V hV _ hm]
    refine measure_mono fun ω hω => ?_
    rw [Set.mem_ofPred_eq, hc, min_eq_right hNT] at hω
    exact small_flip _ _ _ (by positivity) hb hω

variable {P : ℕ → Measure Ω} [∀ n, IsProbabilityMeasure (P n)]

/-- **The lower edge, covariances.** -/
theorem cov_low (Z : ℕ → ℕ → Ω → ℝ) (hZ : ∀ n, NormalDraws (P n) (Z n)) (N T : ℕ → ℕ) (hT2 : ∀ n, 2 ≤ T n)
    (hN : Tendsto N atTop atTop) (hT : Tendsto T atTop atTop) (q : ℝ) (hq : 0 < q) (hr : Tendsto (fun n => (N n : ℝ) / T n) atTop (𝓝 q)) (a : ℝ) (h0 : 0 ≤ a) (ha : a < (1 - √q) ^ 2) :
    ∃ r : ℝ, 0 < r ∧ r < 1 ∧ ∀ᶠ n : ℕ in atTop, P n {ω | cnt (covMatrix (noise (Z n) (N n) (T n) ω)) a < min (N n) (T n - 1)} ≤ ENNReal.ofReal (r ^ N n) := by
  have hTr : Tendsto (fun n => (T n : ℝ)) atTop atTop := tendsto_natCast_atTop_atTop.comp hT
  have hT1 : Tendsto (fun n => T n - 1) atTop atTop := (tendsto_sub_atTop_nat 1).comp hT
  have hTc : ∀ n, ((T n - 1 : ℕ) : ℝ) = T n - 1 := fun n => by
    have := hT2 n
    rw [Nat.cast_sub (by omega), Nat.cast_one]
  have hTp : ∀ n, (0 : ℝ) < T n - 1 := fun n => by
    have : (2 : ℝ) ≤ T n := by exact_mod_cast hT2 n
    linarith
  have hr1 : Tendsto (fun n => (N n : ℝ) / ((T n - 1 : ℕ) : ℝ)) atTop (𝓝 q) := by
    have h1 : Tendsto (fun n => ((N n : ℝ) / T n) / (1 - (T n : ℝ)⁻¹)) atTop (𝓝 (q / (1 - 0))) := hr.div (tendsto_const_nhds.sub (tendsto_inv_atTop_zero.comp hTr)) (by norm_num)
    rw [sub_zero, div_one] at h1
    refine h1.congr fun n => ?_
    have h2 := hTp n
    have h3 : (0 : ℝ) < T n := by linarith
    rw [hTc]
    field_simp
  obtain ⟨a', ha1, ha2⟩ := exists_between ha
  rcases lt_trichotomy q 1 with hq1 | hq1 | hq1
  · obtain ⟨r, hr0, hrl, hev⟩ := small_rate N (fun n => T n - 1) hT1 q hq hq1 hr1 a' ha2
    refine ⟨r, hr0, hrl, ?_⟩
    have ev2 : ∀ᶠ n in atTop, (N n : ℝ) / ((T n - 1 : ℕ) : ℝ) < 1 := hr1.eventually_lt_const hq1
    filter_upwards [hev, ev2] with n g1 g2
    have hp := hTp n
    rw [← hTc] at hp
    rw [div_lt_one hp] at g2
    have hle : N n ≤ T n - 1 := by exact_mod_cast g2.le
    refine ((below_le (P n) (Z n) (hZ n) (N n) (T n) (hT2 n) a h0 (a' * ((T n - 1 : ℕ) : ℝ)) (mul_lt_mul_of_pos_right ha1 hp)).1 hle).trans (g1.trans (ENNReal.ofReal_le_ofReal ?_))
    exact pow_le_pow_of_le_one hr0.le hrl.le hle
  · rw [hq1, sqrt_one] at ha
    norm_num at ha
    linarith
  · have hs : 1 < √q := by rw [lt_sqrt zero_le_one]; simpa using hq1
    have hs2 : √q ^ 2 = q := sq_sqrt hq.le
    have hri : Tendsto (fun n => ((T n - 1 : ℕ) : ℝ) / N n) atTop (𝓝 q⁻¹) := (hr1.inv₀ hq.ne').congr fun n => by rw [inv_div]
    have ha3 : a' / q < (1 - √q⁻¹) ^ 2 := by
      rw [div_lt_iff₀ hq, sqrt_inv]
      refine ha2.trans_eq ?_
      nth_rewrite 3 [← hs2]
      rw [← mul_pow, sub_mul, one_mul, inv_mul_cancel₀ (by positivity)]
      ring
    obtain ⟨a3, ha4, ha5⟩ := exists_between ha3
    obtain ⟨r, hr0, hrl, hev⟩ := small_rate (fun n => T n - 1) N hN q⁻¹ (inv_pos.mpr hq) (inv_lt_one_of_one_lt₀ hq1) hri a3 ha5
    refine ⟨r, hr0, hrl, ?_⟩
    have ev2 : ∀ᶠ n in atTop, ((T n - 1 : ℕ) : ℝ) / N n < 1 := hri.eventually_lt_const (inv_lt_one_of_one_lt₀ hq1)
    have ev3 : ∀ᶠ n in atTop, a * (((T n - 1 : ℕ) : ℝ) / N n) < a3 := (hri.const_mul a).eventually_lt_const (lt_trans (by
      rw [← div_eq_mul_inv]
      exact div_lt_div_of_pos_right ha1 hq) ha4)
    have ev4 : ∀ᶠ n in atTop, 1 ≤ N n := hN.eventually_ge_atTop 1
    filter_upwards [hev, ev2, ev3, ev4] with n g1 g2 g3 g4
    have hp : (0 : ℝ) < N n := by exact_mod_cast g4
    rw [div_lt_one hp] at g2
    rw [mul_div_assoc', div_lt_iff₀ hp] at g3
    exact ((below_le (P n) (Z n) (hZ n) (N n) (T n) (hT2 n) a h0 (a3 * N n) g3).2 (by exact_mod_cast g2.le)).trans g1

theorem cov_low_null (Z : ℕ → ℕ → Ω → ℝ) (hZ : ∀ n, NormalDraws (P n) (Z n)) (N T : ℕ → ℕ) (hT2 : ∀ n, 2 ≤ T n)
    (hN : Tendsto N atTop atTop) (hT : Tendsto T atTop atTop) (q : ℝ) (hq : 0 < q) (hr : Tendsto (fun n => (N n : ℝ) / T n) atTop (𝓝 q)) (a : ℝ) (h0 : 0 ≤ a) (ha : a < (1 - √q) ^ 2) :
    Tendsto (fun n => P n {ω | cnt (covMatrix (noise (Z n) (N n) (T n) ω)) a < min (N n) (T n - 1)}) atTop (𝓝 0) := by
  obtain ⟨r, h0, h1, hle⟩ := cov_low Z hZ N T hT2 hN hT q hq hr a h0 ha
  have ht : Tendsto (fun n : ℕ => ENNReal.ofReal (r ^ N n)) atTop (𝓝 0) := by
    have := ENNReal.tendsto_ofReal ((tendsto_pow_atTop_nhds_zero_of_lt_one h0.le h1).comp hN)
    simpa using this
  exact tendsto_of_tendsto_of_tendsto_of_le_of_le' tendsto_const_nhds ht (Eventually.of_forall fun _ => zero_le) hle

/-- **The lower edge, covariances and correlations.** -/
theorem wanted_low (Z : ℕ → ℕ → Ω → ℝ) (hZ : ∀ n, NormalDraws (P n) (Z n)) (N T : ℕ → ℕ) (hT2 : ∀ n, 2 ≤ T n)
    (hN : Tendsto N atTop atTop) (hT : Tendsto T atTop atTop) (q : ℝ) (hq : 0 < q) (hr : Tendsto (fun n => (N n : ℝ) / T n) atTop (𝓝 q)) (cov : Bool) (a : ℝ) (h0 : 0 < a) (ha : a < (1 - √q) ^ 2) :
    Tendsto (fun n => P n {ω | cnt (wantedMatrix (noise (Z n) (N n) (T n) ω) cov) a < min (N n) (T n - 1)}) atTop (𝓝 0) := by
  cases cov
  · simp only [wantedMatrix, Bool.false_eq_true, if_false]
    set u := (1 - √q) ^ 2 with hu
    set δ := min (1 / 2) ((u / a - 1) / 2) with hδ
    have hua : 1 < u / a := (one_lt_div h0).mpr ha
    have hδ0 : 0 < δ := lt_min (by norm_num) (by linarith)
    have hδ1 : δ ≤ 1 / 2 := min_le_left _ _
    have hl : 0 < 1 - δ := by linarith
    have ha' : a * (1 + δ) < u := by
      have h1 : δ ≤ (u / a - 1) / 2 := min_le_right _ _
      have h2 : a * (1 + δ) ≤ a * (1 + (u / a - 1) / 2) := mul_le_mul_of_nonneg_left (by linarith) h0.le
      have h3 : a * (1 + (u / a - 1) / 2) = (a + u) / 2 := by
        field_simp
        ring
      linarith
    have t := (var_near Z hZ N T hT2 hT q hr δ hδ0).add (cov_low_null Z hZ N T hT2 hN hT q hq hr (a * (1 + δ)) (by positivity) ha')
    rw [add_zero] at t
    refine tendsto_of_tendsto_of_tendsto_of_le_of_le tendsto_const_nhds t (fun _ => zero_le) fun n => ?_
    refine (measure_mono fun ω hω => ?_).trans (measure_union_le _ _)
    by_contra hcon
    simp only [Set.mem_union, not_or, Set.mem_ofPred_eq, not_exists, not_le, not_lt] at hcon hω
    obtain ⟨h1, h2⟩ := hcon
    set C := covMatrix (noise (Z n) (N n) (T n) ω) with hC
    have hbd : ∀ i, 1 - δ ≤ C i i ∧ C i i ≤ 1 + δ := by
      intro i
      have := abs_lt.mp (h1 i)
      constructor <;> linarith [this.1, this.2]
    have hpos : ∀ i, 0 < C i i := fun i => lt_of_lt_of_le hl (hbd i).1
    have hsc := cnt_scaled C (corrMatrix (noise (Z n) (N n) (T n) ω)) (symm_herm _ (covMatrix_isSymm _)) (symm_herm _ (corrMatrix_isSymm _)) (fun i => √(C i i)) (fun i => Real.sqrt_pos.mpr (hpos i))
      (cov_corr _ (hT2 n) hpos) (1 - δ) (1 + δ) hl (fun i => by rw [Real.sq_sqrt (hpos i).le]; exact hbd i) a h0
    have := hsc.1
    omega
  · simpa only [wantedMatrix, if_true] using cov_low_null Z hZ N T hT2 hN hT q hq hr a h0.le ha

theorem tail_lt (q : ℝ) (hq : 0 < q) (a : ℝ) (ha : (1 - √q) ^ 2 < a) : tail q a < min 1 (1 / q) := by
  have hs : 0 < √q := sqrt_pos.mpr hq
  have hlow : (1 - √q) ^ 2 < (1 + √q) ^ 2 := by nlinarith
  obtain ⟨c, hc1, hc2⟩ := exists_between (lt_min ha hlow)
  obtain ⟨d, hd1, hd2⟩ := exists_between hc2
  have hc0 : 0 < c := lt_of_le_of_lt (sq_nonneg _) hc1
  have hda : d < a := hd2.trans_le (min_le_left _ _)
  have hdb : d < (1 + √q) ^ 2 := hd2.trans_le (min_le_right _ _)
  have h1 : 0 < tail q c - tail q d := by
    rw [tail_sub q hq c d hc0 hd1.le, ← intervalIntegral.integral_of_le hd1.le]
    refine intervalIntegral.intervalIntegral_pos_of_pos_on ?_ ?_ hd1
    · rw [intervalIntegrable_iff_integrableOn_Ioc_of_le hd1.le]
      exact (mpDensity_integrable q hq c hc0).mono_set Set.Ioc_subset_Ioi_self
    · intro x hx
      have hx0 : 0 < x := hc0.trans hx.1
      unfold mpDensity
      have : 0 < ((1 + √q) ^ 2 - x) * (x - (1 - √q) ^ 2) := mul_pos (by linarith [hx.2]) (by linarith [hx.1])
      have := sqrt_pos.mpr this
      positivity
  have h2 := tail_antitone q hq d a (hc0.trans hd1) hda.le
  have h3 : tail q c ≤ min 1 (1 / q) := by
    refine le_of_forall_pos_lt_add fun ε hε => ?_
    obtain ⟨δ, hδ, hle⟩ := tail_tendsto q hq ε hε
    have hm : 0 < min δ c := lt_min hδ hc0
    have h4 := tail_antitone q hq (min δ c) c hm (min_le_right _ _)
    have h5 := (abs_lt.mp (hle (min δ c) hm (min_le_left _ _))).2
    linarith
  linarith

/-- Some positive eigenvalue is below any number above the edge. -/
theorem near_lower (Z : ℕ → ℕ → Ω → ℝ) (hZ : ∀ n, NormalDraws (P n) (Z n)) (N T : ℕ → ℕ) (hT2 : ∀ n, 2 ≤ T n)
    (hN : Tendsto N atTop atTop) (hT : Tendsto T atTop atTop) (q : ℝ) (hq : 0 < q) (hr : Tendsto (fun n => (N n : ℝ) / T n) atTop (𝓝 q)) (cov : Bool) (a : ℝ) (ha : (1 - √q) ^ 2 < a) :
    Tendsto (fun n => P n {ω | min (N n) (T n - 1) ≤ cnt (wantedMatrix (noise (Z n) (N n) (T n) ω) cov) a}) atTop (𝓝 0) := by
  have h0 : 0 < a := lt_of_le_of_lt (sq_nonneg _) ha
  set g := (min 1 (1 / q) - tail q a) / 2 with hg
  have hg0 : 0 < g := by
    have := tail_lt q hq a ha
    rw [hg]
    linarith
  have hp := inProb_wanted Z hZ N T hT2 hN hT q hq hr cov a h0 g hg0
  have hNr : Tendsto (fun n => (N n : ℝ)) atTop atTop := tendsto_natCast_atTop_atTop.comp hN
  have hlim : Tendsto (fun n => ((min (N n) (T n - 1) : ℕ) : ℝ) / N n) atTop (𝓝 (min 1 (1 / q))) := by
    have h1 : Tendsto (fun n => ((N n : ℝ) / T n)⁻¹ - (N n : ℝ)⁻¹) atTop (𝓝 (q⁻¹ - 0)) := (hr.inv₀ hq.ne').sub (tendsto_inv_atTop_zero.comp hNr)
    rw [sub_zero, ← one_div] at h1
    refine (tendsto_const_nhds.min h1).congr' ?_
    filter_upwards [hN.eventually_ge_atTop 1] with n hn
    have hN0 : (0 : ℝ) < N n := by exact_mod_cast hn
    have hT1 : ((T n - 1 : ℕ) : ℝ) = T n - 1 := by
      have := hT2 n
      rw [Nat.cast_sub (by omega), Nat.cast_one]
    have e1 : (1 : ℝ) = (N n : ℝ) / N n := (div_self hN0.ne').symm
    have e2 : ((N n : ℝ) / T n)⁻¹ - (N n : ℝ)⁻¹ = ((T n - 1 : ℕ) : ℝ) / N n := by
      rw [hT1, inv_div]
      field_simp
    rw [e2]
    nth_rewrite 1 [e1]
    rw [min_div_div_right hN0.le, Nat.cast_min]
  have ev : ∀ᶠ n in atTop, tail q a + g < ((min (N n) (T n - 1) : ℕ) : ℝ) / N n := hlim.eventually_const_lt (by rw [hg]; linarith)
  refine tendsto_of_tendsto_of_tendsto_of_le_of_le' tendsto_const_nhds hp (Eventually.of_forall fun _ => zero_le) ?_
  filter_upwards [ev] with n hn
  refine measure_mono fun ω hω => ?_
  rw [Set.mem_ofPred_eq] at hω ⊢
  have h1 : ((min (N n) (T n - 1) : ℕ) : ℝ) / N n ≤ (cnt (wantedMatrix (noise (Z n) (N n) (T n) ω) cov) a : ℝ) / N n := div_le_div_of_nonneg_right (by exact_mod_cast hω) (Nat.cast_nonneg _)
  refine le_trans ?_ (le_abs_self _)
  linarith

end Edge

namespace Props
open Gen EigValsM EigM Unfold MeasureTheory ProbabilityTheory Spec Gauss Helpers Inertia Semi
open Real Set Filter Topology
variable {σ Ω : Type} [MeasurableSpace Ω] {P : ℕ → Measure Ω} [∀ n, IsProbabilityMeasure (P n)]

/-- The positive parts of the spectra `vals n` begin at `e`: with a probability tending to 1, no positive value is at most `b`, for any `b < e`, and the smallest positive value is near `e`. -/
structure LowerEdge (P : ℕ → Measure Ω) (vals : ℕ → Ω → List ℝ) (e : ℝ) : Prop where
  /-- no positive value below the edge -/
  below : ∀ b < e, Tendsto (fun n => P n {ω | ∃ x ∈ vals n ω, 0 < x ∧ x ≤ b}) atTop (𝓝 0)
  /-- the smallest positive value -/
  smallest : ∀ ε > 0, Tendsto (fun n => P n {ω | ¬ ∃ m, IsSmallest ((vals n ω).filter (0 < ·)) m ∧ |m - e| < ε}) atTop (𝓝 0)

theorem smallest_of_mem (l : List ℝ) (x : ℝ) (hx : x ∈ l) : ∃ m, IsSmallest l m := by
  obtain ⟨a, ha, ha'⟩ := l.toFinset.exists_min_image id ⟨x, by simpa using hx⟩
  exact ⟨a, by simpa using ha, fun y hy => ha' y (by simpa using hy)⟩

/-- If as many values are above `b ≥ 0` as above 0, no positive value is at most `b`. -/
theorem none_between (l : List ℝ) (b : ℝ) (hb : 0 ≤ b) (h : countGT l 0 ≤ countGT l b) (x : ℝ) (hx : x ∈ l) (h0 : 0 < x) : b < x := by
  by_contra hc
  have h1 : countGT l b < countGT l 0 := by
    rw [countGT, countGT]
    have hsub : (l.filter fun y => decide (b < y)) = (l.filter fun y => decide (0 < y)).filter fun y => decide (b < y) := by
      rw [List.filter_filter]
      refine List.filter_congr fun y _ => ?_
      by_cases hy : b < y
      · simp [hy, hb.trans_lt hy]
      · simp [hy]
    rw [hsub]
    refine List.length_filter_lt_length_iff_exists.mpr ⟨x, List.mem_filter.mpr ⟨hx, decide_eq_true h0⟩, ?_⟩
    simpa using hc
  omega

/-- If fewer values are above `b ≥ 0` than above 0, some positive value is at most `b`. -/
theorem some_between (l : List ℝ) (b : ℝ) (h : countGT l b < countGT l 0) : ∃ x ∈ l, 0 < x ∧ x ≤ b := by
  by_contra hc
  push Not at hc
  have : countGT l 0 ≤ countGT l b := by
    rw [countGT, countGT, ← List.countP_eq_length_filter, ← List.countP_eq_length_filter]
    refine List.countP_mono_left fun x hx h0 => ?_
    exact decide_eq_true (hc x hx (of_decide_eq_true h0))
  omega

theorem lowerEdge (Z : ℕ → ℕ → Ω → ℝ) (hZ : ∀ n, NormalDraws (P n) (Z n)) (N T : ℕ → ℕ) (hT2 : ∀ n, 2 ≤ T n)
    (hN : Tendsto N atTop atTop) (hT : Tendsto T atTop atTop) (q : ℝ) (hq : 0 < q) (hr : Tendsto (fun n => (N n : ℝ) / T n) atTop (𝓝 q)) (cov : Bool) (vals : ℕ → Ω → List ℝ)
    (h : ∀ n, ∀ᵐ ω ∂(P n), ∀ a ≥ 0, countGT (vals n ω) a = cnt (wantedMatrix (noise (Z n) (N n) (T n) ω) cov) a) :
    LowerEdge P vals ((1 - √q) ^ 2) ∧ ((∀ n ω, (vals n ω).length ≤ N n) → q < 1 → ∀ b < (1 - √q) ^ 2, Tendsto (fun n => P n {ω | ∃ x ∈ vals n ω, x ≤ b}) atTop (𝓝 0)) := by
  have hall : ∀ n, ∀ᵐ ω ∂(P n), (∀ a ≥ 0, countGT (vals n ω) a = cnt (wantedMatrix (noise (Z n) (N n) (T n) ω) cov) a) ∧ cnt (wantedMatrix (noise (Z n) (N n) (T n) ω) cov) 0 = min (N n) (T n - 1) := by
    intro n
    filter_upwards [h n, noise_nonconstant (N := N n) (P n) (Z n) (hZ n) (hT2 n), ae_independent (N := N n) (P n) (Z n) (hZ n) (hT2 n)] with ω h1 h2 h3
    refine ⟨h1, ?_⟩
    rw [cnt_independent _ cov (hT2 n) fun _ => h2]
    exact h3
  have nul := ae_event (P := P) (fun n => {ω | ¬ ((∀ a ≥ 0, countGT (vals n ω) a = cnt (wantedMatrix (noise (Z n) (N n) (T n) ω) cov) a) ∧ cnt (wantedMatrix (noise (Z n) (N n) (T n) ω) cov) 0 = min (N n) (T n - 1))}) fun n => by
    filter_upwards [hall n] with ω hω
    exact not_not.mpr hω
  have hbelow : ∀ b < (1 - √q) ^ 2, Tendsto (fun n => P n {ω | ∃ x ∈ vals n ω, 0 < x ∧ x ≤ b}) atTop (𝓝 0) := by
    intro b hb
    rcases le_or_gt b 0 with hb0 | hb0
    · refine tendsto_const_nhds.congr fun n => ?_
      have : {ω | ∃ x ∈ vals n ω, 0 < x ∧ x ≤ b} = ∅ := by
        ext ω
        simp only [mem_ofPred_eq, mem_empty_iff_false, iff_false]
        rintro ⟨x, _, h1, h2⟩
        linarith
      rw [this, measure_empty]
    have t := nul.add (Edge.wanted_low Z hZ N T hT2 hN hT q hq hr cov b hb0 hb)
    rw [add_zero] at t
    refine tendsto_of_tendsto_of_tendsto_of_le_of_le tendsto_const_nhds t (fun _ => zero_le) fun n => (measure_mono fun ω hω => ?_).trans (measure_union_le _ _)
    obtain ⟨x, hx, hx0, hle⟩ := hω
    by_contra hcon
    simp only [mem_union, not_or, mem_ofPred_eq, not_not, not_lt] at hcon
    obtain ⟨⟨g1, g2⟩, g3⟩ := hcon
    have h1 := g1 b hb0.le
    have h2 := g1 0 le_rfl
    exact absurd hle (not_le.mpr (none_between _ b hb0.le (by omega) x hx hx0))
  refine ⟨⟨hbelow, fun ε hε => ?_⟩, fun hlen hq1 b hb => ?_⟩
  · have t := (nul.add (Edge.near_lower Z hZ N T hT2 hN hT q hq hr cov ((1 - √q) ^ 2 + ε / 2) (by linarith))).add (hbelow ((1 - √q) ^ 2 - ε) (by linarith))
    rw [add_zero, add_zero] at t
    refine tendsto_of_tendsto_of_tendsto_of_le_of_le tendsto_const_nhds t (fun _ => zero_le) fun n => (measure_mono fun ω hω => ?_).trans ((measure_union_le _ _).trans (add_le_add_left (measure_union_le _ _) _))
    by_contra hcon
    simp only [mem_union, not_or, mem_ofPred_eq, not_not, not_le] at hcon hω
    obtain ⟨⟨⟨g1, g2⟩, g3⟩, g4⟩ := hcon
    push Not at g4 hω
    have h1 := g1 ((1 - √q) ^ 2 + ε / 2) (by positivity)
    have h2 := g1 0 le_rfl
    obtain ⟨x, hx, hx0, hle⟩ := some_between (vals n ω) ((1 - √q) ^ 2 + ε / 2) (by omega)
    have hxf : x ∈ (vals n ω).filter (0 < ·) := List.mem_filter.mpr ⟨hx, decide_eq_true hx0⟩
    obtain ⟨m, hm⟩ := smallest_of_mem _ x hxf
    refine absurd (hω m hm) (not_le.mpr ?_)
    obtain ⟨hm1, hm2⟩ := List.mem_filter.mp hm.1
    have b1 := hm.2 x hxf
    have b2 := g4 m hm1 (of_decide_eq_true hm2)
    exact abs_lt.mpr ⟨by linarith, by linarith⟩
  · have hs1 : √q < 1 := by rw [sqrt_lt' one_pos]; simpa using hq1
    have he : 0 < (1 - √q) ^ 2 := by
      have : 0 < 1 - √q := by linarith
      positivity
    set c := max b ((1 - √q) ^ 2 / 2) with hc
    have hc0 : 0 < c := lt_max_of_lt_right (by positivity)
    have hce : c < (1 - √q) ^ 2 := max_lt hb (by linarith)
    have t := nul.add (Edge.wanted_low Z hZ N T hT2 hN hT q hq hr cov c hc0 hce)
    rw [add_zero] at t
    have ev : ∀ᶠ n in atTop, (N n : ℝ) / T n + (T n : ℝ)⁻¹ < 1 := by
      have := hr.add (tendsto_inv_atTop_zero.comp (tendsto_natCast_atTop_atTop.comp hT))
      rw [add_zero] at this
      exact this.eventually_lt_const hq1
    refine tendsto_of_tendsto_of_tendsto_of_le_of_le' tendsto_const_nhds t (Eventually.of_forall fun _ => zero_le) ?_
    filter_upwards [ev] with n hn
    refine (measure_mono fun ω hω => ?_).trans (measure_union_le _ _)
    obtain ⟨x, hx, hle⟩ := hω
    by_contra hcon
    simp only [mem_union, not_or, mem_ofPred_eq, not_not, not_lt] at hcon
    obtain ⟨⟨g1, g2⟩, g3⟩ := hcon
    have hT0 : (0 : ℝ) < T n := by
      have := hT2 n
      exact_mod_cast (by omega : 0 < T n)
    have hNT : N n ≤ T n - 1 := by
      have h1 : (N n : ℝ) + 1 < T n := by
        have e : (N n : ℝ) / T n + (T n : ℝ)⁻¹ = (N n + 1) / T n := by
          field_simp
        rw [e, div_lt_one hT0] at hn
        exact hn
      have : N n + 1 < T n := by exact_mod_cast h1
      omega
    rw [min_eq_left hNT] at g3
    have h1 := g1 c hc0.le
    have h2 := hlen n ω
    have h3 : countGT (vals n ω) c < (vals n ω).length := by
      rw [countGT]
      refine List.length_filter_lt_length_iff_exists.mpr ⟨x, hx, ?_⟩
      have : x ≤ c := hle.trans (le_max_left _ _)
      simpa using this
    omega

/-- **C188.** Let `from_time_series` be called, with covariances or correlations, trimmed or not, on `N` series of `T` independent standard normal samples, `N` and `T` growing so that `N / T` tends
to `q > 0`. Then with a probability tending to 1 no positive value it returns is at most any number below `(1 - √q)²`, and the smallest positive value is near `(1 - √q)²`: the lower edge of the
Marchenko-Pastur density is where the positive spectrum of noise begins. With fewer series than samples (`q < 1`) this holds for all the values, none being zero. -/
theorem C188_noise (eigvalsh : EigSolver) (hs : ExactSolver eigvalsh) (float : String → Option ℝ) (Z : ℕ → ℕ → Ω → ℝ) (hZ : ∀ n, NormalDraws (P n) (Z n)) (N T : ℕ → ℕ)
    (hT2 : ∀ n, 2 ≤ T n) (hN : Tendsto N atTop atTop) (hT : Tendsto T atTop atTop) (q : ℝ) (hq : 0 < q) (hr : Tendsto (fun n => (N n : ℝ) / T n) atTop (𝓝 q))
    (cov tr : Bool) (s : ℕ → Ω → SeriesEigs)
    (h : ∀ n, ∀ᵐ ω ∂(P n), fromTimeSeries eigvalsh float (.dim2 (N n) (T n) (noise (Z n) (N n) (T n) ω)) cov tr (.str "negative") 1 = .ok (s n ω)) :
    LowerEdge P (fun n ω => (s n ω).obj.vals) ((1 - √q) ^ 2) ∧
    (q < 1 → ∀ b < (1 - √q) ^ 2, Tendsto (fun n => P n {ω | ∃ x ∈ (s n ω).obj.vals, x ≤ b}) atTop (𝓝 0)) := by
  classical
  -- the values, cut to nothing where the call does not return
  let vals : ℕ → Ω → List ℝ := fun n ω => if (s n ω).obj.vals.length ≤ N n then (s n ω).obj.vals else []
  have hlen : ∀ n ω, (vals n ω).length ≤ N n := by
    intro n ω
    by_cases hc : (s n ω).obj.vals.length ≤ N n
    · simp only [vals, if_pos hc]
      exact hc
    · simp only [vals, if_neg hc]
      simp
  have heq : ∀ n, ∀ᵐ ω ∂(P n), vals n ω = (s n ω).obj.vals := by
    intro n
    filter_upwards [noise_nonconstant (N := N n) (P n) (Z n) (hZ n) (hT2 n), h n] with ω h1 h2
    have h3 := C164_at_most eigvalsh hs float _ cov (hT2 n) (fun _ => h1) tr _ h2
    have h4 : (s n ω).obj.vals.length ≤ N n := by
      cases tr
      · rw [(h3.2.2 rfl).1]
        exact min_le_left _ _
      · exact (h3.2.1 rfl).trans (min_le_left _ _)
    simp only [vals, if_pos h4]
  have hcount : ∀ n, ∀ᵐ ω ∂(P n), ∀ a ≥ 0, countGT (vals n ω) a = cnt (wantedMatrix (noise (Z n) (N n) (T n) ω) cov) a := by
    intro n
    filter_upwards [noise_nonconstant (N := N n) (P n) (Z n) (hZ n) (hT2 n), h n, heq n] with ω h1 h2 h3 a ha
    rw [h3]
    exact series_count eigvalsh hs float _ cov (hT2 n) (fun _ => h1) tr _ h2 a ha
  obtain ⟨⟨k1, k2⟩, k3⟩ := lowerEdge Z hZ N T hT2 hN hT q hq hr cov vals hcount
  have hsame : ∀ (S : List ℝ → Prop) n, P n {ω | S (vals n ω)} = P n {ω | S (s n ω).obj.vals} := fun S n => measure_congr ((heq n).mono fun ω hω => by
    change S (vals n ω) = S (s n ω).obj.vals
    rw [hω])
  exact ⟨⟨fun b hb => (k1 b hb).congr fun n => hsame (fun l => ∃ x ∈ l, 0 < x ∧ x ≤ b) n, fun ε hε => (k2 ε hε).congr fun n => hsame (fun l => ¬ ∃ m, IsSmallest (l.filter (0 < ·)) m ∧ |m - (1 - √q) ^ 2| < ε) n⟩,
    fun hq1 b hb => (k3 hlen hq1 b hb).congr fun n => hsame (fun l => ∃ x ∈ l, x ≤ b) n⟩

/-- **C188 (time_series_eigs).** The same for `time_series_eigs(n, t)`. -/
theorem C188_time_series (R : Rng σ) (eigvalsh : EigSolver) (hs : ExactSolver eigvalsh) (s : ℕ → Ω → σ) (hX : ∀ n, NormalDraws (P n) fun k ω => draw R (s n ω) k) (N T : ℕ → ℕ)
    (hN2 : ∀ n, 2 ≤ N n) (hT2 : ∀ n, 2 ≤ T n) (hN : Tendsto N atTop atTop) (hT : Tendsto T atTop atTop) (q : ℝ) (hq : 0 < q) (hr : Tendsto (fun n => (N n : ℝ) / T n) atTop (𝓝 q)) :
    ∃ vals : ℕ → Ω → List ℝ, (∀ n ω, (timeSeriesEigs R eigvalsh (N n) (T n) "normal" (s n ω)).1 = .ok (vals n ω)) ∧ LowerEdge P vals ((1 - √q) ^ 2) ∧
      (q < 1 → ∀ b < (1 - √q) ^ 2, Tendsto (fun n => P n {ω | ∃ x ∈ vals n ω, x ≤ b}) atTop (𝓝 0)) := by
  set Z : ℕ → ℕ → Ω → ℝ := fun n k ω => draw R (s n ω) k with hZdef
  have hdata : ∀ n ω, (fun (i : Fin (N n)) (j : Fin (T n)) => (normals R (N n * T n) (s n ω)).1.getD (i.val * T n + j.val) 0 : Matrix (Fin (N n)) (Fin (T n)) ℝ) = noise (Z n) (N n) (T n) ω := by
    intro n ω
    funext i j
    have hlt : i.val * T n + j.val < N n * T n := by
      have := i.isLt
      have := j.isLt
      nlinarith
    rw [normals_draws]
    simp [noise, Z, List.getD, hlt]
  have hroots : ∀ n ω, (eigvalsh (N n) (correlateFast (noise (Z n) (N n) (T n) ω) 0) : Multiset ℝ) = (corrMatrix (noise (Z n) (N n) (T n) ω)).charpoly.roots := fun n ω => by
    have := hT2 n
    rw [correlateFast_eq _ 0 (by omega), hs _ _ (corrMatrix_isSymm _)]
  refine ⟨fun n ω => eigvalsh (N n) (correlateFast (noise (Z n) (N n) (T n) ω) 0), fun n ω => ?_, ?_⟩
  · have := hN2 n
    simp only [timeSeriesEigs, if_true, hdata, if_neg (show N n ≠ 1 by omega)]
  · have key := lowerEdge Z hX N T hT2 hN hT q hq hr false (fun n ω => eigvalsh (N n) (correlateFast (noise (Z n) (N n) (T n) ω) 0)) fun n => Eventually.of_forall fun ω a ha => by
      rw [countGT_eq, hroots, cnt]
      simp [wantedMatrix]
    refine ⟨key.1, key.2 fun n ω => ?_⟩
    have h1 := congrArg Multiset.card (hroots n ω)
    rw [Multiset.coe_card] at h1
    rw [h1]
    refine (Polynomial.card_roots' _).trans ?_
    rw [Matrix.charpoly_natDegree_eq_dim, Fintype.card_fin]

/-- **C188 (covariances, rate).** With covariances, the probability that some positive value is at most `b < (1 - √q)²` decays exponentially with the number of series. -/
theorem C188_rate (eigvalsh : EigSolver) (hs : ExactSolver eigvalsh) (float : String → Option ℝ) (Z : ℕ → ℕ → Ω → ℝ) (hZ : ∀ n, NormalDraws (P n) (Z n)) (N T : ℕ → ℕ)
    (hT2 : ∀ n, 2 ≤ T n) (hN : Tendsto N atTop atTop) (hT : Tendsto T atTop atTop) (q : ℝ) (hq : 0 < q) (hr : Tendsto (fun n => (N n : ℝ) / T n) atTop (𝓝 q))
    (tr : Bool) (s : ℕ → Ω → SeriesEigs)
    (h : ∀ n, ∀ᵐ ω ∂(P n), fromTimeSeries eigvalsh float (.dim2 (N n) (T n) (noise (Z n) (N n) (T n) ω)) true tr (.str "negative") 1 = .ok (s n ω)) (b : ℝ) (hb : b < (1 - √q) ^ 2) :
    ∃ r : ℝ, 0 < r ∧ r < 1 ∧ ∀ᶠ n : ℕ in atTop, P n {ω | ∃ x ∈ (s n ω).obj.vals, 0 < x ∧ x ≤ b} ≤ ENNReal.ofReal (r ^ N n) := by
  rcases lt_or_ge b 0 with hb0 | hb0
  · refine ⟨1 / 2, by norm_num, by norm_num, Eventually.of_forall fun n => ?_⟩
    have : {ω | ∃ x ∈ (s n ω).obj.vals, 0 < x ∧ x ≤ b} = ∅ := by
      ext ω
      simp only [mem_ofPred_eq, mem_empty_iff_false, iff_false]
      rintro ⟨x, _, h1, h2⟩
      linarith
    rw [this, measure_empty]
    exact zero_le
  obtain ⟨r, h0, h1, hle⟩ := Edge.cov_low Z hZ N T hT2 hN hT q hq hr b hb0 hb
  refine ⟨r, h0, h1, hle.mono fun n hn => (measure_mono_ae ?_).trans hn⟩
  filter_upwards [noise_nonconstant (N := N n) (P n) (Z n) (hZ n) (hT2 n), ae_independent (N := N n) (P n) (Z n) (hZ n) (hT2 n), h n] with ω g1 gi g2
  rintro ⟨x, hx, hx0, hlt⟩
  have hc := series_count eigvalsh hs float _ true (hT2 n) (fun _ => g1) tr _ g2
  have hc0 := cnt_independent (noise (Z n) (N n) (T n) ω) true (hT2 n) fun _ => g1
  have hb1 := hc b hb0
  have hb2 := hc 0 le_rfl
  change cnt (covMatrix (noise (Z n) (N n) (T n) ω)) b < min (N n) (T n - 1)
  by_contra hcon
  rw [not_lt] at hcon
  have hgi : independentSeries (noise (Z n) (N n) (T n) ω) = min (N n) (T n - 1) := gi
  have hw : wantedMatrix (noise (Z n) (N n) (T n) ω) true = covMatrix (noise (Z n) (N n) (T n) ω) := by simp [wantedMatrix]
  rw [hw] at hb1 hb2 hc0
  exact absurd hlt (not_le.mpr (none_between _ b hb0 (by omega) x hx hx0))

/-- **C188 (trimming).** Under the hypotheses of C188, let `trim_marchenko_pastur` with `largest=False` be called on the object `from_time_series` returned, without sizes, shifted or not. With a
probability tending to 1, every positive value it discards is within `ε` of one of the two cut points it reports: of noise, nothing in the bulk is lost and nothing lies outside it. -/
theorem C188_trim (eigvalsh : EigSolver) (hs : ExactSolver eigvalsh) (float : String → Option ℝ) (Z : ℕ → ℕ → Ω → ℝ) (hZ : ∀ n, NormalDraws (P n) (Z n)) (N T : ℕ → ℕ)
    (hN2 : ∀ n, 2 ≤ N n) (hT2 : ∀ n, 2 ≤ T n) (hN : Tendsto N atTop atTop) (hT : Tendsto T atTop atTop) (q : ℝ) (hq : 0 < q) (hr : Tendsto (fun n => (N n : ℝ) / T n) atTop (𝓝 q))
    (cov tr : Bool) (s : ℕ → Ω → SeriesEigs)
    (h : ∀ n, ∀ᵐ ω ∂(P n), fromTimeSeries eigvalsh float (.dim2 (N n) (T n) (noise (Z n) (N n) (T n) ω)) cov tr (.str "negative") 1 = .ok (s n ω)) (shifted : Bool)
    (r : ℕ → Ω → Obj ℝ × ℝ × ℝ) (hr' : ∀ n, ∀ᵐ ω ∂(P n), trimMarchenkoPastur (some (s n ω).seriesN) (some (s n ω).seriesT) (s n ω).obj.vals none none false shifted = .ok (r n ω)) (ε : ℝ) (hε : 0 < ε) :
    Tendsto (fun n => P n {ω | ∃ v ∈ (s n ω).obj.vals, 0 < v ∧ v ∉ (r n ω).1.vals ∧ ε ≤ |v - (r n ω).2.1| ∧ ε ≤ |v - (r n ω).2.2|}) atTop (𝓝 0) := by
  obtain ⟨hlo, hhi, -⟩ := C185_trim eigvalsh hs float Z hZ N T hN2 hT2 hN hT q hq hr cov tr s h false shifted r hr'
  have key := trim_call eigvalsh hs float Z hZ N T hT2 cov tr s h false shifted
  have nul := ae_event (P := P) (fun n => {ω | ¬ ((r n ω).1.vals = (s n ω).obj.vals.filter fun v => decide ((r n ω).2.1 < v ∧ v < (r n ω).2.2))}) fun n => by
    filter_upwards [key n, hr' n] with ω h1 h2
    obtain ⟨-, m, -, -, o, lo, hi, h4, -, -, -, h7⟩ := h1
    rw [h4] at h2
    rw [← Except.ok.inj h2]
    exact not_not.mpr (h7 rfl)
  have hb := (C185_noise eigvalsh hs float Z hZ N T hT2 hN hT q hq hr cov tr s h).beyond ((1 + √q) ^ 2 + ε / 2) (by linarith)
  have hl := (C188_noise eigvalsh hs float Z hZ N T hT2 hN hT q hq hr cov tr s h).1.below ((1 - √q) ^ 2 - ε / 2) (by linarith)
  have t := (nul.add (hlo (ε / 2) (by linarith))).add ((hhi (ε / 2) (by linarith)).add (hb.add hl))
  simp only [add_zero] at t
  refine tendsto_of_tendsto_of_tendsto_of_le_of_le tendsto_const_nhds t (fun _ => zero_le) fun n => ?_
  refine (measure_mono fun ω hω => ?_).trans ((measure_union_le _ _).trans (add_le_add (measure_union_le _ _) ((measure_union_le _ _).trans (add_le_add_right (measure_union_le _ _) _))))
  obtain ⟨v, hv, hv0, hvn, d1, d2⟩ := hω
  by_contra hcon
  simp only [mem_union, not_or, mem_ofPred_eq, not_not, not_le] at hcon
  obtain ⟨⟨g1, g2⟩, g3, g4, g5⟩ := hcon
  push Not at g4 g5
  have h2 := abs_lt.mp g2
  have h3 := abs_lt.mp g3
  have b1 := g4 v hv
  have b2 := g5 v hv hv0
  rw [g1, List.mem_filter] at hvn
  refine hvn ⟨hv, decide_eq_true ⟨?_, ?_⟩⟩
  · by_contra hc
    rw [abs_of_nonpos (by linarith)] at d1
    linarith [h2.1, h2.2]
  · by_contra hc
    rw [abs_of_nonneg (by linarith)] at d2
    linarith [h3.1, h3.2]

/-- **C188 (computed).** With fewer series than samples (`q < 1`) C188 does not need an exact eigenvalue routine: let it be backward stable with a relative error `c n` on `n × n` matrices such that
`c n √n` tends to 0. Then with a probability tending to 1 no computed value is at most any number below `(1 - √q)²`, and the smallest one is near `(1 - √q)²`, for covariances and for correlations, trimmed or not. -/
theorem C188_computed (eigvalsh : EigSolver) (δ : (n : ℕ) → Matrix (Fin n) (Fin n) ℝ → ℝ) (hs : BackwardStable eigvalsh δ)
    (c : ℕ → ℝ) (hδ : RelativeError δ c) (hc : Tendsto (fun n : ℕ => c n * √n) atTop (𝓝 0)) (float : String → Option ℝ) (Z : ℕ → ℕ → Ω → ℝ) (hZ : ∀ n, NormalDraws (P n) (Z n)) (N T : ℕ → ℕ)
    (hN2 : ∀ n, 2 ≤ N n) (hT2 : ∀ n, 2 ≤ T n) (hN : Tendsto N atTop atTop) (hT : Tendsto T atTop atTop) (q : ℝ) (hq : 0 < q) (hq1 : q < 1) (hr : Tendsto (fun n => (N n : ℝ) / T n) atTop (𝓝 q))
    (cov tr : Bool) (s : ℕ → Ω → SeriesEigs)
    (h : ∀ n, ∀ᵐ ω ∂(P n), fromTimeSeries eigvalsh float (.dim2 (N n) (T n) (noise (Z n) (N n) (T n) ω)) cov tr (.str "negative") 1 = .ok (s n ω)) :
    (∀ b < (1 - √q) ^ 2, Tendsto (fun n => P n {ω | ∃ x ∈ (s n ω).obj.vals, x ≤ b}) atTop (𝓝 0)) ∧
    ∀ ε > 0, Tendsto (fun n => P n {ω | ¬ ∃ m, IsSmallest (s n ω).obj.vals m ∧ |m - (1 - √q) ^ 2| < ε}) atTop (𝓝 0) := by
  have hs1 : √q < 1 := by rw [sqrt_lt' one_pos]; simpa using hq1
  set e := (1 - √q) ^ 2 with he
  have he0 : 0 < e := by
    have : 0 < 1 - √q := by linarith
    rw [he]
    positivity
  have ev : ∀ᶠ n in atTop, N n ≤ T n - 1 := by
    have h1 := hr.add (tendsto_inv_atTop_zero.comp (tendsto_natCast_atTop_atTop.comp hT))
    rw [add_zero] at h1
    filter_upwards [h1.eventually_lt_const hq1] with n hn
    have hT0 : (0 : ℝ) < T n := by
      have := hT2 n
      exact_mod_cast (by omega : 0 < T n)
    have e1 : (N n : ℝ) / T n + (T n : ℝ)⁻¹ = (N n + 1) / T n := by field_simp
    have h2 : (N n : ℝ) / T n + (T n : ℝ)⁻¹ < 1 := hn
    rw [e1, div_lt_one hT0] at h2
    have : N n + 1 < T n := by exact_mod_cast h2
    omega
  -- with high probability the counts are those of the exact matrix, up to a shift
  have near : ∀ a η : ℝ, 0 < η → η < a → Tendsto (fun n => P n {ω | ¬ (cnt (wantedMatrix (noise (Z n) (N n) (T n) ω) cov) (a + η) ≤ countGT (s n ω).obj.vals a ∧
      countGT (s n ω).obj.vals a ≤ cnt (wantedMatrix (noise (Z n) (N n) (T n) ω) cov) (a - η) ∧ (s n ω).obj.vals.length ≤ N n)}) atTop (𝓝 0) := by
    intro a η hη ha
    refine tendsto_of_tendsto_of_tendsto_of_le_of_le tendsto_const_nhds (series_error_small P δ c hδ hc Z hZ N T hN2 hT2 hN hT q hr cov η hη) (fun _ => zero_le) fun n => measure_mono_ae ?_
    filter_upwards [noise_nonconstant (N := N n) (P n) (Z n) (hZ n) (hT2 n), h n] with ω h1 h2 hω
    by_contra hcon
    have hle : seriesError δ (noise (Z n) (N n) (T n) ω) cov ≤ η := not_lt.mp hcon
    have hw := series_within eigvalsh δ hs float _ cov (hT2 n) (fun _ => h1) tr _ h2 a (by linarith) (by linarith)
    exact hω ⟨(cnt_anti _ (by linarith)).trans hw.1, hw.2.trans (cnt_anti _ (by linarith)), (series_length_le eigvalsh δ hs float _ cov (hT2 n) (fun _ => h1) tr _ h2).trans (min_le_left _ _)⟩
  have hbelow : ∀ b < e, Tendsto (fun n => P n {ω | ∃ x ∈ (s n ω).obj.vals, x ≤ b}) atTop (𝓝 0) := by
    intro b hb
    set a := max b (e / 2) with ha
    have ha0 : 0 < a := lt_max_of_lt_right (by positivity)
    have hae : a < e := max_lt hb (by linarith)
    set η := min ((e - a) / 2) (a / 2) with hη
    have hη0 : 0 < η := lt_min (by linarith) (by linarith)
    have hη1 : η ≤ (e - a) / 2 := min_le_left _ _
    have hη2 : η ≤ a / 2 := min_le_right _ _
    have t := (near a η hη0 (by linarith)).add (Edge.wanted_low Z hZ N T hT2 hN hT q hq hr cov (a + η) (by linarith) (by rw [← he]; linarith))
    rw [add_zero] at t
    refine tendsto_of_tendsto_of_tendsto_of_le_of_le' tendsto_const_nhds t (Eventually.of_forall fun _ => zero_le) ?_
    filter_upwards [ev] with n hn
    refine (measure_mono fun ω hω => ?_).trans (measure_union_le _ _)
    obtain ⟨x, hx, hle⟩ := hω
    by_contra hcon
    simp only [mem_union, not_or, mem_ofPred_eq, not_not, not_lt] at hcon
    obtain ⟨⟨g1, g2, g4⟩, g3⟩ := hcon
    rw [min_eq_left hn] at g3
    have h3 : countGT (s n ω).obj.vals a < (s n ω).obj.vals.length := by
      rw [countGT]
      refine List.length_filter_lt_length_iff_exists.mpr ⟨x, hx, ?_⟩
      have : x ≤ a := hle.trans (le_max_left _ _)
      simpa using this
    omega
  refine ⟨hbelow, fun ε hε => ?_⟩
  set η := min (ε / 4) (e / 4) with hη
  have hη0 : 0 < η := lt_min (by linarith) (by linarith)
  have hη1 : η ≤ ε / 4 := min_le_left _ _
  have hη2 : η ≤ e / 4 := min_le_right _ _
  have t := ((near (e + 2 * η) η hη0 (by linarith)).add (Edge.near_lower Z hZ N T hT2 hN hT q hq hr cov (e + 2 * η - η) (by rw [← he]; linarith))).add
    (((near (e - 2 * η) η hη0 (by linarith)).add (Edge.wanted_low Z hZ N T hT2 hN hT q hq hr cov (e - 2 * η + η) (by linarith) (by rw [← he]; linarith))).add (hbelow (e - ε) (by linarith)))
  simp only [add_zero] at t
  refine tendsto_of_tendsto_of_tendsto_of_le_of_le' tendsto_const_nhds t (Eventually.of_forall fun _ => zero_le) ?_
  filter_upwards [ev] with n hn
  refine (measure_mono fun ω hω => ?_).trans ((measure_union_le _ _).trans (add_le_add (measure_union_le _ _) ((measure_union_le _ _).trans (add_le_add_left (measure_union_le _ _) _))))
  by_contra hcon
  simp only [mem_union, not_or, mem_ofPred_eq, not_not, not_le, not_lt] at hcon hω
  obtain ⟨⟨⟨-, g2, -⟩, g3⟩, ⟨⟨g4, -, -⟩, g5⟩, g6⟩ := hcon
  push Not at g6 hω
  rw [min_eq_left hn] at g3 g5
  have hcount : ∀ b, countGT (s n ω).obj.vals b ≤ (s n ω).obj.vals.length := fun b => List.length_filter_le _ _
  have h1 := hcount (e - 2 * η)
  have h2 : countGT (s n ω).obj.vals (e + 2 * η) < (s n ω).obj.vals.length := by omega
  rw [countGT, List.length_filter_lt_length_iff_exists] at h2
  obtain ⟨x, hx, hle⟩ := h2
  have hle' : x ≤ e + 2 * η := by simpa using hle
  obtain ⟨m, hm⟩ := smallest_of_mem _ x hx
  refine absurd (hω m hm) (not_le.mpr ?_)
  have b1 := hm.2 x hx
  have b2 := g6 m hm.1
  exact abs_lt.mpr ⟨by linarith, by linarith⟩

-- C188: a quarter as many series as time points; the smallest eigenvalue tends to 1/4
example : ∃ (ev : EigSolver) (s : ℕ → (ℕ → ℝ) → SeriesEigs), ExactSolver ev ∧
    (∀ n, ∀ᵐ ω ∂(Measure.infinitePi fun _ : ℕ => gaussianReal 0 1), fromTimeSeries ev (fun _ => none) (.dim2 (n + 2) (4 * (n + 2)) (noise (fun k (ω : ℕ → ℝ) => draw streamRng ω k) (n + 2) (4 * (n + 2)) ω)) false true (.str "negative") 1 = .ok (s n ω)) ∧
    LowerEdge (fun _ => Measure.infinitePi fun _ : ℕ => gaussianReal 0 1) (fun n ω => (s n ω).obj.vals) (1 / 4) := by
  have hs : ExactSolver fun _ M => M.charpoly.roots.toList := fun _ _ _ => Multiset.coe_toList _
  set ev : EigSolver := fun _ M => M.charpoly.roots.toList
  have hZ := stream_draws
  have hex := fun n : ℕ => (C146_noise (Measure.infinitePi fun _ : ℕ => gaussianReal 0 1) _ ev hs (fun _ => none) hZ (show 2 ≤ n + 2 by omega) (show 2 ≤ 4 * (n + 2) by omega) false true).1
  classical
  let s : ℕ → (ℕ → ℝ) → SeriesEigs := fun n ω =>
    if h : ∃ s, fromTimeSeries ev (fun _ => none) (.dim2 (n + 2) (4 * (n + 2)) (noise (fun k (ω : ℕ → ℝ) => draw streamRng ω k) (n + 2) (4 * (n + 2)) ω)) false true (.str "negative") 1 = .ok s then h.choose
    else ⟨⟨[], [], none⟩, 0, 0, (0, 0), (0, 0)⟩
  have h : ∀ n, ∀ᵐ ω ∂(Measure.infinitePi fun _ : ℕ => gaussianReal 0 1),
      fromTimeSeries ev (fun _ => none) (.dim2 (n + 2) (4 * (n + 2)) (noise (fun k (ω : ℕ → ℝ) => draw streamRng ω k) (n + 2) (4 * (n + 2)) ω)) false true (.str "negative") 1 = .ok (s n ω) := by
    intro n
    filter_upwards [hex n] with ω hω
    simp only [s, dif_pos hω]
    exact hω.choose_spec
  have hN : Tendsto (fun n : ℕ => n + 2) atTop atTop := tendsto_add_atTop_nat 2
  have hT : Tendsto (fun n : ℕ => 4 * (n + 2)) atTop atTop := tendsto_atTop_mono (fun n => by omega) hN
  have hr : Tendsto (fun n : ℕ => ((n + 2 : ℕ) : ℝ) / ((4 * (n + 2) : ℕ) : ℝ)) atTop (𝓝 (1 / 4)) := tendsto_const_nhds.congr fun n => by
    push_cast
    have : (n : ℝ) + 2 ≠ 0 := by positivity
    field_simp
  refine ⟨ev, s, hs, h, ?_⟩
  have := (C188_noise (P := fun _ => Measure.infinitePi fun _ : ℕ => gaussianReal 0 1) ev hs (fun _ => none) (fun _ k (ω : ℕ → ℝ) => draw streamRng ω k) (fun _ => hZ) (fun n => n + 2) (fun n => 4 * (n + 2))
    (fun n => by omega) hN hT (1 / 4) (by norm_num) hr false true s h).1
  have e : (1 - √(1 / 4 : ℝ)) ^ 2 = 1 / 4 := by
    rw [show (1 / 4 : ℝ) = (1 / 2) ^ 2 by norm_num, sqrt_sq (by norm_num)]
    norm_num
  rwa [e] at this

end Props
end RMT
