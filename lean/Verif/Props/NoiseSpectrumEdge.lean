import Verif.Lemmas.NoiseEdge
import Verif.Props.MarchenkoPastur
import Verif.Spec.Extremes

/-! # C185: where spectra of noise end -/

namespace RMT
namespace Edge
open MeasureTheory ProbabilityTheory Real Spec Filter Topology Gen EigM Props Gauss Gauss.Wishart EigValsM Inertia Semi

theorem decay (ρ c : ℝ) (h0 : 0 < ρ) (h1 : ρ < 1) (hc : 0 < c) : ∀ᶠ n : ℕ in atTop, (n : ℝ) ^ 2 * ρ ^ ⌊c * n⌋₊ ≤ (ρ ^ (c / 2)) ^ n := by
  have hs1 : ρ ^ (c / 2) < 1 := rpow_lt_one h0.le h1 (by positivity)
  have hs0 : 0 < ρ ^ (c / 2) := rpow_pos_of_pos h0 _
  set r := ρ ^ (c / 2) with hr
  have hlim := (tendsto_pow_const_mul_const_pow_of_abs_lt_one 2 (show |r| < 1 by rwa [abs_of_pos hs0])).eventually_lt_const (show (0 : ℝ) < ρ by exact h0)
  filter_upwards [hlim] with n hl
  have hf := Nat.lt_floor_add_one (c * n)
  have h2 : ρ ^ ⌊c * n⌋₊ ≤ ρ ^ (c * n - 1) := by
    rw [← rpow_natCast]
    exact rpow_le_rpow_of_exponent_ge h0 h1.le (by linarith)
  have h3 : ρ ^ (c * n - 1) = r ^ n * r ^ n / ρ := by
    rw [rpow_sub_one h0.ne', hr, ← rpow_natCast, ← rpow_mul h0.le, ← rpow_add h0]
    congr 2
    ring
  rw [h3] at h2
  have h4 : (n : ℝ) ^ 2 * ρ ^ ⌊c * n⌋₊ ≤ n ^ 2 * (r ^ n * r ^ n / ρ) := mul_le_mul_of_nonneg_left h2 (by positivity)
  refine h4.trans ?_
  have h5 : (n : ℝ) ^ 2 * (r ^ n * r ^ n / ρ) = (n ^ 2 * r ^ n / ρ) * r ^ n := by ring
  rw [h5]
  refine mul_le_of_le_one_left (by positivity) ?_
  rw [div_le_one h0]
  exact hl.le

variable {Ω : Type} [MeasurableSpace Ω]

/-- A large eigenvalue of a covariance matrix makes the sum of the powers large. -/
theorem above_le (P : Measure Ω) [IsProbabilityMeasure P] (Z : ℕ → Ω → ℝ) (hZ : NormalDraws P Z) (N T k : ℕ) (hk : 1 ≤ k) (hN : 0 < N) (hT : 2 ≤ T) (η : ℝ) (hη : 0 < η)
    (kN : 2 * (k : ℝ) ≤ η * N) (kT : 2 * (k : ℝ) ≤ η * T) (b : ℝ) (hb : 0 < b) :
    P {ω | ∃ x ∈ covLevels Z N T ω, b ≤ x} ≤ ENNReal.ofReal ((N : ℝ) ^ 2 * ((1 + η) * (√N + √T) ^ 2 / (((T : ℝ) - 1) * b)) ^ k) := by
  have hT1 : 1 ≤ T := by omega
  have hT' : (2 : ℝ) ≤ T := by exact_mod_cast hT
  have hτ : (0 : ℝ) < T - 1 := by linarith
  obtain ⟨-, -, f3⟩ := covLevels_facts Z hZ.measurable N T hT1
  have hint : Integrable (fun ω => SpectrumM.powSum k (covLevels Z N T ω)) P := by
    simp only [f3]
    exact (integrable_ptW Z hZ _).div_const _
  have hM : ∫ ω, SpectrumM.powSum k (covLevels Z N T ω) ∂P ≤ N * (N * ((1 + η) * (√N + √T) ^ 2) ^ k) / ((T : ℝ) - 1) ^ k := by
    simp only [f3]
    rw [integral_div, integral_ptW Z hZ]
    refine div_le_div_of_nonneg_right ?_ (by positivity)
    have e : ex (ts N (ctr T) k) = Wishart.W N (ctr T) [k] := by simp [Wishart.W, pw]
    rw [e]
    refine (W_mono N T (ctr_symm T) (ctr_sq hT1) (Matrix.transpose_one) (Matrix.one_mul 1) ?_ ?_ [k]).2.trans (noise_moment N T k hk hN (by omega) η hη kN kT)
    · rw [ctr_trace hT1]
      exact hτ.le
    · rw [ctr_trace hT1, Matrix.trace_one, Fintype.card_fin]
      linarith
  have hnn : ∀ ω, 0 ≤ SpectrumM.powSum k (covLevels Z N T ω) := fun ω => List.sum_nonneg (by
    intro x hx
    obtain ⟨y, hy, rfl⟩ := List.mem_map.mp hx
    exact pow_nonneg (covLevels_nonneg Z N T hT ω y hy) k)
  have hsub : {ω | ∃ x ∈ covLevels Z N T ω, b ≤ x} ⊆ {ω | b ^ k ≤ SpectrumM.powSum k (covLevels Z N T ω)} := by
    rintro ω ⟨x, hx, hle⟩
    refine (pow_le_pow_left₀ hb.le hle k).trans ?_
    refine List.single_le_sum (l := (covLevels Z N T ω).map (· ^ k)) ?_ _ (List.mem_map_of_mem (f := (· ^ k)) hx)
    intro y hy
    obtain ⟨z, hz, rfl⟩ := List.mem_map.mp hy
    exact pow_nonneg (covLevels_nonneg Z N T hT ω z hz) k
  have hpos : 0 < b ^ k := by positivity
  have hmk := mul_meas_ge_le_integral_of_nonneg (Eventually.of_forall hnn) hint (b ^ k)
  refine (measure_mono hsub).trans ?_
  rw [← ofReal_measureReal]
  refine ENNReal.ofReal_le_ofReal ?_
  have h2 := hmk.trans hM
  rw [mul_comm, ← le_div_iff₀ hpos] at h2
  refine h2.trans_eq ?_
  rw [div_pow, mul_pow ((T : ℝ) - 1)]
  field_simp

variable {P : ℕ → Measure Ω} [∀ n, IsProbabilityMeasure (P n)]

/-- **The upper edge, covariances.** -/
theorem cov_edge (Z : ℕ → ℕ → Ω → ℝ) (hZ : ∀ n, NormalDraws (P n) (Z n)) (N T : ℕ → ℕ) (hT2 : ∀ n, 2 ≤ T n)
    (hN : Tendsto N atTop atTop) (hT : Tendsto T atTop atTop) (q : ℝ) (hq : 0 < q) (hr : Tendsto (fun n => (N n : ℝ) / T n) atTop (𝓝 q)) (b : ℝ) (hb : (1 + √q) ^ 2 < b) :
    ∃ r : ℝ, 0 < r ∧ r < 1 ∧ ∀ᶠ n : ℕ in atTop, P n {ω | ∃ x ∈ covLevels (Z n) (N n) (T n) ω, b ≤ x} ≤ ENNReal.ofReal (r ^ N n) := by
  have hs : 0 < √q := sqrt_pos.mpr hq
  set u := (1 + √q) ^ 2 with hu
  have hu0 : 0 < u := by positivity
  have hb0 : 0 < b := by linarith
  set η := (b / u - 1) / 2 with hη
  have hbu : 1 < b / u := (one_lt_div hu0).mpr hb
  have hη0 : 0 < η := by rw [hη]; linarith
  have hlt : (1 + η) * u / b < 1 := by
    rw [div_lt_one hb0]
    have e : (1 + η) * u = (b + u) / 2 := by
      rw [hη]
      field_simp
      ring
    rw [e]
    linarith
  set ρ := ((1 + η) * u / b + 1) / 2 with hρ
  have hl0 : 0 < (1 + η) * u / b := by positivity
  have hρ0 : 0 < ρ := by positivity
  have hρ1 : ρ < 1 := by rw [hρ]; linarith
  set c := η / (2 * (q + 1)) with hc
  have hc0 : 0 < c := by positivity
  refine ⟨ρ ^ (c / 2), rpow_pos_of_pos hρ0 _, rpow_lt_one hρ0.le hρ1 (by positivity), ?_⟩
  have hTr : Tendsto (fun n => (T n : ℝ)) atTop atTop := tendsto_natCast_atTop_atTop.comp hT
  have hNr : Tendsto (fun n => (N n : ℝ)) atTop atTop := tendsto_natCast_atTop_atTop.comp hN
  have hlim : Tendsto (fun n => (1 + η) * (√(N n : ℝ) + √(T n : ℝ)) ^ 2 / (((T n : ℝ) - 1) * b)) atTop (𝓝 ((1 + η) * u / b)) := by
    have h1 : Tendsto (fun n => (1 + η) * ((√((N n : ℝ) / T n) + 1) ^ 2) / ((1 - (T n : ℝ)⁻¹) * b)) atTop (𝓝 ((1 + η) * ((√q + 1) ^ 2) / ((1 - 0) * b))) :=
      (((hr.sqrt.add_const 1).pow 2).const_mul _).div ((tendsto_const_nhds.sub (tendsto_inv_atTop_zero.comp hTr)).mul_const b) (by rw [sub_zero, one_mul]; exact hb0.ne')
    rw [sub_zero, one_mul, add_comm (√q) 1, ← hu] at h1
    refine h1.congr fun n => ?_
    have hT' : (2 : ℝ) ≤ T n := by exact_mod_cast hT2 n
    have hT0 : (0 : ℝ) < T n := by linarith
    have hsT : 0 < √(T n : ℝ) := sqrt_pos.mpr hT0
    have e1 : √((N n : ℝ) / T n) + 1 = (√(N n : ℝ) + √(T n : ℝ)) / √(T n : ℝ) := by
      rw [sqrt_div (by positivity)]
      field_simp
    have e2 : (1 - (T n : ℝ)⁻¹) = ((T n : ℝ) - 1) / T n := by field_simp
    rw [e1, e2, div_pow, sq_sqrt hT0.le]
    have : (T n : ℝ) - 1 ≠ 0 := by linarith
    field_simp
  have ev1 : ∀ᶠ n in atTop, (1 + η) * (√(N n : ℝ) + √(T n : ℝ)) ^ 2 / (((T n : ℝ) - 1) * b) < ρ := hlim.eventually_lt_const (by rw [hρ]; linarith)
  have ev2 : ∀ᶠ n in atTop, (N n : ℝ) / T n < q + 1 := hr.eventually_lt_const (by linarith)
  have ev3 : ∀ᶠ n in atTop, 1 / c ≤ (N n : ℝ) := hNr.eventually_ge_atTop _
  have ev4 := hN.eventually (decay ρ c hρ0 hρ1 hc0)
  filter_upwards [ev1, ev2, ev3, ev4] with n g1 g2 g3 g4
  have hT' : (2 : ℝ) ≤ T n := by exact_mod_cast hT2 n
  have hT0 : (0 : ℝ) < T n := by linarith
  rw [div_le_iff₀ hc0] at g3
  rw [div_lt_iff₀ hT0] at g2
  have hNp : (0 : ℝ) < N n := by
    by_contra h
    have : (N n : ℝ) * c ≤ 0 := mul_nonpos_of_nonpos_of_nonneg (not_lt.mp h) hc0.le
    linarith
  have hf := Nat.floor_le (show 0 ≤ c * (N n : ℝ) by positivity)
  have hce : 2 * (c * (N n : ℝ)) = η * N n / (q + 1) := by
    rw [hc]
    field_simp
  have kN : 2 * (⌊c * (N n : ℝ)⌋₊ : ℝ) ≤ η * N n := by
    have h1 : η * N n / (q + 1) ≤ η * N n := div_le_self (by positivity) (by linarith)
    linarith
  have kT : 2 * (⌊c * (N n : ℝ)⌋₊ : ℝ) ≤ η * T n := by
    have h1 : η * N n / (q + 1) ≤ η * T n := by
      rw [div_le_iff₀ (by linarith)]
      nlinarith
    linarith
  refine (above_le (P n) (Z n) (hZ n) (N n) (T n) ⌊c * (N n : ℝ)⌋₊ (Nat.one_le_floor_iff _ |>.mpr (by linarith)) (by exact_mod_cast hNp) (hT2 n) η hη0 kN kT b hb0).trans (ENNReal.ofReal_le_ofReal ?_)
  refine le_trans ?_ g4
  have hτ : (0 : ℝ) < (T n : ℝ) - 1 := by linarith
  exact mul_le_mul_of_nonneg_left (pow_le_pow_left₀ (by positivity) g1.le _) (by positivity)

theorem cov_edge_null (Z : ℕ → ℕ → Ω → ℝ) (hZ : ∀ n, NormalDraws (P n) (Z n)) (N T : ℕ → ℕ) (hT2 : ∀ n, 2 ≤ T n)
    (hN : Tendsto N atTop atTop) (hT : Tendsto T atTop atTop) (q : ℝ) (hq : 0 < q) (hr : Tendsto (fun n => (N n : ℝ) / T n) atTop (𝓝 q)) (b : ℝ) (hb : (1 + √q) ^ 2 < b) :
    Tendsto (fun n => P n {ω | 0 < cnt (covMatrix (noise (Z n) (N n) (T n) ω)) b}) atTop (𝓝 0) := by
  obtain ⟨r, h0, h1, hle⟩ := cov_edge Z hZ N T hT2 hN hT q hq hr b hb
  have ht : Tendsto (fun n : ℕ => ENNReal.ofReal (r ^ N n)) atTop (𝓝 0) := by
    have := ENNReal.tendsto_ofReal ((tendsto_pow_atTop_nhds_zero_of_lt_one h0.le h1).comp hN)
    simpa using this
  refine tendsto_of_tendsto_of_tendsto_of_le_of_le' tendsto_const_nhds ht (Eventually.of_forall fun _ => zero_le) ?_
  filter_upwards [hle] with n hn
  refine (measure_mono fun ω hω => ?_).trans hn
  rw [Set.mem_ofPred_eq, ← covLevels_cnt, List.countP_pos_iff] at hω
  obtain ⟨x, hx, hlt⟩ := hω
  exact ⟨x, hx, (of_decide_eq_true hlt).le⟩

/-- **The upper edge, covariances and correlations.** -/
theorem wanted_edge (Z : ℕ → ℕ → Ω → ℝ) (hZ : ∀ n, NormalDraws (P n) (Z n)) (N T : ℕ → ℕ) (hT2 : ∀ n, 2 ≤ T n)
    (hN : Tendsto N atTop atTop) (hT : Tendsto T atTop atTop) (q : ℝ) (hq : 0 < q) (hr : Tendsto (fun n => (N n : ℝ) / T n) atTop (𝓝 q)) (cov : Bool) (b : ℝ) (hb : (1 + √q) ^ 2 < b) :
    Tendsto (fun n => P n {ω | 0 < cnt (wantedMatrix (noise (Z n) (N n) (T n) ω) cov) b}) atTop (𝓝 0) := by
  cases cov
  · simp only [wantedMatrix, Bool.false_eq_true, if_false]
    set u := (1 + √q) ^ 2 with hu
    have hu0 : 0 < u := by positivity
    have hb0 : 0 < b := by linarith
    set δ := (1 - u / b) / 2 with hδ
    have hub : u / b < 1 := (div_lt_one hb0).mpr hb
    have hub0 : 0 < u / b := by positivity
    have hδ0 : 0 < δ := by rw [hδ]; linarith
    have hl : 0 < 1 - δ := by rw [hδ]; linarith
    have hb' : u < b * (1 - δ) := by
      have : b * (1 - δ) = (b + u) / 2 := by
        rw [hδ]
        field_simp
        ring
      rw [this]
      linarith
    have t := (var_near Z hZ N T hT2 hT q hr δ hδ0).add (cov_edge_null Z hZ N T hT2 hN hT q hq hr (b * (1 - δ)) hb')
    rw [add_zero] at t
    refine tendsto_of_tendsto_of_tendsto_of_le_of_le tendsto_const_nhds t (fun _ => zero_le) fun n => ?_
    refine (measure_mono fun ω hω => ?_).trans (measure_union_le _ _)
    by_contra hcon
    simp only [Set.mem_union, not_or, Set.mem_ofPred_eq, not_exists, not_le, not_lt] at hcon hω
    obtain ⟨h1, h2⟩ := hcon
    set C := covMatrix (noise (Z n) (N n) (T n) ω) with hC
    have hbd : ∀ i, 1 - δ ≤ C i i ∧ C i i ≤ 1 + δ := by
      intro i
      have := abs_lt.mp (h1 i)
      constructor <;> linarith [this.1, this.2]
    have hpos : ∀ i, 0 < C i i := fun i => lt_of_lt_of_le hl (hbd i).1
    have hsc := cnt_scaled C (corrMatrix (noise (Z n) (N n) (T n) ω)) (symm_herm _ (covMatrix_isSymm _)) (symm_herm _ (corrMatrix_isSymm _)) (fun i => √(C i i)) (fun i => Real.sqrt_pos.mpr (hpos i))
      (cov_corr _ (hT2 n) hpos) (1 - δ) (1 + δ) hl (fun i => by rw [Real.sq_sqrt (hpos i).le]; exact hbd i) b hb0
    have := hsc.2
    omega
  · simpa only [wantedMatrix, if_true] using cov_edge_null Z hZ N T hT2 hN hT q hq hr b hb

theorem tail_pos (q : ℝ) (hq : 0 < q) (a : ℝ) (ha : (1 - √q) ^ 2 ≤ a) (h0 : 0 < a) (hb : a < (1 + √q) ^ 2) : 0 < tail q a := by
  have hs : 0 < √q := sqrt_pos.mpr hq
  have h := tail_sub q hq a ((1 + √q) ^ 2) h0 hb.le
  rw [tail_zero q hq _ le_rfl, sub_zero] at h
  rw [h, ← intervalIntegral.integral_of_le hb.le]
  refine intervalIntegral.intervalIntegral_pos_of_pos_on ?_ ?_ hb
  · rw [intervalIntegrable_iff_integrableOn_Ioc_of_le hb.le]
    exact (mpDensity_integrable q hq a h0).mono_set Set.Ioc_subset_Ioi_self
  · intro x hx
    have hx0 : 0 < x := h0.trans hx.1
    unfold mpDensity
    have : 0 < ((1 + √q) ^ 2 - x) * (x - (1 - √q) ^ 2) := mul_pos (by linarith [hx.2]) (by linarith [hx.1])
    have := sqrt_pos.mpr this
    positivity

/-- Some value is above any number below the edge. -/
theorem near_upper (Z : ℕ → ℕ → Ω → ℝ) (hZ : ∀ n, NormalDraws (P n) (Z n)) (N T : ℕ → ℕ) (hT2 : ∀ n, 2 ≤ T n)
    (hN : Tendsto N atTop atTop) (hT : Tendsto T atTop atTop) (q : ℝ) (hq : 0 < q) (hr : Tendsto (fun n => (N n : ℝ) / T n) atTop (𝓝 q)) (cov : Bool) (a : ℝ) (h0 : 0 < a) (ha : a < (1 + √q) ^ 2) :
    Tendsto (fun n => P n {ω | cnt (wantedMatrix (noise (Z n) (N n) (T n) ω) cov) a = 0}) atTop (𝓝 0) := by
  have hs : 0 < √q := sqrt_pos.mpr hq
  set a' := max a ((1 - √q) ^ 2) with ha'
  have h1 : a' < (1 + √q) ^ 2 := max_lt ha (by nlinarith)
  have h2 : 0 < a' := lt_max_of_lt_left h0
  have ht := (tail_pos q hq a' (le_max_right _ _) h2 h1).trans_le (tail_antitone q hq a a' h0 (le_max_left _ _))
  have hp := inProb_wanted Z hZ N T hT2 hN hT q hq hr cov a h0 (tail q a) ht
  refine tendsto_of_tendsto_of_tendsto_of_le_of_le tendsto_const_nhds hp (fun _ => zero_le) fun n => measure_mono fun ω hω => ?_
  rw [Set.mem_ofPred_eq] at hω ⊢
  simp only
  rw [hω, Nat.cast_zero, zero_div, zero_sub, abs_neg, abs_of_pos ht]

end Edge

namespace Props
open Gen EigValsM EigM Unfold MeasureTheory ProbabilityTheory Spec Gauss Helpers Inertia Semi
open Real Set Filter Topology
variable {σ Ω : Type} [MeasurableSpace Ω] {P : ℕ → Measure Ω} [∀ n, IsProbabilityMeasure (P n)]

/-- The spectra `vals n` end at `e`: with a probability tending to 1, no value is larger than `b`, for any `b > e`, and the largest value is near `e`. -/
structure UpperEdge (P : ℕ → Measure Ω) (vals : ℕ → Ω → List ℝ) (e : ℝ) : Prop where
  /-- no value beyond the edge -/
  beyond : ∀ b > e, Tendsto (fun n => P n {ω | ∃ x ∈ vals n ω, b ≤ x}) atTop (𝓝 0)
  /-- the largest value -/
  largest : ∀ ε > 0, Tendsto (fun n => P n {ω | ¬ ∃ m, IsLargest (vals n ω) m ∧ |m - e| < ε}) atTop (𝓝 0)

theorem largest_of_mem (l : List ℝ) (x : ℝ) (hx : x ∈ l) : ∃ m, IsLargest l m := by
  obtain ⟨a, ha, ha'⟩ := l.toFinset.exists_max_image id ⟨x, by simpa using hx⟩
  exact ⟨a, by simpa using ha, fun y hy => ha' y (by simpa using hy)⟩

theorem upperEdge (Z : ℕ → ℕ → Ω → ℝ) (hZ : ∀ n, NormalDraws (P n) (Z n)) (N T : ℕ → ℕ) (hT2 : ∀ n, 2 ≤ T n)
    (hN : Tendsto N atTop atTop) (hT : Tendsto T atTop atTop) (q : ℝ) (hq : 0 < q) (hr : Tendsto (fun n => (N n : ℝ) / T n) atTop (𝓝 q)) (cov : Bool) (vals : ℕ → Ω → List ℝ)
    (h : ∀ n, ∀ᵐ ω ∂(P n), ∀ a ≥ 0, countGT (vals n ω) a = cnt (wantedMatrix (noise (Z n) (N n) (T n) ω) cov) a) : UpperEdge P vals ((1 + √q) ^ 2) := by
  have hs : 0 < √q := sqrt_pos.mpr hq
  have hu0 : 0 < (1 + √q) ^ 2 := by positivity
  have nul := ae_event (P := P) (fun n => {ω | ¬ ∀ a ≥ 0, countGT (vals n ω) a = cnt (wantedMatrix (noise (Z n) (N n) (T n) ω) cov) a}) fun n => by
    filter_upwards [h n] with ω hω
    exact not_not.mpr hω
  have hbey : ∀ b > (1 + √q) ^ 2, Tendsto (fun n => P n {ω | ∃ x ∈ vals n ω, b ≤ x}) atTop (𝓝 0) := by
    intro b hb
    obtain ⟨b', hb1, hb2⟩ := exists_between hb
    have t := nul.add (Edge.wanted_edge Z hZ N T hT2 hN hT q hq hr cov b' hb1)
    rw [add_zero] at t
    refine tendsto_of_tendsto_of_tendsto_of_le_of_le tendsto_const_nhds t (fun _ => zero_le) fun n => (measure_mono fun ω hω => ?_).trans (measure_union_le _ _)
    obtain ⟨x, hx, hle⟩ := hω
    by_contra hcon
    simp only [mem_union, not_or, mem_ofPred_eq, not_not, not_lt] at hcon
    obtain ⟨g1, g2⟩ := hcon
    have h1 := g1 b' (by linarith)
    have h2 : 0 < countGT (vals n ω) b' := by
      rw [countGT, ← List.countP_eq_length_filter, List.countP_pos_iff]
      exact ⟨x, hx, decide_eq_true (hb2.trans_le hle)⟩
    omega
  refine ⟨hbey, fun ε hε => ?_⟩
  set a := max ((1 + √q) ^ 2 - ε) ((1 + √q) ^ 2 / 2) with ha
  have ha0 : 0 < a := lt_max_of_lt_right (by positivity)
  have hau : a < (1 + √q) ^ 2 := max_lt (by linarith) (by linarith)
  have t := (nul.add (Edge.near_upper Z hZ N T hT2 hN hT q hq hr cov a ha0 hau)).add (hbey ((1 + √q) ^ 2 + ε) (by linarith))
  rw [add_zero, add_zero] at t
  refine tendsto_of_tendsto_of_tendsto_of_le_of_le tendsto_const_nhds t (fun _ => zero_le) fun n => (measure_mono fun ω hω => ?_).trans ((measure_union_le _ _).trans (add_le_add_left (measure_union_le _ _) _))
  by_contra hcon
  simp only [mem_union, not_or, mem_ofPred_eq, not_not] at hcon hω
  obtain ⟨⟨g1, g2⟩, g3⟩ := hcon
  push Not at g3 hω
  have h1 := g1 a ha0.le
  have h2 : 0 < countGT (vals n ω) a := by omega
  rw [countGT, ← List.countP_eq_length_filter, List.countP_pos_iff] at h2
  obtain ⟨x, hx, hlt⟩ := h2
  obtain ⟨m, hm⟩ := largest_of_mem _ x hx
  refine absurd (hω m hm) (not_le.mpr ?_)
  have b1 := hm.2 x hx
  have b2 := g3 m hm.1
  have b3 : a < x := of_decide_eq_true hlt
  have b4 := le_max_left ((1 + √q) ^ 2 - ε) ((1 + √q) ^ 2 / 2)
  exact abs_lt.mpr ⟨by linarith, by linarith⟩

/-- **C185.** Let `from_time_series` be called, with covariances or correlations, trimmed or not, on `N` series of `T` independent standard normal samples, `N` and `T` growing so that `N / T` tends
to `q > 0`. Then with a probability tending to 1 no value it returns is larger than any number above `(1 + √q)²`, and the largest value is near `(1 + √q)²`: the upper edge of the Marchenko-Pastur
density is where the spectrum of noise ends. -/
theorem C185_noise (eigvalsh : EigSolver) (hs : ExactSolver eigvalsh) (float : String → Option ℝ) (Z : ℕ → ℕ → Ω → ℝ) (hZ : ∀ n, NormalDraws (P n) (Z n)) (N T : ℕ → ℕ)
    (hT2 : ∀ n, 2 ≤ T n) (hN : Tendsto N atTop atTop) (hT : Tendsto T atTop atTop) (q : ℝ) (hq : 0 < q) (hr : Tendsto (fun n => (N n : ℝ) / T n) atTop (𝓝 q))
    (cov tr : Bool) (s : ℕ → Ω → SeriesEigs)
    (h : ∀ n, ∀ᵐ ω ∂(P n), fromTimeSeries eigvalsh float (.dim2 (N n) (T n) (noise (Z n) (N n) (T n) ω)) cov tr (.str "negative") 1 = .ok (s n ω)) :
    UpperEdge P (fun n ω => (s n ω).obj.vals) ((1 + √q) ^ 2) := by
  refine upperEdge Z hZ N T hT2 hN hT q hq hr cov _ fun n => ?_
  filter_upwards [noise_nonconstant (N := N n) (P n) (Z n) (hZ n) (hT2 n), h n] with ω h1 h2 a ha
  exact series_count eigvalsh hs float _ cov (hT2 n) (fun _ => h1) tr _ h2 a ha

/-- **C185 (time_series_eigs).** The same for `time_series_eigs(n, t)`. -/
theorem C185_time_series (R : Rng σ) (eigvalsh : EigSolver) (hs : ExactSolver eigvalsh) (s : ℕ → Ω → σ) (hX : ∀ n, NormalDraws (P n) fun k ω => draw R (s n ω) k) (N T : ℕ → ℕ)
    (hN2 : ∀ n, 2 ≤ N n) (hT2 : ∀ n, 2 ≤ T n) (hN : Tendsto N atTop atTop) (hT : Tendsto T atTop atTop) (q : ℝ) (hq : 0 < q) (hr : Tendsto (fun n => (N n : ℝ) / T n) atTop (𝓝 q)) :
    ∃ vals : ℕ → Ω → List ℝ, (∀ n ω, (timeSeriesEigs R eigvalsh (N n) (T n) "normal" (s n ω)).1 = .ok (vals n ω)) ∧ UpperEdge P vals ((1 + √q) ^ 2) := by
  set Z : ℕ → ℕ → Ω → ℝ := fun n k ω => draw R (s n ω) k with hZdef
  have hdata : ∀ n ω, (fun (i : Fin (N n)) (j : Fin (T n)) => (normals R (N n * T n) (s n ω)).1.getD (i.val * T n + j.val) 0 : Matrix (Fin (N n)) (Fin (T n)) ℝ) = noise (Z n) (N n) (T n) ω := by
    intro n ω
    funext i j
    have hlt : i.val * T n + j.val < N n * T n := by
      have := i.isLt
      have := j.isLt
      nlinarith
    rw [normals_draws]
    simp [noise, Z, List.getD, hlt]
  refine ⟨fun n ω => eigvalsh (N n) (correlateFast (noise (Z n) (N n) (T n) ω) 0), fun n ω => ?_, ?_⟩
  · have := hN2 n
    simp only [timeSeriesEigs, if_true, hdata, if_neg (show N n ≠ 1 by omega)]
  · refine upperEdge Z hX N T hT2 hN hT q hq hr false _ fun n => Eventually.of_forall fun ω a ha => ?_
    have := hT2 n
    rw [countGT_eq, correlateFast_eq _ 0 (by omega), hs _ _ (corrMatrix_isSymm _), cnt]
    simp [wantedMatrix]

/-- **C185 (covariances, rate).** With covariances, the probability that some value is at least `b > (1 + √q)²` decays exponentially with the number of series. -/
theorem C185_rate (eigvalsh : EigSolver) (hs : ExactSolver eigvalsh) (float : String → Option ℝ) (Z : ℕ → ℕ → Ω → ℝ) (hZ : ∀ n, NormalDraws (P n) (Z n)) (N T : ℕ → ℕ)
    (hT2 : ∀ n, 2 ≤ T n) (hN : Tendsto N atTop atTop) (hT : Tendsto T atTop atTop) (q : ℝ) (hq : 0 < q) (hr : Tendsto (fun n => (N n : ℝ) / T n) atTop (𝓝 q))
    (tr : Bool) (s : ℕ → Ω → SeriesEigs)
    (h : ∀ n, ∀ᵐ ω ∂(P n), fromTimeSeries eigvalsh float (.dim2 (N n) (T n) (noise (Z n) (N n) (T n) ω)) true tr (.str "negative") 1 = .ok (s n ω)) (b : ℝ) (hb : (1 + √q) ^ 2 < b) :
    ∃ r : ℝ, 0 < r ∧ r < 1 ∧ ∀ᶠ n : ℕ in atTop, P n {ω | ∃ x ∈ (s n ω).obj.vals, b ≤ x} ≤ ENNReal.ofReal (r ^ N n) := by
  obtain ⟨b', hb1, hb2⟩ := exists_between hb
  have hs0 : 0 < √q := sqrt_pos.mpr hq
  have hb0 : 0 < b' := lt_trans (by positivity) hb1
  obtain ⟨r, h0, h1, hle⟩ := Edge.cov_edge Z hZ N T hT2 hN hT q hq hr b' hb1
  refine ⟨r, h0, h1, hle.mono fun n hn => (measure_mono_ae ?_).trans hn⟩
  filter_upwards [noise_nonconstant (N := N n) (P n) (Z n) (hZ n) (hT2 n), h n] with ω g1 g2
  rintro ⟨x, hx, hlt⟩
  have hc := series_count eigvalsh hs float _ true (hT2 n) (fun _ => g1) tr _ g2 b' hb0.le
  have h3 : 0 < countGT (s n ω).obj.vals b' := by
    rw [countGT, ← List.countP_eq_length_filter, List.countP_pos_iff]
    exact ⟨x, hx, decide_eq_true (hb2.trans_le hlt)⟩
  rw [hc] at h3
  simp only [wantedMatrix, if_true] at h3
  rw [← covLevels_cnt, List.countP_pos_iff] at h3
  obtain ⟨y, hy, hlt⟩ := h3
  exact ⟨y, hy, (of_decide_eq_true hlt).le⟩

/-- **C185 (trimming).** Under the hypotheses of C185, let `trim_marchenko_pastur` be called on the object `from_time_series` returned, without sizes, shifted or not. The cut points it reports tend in
probability to the edges `(1 - √q)²` and `(1 + √q)²` of the Marchenko-Pastur density, and with a probability tending to 1 every value it keeps with `largest=True` is within `ε` of the upper cut point: a value further
above it is not noise. -/
theorem C185_trim (eigvalsh : EigSolver) (hs : ExactSolver eigvalsh) (float : String → Option ℝ) (Z : ℕ → ℕ → Ω → ℝ) (hZ : ∀ n, NormalDraws (P n) (Z n)) (N T : ℕ → ℕ)
    (hN2 : ∀ n, 2 ≤ N n) (hT2 : ∀ n, 2 ≤ T n) (hN : Tendsto N atTop atTop) (hT : Tendsto T atTop atTop) (q : ℝ) (hq : 0 < q) (hr : Tendsto (fun n => (N n : ℝ) / T n) atTop (𝓝 q))
    (cov tr : Bool) (s : ℕ → Ω → SeriesEigs)
    (h : ∀ n, ∀ᵐ ω ∂(P n), fromTimeSeries eigvalsh float (.dim2 (N n) (T n) (noise (Z n) (N n) (T n) ω)) cov tr (.str "negative") 1 = .ok (s n ω)) (largest shifted : Bool)
    (r : ℕ → Ω → Obj ℝ × ℝ × ℝ) (hr' : ∀ n, ∀ᵐ ω ∂(P n), trimMarchenkoPastur (some (s n ω).seriesN) (some (s n ω).seriesT) (s n ω).obj.vals none none largest shifted = .ok (r n ω)) :
    InProbability P (fun n ω => (r n ω).2.1) ((1 - √q) ^ 2) ∧ InProbability P (fun n ω => (r n ω).2.2) ((1 + √q) ^ 2) ∧
    (largest = true → ∀ ε > 0, Tendsto (fun n => P n {ω | ∃ v ∈ (r n ω).1.vals, (r n ω).2.2 + ε ≤ v}) atTop (𝓝 0)) := by
  have key := trim_call eigvalsh hs float Z hZ N T hT2 cov tr s h largest shifted
  set M := fun n ω => wantedMatrix (noise (Z n) (N n) (T n) ω) cov with hM
  have hsr : Tendsto (fun n => √((N n : ℝ) / T n)) atTop (𝓝 (√q)) := hr.sqrt
  -- both cut points are a factor near 1 times a number near the edge
  have cut : ∀ (f : ℕ → ℝ) (e : ℝ) (g : ℕ → Ω → ℝ), (∀ n, 0 ≤ f n) → Tendsto f atTop (𝓝 e) →
      (∀ n, ∀ᵐ ω ∂(P n), ∃ m, 0 ≤ m ∧ m ^ 2 ≤ (M n ω * M n ω).trace ∧ g n ω = (if shifted then 1 - m / N n else 1) * f n) → InProbability P g e := by
    intro f e g hf0 hf hg ε hε
    have he0 : 0 ≤ e := ge_of_tendsto' hf hf0
    set δ := ε / (2 * (e + 1)) with hδ
    have hδ0 : 0 < δ := by positivity
    have nul := ae_event (P := P) (fun n => {ω | ¬ ∃ m, 0 ≤ m ∧ m ^ 2 ≤ (M n ω * M n ω).trace ∧ g n ω = (if shifted then 1 - m / N n else 1) * f n}) fun n => by
      filter_upwards [hg n] with ω hω
      exact not_not.mpr hω
    have t := nul.add (max_small Z hZ N T hN2 hT2 hN hT q hr cov δ hδ0)
    rw [add_zero] at t
    have ev1 : ∀ᶠ n in atTop, f n < e + min 1 (ε / 2) := hf.eventually_lt_const (lt_add_of_pos_right _ (by positivity))
    have ev2 : ∀ᶠ n in atTop, e - ε / 2 < f n := hf.eventually_const_lt (by linarith)
    refine tendsto_of_tendsto_of_tendsto_of_le_of_le' tendsto_const_nhds t (Eventually.of_forall fun _ => zero_le) ?_
    filter_upwards [ev1, ev2] with n g1 g2
    refine (measure_mono fun ω hω => ?_).trans (measure_union_le _ _)
    by_contra hcon
    simp only [mem_union, not_or, mem_ofPred_eq, not_not, not_le] at hcon hω
    obtain ⟨⟨m, hm0, hm2, hgm⟩, g3⟩ := hcon
    have hNp : (0 : ℝ) < N n := by exact_mod_cast (by have := hN2 n; omega : 0 < N n)
    have hmN : m / N n < δ := by
      rw [div_lt_iff₀ hNp]
      exact lt_of_pow_lt_pow_left₀ 2 (by positivity) (hm2.trans_lt g3)
    have hm0' : 0 ≤ m / N n := by positivity
    have hk : 1 - δ ≤ (if shifted then 1 - m / N n else 1) ∧ (if shifted then 1 - m / N n else 1) ≤ 1 := by
      split_ifs
      · constructor <;> linarith
      · constructor <;> linarith
    have l1 := min_le_left 1 (ε / 2)
    have l2 := min_le_right 1 (ε / 2)
    have p1 := mul_le_mul_of_nonneg_right hk.1 (hf0 n)
    have p2 := mul_le_mul_of_nonneg_right hk.2 (hf0 n)
    rw [← hgm] at p1 p2
    have p3 : δ * f n ≤ ε / 2 := by
      have h1 : δ * f n ≤ δ * (e + 1) := mul_le_mul_of_nonneg_left (by linarith) hδ0.le
      have h2 : δ * (e + 1) = ε / 2 := by
        rw [hδ]
        field_simp
      linarith
    refine absurd hω (not_le.mpr (abs_lt.mpr ⟨by linarith, by linarith⟩))
  have call : ∀ n, ∀ᵐ ω ∂(P n), ∃ m, 0 ≤ m ∧ m ^ 2 ≤ (M n ω * M n ω).trace ∧ (r n ω).2.1 = (if shifted then 1 - m / N n else 1) * (1 - √((N n : ℝ) / T n)) ^ 2 ∧
      (r n ω).2.2 = (if shifted then 1 - m / N n else 1) * (1 + √((N n : ℝ) / T n)) ^ 2 ∧ (largest = true → (r n ω).1.vals = (s n ω).obj.vals.filter fun v => decide ((r n ω).2.2 < v)) := by
    intro n
    filter_upwards [key n, hr' n] with ω h1 h2
    obtain ⟨-, m, hm0, hm2, o, lo, hi, h4, h5, h6, h7, -⟩ := h1
    rw [h4] at h2
    rw [← Except.ok.inj h2]
    exact ⟨m, hm0, hm2, h5, h6, h7⟩
  have hlo : InProbability P (fun n ω => (r n ω).2.1) ((1 - √q) ^ 2) := cut (fun n => (1 - √((N n : ℝ) / T n)) ^ 2) _ _ (fun n => sq_nonneg _) ((tendsto_const_nhds.sub hsr).pow 2) fun n =>
    (call n).mono fun ω ⟨m, h1, h2, h3, _⟩ => ⟨m, h1, h2, h3⟩
  have hhi : InProbability P (fun n ω => (r n ω).2.2) ((1 + √q) ^ 2) := cut (fun n => (1 + √((N n : ℝ) / T n)) ^ 2) _ _ (fun n => sq_nonneg _) ((tendsto_const_nhds.add hsr).pow 2) fun n =>
    (call n).mono fun ω ⟨m, h1, h2, _, h3, _⟩ => ⟨m, h1, h2, h3⟩
  refine ⟨hlo, hhi, fun hl ε hε => ?_⟩
  have nul := ae_event (P := P) (fun n => {ω | ¬ ((r n ω).1.vals = (s n ω).obj.vals.filter fun v => decide ((r n ω).2.2 < v))}) fun n => by
    filter_upwards [call n] with ω ⟨m, _, _, _, _, hω⟩
    exact not_not.mpr (hω hl)
  have hb := (C185_noise eigvalsh hs float Z hZ N T hT2 hN hT q hq hr cov tr s h).beyond ((1 + √q) ^ 2 + ε / 2) (by linarith)
  have t := (nul.add (hhi (ε / 2) (by linarith))).add hb
  rw [add_zero, add_zero] at t
  refine tendsto_of_tendsto_of_tendsto_of_le_of_le tendsto_const_nhds t (fun _ => zero_le) fun n => (measure_mono fun ω hω => ?_).trans ((measure_union_le _ _).trans (add_le_add_left (measure_union_le _ _) _))
  obtain ⟨v, hv, hle⟩ := hω
  by_contra hcon
  simp only [mem_union, not_or, mem_ofPred_eq, not_not, not_le] at hcon
  obtain ⟨⟨g1, g2⟩, g3⟩ := hcon
  push Not at g3
  rw [g1] at hv
  have h1 := g3 v (List.mem_filter.mp hv).1
  have h2 := abs_lt.mp g2
  linarith [h2.1]

-- C185: as many series as time points; the largest eigenvalue tends to 4
example : ∃ (ev : EigSolver) (s : ℕ → (ℕ → ℝ) → SeriesEigs), ExactSolver ev ∧
    (∀ n, ∀ᵐ ω ∂(Measure.infinitePi fun _ : ℕ => gaussianReal 0 1), fromTimeSeries ev (fun _ => none) (.dim2 (n + 2) (n + 2) (noise (fun k (ω : ℕ → ℝ) => draw streamRng ω k) (n + 2) (n + 2) ω)) false true (.str "negative") 1 = .ok (s n ω)) ∧
    UpperEdge (fun _ => Measure.infinitePi fun _ : ℕ => gaussianReal 0 1) (fun n ω => (s n ω).obj.vals) 4 := by
  have hs : ExactSolver fun _ M => M.charpoly.roots.toList := fun _ _ _ => Multiset.coe_toList _
  set ev : EigSolver := fun _ M => M.charpoly.roots.toList
  have hZ := stream_draws
  have hex := fun n : ℕ => (C146_noise (Measure.infinitePi fun _ : ℕ => gaussianReal 0 1) _ ev hs (fun _ => none) hZ (show 2 ≤ n + 2 by omega) (show 2 ≤ n + 2 by omega) false true).1
  classical
  let s : ℕ → (ℕ → ℝ) → SeriesEigs := fun n ω =>
    if h : ∃ s, fromTimeSeries ev (fun _ => none) (.dim2 (n + 2) (n + 2) (noise (fun k (ω : ℕ → ℝ) => draw streamRng ω k) (n + 2) (n + 2) ω)) false true (.str "negative") 1 = .ok s then h.choose
    else ⟨⟨[], [], none⟩, 0, 0, (0, 0), (0, 0)⟩
  have h : ∀ n, ∀ᵐ ω ∂(Measure.infinitePi fun _ : ℕ => gaussianReal 0 1),
      fromTimeSeries ev (fun _ => none) (.dim2 (n + 2) (n + 2) (noise (fun k (ω : ℕ → ℝ) => draw streamRng ω k) (n + 2) (n + 2) ω)) false true (.str "negative") 1 = .ok (s n ω) := by
    intro n
    filter_upwards [hex n] with ω hω
    simp only [s, dif_pos hω]
    exact hω.choose_spec
  have hN : Tendsto (fun n : ℕ => n + 2) atTop atTop := tendsto_add_atTop_nat 2
  have hr : Tendsto (fun n : ℕ => ((n + 2 : ℕ) : ℝ) / ((n + 2 : ℕ) : ℝ)) atTop (𝓝 1) := tendsto_const_nhds.congr fun n => by
    rw [div_self]
    positivity
  refine ⟨ev, s, hs, h, ?_⟩
  have := C185_noise (P := fun _ => Measure.infinitePi fun _ : ℕ => gaussianReal 0 1) ev hs (fun _ => none) (fun _ k (ω : ℕ → ℝ) => draw streamRng ω k) (fun _ => hZ) (fun n => n + 2) (fun n => n + 2)
    (fun n => by omega) hN hN 1 one_pos hr false true s h
  rw [sqrt_one] at this
  norm_num at this
  exact this

end Props
end RMT
