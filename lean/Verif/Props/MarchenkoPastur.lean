import Verif.Lemmas.MarchenkoPasturMass
import Verif.Props.Eigenvalues

/-!
# Properties C150, C151: the Marchenko-Pastur law for spectra of noise
-/

namespace RMT
namespace Props
open Gen EigValsM EigM Unfold MeasureTheory ProbabilityTheory Spec Gauss Helpers Inertia Semi
open Real Set Filter Topology

variable {σ Ω : Type} [MeasurableSpace Ω] {N T : ℕ}

theorem countGT_eq (l : List ℝ) (a : ℝ) : countGT l a = (l : Multiset ℝ).countP (a < ·) := by
  rw [Multiset.coe_countP, List.countP_eq_length_filter]
  rfl

theorem countGT_anti (l : List ℝ) {a b : ℝ} (h : a ≤ b) : countGT l b ≤ countGT l a := by
  rw [countGT, countGT, ← List.countP_eq_length_filter, ← List.countP_eq_length_filter]
  exact List.countP_mono_left fun x _ hx => by
    simp only [decide_eq_true_eq] at hx ⊢
    exact h.trans_lt hx

/-! ## The returned values and the matrix -/

theorem series_count (eigvalsh : EigSolver) (hs : ExactSolver eigvalsh) (float : String → Option ℝ)
    (X : Matrix (Fin N) (Fin T) ℝ) (cov : Bool) (hT : 2 ≤ T) (hc : cov = false → ∀ i, NonConstant (X i))
    (tr : Bool) (s : SeriesEigs) (h : fromTimeSeries eigvalsh float (.dim2 N T X) cov tr (.str "negative") 1 = .ok s) (a : ℝ) (ha : 0 ≤ a) :
    countGT s.obj.vals a = cnt (wantedMatrix X cov) a := by
  rw [countGT_eq, cnt]
  cases tr
  · have h0 : (Multiset.replicate (N - T) (0 : ℝ)).countP (a < ·) = 0 := Multiset.countP_eq_zero.mpr fun x hx => by
      rw [Multiset.eq_of_mem_replicate hx]
      exact not_lt.mpr ha
    rw [← C45_spectrum eigvalsh hs float X cov hT hc _ s h, Multiset.countP_add, h0, add_zero]
  · rw [(C43_spectrum eigvalsh hs float X cov hT hc s h).2, Multiset.countP_filter]
    exact Multiset.countP_congr rfl fun x _ => by
      simp only [eq_iff_iff]
      exact ⟨fun h => h.1, fun h => ⟨h, ha.trans_lt h⟩⟩

/-- At most `min(N, T)` eigenvalues are positive. -/
theorem cnt_rank (X : Matrix (Fin N) (Fin T) ℝ) (cov : Bool) (hN : 2 ≤ N) (hT : 2 ≤ T) (hc : cov = false → ∀ i, NonConstant (X i)) (a : ℝ) (ha : 0 ≤ a) :
    cnt (wantedMatrix X cov) a ≤ min N T := by
  have hs : ExactSolver fun _ M => M.charpoly.roots.toList := fun _ _ _ => Multiset.coe_toList _
  set ev : EigSolver := fun _ M => M.charpoly.roots.toList
  obtain ⟨e, he⟩ : ∃ e, computedEigs ev X cov = .ok e := by
    unfold computedEigs eigsViaTranspose
    split_ifs <;> first | omega | exact ⟨_, rfl⟩
  have hr := computed_roots ev hs X cov hT hc e he
  have hcard : (wantedMatrix X cov).charpoly.roots.card = N := by
    rw [(symm_herm _ (wantedMatrix_isSymm X cov)).roots_charpoly_eq_eigenvalues]
    simp
  rw [← hr, Multiset.card_add, Multiset.card_replicate, Multiset.coe_card] at hcard
  have h1 : cnt (wantedMatrix X cov) a ≤ e.length := by
    have h0 : (Multiset.replicate (N - T) (0 : ℝ)).countP (a < ·) = 0 := Multiset.countP_eq_zero.mpr fun x hx => by
      rw [Multiset.eq_of_mem_replicate hx]
      exact not_lt.mpr ha
    rw [cnt, ← hr, Multiset.countP_add, h0, add_zero, ← Multiset.coe_card]
    exact Multiset.countP_le_card _ _
  omega

/-! ## Fractions of positive levels -/

section Limits
variable {P : ℕ → Measure Ω} [∀ n, IsProbabilityMeasure (P n)]

theorem mpMass (q : ℝ) (hq : 0 < q) : ∫ x in Ioi 0, mpDensity q x = min 1 (1 / q) := by
  rw [mass_density q hq, mass_eq q hq]

omit [∀ n, IsProbabilityMeasure (P n)] in
theorem ae_event (E : ℕ → Set Ω) (h : ∀ n, ∀ᵐ ω ∂(P n), ω ∉ E n) : Tendsto (fun n => P n (E n)) atTop (𝓝 0) := by
  have : ∀ n, P n (E n) = 0 := by
    intro n
    have := h n
    rw [ae_iff] at this
    simpa using this
  simp only [this]
  exact tendsto_const_nhds

/-- The number of levels above `a ≥ 0`, divided by `N`. -/
theorem inProb_all (Z : ℕ → ℕ → Ω → ℝ) (hZ : ∀ n, NormalDraws (P n) (Z n)) (N T : ℕ → ℕ) (hN2 : ∀ n, 2 ≤ N n) (hT2 : ∀ n, 2 ≤ T n)
    (hN : Tendsto N atTop atTop) (hT : Tendsto T atTop atTop) (q : ℝ) (hq : 0 < q) (hr : Tendsto (fun n => (N n : ℝ) / T n) atTop (𝓝 q)) (cov : Bool) (a : ℝ) (ha : 0 ≤ a) :
    InProbability P (fun n ω => (cnt (wantedMatrix (noise (Z n) (N n) (T n) ω) cov) a : ℝ) / N n) (∫ x in Ioi a, mpDensity q x) := by
  rcases ha.lt_or_eq with h | rfl
  · exact inProb_wanted Z hZ N T hT2 hN hT q hq hr cov a h
  rw [mpMass q hq]
  refine inProb_of_cover _ _ fun ε hε => ?_
  obtain ⟨δ, hδ, htail⟩ := tail_tendsto q hq (ε / 2) (by positivity)
  have hlim : Tendsto (fun n => min 1 (1 / ((N n : ℝ) / T n))) atTop (𝓝 (min 1 (1 / q))) := tendsto_const_nhds.min (tendsto_const_nhds.div hr hq.ne')
  refine ⟨fun n => {ω | ε / 2 ≤ |(cnt (wantedMatrix (noise (Z n) (N n) (T n) ω) cov) δ : ℝ) / N n - tail q δ|},
    fun n => {ω | ¬ ∀ i, NonConstant (noise (Z n) (N n) (T n) ω i)}, fun _ => ∅, inProb_wanted Z hZ N T hT2 hN hT q hq hr cov δ hδ _ (by positivity),
    ae_event _ fun n => ?_, by simp, ?_⟩
  · filter_upwards [noise_nonconstant (N := N n) (P n) (Z n) (hZ n) (hT2 n)] with ω hω
    simpa using hω
  · filter_upwards [hlim.eventually (gt_mem_nhds (show min 1 (1 / q) < min 1 (1 / q) + ε by linarith))] with n hn ω hω
    by_contra hc
    simp only [mem_union, not_or, mem_ofPred_eq, not_not, not_le, mem_empty_iff_false] at hc
    obtain ⟨⟨h1, h2⟩, -⟩ := hc
    have hNp : (0 : ℝ) < N n := by exact_mod_cast (by have := hN2 n; omega : 0 < N n)
    have hTp : (0 : ℝ) < T n := by exact_mod_cast (by have := hT2 n; omega : 0 < T n)
    have b1 : (cnt (wantedMatrix (noise (Z n) (N n) (T n) ω) cov) 0 : ℝ) / N n ≤ min 1 (1 / ((N n : ℝ) / T n)) := by
      have h3 := cnt_rank (noise (Z n) (N n) (T n) ω) cov (hN2 n) (hT2 n) (fun _ => h2) 0 le_rfl
      rw [le_min_iff] at h3 ⊢
      rw [one_div_div]
      exact ⟨div_le_one_of_le₀ (by exact_mod_cast h3.1) hNp.le, div_le_div_of_nonneg_right (by exact_mod_cast h3.2) hNp.le⟩
    have b2 : (cnt (wantedMatrix (noise (Z n) (N n) (T n) ω) cov) δ : ℝ) / N n ≤ (cnt (wantedMatrix (noise (Z n) (N n) (T n) ω) cov) 0 : ℝ) / N n := by
      refine div_le_div_of_nonneg_right ?_ hNp.le
      have : cnt (wantedMatrix (noise (Z n) (N n) (T n) ω) cov) δ ≤ cnt (wantedMatrix (noise (Z n) (N n) (T n) ω) cov) 0 := by
        rw [cnt, cnt]
        conv_lhs => rw [← Multiset.coe_toList (wantedMatrix (noise (Z n) (N n) (T n) ω) cov).charpoly.roots]
        conv_rhs => rw [← Multiset.coe_toList (wantedMatrix (noise (Z n) (N n) (T n) ω) cov).charpoly.roots]
        rw [← countGT_eq, ← countGT_eq]
        exact countGT_anti _ hδ.le
      exact_mod_cast this
    have b3 := abs_lt.mp h1
    have b4 := abs_lt.mp (htail δ hδ le_rfl)
    have : |(cnt (wantedMatrix (noise (Z n) (N n) (T n) ω) cov) 0 : ℝ) / N n - min 1 (1 / q)| < ε := by
      rw [abs_lt]
      constructor <;> linarith [b3.1, b3.2, b4.1, b4.2]
    exact absurd hω (not_le.mpr this)

end Limits

/-! ## C150 -/

/-- **C150 (mass).** The Marchenko-Pastur density has total mass 1 for `q ≤ 1` and `1/q` for `q ≥ 1`. -/
theorem C150_mass (q : ℝ) (hq : 0 < q) : ∫ x in Ioi 0, mpDensity q x = min 1 (1 / q) := mpMass q hq

variable (P : ℕ → Measure Ω) [∀ n, IsProbabilityMeasure (P n)]

/-- **C150.** Let `from_time_series` be given `N` series of `T` independent standard normal values each, with `N` and `T` growing and `N/T` tending to `q`, and use an exact eigenvalue routine. Then for
every `a ≥ 0` the number of returned eigenvalues above `a`, divided by `N`, tends in probability to the integral of the Marchenko-Pastur density for `q` above `a`, for correlations and for covariances,
with and without the zeros. -/
theorem C150_noise (eigvalsh : EigSolver) (hs : ExactSolver eigvalsh) (float : String → Option ℝ) (Z : ℕ → ℕ → Ω → ℝ) (hZ : ∀ n, NormalDraws (P n) (Z n)) (N T : ℕ → ℕ)
    (hN2 : ∀ n, 2 ≤ N n) (hT2 : ∀ n, 2 ≤ T n) (hN : Tendsto N atTop atTop) (hT : Tendsto T atTop atTop) (q : ℝ) (hq : 0 < q) (hr : Tendsto (fun n => (N n : ℝ) / T n) atTop (𝓝 q))
    (cov tr : Bool) (s : ℕ → Ω → SeriesEigs)
    (h : ∀ n, ∀ᵐ ω ∂(P n), fromTimeSeries eigvalsh float (.dim2 (N n) (T n) (noise (Z n) (N n) (T n) ω)) cov tr (.str "negative") 1 = .ok (s n ω)) (a : ℝ) (ha : 0 ≤ a) :
    InProbability P (fun n ω => (countGT (s n ω).obj.vals a : ℝ) / N n) (∫ x in Ioi a, mpDensity q x) := by
  refine inProb_congr _ _ _ (fun n => ?_) (inProb_all Z hZ N T hN2 hT2 hN hT q hq hr cov a ha)
  filter_upwards [noise_nonconstant (N := N n) (P n) (Z n) (hZ n) (hT2 n), h n] with ω h1 h2
  rw [series_count eigvalsh hs float _ cov (hT2 n) (fun _ => h1) tr _ h2 a ha]

/-- **C150 (time_series_eigs).** The same for `time_series_eigs(n, t)`. -/
theorem C150_time_series (R : Rng σ) (eigvalsh : EigSolver) (hs : ExactSolver eigvalsh) (s : ℕ → Ω → σ) (hX : ∀ n, NormalDraws (P n) fun k ω => draw R (s n ω) k) (N T : ℕ → ℕ)
    (hN2 : ∀ n, 2 ≤ N n) (hT2 : ∀ n, 2 ≤ T n) (hN : Tendsto N atTop atTop) (hT : Tendsto T atTop atTop) (q : ℝ) (hq : 0 < q) (hr : Tendsto (fun n => (N n : ℝ) / T n) atTop (𝓝 q)) :
    ∃ vals : ℕ → Ω → List ℝ, (∀ n ω, (timeSeriesEigs R eigvalsh (N n) (T n) "normal" (s n ω)).1 = .ok (vals n ω)) ∧
      ∀ a ≥ 0, InProbability P (fun n ω => (countGT (vals n ω) a : ℝ) / N n) (∫ x in Ioi a, mpDensity q x) := by
  set Z : ℕ → ℕ → Ω → ℝ := fun n k ω => draw R (s n ω) k with hZdef
  have hdata : ∀ n ω, (fun (i : Fin (N n)) (j : Fin (T n)) => (normals R (N n * T n) (s n ω)).1.getD (i.val * T n + j.val) 0 : Matrix (Fin (N n)) (Fin (T n)) ℝ) = noise (Z n) (N n) (T n) ω := by
    intro n ω
    funext i j
    have hlt : i.val * T n + j.val < N n * T n := by
      have := i.isLt
      have := j.isLt
      nlinarith
    rw [normals_draws]
    simp [noise, Z, List.getD, hlt]
  refine ⟨fun n ω => eigvalsh (N n) (correlateFast (noise (Z n) (N n) (T n) ω) 0), fun n ω => ?_, fun a ha => ?_⟩
  · have := hN2 n
    simp only [timeSeriesEigs, if_true, hdata, if_neg (show N n ≠ 1 by omega)]
  · refine inProb_congr _ _ _ (fun n => Eventually.of_forall fun ω => ?_) (inProb_all Z hX N T hN2 hT2 hN hT q hq hr false a ha)
    have := hT2 n
    simp only
    rw [countGT_eq, correlateFast_eq _ 0 (by omega), hs _ _ (corrMatrix_isSymm _), cnt]
    simp [wantedMatrix]

/-! ## The cut points -/

variable {P}

/-- The largest eigenvalue is of smaller order than `N`. -/
theorem max_small (Z : ℕ → ℕ → Ω → ℝ) (hZ : ∀ n, NormalDraws (P n) (Z n)) (N T : ℕ → ℕ) (hN2 : ∀ n, 2 ≤ N n) (hT2 : ∀ n, 2 ≤ T n)
    (hN : Tendsto N atTop atTop) (hT : Tendsto T atTop atTop) (q : ℝ) (hr : Tendsto (fun n => (N n : ℝ) / T n) atTop (𝓝 q)) (cov : Bool) (δ : ℝ) (hδ : 0 < δ) :
    Tendsto (fun n => P n {ω | (δ * N n) ^ 2 ≤ (wantedMatrix (noise (Z n) (N n) (T n) ω) cov * wantedMatrix (noise (Z n) (N n) (T n) ω) cov).trace}) atTop (𝓝 0) := by
  have hTr : Tendsto (fun n => (T n : ℝ)) atTop atTop := tendsto_natCast_atTop_atTop.comp hT
  have hNr : Tendsto (fun n => (N n : ℝ)) atTop atTop := tendsto_natCast_atTop_atTop.comp hN
  have hbound : ∀ n, P n {ω | (δ * N n) ^ 2 ≤ (wantedMatrix (noise (Z n) (N n) (T n) ω) cov * wantedMatrix (noise (Z n) (N n) (T n) ω) cov).trace} ≤
      ENNReal.ofReal (((N n : ℝ)⁻¹ + ((N n : ℝ) / T n + (T n : ℝ)⁻¹) * 2 * (N n : ℝ)⁻¹) / δ ^ 2) := by
    intro n
    have hTp : (2 : ℝ) ≤ T n := by exact_mod_cast hT2 n
    have hNp : (2 : ℝ) ≤ N n := by exact_mod_cast hN2 n
    obtain ⟨-, hm⟩ := mean_wanted (N := N n) (P n) (Z n) (hZ n) (by have := hN2 n; omega) (hT2 n) cov
    set f : Ω → ℝ := fun ω => (wantedMatrix (noise (Z n) (N n) (T n) ω) cov * wantedMatrix (noise (Z n) (N n) (T n) ω) cov).trace with hf
    have hc : (-1 : ℝ) ≤ (if cov then 1 else -1) ∧ (if cov then (1 : ℝ) else -1) ≤ 1 := by cases cov <;> norm_num
    have hpos : 0 < (N n : ℝ) * (1 + ((N n : ℝ) + if cov then 1 else -1) / ((T n : ℝ) - 1)) := by
      have : 0 ≤ ((N n : ℝ) + if cov then 1 else -1) / ((T n : ℝ) - 1) := div_nonneg (by linarith [hc.1]) (by linarith)
      positivity
    have hi : Integrable f (P n) := by
      by_contra hni
      rw [integral_undef hni] at hm
      linarith
    have h0 : ∀ ω, 0 ≤ f ω := by
      intro ω
      rw [hf]
      simp only
      rw [trace_sq _ (wantedMatrix_isSymm _ _)]
      exact add_nonneg (Finset.sum_nonneg fun i _ => sq_nonneg _) (Finset.sum_nonneg fun i _ => Finset.sum_nonneg fun j _ => sq_nonneg _)
    have h2 := mul_meas_ge_le_lintegral₀ (μ := P n) (f := fun ω => ENNReal.ofReal (f ω)) hi.aemeasurable.ennreal_ofReal (ENNReal.ofReal ((δ * N n) ^ 2))
    rw [← ofReal_integral_eq_lintegral_ofReal hi (Eventually.of_forall h0), hm] at h2
    have h3 : P n {ω | (δ * N n) ^ 2 ≤ f ω} ≤ ENNReal.ofReal ((N n : ℝ) * (1 + ((N n : ℝ) + if cov then 1 else -1) / ((T n : ℝ) - 1))) / ENNReal.ofReal ((δ * N n) ^ 2) := by
      rw [ENNReal.le_div_iff_mul_le (Or.inl (ENNReal.ofReal_pos.mpr (by positivity)).ne') (Or.inl ENNReal.ofReal_ne_top), mul_comm]
      refine le_trans ?_ h2
      gcongr with ω
      exact fun hω => ENNReal.ofReal_le_ofReal hω
    refine h3.trans ?_
    rw [← ENNReal.ofReal_div_of_pos (by positivity)]
    refine ENNReal.ofReal_le_ofReal ?_
    rw [show (N n : ℝ) * (1 + ((N n : ℝ) + if cov then 1 else -1) / ((T n : ℝ) - 1)) / (δ * N n) ^ 2 = (N n : ℝ)⁻¹ * (1 + ((N n : ℝ) + if cov then 1 else -1) / ((T n : ℝ) - 1)) / δ ^ 2 by field_simp]
    refine div_le_div_of_nonneg_right ?_ (by positivity)
    have h5 : ((N n : ℝ) + if cov then 1 else -1) / ((T n : ℝ) - 1) ≤ ((N n : ℝ) / T n + (T n : ℝ)⁻¹) * 2 := by
      rw [show ((N n : ℝ) / T n + (T n : ℝ)⁻¹) * 2 = ((N n : ℝ) + 1) * 2 / T n by field_simp, div_le_div_iff₀ (by linarith) (by linarith)]
      nlinarith [hc.2]
    have h6 : 0 ≤ (N n : ℝ)⁻¹ := by positivity
    nlinarith
  have hlim : Tendsto (fun n => ENNReal.ofReal (((N n : ℝ)⁻¹ + ((N n : ℝ) / T n + (T n : ℝ)⁻¹) * 2 * (N n : ℝ)⁻¹) / δ ^ 2)) atTop (𝓝 (ENNReal.ofReal ((0 + (q + 0) * 2 * 0) / δ ^ 2))) := by
    have i1 := tendsto_inv_atTop_zero.comp hNr
    have i2 := tendsto_inv_atTop_zero.comp hTr
    exact ENNReal.tendsto_ofReal ((i1.add (((hr.add i2).mul_const 2).mul i1)).div_const _)
  rw [mul_zero, zero_add, zero_div, ENNReal.ofReal_zero] at hlim
  exact tendsto_of_tendsto_of_tendsto_of_le_of_le tendsto_const_nhds hlim (fun n => zero_le) hbound

/-- Bounds near the edges. -/
theorem near_edges (q : ℝ) (hq : 0 < q) (ε : ℝ) (hε : 0 < ε) : ∃ b c, (1 - √q) ^ 2 < b ∧ 0 < c ∧ c < (1 + √q) ^ 2 ∧ 0 < b ∧ min 1 (1 / q) - ε < tail q b ∧ tail q c < ε := by
  have hs : 0 < √q := Real.sqrt_pos.mpr hq
  obtain ⟨b, hb1, hb2, hb3⟩ : ∃ b, (1 - √q) ^ 2 < b ∧ 0 < b ∧ min 1 (1 / q) - ε < tail q b := by
    rcases (sq_nonneg (1 - √q)).lt_or_eq with h | h
    · set l := (1 - √q) ^ 2
      refine ⟨l + ε / 2 * (l * √q), by linarith [mul_pos (show 0 < ε / 2 by positivity) (mul_pos h hs)], by positivity, ?_⟩
      have h1 := tail_lipschitz q hq l (l + ε / 2 * (l * √q)) h (by linarith [mul_pos (show 0 < ε / 2 by positivity) (mul_pos h hs)])
      rw [add_sub_cancel_left, mul_div_assoc, div_self (by positivity), mul_one, tail_full q hq l h le_rfl] at h1
      linarith
    · rw [← h]
      obtain ⟨δ, hδ, ht⟩ := tail_tendsto q hq ε hε
      have := abs_lt.mp (ht δ hδ le_rfl)
      exact ⟨δ, hδ, hδ, by linarith [this.1]⟩
  set u := (1 + √q) ^ 2 with hu
  have hup : 0 < u := by positivity
  refine ⟨b, max (u / 2) (u - ε / 2 * (u / 2 * √q)), hb1, lt_max_of_lt_left (by positivity), max_lt (by linarith) (by linarith [mul_pos (show 0 < ε / 2 by positivity) (mul_pos (show 0 < u / 2 by positivity) hs)]), hb2, hb3, ?_⟩
  set c := max (u / 2) (u - ε / 2 * (u / 2 * √q)) with hc
  have hc1 : u / 2 ≤ c := le_max_left _ _
  have hc2 : u - ε / 2 * (u / 2 * √q) ≤ c := le_max_right _ _
  have hcu : c ≤ u := max_le (by linarith) (by linarith [mul_pos (show 0 < ε / 2 by positivity) (mul_pos (show 0 < u / 2 by positivity) hs)])
  have h1 := tail_lipschitz q hq c u (by linarith) hcu
  rw [tail_zero q hq u (by rw [hu]), sub_zero] at h1
  have h2 : (u - c) / (c * √q) ≤ ε / 2 := by
    rw [div_le_iff₀ (by have : 0 < c := by linarith
                        positivity)]
    have h3 : ε / 2 * (u / 2 * √q) ≤ ε / 2 * (c * √q) := by
      apply mul_le_mul_of_nonneg_left _ (by positivity)
      exact mul_le_mul_of_nonneg_right hc1 hs.le
    linarith
  linarith

/-- What a call of `trim_marchenko_pastur` gives for noise. -/
theorem trim_call (eigvalsh : EigSolver) (hs : ExactSolver eigvalsh) (float : String → Option ℝ) (Z : ℕ → ℕ → Ω → ℝ) (hZ : ∀ n, NormalDraws (P n) (Z n)) (N T : ℕ → ℕ)
    (hT2 : ∀ n, 2 ≤ T n) (cov tr : Bool) (s : ℕ → Ω → SeriesEigs)
    (h : ∀ n, ∀ᵐ ω ∂(P n), fromTimeSeries eigvalsh float (.dim2 (N n) (T n) (noise (Z n) (N n) (T n) ω)) cov tr (.str "negative") 1 = .ok (s n ω)) (largest shifted : Bool) :
    ∀ n, ∀ᵐ ω ∂(P n), (∀ i, NonConstant (noise (Z n) (N n) (T n) ω i)) ∧ ∃ m, 0 ≤ m ∧ m ^ 2 ≤ (wantedMatrix (noise (Z n) (N n) (T n) ω) cov * wantedMatrix (noise (Z n) (N n) (T n) ω) cov).trace ∧
      ∃ o lo hi, trimMarchenkoPastur (some (s n ω).seriesN) (some (s n ω).seriesT) (s n ω).obj.vals none none largest shifted = .ok (o, lo, hi) ∧
      lo = (if shifted then 1 - m / N n else 1) * (1 - √((N n : ℝ) / T n)) ^ 2 ∧ hi = (if shifted then 1 - m / N n else 1) * (1 + √((N n : ℝ) / T n)) ^ 2 ∧
      (largest = true → o.vals = (s n ω).obj.vals.filter fun v => decide (hi < v)) ∧ (largest = false → o.vals = (s n ω).obj.vals.filter fun v => decide (lo < v ∧ v < hi)) := by
  intro n
  filter_upwards [noise_nonconstant (N := N n) (P n) (Z n) (hZ n) (hT2 n), h n] with ω h1 h2
  refine ⟨h1, ?_⟩
  have h' : fromSeries eigvalsh float (noise (Z n) (N n) (T n) ω) cov tr (.str "negative") = .ok (s n ω) := by simpa [fromTimeSeries] using h2
  obtain ⟨hsN, hsT⟩ := fromSeries_sizes _ _ _ _ _ _ _ h'
  obtain ⟨e, e', m0, -, -, hmax, hobj⟩ := (fromSeries_eq _ _ _ _ _ _ _).mp h'
  have hasc : Ascending (s n ω).obj.vals := by rw [hobj]; exact npSort_ascending _
  have hne : (s n ω).obj.vals ≠ [] := by
    intro hnil
    rw [hobj] at hnil
    have hp := (npSort_perm e').length_eq
    simp only [mkSeriesEigs] at hnil
    rw [hnil, List.length_nil] at hp
    have : e' = [] := List.eq_nil_of_length_eq_zero hp.symm
    rw [this] at hmax
    simp [npMax] at hmax
  obtain ⟨m, -, hm⟩ := npMax_ok hne
  have hmem := hm.1
  have hsum := (series_sums eigvalsh hs float _ cov (hT2 n) (fun _ => h1) tr _ h2).2
  have hm0 : 0 ≤ m := by
    have hnn := C45_nonneg (noise (Z n) (N n) (T n) ω) cov (hT2 n) fun _ => h1
    cases tr
    · rw [← C45_spectrum eigvalsh hs float _ cov (hT2 n) (fun _ => h1) _ _ h2] at hnn
      exact hnn m (Multiset.mem_add.mpr (Or.inl (by simpa using hmem)))
    · have h3 := (C43_spectrum eigvalsh hs float _ cov (hT2 n) (fun _ => h1) _ h2).2
      have : m ∈ ((s n ω).obj.vals : Multiset ℝ) := by simpa using hmem
      rw [h3] at this
      exact (Multiset.mem_filter.mp this).2.le
  obtain ⟨o, lo, hi, h4, h5, h6, h7, h8⟩ := C41_trim (some (s n ω).seriesN) (some (s n ω).seriesT) (s n ω).obj.vals hasc none none largest shifted (N n) (T n) (by simp [sizeUsed, hsN]) (by simp [sizeUsed, hsT])
    (by have := hT2 n; omega) m hmem hm.2
  refine ⟨m, hm0, ?_, o, lo, hi, h4, h5, h6, h7, h8⟩
  rw [← hsum, sumSq]
  exact List.single_le_sum (fun y hy => by obtain ⟨x, -, rfl⟩ := List.mem_map.mp hy; positivity) _ (List.mem_map.mpr ⟨m, hmem, rfl⟩)

/-- **C151.** Under the hypotheses of C150 (noise), let `trim_marchenko_pastur` be called on the object `from_time_series` returned, without sizes. Almost surely it succeeds; the number of values it
returns, divided by the number `N` of series, tends in probability to 0 with `largest=True` and to `min(1, 1/q)`, the fraction of non-zero eigenvalues, with `largest=False`, shifted or not. -/
theorem C151_noise (eigvalsh : EigSolver) (hs : ExactSolver eigvalsh) (float : String → Option ℝ) (Z : ℕ → ℕ → Ω → ℝ) (hZ : ∀ n, NormalDraws (P n) (Z n)) (N T : ℕ → ℕ)
    (hN2 : ∀ n, 2 ≤ N n) (hT2 : ∀ n, 2 ≤ T n) (hN : Tendsto N atTop atTop) (hT : Tendsto T atTop atTop) (q : ℝ) (hq : 0 < q) (hr : Tendsto (fun n => (N n : ℝ) / T n) atTop (𝓝 q))
    (cov tr : Bool) (s : ℕ → Ω → SeriesEigs)
    (h : ∀ n, ∀ᵐ ω ∂(P n), fromTimeSeries eigvalsh float (.dim2 (N n) (T n) (noise (Z n) (N n) (T n) ω)) cov tr (.str "negative") 1 = .ok (s n ω)) (largest shifted : Bool) :
    (∀ n, ∀ᵐ ω ∂(P n), ∃ r, trimMarchenkoPastur (some (s n ω).seriesN) (some (s n ω).seriesT) (s n ω).obj.vals none none largest shifted = .ok r) ∧
    ∀ r : ℕ → Ω → Obj ℝ × ℝ × ℝ, (∀ n, ∀ᵐ ω ∂(P n), trimMarchenkoPastur (some (s n ω).seriesN) (some (s n ω).seriesT) (s n ω).obj.vals none none largest shifted = .ok (r n ω)) →
      InProbability P (fun n ω => ((r n ω).1.vals.length : ℝ) / N n) (if largest then 0 else min 1 (1 / q)) := by
  have hs0 : 0 < √q := Real.sqrt_pos.mpr hq
  have key := trim_call eigvalsh hs float Z hZ N T hT2 cov tr s h largest shifted
  refine ⟨fun n => (key n).mono fun ω hω => by obtain ⟨-, m, -, -, o, lo, hi, h4, -⟩ := hω; exact ⟨_, h4⟩, fun r hr' => ?_⟩
  refine inProb_of_cover _ _ fun ε hε => ?_
  obtain ⟨b, c, hb, hc0, hc, hb0, htb, htc⟩ := near_edges q hq (ε / 4) (by positivity)
  -- cut points
  obtain ⟨δ, hδ0, hδ1, hδ2⟩ : ∃ δ > 0, δ ≤ 1 / 2 ∧ c < (1 - δ) * (1 + √q) ^ 2 := by
    have hu : 0 < (1 + √q) ^ 2 := by positivity
    have hx : 0 < ((1 + √q) ^ 2 - c) / (2 * (1 + √q) ^ 2) := div_pos (by linarith) (by positivity)
    refine ⟨min (1 / 2) (((1 + √q) ^ 2 - c) / (2 * (1 + √q) ^ 2)), lt_min (by norm_num) hx, min_le_left _ _, ?_⟩
    have h1 : min (1 / 2) (((1 + √q) ^ 2 - c) / (2 * (1 + √q) ^ 2)) * (1 + √q) ^ 2 ≤ ((1 + √q) ^ 2 - c) / 2 := by
      have h2 := mul_le_mul_of_nonneg_right (min_le_right (1 / 2) (((1 + √q) ^ 2 - c) / (2 * (1 + √q) ^ 2))) hu.le
      refine h2.trans (le_of_eq ?_)
      field_simp
    linarith
  have hsr : Tendsto (fun n => √((N n : ℝ) / T n)) atTop (𝓝 (√q)) := hr.sqrt
  have ev1 : ∀ᶠ n in atTop, (1 - √((N n : ℝ) / T n)) ^ 2 < b := ((tendsto_const_nhds.sub hsr).pow 2).eventually (gt_mem_nhds hb)
  have ev2 : ∀ᶠ n in atTop, c < (1 - δ) * (1 + √((N n : ℝ) / T n)) ^ 2 := (((tendsto_const_nhds.add hsr).pow 2).const_mul (1 - δ)).eventually (lt_mem_nhds hδ2)
  have hall := fun a ha => inProb_all Z hZ N T hN2 hT2 hN hT q hq hr cov a ha
  set M := fun n ω => wantedMatrix (noise (Z n) (N n) (T n) ω) cov with hM
  let bad : ℕ → Set Ω := fun n => {ω | ¬ ((fromTimeSeries eigvalsh float (.dim2 (N n) (T n) (noise (Z n) (N n) (T n) ω)) cov tr (.str "negative") 1 = .ok (s n ω)) ∧
    (trimMarchenkoPastur (some (s n ω).seriesN) (some (s n ω).seriesT) (s n ω).obj.vals none none largest shifted = .ok (r n ω)) ∧
    ((∀ i, NonConstant (noise (Z n) (N n) (T n) ω i)) ∧ ∃ m, 0 ≤ m ∧ m ^ 2 ≤ (M n ω * M n ω).trace ∧
      ∃ o lo hi, trimMarchenkoPastur (some (s n ω).seriesN) (some (s n ω).seriesT) (s n ω).obj.vals none none largest shifted = .ok (o, lo, hi) ∧
      lo = (if shifted then 1 - m / N n else 1) * (1 - √((N n : ℝ) / T n)) ^ 2 ∧ hi = (if shifted then 1 - m / N n else 1) * (1 + √((N n : ℝ) / T n)) ^ 2 ∧
      (largest = true → o.vals = (s n ω).obj.vals.filter fun v => decide (hi < v)) ∧ (largest = false → o.vals = (s n ω).obj.vals.filter fun v => decide (lo < v ∧ v < hi))))}
  have hbad : Tendsto (fun n => P n (bad n)) atTop (𝓝 0) := ae_event bad fun n => by
    filter_upwards [h n, hr' n, key n] with ω h1 h2 h3
    intro hω
    exact hω ⟨h1, h2, h3⟩
  have hsmall := max_small Z hZ N T hN2 hT2 hN hT q hr cov δ hδ0
  have hdev := fun a ha => hall a ha (ε / 4) (by positivity)
  let E1 : ℕ → Set Ω := fun n => bad n ∪ {ω | (δ * N n) ^ 2 ≤ (M n ω * M n ω).trace}
  let E2 : ℕ → Set Ω := fun n => {ω | ε / 4 ≤ |(cnt (M n ω) c : ℝ) / N n - ∫ x in Ioi c, mpDensity q x|} ∪ {ω | ε / 4 ≤ |(cnt (M n ω) b : ℝ) / N n - ∫ x in Ioi b, mpDensity q x|}
  let E3 : ℕ → Set Ω := fun n => {ω | ε / 4 ≤ |(cnt (M n ω) 0 : ℝ) / N n - ∫ x in Ioi 0, mpDensity q x|}
  have union0 : ∀ A B : ℕ → Set Ω, Tendsto (fun n => P n (A n)) atTop (𝓝 0) → Tendsto (fun n => P n (B n)) atTop (𝓝 0) → Tendsto (fun n => P n (A n ∪ B n)) atTop (𝓝 0) := by
    intro A B hA hB
    have := hA.add hB
    rw [add_zero] at this
    exact tendsto_of_tendsto_of_tendsto_of_le_of_le tendsto_const_nhds this (fun n => zero_le) fun n => measure_union_le _ _
  refine ⟨E1, E2, E3, union0 _ _ hbad hsmall, union0 _ _ (hdev c hc0.le) (hdev b hb0.le), hdev 0 le_rfl, ?_⟩
  filter_upwards [ev1, ev2] with n hn1 hn2 ω hω
  by_contra hcon
  simp only [E1, E2, E3, mem_union, not_or, mem_ofPred_eq, not_le] at hcon
  obtain ⟨⟨⟨g1, g2⟩, g3, g4⟩, g5⟩ := hcon
  simp only [bad, mem_ofPred_eq, not_not] at g1
  obtain ⟨g6, g7, g8, m, hm0, hm2, o, lo, hi, h4, h5, h6, h7, h8⟩ := g1
  have hNp : (0 : ℝ) < N n := by exact_mod_cast (by have := hN2 n; omega : 0 < N n)
  have hro : r n ω = (o, lo, hi) := by
    rw [h4] at g7
    exact (Except.ok.inj g7).symm
  have hmN : m / N n < δ := by
    rw [div_lt_iff₀ hNp]
    exact lt_of_pow_lt_pow_left₀ 2 (by positivity) (hm2.trans_lt g2)
  have hm0' : 0 ≤ m / N n := by positivity
  have hk : 1 - δ ≤ (if shifted then 1 - m / N n else 1) ∧ (if shifted then 1 - m / N n else 1) ≤ 1 := by
    split_ifs
    · constructor <;> linarith
    · constructor <;> linarith
  set k := (if shifted then 1 - m / N n else 1) with hkdef
  have hlo0 : 0 ≤ lo := by rw [h5]; exact mul_nonneg (by linarith [hk.1]) (sq_nonneg _)
  have hlob : lo ≤ b := by
    rw [h5]
    have := mul_le_of_le_one_left (sq_nonneg (1 - √((N n : ℝ) / T n))) hk.2
    linarith
  have hhic : c < hi := by
    rw [h6]
    have := mul_le_mul_of_nonneg_right hk.1 (sq_nonneg (1 + √((N n : ℝ) / T n)))
    linarith
  have hcount := fun a (ha : 0 ≤ a) => series_count eigvalsh hs float _ cov (hT2 n) (fun _ => g8) tr _ g6 a ha
  have t3 := abs_lt.mp g3
  have t4 := abs_lt.mp g4
  have t5 := abs_lt.mp g5
  rw [mpMass q hq] at t5
  have htc' : ∫ x in Ioi c, mpDensity q x < ε / 4 := htc
  have htb' : min 1 (1 / q) - ε / 4 < ∫ x in Ioi b, mpDensity q x := htb
  have hfin : |((r n ω).1.vals.length : ℝ) / N n - if largest then 0 else min 1 (1 / q)| < ε := by
    rw [hro]
    cases hl : largest
    · simp only [Bool.false_eq_true, if_false]
      rw [h8 hl]
      have u1 : ((s n ω).obj.vals.filter fun v => decide (lo < v ∧ v < hi)).length ≤ cnt (M n ω) 0 := by
        rw [hM, ← hcount 0 le_rfl, countGT]
        refine (List.monotone_filter_right _ fun v hv => ?_).length_le
        simp only [decide_eq_true_eq] at hv ⊢
        exact hlo0.trans_lt hv.1
      have u2 : cnt (M n ω) b ≤ ((s n ω).obj.vals.filter fun v => decide (lo < v ∧ v < hi)).length + cnt (M n ω) c := by
        rw [hM, ← hcount b hb0.le, ← hcount c hc0.le, countGT, countGT]
        simp only [← List.countP_eq_length_filter]
        have h9 : ∀ l : List ℝ, l.countP (fun x => decide (b < x)) ≤ l.countP (fun v => decide (lo < v ∧ v < hi)) + l.countP (fun x => decide (c < x)) := by
          intro l
          induction l with
          | nil => simp
          | cons x l ih =>
            simp only [List.countP_cons, decide_eq_true_eq]
            have : (if b < x then 1 else 0) ≤ (if lo < x ∧ x < hi then 1 else 0) + (if c < x then 1 else 0) := by
              by_cases h1 : b < x
              · by_cases h2 : x < hi
                · rw [if_pos h1, if_pos ⟨hlob.trans_lt h1, h2⟩]
                  omega
                · by_cases h3 : c < x
                  · rw [if_pos h1, if_pos h3]
                    omega
                  · exfalso
                    exact h3 (hhic.trans_le (not_lt.mp h2))
              · rw [if_neg h1]
                omega
            omega
        exact h9 _
      have v1 : (((s n ω).obj.vals.filter fun v => decide (lo < v ∧ v < hi)).length : ℝ) / N n ≤ (cnt (M n ω) 0 : ℝ) / N n := div_le_div_of_nonneg_right (by exact_mod_cast u1) hNp.le
      have v2 : (cnt (M n ω) b : ℝ) / N n ≤ (((s n ω).obj.vals.filter fun v => decide (lo < v ∧ v < hi)).length : ℝ) / N n + (cnt (M n ω) c : ℝ) / N n := by
        rw [← add_div]
        exact div_le_div_of_nonneg_right (by exact_mod_cast u2) hNp.le
      rw [abs_lt]
      constructor <;> linarith [t3.1, t3.2, t4.1, t4.2, t5.1, t5.2]
    · simp only [if_true, sub_zero]
      rw [h7 hl]
      have u1 : ((s n ω).obj.vals.filter fun v => decide (hi < v)).length ≤ cnt (M n ω) c := by
        rw [hM, ← hcount c hc0.le]
        exact countGT_anti _ hhic.le
      have v1 : (((s n ω).obj.vals.filter fun v => decide (hi < v)).length : ℝ) / N n ≤ (cnt (M n ω) c : ℝ) / N n := div_le_div_of_nonneg_right (by exact_mod_cast u1) hNp.le
      have v0 : 0 ≤ (((s n ω).obj.vals.filter fun v => decide (hi < v)).length : ℝ) / N n := by positivity
      rw [abs_lt]
      constructor <;> linarith [t3.1, t3.2]
  exact absurd hω (not_le.mpr hfin)

-- C150, C151: as many series as time points; of the values `from_time_series` returns for noise, almost all are positive, a fraction tending to 0 is above the upper cut point, and almost all lie between the cut points
example : ∃ (ev : EigSolver) (s : ℕ → (ℕ → ℝ) → SeriesEigs), ExactSolver ev ∧
    (∀ n, ∀ᵐ ω ∂(Measure.infinitePi fun _ : ℕ => gaussianReal 0 1), fromTimeSeries ev (fun _ => none) (.dim2 (n + 2) (n + 2) (noise (fun k (ω : ℕ → ℝ) => draw streamRng ω k) (n + 2) (n + 2) ω)) false true (.str "negative") 1 = .ok (s n ω)) ∧
    InProbability (fun _ => Measure.infinitePi fun _ : ℕ => gaussianReal 0 1) (fun n ω => (countGT (s n ω).obj.vals 0 : ℝ) / ((n + 2 : ℕ) : ℝ)) 1 ∧
    ∃ r : ℕ → (ℕ → ℝ) → Obj ℝ × ℝ × ℝ,
      (∀ n, ∀ᵐ ω ∂(Measure.infinitePi fun _ : ℕ => gaussianReal 0 1), trimMarchenkoPastur (some (s n ω).seriesN) (some (s n ω).seriesT) (s n ω).obj.vals none none false true = .ok (r n ω)) ∧
      InProbability (fun _ => Measure.infinitePi fun _ : ℕ => gaussianReal 0 1) (fun n ω => ((r n ω).1.vals.length : ℝ) / ((n + 2 : ℕ) : ℝ)) 1 := by
  have hs : ExactSolver fun _ M => M.charpoly.roots.toList := fun _ _ _ => Multiset.coe_toList _
  set ev : EigSolver := fun _ M => M.charpoly.roots.toList
  have hZ := stream_draws
  have hex := fun n : ℕ => (C146_noise (Measure.infinitePi fun _ : ℕ => gaussianReal 0 1) _ ev hs (fun _ => none) hZ (show 2 ≤ n + 2 by omega) (show 2 ≤ n + 2 by omega) false true).1
  classical
  let s : ℕ → (ℕ → ℝ) → SeriesEigs := fun n ω =>
    if h : ∃ s, fromTimeSeries ev (fun _ => none) (.dim2 (n + 2) (n + 2) (noise (fun k (ω : ℕ → ℝ) => draw streamRng ω k) (n + 2) (n + 2) ω)) false true (.str "negative") 1 = .ok s then h.choose
    else ⟨⟨[], [], none⟩, 0, 0, (0, 0), (0, 0)⟩
  have h : ∀ n, ∀ᵐ ω ∂(Measure.infinitePi fun _ : ℕ => gaussianReal 0 1),
      fromTimeSeries ev (fun _ => none) (.dim2 (n + 2) (n + 2) (noise (fun k (ω : ℕ → ℝ) => draw streamRng ω k) (n + 2) (n + 2) ω)) false true (.str "negative") 1 = .ok (s n ω) := by
    intro n
    filter_upwards [hex n] with ω hω
    simp only [s, dif_pos hω]
    exact hω.choose_spec
  have hN : Tendsto (fun n : ℕ => n + 2) atTop atTop := tendsto_add_atTop_nat 2
  have hr : Tendsto (fun n : ℕ => ((n + 2 : ℕ) : ℝ) / ((n + 2 : ℕ) : ℝ)) atTop (𝓝 1) := tendsto_const_nhds.congr fun n => by
    rw [div_self]
    positivity
  refine ⟨ev, s, hs, h, ?_, ?_⟩
  · have := C150_noise (fun _ => Measure.infinitePi fun _ : ℕ => gaussianReal 0 1) ev hs (fun _ => none) (fun _ k (ω : ℕ → ℝ) => draw streamRng ω k) (fun _ => hZ) (fun n => n + 2) (fun n => n + 2)
      (fun n => by omega) (fun n => by omega) hN hN 1 one_pos hr false true s h 0 le_rfl
    rw [C150_mass 1 one_pos] at this
    simpa using this
  · obtain ⟨h1, h2⟩ := C151_noise (P := fun _ => Measure.infinitePi fun _ : ℕ => gaussianReal 0 1) ev hs (fun _ => none) (fun _ k (ω : ℕ → ℝ) => draw streamRng ω k) (fun _ => hZ) (fun n => n + 2) (fun n => n + 2)
      (fun n => by omega) (fun n => by omega) hN hN 1 one_pos hr false true s h false true
    let r : ℕ → (ℕ → ℝ) → Obj ℝ × ℝ × ℝ := fun n ω =>
      if h : ∃ r, trimMarchenkoPastur (some (s n ω).seriesN) (some (s n ω).seriesT) (s n ω).obj.vals none none false true = .ok r then h.choose else (⟨[], [], none⟩, 0, 0)
    have h3 : ∀ n, ∀ᵐ ω ∂(Measure.infinitePi fun _ : ℕ => gaussianReal 0 1), trimMarchenkoPastur (some (s n ω).seriesN) (some (s n ω).seriesT) (s n ω).obj.vals none none false true = .ok (r n ω) := by
      intro n
      filter_upwards [h1 n] with ω hω
      simp only [r, dif_pos hω]
      exact hω.choose_spec
    refine ⟨r, h3, ?_⟩
    have := h2 r h3
    simpa using this

end Props
end RMT
