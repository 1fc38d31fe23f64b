import Verif.Props.Invariance
import Verif.Props.Helpers
import Verif.Lemmas.NoiseMoments
import Verif.Spec.MarchenkoPastur

/-!
# Property C146: spectra of noise have the first two Marchenko-Pastur moments
-/

namespace RMT
namespace Props
open Gen EigValsM EigM Unfold MeasureTheory ProbabilityTheory Spec Gauss Helpers
open Real Set
open scoped RealInnerProductSpace

variable {σ Ω : Type} [MeasurableSpace Ω] {N T : ℕ}

/-! ## The Marchenko-Pastur moments -/

theorem half_disc (m r : ℝ) (hr : 0 < r) : ∫ x in (m - r)..(m + r), √(r ^ 2 - (x - m) ^ 2) = π * r ^ 2 / 2 ∧
    ∫ x in (m - r)..(m + r), (x - m) * √(r ^ 2 - (x - m) ^ 2) = 0 := by
  constructor
  · have h := intervalIntegral.integral_comp_div_sub (a := m - r) (b := m + r) (fun u => r * √(1 - u ^ 2)) hr.ne' (m / r)
    rw [show (m - r) / r - m / r = -1 by field_simp; ring, show (m + r) / r - m / r = 1 by field_simp; ring] at h
    simp only [intervalIntegral.integral_const_mul _ (fun u : ℝ => √(1 - u ^ 2)), integral_sqrt_one_sub_sq] at h
    have e : ∀ x, r * √(1 - (x / r - m / r) ^ 2) = √(r ^ 2 - (x - m) ^ 2) := by
      intro x
      rw [show r ^ 2 - (x - m) ^ 2 = r ^ 2 * (1 - (x / r - m / r) ^ 2) by field_simp, Real.sqrt_mul (by positivity), Real.sqrt_sq hr.le]
    simp only [e] at h
    rw [h, smul_eq_mul]
    ring
  · have h := intervalIntegral.integral_comp_sub_left (a := m - r) (b := m + r) (fun x => (x - m) * √(r ^ 2 - (x - m) ^ 2)) (2 * m)
    rw [show 2 * m - (m + r) = m - r by ring, show 2 * m - (m - r) = m + r by ring] at h
    have e : ∀ x, (2 * m - x - m) * √(r ^ 2 - (2 * m - x - m) ^ 2) = -((x - m) * √(r ^ 2 - (x - m) ^ 2)) := by
      intro x
      rw [show (2 * m - x - m) ^ 2 = (x - m) ^ 2 by ring]
      ring
    simp only [e, intervalIntegral.integral_neg] at h
    linarith

/-- **C146 (density).** The first two moments of the Marchenko-Pastur density are `1` and `1 + q`. -/
theorem C146_density (q : ℝ) (hq : 0 < q) :
    ∫ x in ((1 - √q) ^ 2)..((1 + √q) ^ 2), x * mpDensity q x = 1 ∧ ∫ x in ((1 - √q) ^ 2)..((1 + √q) ^ 2), x ^ 2 * mpDensity q x = 1 + q := by
  have hs : 0 < √q := Real.sqrt_pos.mpr hq
  have hsq : √q ^ 2 = q := Real.sq_sqrt hq.le
  have hle : (1 - √q) ^ 2 ≤ (1 + √q) ^ 2 := by nlinarith
  have e1 : (1 - √q) ^ 2 = (1 + q) - 2 * √q := by rw [← hsq, Real.sqrt_sq hs.le]; ring
  have e2 : (1 + √q) ^ 2 = (1 + q) + 2 * √q := by rw [← hsq, Real.sqrt_sq hs.le]; ring
  have hd := half_disc (1 + q) (2 * √q) (by linarith)
  have hden : ∀ x, 0 < x → x * mpDensity q x = 1 / (2 * π * q) * √((2 * √q) ^ 2 - (x - (1 + q)) ^ 2) := by
    intro x hx
    unfold mpDensity
    rw [e1, e2, show (1 + q + 2 * √q - x) * (x - (1 + q - 2 * √q)) = (2 * √q) ^ 2 - (x - (1 + q)) ^ 2 by ring]
    have := Real.pi_pos
    field_simp
  have hpos : ∀ x ∈ uIoc ((1 - √q) ^ 2) ((1 + √q) ^ 2), 0 < x := by
    intro x hx
    rw [uIoc_of_le hle] at hx
    exact lt_of_le_of_lt (sq_nonneg _) hx.1
  have hpi := Real.pi_pos
  constructor
  · rw [intervalIntegral.integral_congr_ae (g := fun x => 1 / (2 * π * q) * √((2 * √q) ^ 2 - (x - (1 + q)) ^ 2)) (Filter.Eventually.of_forall fun x hx => hden x (hpos x hx)),
      intervalIntegral.integral_const_mul, e1, e2, hd.1, mul_pow, hsq]
    field_simp
  · rw [intervalIntegral.integral_congr_ae (g := fun x => 1 / (2 * π * q) * ((x - (1 + q)) * √((2 * √q) ^ 2 - (x - (1 + q)) ^ 2)) + (1 + q) / (2 * π * q) * √((2 * √q) ^ 2 - (x - (1 + q)) ^ 2))
      (Filter.Eventually.of_forall fun x hx => by
        rw [sq, mul_assoc, hden x (hpos x hx)]; ring),
      intervalIntegral.integral_add (Continuous.intervalIntegrable (by fun_prop) _ _) (Continuous.intervalIntegrable (by fun_prop) _ _),
      intervalIntegral.integral_const_mul, intervalIntegral.integral_const_mul, e1, e2, hd.1, hd.2, mul_pow, hsq]
    field_simp
    ring

/-! ## Moments of the matrix entries -/

/-- The rows of `normal(size=[N, T])`: successive draws, row by row. -/
def noise (Z : Nat → Ω → ℝ) (N T : ℕ) (ω : Ω) : Matrix (Fin N) (Fin T) ℝ := fun i t => Z (i.val * T + t.val) ω

theorem row_inj (i : Fin N) : Function.Injective fun t : Fin T => i.val * T + t.val := fun s t h => Fin.ext (by simpa using h)

theorem row_ne {i j : Fin N} (hij : i ≠ j) (s t : Fin T) : i.val * T + s.val ≠ j.val * T + t.val := by
  intro h
  have h1 := congrArg (· / T) h
  have hT : 0 < T := s.pos
  simp only [Nat.add_div_of_dvd_right (Dvd.intro_left _ rfl), Nat.mul_div_cancel _ hT, Nat.div_eq_of_lt s.isLt, Nat.div_eq_of_lt t.isLt] at h1
  exact hij (Fin.ext (by simpa using h1))

/-- A row as a Euclidean vector. -/
noncomputable def rowVec (Z : Nat → Ω → ℝ) (T : ℕ) (i : Nat) (ω : Ω) : EuclideanSpace ℝ (Fin T) := WithLp.toLp 2 fun t => Z (i * T + t.val) ω

omit [MeasurableSpace Ω] in
theorem S_cen (Z : Nat → Ω → ℝ) (hT : 1 ≤ T) (ω : Ω) (i j : Fin N) :
    S (noise Z N T ω) i j = ⟪cen (rowVec Z T i.val ω), cen (rowVec Z T j.val ω)⟫ := by
  rw [S_eq _ hT, cen_inner hT]
  rfl

theorem cen_nontrivial (hT : 2 ≤ T) : Nontrivial (Cen T) := by
  apply Module.nontrivial_of_finrank_pos (R := ℝ)
  rw [finrank_cen (by omega)]
  omega

variable (P : Measure Ω) [IsProbabilityMeasure P] (Z : Nat → Ω → ℝ)

theorem row_law (hZ : NormalDraws P Z) (i : Fin N) : P.map (fun ω => cen (rowVec Z T i.val ω)) = stdGaussian (Cen T) := by
  rw [← cen_law T, ← law_draws P Z hZ _ (row_inj (T := T) i), Measure.map_map cen_measurable (measurable_draws Z hZ.measurable _)]
  rfl

omit [IsProbabilityMeasure P] in
theorem row_measurable (hZ : NormalDraws P Z) (i : Nat) : Measurable fun ω => cen (rowVec Z T i ω) :=
  cen_measurable.comp (measurable_draws Z hZ.measurable _)

/-- Almost surely no row is constant. -/
theorem noise_nonconstant (hZ : NormalDraws P Z) (hT : 2 ≤ T) : ∀ᵐ ω ∂P, ∀ i, NonConstant (noise Z N T ω i) := by
  have := cen_nontrivial hT
  rw [ae_all_iff]
  intro i
  have h : ∀ᵐ x ∂(P.map fun ω => cen (rowVec Z T i.val ω)), x ≠ 0 := by
    rw [row_law P Z hZ i]; exact ae_ne_zero
  filter_upwards [ae_of_ae_map (row_measurable P Z hZ i.val).aemeasurable h] with ω hω
  by_contra hc
  unfold NonConstant at hc
  push Not at hc
  apply hω
  rw [← inner_self_eq_zero (𝕜 := ℝ), ← S_cen Z (by omega) ω i i, S_eq _ (by omega)]
  have hT' : (T : ℝ) ≠ 0 := by
    have : (2 : ℝ) ≤ T := by exact_mod_cast hT
    linarith
  have e : ∀ t, noise Z N T ω i t = noise Z N T ω i ⟨0, by omega⟩ := fun t => hc t _
  simp only [e, Finset.sum_const, Finset.card_univ, Fintype.card_fin, nsmul_eq_mul]
  field_simp
  ring

theorem mean_pair (hZ : NormalDraws P Z) {i j : Fin N} (hij : i ≠ j) (f : Cen T × Cen T → ℝ) (hf : Measurable f)
    (hi : Integrable f ((stdGaussian (Cen T)).prod (stdGaussian (Cen T)))) :
    Integrable (fun ω => f (cen (rowVec Z T i.val ω), cen (rowVec Z T j.val ω))) P ∧
    ∫ ω, f (cen (rowVec Z T i.val ω), cen (rowVec Z T j.val ω)) ∂P = ∫ p, f p ∂((stdGaussian (Cen T)).prod (stdGaussian (Cen T))) := by
  have h := cen_two P Z hZ _ _ (row_inj (T := T) i) (row_inj (T := T) j) (row_ne hij)
  have hm : AEMeasurable (fun ω => (cen (rowVec Z T i.val ω), cen (rowVec Z T j.val ω))) P := ((row_measurable P Z hZ i.val).prodMk (row_measurable P Z hZ j.val)).aemeasurable
  rw [← h] at hi ⊢
  exact ⟨hi.comp_aemeasurable hm, (integral_map hm hf.aestronglyMeasurable).symm⟩

theorem mean_one (hZ : NormalDraws P Z) (i : Fin N) (f : Cen T → ℝ) (hf : Measurable f) (hi : Integrable f (stdGaussian (Cen T))) :
    Integrable (fun ω => f (cen (rowVec Z T i.val ω))) P ∧ ∫ ω, f (cen (rowVec Z T i.val ω)) ∂P = ∫ p, f p ∂(stdGaussian (Cen T)) := by
  have h := row_law (T := T) P Z hZ i
  have hm : AEMeasurable (fun ω => cen (rowVec Z T i.val ω)) P := (row_measurable (T := T) P Z hZ i.val).aemeasurable
  rw [← h] at hi ⊢
  exact ⟨hi.comp_aemeasurable hm, (integral_map hm hf.aestronglyMeasurable).symm⟩

omit [MeasurableSpace Ω] in
theorem pearson_sq (hT : 1 ≤ T) (ω : Ω) (i j : Fin N) : pearson (noise Z N T ω i) (noise Z N T ω j) ^ 2 =
    ⟪cen (rowVec Z T i.val ω), cen (rowVec Z T j.val ω)⟫ ^ 2 / (‖cen (rowVec Z T i.val ω)‖ ^ 2 * ‖cen (rowVec Z T j.val ω)‖ ^ 2) := by
  rw [pearson_eq _ hT, S_cen Z hT, S_cen Z hT, S_cen Z hT, div_pow, mul_pow, Real.sq_sqrt real_inner_self_nonneg, Real.sq_sqrt real_inner_self_nonneg,
    real_inner_self_eq_norm_sq, real_inner_self_eq_norm_sq]

theorem mean_pearson (hZ : NormalDraws P Z) (hT : 2 ≤ T) {i j : Fin N} (hij : i ≠ j) :
    Integrable (fun ω => pearson (noise Z N T ω i) (noise Z N T ω j) ^ 2) P ∧
    ∫ ω, pearson (noise Z N T ω i) (noise Z N T ω j) ^ 2 ∂P = 1 / ((T : ℝ) - 1) := by
  have := cen_nontrivial hT
  have h := mean_pair P Z hZ hij (fun p => ⟪p.1, p.2⟫ ^ 2 / (‖p.1‖ ^ 2 * ‖p.2‖ ^ 2)) (by fun_prop) (mean_cos_sq (E := Cen T)).1
  rw [mean_cos_sq.2, finrank_cen (by omega), Nat.cast_sub (by omega), Nat.cast_one] at h
  simpa only [pearson_sq Z (show 1 ≤ T by omega)] using h

omit [MeasurableSpace Ω] in
theorem cov_cen (hT : 1 ≤ T) (ω : Ω) (i j : Fin N) : sampleCov (noise Z N T ω i) (noise Z N T ω j) =
    ⟪cen (rowVec Z T i.val ω), cen (rowVec Z T j.val ω)⟫ / ((T : ℝ) - 1) := by
  rw [← S_cen Z hT, S_eq _ hT]
  rfl

theorem mean_cov (hZ : NormalDraws P Z) (hT : 2 ≤ T) {i j : Fin N} (hij : i ≠ j) :
    Integrable (fun ω => sampleCov (noise Z N T ω i) (noise Z N T ω j) ^ 2) P ∧
    ∫ ω, sampleCov (noise Z N T ω i) (noise Z N T ω j) ^ 2 ∂P = 1 / ((T : ℝ) - 1) := by
  have := cen_nontrivial hT
  have hT' : (2 : ℝ) ≤ T := by exact_mod_cast hT
  have h := mean_pair P Z hZ hij (fun p => ⟪p.1, p.2⟫ ^ 2) (by fun_prop) (mean_prod_sq (E := Cen T)).1
  rw [mean_prod_sq.2, finrank_cen (by omega), Nat.cast_sub (by omega), Nat.cast_one] at h
  have e : ∀ ω, sampleCov (noise Z N T ω i) (noise Z N T ω j) ^ 2 = 1 / ((T : ℝ) - 1) ^ 2 * ⟪cen (rowVec Z T i.val ω), cen (rowVec Z T j.val ω)⟫ ^ 2 := fun ω => by
    rw [cov_cen Z (by omega), div_pow, one_div_mul_eq_div]
  simp only [e]
  refine ⟨h.1.const_mul _, ?_⟩
  rw [integral_const_mul, h.2]
  have : (T : ℝ) - 1 ≠ 0 := by linarith
  field_simp

theorem mean_var (hZ : NormalDraws P Z) (hT : 2 ≤ T) (i : Fin N) :
    (Integrable (fun ω => sampleCov (noise Z N T ω i) (noise Z N T ω i)) P ∧ ∫ ω, sampleCov (noise Z N T ω i) (noise Z N T ω i) ∂P = 1) ∧
    (Integrable (fun ω => sampleCov (noise Z N T ω i) (noise Z N T ω i) ^ 2) P ∧
    ∫ ω, sampleCov (noise Z N T ω i) (noise Z N T ω i) ^ 2 ∂P = ((T : ℝ) + 1) / ((T : ℝ) - 1)) := by
  have := cen_nontrivial hT
  have hT' : (2 : ℝ) ≤ T := by exact_mod_cast hT
  have hne : (T : ℝ) - 1 ≠ 0 := by linarith
  have h := mean_one P Z hZ i (fun p => ‖p‖ ^ 2) (by fun_prop) (norm_sq_integrable (E := Cen T)).1
  have h4 := mean_one P Z hZ i (fun p => ‖p‖ ^ 4) (by fun_prop) (norm_sq_integrable (E := Cen T)).2
  rw [mean_norm_pow.1, finrank_cen (by omega), Nat.cast_sub (by omega), Nat.cast_one] at h
  rw [mean_norm_pow.2, finrank_cen (by omega), Nat.cast_sub (by omega), Nat.cast_one] at h4
  have e : ∀ ω, sampleCov (noise Z N T ω i) (noise Z N T ω i) = 1 / ((T : ℝ) - 1) * ‖cen (rowVec Z T i.val ω)‖ ^ 2 := fun ω => by
    rw [cov_cen Z (by omega), real_inner_self_eq_norm_sq]; ring
  have e2 : ∀ ω, sampleCov (noise Z N T ω i) (noise Z N T ω i) ^ 2 = 1 / ((T : ℝ) - 1) ^ 2 * ‖cen (rowVec Z T i.val ω)‖ ^ 4 := fun ω => by
    rw [e, mul_pow, ← pow_mul, div_pow, one_pow]
  refine ⟨?_, ?_⟩
  · simp only [e]
    refine ⟨h.1.const_mul _, ?_⟩
    rw [integral_const_mul, h.2]
    field_simp
  · simp only [e2]
    refine ⟨h4.1.const_mul _, ?_⟩
    rw [integral_const_mul, h4.2]
    field_simp
    ring


/-! ## Sums of squares -/

theorem trace_sq (M : Matrix (Fin N) (Fin N) ℝ) (hM : M.IsSymm) : (M * M).trace = ∑ i, M i i ^ 2 + ∑ i, ∑ j ∈ Finset.univ.erase i, M i j ^ 2 := by
  rw [← Finset.sum_add_distrib]
  simp only [Matrix.trace, Matrix.diag, Matrix.mul_apply]
  refine Finset.sum_congr rfl fun i _ => ?_
  rw [← Finset.add_sum_erase _ _ (Finset.mem_univ i)]
  congr 1
  · ring
  · refine Finset.sum_congr rfl fun j _ => ?_
    rw [hM.apply i j, sq]

omit [IsProbabilityMeasure P] in
theorem mean_off (f : Fin N → Fin N → Ω → ℝ) (c : ℝ) (hN : 1 ≤ N) (h : ∀ i j, i ≠ j → Integrable (fun ω => f i j ω) P ∧ ∫ ω, f i j ω ∂P = c) :
    Integrable (fun ω => ∑ i, ∑ j ∈ Finset.univ.erase i, f i j ω) P ∧ ∫ ω, ∑ i, ∑ j ∈ Finset.univ.erase i, f i j ω ∂P = N * ((N : ℝ) - 1) * c := by
  have hi : ∀ i, Integrable (fun ω => ∑ j ∈ Finset.univ.erase i, f i j ω) P := fun i => integrable_finsetSum _ fun j hj => (h i j (Finset.ne_of_mem_erase hj).symm).1
  refine ⟨integrable_finsetSum _ fun i _ => hi i, ?_⟩
  rw [integral_finsetSum _ fun i _ => hi i]
  have : ∀ i, ∫ ω, ∑ j ∈ Finset.univ.erase i, f i j ω ∂P = ((N : ℝ) - 1) * c := by
    intro i
    rw [integral_finsetSum _ fun j hj => (h i j (Finset.ne_of_mem_erase hj).symm).1, Finset.sum_congr rfl fun j hj => (h i j (Finset.ne_of_mem_erase hj).symm).2]
    simp [Nat.cast_sub hN]
  simp only [this]
  simp
  ring

/-- Expected trace of the squared correlation or covariance matrix, and of the matrix. -/
theorem mean_wanted (hZ : NormalDraws P Z) (hN : 1 ≤ N) (hT : 2 ≤ T) (cov : Bool) :
    ∫ ω, (wantedMatrix (noise Z N T ω) cov).trace ∂P = N ∧
    ∫ ω, (wantedMatrix (noise Z N T ω) cov * wantedMatrix (noise Z N T ω) cov).trace ∂P = N * (1 + ((N : ℝ) + if cov then 1 else -1) / ((T : ℝ) - 1)) := by
  have hT' : (2 : ℝ) ≤ T := by exact_mod_cast hT
  have hne : (T : ℝ) - 1 ≠ 0 := by linarith
  simp only [trace_sq _ (wantedMatrix_isSymm _ _)]
  cases cov
  · have h1 : ∀ᵐ ω ∂P, ∀ i, wantedMatrix (noise Z N T ω) false i i = 1 := by
      filter_upwards [noise_nonconstant (N := N) P Z hZ hT] with ω hω i
      have h := C46_correlation (noise Z N T ω) 1 (by omega) hω
      have := h.2.2.2.1 i
      rw [h.1] at this
      simpa [wantedMatrix] using this
    constructor
    · rw [integral_congr_ae (g := fun _ => (N : ℝ)) (by filter_upwards [h1] with ω hω; simp [Matrix.trace, hω])]
      simp
    · obtain ⟨hi, hm⟩ := mean_off P (fun (i j : Fin N) ω => pearson (noise Z N T ω i) (noise Z N T ω j) ^ 2) _ hN fun i j hij => mean_pearson P Z hZ hT hij
      rw [integral_congr_ae (g := fun ω => (N : ℝ) + ∑ i, ∑ j ∈ Finset.univ.erase i, pearson (noise Z N T ω i) (noise Z N T ω j) ^ 2)
        (by filter_upwards [h1] with ω hω; simp only [hω, one_pow, Finset.sum_const, Finset.card_univ, Fintype.card_fin, nsmul_eq_mul, mul_one]; rfl), integral_add (integrable_const _) hi, hm]
      simp
      field_simp
      ring
  · have hw : ∀ ω i j, wantedMatrix (noise Z N T ω) true i j = sampleCov (noise Z N T ω i) (noise Z N T ω j) := fun ω i j => by simp [wantedMatrix, covMatrix]
    have hv := fun i : Fin N => mean_var P Z hZ hT i
    constructor
    · simp only [Matrix.trace, Matrix.diag, hw]
      rw [integral_finsetSum _ fun i _ => (hv i).1.1]
      simp only [fun i => (hv i).1.2]
      simp
    · obtain ⟨hi, hm⟩ := mean_off P (fun (i j : Fin N) ω => sampleCov (noise Z N T ω i) (noise Z N T ω j) ^ 2) _ hN fun i j hij => mean_cov P Z hZ hT hij
      simp only [hw]
      rw [integral_add (integrable_finsetSum _ fun i _ => (hv i).2.1) hi, hm, integral_finsetSum _ fun i _ => (hv i).2.1]
      simp only [fun i => (hv i).2.2]
      simp
      field_simp
      ring

/-- The gap between the second moments. -/
theorem moment_gap (hT : 2 ≤ T) (cov : Bool) : (1 + ((N : ℝ) + if cov then 1 else -1) / ((T : ℝ) - 1)) =
    1 + (N : ℝ) / T + (if cov then (T : ℝ) + N else (N : ℝ) - T) / (T * ((T : ℝ) - 1)) := by
  have hT' : (2 : ℝ) ≤ T := by exact_mod_cast hT
  have hne : (T : ℝ) - 1 ≠ 0 := by linarith
  cases cov <;> simp <;> field_simp <;> ring

theorem sumSq_filter_pos (m : Multiset ℝ) (h : ∀ x ∈ m, 0 ≤ x) : ((m.filter (0 < ·)).map (· ^ 2)).sum = (m.map (· ^ 2)).sum := by
  have hz : ((m.filter (fun x => ¬ 0 < x)).map (· ^ 2)).sum = 0 := by
    apply Multiset.sum_eq_zero
    intro y hy
    obtain ⟨x, hx, rfl⟩ := Multiset.mem_map.mp hy
    have := Multiset.mem_filter.mp hx
    simp [le_antisymm (not_lt.mp this.2) (h x this.1)]
  conv_rhs => rw [← Multiset.filter_add_not (0 < ·) m, Multiset.map_add, Multiset.sum_add, hz, add_zero]

theorem series_sums (eigvalsh : EigSolver) (hs : ExactSolver eigvalsh) (float : String → Option ℝ)
    (X : Matrix (Fin N) (Fin T) ℝ) (cov : Bool) (hT : 2 ≤ T) (hc : cov = false → ∀ i, NonConstant (X i))
    (tr : Bool) (s : SeriesEigs) (h : fromTimeSeries eigvalsh float (.dim2 N T X) cov tr (.str "negative") 1 = .ok s) :
    s.obj.vals.sum = (wantedMatrix X cov).trace ∧ sumSq s.obj.vals = (wantedMatrix X cov * wantedMatrix X cov).trace := by
  refine ⟨by rw [C93_total_variance eigvalsh hs float X cov hT hc tr s h, trace_wanted X cov hT hc], ?_⟩
  rw [← Moments.sum_sq_roots _ (wantedMatrix_isSymm X cov)]
  cases tr
  · rw [← C45_spectrum eigvalsh hs float X cov hT hc _ s h]
    simp [sumSq]
  · have h2 := (C43_spectrum eigvalsh hs float X cov hT hc s h).2
    rw [← sumSq_filter_pos _ (C45_nonneg X cov hT hc), ← h2]
    simp [sumSq]

theorem trace_pos (X : Matrix (Fin N) (Fin T) ℝ) (cov : Bool) (hN : 1 ≤ N) (hT : 2 ≤ T) (hc : ∀ i, NonConstant (X i)) : 0 < (wantedMatrix X cov).trace := by
  rw [trace_wanted X cov hT fun _ => hc]
  have hT' : (2 : ℝ) ≤ T := by exact_mod_cast hT
  cases cov
  · simp; omega
  · simp only [if_true, totalVariance]
    refine Finset.sum_pos (fun i _ => ?_) ⟨⟨0, hN⟩, Finset.mem_univ _⟩
    have h := S_self_pos X i (hc i)
    rw [S_eq X (by omega)] at h
    exact div_pos h (by linarith)

/-- The call succeeds if no series is constant. -/
theorem series_ok (eigvalsh : EigSolver) (hs : ExactSolver eigvalsh) (float : String → Option ℝ)
    (X : Matrix (Fin N) (Fin T) ℝ) (cov tr : Bool) (hN : 2 ≤ N) (hT : 2 ≤ T) (hc : ∀ i, NonConstant (X i)) :
    ∃ s, fromTimeSeries eigvalsh float (.dim2 N T X) cov tr (.str "negative") 1 = .ok s := by
  obtain ⟨e, he⟩ : ∃ e, computedEigs eigvalsh X cov = .ok e := by
    unfold computedEigs eigsViaTranspose
    split_ifs <;> first | omega | exact ⟨_, rfl⟩
  have hr := computed_roots eigvalsh hs X cov hT (fun _ => hc) e he
  have hsum := Moments.sum_roots _ (wantedMatrix_isSymm X cov)
  have hp := trace_pos X cov (by omega) hT hc
  have hnn := C45_nonneg X cov hT fun _ => hc
  rw [← hr] at hsum hnn
  have hsum' : e.sum = (wantedMatrix X cov).trace := by simpa using hsum
  have hnn' : ∀ x ∈ e, 0 ≤ x := fun x hx => hnn x (Multiset.mem_add.mpr (Or.inl hx))
  set e' := if tr then e.filter (fun x => decide (x > 0)) else e with he'
  have hne : e' ≠ [] := by
    intro h0
    have hz : e.sum = 0 := by
      cases tr
      · have : e = [] := by simpa [he'] using h0
        simp [this]
      · have : ∀ x ∈ e, x ≤ 0 := by simpa [he'] using h0
        exact List.sum_eq_zero fun x hx => le_antisymm (this x hx) (hnn' x hx)
    linarith
  obtain ⟨m, hm, -⟩ := npMax_ok hne
  refine ⟨mkSeriesEigs N T ⟨npSort e', npSort e', none⟩ m, ?_⟩
  have : fromSeries eigvalsh float X cov tr (.str "negative") = .ok (mkSeriesEigs N T ⟨npSort e', npSort e', none⟩ m) := by
    refine (fromSeries_eq _ _ _ _ _ _ _).mpr ⟨e, e', m, he, ?_, hm, rfl⟩
    cases tr <;> simp [trimZeros, he']
  simpa [fromTimeSeries] using this

/-! ## C146 -/

/-- **C146 (from_time_series).** For two or more series of independent standard normal draws and an exact eigenvalue routine, `from_time_series` almost surely succeeds; counting the removed zeros, the mean of its eigenvalues has as expected value the first
moment of the Marchenko-Pastur density on the stored endpoints, and the mean of their squares has as expected value its second moment, up to the stated difference of order `1/T`. -/
theorem C146_noise (eigvalsh : EigSolver) (hs : ExactSolver eigvalsh) (float : String → Option ℝ) (hZ : NormalDraws P Z) (hN : 2 ≤ N) (hT : 2 ≤ T) (cov tr : Bool) :
    (∀ᵐ ω ∂P, ∃ s, fromTimeSeries eigvalsh float (.dim2 N T (noise Z N T ω)) cov tr (.str "negative") 1 = .ok s) ∧
    ∀ s : Ω → SeriesEigs, (∀ᵐ ω ∂P, fromTimeSeries eigvalsh float (.dim2 N T (noise Z N T ω)) cov tr (.str "negative") 1 = .ok (s ω)) →
      (∫ ω, (s ω).obj.vals.sum / N ∂P = ∫ x in ((1 - √((N : ℝ) / T)) ^ 2)..((1 + √((N : ℝ) / T)) ^ 2), x * mpDensity (N / T) x) ∧
      (∫ ω, sumSq (s ω).obj.vals / N ∂P = (∫ x in ((1 - √((N : ℝ) / T)) ^ 2)..((1 + √((N : ℝ) / T)) ^ 2), x ^ 2 * mpDensity (N / T) x) +
        (if cov then (T : ℝ) + N else (N : ℝ) - T) / (T * ((T : ℝ) - 1))) ∧
      ∀ᵐ ω ∂P, (s ω).marchenko = ((1 - √((N : ℝ) / T)) ^ 2, (1 + √((N : ℝ) / T)) ^ 2) := by
  have hN' : (0 : ℝ) < N := by exact_mod_cast (by omega : 0 < N)
  have hT' : (0 : ℝ) < T := by exact_mod_cast (by omega : 0 < T)
  obtain ⟨m1, m2⟩ := C146_density ((N : ℝ) / T) (by positivity)
  have hnc := noise_nonconstant (N := N) P Z hZ hT
  constructor
  · filter_upwards [hnc] with ω hω
    exact series_ok eigvalsh hs float _ cov tr hN hT hω
  · intro s hsω
    obtain ⟨w1, w2⟩ := mean_wanted P Z hZ (by omega : 1 ≤ N) hT cov
    have key : ∀ᵐ ω ∂P, (s ω).obj.vals.sum = (wantedMatrix (noise Z N T ω) cov).trace ∧
        sumSq (s ω).obj.vals = (wantedMatrix (noise Z N T ω) cov * wantedMatrix (noise Z N T ω) cov).trace := by
      filter_upwards [hnc, hsω] with ω h1 h2
      exact series_sums eigvalsh hs float _ cov hT (fun _ => h1) tr _ h2
    refine ⟨?_, ?_, ?_⟩
    · rw [m1, integral_div, integral_congr_ae (by filter_upwards [key] with ω h using h.1), w1, div_self hN'.ne']
    · rw [m2, integral_div, integral_congr_ae (by filter_upwards [key] with ω h using h.2), w2, mul_div_cancel_left₀ _ hN'.ne', moment_gap hT]
    · filter_upwards [hsω] with ω h
      have h' : fromSeries eigvalsh float (noise Z N T ω) cov tr (.str "negative") = .ok (s ω) := by simpa [fromTimeSeries] using h
      obtain ⟨e, e', m, h1, h2, h3, h4⟩ := (fromSeries_eq _ _ _ _ _ _ _).mp h'
      rw [h4]
      rfl

/-- **C146 (time_series_eigs).** For `time_series_eigs(n, t)` with independent normal draws the eigenvalues almost surely add up to `n`, and the expected mean of their squares is the second moment of the Marchenko-Pastur density for `n/t`, up to a difference of order `1/t`. -/
theorem C146_time_series (R : Rng σ) (eigvalsh : EigSolver) (hs : ExactSolver eigvalsh) (s : Ω → σ) (hX : NormalDraws P fun k ω => draw R (s ω) k)
    (n t : Nat) (hn : 2 ≤ n) (ht : 2 ≤ t) :
    ∃ vals : Ω → List ℝ, (∀ ω, (timeSeriesEigs R eigvalsh n t "normal" (s ω)).1 = .ok (vals ω)) ∧
      (∀ᵐ ω ∂P, (vals ω).sum = n) ∧
      ∫ ω, sumSq (vals ω) / n ∂P = (∫ x in ((1 - √((n : ℝ) / t)) ^ 2)..((1 + √((n : ℝ) / t)) ^ 2), x ^ 2 * mpDensity (n / t) x) +
        ((n : ℝ) - t) / (t * ((t : ℝ) - 1)) := by
  have hn' : (0 : ℝ) < n := by exact_mod_cast (by omega : 0 < n)
  have ht' : (0 : ℝ) < t := by exact_mod_cast (by omega : 0 < t)
  obtain ⟨m1, m2⟩ := C146_density ((n : ℝ) / t) (by positivity)
  set Z : Nat → Ω → ℝ := fun k ω => draw R (s ω) k with hZdef
  have hdata : ∀ ω, (fun (i : Fin n) (j : Fin t) => (normals R (n * t) (s ω)).1.getD (i.val * t + j.val) 0 : Matrix (Fin n) (Fin t) ℝ) = noise Z n t ω := by
    intro ω
    funext i j
    have hlt : i.val * t + j.val < n * t := by
      have := i.isLt
      have := j.isLt
      nlinarith
    rw [normals_draws]
    simp [noise, Z, List.getD, hlt]
  refine ⟨fun ω => eigvalsh n (correlateFast (noise Z n t ω) 0), fun ω => ?_, ?_, ?_⟩
  · simp only [timeSeriesEigs, if_true, hdata, if_neg (show n ≠ 1 by omega)]
  · filter_upwards [noise_nonconstant (N := n) P Z hX ht] with ω hω
    obtain ⟨e, h1, h2, h3, -⟩ := (C98_time_series R eigvalsh hs n t "normal" (s ω) (by omega)).2 rfl ht (by rw [hdata]; exact hω)
    simp only [timeSeriesEigs, if_true, hdata, if_neg (show n ≠ 1 by omega), Except.ok.injEq] at h1
    rw [h1, h3]
  · obtain ⟨w1, w2⟩ := mean_wanted P Z hX (by omega : 1 ≤ n) ht false
    have e : ∀ ω, sumSq (eigvalsh n (correlateFast (noise Z n t ω) 0)) = (wantedMatrix (noise Z n t ω) false * wantedMatrix (noise Z n t ω) false).trace := by
      intro ω
      rw [correlateFast_eq _ 0 (by omega), sumSq_exact eigvalsh hs _ (corrMatrix_isSymm _)]
      simp [wantedMatrix]
    simp only [e]
    rw [m2, integral_div, w2, mul_div_cancel_left₀ _ hn'.ne', moment_gap ht]
    simp

-- C146: normal draws and exact routines exist
example : ∃ e, ExactSolver e ∧ ∫ ω, sumSq ((fun ω => e 2 (correlateFast (noise (fun k (ω : ℕ → ℝ) => draw streamRng ω k) 2 3 ω) 0)) ω) / 2 ∂(Measure.infinitePi fun _ : ℕ => gaussianReal 0 1) = 3 / 2 := by
  have hs : ExactSolver fun _ M => M.charpoly.roots.toList := fun _ _ _ => Multiset.coe_toList _
  refine ⟨_, hs, ?_⟩
  have e : ∀ ω, sumSq (((fun _ M => M.charpoly.roots.toList : EigSolver)) 2 (correlateFast (noise (fun k (ω : ℕ → ℝ) => draw streamRng ω k) 2 3 ω) 0)) = (wantedMatrix (noise (fun k (ω : ℕ → ℝ) => draw streamRng ω k) 2 3 ω) false * wantedMatrix (noise (fun k (ω : ℕ → ℝ) => draw streamRng ω k) 2 3 ω) false).trace := by
    intro ω
    rw [correlateFast_eq _ 0 (by omega), sumSq_exact _ hs _ (corrMatrix_isSymm _)]
    simp [wantedMatrix]
  simp only [e]
  rw [integral_div, (mean_wanted _ _ stream_draws (by omega : 1 ≤ 2) (by omega : 2 ≤ 3) false).2]
  norm_num

end Props
end RMT
