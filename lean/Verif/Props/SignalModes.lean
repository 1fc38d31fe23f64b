import Verif.Props.Moments
import Verif.Props.Eigenvalues
import Verif.Lemmas.LevelVar
import Verif.Lemmas.PrincipalComponents
import Verif.Props.NoiseSpectra
import Verif.Props.InexactSpectra
import Verif.Lemmas.CorrelationLaw

/-!
# Property C161: what Marchenko-Pastur trimming keeps are the collective modes of the series
-/

namespace RMT
namespace Props
open Gen EigValsM EigM Unfold Spec Matrix Inertia Semi

variable {N T : ℕ}

/-- The combination of the series with weights `w`. -/
def combination (X : Matrix (Fin N) (Fin T) ℝ) (w : Fin N → ℝ) : Fin T → ℝ := fun t => ∑ i, w i * X i t

/-- The series, divided by their standard deviations. -/
noncomputable def standardised (X : Matrix (Fin N) (Fin T) ℝ) : Matrix (Fin N) (Fin T) ℝ := fun i t => X i t / √(sampleCov (X i) (X i))

/-- The covariance of two combinations. -/
theorem cov_combination (X : Matrix (Fin N) (Fin T) ℝ) (v w : Fin N → ℝ) : sampleCov (combination X v) (combination X w) = v ⬝ᵥ (covMatrix X *ᵥ w) := by
  unfold sampleCov combination
  simp only [dotProduct, mulVec, covMatrix, sampleCov]
  have e1 : ∑ t, (∑ i, v i * X i t) * (∑ j, w j * X j t) = ∑ i, ∑ j, v i * w j * ∑ t, X i t * X j t := by
    rw [Finset.sum_congr rfl fun t _ => Finset.sum_mul_sum Finset.univ Finset.univ (fun i => v i * X i t) fun j => w j * X j t, Finset.sum_comm]
    refine Finset.sum_congr rfl fun i _ => ?_
    rw [Finset.sum_comm]
    refine Finset.sum_congr rfl fun j _ => ?_
    rw [Finset.mul_sum]
    exact Finset.sum_congr rfl fun t _ => by ring
  have e2 : ∀ u : Fin N → ℝ, ∑ t, ∑ i, u i * X i t = ∑ i, u i * ∑ t, X i t := fun u => by
    rw [Finset.sum_comm]
    simp only [Finset.mul_sum]
  rw [e1, e2, e2, Finset.sum_mul_sum Finset.univ Finset.univ (fun i => v i * ∑ t, X i t) fun j => w j * ∑ t, X j t, Finset.sum_div, ← Finset.sum_sub_distrib, Finset.sum_div]
  refine Finset.sum_congr rfl fun i _ => ?_
  rw [Finset.sum_div, ← Finset.sum_sub_distrib, Finset.sum_div, Finset.mul_sum (Finset.univ : Finset (Fin N)) (fun j => (∑ t, X i t * X j t - ((∑ t, X i t) * ∑ t, X j t) / (T : ℝ)) / ((T : ℝ) - 1) * w j) (v i)]
  exact Finset.sum_congr rfl fun j _ => by ring

theorem sampleCov_pos (x : Fin T → ℝ) (hT : 2 ≤ T) (h : NonConstant x) : 0 < sampleCov x x := by
  have hT' : (2 : ℝ) ≤ T := by exact_mod_cast hT
  have hp := S_self_pos (fun (_ : Fin 1) => x) 0 h
  rw [S_eq (fun (_ : Fin 1) => x) (by omega)] at hp
  exact div_pos hp (by linarith)

/-- The correlation matrix is the covariance matrix of the standardised series. -/
theorem corr_standardised (X : Matrix (Fin N) (Fin T) ℝ) (hT : 2 ≤ T) (hc : ∀ i, NonConstant (X i)) : covMatrix (standardised X) = corrMatrix X := by
  ext i j
  have hp : ∀ i, 0 < covMatrix X i i := fun i => sampleCov_pos (X i) hT (hc i)
  have h1 := cov_corr X hT hp i j
  have h2 : covMatrix (standardised X) i j = covMatrix X i j / (√(covMatrix X i i) * √(covMatrix X j j)) := by
    simp only [covMatrix, standardised, sampleCov]
    have e1 : ∀ (a b : ℝ), ∑ t, X i t / a * (X j t / b) = (∑ t, X i t * X j t) / (a * b) := fun a b => by
      rw [Finset.sum_div]
      exact Finset.sum_congr rfl fun t _ => div_mul_div_comm _ _ _ _
    have e2 : ∀ (i : Fin N) (a : ℝ), ∑ t, X i t / a = (∑ t, X i t) / a := fun i a => by rw [Finset.sum_div]
    rw [e1, e2, e2]
    ring
  rw [h2, h1]
  have a1 := (Real.sqrt_pos.mpr (hp i)).ne'
  have a2 := (Real.sqrt_pos.mpr (hp j)).ne'
  field_simp

/-- The series whose covariance matrix is decomposed: the series themselves, or the standardised ones for `covariance=False`. -/
noncomputable def seriesUsed (X : Matrix (Fin N) (Fin T) ℝ) (cov : Bool) : Matrix (Fin N) (Fin T) ℝ := if cov then X else standardised X

theorem wanted_used (X : Matrix (Fin N) (Fin T) ℝ) (cov : Bool) (hT : 2 ≤ T) (hc : cov = false → ∀ i, NonConstant (X i)) : wantedMatrix X cov = covMatrix (seriesUsed X cov) := by
  cases cov
  · simp only [wantedMatrix, seriesUsed, Bool.false_eq_true, if_false]
    exact (corr_standardised X hT (hc rfl)).symm
  · simp only [wantedMatrix, seriesUsed, if_true]

theorem series_ascending (eigvalsh : EigSolver) (float : String → Option ℝ) (X : Matrix (Fin N) (Fin T) ℝ) (cov tr : Bool) (s : SeriesEigs) (h : fromTimeSeries eigvalsh float (.dim2 N T X) cov tr (.str "negative") 1 = .ok s) : Ascending s.obj.vals := by
  have h' : fromSeries eigvalsh float X cov tr (.str "negative") = .ok s := by simpa [fromTimeSeries] using h
  obtain ⟨e, e', m, h1, h2, h3, rfl⟩ := (fromSeries_eq _ _ _ _ _ _ _).mp h'
  exact npSort_ascending _

/-- The values kept, as eigenvalues. -/
theorem kept_values (eigvalsh : EigSolver) (hs : ExactSolver eigvalsh) (float : String → Option ℝ) (X : Matrix (Fin N) (Fin T) ℝ) (cov : Bool) (hT : 2 ≤ T) (hc : cov = false → ∀ i, NonConstant (X i))
    (tr : Bool) (s : SeriesEigs) (h : fromTimeSeries eigvalsh float (.dim2 N T X) cov tr (.str "negative") 1 = .ok s)
    (shifted : Bool) (o : Obj ℝ) (lo hi : ℝ) (ht : trimMarchenkoPastur (some s.seriesN) (some s.seriesT) s.obj.vals none none true shifted = .ok (o, lo, hi)) (hhi : 0 ≤ hi) :
    (o.vals : Multiset ℝ) = (wantedMatrix X cov).charpoly.roots.filter (hi < ·) := by
  obtain ⟨hN', hT'⟩ := (C43_sizes eigvalsh float X cov tr (.str "negative") s).1 h
  have hne : s.obj.vals ≠ [] := by
    intro h0
    rw [(C41_errors (some s.seriesN) (some s.seriesT) s.obj.vals none none true shifted).mpr (Or.inr h0)] at ht
    cases ht
  obtain ⟨m, hm⟩ := LevelVar.exists_isMax s.obj.vals hne
  have hasc : Ascending s.obj.vals := series_ascending eigvalsh float X _ _ s h
  obtain ⟨o', lo', hi', e1, -, -, e2, -⟩ := C41_trim (some s.seriesN) (some s.seriesT) s.obj.vals hasc none none true shifted s.seriesN s.seriesT rfl rfl (by omega) m hm.1 hm.2
  rw [ht] at e1
  injection e1 with e1
  rw [Prod.mk.injEq, Prod.mk.injEq] at e1
  obtain ⟨rfl, rfl, rfl⟩ := e1
  rw [e2 rfl, ← Multiset.filter_coe]
  cases tr
  · have := C45_spectrum eigvalsh hs float X cov hT hc _ s h
    rw [← this, Multiset.filter_add]
    have hz : Multiset.filter (hi < ·) (Multiset.replicate (N - T) (0 : ℝ)) = 0 := by
      rw [Multiset.filter_eq_nil]
      intro a ha
      rw [Multiset.eq_of_mem_replicate ha]
      exact not_lt.mpr hhi
    rw [hz, add_zero]
  · have := (C43_spectrum eigvalsh hs float X cov hT hc s h).2
    rw [this, Multiset.filter_filter]
    refine Multiset.filter_congr fun x _ => ⟨fun h => h.1, fun h => ⟨h, hhi.trans_lt h⟩⟩

/-- **C161 (modes).** With an exact eigenvalue routine: `trim_marchenko_pastur` with `largest=True` on the object of `from_time_series` keeps as many values as there are independent combinations of the series (of the standardised series for
`covariance=False`) that, with all their combinations, have a variance above `trim_max` times the sum of the squared weights: their number is the largest dimension of a space of weights with that property. The values kept are the variances of uncorrelated
combinations whose weights are orthonormal. (`trim_max ≥ 0` holds for the unshifted cut points, and for the shifted ones with `covariance=False`.) -/
theorem C161_modes (eigvalsh : EigSolver) (hs : ExactSolver eigvalsh) (float : String → Option ℝ) (X : Matrix (Fin N) (Fin T) ℝ) (cov : Bool) (hT : 2 ≤ T) (hc : cov = false → ∀ i, NonConstant (X i))
    (tr : Bool) (s : SeriesEigs) (h : fromTimeSeries eigvalsh float (.dim2 N T X) cov tr (.str "negative") 1 = .ok s)
    (shifted : Bool) (o : Obj ℝ) (lo hi : ℝ) (ht : trimMarchenkoPastur (some s.seriesN) (some s.seriesT) s.obj.vals none none true shifted = .ok (o, lo, hi)) (hhi : 0 ≤ hi) :
    IsGreatest {k | ∃ W : Submodule ℝ (Fin N → ℝ), Module.finrank ℝ W = k ∧
        ∀ w ∈ W, w ≠ 0 → hi * ∑ i, w i ^ 2 < sampleCov (combination (seriesUsed X cov) w) (combination (seriesUsed X cov) w)} o.vals.length ∧
    ∃ w : Fin o.vals.length → Fin N → ℝ, (∀ a b, ∑ i, w a i * w b i = if a = b then 1 else 0) ∧
      ∀ a b, sampleCov (combination (seriesUsed X cov) (w a)) (combination (seriesUsed X cov) (w b)) = if a = b then o.vals[a] else 0 := by
  have hk := kept_values eigvalsh hs float X cov hT hc tr s h shifted o lo hi ht hhi
  have hM : (wantedMatrix X cov).IsHermitian := by
    rw [Matrix.IsHermitian, conjTranspose_eq_transpose_of_trivial]
    exact wantedMatrix_isSymm X cov
  constructor
  · have hcnt : cnt (wantedMatrix X cov) hi = o.vals.length := by
      unfold cnt
      rw [Multiset.countP_eq_card_filter, ← hk, Multiset.coe_card]
    rw [← hcnt]
    have := cnt_greatest (wantedMatrix X cov) hM hi
    rw [wanted_used X cov hT hc] at this ⊢
    simp only [cov_combination]
    simpa only [dotProduct, ← sq] using this
  · obtain ⟨w, h1, h2⟩ := eigenvectors (wantedMatrix X cov) hM _ o.vals hk
    refine ⟨w, h1, fun a b => ?_⟩
    rw [cov_combination, ← wanted_used X cov hT hc]
    exact h2 a b

/-- The average correlation between different series. -/
noncomputable def meanCorrelation (X : Matrix (Fin N) (Fin T) ℝ) : ℝ := (∑ i, ∑ j, if i = j then 0 else pearson (X i) (X j)) / (N * (N - 1))

/-- **C161 (a common signal is kept).** If `1 + (N - 1) r > (1 + √(N/T))²` for the average correlation `r` between different series, then `trim_marchenko_pastur(largest=True)` on the eigenvalues of the correlations keeps at least one
value, shifted or not, and the largest value it keeps is at least `1 + (N - 1) r`. -/
theorem C161_common_signal (eigvalsh : EigSolver) (hs : ExactSolver eigvalsh) (float : String → Option ℝ) (X : Matrix (Fin N) (Fin T) ℝ) (hN : 2 ≤ N) (hT : 2 ≤ T) (hc : ∀ i, NonConstant (X i))
    (tr : Bool) (s : SeriesEigs) (h : fromTimeSeries eigvalsh float (.dim2 N T X) false tr (.str "negative") 1 = .ok s)
    (hr : (1 + √((N : ℝ) / T)) ^ 2 < 1 + (N - 1) * meanCorrelation X) (shifted : Bool) :
    ∃ o lo hi, trimMarchenkoPastur (some s.seriesN) (some s.seriesT) s.obj.vals none none true shifted = .ok (o, lo, hi) ∧ ∃ v ∈ o.vals, 1 + (N - 1) * meanCorrelation X ≤ v := by
  obtain ⟨hN', hT'⟩ := (C43_sizes eigvalsh float X false tr (.str "negative") s).1 h
  have hNpos : (0 : ℝ) < N := by
    have : (2 : ℝ) ≤ N := by exact_mod_cast hN
    linarith
  obtain ⟨m, hm, hmax, hmN, -⟩ := C93_shift_partial eigvalsh hs float X (by omega) hT hc tr s h
  have hasc : Ascending s.obj.vals := series_ascending eigvalsh float X _ _ s h
  obtain ⟨o, lo, hi, e1, -, e3, -, -⟩ := C41_trim (some s.seriesN) (some s.seriesT) s.obj.vals hasc none none true shifted s.seriesN s.seriesT rfl rfl (by omega) m hm hmax
  rw [hN', hT'] at e3
  have hm0 : 0 ≤ m := by
    refine C45_nonneg X false hT (fun _ => hc) m ?_
    cases tr
    · have := C45_spectrum eigvalsh hs float X false hT (fun _ => hc) _ s h
      rw [← this]
      exact Multiset.mem_add.mpr (Or.inl hm)
    · have := (C43_spectrum eigvalsh hs float X false hT (fun _ => hc) s h).2
      have hm' : m ∈ (s.obj.vals : Multiset ℝ) := hm
      rw [this] at hm'
      exact (Multiset.mem_filter.mp hm').1
  have hfac : (if shifted = true then 1 - m / N else 1) ≤ (1 : ℝ) ∧ 0 ≤ (if shifted = true then 1 - m / N else (1 : ℝ)) := by
    have h1 : m / N ≤ 1 := by rw [div_le_one hNpos]; exact hmN
    have h2 : 0 ≤ m / N := by positivity
    split_ifs
    · constructor <;> linarith
    · norm_num
  have hhi0 : 0 ≤ hi := by
    rw [e3]
    exact mul_nonneg hfac.2 (sq_nonneg _)
  have hhi1 : hi ≤ (1 + √((N : ℝ) / T)) ^ 2 := by
    rw [e3]
    exact mul_le_of_le_one_left (sq_nonneg _) hfac.1
  refine ⟨o, lo, hi, e1, ?_⟩
  have hk := kept_values eigvalsh hs float X false hT (fun _ => hc) tr s h shifted o lo hi e1 hhi0
  have hM : (wantedMatrix X false).IsHermitian := by
    rw [Matrix.IsHermitian, conjTranspose_eq_transpose_of_trivial]
    exact wantedMatrix_isSymm X false
  -- the form at equal weights
  have hform : (fun _ => 1 : Fin N → ℝ) ⬝ᵥ (wantedMatrix X false *ᵥ fun _ => 1) = N * (1 + (N - 1) * meanCorrelation X) := by
    have hd : ∀ i, pearson (X i) (X i) = 1 := fun i => by
      have h46 := C46_correlation X 1 (by omega) hc
      have := h46.2.2.2.1 i
      rw [h46.1] at this
      exact this
    have e : ∑ i, ∑ j, pearson (X i) (X j) = N + ∑ i, ∑ j, if i = j then 0 else pearson (X i) (X j) := by
      have : ∀ i : Fin N, ∑ j, pearson (X i) (X j) = 1 + ∑ j, if i = j then 0 else pearson (X i) (X j) := fun i => by
        rw [← hd i, ← Finset.sum_ite_eq Finset.univ i (fun j => pearson (X i) (X j)) |>.trans (if_pos (Finset.mem_univ i)), ← Finset.sum_add_distrib]
        refine Finset.sum_congr rfl fun j _ => ?_
        split_ifs <;> simp
      simp only [this, Finset.sum_add_distrib, Finset.sum_const, Finset.card_univ, Fintype.card_fin, nsmul_eq_mul, mul_one]
    simp only [dotProduct, mulVec, wantedMatrix, corrMatrix, mul_one, one_mul, Bool.false_eq_true, if_false]
    rw [e, meanCorrelation]
    have h1 : (N : ℝ) - 1 ≠ 0 := by
      have : (2 : ℝ) ≤ N := by exact_mod_cast hN
      intro h0
      linarith
    field_simp
  by_contra hcon
  push Not at hcon
  have hall : ∀ i, hM.eigenvalues i < 1 + (N - 1) * meanCorrelation X := by
    intro i
    by_cases hi' : hi < hM.eigenvalues i
    · apply hcon
      rw [← Multiset.mem_coe, hk, Multiset.mem_filter, hM.roots_charpoly_eq_eigenvalues]
      exact ⟨Multiset.mem_map.mpr ⟨i, Finset.mem_univ_val i, rfl⟩, hi'⟩
    · exact ((not_lt.mp hi').trans hhi1).trans_lt hr
  obtain ⟨U, hU, hU', hUM⟩ := diagonal_form (wantedMatrix X false) hM
  set c := Uᵀ *ᵥ (fun _ => 1 : Fin N → ℝ) with hcd
  have hv : (fun _ => 1 : Fin N → ℝ) = U *ᵥ c := by rw [hcd, mulVec_mulVec, hU', one_mulVec]
  have h2 := hUM c
  rw [← hv, hform] at h2
  have h3 : ∑ i, c i ^ 2 = N := by
    rw [← orth_norm U c hU, ← hv]
    simp [dotProduct]
  have h4 : ∑ i, hM.eigenvalues i * c i ^ 2 < ∑ i, (1 + (N - 1) * meanCorrelation X) * c i ^ 2 := by
    obtain ⟨i, hi'⟩ : ∃ i, c i ≠ 0 := by
      by_contra h0
      push Not at h0
      rw [Finset.sum_congr rfl fun i _ => by rw [h0 i]] at h3
      simp at h3
      linarith
    exact Finset.sum_lt_sum (fun i _ => mul_le_mul_of_nonneg_right (hall i).le (sq_nonneg _)) ⟨i, Finset.mem_univ _, mul_lt_mul_of_pos_right (hall i) (sq_pos_of_ne_zero hi')⟩
  rw [← Finset.mul_sum, h3, ← h2] at h4
  linarith

/-- Non-vacuity: three series `t, t, t` of length 12 have average correlation 1, and `1 + 2 > (1 + √(3/12))²`; an exact routine exists and the calls succeed, so at least one value is kept, and it is at least 3. -/
example : ∃ (eigvalsh : EigSolver) (s : SeriesEigs), ExactSolver eigvalsh ∧
    fromTimeSeries eigvalsh (fun _ => none) (.dim2 3 12 fun _ t => (t : ℝ)) false true (.str "negative") 1 = .ok s ∧
    ∃ o lo hi, trimMarchenkoPastur (some s.seriesN) (some s.seriesT) s.obj.vals none none true true = .ok (o, lo, hi) ∧ ∃ v ∈ o.vals, 3 ≤ v := by
  have hc : ∀ i : Fin 3, NonConstant ((fun (_ : Fin 3) (t : Fin 12) => (t : ℝ)) i) := fun i => ⟨0, 1, by norm_num⟩
  obtain ⟨s, h⟩ := series_ok exactRoutine exactRoutine_exact (fun _ => none) (fun (_ : Fin 3) (t : Fin 12) => (t : ℝ)) false true (by norm_num) (by norm_num) hc
  have hm : meanCorrelation (fun (_ : Fin 3) (t : Fin 12) => (t : ℝ)) = 1 := by
    have hd : pearson (fun t : Fin 12 => (t : ℝ)) (fun t => (t : ℝ)) = 1 := by
      have h46 := C46_correlation (fun (_ : Fin 3) (t : Fin 12) => (t : ℝ)) 1 (by norm_num) hc
      have := h46.2.2.2.1 0
      rw [h46.1] at this
      exact this
    simp only [meanCorrelation, hd, Fin.sum_univ_three]
    rw [if_neg (by decide : ¬ (0 : Fin 3) = 1), if_neg (by decide : ¬ (0 : Fin 3) = 2), if_neg (by decide : ¬ (1 : Fin 3) = 0), if_neg (by decide : ¬ (1 : Fin 3) = 2), if_neg (by decide : ¬ (2 : Fin 3) = 0), if_neg (by decide : ¬ (2 : Fin 3) = 1)]
    norm_num
  have hsq : √(((3 : ℕ) : ℝ) / (12 : ℕ)) = 1 / 2 := by
    rw [show ((3 : ℕ) : ℝ) / (12 : ℕ) = (1 / 2) ^ 2 by norm_num]
    exact Real.sqrt_sq (by norm_num)
  obtain ⟨o, lo, hi, e, v, hv, hv'⟩ := C161_common_signal exactRoutine exactRoutine_exact (fun _ => none) (fun (_ : Fin 3) (t : Fin 12) => (t : ℝ)) (by norm_num) (by norm_num) hc true s h (by
    rw [hm, hsq]
    norm_num) true
  rw [hm] at hv'
  exact ⟨exactRoutine, s, exactRoutine_exact, h, o, lo, hi, e, v, hv, by norm_num at hv'; linarith⟩

end Props
end RMT
