import Verif.Lemmas.Moments
import Verif.Props.Generate
import Verif.Props.TimeSeries
import Verif.Props.Analytic

/-!
# Properties C92, C93: second moment of the GOE unfolding; total variance of time series
-/

set_option linter.unusedSectionVars false

namespace RMT
namespace Props
open Gen EigValsM EigM Unfold MeasureTheory Analytic Spec Moments
open Filter (Tendsto atTop)

/-! ## C92 -/

/-- Sum of squares of a list of eigenvalues. -/
def sumSq (l : List ℝ) : ℝ := (l.map (· ^ 2)).sum

theorem sumSq_exact (eigvalsh : EigSolver) (hs : ExactSolver eigvalsh) {n : Nat} (M : Matrix (Fin n) (Fin n) ℝ) (hM : M.IsSymm) :
    sumSq (eigvalsh n M) = (M * M).trace := by
  rw [← sum_sq_roots M hM, ← hs n M hM]
  simp [sumSq]

/-- **C92 (density).** The level density that `unfold_goe` and `goe_unfolded` integrate has total mass `N` and second moment `N²/2`. -/
theorem C92_density (N : Nat) :
    ∫ x in (-√(2 * N))..√(2 * N), semicircle N x = N ∧
    ∫ x in (-√(2 * N))..√(2 * N), x ^ 2 * semicircle N x = (N : ℝ) ^ 2 / 2 :=
  ⟨semicircle_mass N, semicircle_second_moment N⟩

/-- **C92 (partial: the matrices of `goe_unfolded`).** For the tridiagonal matrices, which `goe_unfolded` always uses and `generate` uses for sizes above 500 on request, the expected sum of squared eigenvalues is `1 + 1/N` times the second moment
of the level density, so they agree in the limit of large matrices. -/
theorem C92_tridiagonal_partial (eigvalsh : EigSolver) (hs : ExactSolver eigvalsh) {Ω : Type} [MeasurableSpace Ω] (P : Measure Ω)
    (N : Nat) (hN : 0 < N) (chi2 z : Nat → Ω → ℝ) (hc : ∀ k ω, 0 ≤ chi2 k ω) (hci : ∀ k, Integrable (chi2 k) P)
    (hcm : ∀ k, k < N - 1 → ∫ ω, chi2 k ω ∂P = ((chiRange N).getD k 0 : ℝ))
    (hzi : ∀ k, Integrable (fun ω => z k ω ^ 2) P) (hz : ∀ k, k < N → ∫ ω, z k ω ^ 2 ∂P = 1) :
    ∫ ω, sumSq (eigvalsh N (tridiagonalOf N ((List.range (N - 1)).map fun (k : Nat) => chi2 k ω)
        ((List.range N).map fun (k : Nat) => z k ω))) ∂P =
      (1 + 1 / (N : ℝ)) * ∫ x in (-√(2 * N))..√(2 * N), x ^ 2 * semicircle N x := by
  have h := C50_tridiagonal_moment P N chi2 z hc hci hcm hzi hz
  simp only [sumSq_exact eigvalsh hs _ (tridiagonalOf_symm _ _ _)]
  rw [h, (C92_density N).2]
  have : (N : ℝ) ≠ 0 := by exact_mod_cast hN.ne'
  field_simp

/-- **C92 (refuted: the default matrices of `generate`).** For the full GOE matrices, which `generate` uses for all sizes up to 500 and by default for all sizes, the expected sum of squared eigenvalues is `2 + 2/N` times the second moment of the level density with which
`unfold_goe` unfolds them: for no size do they agree. -/
theorem C92_full_refuted (eigvalsh : EigSolver) (hs : ExactSolver eigvalsh) {Ω : Type} [MeasurableSpace Ω] (P : Measure Ω)
    (N : Nat) (hN : 0 < N) (A : Fin N → Fin N → Ω → ℝ) (hA : NormalArray P N A) :
    ∫ ω, sumSq (eigvalsh N (goeOf (Matrix.of fun i j => A i j ω))) ∂P =
      (2 + 2 / (N : ℝ)) * ∫ x in (-√(2 * N))..√(2 * N), x ^ 2 * semicircle N x ∧
    2 * (∫ x in (-√(2 * N))..√(2 * N), x ^ 2 * semicircle N x) <
      ∫ ω, sumSq (eigvalsh N (goeOf (Matrix.of fun i j => A i j ω))) ∂P := by
  have h := C50_full_moment P N A hA
  simp only [sumSq_exact eigvalsh hs _ (goeOf_symm _)]
  rw [h, (C92_density N).2]
  have hN' : (0 : ℝ) < N := by exact_mod_cast hN
  constructor
  · field_simp
  · linarith

/-- **C92 (the limits).** The ratios tend to 1 for tridiagonal and to 2 for full matrices. -/
theorem C92_limits :
    Tendsto (fun N : ℕ => 1 + 1 / (N : ℝ)) atTop (nhds 1) ∧ Tendsto (fun N : ℕ => 2 + 2 / (N : ℝ)) atTop (nhds 2) := by
  constructor
  · simpa using tendsto_const_nhds.add (tendsto_const_div_atTop_nhds_zero_nat (1 : ℝ))
  · simpa using tendsto_const_nhds.add (tendsto_const_div_atTop_nhds_zero_nat (2 : ℝ))

/-- **C92 (which matrix).** `generate` uses the full matrix for every size up to 500, and for larger sizes exactly without `use_tridiagonal`. -/
theorem C92_matrix {σ : Type} (R : Rng σ) (n : Nat) (seed : Option Nat) (s : σ) :
    (n ≤ 500 → ∀ tri, goeMatrix R n seed tri s = generateGOEMatrix R n seed s) ∧
    goeMatrix R n seed false s = generateGOEMatrix R n seed s ∧
    (500 < n → goeMatrix R n seed true s = generateGOETridiagonal R n seed s) := by
  refine ⟨fun h tri => ?_, ?_, fun h => ?_⟩
  · simp [goeMatrix, not_lt.mpr h]
  · simp [goeMatrix]
  · simp [goeMatrix, h]

-- C92: the hypotheses of the tridiagonal theorem hold for constant draws equal to their means
example (N : Nat) : (∀ k, Integrable (fun _ : Unit => (((chiRange N).getD k 0 : Nat) : ℝ)) (Measure.dirac ())) ∧
    ∀ k, ∫ _ω : Unit, (((chiRange N).getD k 0 : Nat) : ℝ) ∂(Measure.dirac ()) = ((chiRange N).getD k 0 : ℝ) := by
  constructor <;> intro k <;> simp

/-! ## C93 -/

variable {N T : ℕ}

/-- The total variance of the series: the sum of their sample variances. -/
noncomputable def totalVariance (X : Matrix (Fin N) (Fin T) ℝ) : ℝ := ∑ i, sampleCov (X i) (X i)

theorem trace_wanted (X : Matrix (Fin N) (Fin T) ℝ) (cov : Bool) (hT : 2 ≤ T) (hc : cov = false → ∀ i, NonConstant (X i)) :
    (wantedMatrix X cov).trace = if cov then totalVariance X else (N : ℝ) := by
  cases cov
  · have h := (C46_correlation X 1 (by omega) (hc rfl))
    have h1 : ∀ i, corrMatrix X i i = 1 := fun i => by rw [← h.1]; exact h.2.2.2.1 i
    simp [wantedMatrix, Matrix.trace, h1]
  · simp [wantedMatrix, Matrix.trace, totalVariance, covMatrix]

theorem sum_filter_pos (m : Multiset ℝ) (h : ∀ x ∈ m, 0 ≤ x) : (m.filter (0 < ·)).sum = m.sum := by
  have hz : (m.filter (fun x => ¬ 0 < x)).sum = 0 := by
    apply Multiset.sum_eq_zero
    intro x hx
    have := Multiset.mem_filter.mp hx
    exact le_antisymm (not_lt.mp this.2) (h x this.1)
  conv_rhs => rw [← Multiset.filter_add_not (0 < ·) m, Multiset.sum_add, hz, add_zero]

/-- **C93.** With an exact eigenvalue routine, the eigenvalues returned by `from_time_series`, untrimmed or trimmed with the default `zeros="negative"`, sum to the total variance of the series (covariance) or to the number of series (correlation, no series constant), whether
there are more series than time points or not. -/
theorem C93_total_variance (eigvalsh : EigSolver) (hs : ExactSolver eigvalsh) (float : String → Option ℝ)
    (X : Matrix (Fin N) (Fin T) ℝ) (cov : Bool) (hT : 2 ≤ T) (hc : cov = false → ∀ i, NonConstant (X i))
    (tr : Bool) (s : SeriesEigs) (h : fromTimeSeries eigvalsh float (.dim2 N T X) cov tr (.str "negative") 1 = .ok s) :
    s.obj.vals.sum = if cov then totalVariance X else (N : ℝ) := by
  rw [← trace_wanted X cov hT hc, ← sum_roots _ (wantedMatrix_isSymm X cov)]
  cases tr
  · rw [← C45_spectrum eigvalsh hs float X cov hT hc _ s h]
    simp
  · have h2 := (C43_spectrum eigvalsh hs float X cov hT hc s h).2
    rw [← sum_filter_pos _ (C45_nonneg X cov hT hc), ← h2]
    simp

theorem vals_nonneg (eigvalsh : EigSolver) (hs : ExactSolver eigvalsh) (float : String → Option ℝ)
    (X : Matrix (Fin N) (Fin T) ℝ) (cov : Bool) (hT : 2 ≤ T) (hc : cov = false → ∀ i, NonConstant (X i))
    (tr : Bool) (s : SeriesEigs) (h : fromTimeSeries eigvalsh float (.dim2 N T X) cov tr (.str "negative") 1 = .ok s) :
    (∀ v ∈ s.obj.vals, 0 ≤ v) ∧ s.obj.vals.length ≤ N := by
  have hn := C45_nonneg X cov hT hc
  have hcard : Multiset.card (wantedMatrix X cov).charpoly.roots ≤ N := by
    have := Polynomial.card_roots' (wantedMatrix X cov).charpoly
    rwa [Matrix.charpoly_natDegree_eq_dim, Fintype.card_fin] at this
  cases tr
  · have h2 := C45_spectrum eigvalsh hs float X cov hT hc _ s h
    rw [← h2] at hn hcard
    refine ⟨fun v hv => hn v (Multiset.mem_add.mpr (Or.inl hv)), ?_⟩
    simp at hcard
    omega
  · have h2 := (C43_spectrum eigvalsh hs float X cov hT hc s h).2
    constructor
    · intro v hv
      have : v ∈ (s.obj.vals : Multiset ℝ) := hv
      rw [h2] at this
      exact (Multiset.mem_filter.mp this).2.le
    · have := congrArg Multiset.card h2
      rw [Multiset.coe_card] at this
      rw [this]
      exact (Multiset.card_le_card (Multiset.filter_le _ _)).trans hcard

/-- **C93 (partial: correlations).** For correlations no eigenvalue exceeds the number of series, the factor of the shifted Marchenko-Pastur endpoints is the share of the total variance not carried by the largest eigenvalue, and both shifted endpoints are non-negative, the
first being the upper one. -/
theorem C93_shift_partial (eigvalsh : EigSolver) (hs : ExactSolver eigvalsh) (float : String → Option ℝ)
    (X : Matrix (Fin N) (Fin T) ℝ) (hN : 0 < N) (hT : 2 ≤ T) (hc : ∀ i, NonConstant (X i))
    (tr : Bool) (s : SeriesEigs) (h : fromTimeSeries eigvalsh float (.dim2 N T X) false tr (.str "negative") 1 = .ok s) :
    ∃ m ∈ s.obj.vals, (∀ v ∈ s.obj.vals, v ≤ m) ∧ m ≤ N ∧
      s.marchenkoShifted.1 = (s.obj.vals.sum - m) / s.obj.vals.sum * s.marchenko.2 ∧
      s.marchenkoShifted.2 = (s.obj.vals.sum - m) / s.obj.vals.sum * s.marchenko.1 ∧
      0 ≤ s.marchenkoShifted.2 ∧ s.marchenkoShifted.2 ≤ s.marchenkoShifted.1 := by
  have hsum := C93_total_variance eigvalsh hs float X false hT (fun _ => hc) tr s h
  simp only [Bool.false_eq_true, if_false] at hsum
  have hnn := (vals_nonneg eigvalsh hs float X false hT (fun _ => hc) tr s h).1
  have hall : ∀ v ∈ s.obj.vals, v ≤ N := fun v hv => by
    rw [← hsum]; exact List.single_le_sum hnn v hv
  have hord := ((C44_endpoints_partial eigvalsh float X false tr _ hN (by omega) s h).2.1).mpr hall
  have h' : fromSeries eigvalsh float X false tr (.str "negative") = .ok s := by simpa [fromTimeSeries] using h
  obtain ⟨e, e', m, h1, h2, h3, rfl⟩ := (fromSeries_eq _ _ _ _ _ _ _).mp h'
  have hne : e' ≠ [] := by rintro rfl; simp [npMax] at h3
  obtain ⟨m', hm', hmem, hmax⟩ := npMax_ok hne
  rw [h3] at hm'
  simp only [Except.ok.injEq] at hm'
  subst hm'
  have hN' : (0 : ℝ) < N := by exact_mod_cast hN
  have hm : m ∈ npSort e' := (npSort_perm _).mem_iff.mpr hmem
  refine ⟨m, hm, fun v hv => hmax v ((npSort_perm _).mem_iff.mp hv), hall m hm, ?_, ?_, ?_, hord⟩
  · rw [hsum]; simp only [mkSeriesEigs]; rw [sub_div, div_self hN'.ne']
  · rw [hsum]; simp only [mkSeriesEigs]; rw [sub_div, div_self hN'.ne']
  · simp only [mkSeriesEigs]
    have : m / N ≤ 1 := by rw [div_le_one hN']; exact hall m hm
    exact mul_nonneg (by linarith) (sq_nonneg _)

/-- **C93 (refuted: covariances, the default).** For covariances the factor compares the largest eigenvalue with the number of series instead of the total variance: as soon as the mean variance of the series exceeds their number, the upper endpoint is
negative. -/
theorem C93_shift_refuted (eigvalsh : EigSolver) (hs : ExactSolver eigvalsh) (float : String → Option ℝ)
    (X : Matrix (Fin N) (Fin T) ℝ) (hN : 0 < N) (hT : 2 ≤ T) (hv : (N : ℝ) < totalVariance X / N)
    (tr : Bool) (s : SeriesEigs) (h : fromTimeSeries eigvalsh float (.dim2 N T X) true tr (.str "negative") 1 = .ok s) :
    s.marchenkoShifted.1 < 0 ∧ s.marchenkoShifted.2 ≤ 0 := by
  have hsum := C93_total_variance eigvalsh hs float X true hT (fun h => by cases h) tr s h
  simp only [if_true] at hsum
  obtain ⟨hnn, hlen⟩ := vals_nonneg eigvalsh hs float X true hT (fun h => by cases h) tr s h
  have h' : fromSeries eigvalsh float X true tr (.str "negative") = .ok s := by simpa [fromTimeSeries] using h
  obtain ⟨e, e', m, h1, h2, h3, rfl⟩ := (fromSeries_eq _ _ _ _ _ _ _).mp h'
  have hne : e' ≠ [] := by rintro rfl; simp [npMax] at h3
  obtain ⟨m', hm', hmem, hmax⟩ := npMax_ok hne
  rw [h3] at hm'
  simp only [Except.ok.injEq] at hm'
  subst hm'
  have hN' : (0 : ℝ) < N := by exact_mod_cast hN
  have hT' : (0 : ℝ) < T := by exact_mod_cast (by omega : 0 < T)
  have hm : m ∈ npSort e' := (npSort_perm _).mem_iff.mpr hmem
  have hm0 : 0 ≤ m := hnn m hm
  have hle : totalVariance X ≤ N * m := by
    have h1 := List.sum_le_card_nsmul (npSort e') m (fun v hv => hmax v ((npSort_perm _).mem_iff.mp hv))
    change (npSort e').length ≤ N at hlen
    change (npSort e').sum = _ at hsum
    rw [hsum, nsmul_eq_mul] at h1
    have : ((npSort e').length : ℝ) ≤ N := by exact_mod_cast hlen
    nlinarith
  have hmN : (N : ℝ) < m := by
    rw [lt_div_iff₀ hN'] at hv
    nlinarith
  have hneg : 1 - m / N < 0 := by
    have : 1 < m / N := by rw [lt_div_iff₀ hN']; linarith
    linarith
  simp only [mkSeriesEigs]
  have hq : 0 < Real.sqrt ((N : ℝ) / T) := Real.sqrt_pos.mpr (by positivity)
  constructor
  · exact mul_neg_of_neg_of_pos hneg (by positivity)
  · exact mul_nonpos_of_nonpos_of_nonneg hneg.le (sq_nonneg _)

/-- Two series of length 2 with large variance: 0, 10 and 0, 20; their variances are 50 and 200. -/
def exY : Matrix (Fin 2) (Fin 2) ℝ := fun i t => if t = 0 then 0 else if i = 0 then 10 else 20
example : ((2 : ℕ) : ℝ) < totalVariance exY / (2 : ℕ) := by
  simp [totalVariance, sampleCov, exY, Fin.sum_univ_two]
  norm_num

end Props
end RMT
