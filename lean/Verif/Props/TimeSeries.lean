import Verif.Lemmas.Correlation
import Mathlib.Analysis.Matrix.Spectrum
import Mathlib.Analysis.Matrix.PosDef

/-!
# Properties C43 - C46: `from_time_series`, the transposed computation and `correlate_fast`
-/

set_option linter.unusedSectionVars false

namespace RMT
namespace Props
open EigM EigValsM Spec

variable {N T : ℕ}

/-! ## C43 -/

/-- **C43 (argument checks).** Data of another dimension than 2, and time axes other than 0 and 1, raise `ValueError`. -/
theorem C43_checks (eigvalsh : EigSolver) (float : String → Option ℝ) (cov tr : Bool) (z : Zeros) (axis : Int) :
    fromTimeSeries eigvalsh float .other cov tr z axis = .error .valueError ∧
    (∀ N T (X : Matrix (Fin N) (Fin T) ℝ), axis ≠ 0 → axis ≠ 1 →
      fromTimeSeries eigvalsh float (.dim2 N T X) cov tr z axis = .error .valueError) := by
  refine ⟨rfl, fun N T X h0 h1 => ?_⟩
  simp [fromTimeSeries, h0, h1]

theorem fromSeries_eq (eigvalsh : EigSolver) (float : String → Option ℝ) (X : Matrix (Fin N) (Fin T) ℝ)
    (cov tr : Bool) (z : Zeros) (s : SeriesEigs) :
    fromSeries eigvalsh float X cov tr z = .ok s ↔
      ∃ e e' m, computedEigs eigvalsh X cov = .ok e ∧ (if tr then trimZeros float e z else .ok e) = .ok e' ∧
        npMax e' = .ok m ∧ s = mkSeriesEigs N T ⟨npSort e', npSort e', none⟩ m := by
  have hc : fromSeries eigvalsh float X cov tr z = (computedEigs eigvalsh X cov).bind fun eigs =>
      (if tr then trimZeros float eigs z else .ok eigs).bind fun eigs' => (initEigVals1d eigs').bind fun o =>
      (npMax eigs').bind fun m => .ok (mkSeriesEigs N T o m) := by
    simp only [fromSeries, bind]
  rw [hc]
  rcases h1 : computedEigs eigvalsh X cov with e | e
  · simp [Except.bind]
  · rcases h2 : (if tr then trimZeros float e z else .ok e) with e' | e'
    · simp [Except.bind, h2]
    · rcases h3 : npMax e' with m | m
      · simp [Except.bind, h2, h3, initEigVals1d_ok]
      · simp only [Except.bind, h2, h3, initEigVals1d_ok, Except.ok.injEq]
        constructor
        · intro h; exact ⟨e, e', m, rfl, h2, h3, h.symm⟩
        · rintro ⟨_, _, _, rfl, h4, h5, h6⟩
          rw [h2] at h4; cases h4
          rw [h3] at h5; cases h5
          exact h6.symm

theorem fromSeries_sizes (eigvalsh : EigSolver) (float : String → Option ℝ) (X : Matrix (Fin N) (Fin T) ℝ)
    (cov tr : Bool) (z : Zeros) (s : SeriesEigs) (h : fromSeries eigvalsh float X cov tr z = .ok s) :
    s.seriesN = N ∧ s.seriesT = T := by
  obtain ⟨e, e', m, -, -, -, rfl⟩ := (fromSeries_eq _ _ _ _ _ _ _).mp h
  exact ⟨rfl, rfl⟩

/-- **C43 (stored sizes).** The stored numbers of series and of time points are the numbers of rows and columns for `time_axis=1`, of columns and rows for
`time_axis=0`. -/
theorem C43_sizes (eigvalsh : EigSolver) (float : String → Option ℝ) (X : Matrix (Fin N) (Fin T) ℝ)
    (cov tr : Bool) (z : Zeros) (s : SeriesEigs) :
    (fromTimeSeries eigvalsh float (.dim2 N T X) cov tr z 1 = .ok s → s.seriesN = N ∧ s.seriesT = T) ∧
    (fromTimeSeries eigvalsh float (.dim2 N T X) cov tr z 0 = .ok s → s.seriesN = T ∧ s.seriesT = N) := by
  constructor
  · intro h; exact fromSeries_sizes eigvalsh float X cov tr z s (by simpa [fromTimeSeries] using h)
  · intro h; exact fromSeries_sizes eigvalsh float X.transpose cov tr z s (by simpa [fromTimeSeries] using h)

/-- **C43 (axes).** Passing the transposed data with the other axis is the same. -/
theorem C43_axes (eigvalsh : EigSolver) (float : String → Option ℝ) (X : Matrix (Fin N) (Fin T) ℝ)
    (cov tr : Bool) (z : Zeros) :
    fromTimeSeries eigvalsh float (.dim2 T N X.transpose) cov tr z 0 =
      fromTimeSeries eigvalsh float (.dim2 N T X) cov tr z 1 := by
  simp [fromTimeSeries]

/-- The documented threshold: the given number, `0` for `"negative"`, and for `"heuristic"` `100 |min|` if the minimum is negative, else `0`. -/
noncomputable def documentedThreshold (float : String → Option ℝ) (z : Zeros) (emin : ℝ) : Option ℝ :=
  match z with
  | .num x => some x
  | .str s => if s = "negative" then some 0
    else if s = "heuristic" then some (if emin < 0 then 100 * |emin| else 0)
    else float s

/-- **C43 (trimming).** If the trimmed call succeeds then so does the one with `trim_zeros=False`, and the trimmed values are exactly the untrimmed ones above the documented
threshold. -/
theorem C43_threshold (eigvalsh : EigSolver) (float : String → Option ℝ) (X : Matrix (Fin N) (Fin T) ℝ)
    (cov : Bool) (z : Zeros) (s : SeriesEigs) (h : fromTimeSeries eigvalsh float (.dim2 N T X) cov true z 1 = .ok s) :
    ∃ s' emin thr, fromTimeSeries eigvalsh float (.dim2 N T X) cov false z 1 = .ok s' ∧
      emin ∈ s'.obj.vals ∧ (∀ x ∈ s'.obj.vals, emin ≤ x) ∧
      documentedThreshold float z emin = some thr ∧
      s.obj.vals = s'.obj.vals.filter fun e => decide (thr < e) := by
  have h' : fromSeries eigvalsh float X cov true z = .ok s := by simpa [fromTimeSeries] using h
  obtain ⟨e, e', m, h1, h2, h3, rfl⟩ := (fromSeries_eq _ _ _ _ _ _ _).mp h'
  simp only [if_true] at h2
  have key : ∀ thr, e' = e.filter (fun x => decide (x > thr)) → e ≠ [] := by
    rintro thr rfl rfl
    simp [npMax] at h3
  have build : ∀ emin thr, e ≠ [] → emin ∈ e → (∀ x ∈ e, emin ≤ x) → documentedThreshold float z emin = some thr →
      e' = e.filter (fun x => decide (x > thr)) →
      ∃ s' emin thr, fromTimeSeries eigvalsh float (.dim2 N T X) cov false z 1 = .ok s' ∧
      emin ∈ s'.obj.vals ∧ (∀ x ∈ s'.obj.vals, emin ≤ x) ∧
      documentedThreshold float z emin = some thr ∧
      npSort e' = s'.obj.vals.filter fun e => decide (thr < e) := by
    intro emin thr hne hmem hmin hd he'
    obtain ⟨m2, hm2, -, -⟩ := npMax_ok hne
    refine ⟨mkSeriesEigs N T ⟨npSort e, npSort e, none⟩ m2, emin, thr, ?_, ?_, ?_, hd, ?_⟩
    · simp only [fromTimeSeries]
      simp only [ne_eq, not_true_eq_false, and_false, if_false, one_ne_zero]
      exact (fromSeries_eq _ _ _ _ _ _ _).mpr ⟨e, e, m2, h1, rfl, hm2, rfl⟩
    · exact (npSort_perm e).mem_iff.mpr hmem
    · intro x hx; exact hmin x ((npSort_perm e).mem_iff.mp hx)
    · rw [he', npSort_filter]; rfl
  cases z with
  | num x =>
    simp only [trimZeros, Except.ok.injEq] at h2
    have hne := key x h2.symm
    obtain ⟨emin, -, hmem, hmin⟩ := npMin_ok hne
    exact build emin x hne hmem hmin rfl h2.symm
  | str st =>
    simp only [trimZeros] at h2
    by_cases hh : st = "heuristic"
    · subst hh
      simp only [if_true, bind, Except.bind] at h2
      have hne : e ≠ [] := by rintro rfl; simp [npMin] at h2
      obtain ⟨emin, hm, hmem, hmin⟩ := npMin_ok hne
      rw [hm] at h2
      simp only [Except.ok.injEq] at h2
      refine build emin (if emin ≤ 0 then -100 * emin else 0) hne hmem hmin ?_ h2.symm
      simp only [documentedThreshold, if_true]
      rw [if_neg (by decide)]
      congr 1
      rcases lt_trichotomy emin 0 with hl | hl | hl
      · rw [if_pos hl, if_pos hl.le, abs_of_neg hl]; ring
      · subst hl; simp
      · rw [if_neg (not_lt.mpr hl.le), if_neg (not_le.mpr hl)]
    · rw [if_neg hh] at h2
      by_cases hn : st = "negative"
      · subst hn
        simp only [if_true, Except.ok.injEq] at h2
        have hne := key 0 h2.symm
        obtain ⟨emin, -, hmem, hmin⟩ := npMin_ok hne
        exact build emin 0 hne hmem hmin (by simp [documentedThreshold]) h2.symm
      · rw [if_neg hn] at h2
        rcases hf : float st with _ | x
        · simp [hf] at h2
        · simp only [hf, Except.ok.injEq] at h2
          have hne := key x h2.symm
          obtain ⟨emin, -, hmem, hmin⟩ := npMin_ok hne
          exact build emin x hne hmem hmin (by simp [documentedThreshold, hn, hh, hf]) h2.symm

/-- A string for `zeros` that is neither a name nor a number raises `ValueError`, provided there is not just one series or time point (then the error of `C45_single_series` comes first). -/
theorem C43_bad_zeros (eigvalsh : EigSolver) (float : String → Option ℝ) (X : Matrix (Fin N) (Fin T) ℝ)
    (cov : Bool) (st : String) (h1 : st ≠ "heuristic") (h2 : st ≠ "negative") (h3 : float st = none)
    (h4 : T ≠ 1) (h5 : N ≠ 1) : fromTimeSeries eigvalsh float (.dim2 N T X) cov true (.str st) 1 = .error .valueError := by
  have e : fromTimeSeries eigvalsh float (.dim2 N T X) cov true (.str st) 1 =
      fromSeries eigvalsh float X cov true (.str st) := by simp [fromTimeSeries]
  rw [e]
  simp only [fromSeries, computedEigs, eigsViaTranspose, bind, Except.bind]
  by_cases hNT : N ≤ T
  · simp [hNT, h5, trimZeros, h1, h2, h3]
  · simp [hNT, h4, trimZeros, h1, h2, h3]

/-! ## C45 -/

/-- **C45.** For more series than time points, the characteristic polynomial of the N×N covariance matrix (or of the correlation matrix, when no series is constant) is
that of the T×T matrix of the code times `X^(N-T)`. -/
theorem C45_charpoly (X : Matrix (Fin N) (Fin T) ℝ) (hT : 2 ≤ T) (hNT : T < N) :
    (covMatrix X).charpoly = Polynomial.X ^ (N - T) * (transposedMatrix X true).charpoly ∧
    ((∀ i, NonConstant (X i)) →
      (corrMatrix X).charpoly = Polynomial.X ^ (N - T) * (transposedMatrix X false).charpoly) := by
  constructor
  · exact transposed_charpoly X hT hNT.le true (fun h => by cases h)
  · intro h; exact transposed_charpoly X hT hNT.le false (fun _ => h)

/-- An eigenvalue routine that is exact on symmetric matrices: it returns the roots of the characteristic polynomial with multiplicity. -/
def ExactSolver (eigvalsh : EigSolver) : Prop :=
  ∀ n (M : Matrix (Fin n) (Fin n) ℝ), M.IsSymm → (eigvalsh n M : Multiset ℝ) = M.charpoly.roots

/-- The matrix the user asks about. -/
noncomputable def wantedMatrix (X : Matrix (Fin N) (Fin T) ℝ) (cov : Bool) : Matrix (Fin N) (Fin N) ℝ :=
  if cov then covMatrix X else corrMatrix X

theorem wantedMatrix_isSymm (X : Matrix (Fin N) (Fin T) ℝ) (cov : Bool) : (wantedMatrix X cov).IsSymm := by
  unfold wantedMatrix
  split_ifs
  · exact covMatrix_isSymm X
  · exact corrMatrix_isSymm X

theorem computed_roots (eigvalsh : EigSolver) (hs : ExactSolver eigvalsh) (X : Matrix (Fin N) (Fin T) ℝ) (cov : Bool)
    (hT : 2 ≤ T) (hc : cov = false → ∀ i, NonConstant (X i)) (e : List ℝ) (h : computedEigs eigvalsh X cov = .ok e) :
    (e : Multiset ℝ) + Multiset.replicate (N - T) 0 = (wantedMatrix X cov).charpoly.roots := by
  unfold computedEigs at h
  split_ifs at h with h1 h2 h3
  · simp only [Except.ok.injEq] at h
    rw [← h, hs N _ (by rw [npCov_one X (by omega)]; exact covMatrix_isSymm X), npCov_one X (by omega)]
    simp [wantedMatrix, h3, Nat.sub_eq_zero_of_le h1]
  · simp only [Except.ok.injEq] at h
    rw [← h, hs N _ (by rw [correlateFast_eq X 1 (by omega)]; exact corrMatrix_isSymm X), correlateFast_eq X 1 (by omega)]
    simp [wantedMatrix, h3, Nat.sub_eq_zero_of_le h1]
  · unfold eigsViaTranspose at h
    rw [if_neg h1, if_neg (by omega)] at h
    simp only [Except.ok.injEq] at h
    rw [← h, hs T _ (transposedMatrix_isSymm X cov)]
    have hp := transposed_charpoly X hT (by omega) cov hc
    have hne : Polynomial.X ^ (N - T) * (transposedMatrix X cov).charpoly ≠ 0 := by
      rw [← hp]; exact (Matrix.charpoly_monic _).ne_zero
    rw [wantedMatrix, hp, Polynomial.roots_mul hne, Polynomial.roots_X_pow, add_comm, Multiset.nsmul_singleton]

/-- **C45 (spectrum).** With an exact eigenvalue routine, `from_time_series(..., trim_zeros=False)` returns the eigenvalues, with multiplicity, of the covariance matrix (or of the correlation matrix, when
no series is constant), except that `N - T` zeros are missing if there are more series than time
points. -/
theorem C45_spectrum (eigvalsh : EigSolver) (hs : ExactSolver eigvalsh) (float : String → Option ℝ)
    (X : Matrix (Fin N) (Fin T) ℝ) (cov : Bool) (hT : 2 ≤ T) (hc : cov = false → ∀ i, NonConstant (X i))
    (z : Zeros) (s : SeriesEigs) (h : fromTimeSeries eigvalsh float (.dim2 N T X) cov false z 1 = .ok s) :
    (s.obj.vals : Multiset ℝ) + Multiset.replicate (N - T) 0 = (wantedMatrix X cov).charpoly.roots := by
  have h' : fromSeries eigvalsh float X cov false z = .ok s := by simpa [fromTimeSeries] using h
  obtain ⟨e, e', m, h1, h2, h3, rfl⟩ := (fromSeries_eq _ _ _ _ _ _ _).mp h'
  simp only [Bool.false_eq_true, if_false, Except.ok.injEq] at h2
  subst h2
  have := computed_roots eigvalsh hs X cov hT hc e h1
  rw [← this]
  congr 1
  exact Multiset.coe_eq_coe.mpr (npSort_perm e)

/-- **C43 (spectrum).** With an exact eigenvalue routine and the default `zeros="negative"`, `from_time_series` returns exactly the positive eigenvalues, with multiplicity, of the covariance matrix (or
of the correlation matrix, when no series is constant) of the series, in ascending order. -/
theorem C43_spectrum (eigvalsh : EigSolver) (hs : ExactSolver eigvalsh) (float : String → Option ℝ)
    (X : Matrix (Fin N) (Fin T) ℝ) (cov : Bool) (hT : 2 ≤ T) (hc : cov = false → ∀ i, NonConstant (X i))
    (s : SeriesEigs) (h : fromTimeSeries eigvalsh float (.dim2 N T X) cov true (.str "negative") 1 = .ok s) :
    Ascending s.obj.vals ∧
    (s.obj.vals : Multiset ℝ) = (wantedMatrix X cov).charpoly.roots.filter (0 < ·) := by
  have h' : fromSeries eigvalsh float X cov true (.str "negative") = .ok s := by simpa [fromTimeSeries] using h
  obtain ⟨e, e', m, h1, h2, h3, rfl⟩ := (fromSeries_eq _ _ _ _ _ _ _).mp h'
  refine ⟨npSort_ascending _, ?_⟩
  simp only [if_true, trimZeros] at h2
  rw [if_neg (by decide)] at h2
  simp only [Except.ok.injEq] at h2
  subst h2
  rw [← computed_roots eigvalsh hs X cov hT hc e h1, Multiset.filter_add]
  have hz : (Multiset.replicate (N - T) (0 : ℝ)).filter (0 < ·) = 0 := by
    rw [Multiset.filter_eq_nil]
    intro a ha
    rw [Multiset.eq_of_mem_replicate ha]
    exact lt_irrefl _
  rw [hz, add_zero]
  simp only [mkSeriesEigs]
  rw [Multiset.coe_eq_coe.mpr (npSort_perm _)]
  rw [Multiset.filter_coe]

/-- **C45 (non-negative).** Covariance and correlation matrices have no negative eigenvalues: what the trimming removes is zero in exact arithmetic. -/
theorem C45_nonneg (X : Matrix (Fin N) (Fin T) ℝ) (cov : Bool) (hT : 2 ≤ T) (hc : cov = false → ∀ i, NonConstant (X i)) :
    ∀ x ∈ (wantedMatrix X cov).charpoly.roots, 0 ≤ x := by
  have hp : (wantedMatrix X cov).PosSemidef := by
    cases cov
    · simpa [wantedMatrix] using corrMatrix_posSemidef X hT (hc rfl)
    · simpa [wantedMatrix] using covMatrix_posSemidef X hT
  intro x hx
  rw [hp.isHermitian.roots_charpoly_eq_eigenvalues] at hx
  simp only [Multiset.mem_map] at hx
  obtain ⟨i, -, rfl⟩ := hx
  exact hp.eigenvalues_nonneg i

/-! ## C44 -/

/-- **C44 (partial).** The stored endpoints `_marchenko` are ordered; the stored shifted endpoints are in the order (upper, lower): swapped they are ordered exactly if no
returned value exceeds `N`, and they agree with the cut points `trim_marchenko_pastur` computes. -/
theorem C44_endpoints_partial (eigvalsh : EigSolver) (float : String → Option ℝ)
    (X : Matrix (Fin N) (Fin T) ℝ) (cov tr : Bool) (z : Zeros) (hN : 0 < N) (hT : 0 < T)
    (s : SeriesEigs) (h : fromTimeSeries eigvalsh float (.dim2 N T X) cov tr z 1 = .ok s) :
    s.marchenko.1 < s.marchenko.2 ∧
    (s.marchenkoShifted.2 ≤ s.marchenkoShifted.1 ↔ ∀ v ∈ s.obj.vals, v ≤ N) ∧
    (∀ largest, ∃ o, trimMarchenkoPastur (some s.seriesN) (some s.seriesT) s.obj.vals none none largest true =
      .ok (o, s.marchenkoShifted.2, s.marchenkoShifted.1)) := by
  have h' : fromSeries eigvalsh float X cov tr z = .ok s := by simpa [fromTimeSeries] using h
  obtain ⟨e, e', m, h1, h2, h3, rfl⟩ := (fromSeries_eq _ _ _ _ _ _ _).mp h'
  have hne : e' ≠ [] := by rintro rfl; simp [npMax] at h3
  obtain ⟨m', hm', hmem, hmax⟩ := npMax_ok hne
  rw [h3] at hm'
  simp only [Except.ok.injEq] at hm'
  subst hm'
  have hq : 0 < Real.sqrt ((N : ℝ) / T) := Real.sqrt_pos.mpr (by positivity)
  have hlt : (1 - Real.sqrt ((N : ℝ) / T)) ^ 2 < (1 + Real.sqrt ((N : ℝ) / T)) ^ 2 := by nlinarith
  have hNr : (0 : ℝ) < N := by exact_mod_cast hN
  refine ⟨hlt, ?_, ?_⟩
  · simp only [mkSeriesEigs]
    constructor
    · intro hle v hv
      refine le_trans (hmax v ((npSort_perm _).mem_iff.mp hv)) ?_
      by_contra hc
      push Not at hc
      have : 1 - m / N < 0 := by
        have : 1 < m / N := by rw [lt_div_iff₀ hNr]; linarith
        linarith
      nlinarith
    · intro hall
      have : 0 ≤ 1 - m / N := by
        have : m / N ≤ 1 := by rw [div_le_iff₀ hNr]; linarith [hall m ((npSort_perm _).mem_iff.mpr hmem)]
        linarith
      exact mul_le_mul_of_nonneg_left hlt.le this
  · intro largest
    have hmax' : npMax (npSort e') = .ok m := npMax_eq ((npSort_perm _).mem_iff.mpr hmem)
      (fun x hx => hmax x ((npSort_perm _).mem_iff.mp hx))
    simp only [mkSeriesEigs, trimMarchenkoPastur, passedOrStored, marchenkoPasturWith, hmax', bind, Except.bind, initEigVals1d_ok]
    rw [if_neg (by omega)]
    exact ⟨_, rfl⟩

/-- **C44 (refuted).** Whenever some returned values are smaller than `N` and none exceeds it - the usual case - the stored shifted endpoints are not in the order (lower,
upper). -/
theorem C44_swapped_refuted (eigvalsh : EigSolver) (float : String → Option ℝ)
    (X : Matrix (Fin N) (Fin T) ℝ) (cov tr : Bool) (z : Zeros) (hN : 0 < N) (hT : 0 < T)
    (s : SeriesEigs) (h : fromTimeSeries eigvalsh float (.dim2 N T X) cov tr z 1 = .ok s) :
    s.marchenkoShifted.1 ≤ s.marchenkoShifted.2 ↔ ∃ v ∈ s.obj.vals, (N : ℝ) ≤ v := by
  have h' : fromSeries eigvalsh float X cov tr z = .ok s := by simpa [fromTimeSeries] using h
  obtain ⟨e, e', m, h1, h2, h3, rfl⟩ := (fromSeries_eq _ _ _ _ _ _ _).mp h'
  have hne : e' ≠ [] := by rintro rfl; simp [npMax] at h3
  obtain ⟨m', hm', hmem, hmax⟩ := npMax_ok hne
  rw [h3] at hm'
  simp only [Except.ok.injEq] at hm'
  subst hm'
  have hq : 0 < Real.sqrt ((N : ℝ) / T) := Real.sqrt_pos.mpr (by positivity)
  have hlt : (1 - Real.sqrt ((N : ℝ) / T)) ^ 2 < (1 + Real.sqrt ((N : ℝ) / T)) ^ 2 := by nlinarith
  have hNr : (0 : ℝ) < N := by exact_mod_cast hN
  simp only [mkSeriesEigs]
  constructor
  · intro hle
    refine ⟨m, (npSort_perm _).mem_iff.mpr hmem, ?_⟩
    by_contra hc
    push Not at hc
    have : 0 < 1 - m / N := by
      have : m / N < 1 := by rw [div_lt_iff₀ hNr]; linarith
      linarith
    nlinarith
  · rintro ⟨v, hv, hNv⟩
    have : 1 - m / N ≤ 0 := by
      have : 1 ≤ m / N := by
        rw [le_div_iff₀ hNr]
        linarith [hmax v ((npSort_perm _).mem_iff.mp hv)]
      linarith
    nlinarith

/-! ## C46 -/

/-- **C46.** For series that are not constant and `ddof` below the length, `correlate_fast` is the matrix of Pearson's correlation coefficients whatever `ddof`, symmetric, with entries in `[-1, 1]` and unit diagonal,
and positive semi-definite. -/
theorem C46_correlation (X : Matrix (Fin N) (Fin T) ℝ) (d : ℕ) (hd : d < T) (h : ∀ i, NonConstant (X i)) :
    correlateFast X d = corrMatrix X ∧ (correlateFast X d).IsSymm ∧ (∀ i j, |correlateFast X d i j| ≤ 1) ∧
    (∀ i, correlateFast X d i i = 1) ∧ (correlateFast X d).PosSemidef := by
  have hT : 2 ≤ T ∨ N = 0 := by
    rcases Nat.eq_zero_or_pos N with h0 | h0
    · exact Or.inr h0
    · left
      obtain ⟨a, b, hab⟩ := h ⟨0, h0⟩
      have : a ≠ b := fun e => hab (by rw [e])
      have := Fin.val_ne_of_ne this
      omega
  rw [correlateFast_eq X d hd]
  refine ⟨rfl, corrMatrix_isSymm X, fun i j => pearson_abs_le X (by omega) i j, ?_, ?_⟩
  · intro i
    have hp := S_self_pos X i (h i)
    rw [corrMatrix, pearson_eq X (by omega), Real.mul_self_sqrt hp.le, div_self hp.ne']
  · rcases hT with hT | rfl
    · exact corrMatrix_posSemidef X hT h
    · have : corrMatrix X = 0 := by ext i; exact i.elim0
      rw [this]; exact Matrix.PosSemidef.zero

/-- **C46 (clipping).** In exact arithmetic the final clipping to `[-1, 1]` changes nothing. -/
theorem C46_clip (X : Matrix (Fin N) (Fin T) ℝ) (d : ℕ) (hd : d < T) (i j : Fin N) :
    correlateFast X d i j = npCov X d i j / Real.sqrt (npCov X d i i) / Real.sqrt (npCov X d j j) := by
  rw [unclipped_eq X d hd, correlateFast_eq X d hd]
  rfl

/-- **C46 (covariance).** `np.cov(X, ddof=1)` is the sample covariance matrix; it is symmetric and positive semi-definite. -/
theorem C46_covariance (X : Matrix (Fin N) (Fin T) ℝ) (hT : 2 ≤ T) :
    npCov X 1 = covMatrix X ∧ (npCov X 1).IsSymm ∧ (npCov X 1).PosSemidef := by
  rw [npCov_one X (by omega)]
  exact ⟨rfl, covMatrix_isSymm X, covMatrix_posSemidef X hT⟩

/-- **C45 (a single series).** With one series and at least one time point nothing is computed: `LinAlgError` for the covariance, `ValueError` for the correlation, whatever the
solver, the trimming and the data are, and for both orientations. -/
theorem C45_single_series (eigvalsh : EigSolver) (float : String → Option ℝ) (T : ℕ) (hT : 1 ≤ T) (X : Matrix (Fin 1) (Fin T) ℝ) (tr : Bool) (z : Zeros) (cov : Bool) :
    fromTimeSeries eigvalsh float (.dim2 1 T X) cov tr z 1 = .error (if cov then .linAlgError else .valueError) ∧
    fromTimeSeries eigvalsh float (.dim2 T 1 (Matrix.transpose X)) cov tr z 0 = .error (if cov then .linAlgError else .valueError) := by
  constructor <;> simp [fromTimeSeries, fromSeries, computedEigs, hT, bind, Except.bind]

example : ∃ T, ∃ _ : Matrix (Fin 1) (Fin T) ℝ, 1 ≤ T := ⟨3, fun _ t => t.val, by norm_num⟩

-- an exact solver exists
example : ExactSolver fun _ M => M.charpoly.roots.toList := fun _ _ _ => Multiset.coe_toList _

/-- Two series of length 2 with non-zero covariance: 0, 1 and 0, 2. -/
def exX : Matrix (Fin 2) (Fin 2) ℝ := fun i t => if t = 0 then 0 else if i = 0 then 1 else 2
example : ∀ i, NonConstant (exX i) := by
  intro i
  refine ⟨0, 1, ?_⟩
  fin_cases i <;> simp [exX]
-- a call that succeeds, for the trimming theorems
example : ∃ s, fromTimeSeries (fun _ _ => [-1, 0, 3]) (fun _ => none) (.dim2 2 2 exX) true true (.str "negative") 1 = .ok s := by
  refine ⟨mkSeriesEigs 2 2 ⟨npSort [3], npSort [3], none⟩ 3, ?_⟩
  have : fromSeries (fun _ _ => [-1, 0, 3]) (fun _ => none) exX true true (.str "negative") =
      .ok (mkSeriesEigs 2 2 ⟨npSort [3], npSort [3], none⟩ 3) := by
    refine (fromSeries_eq _ _ _ _ _ _ _).mpr ⟨[-1, 0, 3], [3], 3, ?_, ?_, ?_, rfl⟩
    · simp [computedEigs]
    · simp [trimZeros]
    · simp [npMax, maxOf]
  simpa [fromTimeSeries] using this

end Props
end RMT
