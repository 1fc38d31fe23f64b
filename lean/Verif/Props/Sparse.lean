import Verif.Model.Sparse
import Verif.Props.TimeSeries
import Mathlib.LinearAlgebra.Matrix.Charpoly.Coeff

/-!
# Property C134: `from_time_series(..., use_sparse=True)`
-/

namespace RMT
namespace Props
open EigM EigValsM Spec

variable {N T : ℕ}

/-- A routine that is exact on the matrices in `P`: asked for `k < n` eigenvalues it returns `k` of the roots of the characteristic polynomial, counted with
multiplicity. Which ones (`which`) is left open. -/
def ExactOn (P : ∀ n, Matrix (Fin n) (Fin n) ℝ → Prop) (solver : SparseSolver) : Prop :=
  ∀ n (M : Matrix (Fin n) (Fin n) ℝ) k, P n M → k < n →
    (solver n M k : Multiset ℝ) ≤ M.charpoly.roots ∧ (solver n M k).length = k

/-- The documented domain of `eigsh`. -/
def Symmetric (n : ℕ) (M : Matrix (Fin n) (Fin n) ℝ) : Prop := M.IsSymm

/-- Lower triangular matrices. -/
def LowerTriangular (n : ℕ) (M : Matrix (Fin n) (Fin n) ℝ) : Prop := ∀ i j, i < j → M i j = 0

/-- The arguments under which `use_sparse=True` gives a result: `return_eigenvectors=False` and `k` eigenvalues. -/
def valuesOnly (k : ℕ) : SpArgs := ⟨k, some false⟩

theorem tril_lower {n : ℕ} (M : Matrix (Fin n) (Fin n) ℝ) : LowerTriangular n (tril M) := by
  intro i j h
  simp [tril, not_le.mpr h]

theorem charpoly_lower {n : ℕ} (M : Matrix (Fin n) (Fin n) ℝ) (h : LowerTriangular n M) :
    M.charpoly = ∏ i, (Polynomial.X - Polynomial.C (M i i)) := by
  have hu : M.transpose.IsUpperTriangular := fun i j hij => h j i hij
  rw [← Matrix.charpoly_transpose, Matrix.charpoly_of_isUpperTriangular _ hu]
  rfl

theorem roots_lower {n : ℕ} (M : Matrix (Fin n) (Fin n) ℝ) (h : LowerTriangular n M) :
    M.charpoly.roots = Finset.univ.val.map fun i => M i i := by
  have : ∏ i, (Polynomial.X - Polynomial.C (M i i)) = ((Finset.univ.val.map fun i => M i i).map fun a => Polynomial.X - Polynomial.C a).prod := by
    rw [Multiset.map_map]; rfl
  rw [charpoly_lower _ h, this, Polynomial.roots_multiset_prod_X_sub_C]

theorem roots_tril {n : ℕ} (M : Matrix (Fin n) (Fin n) ℝ) :
    (tril M).charpoly.roots = Finset.univ.val.map fun i => M i i := by
  rw [roots_lower _ (tril_lower M)]
  simp [tril]

theorem wanted_eq (X : Matrix (Fin N) (Fin T) ℝ) (cov : Bool) (hT : 2 ≤ T) :
    (if cov then npCov X 1 else correlateFast X 1) = wantedMatrix X cov := by
  rw [npCov_one X (by omega), correlateFast_eq X 1 (by omega)]
  rfl

theorem computedEigsSparse_eq (eigvalsh : EigSolver) (solver : SparseSolver) (X : Matrix (Fin N) (Fin T) ℝ) (cov : Bool) (k : ℕ)
    (hT : 2 ≤ T) (hNT : N ≤ T) (hk : 0 < k) (hkN : k < N) :
    computedEigsSparse eigvalsh solver X cov (valuesOnly k) = .ok (solver N (tril (wantedMatrix X cov)) k) := by
  have hs : ∀ M : Matrix (Fin N) (Fin N) ℝ, sparseEigs solver M (valuesOnly k) = .ok (solver N (tril M) k) := by
    intro M
    have h1 : ¬ ((k : Int) ≤ 0) := by omega
    have h2 : ¬ ((N : Int) ≤ k) := by omega
    simp only [sparseEigs, eigsh, valuesOnly, h1, h2, if_false, Option.some.injEq, Bool.false_eq_true, if_true, bind, Except.bind, Int.toNat_natCast]
  have hw := wanted_eq X cov hT
  unfold computedEigsSparse
  rw [if_pos hNT]
  cases cov
  · have h1 : N ≠ 1 := by omega
    simp only [Bool.false_eq_true, if_false, if_neg h1] at hw ⊢
    rw [hs, hw]
  · simp only [if_true] at hw ⊢
    rw [hs, hw]

theorem finishSeries_raw (float : String → Option ℝ) (z : Zeros) (e : List ℝ) (s : SeriesEigs)
    (h : finishSeries N T float e false z = .ok s) : (s.obj.vals : Multiset ℝ) = e ∧ s.obj.vals = npSort e := by
  unfold finishSeries at h
  rcases hm : npMax e with m | m
  · simp [hm, initEigVals1d_ok, bind, Except.bind] at h
  · simp only [Bool.false_eq_true, if_false, initEigVals1d_ok, hm, bind, Except.bind, Except.ok.injEq] at h
    subst h
    exact ⟨Multiset.coe_eq_coe.mpr (npSort_perm e), rfl⟩

theorem finishSeries_isOk (float : String → Option ℝ) (z : Zeros) (e : List ℝ) (he : e ≠ []) :
    ∃ s, finishSeries N T float e false z = .ok s := by
  rcases e with _ | ⟨x, xs⟩
  · exact absurd rfl he
  · simp only [finishSeries, Bool.false_eq_true, if_false, initEigVals1d_ok, npMax, bind, Except.bind]
    exact ⟨_, rfl⟩

/-- **C134 (documented claim, what holds of it).** For at most as many series as time points, pairwise uncorrelated, `use_sparse=True` with `0 < k < N` and `return_eigenvectors=False`
returns `k` eigenvalues of the covariance (or correlation) matrix, for every routine that is exact on symmetric matrices. -/
theorem C134_uncorrelated_partial (eigvalsh : EigSolver) (solver : SparseSolver) (hs : ExactOn Symmetric solver) (float : String → Option ℝ)
    (X : Matrix (Fin N) (Fin T) ℝ) (cov : Bool) (hT : 2 ≤ T) (hNT : N ≤ T) (k : ℕ) (hk : 0 < k) (hkN : k < N) (z : Zeros)
    (hu : ∀ i j, i ≠ j → wantedMatrix X cov i j = 0) :
    ∃ s, fromTimeSeriesOpt eigvalsh solver float (.dim2 N T X) cov false z 1 true (valuesOnly k) = .ok s ∧
      (s.obj.vals : Multiset ℝ) ≤ (wantedMatrix X cov).charpoly.roots ∧ s.obj.vals.length = k := by
  have ht : tril (wantedMatrix X cov) = wantedMatrix X cov := by
    funext i j
    unfold tril
    split_ifs with h
    · rfl
    · exact (hu i j (by rintro rfl; exact h le_rfl)).symm
  have hc := computedEigsSparse_eq eigvalsh solver X cov k hT hNT hk hkN
  rw [ht] at hc
  have hx := hs N (wantedMatrix X cov) k (wantedMatrix_isSymm X cov) hkN
  obtain ⟨s, h⟩ := finishSeries_isOk (N := N) (T := T) float z (solver N (wantedMatrix X cov) k)
    (by intro h0; rw [h0] at hx; simp at hx; omega)
  refine ⟨s, ?_, ?_⟩
  · simp [fromTimeSeriesOpt, fromSeriesSparse, hc, h, bind, Except.bind]
  · obtain ⟨h1, h2⟩ := finishSeries_raw float z _ s h
    rw [h1, h2, (npSort_perm _).length_eq]
    exact hx

/-- **C134 (what is computed instead).** Only the lower triangle reaches the eigenvalue routine. If the routine is exact on lower triangular matrices, what `use_sparse=True` returns
is `k` of the variances of the series (`k` ones, for correlations), whatever the dependence between the series. -/
theorem C134_variances (eigvalsh : EigSolver) (solver : SparseSolver) (hs : ExactOn LowerTriangular solver) (float : String → Option ℝ)
    (X : Matrix (Fin N) (Fin T) ℝ) (cov : Bool) (hT : 2 ≤ T) (hNT : N ≤ T) (k : ℕ) (hk : 0 < k) (hkN : k < N) (z : Zeros)
    (hc : cov = false → ∀ i, NonConstant (X i)) :
    ∃ s, fromTimeSeriesOpt eigvalsh solver float (.dim2 N T X) cov false z 1 true (valuesOnly k) = .ok s ∧ s.obj.vals.length = k ∧
      (s.obj.vals : Multiset ℝ) ≤ (Finset.univ.val.map fun i => if cov then sampleCov (X i) (X i) else 1) := by
  have hcomp := computedEigsSparse_eq eigvalsh solver X cov k hT hNT hk hkN
  have hx := hs N (tril (wantedMatrix X cov)) k (tril_lower _) hkN
  rw [roots_tril] at hx
  have hd : (fun i => wantedMatrix X cov i i) = fun i => if cov then sampleCov (X i) (X i) else 1 := by
    funext i
    cases cov
    · have := (C46_correlation X 1 (by omega) (hc rfl)).2.2.2.1 i
      rw [correlateFast_eq X 1 (by omega)] at this
      simpa [wantedMatrix] using this
    · simp [wantedMatrix, covMatrix]
  rw [hd] at hx
  obtain ⟨s, h⟩ := finishSeries_isOk (N := N) (T := T) float z (solver N (tril (wantedMatrix X cov)) k)
    (by intro h0; rw [h0] at hx; simp at hx; omega)
  obtain ⟨h1, h2⟩ := finishSeries_raw float z _ s h
  refine ⟨s, ?_, ?_, ?_⟩
  · simp [fromTimeSeriesOpt, fromSeriesSparse, hcomp, h, bind, Except.bind]
  · rw [h2, (npSort_perm _).length_eq]; exact hx.2
  · rw [h1]; exact hx.1

/-- **C134 (refuted).** For every pair of correlated series, `use_sparse=True` with `covariance=False`, `k=1` and a routine that is exact on what it is given returns `[1]`, which is not an eigenvalue of their
correlation matrix. -/
theorem C134_refuted (eigvalsh : EigSolver) (solver : SparseSolver) (hs : ExactOn LowerTriangular solver) (float : String → Option ℝ)
    (X : Matrix (Fin 2) (Fin T) ℝ) (hT : 2 ≤ T) (z : Zeros) (hc : ∀ i, NonConstant (X i)) (hr : pearson (X 0) (X 1) ≠ 0) :
    ∃ s, fromTimeSeriesOpt eigvalsh solver float (.dim2 2 T X) false false z 1 true (valuesOnly 1) = .ok s ∧ s.obj.vals = [1] ∧
      (1 : ℝ) ∉ (corrMatrix X).charpoly.roots := by
  obtain ⟨s, h, hl, hm⟩ := C134_variances eigvalsh solver hs float X false hT hT 1 one_pos one_lt_two z (fun _ => hc)
  refine ⟨s, h, ?_, ?_⟩
  · obtain ⟨a, ha⟩ := List.length_eq_one_iff.mp hl
    rw [ha] at hm ⊢
    have := Multiset.mem_of_le hm (show a ∈ (([a] : List ℝ) : Multiset ℝ) by simp)
    simp at this
    rw [this]
  · have hd := (C46_correlation X 1 (by omega) hc).2.2.2.1
    have hsym := (corrMatrix_isSymm X).apply 0 1
    rw [correlateFast_eq X 1 (by omega)] at hd
    intro h1
    have hroot := (Polynomial.mem_roots'.mp h1).2
    rw [Polynomial.IsRoot, Matrix.charpoly_fin_two] at hroot
    simp only [Matrix.trace_fin_two, Matrix.det_fin_two, hd, hsym] at hroot
    simp at hroot
    have : (corrMatrix X 0 1) * (corrMatrix X 0 1) = 0 := by linarith
    exact hr (mul_self_eq_zero.mp this)

/-- **C134 (ignored).** For more series than time points the result is that of the dense computation, whatever `use_sparse` and `sp_args` are - also if eigenvectors are
asked for. -/
theorem C134_ignored (eigvalsh : EigSolver) (solver : SparseSolver) (float : String → Option ℝ)
    (X : Matrix (Fin N) (Fin T) ℝ) (cov tr sparse : Bool) (hNT : T < N) (z : Zeros) (sp : SpArgs) :
    fromTimeSeriesOpt eigvalsh solver float (.dim2 N T X) cov tr z 1 sparse sp =
      fromTimeSeries eigvalsh float (.dim2 N T X) cov tr z 1 := by
  cases sparse
  · rfl
  · have h : computedEigsSparse eigvalsh solver X cov sp = computedEigs eigvalsh X cov := by
      simp [computedEigsSparse, computedEigs, not_le.mpr hNT]
    simp only [fromTimeSeriesOpt, fromTimeSeries, fromSeriesSparse, h, if_true]
    rfl

/-- **C134 (arguments).** With `use_sparse=True` as without: data that are not two-dimensional and time axes other than 0 and 1 raise `ValueError`, and `time_axis=0` is `time_axis=1` for the transposed data. -/
theorem C134_arguments (eigvalsh : EigSolver) (solver : SparseSolver) (float : String → Option ℝ) (X : Matrix (Fin N) (Fin T) ℝ) (cov tr sparse : Bool) (z : Zeros) (sp : SpArgs) :
    (∀ axis, fromTimeSeriesOpt eigvalsh solver float .other cov tr z axis sparse sp = .error .valueError) ∧
    (∀ axis : Int, axis ≠ 0 → axis ≠ 1 → fromTimeSeriesOpt eigvalsh solver float (.dim2 N T X) cov tr z axis sparse sp = .error .valueError) ∧
    fromTimeSeriesOpt eigvalsh solver float (.dim2 N T X) cov tr z 0 sparse sp = fromTimeSeriesOpt eigvalsh solver float (.dim2 T N X.transpose) cov tr z 1 sparse sp := by
  cases sparse
  · refine ⟨fun axis => rfl, fun axis h0 h1 => ?_, ?_⟩
    · simp [fromTimeSeriesOpt, fromTimeSeries, h0, h1]
    · simp [fromTimeSeriesOpt, fromTimeSeries]
  · refine ⟨fun axis => rfl, fun axis h0 h1 => ?_, ?_⟩
    · simp [fromTimeSeriesOpt, h0, h1]
    · simp [fromTimeSeriesOpt]

/-- **C134 (exceptions).** For at most as many series as time points: `return_eigenvectors=True`, or not passing `return_eigenvectors` with `0 < k < N`, raises `ValueError`; so does `k ≤ 0`.
With `k ≥ N` (by default `k = 6`) and `return_eigenvectors` not `True` a `TypeError` is raised. -/
theorem C134_exceptions (eigvalsh : EigSolver) (solver : SparseSolver) (float : String → Option ℝ)
    (X : Matrix (Fin N) (Fin T) ℝ) (cov tr : Bool) (hNT : N ≤ T) (hN : N ≠ 1) (z : Zeros) (k : Int) :
    fromTimeSeriesOpt eigvalsh solver float (.dim2 N T X) cov tr z 1 true ⟨k, some true⟩ = .error .valueError ∧
    (k < N → fromTimeSeriesOpt eigvalsh solver float (.dim2 N T X) cov tr z 1 true ⟨k, none⟩ = .error .valueError) ∧
    (∀ r, k ≤ 0 → fromTimeSeriesOpt eigvalsh solver float (.dim2 N T X) cov tr z 1 true ⟨k, r⟩ = .error .valueError) ∧
    (∀ r, r ≠ some true → 0 < k → N ≤ k → fromTimeSeriesOpt eigvalsh solver float (.dim2 N T X) cov tr z 1 true ⟨k, r⟩ = .error .typeError) := by
  have key : ∀ sp e, (∀ M : Matrix (Fin N) (Fin N) ℝ, sparseEigs solver M sp = .error e) →
      fromTimeSeriesOpt eigvalsh solver float (.dim2 N T X) cov tr z 1 true sp = .error e := by
    intro sp e h
    simp [fromTimeSeriesOpt, fromSeriesSparse, computedEigsSparse, hNT, hN, h, bind, Except.bind]
  refine ⟨key _ _ fun M => by simp [sparseEigs], fun h => key _ _ fun M => ?_, fun r h => key _ _ fun M => ?_, fun r hr h h' => key _ _ fun M => ?_⟩
  · by_cases h0 : k ≤ 0
    · simp [sparseEigs, eigsh, bind, Except.bind, h0]
    · simp [sparseEigs, eigsh, bind, Except.bind, h0, not_le.mpr h]
  · rcases r with _ | _ | _ <;> simp [sparseEigs, eigsh, bind, Except.bind, h]
  · simp [sparseEigs, eigsh, bind, Except.bind, not_le.mpr h, h', hr]

/-! ## Hypotheses are met -/

/-- A routine that is exact on all matrices with a real spectrum: the first `k` roots. -/
noncomputable def takeRoots : SparseSolver := fun _ M k => M.charpoly.roots.toList.take k

example : ExactOn LowerTriangular takeRoots := by
  intro n M k hM hk
  constructor
  · have h : (M.charpoly.roots.toList.take k : Multiset ℝ) ≤ (M.charpoly.roots.toList : Multiset ℝ) :=
      Multiset.coe_le.mpr (List.take_sublist _ _).subperm
    rwa [Multiset.coe_toList] at h
  · have : M.charpoly.roots.card = n := by
      rw [roots_lower M hM]
      simp
    simp [takeRoots, this, hk.le]

example : ExactOn Symmetric takeRoots := by
  intro n M k hM hk
  constructor
  · have h : (M.charpoly.roots.toList.take k : Multiset ℝ) ≤ (M.charpoly.roots.toList : Multiset ℝ) :=
      Multiset.coe_le.mpr (List.take_sublist _ _).subperm
    rwa [Multiset.coe_toList] at h
  · have hH : M.IsHermitian := by
      rw [Matrix.IsHermitian, Matrix.conjTranspose_eq_transpose_of_trivial]; exact hM
    have : M.charpoly.roots.card = n := by
      rw [hH.roots_charpoly_eq_eigenvalues]; simp
    simp [takeRoots, this, hk.le]

-- two correlated series
example : (∀ i, NonConstant (exX i)) ∧ pearson (exX 0) (exX 1) ≠ 0 := by
  constructor
  · intro i
    refine ⟨0, 1, ?_⟩
    fin_cases i <;> simp [exX]
  · simp only [pearson, exX, Fin.sum_univ_two]
    norm_num

/-- Two uncorrelated series. -/
def orthX : Matrix (Fin 2) (Fin 3) ℝ := fun i t => if i = 0 then ![1, 0, -1] t else ![1, -2, 1] t
example : ∀ i j, i ≠ j → wantedMatrix orthX true i j = 0 := by
  intro i j hij
  fin_cases i <;> fin_cases j <;> simp [wantedMatrix, covMatrix, sampleCov, orthX, Fin.sum_univ_three] at hij ⊢

end Props
end RMT
