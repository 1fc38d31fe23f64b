import Verif.Props.TimeSeries

/-!
# Property C123: the spectrum of a set of time series does not depend on units, signs and order
-/

set_option linter.unusedSectionVars false

namespace RMT
namespace Props
open EigM EigValsM Spec

variable {N T : ℕ}

/-- The series recorded in other units: series `i` of the new data is `a_i` times the series `σ i` of the old data plus `b_i`, and the time points are taken in the order `τ`. -/
def rescaled (X : Matrix (Fin N) (Fin T) ℝ) (a b : Fin N → ℝ) (σ : Equiv.Perm (Fin N)) (τ : Equiv.Perm (Fin T)) :
    Matrix (Fin N) (Fin T) ℝ := fun i t => a i * X (σ i) (τ t) + b i

theorem sum_affine (x : Fin T → ℝ) (a b : ℝ) (τ : Equiv.Perm (Fin T)) :
    ∑ t, (a * x (τ t) + b) = a * ∑ t, x t + T * b := by
  rw [Finset.sum_add_distrib, ← Finset.mul_sum, Equiv.sum_comp τ x]
  simp

theorem sum_affine_mul (x y : Fin T → ℝ) (a b c d : ℝ) (τ : Equiv.Perm (Fin T)) :
    ∑ t, (a * x (τ t) + b) * (c * y (τ t) + d) = a * c * ∑ t, x t * y t + a * d * ∑ t, x t + b * c * ∑ t, y t + T * (b * d) := by
  have h1 : ∑ t, x t * y t = ∑ t, x (τ t) * y (τ t) := (Equiv.sum_comp τ fun t => x t * y t).symm
  have h2 : ∑ t, x t = ∑ t, x (τ t) := (Equiv.sum_comp τ x).symm
  have h3 : ∑ t, y t = ∑ t, y (τ t) := (Equiv.sum_comp τ y).symm
  have h4 : (T : ℝ) * (b * d) = ∑ _t : Fin T, b * d := by simp
  rw [h1, h2, h3, h4, Finset.mul_sum, Finset.mul_sum, Finset.mul_sum, ← Finset.sum_add_distrib, ← Finset.sum_add_distrib, ← Finset.sum_add_distrib]
  exact Finset.sum_congr rfl fun t _ => by ring

theorem rawCov_affine (x y : Fin T → ℝ) (a b c d : ℝ) (τ : Equiv.Perm (Fin T)) :
    T * ∑ t, (a * x (τ t) + b) * (c * y (τ t) + d) - (∑ t, (a * x (τ t) + b)) * (∑ t, (c * y (τ t) + d)) =
      a * c * (T * ∑ t, x t * y t - (∑ t, x t) * (∑ t, y t)) := by
  rw [sum_affine_mul, sum_affine, sum_affine]; ring

theorem pearson_affine (x y : Fin T → ℝ) (a b c d : ℝ) (ha : a ≠ 0) (hc : c ≠ 0) (τ : Equiv.Perm (Fin T)) :
    pearson (fun t => a * x (τ t) + b) (fun t => c * y (τ t) + d) = (a / |a|) * (c / |c|) * pearson x y := by
  unfold pearson
  rw [rawCov_affine]
  have h1 := rawCov_affine x x a b a b τ
  have h2 := rawCov_affine y y c d c d τ
  simp only [← pow_two] at h1 h2
  rw [h1, h2, Real.sqrt_mul (sq_nonneg _), Real.sqrt_mul (sq_nonneg _), Real.sqrt_sq_eq_abs, Real.sqrt_sq_eq_abs]
  have ha' : |a| ≠ 0 := abs_ne_zero.mpr ha
  have hc' : |c| ≠ 0 := abs_ne_zero.mpr hc
  rw [div_mul_div_comm, div_mul_div_comm]
  congr 1
  ring

theorem sampleCov_affine (x y : Fin T → ℝ) (hT : 0 < T) (a b c d : ℝ) (τ : Equiv.Perm (Fin T)) :
    sampleCov (fun t => a * x (τ t) + b) (fun t => c * y (τ t) + d) = a * c * sampleCov x y := by
  have h := rawCov_affine x y a b c d τ
  have hT' : (T : ℝ) ≠ 0 := by exact_mod_cast hT.ne'
  unfold sampleCov
  rw [← mul_div_assoc]
  congr 1
  have e : ∀ s p q : ℝ, s - p * q / T = (T * s - p * q) / T := by intro s p q; field_simp
  rw [e, e, h]
  ring

theorem nonConstant_rescaled (X : Matrix (Fin N) (Fin T) ℝ) (a b : Fin N → ℝ) (ha : ∀ i, a i ≠ 0) (σ : Equiv.Perm (Fin N))
    (τ : Equiv.Perm (Fin T)) (h : ∀ i, NonConstant (X i)) (i : Fin N) : NonConstant (rescaled X a b σ τ i) := by
  obtain ⟨s, t, hst⟩ := h (σ i)
  refine ⟨τ.symm s, τ.symm t, fun e => hst ?_⟩
  simp only [rescaled, Equiv.apply_symm_apply] at e
  have := mul_left_cancel₀ (ha i) (add_right_cancel e)
  exact this

theorem corr_charpoly (X : Matrix (Fin N) (Fin T) ℝ) (a b : Fin N → ℝ) (ha : ∀ i, a i ≠ 0) (σ : Equiv.Perm (Fin N)) (τ : Equiv.Perm (Fin T)) :
    (corrMatrix (rescaled X a b σ τ)).charpoly = (corrMatrix X).charpoly := by
  set D : Matrix (Fin N) (Fin N) ℝ := Matrix.diagonal fun i => a i / |a i| with hD
  have h1 : corrMatrix (rescaled X a b σ τ) = D * (Matrix.reindex σ.symm σ.symm (corrMatrix X) * D) := by
    ext i j
    rw [hD, Matrix.diagonal_mul, Matrix.mul_diagonal]
    simp only [corrMatrix, Matrix.reindex_apply, Matrix.submatrix_apply, Equiv.symm_symm]
    rw [show rescaled X a b σ τ i = fun t => a i * X (σ i) (τ t) + b i from rfl,
      show rescaled X a b σ τ j = fun t => a j * X (σ j) (τ t) + b j from rfl, pearson_affine _ _ _ _ _ _ (ha i) (ha j)]
    ring
  have h2 : D * D = 1 := by
    rw [hD, Matrix.diagonal_mul_diagonal, ← Matrix.diagonal_one]
    congr 1
    funext i
    have := abs_ne_zero.mpr (ha i)
    rw [div_mul_div_comm, abs_mul_abs_self]
    exact div_self (mul_ne_zero (ha i) (ha i))
  rw [h1, Matrix.charpoly_mul_comm, Matrix.mul_assoc, h2, Matrix.mul_one, Matrix.charpoly_reindex]

theorem cov_charpoly (X : Matrix (Fin N) (Fin T) ℝ) (hT : 0 < T) (b : Fin N → ℝ) (σ : Equiv.Perm (Fin N)) (τ : Equiv.Perm (Fin T)) :
    (covMatrix (rescaled X (fun _ => 1) b σ τ)).charpoly = (covMatrix X).charpoly := by
  have h1 : covMatrix (rescaled X (fun _ => 1) b σ τ) = Matrix.reindex σ.symm σ.symm (covMatrix X) := by
    ext i j
    simp only [covMatrix, Matrix.reindex_apply, Matrix.submatrix_apply, Equiv.symm_symm]
    rw [show rescaled X (fun _ => 1) b σ τ i = fun t => 1 * X (σ i) (τ t) + b i from rfl,
      show rescaled X (fun _ => 1) b σ τ j = fun t => 1 * X (σ j) (τ t) + b j from rfl, sampleCov_affine _ _ hT]
    ring
  rw [h1, Matrix.charpoly_reindex]

theorem npMax_perm {l l' : List ℝ} (h : l.Perm l') : npMax l = npMax l' := by
  by_cases hl : l = []
  · subst hl; rw [List.nil_perm.mp h]
  · obtain ⟨m, h1, h2, h3⟩ := npMax_ok hl
    rw [h1, npMax_eq (h.mem_iff.mp h2) fun x hx => h3 x (h.mem_iff.mpr hx)]

theorem npMin_perm {l l' : List ℝ} (h : l.Perm l') : npMin l = npMin l' := by
  by_cases hl : l = []
  · subst hl; rw [List.nil_perm.mp h]
  · obtain ⟨m, h1, h2, h3⟩ := npMin_ok hl
    rw [h1, npMin_eq (h.mem_iff.mp h2) fun x hx => h3 x (h.mem_iff.mpr hx)]

theorem trimZeros_perm (float : String → Option ℝ) {l l' : List ℝ} (h : l.Perm l') (z : Zeros) :
    (∃ e, trimZeros float l z = .error e ∧ trimZeros float l' z = .error e) ∨
    ∃ r r', trimZeros float l z = .ok r ∧ trimZeros float l' z = .ok r' ∧ r.Perm r' := by
  cases z with
  | num z => exact Or.inr ⟨_, _, rfl, rfl, h.filter _⟩
  | str s =>
    simp only [trimZeros]
    split_ifs with h1 h2
    · rw [npMin_perm h]
      cases npMin l' with
      | error e => exact Or.inl ⟨e, rfl, rfl⟩
      | ok m => exact Or.inr ⟨_, _, rfl, rfl, h.filter _⟩
    · exact Or.inr ⟨_, _, rfl, rfl, h.filter _⟩
    · cases float s with
      | none => exact Or.inl ⟨_, rfl, rfl⟩
      | some z => exact Or.inr ⟨_, _, rfl, rfl, h.filter _⟩

/-- The result depends on the data only through the characteristic polynomial. -/
theorem fromSeries_congr (eigvalsh : EigSolver) (hs : ExactSolver eigvalsh) (float : String → Option ℝ) (X X' : Matrix (Fin N) (Fin T) ℝ)
    (cov tr : Bool) (z : Zeros) (hT : 2 ≤ T) (hc : cov = false → ∀ i, NonConstant (X i)) (hc' : cov = false → ∀ i, NonConstant (X' i))
    (hp : (wantedMatrix X' cov).charpoly = (wantedMatrix X cov).charpoly) :
    fromSeries eigvalsh float X' cov tr z = fromSeries eigvalsh float X cov tr z := by
  have key : (∃ e, computedEigs eigvalsh X cov = .error e ∧ computedEigs eigvalsh X' cov = .error e) ∨
      ∃ e e', computedEigs eigvalsh X cov = .ok e ∧ computedEigs eigvalsh X' cov = .ok e' ∧ e'.Perm e := by
    have hperm : ∀ e e', computedEigs eigvalsh X cov = .ok e → computedEigs eigvalsh X' cov = .ok e' → e'.Perm e := by
      intro e e' h h'
      have h1 := computed_roots eigvalsh hs X cov hT hc e h
      have h2 := computed_roots eigvalsh hs X' cov hT hc' e' h'
      rw [hp, ← h1] at h2
      exact Multiset.coe_eq_coe.mp (add_right_cancel h2)
    by_cases h1 : N ≤ T
    · by_cases h2 : N = 1
      · exact Or.inl ⟨if cov then .linAlgError else .valueError, by simp only [computedEigs, if_pos h1, if_pos h2], by simp only [computedEigs, if_pos h1, if_pos h2]⟩
      · have a1 : ∃ e, computedEigs eigvalsh X cov = .ok e := by simp only [computedEigs, if_pos h1, if_neg h2]; exact ⟨_, rfl⟩
        have a2 : ∃ e, computedEigs eigvalsh X' cov = .ok e := by simp only [computedEigs, if_pos h1, if_neg h2]; exact ⟨_, rfl⟩
        obtain ⟨e, he⟩ := a1
        obtain ⟨e', he'⟩ := a2
        exact Or.inr ⟨e, e', he, he', hperm e e' he he'⟩
    · have a1 : ∃ e, computedEigs eigvalsh X cov = .ok e := by
        simp only [computedEigs, if_neg h1, eigsViaTranspose, if_neg (show T ≠ 1 by omega)]; exact ⟨_, rfl⟩
      have a2 : ∃ e, computedEigs eigvalsh X' cov = .ok e := by
        simp only [computedEigs, if_neg h1, eigsViaTranspose, if_neg (show T ≠ 1 by omega)]; exact ⟨_, rfl⟩
      obtain ⟨e, he⟩ := a1
      obtain ⟨e', he'⟩ := a2
      exact Or.inr ⟨e, e', he, he', hperm e e' he he'⟩
  have tail : ∀ l l' : List ℝ, l'.Perm l →
      ((initEigVals1d l').bind fun o => (npMax l').bind fun m => (.ok (mkSeriesEigs N T o m) : Py SeriesEigs)) =
      ((initEigVals1d l).bind fun o => (npMax l).bind fun m => .ok (mkSeriesEigs N T o m)) := by
    intro l l' h
    rw [npMax_perm h, initEigVals1d_ok, initEigVals1d_ok, npSort_eq_of_perm h]
  simp only [fromSeries, bind]
  rcases key with ⟨e, h1, h2⟩ | ⟨e, e', h1, h2, h3⟩
  · rw [h1, h2]
  · rw [h1, h2]
    simp only [Except.bind]
    cases tr with
    | false =>
      simp only [Bool.false_eq_true, if_false]
      exact tail _ _ h3
    | true =>
      simp only [if_true]
      rcases trimZeros_perm float h3 z with ⟨x, h4, h5⟩ | ⟨r, r', h4, h5, h6⟩
      · rw [h4, h5]
      · rw [h4, h5]
        exact tail _ _ h6

/-- **C123 (correlation).** With an exact eigenvalue routine, `from_time_series(data, covariance=False)` (series that are not constant) gives the same object, or the same exception, whatever units, origin and
sign each series is recorded with, and in whatever order the series and the time points are listed. -/
theorem C123_correlation (eigvalsh : EigSolver) (hs : ExactSolver eigvalsh) (float : String → Option ℝ) (X : Matrix (Fin N) (Fin T) ℝ)
    (hT : 2 ≤ T) (hc : ∀ i, NonConstant (X i)) (a b : Fin N → ℝ) (ha : ∀ i, a i ≠ 0) (σ : Equiv.Perm (Fin N)) (τ : Equiv.Perm (Fin T))
    (tr : Bool) (z : Zeros) :
    fromTimeSeries eigvalsh float (.dim2 N T (rescaled X a b σ τ)) false tr z 1 = fromTimeSeries eigvalsh float (.dim2 N T X) false tr z 1 := by
  have := fromSeries_congr eigvalsh hs float X (rescaled X a b σ τ) false tr z hT (fun _ => hc) (fun _ => nonConstant_rescaled X a b ha σ τ hc) (by
    simp only [wantedMatrix, Bool.false_eq_true, if_false]
    exact corr_charpoly X a b ha σ τ)
  simpa [fromTimeSeries] using this

/-- **C123 (covariance).** The covariance spectrum does not depend on the origin of each series nor on the order of the series and of the time points. -/
theorem C123_covariance (eigvalsh : EigSolver) (hs : ExactSolver eigvalsh) (float : String → Option ℝ) (X : Matrix (Fin N) (Fin T) ℝ)
    (hT : 2 ≤ T) (b : Fin N → ℝ) (σ : Equiv.Perm (Fin N)) (τ : Equiv.Perm (Fin T)) (tr : Bool) (z : Zeros) :
    fromTimeSeries eigvalsh float (.dim2 N T (rescaled X (fun _ => 1) b σ τ)) true tr z 1 = fromTimeSeries eigvalsh float (.dim2 N T X) true tr z 1 := by
  have := fromSeries_congr eigvalsh hs float X (rescaled X (fun _ => 1) b σ τ) true tr z hT (by simp) (by simp) (by
    simp only [wantedMatrix, if_true]
    exact cov_charpoly X (by omega) b σ τ)
  simpa [fromTimeSeries] using this

/-- **C123 (`correlate_fast`).** Rescaling a series by a positive factor and shifting it does not change the correlations; a negative factor changes the sign of the correlations with that series. -/
theorem C123_correlate_fast (X : Matrix (Fin N) (Fin T) ℝ) (d : ℕ) (hd : d < T) (a b : Fin N → ℝ) (ha : ∀ i, a i ≠ 0) (i j : Fin N) :
    (0 < a i * a j → correlateFast (rescaled X a b (Equiv.refl _) (Equiv.refl _)) d i j = correlateFast X d i j) ∧
    (a i * a j < 0 → correlateFast (rescaled X a b (Equiv.refl _) (Equiv.refl _)) d i j = -correlateFast X d i j) := by
  rw [correlateFast_eq _ d hd, correlateFast_eq X d hd]
  have h := pearson_affine (X i) (X j) (a i) (b i) (a j) (b j) (ha i) (ha j) (Equiv.refl _)
  simp only [Equiv.refl_apply] at h
  have e : corrMatrix (rescaled X a b (Equiv.refl _) (Equiv.refl _)) i j = a i / |a i| * (a j / |a j|) * corrMatrix X i j := h
  rw [e, div_mul_div_comm, ← abs_mul]
  constructor
  · intro hp
    rw [abs_of_pos hp, div_self hp.ne', one_mul]
  · intro hn
    rw [abs_of_neg hn, div_neg, div_self hn.ne, neg_one_mul]

-- the hypotheses are met by an exact solver, two non-constant series, and a rescaling that swaps and flips them
example : ExactSolver (fun _ M => M.charpoly.roots.toList) ∧ (∀ i, NonConstant (exX i)) ∧ (∀ i : Fin 2, (![-2, 3] : Fin 2 → ℝ) i ≠ 0) ∧
    rescaled exX ![-2, 3] ![1, 0] (Equiv.swap 0 1) (Equiv.refl _) = fun i t => if i = 0 then (if t = 0 then 1 else -3) else (if t = 0 then 0 else 3) := by
  refine ⟨fun _ _ _ => Multiset.coe_toList _, ?_, ?_, ?_⟩
  · intro i
    refine ⟨0, 1, ?_⟩
    fin_cases i <;> norm_num [exX]
  · intro i
    fin_cases i <;> norm_num
  · ext i t
    fin_cases i <;> fin_cases t <;> norm_num [rescaled, exX]

end Props
end RMT
