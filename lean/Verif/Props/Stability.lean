import Verif.Lemmas.Weyl
import Verif.Props.MatrixInput
import Verif.Props.Generate

/-!
# Properties C152 and C153: spectra under perturbations, and with the inexact eigenvalue routines of LAPACK
-/

namespace RMT
namespace Props
open EigM EigValsM Spec Weyl Gen

variable {n : ℕ}

/-! ## C152 -/

theorem exact_stable (eigvalsh : EigSolver) : ExactSolver eigvalsh ↔ BackwardStable eigvalsh fun _ _ => 0 := by
  constructor
  · intro h n M hM
    exact ⟨M, hM, fun v => by simp, h n M hM⟩
  · intro h n M hM
    obtain ⟨M', hM', hf, e⟩ := h n M hM
    rw [e]
    have w := weyl hM hM' hf (npSort M.charpoly.roots.toList) (npSort M'.charpoly.roots.toList)
      (by rw [Multiset.coe_eq_coe.mpr (npSort_perm _), Multiset.coe_toList]) (by rw [Multiset.coe_eq_coe.mpr (npSort_perm _), Multiset.coe_toList]) (npSort_ascending _) (npSort_ascending _)
    have e2 : npSort M.charpoly.roots.toList = npSort M'.charpoly.roots.toList := by
      rw [EntriesWithin] at w
      have : ∀ l l' : List ℝ, List.Forall₂ (fun x y => |x - y| ≤ 0) l l' → l = l' := by
        intro l l' h
        induction h with
        | nil => rfl
        | cons h _ ih => rw [ih, sub_eq_zero.mp (abs_nonpos_iff.mp h)]
      exact this _ _ w
    have e3 := congrArg (fun l : List ℝ => (l : Multiset ℝ)) e2
    rw [Multiset.coe_eq_coe.mpr (npSort_perm _), Multiset.coe_eq_coe.mpr (npSort_perm _), Multiset.coe_toList, Multiset.coe_toList] at e3
    exact e3.symm

theorem sorted_roots (M : Matrix (Fin n) (Fin n) ℝ) : ((npSort M.charpoly.roots.toList : List ℝ) : Multiset ℝ) = M.charpoly.roots := by
  rw [Multiset.coe_eq_coe.mpr (npSort_perm _), Multiset.coe_toList]

theorem isSpectrum_iff (M : Matrix (Fin n) (Fin n) ℝ) (hM : M.IsSymm) (l : List ℝ) : IsSpectrum (cplx M) l ↔ (l : Multiset ℝ) = M.charpoly.roots := by
  rw [IsSpectrum, symm_roots M hM, ← Multiset.map_coe]
  exact (Multiset.map_injective Complex.ofReal_injective).eq_iff

theorem symm_vals (eigvalsh : EigSolver) (eigvals : GenSolver) (M : Matrix (Fin n) (Fin n) ℝ) (hM : M.IsSymm) :
    ((npSort (squareEigs eigvalsh eigvals (asFloat (cplx M))) : List ℝ) : Multiset ℝ) = (eigvalsh n M : Multiset ℝ) := by
  have hM' : M.transpose = M := hM
  rw [asFloat_cplx, squareEigs, if_pos hM', Multiset.coe_eq_coe.mpr (npSort_perm _)]

/-- **C152 (the routine).** With a backward stable eigenvalue routine, the object made from a real symmetric matrix holds one value for each eigenvalue, and the `k`-th value is within the routine's error of the `k`-th
eigenvalue (in ascending order, with multiplicities). -/
theorem C152_routine (eigvalsh : EigSolver) (eigvals : GenSolver) (δ : (n : ℕ) → Matrix (Fin n) (Fin n) ℝ → ℝ) (h : BackwardStable eigvalsh δ) (M : Matrix (Fin n) (Fin n) ℝ) (hM : M.IsSymm) :
    ∃ o l, fromMatrix eigvalsh eigvals (cplx M) = .ok o ∧ IsSpectrum (cplx M) l ∧ Ascending l ∧ EntriesWithin (δ n M) l o.vals := by
  obtain ⟨M', hM', hf, e⟩ := h n M hM
  refine ⟨_, npSort M.charpoly.roots.toList, fromMatrix_square _ _ _, (isSpectrum_iff M hM _).mpr (sorted_roots M), npSort_ascending _, ?_⟩
  refine weyl hM hM' hf _ _ (sorted_roots M) ?_ (npSort_ascending _) (npSort_ascending _)
  rw [← e]; exact symm_vals eigvalsh eigvals M hM

/-- **C152 (the matrix).** Two real symmetric matrices that differ by at most `d` as quadratic forms (in operator norm) give objects whose `k`-th values differ by at most `d` plus the errors of the routine, for
every `k`; so do matrices whose difference has Frobenius norm `d`, and `n × n` matrices whose entries differ by at most `d / n`. -/
theorem C152_matrix (eigvalsh : EigSolver) (eigvals : GenSolver) (δ : (n : ℕ) → Matrix (Fin n) (Fin n) ℝ → ℝ) (h : BackwardStable eigvalsh δ) (A B : Matrix (Fin n) (Fin n) ℝ) (hA : A.IsSymm) (hB : B.IsSymm) :
    ∃ a b, fromMatrix eigvalsh eigvals (cplx A) = .ok a ∧ fromMatrix eigvalsh eigvals (cplx B) = .ok b ∧
      (∀ d, FormsWithin d A B → EntriesWithin (δ n A + d + δ n B) a.vals b.vals) ∧
      EntriesWithin (δ n A + frobenius (A - B) + δ n B) a.vals b.vals ∧
      ∀ ε, 0 ≤ ε → (∀ i j, |A i j - B i j| ≤ ε) → EntriesWithin (δ n A + n * ε + δ n B) a.vals b.vals := by
  obtain ⟨A', hA', fA, eA⟩ := h n A hA
  obtain ⟨B', hB', fB, eB⟩ := h n B hB
  have main : ∀ d, FormsWithin d A B → EntriesWithin (δ n A + d + δ n B) (npSort (squareEigs eigvalsh eigvals (asFloat (cplx A)))) (npSort (squareEigs eigvalsh eigvals (asFloat (cplx B)))) := by
    intro d hd
    refine weyl hA' hB' (forms_trans (forms_trans (forms_symm fA) hd) fB) _ _ ?_ ?_ (npSort_ascending _) (npSort_ascending _)
    · rw [← eA]; exact symm_vals eigvalsh eigvals A hA
    · rw [← eB]; exact symm_vals eigvalsh eigvals B hB
  exact ⟨_, _, fromMatrix_square _ _ _, fromMatrix_square _ _ _, main, main _ (forms_frobenius A B), fun ε h0 h => main _ (forms_mono (forms_frobenius A B) (frobenius_le _ _ h0 h))⟩

/-- **C152 (counting).** The number of values up to `x` of the object lies between the numbers of eigenvalues up to `x - d` and up to `x + d`, where `d` is the error of the routine. -/
theorem C152_counting (eigvalsh : EigSolver) (eigvals : GenSolver) (δ : (n : ℕ) → Matrix (Fin n) (Fin n) ℝ → ℝ) (h : BackwardStable eigvalsh δ) (M : Matrix (Fin n) (Fin n) ℝ) (hM : M.IsSymm) :
    ∃ o l, fromMatrix eigvalsh eigvals (cplx M) = .ok o ∧ IsSpectrum (cplx M) l ∧
      ∀ x, countLE l (x - δ n M) ≤ countLE o.vals x ∧ countLE o.vals x ≤ countLE l (x + δ n M) := by
  obtain ⟨M', hM', hf, e⟩ := h n M hM
  have hv : ((npSort (squareEigs eigvalsh eigvals (asFloat (cplx M))) : List ℝ) : Multiset ℝ) = M'.charpoly.roots := by
    rw [← e]; exact symm_vals eigvalsh eigvals M hM
  refine ⟨_, npSort M.charpoly.roots.toList, fromMatrix_square _ _ _, (isSpectrum_iff M hM _).mpr (sorted_roots M), fun x => ⟨?_, ?_⟩⟩
  · have := counts_shift hM' hM (forms_symm hf) _ _ hv (sorted_roots M) (x - δ n M)
    rwa [sub_add_cancel] at this
  · exact counts_shift hM hM' hf _ _ (sorted_roots M) hv x

/-- **C152 (generated spectra).** The same for `generate(n, "goe")`: each returned level is within the routine's error of the corresponding eigenvalue of the matrix that was drawn. -/
theorem C152_generate {σ : Type} (R : Rng σ) (eh : EigSolver) (ehC : (n : Nat) → Matrix (Fin n) (Fin n) ℂ → List ℝ) (δ : (n : ℕ) → Matrix (Fin n) (Fin n) ℝ → ℝ) (h : BackwardStable eh δ)
    (seed : Option Nat) (tri : Bool) (e s : σ) :
    ∃ o l, (generate R eh ehC n (.kind .goe) seed tri e s).1 = .ok (o, .goe) ∧ IsSpectrum (cplx (goeMatrix R n seed tri s).1) l ∧ Ascending l ∧
      EntriesWithin (δ n (goeMatrix R n seed tri s).1) l o.vals := by
  obtain ⟨o, h1, h2⟩ := (C49_values R eh ehC n seed tri e s).1
  have hM : (goeMatrix R n seed tri s).1.IsSymm := (C49_symmetric R n seed tri s).1
  obtain ⟨M', hM', hf, e'⟩ := h n _ hM
  refine ⟨o, npSort (goeMatrix R n seed tri s).1.charpoly.roots.toList, h1, (isSpectrum_iff _ hM _).mpr (sorted_roots _), npSort_ascending _, ?_⟩
  rw [h2]
  exact weyl hM hM' hf _ _ (sorted_roots _) (by rw [Multiset.coe_eq_coe.mpr (npSort_perm _), e']) (npSort_ascending _) (npSort_ascending _)

/-! ## C153 -/

variable {N T : ℕ}

/-- The error of the eigenvalue routine on the matrix `from_time_series` gives it: the covariance (correlation) matrix of the series if there are not more series than time points, otherwise the matrix of the
transposed computation. -/
noncomputable def seriesError (δ : (n : ℕ) → Matrix (Fin n) (Fin n) ℝ → ℝ) (X : Matrix (Fin N) (Fin T) ℝ) (cov : Bool) : ℝ :=
  if N ≤ T then δ N (wantedMatrix X cov) else δ T (transposedMatrix X cov)

/-- The computed values and the wanted eigenvalues. -/
theorem computed_close (eigvalsh : EigSolver) (δ : (n : ℕ) → Matrix (Fin n) (Fin n) ℝ → ℝ) (h : BackwardStable eigvalsh δ) (X : Matrix (Fin N) (Fin T) ℝ) (cov : Bool)
    (hT : 2 ≤ T) (hc : cov = false → ∀ i, NonConstant (X i)) (e : List ℝ) (he : computedEigs eigvalsh X cov = .ok e) :
    ∃ l, Ascending l ∧ (∀ x ∈ l, 0 ≤ x) ∧ ((List.replicate (N - T) 0 ++ l : List ℝ) : Multiset ℝ) = (wantedMatrix X cov).charpoly.roots ∧ EntriesWithin (seriesError δ X cov) l (npSort e) := by
  have key : ∀ {m : ℕ} (C : Matrix (Fin m) (Fin m) ℝ), C.IsSymm → e = eigvalsh m C → Multiset.replicate (N - T) 0 + C.charpoly.roots = (wantedMatrix X cov).charpoly.roots →
      ∃ l, Ascending l ∧ (∀ x ∈ l, 0 ≤ x) ∧ ((List.replicate (N - T) 0 ++ l : List ℝ) : Multiset ℝ) = (wantedMatrix X cov).charpoly.roots ∧ EntriesWithin (δ m C) l (npSort e) := by
    intro m C hC hee hr
    obtain ⟨C', hC', hf, eC⟩ := h m C hC
    have hsr := sorted_roots C
    refine ⟨npSort C.charpoly.roots.toList, npSort_ascending _, ?_, ?_, ?_⟩
    · intro x hx
      refine C45_nonneg X cov hT hc x ?_
      rw [← hr, ← hsr]
      exact Multiset.mem_add.mpr (Or.inr hx)
    · rw [← Multiset.coe_add, hsr, Multiset.coe_replicate, hr]
    · exact weyl hC hC' hf _ _ hsr (by rw [Multiset.coe_eq_coe.mpr (npSort_perm _), hee, eC]) (npSort_ascending _) (npSort_ascending _)
  unfold computedEigs at he
  split_ifs at he with h1 h2 h3
  · simp only [Except.ok.injEq] at he
    rw [npCov_one X (by omega)] at he
    have := key (covMatrix X) (covMatrix_isSymm X) he.symm (by simp [wantedMatrix, h3, Nat.sub_eq_zero_of_le h1])
    simpa [seriesError, h1, wantedMatrix, h3] using this
  · simp only [Except.ok.injEq] at he
    rw [correlateFast_eq X 1 (by omega)] at he
    have := key (corrMatrix X) (corrMatrix_isSymm X) he.symm (by simp [wantedMatrix, h3, Nat.sub_eq_zero_of_le h1])
    simpa [seriesError, h1, wantedMatrix, h3] using this
  · unfold eigsViaTranspose at he
    rw [if_neg h1, if_neg (by omega)] at he
    simp only [Except.ok.injEq] at he
    rw [seriesError, if_neg h1]
    refine key (transposedMatrix X cov) (transposedMatrix_isSymm X cov) he.symm ?_
    have hp := transposed_charpoly X hT (by omega) cov hc
    have hne : Polynomial.X ^ (N - T) * (transposedMatrix X cov).charpoly ≠ 0 := by
      rw [← hp]; exact (Matrix.charpoly_monic _).ne_zero
    rw [wantedMatrix, hp, Polynomial.roots_mul hne, Polynomial.roots_X_pow, Multiset.nsmul_singleton]

/-- The specification: `vals` are approximations, with errors up to `d`, of the largest entries of the ascending list `l`; the entries not represented are at most `b`. -/
def ApproxUpper (d b : ℝ) (l vals : List ℝ) : Prop := ∃ k, EntriesWithin d (l.drop k) vals ∧ ∀ x ∈ l.take k, x ≤ b

theorem filter_drop (l : List ℝ) (hl : Ascending l) (t : ℝ) : (l.filter fun e => decide (t < e)) = l.drop (countLE l t) := by
  induction l with
  | nil => rfl
  | cons a l ih =>
    have hl' := List.pairwise_cons.mp hl
    by_cases h : a ≤ t
    · have e : countLE (a :: l) t = countLE l t + 1 := by
        rw [countLE, List.countP_cons_of_pos (by simpa using h), countLE]
      rw [List.filter_cons_of_neg (by simpa using h), ih hl'.2, e, List.drop_succ_cons]
    · rw [not_le] at h
      have h0 : countLE (a :: l) t = 0 := by
        rw [countLE, List.countP_eq_zero]
        intro x hx
        simp only [decide_eq_true_eq, not_le]
        rcases List.mem_cons.mp hx with rfl | hx
        · exact h
        · exact h.trans_le (hl'.1 x hx)
      rw [h0, List.drop_zero, List.filter_eq_self]
      intro x hx
      rcases List.mem_cons.mp hx with rfl | hx
      · simpa using h
      · simpa using h.trans_le (hl'.1 x hx)

theorem within_drop {d : ℝ} {l l' : List ℝ} (h : EntriesWithin d l l') (k : ℕ) : EntriesWithin d (l.drop k) (l'.drop k) := List.forall₂_drop k h

theorem within_length {d : ℝ} {l l' : List ℝ} (h : EntriesWithin d l l') : l.length = l'.length := List.Forall₂.length_eq h

theorem approx_filter {d t b : ℝ} {l e : List ℝ} (he : Ascending e) (h : EntriesWithin d l e) (k0 : ℕ) (h0 : 0 ≤ b) (hb : t + d ≤ b) :
    ApproxUpper d b (List.replicate k0 0 ++ l) (e.filter fun e => decide (t < e)) := by
  refine ⟨k0 + countLE e t, ?_, ?_⟩
  · have e1 : (List.replicate k0 (0 : ℝ) ++ l).drop (k0 + countLE e t) = l.drop (countLE e t) := by
      rw [List.drop_append]; simp
    rw [filter_drop e he, e1]
    exact within_drop h _
  · intro x hx
    have e2 : (List.replicate k0 (0 : ℝ) ++ l).take (k0 + countLE e t) = List.replicate k0 0 ++ l.take (countLE e t) := by
      rw [List.take_append]; simp
    rw [e2, List.mem_append] at hx
    rcases hx with hx | hx
    · rw [List.eq_of_mem_replicate hx]; exact h0
    · obtain ⟨i, hi, rfl⟩ := List.getElem_of_mem hx
      rw [List.length_take] at hi
      rw [List.getElem_take]
      have hl := within_length h
      have hie : i < e.length := by omega
      have := (lt_countLE_iff he i hie t).mp (by omega)
      have hw := (List.forall₂_iff_get.mp h).2 i (by omega) hie
      simp only [List.get_eq_getElem] at hw
      have := (abs_le.mp hw).2
      linarith

theorem series_prefix_ascending {l : List ℝ} (h : Ascending l) (h0 : ∀ x ∈ l, 0 ≤ x) (k : ℕ) : Ascending (List.replicate k 0 ++ l) := by
  rw [Ascending, List.pairwise_append]
  refine ⟨List.pairwise_replicate.mpr (Or.inr le_rfl), h, fun a ha b hb => ?_⟩
  rw [List.eq_of_mem_replicate ha]; exact h0 b hb

/-- **C153 (partial: what is returned and what may be lost).** Let `l` be the ascending list of all eigenvalues of the covariance (or correlation) matrix of the series and `d` the error of the routine. What `from_time_series` returns are
approximations within `d` of the largest of them; every eigenvalue above `d` (`zeros="negative"`), `101 d` (`"heuristic"`), or `max(0, z + d)` (a number `z`) is represented, and without trimming every eigenvalue above 0. -/
theorem C153_returned_partial (eigvalsh : EigSolver) (δ : (n : ℕ) → Matrix (Fin n) (Fin n) ℝ → ℝ) (hs : BackwardStable eigvalsh δ) (float : String → Option ℝ) (X : Matrix (Fin N) (Fin T) ℝ) (cov : Bool)
    (hT : 2 ≤ T) (hc : cov = false → ∀ i, NonConstant (X i)) (tr : Bool) (z : Zeros) (s : SeriesEigs) (h : fromTimeSeries eigvalsh float (.dim2 N T X) cov tr z 1 = .ok s) :
    ∃ l : List ℝ, (l : Multiset ℝ) = (wantedMatrix X cov).charpoly.roots ∧ Ascending l ∧
      (tr = false → ApproxUpper (seriesError δ X cov) 0 l s.obj.vals) ∧
      (tr = true → z = .str "negative" → ApproxUpper (seriesError δ X cov) (seriesError δ X cov) l s.obj.vals) ∧
      (tr = true → z = .str "heuristic" → ApproxUpper (seriesError δ X cov) (101 * seriesError δ X cov) l s.obj.vals) ∧
      (∀ x, tr = true → z = .num x → ApproxUpper (seriesError δ X cov) (max 0 (x + seriesError δ X cov)) l s.obj.vals) := by
  have un : ∀ s', fromTimeSeries eigvalsh float (.dim2 N T X) cov false z 1 = .ok s' → ∃ l, Ascending l ∧ (∀ x ∈ l, 0 ≤ x) ∧
      ((List.replicate (N - T) 0 ++ l : List ℝ) : Multiset ℝ) = (wantedMatrix X cov).charpoly.roots ∧ EntriesWithin (seriesError δ X cov) l s'.obj.vals ∧ Ascending s'.obj.vals ∧ s'.obj.vals ≠ [] := by
    intro s' hs'
    have h' : fromSeries eigvalsh float X cov false z = .ok s' := by simpa [fromTimeSeries] using hs'
    obtain ⟨e, e', m, h1, h2, h3, rfl⟩ := (fromSeries_eq _ _ _ _ _ _ _).mp h'
    simp only [Bool.false_eq_true, if_false, Except.ok.injEq] at h2
    subst h2
    obtain ⟨l, a1, a2, a3, a4⟩ := computed_close eigvalsh δ hs X cov hT hc e h1
    refine ⟨l, a1, a2, a3, a4, npSort_ascending _, ?_⟩
    intro h0
    have := (npSort_perm e).length_eq
    simp only [mkSeriesEigs] at h0
    rw [h0] at this
    have : e = [] := List.length_eq_zero_iff.mp this.symm
    subst this
    simp [npMax] at h3
  cases tr with
  | false =>
    obtain ⟨l, a1, a2, a3, a4, -, -⟩ := un s h
    refine ⟨_, a3, series_prefix_ascending a1 a2 _, fun _ => ⟨N - T, by simpa using a4, ?_⟩, by simp, by simp, by simp⟩
    intro x hx
    have e : (List.replicate (N - T) (0 : ℝ) ++ l).take (N - T) = List.replicate (N - T) 0 := by
      rw [List.take_append]; simp
    rw [e] at hx
    rw [List.eq_of_mem_replicate hx]
  | true =>
    obtain ⟨s', emin, thr, h1, h2, h3, h4, h5⟩ := C43_threshold eigvalsh float X cov z s h
    obtain ⟨l, a1, a2, a3, a4, a5, a6⟩ := un s' h1
    have hd : 0 ≤ seriesError δ X cov := by
      obtain ⟨v, vs, hv⟩ := List.exists_cons_of_ne_nil a6
      rw [hv] at a4
      cases a4 with
      | cons h _ => exact (abs_nonneg _).trans h
    refine ⟨_, a3, series_prefix_ascending a1 a2 _, by simp, fun _ hz => ?_, fun _ hz => ?_, fun x _ hz => ?_⟩
    · subst hz
      simp only [documentedThreshold, if_true, Option.some.injEq] at h4
      subst h4
      rw [h5]
      exact approx_filter a5 a4 _ hd (by linarith)
    · subst hz
      simp only [documentedThreshold] at h4
      rw [if_neg (by decide), if_true, Option.some.injEq] at h4
      rw [h5]
      refine approx_filter a5 a4 _ (by linarith) ?_
      have : thr ≤ 100 * seriesError δ X cov := by
        rw [← h4]
        split_ifs with hneg
        · rw [abs_of_neg hneg]
          obtain ⟨i, hi, hie⟩ := List.getElem_of_mem h2
          have hl := within_length a4
          have hw := (List.forall₂_iff_get.mp a4).2 i (by omega) hi
          simp only [List.get_eq_getElem, hie] at hw
          have := a2 _ (List.getElem_mem (by omega : i < l.length))
          have := (abs_le.mp hw).2
          linarith
        · linarith
      linarith
    · subst hz
      simp only [documentedThreshold, Option.some.injEq] at h4
      subst h4
      rw [h5]
      exact approx_filter a5 a4 _ (le_max_left _ _) (le_max_right _ _)

/-- A routine that computes the eigenvalues of `M + t`: backward stable with error `t`. -/
noncomputable def shiftSolver (t : ℝ) : EigSolver := fun _ M => npSort (M + t • (1 : Matrix _ _ ℝ)).charpoly.roots.toList

theorem shiftSolver_stable (t : ℝ) (ht : 0 ≤ t) : BackwardStable (shiftSolver t) fun _ _ => t := fun n M hM => by
  refine ⟨M + t • (1 : Matrix _ _ ℝ), hM.add (Matrix.isSymm_one.smul t), fun v => ?_, sorted_roots _⟩
  rw [Matrix.add_mulVec, Matrix.smul_mulVec, Matrix.one_mulVec, dotProduct_add, dotProduct_smul, smul_eq_mul, sub_add_cancel_left, abs_neg, abs_of_nonneg]
  exact mul_nonneg ht (Finset.sum_nonneg fun _ _ => mul_self_nonneg _)

/-- **C153 (refuted: the values representing zero eigenvalues are removed).** However small the error `t > 0` allowed to the eigenvalue routine, there is a routine for which trimming, by either heuristic, removes nothing for any series at least two in number and not
more than the time points: one value is returned for every eigenvalue, zero or not. -/
theorem C153_zeros_refuted (t : ℝ) (ht : 0 < t) : ∃ eigvalsh : EigSolver, (BackwardStable eigvalsh fun _ _ => t) ∧
    ∀ (float : String → Option ℝ) (N T : ℕ) (X : Matrix (Fin N) (Fin T) ℝ), 2 ≤ N → N ≤ T → ∀ z ∈ ["negative", "heuristic"],
      ∃ s, fromTimeSeries eigvalsh float (.dim2 N T X) true true (.str z) 1 = .ok s ∧ s.obj.vals.length = N := by
  refine ⟨shiftSolver t, shiftSolver_stable t ht.le, fun float N T X hN hNT z hz => ?_⟩
  set e := shiftSolver t N (covMatrix X) with he
  have hT : 2 ≤ T := by omega
  have hp : (covMatrix X + t • (1 : Matrix _ _ ℝ)).PosDef := Matrix.PosDef.posSemidef_add (covMatrix_posSemidef X hT) (Matrix.PosDef.one.smul ht)
  have hroots : (e : Multiset ℝ) = (covMatrix X + t • (1 : Matrix _ _ ℝ)).charpoly.roots := sorted_roots _
  rw [hp.isHermitian.roots_charpoly_eq_eigenvalues] at hroots
  have hpos : ∀ x ∈ e, 0 < x := by
    intro x hx
    have : x ∈ (e : Multiset ℝ) := hx
    rw [hroots] at this
    obtain ⟨i, -, rfl⟩ := Multiset.mem_map.mp this
    exact hp.eigenvalues_pos i
  have hlen : e.length = N := by
    have := congrArg Multiset.card hroots
    simpa using this
  have hne : e ≠ [] := by rintro h; rw [h] at hlen; simp at hlen; omega
  obtain ⟨m, hm, hmem, -⟩ := npMax_ok hne
  obtain ⟨m', hm', hmem', -⟩ := npMin_ok hne
  have hall : (e.filter fun x => decide (x > 0)) = e := List.filter_eq_self.mpr fun x hx => by simpa using hpos x hx
  have hc : computedEigs (shiftSolver t) X true = .ok e := by
    rw [computedEigs, if_pos hNT, if_neg (by omega), npCov_one X (by omega)]
    rfl
  have htrim : trimZeros float e (.str z) = .ok e := by
    simp only [List.mem_cons, List.not_mem_nil, or_false] at hz
    rcases hz with rfl | rfl
    · simp only [trimZeros]
      rw [if_neg (by decide), if_true, hall]
    · simp only [trimZeros, if_true, hm', bind, Except.bind]
      rw [if_neg (not_le.mpr (hpos m' hmem')), hall]
  refine ⟨_, by
    have : fromTimeSeries (shiftSolver t) float (.dim2 N T X) true true (.str z) 1 = fromSeries (shiftSolver t) float X true true (.str z) := by simp [fromTimeSeries]
    rw [this]
    exact (fromSeries_eq _ _ _ _ _ _ _).mpr ⟨e, e, m, hc, by rw [if_pos rfl, htrim], hm, rfl⟩, ?_⟩
  simp only [mkSeriesEigs]
  rw [(npSort_perm e).length_eq, hlen]

/-- C152 applies to two different matrices and a routine that is not exact. -/
example : ∃ (eigvalsh : EigSolver) (A B : Matrix (Fin 2) (Fin 2) ℝ), BackwardStable eigvalsh (fun _ _ => 1 / 100) ∧ ¬ ExactSolver eigvalsh ∧ A.IsSymm ∧ B.IsSymm ∧ A ≠ B ∧ (∀ i j, |A i j - B i j| ≤ 1) := by
  refine ⟨shiftSolver (1 / 100), !![2, 1; 1, 2], !![2, 1; 1, 3], shiftSolver_stable _ (by norm_num), ?_, ?_, ?_, ?_, ?_⟩
  · intro h
    have h1 := h 1 0 Matrix.isSymm_zero
    have e1 : (0 : Matrix (Fin 1) (Fin 1) ℝ).charpoly.roots = {0} := by
      simp [Matrix.charpoly_zero]
    have h2 : ((shiftSolver (1 / 100) 1 0 : List ℝ) : Multiset ℝ) = ((0 : Matrix (Fin 1) (Fin 1) ℝ) + (1 / 100 : ℝ) • 1).charpoly.roots := sorted_roots _
    rw [h1, e1] at h2
    have h3 : (0 : ℝ) ∈ ((0 : Matrix (Fin 1) (Fin 1) ℝ) + (1 / 100 : ℝ) • 1).charpoly.roots := by rw [← h2]; simp
    rw [Polynomial.mem_roots (Matrix.charpoly_monic _).ne_zero, Polynomial.IsRoot, Matrix.charpoly, Matrix.det_fin_one] at h3
    simp [Matrix.charmatrix] at h3
  · ext i j; fin_cases i <;> fin_cases j <;> rfl
  · ext i j; fin_cases i <;> fin_cases j <;> rfl
  · intro h
    have := congrFun (congrFun h 1) 1
    norm_num at this
  · intro i j
    fin_cases i <;> fin_cases j <;> norm_num

/-- C153 applies: the trimmed call succeeds with an inexact routine on two proportional series, whose covariance matrix has a zero eigenvalue. -/
example : ∃ (eigvalsh : EigSolver) (X : Matrix (Fin 2) (Fin 3) ℝ) (s : SeriesEigs), BackwardStable eigvalsh (fun _ _ => 1 / 100) ∧
    fromTimeSeries eigvalsh (fun _ => none) (.dim2 2 3 X) true true (.str "heuristic") 1 = .ok s ∧ (∀ i, NonConstant (X i)) ∧ ∀ t, X 1 t = 2 * X 0 t := by
  obtain ⟨eh, h1, h2⟩ := C153_zeros_refuted (1 / 100) (by norm_num)
  obtain ⟨s, h3, -⟩ := h2 (fun _ => none) 2 3 !![1, 0, 5; 2, 0, 10] (by norm_num) (by norm_num) "heuristic" (by simp)
  refine ⟨eh, _, s, h1, h3, ?_, ?_⟩
  · intro i
    refine ⟨0, 1, ?_⟩
    fin_cases i <;> simp
  · intro t
    fin_cases t <;> (simp; try norm_num)

end Props
end RMT
