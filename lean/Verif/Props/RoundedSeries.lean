import Verif.Lemmas.RoundedSeries
import Verif.Props.RoundedDensity
import Verif.Props.InexactSpectra

/-! # Property C177: covariances, correlations and their eigenvalues in floating point -/

namespace RMT
namespace Rounded
namespace Props
open EigM Spec Filter Topology RMT.Props Weyl EigValsM

variable {N T : ℕ}

/-- **C177 (matrices).** For every data set and every `η > 0` there is a precision `ε > 0` such that, in every arithmetic of relative error at most `ε` and for every association of the sums (with or without fused multiply-adds), every entry of
the computed covariance matrix is within `η` of the sample covariance. If no series is constant, then all computed standard deviations are positive (so that no entry is NaN) and every entry of the computed correlation matrix is within `η` of
Pearson's correlation, and between -1 and 1. -/
theorem C177_matrix (X : Matrix (Fin N) (Fin T) ℝ) (hT : 2 ≤ T) (η : ℝ) (hη : 0 < η) :
    ∃ ε > 0, ∀ E, Accurate E ε → (∀ i j, |npCovFl E X 1 i j - covMatrix X i j| ≤ η) ∧
      ((∀ i, NonConstant (X i)) → ∀ i, 0 < npCovFl E X 1 i i ∧ 0 < E.fl √(npCovFl E X 1 i i) ∧ 0 < rowStdFl E X i ∧ ∀ j, |correlateFastFl E X 1 i j - corrMatrix X i j| ≤ η ∧ |correlateFastFl E X 1 i j| ≤ 1) := by
  refine of_eventually (P := fun E => (∀ i j, |npCovFl E X 1 i j - covMatrix X i j| ≤ η) ∧ ((∀ i, NonConstant (X i)) → ∀ i, 0 < npCovFl E X 1 i i ∧ 0 < E.fl √(npCovFl E X 1 i i) ∧ 0 < rowStdFl E X i ∧
    ∀ j, |correlateFastFl E X 1 i j - corrMatrix X i j| ≤ η ∧ |correlateFastFl E X 1 i j| ≤ 1)) ?_
  have h1 := entries_eventually (f := fun E => npCovFl E X 1) (cov_lim X) hη
  rw [npCov_one X (by omega)] at h1
  by_cases hc : ∀ i, NonConstant (X i)
  · have h2 := entries_eventually (f := fun E => correlateFastFl E X 1) (corr_lim X hc hT) hη
    rw [correlateFast_eq X 1 (by omega)] at h2
    have h3 : ∀ᶠ p : Evals in precise, ∀ i, 0 < npCovFl p.1.2 X 1 i i ∧ 0 < p.1.2.fl √(npCovFl p.1.2 X 1 i i) ∧ 0 < rowStdFl p.1.2 X i := eventually_all.mpr fun i => by
      have hv := npCov_pos X i (hc i) hT
      exact ((cov_lim X i i).eventually_const_lt hv).and (((evals_precise.rnd (cov_lim X i i).sqrt).eventually_const_lt (Real.sqrt_pos.mpr hv)).and ((std_lim X i).eventually_const_lt (std_pos X i (hc i) hT)))
    filter_upwards [h1, h2, h3] with p a1 a2 a3
    refine ⟨a1, fun _ i => ⟨(a3 i).1, (a3 i).2.1, (a3 i).2.2, fun j => ⟨a2 i j, ?_⟩⟩⟩
    rw [abs_le]
    exact ⟨le_min (by norm_num) (le_max_left _ _), min_le_left _ _⟩
  · filter_upwards [h1] with p a1
    exact ⟨a1, fun h => absurd h hc⟩

/-- The error of the eigenvalue routine on the computed matrix it is given. -/
noncomputable def handedError (δ : (n : ℕ) → Matrix (Fin n) (Fin n) ℝ → ℝ) (E : Evaluation) (X : Matrix (Fin N) (Fin T) ℝ) (cov : Bool) : ℝ := δ (handedFl E X cov).1 (lowerSymm (handedFl E X cov).2)

/-- The computed values and the wanted eigenvalues. -/
theorem computedFl_close (X : Matrix (Fin N) (Fin T) ℝ) (cov : Bool) (hT : 2 ≤ T) (hc : cov = false → ∀ i, NonConstant (X i)) (η : ℝ) (hη : 0 < η) :
    ∃ ε > 0, ∀ E, Accurate E ε → ∀ (eigvalsh : EigSolver) (δ : (n : ℕ) → Matrix (Fin n) (Fin n) ℝ → ℝ), BackwardStable eigvalsh δ → ∀ e, computedEigsFl E eigvalsh X cov = .ok e →
      ∃ l, Ascending l ∧ (∀ x ∈ l, 0 ≤ x) ∧ ((List.replicate (N - T) 0 ++ l : List ℝ) : Multiset ℝ) = (wantedMatrix X cov).charpoly.roots ∧ EntriesWithin (η + handedError δ E X cov) l (npSort e) := by
  have key : ∀ {m : ℕ} (f : Evaluation → Matrix (Fin m) (Fin m) ℝ) (C : Matrix (Fin m) (Fin m) ℝ), C.IsSymm → Multiset.replicate (N - T) 0 + C.charpoly.roots = (wantedMatrix X cov).charpoly.roots →
      (∀ i j, Tendsto (fun p : Evals => f p.1.2 i j) precise (𝓝 (C i j))) →
      ∃ ε > 0, ∀ E, Accurate E ε → ∀ (eigvalsh : EigSolver) (δ : (n : ℕ) → Matrix (Fin n) (Fin n) ℝ → ℝ), BackwardStable eigvalsh δ → ∀ e, e = eigvalsh m (lowerSymm (f E)) →
      ∃ l, Ascending l ∧ (∀ x ∈ l, 0 ≤ x) ∧ ((List.replicate (N - T) 0 ++ l : List ℝ) : Multiset ℝ) = (wantedMatrix X cov).charpoly.roots ∧ EntriesWithin (η + δ m (lowerSymm (f E))) l (npSort e) := by
    intro m f C hC hr hl
    obtain ⟨ε, hε, h⟩ := of_eventually (P := fun E => ∀ i j, |f E i j - C i j| ≤ η / (m + 1)) (entries_eventually hl (by positivity))
    refine ⟨ε, hε, fun E hE eigvalsh δ hδ e he => ?_⟩
    obtain ⟨C', hC', hf, eC⟩ := hδ m (lowerSymm (f E)) (lower_symm _)
    have hsr := sorted_roots C
    have hfr : frobenius (lowerSymm (f E) - C) ≤ η := by
      refine (frobenius_le _ _ (by positivity) (lower_close hC (h E hE))).trans ?_
      rw [mul_div_assoc', div_le_iff₀ (by positivity)]
      nlinarith
    have hff := forms_trans (forms_symm (forms_mono (forms_frobenius _ _) hfr)) hf
    refine ⟨npSort C.charpoly.roots.toList, npSort_ascending _, ?_, ?_, ?_⟩
    · intro x hx
      refine C45_nonneg X cov hT hc x ?_
      rw [← hr, ← hsr]
      exact Multiset.mem_add.mpr (Or.inr hx)
    · rw [← Multiset.coe_add, hsr, Multiset.coe_replicate, hr]
    · exact weyl hC hC' hff _ _ hsr (by rw [Multiset.coe_eq_coe.mpr (npSort_perm _), he, eC]) (npSort_ascending _) (npSort_ascending _)
  by_cases hNT : N ≤ T
  · obtain ⟨ε, hε, h⟩ := key (fun E => if cov then npCovFl E X 1 else correlateFastFl E X 1) (wantedMatrix X cov) (wantedMatrix_isSymm X cov) (by simp [Nat.sub_eq_zero_of_le hNT]) (fun i j => by
      unfold wantedMatrix
      cases cov
      · have := corr_lim X (hc rfl) hT i j
        rwa [correlateFast_eq X 1 (by omega)] at this
      · have := cov_lim X i j
        rwa [npCov_one X (by omega)] at this)
    refine ⟨ε, hε, fun E hE eigvalsh δ hδ e he => ?_⟩
    have hh : handedFl E X cov = ⟨N, if cov then npCovFl E X 1 else correlateFastFl E X 1⟩ := if_pos hNT
    unfold computedEigsFl at he
    split_ifs at he with c1 c2
    rw [hh, Except.ok.injEq] at he
    have := h E hE eigvalsh δ hδ e he.symm
    unfold handedError
    rwa [hh]
  · obtain ⟨ε, hε, h⟩ := key (fun E => transposedMatrixFl E X cov) (transposedMatrix X cov) (transposedMatrix_isSymm X cov) (by
      have hp := transposed_charpoly X hT (by omega) cov hc
      have hne : Polynomial.X ^ (N - T) * (transposedMatrix X cov).charpoly ≠ 0 := by
        rw [← hp]; exact (Matrix.charpoly_monic _).ne_zero
      rw [wantedMatrix, hp, Polynomial.roots_mul hne, Polynomial.roots_X_pow, Multiset.nsmul_singleton]) (transposed_lim X cov hc hT)
    refine ⟨ε, hε, fun E hE eigvalsh δ hδ e he => ?_⟩
    have hh : handedFl E X cov = ⟨T, transposedMatrixFl E X cov⟩ := if_neg hNT
    unfold computedEigsFl at he
    split_ifs at he with c1 c2
    rw [hh, Except.ok.injEq] at he
    have := h E hE eigvalsh δ hδ e he.symm
    unfold handedError
    rwa [hh]

theorem accurate_mono {E : Evaluation} {ε ε' : ℝ} (h : Accurate E ε) (hε : ε ≤ ε') : Accurate E ε' :=
  ⟨fun x => (h.rel x).trans (mul_le_mul_of_nonneg_right hε (abs_nonneg _)), h.mean, h.std, h.dot⟩

/-- **C177 (returned eigenvalues).** Let `l` be the ascending list of all eigenvalues of the exact covariance (or correlation) matrix of the series. For every `η > 0` there is a precision `ε > 0` such that with every operation rounded to relative error
at most `ε`, every association of the sums, and every backward stable eigenvalue routine, whose error on the computed matrix is `δ`, what `from_time_series` returns are approximations within `d = η + δ` of the largest eigenvalues in `l`; without
trimming every eigenvalue above 0 is represented, and with trimming every eigenvalue above `d` (`zeros="negative"`), `102 d` (`"heuristic"`), or `max(0, z + d)` (a number `z`). -/
theorem C177_returned (X : Matrix (Fin N) (Fin T) ℝ) (cov : Bool) (hT : 2 ≤ T) (hc : cov = false → ∀ i, NonConstant (X i)) (η : ℝ) (hη : 0 < η) :
    ∃ l : List ℝ, (l : Multiset ℝ) = (wantedMatrix X cov).charpoly.roots ∧ Ascending l ∧
      ∃ ε > 0, ∀ E, Accurate E ε → ∀ (eigvalsh : EigSolver) (δ : (n : ℕ) → Matrix (Fin n) (Fin n) ℝ → ℝ), BackwardStable eigvalsh δ → ∀ (float : String → Option ℝ) (tr : Bool) (z : Zeros) (vals : List ℝ),
        seriesValuesFl E eigvalsh float X cov tr z = .ok vals →
        (tr = false → ApproxUpper (η + handedError δ E X cov) 0 l vals) ∧
        (tr = true → z = .str "negative" → ApproxUpper (η + handedError δ E X cov) (η + handedError δ E X cov) l vals) ∧
        (tr = true → z = .str "heuristic" → ApproxUpper (η + handedError δ E X cov) (102 * (η + handedError δ E X cov)) l vals) ∧
        (∀ x, tr = true → z = .num x → ApproxUpper (η + handedError δ E X cov) (max 0 (x + (η + handedError δ E X cov))) l vals) := by
  obtain ⟨ε, hε, h⟩ := computedFl_close X cov hT hc η hη
  refine ⟨npSort (wantedMatrix X cov).charpoly.roots.toList, sorted_roots _, npSort_ascending _, min ε (1 / 100), lt_min hε (by norm_num), fun E hE eigvalsh δ hδ float tr z vals hv => ?_⟩
  unfold seriesValuesFl at hv
  cases he : computedEigsFl E eigvalsh X cov with
  | error x => rw [he] at hv; simp [Bind.bind, Except.bind] at hv
  | ok e =>
    rw [he] at hv
    simp only [Bind.bind, Except.bind] at hv
    obtain ⟨l, a1, a2, a3, a4⟩ := h E (accurate_mono hE (min_le_left _ _)) eigvalsh δ hδ e he
    have hll : npSort (wantedMatrix X cov).charpoly.roots.toList = List.replicate (N - T) 0 ++ l := by
      refine npSort_unique ?_ (series_prefix_ascending a1 a2 _)
      rw [← Multiset.coe_eq_coe, Multiset.coe_toList, a3]
    rw [hll]
    have hsort : ∀ t, npSort (e.filter fun x => decide (x > t)) = (npSort e).filter fun x => decide (t < x) := fun t => by
      refine npSort_unique ?_ ((npSort_ascending e).filter _)
      exact (npSort_perm e).filter _
    have hd0 : e ≠ [] → 0 ≤ η + handedError δ E X cov := fun hne => by
      have hlen : (npSort e).length = e.length := (npSort_perm e).length_eq
      cases hs : npSort e with
      | nil => rw [hs] at hlen; exact absurd (List.length_eq_zero_iff.mp hlen.symm) hne
      | cons v vs =>
        rw [hs] at a4
        cases a4 with
        | cons h _ => exact (abs_nonneg _).trans h
    have hvals : ∀ e', (if tr then trimZerosFl E float e z else .ok e) = .ok e' → vals = npSort e' := fun e' he' => by
      rw [he'] at hv
      simp only [initEigVals1d_ok] at hv
      cases hm : npMax e' with
      | error x => rw [hm] at hv; cases hv
      | ok m => rw [hm] at hv; cases hv; rfl
    refine ⟨fun htr => ?_, fun htr hz => ?_, fun htr hz => ?_, fun x htr hz => ?_⟩
    · subst htr
      rw [hvals e rfl]
      refine ⟨N - T, by simpa using a4, fun x hx => ?_⟩
      have e1 : (List.replicate (N - T) (0 : ℝ) ++ l).take (N - T) = List.replicate (N - T) 0 := by
        rw [List.take_append]; simp
      rw [e1] at hx
      rw [List.eq_of_mem_replicate hx]
    · subst htr hz
      have hd : 0 ≤ η + handedError δ E X cov := hd0 (fun e0 => by subst e0; simp [trimZerosFl, initEigVals1d_ok, npMax] at hv)
      rw [hvals (e.filter fun x => decide (x > 0)) (by simp [trimZerosFl]), hsort]
      exact approx_filter (npSort_ascending e) a4 _ hd (by linarith)
    · subst htr hz
      cases hm : npMin e with
      | error x => simp [trimZerosFl, hm, Bind.bind, Except.bind] at hv
      | ok m =>
        have hne : e ≠ [] := by
          rintro rfl
          simp [npMin] at hm
        obtain ⟨m', hm', hmem, -⟩ := npMin_ok hne
        rw [hm] at hm'
        cases hm'
        have hd : 0 ≤ η + handedError δ E X cov := hd0 hne
        rw [hvals (e.filter fun x => decide (x > if m ≤ 0 then E.fl (-100 * m) else 0)) (by simp [trimZerosFl, hm, Bind.bind, Except.bind]), hsort]
        refine approx_filter (npSort_ascending e) a4 _ (by linarith) ?_
        have hlow : -(η + handedError δ E X cov) ≤ m := by
          obtain ⟨i, hi, hie⟩ := List.getElem_of_mem ((npSort_perm e).mem_iff.mpr hmem)
          have hl := within_length a4
          have hw := (List.forall₂_iff_get.mp a4).2 i (by omega) hi
          simp only [List.get_eq_getElem, hie] at hw
          have := a2 _ (List.getElem_mem (by omega : i < l.length))
          have := (abs_le.mp hw).2
          linarith
        split_ifs with hm0
        · have h1 := (abs_le.mp (hE.rel (-100 * m))).2
          rw [abs_of_nonneg (by linarith)] at h1
          have h2 : min ε (1 / 100) * (-100 * m) ≤ 1 / 100 * (-100 * m) := mul_le_mul_of_nonneg_right (min_le_right _ _) (by linarith)
          linarith
        · linarith
    · subst htr hz
      rw [hvals (e.filter fun y => decide (y > x)) (by simp [trimZerosFl]), hsort]
      exact approx_filter (npSort_ascending e) a4 _ (le_max_left _ _) (le_max_right _ _)

/-- **C177 (number of values).** Without trimming there is a value for each series or each time point, whichever are fewer. -/
theorem C177_total (X : Matrix (Fin N) (Fin T) ℝ) (cov : Bool) (hN : 2 ≤ N) (hT : 2 ≤ T) (E : Evaluation) (eigvalsh : EigSolver) (δ : (n : ℕ) → Matrix (Fin n) (Fin n) ℝ → ℝ) (hδ : BackwardStable eigvalsh δ)
    (float : String → Option ℝ) (z : Zeros) : ∃ vals, seriesValuesFl E eigvalsh float X cov false z = .ok vals ∧ vals.length = min N T ∧ Ascending vals := by
  have hcard : ∀ {m : ℕ} (M : Matrix (Fin m) (Fin m) ℝ), M.IsSymm → Multiset.card M.charpoly.roots = m := fun M hM => by
    rw [(hermitian_of_symm hM).roots_charpoly_eq_eigenvalues]; simp
  have hlen : ∀ {m : ℕ} (M : Matrix (Fin m) (Fin m) ℝ), (eigvalsh m (lowerSymm M)).length = m := fun {m} M => by
    obtain ⟨M', hM', -, e⟩ := hδ m (lowerSymm M) (lower_symm M)
    have := hcard M' hM'
    rw [← e] at this
    simpa using this
  have hl : (eigvalsh (handedFl E X cov).1 (lowerSymm (handedFl E X cov).2)).length = min N T := by
    rw [hlen]
    unfold handedFl
    by_cases h : N ≤ T
    · rw [if_pos h]; exact (min_eq_left h).symm
    · rw [if_neg h]; exact (min_eq_right (show T ≤ N by omega)).symm
  have hok : computedEigsFl E eigvalsh X cov = .ok (eigvalsh (handedFl E X cov).1 (lowerSymm (handedFl E X cov).2)) := by
    unfold computedEigsFl
    rw [if_neg (by omega), if_neg (by omega)]
  generalize eigvalsh (handedFl E X cov).1 (lowerSymm (handedFl E X cov).2) = e at hl hok
  have hne : e ≠ [] := by
    rintro rfl
    simp at hl
    omega
  obtain ⟨m, hm, -⟩ := npMax_ok hne
  refine ⟨npSort e, ?_, by rw [(npSort_perm e).length_eq, hl], npSort_ascending e⟩
  simp [seriesValuesFl, hok, initEigVals1d_ok, hm, Bind.bind, Except.bind]

/-! ## Non-vacuity -/

/-- Adding from left to right. -/
def leftToRight : List ℝ → SumTree ℝ
  | [] => .leaf 0
  | a :: l => l.foldl (fun t x => .node t (.leaf x)) (.leaf a)

theorem leftToRight_leaves (b : List ℝ) (hb : b ≠ []) : (leftToRight b).leaves.Perm b := by
  obtain ⟨a, l, rfl⟩ := List.exists_cons_of_ne_nil hb
  have : ∀ (l : List ℝ) (t : SumTree ℝ), (l.foldl (fun t x => SumTree.node t (.leaf x)) t).leaves = t.leaves ++ l := by
    intro l
    induction l with
    | nil => simp
    | cons x l ih => intro t; simp [ih, SumTree.leaves]
  rw [leftToRight, this]
  simp [SumTree.leaves]

/-- Floating point with `p + 1` bits, rounding towards zero; sums from left to right; every second product fused. -/
noncomputable def leftEvaluation (p : ℕ) : Evaluation := ⟨trunc p, fun _ => leftToRight, fun _ => leftToRight, fun _ _ => leftToRight, fun _ _ t => t % 2 == 0⟩

/-- For every precision asked for there are arithmetics of the kind of binary floating point. -/
theorem leftEvaluation_accurate (ε : ℝ) (hε : 0 < ε) : ∃ p, Accurate (leftEvaluation p) ε := by
  obtain ⟨p, hp⟩ := exists_pow_lt_of_lt_one hε (by norm_num : (1 / 2 : ℝ) < 1)
  refine ⟨p, accurate_mono ⟨(trunc_float p).2, fun _ => leftToRight_leaves, fun _ => leftToRight_leaves, fun _ _ => leftToRight_leaves⟩ ?_⟩
  rw [one_div_pow] at hp
  exact hp.le

/-- Two series of three points, and what is computed in a sufficiently precise arithmetic. -/
example : ∃ (p : ℕ) (vals l : List ℝ), seriesValuesFl (leftEvaluation p) exactRoutine (fun _ => none) !![1, 2, 4; 0, 5, -1] false false (.str "negative") = .ok vals ∧ vals.length = 2 ∧
    (l : Multiset ℝ) = (wantedMatrix (!![1, 2, 4; 0, 5, -1] : Matrix (Fin 2) (Fin 3) ℝ) false).charpoly.roots ∧ ApproxUpper (1 / 1000) 0 l vals := by
  have hs : BackwardStable exactRoutine fun _ _ => 0 := (exact_stable _).mp exactRoutine_exact
  have hc : ∀ i, NonConstant ((!![1, 2, 4; 0, 5, -1] : Matrix (Fin 2) (Fin 3) ℝ) i) := fun i => by
    refine ⟨0, 1, ?_⟩
    fin_cases i <;> norm_num
  obtain ⟨l, h1, -, ε, hε, h2⟩ := C177_returned (!![1, 2, 4; 0, 5, -1] : Matrix (Fin 2) (Fin 3) ℝ) false (by norm_num) (fun _ => hc) (1 / 1000) (by norm_num)
  obtain ⟨p, hp⟩ := leftEvaluation_accurate ε hε
  obtain ⟨vals, h3, h4, -⟩ := C177_total (!![1, 2, 4; 0, 5, -1] : Matrix (Fin 2) (Fin 3) ℝ) false le_rfl (by norm_num) (leftEvaluation p) exactRoutine _ hs (fun _ => none) (.str "negative")
  refine ⟨p, vals, l, h3, h4, h1, ?_⟩
  have := (h2 _ hp exactRoutine _ hs _ _ _ _ h3).1 rfl
  simpa [handedError] using this

end Props
end Rounded
end RMT
