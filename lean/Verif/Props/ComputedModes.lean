import Verif.Props.SignalModes

/-! # C193: collective modes found with an inexact eigenvalue routine -/

namespace RMT
namespace Props
open Gen EigValsM EigM Unfold Spec Matrix Inertia Semi

variable {N T : ℕ}

theorem kept_count (eigvalsh : EigSolver) (float : String → Option ℝ) (X : Matrix (Fin N) (Fin T) ℝ) (cov : Bool) (hT : 2 ≤ T)
    (tr : Bool) (s : SeriesEigs) (h : fromTimeSeries eigvalsh float (.dim2 N T X) cov tr (.str "negative") 1 = .ok s)
    (shifted : Bool) (o : Obj ℝ) (lo hi : ℝ) (ht : trimMarchenkoPastur (some s.seriesN) (some s.seriesT) s.obj.vals none none true shifted = .ok (o, lo, hi)) :
    o.vals.length = countGT s.obj.vals hi := by
  obtain ⟨hN', hT'⟩ := (C43_sizes eigvalsh float X cov tr (.str "negative") s).1 h
  have hne : s.obj.vals ≠ [] := by
    intro h0
    rw [(C41_errors (some s.seriesN) (some s.seriesT) s.obj.vals none none true shifted).mpr (Or.inr h0)] at ht
    cases ht
  obtain ⟨m, hm⟩ := LevelVar.exists_isMax s.obj.vals hne
  have hasc : Ascending s.obj.vals := series_ascending eigvalsh float X _ _ s h
  obtain ⟨o', lo', hi', e1, -, -, e2, -⟩ := C41_trim (some s.seriesN) (some s.seriesT) s.obj.vals hasc none none true shifted s.seriesN s.seriesT rfl rfl (by omega) m hm.1 hm.2
  rw [ht] at e1
  injection e1 with e1
  rw [Prod.mk.injEq, Prod.mk.injEq] at e1
  obtain ⟨rfl, rfl, rfl⟩ := e1
  rw [e2 rfl, countGT]

/-- **C193 (modes).** With a backward stable eigenvalue routine whose error on the matrix it is given is `d = seriesError δ X cov`: `trim_marchenko_pastur(largest=True)` on the object of `from_time_series` keeps at least as many values as there are
independent combinations of the series that, with all their combinations, have a variance above `(trim_max + d)` times the sum of the squared weights, and at most as many as there are with `trim_max - d` in place of `trim_max + d`. -/
theorem C193_modes (eigvalsh : EigSolver) (δ : (n : ℕ) → Matrix (Fin n) (Fin n) ℝ → ℝ) (hs : BackwardStable eigvalsh δ) (float : String → Option ℝ) (X : Matrix (Fin N) (Fin T) ℝ) (cov : Bool)
    (hT : 2 ≤ T) (hc : cov = false → ∀ i, NonConstant (X i)) (tr : Bool) (s : SeriesEigs) (h : fromTimeSeries eigvalsh float (.dim2 N T X) cov tr (.str "negative") 1 = .ok s)
    (shifted : Bool) (o : Obj ℝ) (lo hi : ℝ) (ht : trimMarchenkoPastur (some s.seriesN) (some s.seriesT) s.obj.vals none none true shifted = .ok (o, lo, hi)) (hhi : 0 < hi) (hd : seriesError δ X cov ≤ hi) :
    (∀ W : Submodule ℝ (Fin N → ℝ), (∀ w ∈ W, w ≠ 0 → (hi + seriesError δ X cov) * ∑ i, w i ^ 2 < sampleCov (combination (seriesUsed X cov) w) (combination (seriesUsed X cov) w)) →
      Module.finrank ℝ W ≤ o.vals.length) ∧
    ∃ W : Submodule ℝ (Fin N → ℝ), o.vals.length ≤ Module.finrank ℝ W ∧
      ∀ w ∈ W, w ≠ 0 → (hi - seriesError δ X cov) * ∑ i, w i ^ 2 < sampleCov (combination (seriesUsed X cov) w) (combination (seriesUsed X cov) w) := by
  have hM : (wantedMatrix X cov).IsHermitian := by
    rw [Matrix.IsHermitian, conjTranspose_eq_transpose_of_trivial]
    exact wantedMatrix_isSymm X cov
  have hk := kept_count eigvalsh float X cov hT tr s h shifted o lo hi ht
  obtain ⟨h1, h2⟩ := series_within eigvalsh δ hs float X cov hT hc tr s h hi hhi hd
  rw [← hk] at h1 h2
  have hg : ∀ a, IsGreatest {k | ∃ W : Submodule ℝ (Fin N → ℝ), Module.finrank ℝ W = k ∧
        ∀ w ∈ W, w ≠ 0 → a * ∑ i, w i ^ 2 < sampleCov (combination (seriesUsed X cov) w) (combination (seriesUsed X cov) w)} (cnt (wantedMatrix X cov) a) := by
    intro a
    have := cnt_greatest (wantedMatrix X cov) hM a
    rw [wanted_used X cov hT hc] at this ⊢
    simp only [cov_combination]
    simpa only [dotProduct, ← sq] using this
  refine ⟨fun W hW => ((hg _).2 ⟨W, rfl, hW⟩).trans h1, ?_⟩
  obtain ⟨W, hW, hW'⟩ := (hg (hi - seriesError δ X cov)).1
  exact ⟨W, h2.trans hW.ge, hW'⟩

/-- **C193 (agreement).** If no variance of a mode (eigenvalue of the matrix of covariances or correlations) is within the error of the cut point, exactly as many values are kept as with an exact routine and the same cut point. -/
theorem C193_agree (eigvalsh : EigSolver) (δ : (n : ℕ) → Matrix (Fin n) (Fin n) ℝ → ℝ) (hs : BackwardStable eigvalsh δ) (float : String → Option ℝ) (X : Matrix (Fin N) (Fin T) ℝ) (cov : Bool)
    (hT : 2 ≤ T) (hc : cov = false → ∀ i, NonConstant (X i)) (tr : Bool) (s : SeriesEigs) (h : fromTimeSeries eigvalsh float (.dim2 N T X) cov tr (.str "negative") 1 = .ok s)
    (shifted : Bool) (o : Obj ℝ) (lo hi : ℝ) (ht : trimMarchenkoPastur (some s.seriesN) (some s.seriesT) s.obj.vals none none true shifted = .ok (o, lo, hi)) (hhi : 0 < hi) (hd0 : 0 ≤ seriesError δ X cov) (hd : seriesError δ X cov ≤ hi)
    (hgap : ∀ x ∈ (wantedMatrix X cov).charpoly.roots, seriesError δ X cov < |x - hi|) :
    o.vals.length = ((wantedMatrix X cov).charpoly.roots.filter (hi < ·)).card := by
  have hk := kept_count eigvalsh float X cov hT tr s h shifted o lo hi ht
  obtain ⟨h1, h2⟩ := series_within eigvalsh δ hs float X cov hT hc tr s h hi hhi hd
  rw [← hk] at h1 h2
  have key : ∀ b, |b - hi| ≤ seriesError δ X cov → cnt (wantedMatrix X cov) b = ((wantedMatrix X cov).charpoly.roots.filter (hi < ·)).card := by
    intro b hb
    rw [cnt, ← Multiset.countP_eq_card_filter]
    refine Multiset.countP_congr rfl fun x hx => propext ?_
    have h3 := hgap x hx
    rw [abs_le] at hb
    rcases lt_abs.1 h3 with h | h
    · exact ⟨fun _ => by linarith, fun _ => by linarith [hb.2]⟩
    · exact ⟨fun h' => by linarith [hb.1], fun h' => by linarith⟩
  rw [key _ (by rw [add_sub_cancel_left, abs_of_nonneg hd0])] at h1
  rw [key _ (by rw [sub_sub_cancel_left, abs_neg, abs_of_nonneg hd0])] at h2
  omega

/-- **C193 (a common signal is kept).** With a backward stable routine of error `d ≤ 1`: if `1 + (N - 1) r > (1 + √(N/T))² + d` for the average correlation `r` between different series, then `trim_marchenko_pastur(largest=True)` on the
eigenvalues of the correlations keeps at least one value, shifted or not, and the largest value it keeps is at least `1 + (N - 1) r - d`. -/
theorem C193_common_signal (eigvalsh : EigSolver) (δ : (n : ℕ) → Matrix (Fin n) (Fin n) ℝ → ℝ) (hs : BackwardStable eigvalsh δ) (float : String → Option ℝ) (X : Matrix (Fin N) (Fin T) ℝ)
    (hN : 2 ≤ N) (hT : 2 ≤ T) (hc : ∀ i, NonConstant (X i)) (tr : Bool) (s : SeriesEigs) (h : fromTimeSeries eigvalsh float (.dim2 N T X) false tr (.str "negative") 1 = .ok s)
    (hd0 : 0 ≤ seriesError δ X false) (hd : seriesError δ X false ≤ 1) (hr : (1 + √((N : ℝ) / T)) ^ 2 + seriesError δ X false < 1 + (N - 1) * meanCorrelation X) (shifted : Bool) :
    ∃ o lo hi, trimMarchenkoPastur (some s.seriesN) (some s.seriesT) s.obj.vals none none true shifted = .ok (o, lo, hi) ∧ ∃ v ∈ o.vals, 1 + (N - 1) * meanCorrelation X - seriesError δ X false ≤ v := by
  obtain ⟨s', h'⟩ := series_ok exactRoutine exactRoutine_exact float X false true hN hT hc
  obtain ⟨o', lo', hi', e', x, hx, hxR⟩ := C161_common_signal exactRoutine exactRoutine_exact float X hN hT hc true s' h' (by linarith) false
  have hB : 1 ≤ (1 + √((N : ℝ) / T)) ^ 2 := by nlinarith [Real.sqrt_nonneg ((N : ℝ) / T)]
  have hi0 : 0 ≤ hi' := by
    obtain ⟨hN', hT'⟩ := (C43_sizes exactRoutine float X false true (.str "negative") s').1 h'
    have hne : s'.obj.vals ≠ [] := by
      intro h0
      rw [(C41_errors (some s'.seriesN) (some s'.seriesT) s'.obj.vals none none true false).mpr (Or.inr h0)] at e'
      cases e'
    obtain ⟨m, hm⟩ := LevelVar.exists_isMax s'.obj.vals hne
    obtain ⟨o2, lo2, hi2, e1, -, e3, -, -⟩ := C41_trim (some s'.seriesN) (some s'.seriesT) s'.obj.vals (series_ascending exactRoutine float X _ _ s' h') none none true false s'.seriesN s'.seriesT rfl rfl (by omega) m hm.1 hm.2
    rw [e'] at e1
    injection e1 with e1
    rw [Prod.mk.injEq, Prod.mk.injEq] at e1
    rw [e1.2.2, e3]
    simp
    positivity
  have hroot : x ∈ (wantedMatrix X false).charpoly.roots := by
    have hk := kept_values exactRoutine exactRoutine_exact float X false hT (fun _ => hc) true s' h' false o' lo' hi' e' hi0
    have : x ∈ (o'.vals : Multiset ℝ) := hx
    rw [hk] at this
    exact (Multiset.mem_filter.1 this).1
  set d := seriesError δ X false with hdd
  set Q := 1 + ((N : ℝ) - 1) * meanCorrelation X with hQ
  have hbig : ∀ a, 1 ≤ a → a < Q - d → ∃ v ∈ s.obj.vals, a < v := by
    intro a ha1 ha2
    have h1 := (series_within eigvalsh δ hs float X false hT (fun _ => hc) tr s h a (by linarith) (by linarith)).1
    have h2 : 0 < cnt (wantedMatrix X false) (a + d) := by
      rw [cnt, Multiset.countP_pos]
      exact ⟨x, hroot, by linarith⟩
    have h3 : 0 < countGT s.obj.vals a := lt_of_lt_of_le h2 h1
    rw [countGT, List.length_pos_iff] at h3
    obtain ⟨v, hv⟩ := List.exists_mem_of_ne_nil _ h3
    rw [List.mem_filter] at hv
    exact ⟨v, hv.1, by simpa using hv.2⟩
  obtain ⟨v0, hv0, -⟩ := hbig 1 le_rfl (by linarith)
  obtain ⟨m, hm⟩ := LevelVar.exists_isMax s.obj.vals (List.ne_nil_of_mem hv0)
  have hmQ : Q - d ≤ m := by
    by_contra hlt
    push Not at hlt
    obtain ⟨v, hv, hlt'⟩ := hbig (max 1 m) (le_max_left _ _) (max_lt (by linarith) hlt)
    have := hm.2 v hv
    have := le_max_right 1 m
    linarith
  obtain ⟨hN', hT'⟩ := (C43_sizes eigvalsh float X false tr (.str "negative") s).1 h
  obtain ⟨o, lo, hi, e1, -, e3, e4, -⟩ := C41_trim (some s.seriesN) (some s.seriesT) s.obj.vals (series_ascending eigvalsh float X _ _ s h) none none true shifted s.seriesN s.seriesT rfl rfl (by omega) m hm.1 hm.2
  refine ⟨o, lo, hi, e1, m, ?_, hmQ⟩
  rw [e4 rfl, List.mem_filter]
  refine ⟨hm.1, ?_⟩
  rw [hN', hT'] at e3
  have hfac : (if shifted = true then 1 - m / N else 1) ≤ (1 : ℝ) := by
    have h2 : 0 ≤ m / N := div_nonneg (by linarith) (Nat.cast_nonneg _)
    split_ifs <;> linarith
  have hhi : hi ≤ (1 + √((N : ℝ) / T)) ^ 2 := by
    rw [e3]
    exact mul_le_of_le_one_left (sq_nonneg _) hfac
  simp only [decide_eq_true_eq]
  linarith

/-- Non-vacuity: three series `t, t, t` of length 48 have average correlation 1. The routine `relativeSolver`, which adds to every eigenvalue a quarter of the size of the matrix and so is wrong by 3/4, is not exact; all hypotheses hold, as
`1 + 2 > (1 + √(3/48))² + 3/4`, and at least one value is kept. -/
example : ∃ (eigvalsh : EigSolver) (δ : (n : ℕ) → Matrix (Fin n) (Fin n) ℝ → ℝ) (s : SeriesEigs), BackwardStable eigvalsh δ ∧ ¬ ExactSolver eigvalsh ∧ seriesError δ (fun (_ : Fin 3) (t : Fin 48) => (t : ℝ)) false = 3 / 4 ∧
    fromTimeSeries eigvalsh (fun _ => none) (.dim2 3 48 fun _ t => (t : ℝ)) false false (.str "negative") 1 = .ok s ∧
    ∃ o lo hi, trimMarchenkoPastur (some s.seriesN) (some s.seriesT) s.obj.vals none none true true = .ok (o, lo, hi) ∧ ∃ v ∈ o.vals, 9 / 4 ≤ v := by
  have hc : ∀ i : Fin 3, NonConstant ((fun (_ : Fin 3) (t : Fin 48) => (t : ℝ)) i) := fun i => ⟨0, 1, by norm_num⟩
  set X : Matrix (Fin 3) (Fin 48) ℝ := fun (_ : Fin 3) (t : Fin 48) => (t : ℝ) with hX
  have hd : pearson (fun t : Fin 48 => (t : ℝ)) (fun t => (t : ℝ)) = 1 := by
    have h46 := C46_correlation X 1 (by norm_num) hc
    have := h46.2.2.2.1 0
    rw [h46.1] at this
    exact this
  have hm : meanCorrelation X = 1 := by
    simp only [meanCorrelation, hX, hd, Fin.sum_univ_three]
    rw [if_neg (by decide : ¬ (0 : Fin 3) = 1), if_neg (by decide : ¬ (0 : Fin 3) = 2), if_neg (by decide : ¬ (1 : Fin 3) = 0), if_neg (by decide : ¬ (1 : Fin 3) = 2), if_neg (by decide : ¬ (2 : Fin 3) = 0), if_neg (by decide : ¬ (2 : Fin 3) = 1)]
    norm_num
  have herr : seriesError (fun n M => Spec.frobenius M / (n + 1)) X false = 3 / 4 := by
    have h1 : ∀ i j, wantedMatrix X false i j = 1 := fun i j => by
      rw [wantedMatrix, if_neg (by decide)]
      exact hd
    rw [seriesError, if_pos (by norm_num), Spec.frobenius]
    simp only [h1]
    rw [show (∑ _i : Fin 3, ∑ _j : Fin 3, (1 : ℝ) ^ 2) = 3 ^ 2 by simp; norm_num, Real.sqrt_sq (by norm_num)]
    norm_num
  obtain ⟨e, he⟩ : ∃ e, computedEigs relativeSolver X false = .ok e := by
    unfold computedEigs
    rw [if_pos (by norm_num), if_neg (by norm_num)]
    exact ⟨_, rfl⟩
  have hne : e ≠ [] := by
    intro h0
    obtain ⟨l, -, -, h2, h3⟩ := computed_close relativeSolver _ relativeSolver_stable X false (by norm_num) (fun _ => hc) e he
    have hl := h3.length_eq
    have hl0 : l = [] := List.eq_nil_of_length_eq_zero (by simpa [h0, npSort] using hl)
    have hsum := Moments.sum_roots _ (wantedMatrix_isSymm X false)
    have hp := trace_pos X false (by norm_num) (by norm_num) hc
    rw [← h2, hl0] at hsum
    simp at hsum
    linarith
  obtain ⟨m, hm', -⟩ := npMax_ok hne
  have h : fromTimeSeries relativeSolver (fun _ => none) (.dim2 3 48 X) false false (.str "negative") 1 = .ok (mkSeriesEigs 3 48 ⟨npSort e, npSort e, none⟩ m) := by
    have : fromSeries relativeSolver (fun _ => none) X false false (.str "negative") = .ok (mkSeriesEigs 3 48 ⟨npSort e, npSort e, none⟩ m) :=
      (fromSeries_eq _ _ _ _ _ _ _).mpr ⟨e, e, m, he, by simp, hm', rfl⟩
    simpa [fromTimeSeries] using this
  have hsq : √(((3 : ℕ) : ℝ) / (48 : ℕ)) = 1 / 4 := by
    rw [show ((3 : ℕ) : ℝ) / (48 : ℕ) = (1 / 4) ^ 2 by norm_num]
    exact Real.sqrt_sq (by norm_num)
  obtain ⟨o, lo, hi, e1, v, hv, hv'⟩ := C193_common_signal relativeSolver _ relativeSolver_stable (fun _ => none) X (by norm_num) (by norm_num) hc false _ h (by rw [herr]; norm_num) (by rw [herr]; norm_num) (by
    rw [hm, hsq, herr]
    norm_num) true
  rw [hm, herr] at hv'
  exact ⟨relativeSolver, _, _, relativeSolver_stable, relative_inexact, herr, h, o, lo, hi, e1, v, hv, by norm_num at hv'; linarith⟩

end Props
end RMT
