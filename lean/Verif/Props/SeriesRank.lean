import Verif.Lemmas.DataRank

/-!
# Property C164: how many eigenvalues `from_time_series` returns
-/

namespace RMT
namespace Props
open Gen EigValsM EigM Unfold Spec Matrix Inertia Semi MeasureTheory Gauss

variable {N T : ℕ}

/-- **C164 (number of values).** For every data: the number of positive values of `from_time_series` is the number of linearly independent series once each has its average subtracted, for covariances and for correlations, trimmed or not; with zeros trimmed
(the default `zeros="negative"`) this is the number of values returned. -/
theorem C164_count (eigvalsh : EigSolver) (hs : ExactSolver eigvalsh) (float : String → Option ℝ) (X : Matrix (Fin N) (Fin T) ℝ) (cov : Bool) (hT : 2 ≤ T) (hc : cov = false → ∀ i, NonConstant (X i))
    (tr : Bool) (s : SeriesEigs) (h : fromTimeSeries eigvalsh float (.dim2 N T X) cov tr (.str "negative") 1 = .ok s) :
    (s.obj.vals.filter (0 < ·)).length = Module.finrank ℝ (Submodule.span ℝ (Set.range fun i => fun t => X i t - (∑ u, X i u) / T)) ∧
    (tr = true → s.obj.vals.length = Module.finrank ℝ (Submodule.span ℝ (Set.range fun i => fun t => X i t - (∑ u, X i u) / T))) := by
  have h1 := cnt_independent X cov hT hc
  have h2 : (s.obj.vals.filter (0 < ·)).length = independentSeries X := by
    rw [← h1, cnt, Multiset.countP_eq_card_filter]
    cases tr
    · rw [← C45_spectrum eigvalsh hs float X cov hT hc _ s h, Multiset.filter_add]
      have hz : Multiset.filter (0 < ·) (Multiset.replicate (N - T) (0 : ℝ)) = 0 := by
        rw [Multiset.filter_eq_nil]
        intro a ha
        rw [Multiset.eq_of_mem_replicate ha]
        exact lt_irrefl _
      rw [hz, add_zero, Multiset.filter_coe, Multiset.coe_card]
    · have := (C43_spectrum eigvalsh hs float X cov hT hc s h).2
      have h3 : Multiset.filter (0 < ·) (s.obj.vals : Multiset ℝ) = (s.obj.vals : Multiset ℝ) := by
        rw [this, Multiset.filter_filter]
        simp
      rw [← this, ← h3, Multiset.filter_coe, Multiset.coe_card]
  refine ⟨h2, ?_⟩
  rintro rfl
  have h3 : s.obj.vals.filter (0 < ·) = s.obj.vals := by
    rw [List.filter_eq_self]
    intro x hx
    have := (C43_spectrum eigvalsh hs float X cov hT hc s h).2
    have hx' : x ∈ (s.obj.vals : Multiset ℝ) := hx
    rw [this] at hx'
    simpa using (Multiset.mem_filter.mp hx').2
  rw [← h3]
  exact h2

/-- **C164 (at most).** For every data at most `min(N, T - 1)` of the values are positive: with at least as many series as time points an untrimmed spectrum always contains 0. -/
theorem C164_at_most (eigvalsh : EigSolver) (hs : ExactSolver eigvalsh) (float : String → Option ℝ) (X : Matrix (Fin N) (Fin T) ℝ) (cov : Bool) (hT : 2 ≤ T) (hc : cov = false → ∀ i, NonConstant (X i))
    (tr : Bool) (s : SeriesEigs) (h : fromTimeSeries eigvalsh float (.dim2 N T X) cov tr (.str "negative") 1 = .ok s) :
    (s.obj.vals.filter (0 < ·)).length ≤ min N (T - 1) ∧ (tr = true → s.obj.vals.length ≤ min N (T - 1)) ∧
    (tr = false → s.obj.vals.length = min N T ∧ (T ≤ N → (0 : ℝ) ∈ s.obj.vals)) := by
  obtain ⟨h1, h2⟩ := C164_count eigvalsh hs float X cov hT hc tr s h
  have h3 := independent_le X (by omega)
  refine ⟨h1.trans_le h3, fun ht => (h2 ht).trans_le h3, ?_⟩
  rintro rfl
  have h4 := C45_spectrum eigvalsh hs float X cov hT hc _ s h
  have hlen : s.obj.vals.length = min N T := by
    have hcard : (wantedMatrix X cov).charpoly.roots.card = N := by
      have hM : (wantedMatrix X cov).IsHermitian := (wanted_psd X cov hT hc).1
      rw [hM.roots_charpoly_eq_eigenvalues]
      simp
    rw [← h4, Multiset.card_add, Multiset.card_replicate, Multiset.coe_card] at hcard
    omega
  refine ⟨hlen, fun hTN => ?_⟩
  by_contra h0
  have hall : s.obj.vals.filter (0 < ·) = s.obj.vals := by
    rw [List.filter_eq_self]
    intro x hx
    have hx' : x ∈ (wantedMatrix X cov).charpoly.roots := by
      rw [← h4]
      exact Multiset.mem_add.mpr (Or.inl hx)
    have := C45_nonneg X cov hT hc x hx'
    have hne : x ≠ 0 := fun h => h0 (h ▸ hx)
    simpa using lt_of_le_of_ne this hne.symm
  have := h1.trans_le h3
  rw [hall, hlen] at this
  omega

variable {Ω : Type} [MeasurableSpace Ω]

/-- **C164 (noise).** For series of independent normal draws, with an exact routine: almost surely `from_time_series` returns with zeros trimmed exactly `min(N, T - 1)` values, all positive and all different, for covariances and for correlations. -/
theorem C164_noise (eigvalsh : EigSolver) (hs : ExactSolver eigvalsh) (float : String → Option ℝ) (P : Measure Ω) [IsProbabilityMeasure P] (Z : ℕ → Ω → ℝ) (hZ : NormalDraws P Z) (cov : Bool) (hN : 2 ≤ N) (hT : 2 ≤ T) :
    ∀ᵐ ω ∂P, ∃ s, fromTimeSeries eigvalsh float (.dim2 N T fun i t => Z (i.val * T + t.val) ω) cov true (.str "negative") 1 = .ok s ∧
      s.obj.vals.length = min N (T - 1) ∧ s.obj.vals.Pairwise (· < ·) ∧ ∀ x ∈ s.obj.vals, 0 < x := by
  filter_upwards [noise_nonconstant (N := N) P Z hZ hT, ae_positive_distinct (N := N) P Z hZ hT cov, ae_independent (N := N) P Z hZ hT] with ω hc hd hi
  obtain ⟨s, h⟩ := series_ok eigvalsh hs float (noise Z N T ω) cov true hN hT hc
  obtain ⟨h1, h2⟩ := C43_spectrum eigvalsh hs float (noise Z N T ω) cov hT (fun _ => hc) s h
  refine ⟨s, h, ?_, ?_, fun x hx => ?_⟩
  · exact ((C164_count eigvalsh hs float (noise Z N T ω) cov hT (fun _ => hc) true s h).2 rfl).trans hi
  · have hnd : s.obj.vals.Nodup := by
      rw [← Multiset.coe_nodup, h2]
      exact hd
    exact h1.and hnd |>.imp fun h => lt_of_le_of_ne h.1 h.2
  · have hx' : x ∈ (s.obj.vals : Multiset ℝ) := hx
    rw [h2] at hx'
    exact (Multiset.mem_filter.mp hx').2

/-- Non-vacuity: normal draws exist, and so does an exact routine; for 5 series of 3 points almost surely 2 values are returned. -/
example : ∃ (Ω : Type) (_ : MeasurableSpace Ω) (P : Measure Ω) (_ : IsProbabilityMeasure P) (Z : ℕ → Ω → ℝ), NormalDraws P Z ∧
    ∀ᵐ ω ∂P, ∃ s, fromTimeSeries exactRoutine (fun _ => none) (.dim2 5 3 fun i t => Z (i.val * 3 + t.val) ω) false true (.str "negative") 1 = .ok s ∧ s.obj.vals.length = 2 := by
  refine ⟨ℕ → ℝ, inferInstance, Measure.infinitePi fun _ : ℕ => ProbabilityTheory.gaussianReal 0 1, inferInstance, _, stream_draws, ?_⟩
  filter_upwards [C164_noise (N := 5) (T := 3) exactRoutine exactRoutine_exact (fun _ => none) _ _ stream_draws false (by norm_num) (by norm_num)] with ω hω
  obtain ⟨s, h1, h2, -⟩ := hω
  exact ⟨s, h1, h2⟩

end Props
end RMT
