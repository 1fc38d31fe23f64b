import Verif.Props.SpectralEdge
import Verif.Props.NoiseSpectrumEdge
import Verif.Props.InexactGue

/-! # C186: where computed spectra end -/

namespace RMT
namespace Props
open Gen EigValsM EigM Unfold MeasureTheory ProbabilityTheory Spec Gauss Inertia Semi Weyl Helpers
open Real Set Filter Topology

variable {σ Ω : Type} [MeasurableSpace Ω]

theorem within_values {d : ℝ} {l e : List ℝ} (h : EntriesWithin d l e) : (∀ y ∈ e, ∃ x ∈ l, |x - y| ≤ d) ∧ ∀ x ∈ l, ∃ y ∈ e, |x - y| ≤ d := by
  induction h with
  | nil => simp
  | @cons x y l e hxy _ ih =>
    refine ⟨fun z hz => ?_, fun z hz => ?_⟩
    · rcases List.mem_cons.mp hz with rfl | hz
      · exact ⟨x, List.mem_cons_self, hxy⟩
      · obtain ⟨w, h1, h2⟩ := ih.1 z hz
        exact ⟨w, List.mem_cons_of_mem _ h1, h2⟩
    · rcases List.mem_cons.mp hz with rfl | hz
      · exact ⟨y, List.mem_cons_self, hxy⟩
      · obtain ⟨w, h1, h2⟩ := ih.2 z hz
        exact ⟨w, List.mem_cons_of_mem _ h1, h2⟩

theorem within_largest {d : ℝ} {l e : List ℝ} (h : EntriesWithin d l e) (m : ℝ) (hm : IsLargest l m) : ∃ m', IsLargest e m' ∧ |m - m'| ≤ d := by
  obtain ⟨h1, h2⟩ := within_values h
  obtain ⟨y, hy, hd⟩ := h2 m hm.1
  obtain ⟨m', hm'⟩ := largest_of_mem e y hy
  refine ⟨m', hm', ?_⟩
  obtain ⟨x, hx, hd'⟩ := h1 m' hm'.1
  have a1 := hm.2 x hx
  have a2 := hm'.2 y hy
  rw [abs_le] at *
  constructor <;> linarith [hd.1, hd.2, hd'.1, hd'.2]

theorem within_smallest {d : ℝ} {l e : List ℝ} (h : EntriesWithin d l e) (m : ℝ) (hm : IsSmallest l m) : ∃ m', IsSmallest e m' ∧ |m - m'| ≤ d := by
  obtain ⟨h1, h2⟩ := within_values h
  obtain ⟨y, hy, hd⟩ := h2 m hm.1
  obtain ⟨m', hm'⟩ := (PolyLim.exists_extremes e y hy).2
  refine ⟨m', hm', ?_⟩
  obtain ⟨x, hx, hd'⟩ := h1 m' hm'.1
  have a1 := hm.2 x hx
  have a2 := hm'.2 y hy
  rw [abs_le] at *
  constructor <;> linarith [hd.1, hd.2, hd'.1, hd'.2]

/-- The ends of spectra that are near other spectra, by a distance which is small when those are bounded. -/
theorem ends_within (P : ℕ → Measure Ω) (L V : ℕ → Ω → List ℝ) (a : ℕ → ℝ) (hscale : ∀ᶠ n in atTop, 0 < a n) (h : SpectrumEnds P L a)
    (hV : ∀ n ω, (V n ω).length = n ∧ Ascending (V n ω)) (d : ℕ → Ω → ℝ) (hw : ∀ n ω, EntriesWithin (d n ω) (L n ω) (V n ω)) (κ : ℕ → ℝ) (hκ : Tendsto κ atTop (𝓝 0))
    (hd : ∀ n ω b, 0 < a n → 0 ≤ b → (∀ x ∈ L n ω, |x| ≤ b * a n) → d n ω ≤ κ n * b * a n) : SpectrumEnds P V a := by
  have hsm : ∀ b η : ℝ, 0 < η → ∀ᶠ n in atTop, κ n * b < η := by
    intro b η hη
    have := hκ.mul_const b
    rw [zero_mul] at this
    exact this.eventually_lt_const hη
  have hO : ∀ b > 2, ∃ r : ℝ, 0 < r ∧ r < 1 ∧ ∀ᶠ n : ℕ in atTop, P n {ω | ∃ x ∈ V n ω, b * a n ≤ |x|} ≤ ENNReal.ofReal (r ^ n) := by
    intro b hb
    obtain ⟨b', h2, hb'⟩ := exists_between hb
    obtain ⟨r, h0, h1, hr⟩ := h.outside b' h2
    refine ⟨r, h0, h1, ?_⟩
    filter_upwards [hr, hsm b' (b - b') (by linarith), hscale] with n hn hk han
    refine (measure_mono fun ω hω => ?_).trans hn
    obtain ⟨y, hy, hle⟩ := hω
    by_contra hcon
    simp only [mem_ofPred_eq] at hcon
    push Not at hcon
    have h3 := hd n ω b' han (by linarith) fun x hx => (hcon x hx).le
    obtain ⟨x, hx, hxy⟩ := (within_values (hw n ω)).1 y hy
    have h4 := hcon x hx
    have h5 : |y| ≤ |x| + |x - y| := by
      have := abs_sub_abs_le_abs_sub y x
      rw [abs_sub_comm] at this
      linarith
    have h6 := mul_lt_mul_of_pos_right hk han
    nlinarith
  have hbd : Tendsto (fun n => P n {ω | ∃ x ∈ L n ω, 3 * a n ≤ |x|}) atTop (𝓝 0) := outside_null h.outside 3 (by norm_num)
  have hL : ∀ ε > 0, Tendsto (fun n => P n {ω | ¬ ∃ m, IsLargest (V n ω) m ∧ |m / a n - 2| < ε}) atTop (𝓝 0) := by
    intro ε hε
    have t := (h.largest (ε / 2) (by positivity)).add hbd
    rw [add_zero] at t
    refine tendsto_of_tendsto_of_tendsto_of_le_of_le' tendsto_const_nhds t (Eventually.of_forall fun _ => zero_le) ?_
    filter_upwards [hscale, hsm 3 (ε / 2) (by positivity)] with n han hk
    refine (measure_mono fun ω hω => ?_).trans (measure_union_le _ _)
    by_contra hcon
    simp only [mem_union, mem_ofPred_eq, not_or, not_not] at hcon hω
    obtain ⟨⟨m, hm, hm2⟩, g⟩ := hcon
    push Not at hω g
    obtain ⟨m', hm', hdm⟩ := within_largest (hw n ω) m hm
    refine absurd (hω m' hm') (not_le.mpr ?_)
    have h3 := hd n ω 3 han (by norm_num) fun x hx => (g x hx).le
    have h4 : |m / a n - m' / a n| < ε / 2 := by
      rw [← sub_div, abs_div, abs_of_pos han, div_lt_iff₀ han]
      exact (hdm.trans h3).trans_lt (mul_lt_mul_of_pos_right hk han)
    rw [abs_lt] at *
    constructor <;> linarith [hm2.1, hm2.2, h4.1, h4.2]
  have hS : ∀ ε > 0, Tendsto (fun n => P n {ω | ¬ ∃ m, IsSmallest (V n ω) m ∧ |m / a n + 2| < ε}) atTop (𝓝 0) := by
    intro ε hε
    have t := (h.smallest (ε / 2) (by positivity)).add hbd
    rw [add_zero] at t
    refine tendsto_of_tendsto_of_tendsto_of_le_of_le' tendsto_const_nhds t (Eventually.of_forall fun _ => zero_le) ?_
    filter_upwards [hscale, hsm 3 (ε / 2) (by positivity)] with n han hk
    refine (measure_mono fun ω hω => ?_).trans (measure_union_le _ _)
    by_contra hcon
    simp only [mem_union, mem_ofPred_eq, not_or, not_not] at hcon hω
    obtain ⟨⟨m, hm, hm2⟩, g⟩ := hcon
    push Not at hω g
    obtain ⟨m', hm', hdm⟩ := within_smallest (hw n ω) m hm
    refine absurd (hω m' hm') (not_le.mpr ?_)
    have h3 := hd n ω 3 han (by norm_num) fun x hx => (g x hx).le
    have h4 : |m / a n - m' / a n| < ε / 2 := by
      rw [← sub_div, abs_div, abs_of_pos han, div_lt_iff₀ han]
      exact (hdm.trans h3).trans_lt (mul_lt_mul_of_pos_right hk han)
    rw [abs_lt] at *
    constructor <;> linarith [hm2.1, hm2.2, h4.1, h4.2]
  exact ⟨hO, hL, hS, spacing_of_ends P V a hscale hV hL hS⟩

theorem sum_sq_le (l : List ℝ) (B : ℝ) (h : ∀ x ∈ l, |x| ≤ B) : (l.map (· ^ 2)).sum ≤ l.length * B ^ 2 := by
  induction l with
  | nil => simp
  | cons x l ih =>
    have h1 := ih fun y hy => h y (List.mem_cons_of_mem _ hy)
    have h2 := h x List.mem_cons_self
    have h3 := sq_le_sq' (by linarith [abs_nonneg x, neg_abs_le x]) ((le_abs_self x).trans h2)
    simp only [List.map_cons, List.sum_cons, List.length_cons, Nat.cast_add, Nat.cast_one]
    linarith

theorem error_le (n : ℕ) (l : List ℝ) (hl : l.length = n) (f c δ B : ℝ) (hf : 0 ≤ f) (hf2 : f ^ 2 = (l.map (· ^ 2)).sum) (hδ : δ ≤ c * f) (hB : 0 ≤ B) (h : ∀ x ∈ l, |x| ≤ B) :
    δ ≤ |c * √n| * B := by
  have h1 := sum_sq_le l B h
  rw [← hf2, hl] at h1
  have h2 : f ≤ √n * B := by
    refine le_of_sq_le_sq ?_ (by positivity)
    rw [mul_pow, Real.sq_sqrt (by positivity)]
    exact h1
  have h3 : c * f ≤ |c| * (√n * B) := (mul_le_mul_of_nonneg_right (le_abs_self c) hf).trans (mul_le_mul_of_nonneg_left h2 (abs_nonneg c))
  rw [abs_mul, abs_of_nonneg (Real.sqrt_nonneg _)]
  linarith

theorem backward_within (eh : EigSolver) (δ : (n : ℕ) → Matrix (Fin n) (Fin n) ℝ → ℝ) (h : BackwardStable eh δ) (n : ℕ) (M : Matrix (Fin n) (Fin n) ℝ) (hM : M.IsSymm) :
    EntriesWithin (δ n M) (npSort (exactRoutine n M)) (npSort (eh n M)) := by
  obtain ⟨M', hM', hf, e⟩ := h n M hM
  exact weyl hM hM' hf _ _ (sorted_roots M) (by rw [Multiset.coe_eq_coe.mpr (npSort_perm _), e]) (npSort_ascending _) (npSort_ascending _)

theorem backward_withinC (ehC : (n : ℕ) → Matrix (Fin n) (Fin n) ℂ → List ℝ) (δ : (n : ℕ) → Matrix (Fin n) (Fin n) ℂ → ℝ) (h : BackwardStableC ehC δ) (n : ℕ) (M : Matrix (Fin n) (Fin n) ℂ) (hM : M.IsHermitian) :
    EntriesWithin (δ n M) (npSort (exactHermitian n M)) (npSort (ehC n M)) := by
  obtain ⟨M', hM', hf, e⟩ := h n M hM
  exact weylC hM hM' hf _ _ (sorted_rootsC exactHermitian _ _ (exactHermitian_exact n M hM)) (sorted_rootsC ehC _ _ e) (npSort_ascending _) (npSort_ascending _)

theorem scale_sqrt : ∀ᶠ n : ℕ in atTop, 0 < √(n : ℝ) := by
  filter_upwards [eventually_gt_atTop 0] with n hn
  exact Real.sqrt_pos.mpr (by exact_mod_cast hn)

theorem real_ends (P : ℕ → Measure Ω) (eh : EigSolver) (δ : (n : ℕ) → Matrix (Fin n) (Fin n) ℝ → ℝ) (hs : BackwardStable eh δ) (c : ℕ → ℝ) (hδ : RelativeError δ c) (hc : Tendsto (fun n : ℕ => c n * √n) atTop (𝓝 0))
    (M : (n : ℕ) → Ω → Matrix (Fin n) (Fin n) ℝ) (hM : ∀ n ω, (M n ω).IsSymm) (a : ℕ → ℝ) (ha : ∀ᶠ n in atTop, 0 < a n) (h : SpectrumEnds P (fun n ω => npSort (exactRoutine n (M n ω))) a) :
    SpectrumEnds P (fun n ω => npSort (eh n (M n ω))) a := by
  have hlen : ∀ n ω, (npSort (exactRoutine n (M n ω))).length = n := fun n ω => by
    have := Multiset.coe_card (npSort (exactRoutine n (M n ω)))
    rw [← this, show ((npSort (exactRoutine n (M n ω)) : List ℝ) : Multiset ℝ) = _ from sorted_roots (M n ω), (hermitian_of_symm (hM n ω)).roots_charpoly_eq_eigenvalues]
    simp
  refine ends_within P _ _ a ha h (fun n ω => ⟨?_, npSort_ascending _⟩) (fun n ω => δ n (M n ω)) (fun n ω => backward_within eh δ hs n _ (hM n ω)) (fun n => |c n * √n|) (by simpa using hc.abs) fun n ω b han hb hx => ?_
  · rw [← (backward_within eh δ hs n _ (hM n ω)).length_eq]
    exact hlen n ω
  · have := error_le n _ (hlen n ω) (frobenius (M n ω)) (c n) (δ n (M n ω)) (b * a n) (Real.sqrt_nonneg _) (frob_vals _ (hM n ω) _ (sorted_roots _)) (hδ n _ (hM n ω)) (by positivity) hx
    rw [mul_assoc]
    exact this

/-- **C186 (GOE).** C184 with a real eigenvalue routine: let the routine used by `generate(n, "goe")` be backward stable with a relative error `c n` on `n × n` matrices such that `c n √n` tends to 0. Then the computed spectrum ends at `±2√n`
too: a level outside `[-b√n, b√n]`, `b > 2`, has an exponentially small probability, the largest and the smallest level divided by `√n` tend to 2 and -2 in probability, and the mean spacing times `√n` to 4. -/
theorem C186_goe (R : Rng σ) (eh : EigSolver) (ehC : (n : Nat) → Matrix (Fin n) (Fin n) ℂ → List ℝ) (δ : (n : ℕ) → Matrix (Fin n) (Fin n) ℝ → ℝ) (hs : BackwardStable eh δ)
    (c : ℕ → ℝ) (hδ : RelativeError δ c) (hc : Tendsto (fun n : ℕ => c n * √n) atTop (𝓝 0))
    (P : ℕ → Measure Ω) [∀ n, IsProbabilityMeasure (P n)] (e s : ℕ → Ω → σ) (hX : ∀ n, NormalDraws (P n) fun k ω => draw R (s n ω) k) :
    ∃ vals : ℕ → Ω → List ℝ, (∀ n, GeneratedVals R eh ehC n .goe false (e n) (s n) (vals n)) ∧ SpectrumEnds P vals (fun n => √n) := by
  refine ⟨fun n ω => npSort (eh n (goeMatrix R n none false (s n ω)).1), fun n ω => (C49_values R eh ehC n none false (e n ω) (s n ω)).1, ?_⟩
  refine real_ends P eh δ hs c hδ hc _ (fun n ω => (C49_symmetric R n none false (s n ω)).1) _ scale_sqrt ?_
  have := full_ends exactRoutine exactRoutine_exact P _ hX
  simp only [goe_full_draws]
  exact this

/-- **C186 (tridiagonal).** The same with `use_tridiagonal`, where the spectrum ends at `±2√(n/2)`. -/
theorem C186_tridiagonal (R : Rng σ) (eh : EigSolver) (ehC : (n : Nat) → Matrix (Fin n) (Fin n) ℂ → List ℝ) (δ : (n : ℕ) → Matrix (Fin n) (Fin n) ℝ → ℝ) (hs : BackwardStable eh δ)
    (c : ℕ → ℝ) (hδ : RelativeError δ c) (hc : Tendsto (fun n : ℕ => c n * √n) atTop (𝓝 0))
    (P : Nat → Measure Ω) [∀ n, IsProbabilityMeasure (P n)] (e s : Nat → Ω → σ)
    (hC : ∀ n > 500, ChiSquareDraws (P n) (n - 1) fun k ω => chiDraws R n (s n ω) k) (hZ : ∀ n > 500, NormalDraws (P n) fun k ω => diagDraws R n (s n ω) k)
    (hi : ∀ n > 500, IndepFun (fun ω => chiDraws R n (s n ω)) (fun ω => diagDraws R n (s n ω)) (P n)) :
    ∃ vals : ℕ → Ω → List ℝ, (∀ n, GeneratedVals R eh ehC n .goe true (e n) (s n) (vals n)) ∧ SpectrumEnds P vals (fun n => √(n / 2)) := by
  refine ⟨fun n ω => npSort (eh n (goeMatrix R n none true (s n ω)).1), fun n ω => (C49_values R eh ehC n none true (e n ω) (s n ω)).1, ?_⟩
  refine real_ends P eh δ hs c hδ hc _ (fun n ω => (C49_symmetric R n none true (s n ω)).1) _ ?_ (tri_ends R exactRoutine exactRoutine_exact P s hC hZ hi)
  filter_upwards [eventually_gt_atTop 0] with n hn
  have : (0 : ℝ) < n := by exact_mod_cast hn
  positivity

/-- **C186 (GUE).** The same for `generate(n, "gue")`, with a routine that is backward stable on complex Hermitian matrices. -/
theorem C186_gue (R : Rng σ) (eh : EigSolver) (ehC : (n : Nat) → Matrix (Fin n) (Fin n) ℂ → List ℝ) (δ : (n : ℕ) → Matrix (Fin n) (Fin n) ℂ → ℝ) (hs : BackwardStableC ehC δ)
    (c : ℕ → ℝ) (hδ : RelativeErrorC δ c) (hc : Tendsto (fun n : ℕ => c n * √n) atTop (𝓝 0))
    (P : ℕ → Measure Ω) [∀ n, IsProbabilityMeasure (P n)] (e s : ℕ → Ω → σ) (hX : ∀ n, NormalDraws (P n) fun k ω => draw R (s n ω) k) (tri : Bool) :
    ∃ vals : ℕ → Ω → List ℝ, (∀ n, GeneratedVals R eh ehC n .gue tri (e n) (s n) (vals n)) ∧ SpectrumEnds P vals (fun n => √n) := by
  refine ⟨fun n ω => npSort (ehC n (generateGUE R n none (s n ω)).1), fun n ω => (C49_values R eh ehC n none tri (e n ω) (s n ω)).2.1, ?_⟩
  have hM : ∀ n ω, (generateGUE R n none (s n ω)).1.IsHermitian := fun n ω => (C49_symmetric R n none tri (s n ω)).2
  set M : (n : ℕ) → Ω → Matrix (Fin n) (Fin n) ℂ := fun n ω => (generateGUE R n none (s n ω)).1 with hMd
  have hr := fun n ω => sorted_rootsC exactHermitian _ _ (exactHermitian_exact n _ (hM n ω))
  have hlen : ∀ n ω, (npSort (exactHermitian n (M n ω))).length = n := fun n ω => (countLE_cntC (hM n ω) _ (hr n ω) 0).1
  have h : SpectrumEnds P (fun n ω => npSort (exactHermitian n (M n ω))) (fun n => √n) := by
    have := gue_ends exactHermitian exactHermitian_exact P _ hX
    simp only [hMd, gue_draws]
    exact this
  refine ends_within P _ _ _ scale_sqrt h (fun n ω => ⟨?_, npSort_ascending _⟩) (fun n ω => δ n (M n ω)) (fun n ω => backward_withinC ehC δ hs n _ (hM n ω)) (fun n => |c n * √n|) (by simpa using hc.abs) fun n ω b han hb hx => ?_
  · rw [← (backward_withinC ehC δ hs n _ (hM n ω)).length_eq]
    exact hlen n ω
  · have := error_le n _ (hlen n ω) (frobeniusC (M n ω)) (c n) (δ n (M n ω)) (b * √n) (Real.sqrt_nonneg _) (frobC_vals _ (hM n ω) _ (hr n ω)) (hδ n _ (hM n ω)) (by positivity) hx
    rw [mul_assoc]
    exact this

/-! ## Noise -/

section Noise
variable {P : ℕ → Measure Ω} [∀ n, IsProbabilityMeasure (P n)]

theorem countGT_pos (l : List ℝ) (a : ℝ) : 0 < countGT l a ↔ ∃ x ∈ l, a < x := by
  rw [countGT, ← List.countP_eq_length_filter, List.countP_pos_iff]
  simp

theorem cnt_anti {m : ℕ} (M : Matrix (Fin m) (Fin m) ℝ) {x y : ℝ} (h : x ≤ y) : cnt M y ≤ cnt M x := by
  rw [cnt, cnt]
  conv_lhs => rw [← sorted_roots M]
  conv_rhs => rw [← sorted_roots M]
  rw [← countGT_eq, ← countGT_eq]
  exact countGT_anti _ h

/-- The upper edge of values whose counts are near those of the eigenvalues. -/
theorem upperEdge_within (Z : ℕ → ℕ → Ω → ℝ) (hZ : ∀ n, NormalDraws (P n) (Z n)) (N T : ℕ → ℕ) (hT2 : ∀ n, 2 ≤ T n)
    (hN : Tendsto N atTop atTop) (hT : Tendsto T atTop atTop) (q : ℝ) (hq : 0 < q) (hr : Tendsto (fun n => (N n : ℝ) / T n) atTop (𝓝 q)) (cov : Bool) (vals : ℕ → Ω → List ℝ)
    (h : ∀ a η : ℝ, 0 < η → η < a → Tendsto (fun n => P n {ω | ¬ (cnt (wantedMatrix (noise (Z n) (N n) (T n) ω) cov) (a + η) ≤ countGT (vals n ω) a ∧
      countGT (vals n ω) a ≤ cnt (wantedMatrix (noise (Z n) (N n) (T n) ω) cov) (a - η))}) atTop (𝓝 0)) : UpperEdge P vals ((1 + √q) ^ 2) := by
  have hs : 0 < √q := sqrt_pos.mpr hq
  have hu0 : 0 < (1 + √q) ^ 2 := by positivity
  have hbey : ∀ b > (1 + √q) ^ 2, Tendsto (fun n => P n {ω | ∃ x ∈ vals n ω, b ≤ x}) atTop (𝓝 0) := by
    intro b hb
    set η := (b - (1 + √q) ^ 2) / 4 with hη
    have hη0 : 0 < η := by rw [hη]; linarith
    have t := (h (b - η) η hη0 (by linarith)).add (Edge.wanted_edge Z hZ N T hT2 hN hT q hq hr cov (b - η - η) (by linarith))
    rw [add_zero] at t
    refine tendsto_of_tendsto_of_tendsto_of_le_of_le tendsto_const_nhds t (fun _ => zero_le) fun n => (measure_mono fun ω hω => ?_).trans (measure_union_le _ _)
    obtain ⟨x, hx, hle⟩ := hω
    by_contra hcon
    simp only [mem_union, not_or, mem_ofPred_eq, not_not, not_lt] at hcon
    obtain ⟨g1, g2⟩ := hcon
    have h2 : 0 < countGT (vals n ω) (b - η) := (countGT_pos _ _).mpr ⟨x, hx, by linarith⟩
    have := g1.2
    omega
  refine ⟨hbey, fun ε hε => ?_⟩
  set a := max ((1 + √q) ^ 2 - ε) ((1 + √q) ^ 2 / 2) with ha
  have ha0 : 0 < a := lt_max_of_lt_right (by positivity)
  have hau : a < (1 + √q) ^ 2 := max_lt (by linarith) (by linarith)
  set η := min (((1 + √q) ^ 2 - a) / 2) (a / 2) with hη
  have hη0 : 0 < η := lt_min (by linarith) (by linarith)
  have hη1 : η ≤ ((1 + √q) ^ 2 - a) / 2 := min_le_left _ _
  have hη2 : η ≤ a / 2 := min_le_right _ _
  have t := ((h a η hη0 (by linarith)).add (Edge.near_upper Z hZ N T hT2 hN hT q hq hr cov (a + η) (by linarith) (by linarith))).add (hbey ((1 + √q) ^ 2 + ε) (by linarith))
  rw [add_zero, add_zero] at t
  refine tendsto_of_tendsto_of_tendsto_of_le_of_le tendsto_const_nhds t (fun _ => zero_le) fun n => (measure_mono fun ω hω => ?_).trans ((measure_union_le _ _).trans (add_le_add_left (measure_union_le _ _) _))
  by_contra hcon
  simp only [mem_union, not_or, mem_ofPred_eq, not_not] at hcon hω
  obtain ⟨⟨g1, g2⟩, g3⟩ := hcon
  push Not at g3 hω
  have h2 : 0 < countGT (vals n ω) a := by
    have := g1.1
    omega
  obtain ⟨x, hx, b3⟩ := (countGT_pos _ _).mp h2
  obtain ⟨m, hm⟩ := largest_of_mem _ x hx
  refine absurd (hω m hm) (not_le.mpr ?_)
  have b1 := hm.2 x hx
  have b2 := g3 m hm.1
  have b4 := le_max_left ((1 + √q) ^ 2 - ε) ((1 + √q) ^ 2 / 2)
  exact abs_lt.mpr ⟨by linarith, by linarith⟩

/-- **C186 (noise).** C185 with a real eigenvalue routine: let `from_time_series` be given `N` series of `T` independent standard normal values each, with `N` and `T` growing and `N/T` tending to `q > 0`, and let the routine be backward
stable with a relative error `c n` on `n × n` matrices such that `c n √n` tends to 0. Then the computed values end at `(1 + √q)²` too, for correlations and for covariances, trimmed or not. -/
theorem C186_noise (eigvalsh : EigSolver) (δ : (n : ℕ) → Matrix (Fin n) (Fin n) ℝ → ℝ) (hs : BackwardStable eigvalsh δ)
    (c : ℕ → ℝ) (hδ : RelativeError δ c) (hc : Tendsto (fun n : ℕ => c n * √n) atTop (𝓝 0)) (float : String → Option ℝ) (Z : ℕ → ℕ → Ω → ℝ) (hZ : ∀ n, NormalDraws (P n) (Z n)) (N T : ℕ → ℕ)
    (hN2 : ∀ n, 2 ≤ N n) (hT2 : ∀ n, 2 ≤ T n) (hN : Tendsto N atTop atTop) (hT : Tendsto T atTop atTop) (q : ℝ) (hq : 0 < q) (hr : Tendsto (fun n => (N n : ℝ) / T n) atTop (𝓝 q))
    (cov tr : Bool) (s : ℕ → Ω → SeriesEigs)
    (h : ∀ n, ∀ᵐ ω ∂(P n), fromTimeSeries eigvalsh float (.dim2 (N n) (T n) (noise (Z n) (N n) (T n) ω)) cov tr (.str "negative") 1 = .ok (s n ω)) :
    UpperEdge P (fun n ω => (s n ω).obj.vals) ((1 + √q) ^ 2) := by
  refine upperEdge_within Z hZ N T hT2 hN hT q hq hr cov _ fun a η hη ha => ?_
  refine tendsto_of_tendsto_of_tendsto_of_le_of_le tendsto_const_nhds (series_error_small P δ c hδ hc Z hZ N T hN2 hT2 hN hT q hr cov η hη) (fun _ => zero_le) fun n => measure_mono_ae ?_
  filter_upwards [noise_nonconstant (N := N n) (P n) (Z n) (hZ n) (hT2 n), h n] with ω h1 h2 hω
  by_contra hcon
  have he : seriesError δ (noise (Z n) (N n) (T n) ω) cov ≤ η := not_lt.mp hcon
  have hw := series_within eigvalsh δ hs float _ cov (hT2 n) (fun _ => h1) tr _ h2 a (by linarith) (by linarith)
  exact hω ⟨(cnt_anti _ (by linarith)).trans hw.1, hw.2.trans (cnt_anti _ (by linarith))⟩

/-- **C186 (time_series_eigs).** The same for `time_series_eigs(n, t)`. -/
theorem C186_time_series (R : Rng σ) (eigvalsh : EigSolver) (δ : (n : ℕ) → Matrix (Fin n) (Fin n) ℝ → ℝ) (hs : BackwardStable eigvalsh δ)
    (c : ℕ → ℝ) (hδ : RelativeError δ c) (hc : Tendsto (fun n : ℕ => c n * √n) atTop (𝓝 0)) (s : ℕ → Ω → σ) (hX : ∀ n, NormalDraws (P n) fun k ω => draw R (s n ω) k) (N T : ℕ → ℕ)
    (hN2 : ∀ n, 2 ≤ N n) (hT2 : ∀ n, 2 ≤ T n) (hN : Tendsto N atTop atTop) (hT : Tendsto T atTop atTop) (q : ℝ) (hq : 0 < q) (hr : Tendsto (fun n => (N n : ℝ) / T n) atTop (𝓝 q)) :
    ∃ vals : ℕ → Ω → List ℝ, (∀ n ω, (timeSeriesEigs R eigvalsh (N n) (T n) "normal" (s n ω)).1 = .ok (vals n ω)) ∧ UpperEdge P vals ((1 + √q) ^ 2) := by
  set Z : ℕ → ℕ → Ω → ℝ := fun n k ω => draw R (s n ω) k with hZdef
  have hdata : ∀ n ω, (fun (i : Fin (N n)) (j : Fin (T n)) => (normals R (N n * T n) (s n ω)).1.getD (i.val * T n + j.val) 0 : Matrix (Fin (N n)) (Fin (T n)) ℝ) = noise (Z n) (N n) (T n) ω := by
    intro n ω
    funext i j
    have hlt : i.val * T n + j.val < N n * T n := by
      have := i.isLt
      have := j.isLt
      nlinarith
    rw [normals_draws]
    simp [noise, Z, List.getD, hlt]
  refine ⟨fun n ω => eigvalsh (N n) (corrMatrix (noise (Z n) (N n) (T n) ω)), fun n ω => ?_, ?_⟩
  · have h1 := hN2 n
    have h2 := hT2 n
    simp only [timeSeriesEigs, if_true, hdata, if_neg (show N n ≠ 1 by omega), correlateFast_eq _ 0 (show 0 < T n by omega)]
  · refine upperEdge_within Z hX N T hT2 hN hT q hq hr false _ fun a η hη ha => ?_
    have hd : Tendsto (fun n => c (N n) * √(N n)) atTop (𝓝 0) := hc.comp hN
    have ht := noise_error_small P Z hX N T hN2 hT2 hT q hr false (fun n => c (N n)) hd (fun n ω => δ (N n) (corrMatrix (noise (Z n) (N n) (T n) ω))) (fun n => Eventually.of_forall fun ω => ?_) η hη
    · refine tendsto_of_tendsto_of_tendsto_of_le_of_le tendsto_const_nhds ht (fun _ => zero_le) fun n => measure_mono fun ω hω => ?_
      by_contra hcon
      have he : δ (N n) (corrMatrix (noise (Z n) (N n) (T n) ω)) ≤ η := not_lt.mp hcon
      refine hω ?_
      have hw := countGT_within (backward_within eigvalsh δ hs (N n) _ (corrMatrix_isSymm (noise (Z n) (N n) (T n) ω))) a
      have e1 : countGT (npSort (eigvalsh (N n) (corrMatrix (noise (Z n) (N n) (T n) ω)))) a = countGT (eigvalsh (N n) (corrMatrix (noise (Z n) (N n) (T n) ω))) a := by
        rw [countGT_eq, countGT_eq, Multiset.coe_eq_coe.mpr (npSort_perm _)]
      have e2 : ∀ b, countGT (npSort (exactRoutine (N n) (corrMatrix (noise (Z n) (N n) (T n) ω)))) b = cnt (corrMatrix (noise (Z n) (N n) (T n) ω)) b := fun b => by
        rw [countGT_eq, cnt, show ((npSort (exactRoutine (N n) (corrMatrix (noise (Z n) (N n) (T n) ω))) : List ℝ) : Multiset ℝ) = _ from sorted_roots _]
      rw [e1, e2, e2] at hw
      simp only [wantedMatrix, Bool.false_eq_true, if_false]
      exact ⟨(cnt_anti _ (by linarith)).trans hw.1, hw.2.trans (cnt_anti _ (by linarith))⟩
    · simp only [wantedMatrix, Bool.false_eq_true, if_false]
      rw [← frob_sq _ (corrMatrix_isSymm _), Real.sqrt_sq (show 0 ≤ frobenius (corrMatrix (noise (Z n) (N n) (T n) ω)) from Real.sqrt_nonneg _)]
      exact hδ _ _ (corrMatrix_isSymm _)

/-- What `trim_marchenko_pastur` gives for an object made by `from_time_series`. -/
theorem trim_object (eigvalsh : EigSolver) (float : String → Option ℝ) {N T : ℕ} (X : Matrix (Fin N) (Fin T) ℝ) (hT : 2 ≤ T) (cov tr : Bool) (s : SeriesEigs)
    (h : fromTimeSeries eigvalsh float (.dim2 N T X) cov tr (.str "negative") 1 = .ok s) (largest shifted : Bool) :
    ∃ m, IsLargest s.obj.vals m ∧ ∃ o lo hi, trimMarchenkoPastur (some s.seriesN) (some s.seriesT) s.obj.vals none none largest shifted = .ok (o, lo, hi) ∧
      lo = (if shifted then 1 - m / N else 1) * (1 - √((N : ℝ) / T)) ^ 2 ∧ hi = (if shifted then 1 - m / N else 1) * (1 + √((N : ℝ) / T)) ^ 2 ∧
      (largest = true → o.vals = s.obj.vals.filter fun v => decide (hi < v)) ∧ (largest = false → o.vals = s.obj.vals.filter fun v => decide (lo < v ∧ v < hi)) := by
  have h' : fromSeries eigvalsh float X cov tr (.str "negative") = .ok s := by simpa [fromTimeSeries] using h
  obtain ⟨hsN, hsT⟩ := fromSeries_sizes _ _ _ _ _ _ _ h'
  obtain ⟨e, e', m0, -, -, hmax, hobj⟩ := (fromSeries_eq _ _ _ _ _ _ _).mp h'
  have hasc : Ascending s.obj.vals := by rw [hobj]; exact npSort_ascending _
  have hne : s.obj.vals ≠ [] := by
    intro hnil
    rw [hobj] at hnil
    have hp := (npSort_perm e').length_eq
    simp only [mkSeriesEigs] at hnil
    rw [hnil, List.length_nil] at hp
    have : e' = [] := List.eq_nil_of_length_eq_zero hp.symm
    rw [this] at hmax
    simp [npMax] at hmax
  obtain ⟨m, -, hm⟩ := npMax_ok hne
  exact ⟨m, ⟨hm.1, hm.2⟩, C41_trim (some s.seriesN) (some s.seriesT) s.obj.vals hasc none none largest shifted N T (by simp [sizeUsed, hsN]) (by simp [sizeUsed, hsT]) (by omega) m hm.1 hm.2⟩

/-- The number of values `from_time_series` returns. -/
theorem series_length_le (eigvalsh : EigSolver) (δ : (n : ℕ) → Matrix (Fin n) (Fin n) ℝ → ℝ) (hs : BackwardStable eigvalsh δ) (float : String → Option ℝ) {N T : ℕ} (X : Matrix (Fin N) (Fin T) ℝ) (cov : Bool)
    (hT : 2 ≤ T) (hc : cov = false → ∀ i, NonConstant (X i)) (tr : Bool) (s : SeriesEigs) (h : fromTimeSeries eigvalsh float (.dim2 N T X) cov tr (.str "negative") 1 = .ok s) :
    s.obj.vals.length ≤ min N T := by
  have h' : fromSeries eigvalsh float X cov tr (.str "negative") = .ok s := by simpa [fromTimeSeries] using h
  obtain ⟨e, e', m, h1, h2, h3, rfl⟩ := (fromSeries_eq _ _ _ _ _ _ _).mp h'
  obtain ⟨l, a1, a2, a3, a4⟩ := computed_close eigvalsh δ hs X cov hT hc e h1
  have hlen : e'.length ≤ e.length := by
    cases tr with
    | false =>
      simp only [Bool.false_eq_true, if_false, Except.ok.injEq] at h2
      rw [h2]
    | true =>
      simp only [if_true, trimZeros] at h2
      rw [if_neg (by decide)] at h2
      simp only [Except.ok.injEq] at h2
      rw [← h2]
      exact List.length_filter_le _ _
  have h4 := a4.length_eq
  rw [(npSort_perm _).length_eq] at h4
  have h5 := congrArg Multiset.card a3
  rw [(hermitian_of_symm (wantedMatrix_isSymm X cov)).roots_charpoly_eq_eigenvalues] at h5
  simp only [Multiset.coe_card, List.length_append, List.length_replicate, Multiset.card_map, Finset.card_val, Finset.card_univ, Fintype.card_fin] at h5
  simp only [mkSeriesEigs]
  rw [(npSort_perm _).length_eq]
  omega

/-- **C186 (trimming).** Under the hypotheses of C186 (noise), let `trim_marchenko_pastur` be called on the object `from_time_series` returned, without sizes, shifted or not. Almost surely it succeeds; its cut points tend in
probability to `(1 - √q)²` and `(1 + √q)²`; with `largest=True` the values kept are, with a probability tending to 1, all within `ε` of the upper cut point; and the number of values kept, divided by the number of series, tends in probability to 0 with `largest=True`
and to `min(1, 1/q)` with `largest=False`. -/
theorem C186_trim (eigvalsh : EigSolver) (δ : (n : ℕ) → Matrix (Fin n) (Fin n) ℝ → ℝ) (hs : BackwardStable eigvalsh δ)
    (c : ℕ → ℝ) (hδ : RelativeError δ c) (hc : Tendsto (fun n : ℕ => c n * √n) atTop (𝓝 0)) (float : String → Option ℝ) (Z : ℕ → ℕ → Ω → ℝ) (hZ : ∀ n, NormalDraws (P n) (Z n)) (N T : ℕ → ℕ)
    (hN2 : ∀ n, 2 ≤ N n) (hT2 : ∀ n, 2 ≤ T n) (hN : Tendsto N atTop atTop) (hT : Tendsto T atTop atTop) (q : ℝ) (hq : 0 < q) (hr : Tendsto (fun n => (N n : ℝ) / T n) atTop (𝓝 q))
    (cov tr : Bool) (s : ℕ → Ω → SeriesEigs)
    (h : ∀ n, ∀ᵐ ω ∂(P n), fromTimeSeries eigvalsh float (.dim2 (N n) (T n) (noise (Z n) (N n) (T n) ω)) cov tr (.str "negative") 1 = .ok (s n ω)) (largest shifted : Bool) :
    (∀ n, ∀ᵐ ω ∂(P n), ∃ r, trimMarchenkoPastur (some (s n ω).seriesN) (some (s n ω).seriesT) (s n ω).obj.vals none none largest shifted = .ok r) ∧
    ∀ r : ℕ → Ω → Obj ℝ × ℝ × ℝ, (∀ n, ∀ᵐ ω ∂(P n), trimMarchenkoPastur (some (s n ω).seriesN) (some (s n ω).seriesT) (s n ω).obj.vals none none largest shifted = .ok (r n ω)) →
      InProbability P (fun n ω => (r n ω).2.1) ((1 - √q) ^ 2) ∧ InProbability P (fun n ω => (r n ω).2.2) ((1 + √q) ^ 2) ∧
      (largest = true → ∀ ε > 0, Tendsto (fun n => P n {ω | ∃ v ∈ (r n ω).1.vals, (r n ω).2.2 + ε ≤ v}) atTop (𝓝 0)) ∧
      InProbability P (fun n ω => ((r n ω).1.vals.length : ℝ) / N n) (if largest then 0 else min 1 (1 / q)) := by
  have hq0 : 0 < √q := sqrt_pos.mpr hq
  have hedge := C186_noise eigvalsh δ hs c hδ hc float Z hZ N T hN2 hT2 hN hT q hq hr cov tr s h
  have key := fun n ω hω => trim_object eigvalsh float (noise (Z n) (N n) (T n) ω) (hT2 n) cov tr (s n ω) hω largest shifted
  refine ⟨fun n => (h n).mono fun ω hω => ?_, fun r hr' => ?_⟩
  · obtain ⟨m, -, o, lo, hi, h1, -⟩ := key n ω hω
    exact ⟨_, h1⟩
  have call : ∀ n, ∀ᵐ ω ∂(P n), ∃ m, IsLargest (s n ω).obj.vals m ∧ (r n ω).2.1 = (if shifted then 1 - m / N n else 1) * (1 - √((N n : ℝ) / T n)) ^ 2 ∧
      (r n ω).2.2 = (if shifted then 1 - m / N n else 1) * (1 + √((N n : ℝ) / T n)) ^ 2 ∧ (largest = true → (r n ω).1.vals = (s n ω).obj.vals.filter fun v => decide ((r n ω).2.2 < v)) ∧
      (largest = false → (r n ω).1.vals = (s n ω).obj.vals.filter fun v => decide ((r n ω).2.1 < v ∧ v < (r n ω).2.2)) ∧ (s n ω).obj.vals.length ≤ min (N n) (T n) := by
    intro n
    filter_upwards [h n, hr' n, noise_nonconstant (N := N n) (P n) (Z n) (hZ n) (hT2 n)] with ω h1 h2 h3
    obtain ⟨m, hm, o, lo, hi, h4, h5, h6, h7, h8⟩ := key n ω h1
    rw [h4] at h2
    rw [← Except.ok.inj h2]
    exact ⟨m, hm, h5, h6, h7, h8, series_length_le eigvalsh δ hs float _ cov (hT2 n) (fun _ => h3) tr _ h1⟩
  have hsr : Tendsto (fun n => √((N n : ℝ) / T n)) atTop (𝓝 (√q)) := hr.sqrt
  have cut : ∀ (f : ℕ → ℝ) (e : ℝ) (g : ℕ → Ω → ℝ), (∀ n, 0 ≤ f n) → Tendsto f atTop (𝓝 e) →
      (∀ n, ∀ᵐ ω ∂(P n), ∃ m, IsLargest (s n ω).obj.vals m ∧ g n ω = (if shifted then 1 - m / N n else 1) * f n) → InProbability P g e := by
    intro f e g hf0 hf hg ε hε
    have he0 : 0 ≤ e := ge_of_tendsto' hf hf0
    set u := (1 + √q) ^ 2 with hu
    have hu0 : 0 < u := by positivity
    have nul := ae_event (P := P) (fun n => {ω | ¬ ∃ m, IsLargest (s n ω).obj.vals m ∧ g n ω = (if shifted then 1 - m / N n else 1) * f n}) fun n => by
      filter_upwards [hg n] with ω hω
      exact not_not.mpr hω
    have t := nul.add (hedge.largest 1 one_pos)
    rw [add_zero] at t
    have ev1 : ∀ᶠ n in atTop, |f n - e| < min 1 (ε / 2) := by
      have := Metric.tendsto_nhds.mp hf (min 1 (ε / 2)) (by positivity)
      simpa [Real.dist_eq] using this
    have ev2 : ∀ᶠ n in atTop, (u + 1) / N n * (e + 1) < ε / 2 := by
      have h1 : Tendsto (fun n => (u + 1) / (N n : ℝ) * (e + 1)) atTop (𝓝 (0 * (e + 1))) := ((tendsto_natCast_atTop_atTop.comp hN).const_div_atTop (u + 1)).mul_const _
      rw [zero_mul] at h1
      exact h1.eventually_lt_const (by positivity)
    refine tendsto_of_tendsto_of_tendsto_of_le_of_le' tendsto_const_nhds t (Eventually.of_forall fun _ => zero_le) ?_
    filter_upwards [ev1, ev2] with n g1 g2
    refine (measure_mono fun ω hω => ?_).trans (measure_union_le _ _)
    by_contra hcon
    simp only [mem_union, not_or, mem_ofPred_eq, not_not] at hcon hω
    obtain ⟨⟨m, hm, hgm⟩, m', hm', hme⟩ := hcon
    have hmm : m = m' := le_antisymm (hm'.2 m hm.1) (hm.2 m' hm'.1)
    subst hmm
    have hNp : (0 : ℝ) < N n := by exact_mod_cast (by have := hN2 n; omega : 0 < N n)
    have hf1 : f n ≤ e + 1 := by
      have := abs_lt.mp (g1.trans_le (min_le_left _ _))
      linarith [this.2]
    have hm1 : |m / N n| ≤ (u + 1) / N n := by
      rw [abs_div, abs_of_pos hNp]
      refine div_le_div_of_nonneg_right ?_ hNp.le
      have := abs_lt.mp hme
      rw [abs_le]
      constructor <;> linarith [this.1, this.2]
    have hdiff : |g n ω - f n| ≤ (u + 1) / N n * (e + 1) := by
      have hp : 0 ≤ (u + 1) / (N n : ℝ) := by positivity
      rw [hgm]
      split_ifs
      · rw [show (1 - m / N n) * f n - f n = -(m / N n * f n) by ring, abs_neg, abs_mul, abs_of_nonneg (hf0 n)]
        exact mul_le_mul hm1 hf1 (hf0 n) hp
      · rw [one_mul, sub_self, abs_zero]
        positivity
    have h2 := abs_sub_le (g n ω) (f n) e
    have h3 := g1.trans_le (min_le_right _ _)
    linarith
  have hlo : InProbability P (fun n ω => (r n ω).2.1) ((1 - √q) ^ 2) := cut (fun n => (1 - √((N n : ℝ) / T n)) ^ 2) _ _ (fun n => sq_nonneg _) ((tendsto_const_nhds.sub hsr).pow 2) fun n =>
    (call n).mono fun ω ⟨m, h1, h2, _⟩ => ⟨m, h1, h2⟩
  have hhi : InProbability P (fun n ω => (r n ω).2.2) ((1 + √q) ^ 2) := cut (fun n => (1 + √((N n : ℝ) / T n)) ^ 2) _ _ (fun n => sq_nonneg _) ((tendsto_const_nhds.add hsr).pow 2) fun n =>
    (call n).mono fun ω ⟨m, h1, _, h2, _⟩ => ⟨m, h1, h2⟩
  have nul := ae_event (P := P) (fun n => {ω | ¬ ((largest = true → (r n ω).1.vals = (s n ω).obj.vals.filter fun v => decide ((r n ω).2.2 < v)) ∧
      (largest = false → (r n ω).1.vals = (s n ω).obj.vals.filter fun v => decide ((r n ω).2.1 < v ∧ v < (r n ω).2.2)) ∧ (s n ω).obj.vals.length ≤ min (N n) (T n))}) fun n => by
    filter_upwards [call n] with ω ⟨m, _, _, _, hω⟩
    exact not_not.mpr hω
  refine ⟨hlo, hhi, fun hl ε hε => ?_, ?_⟩
  · have hb := hedge.beyond ((1 + √q) ^ 2 + ε / 2) (by linarith)
    have t := (nul.add (hhi (ε / 2) (by linarith))).add hb
    rw [add_zero, add_zero] at t
    refine tendsto_of_tendsto_of_tendsto_of_le_of_le tendsto_const_nhds t (fun _ => zero_le) fun n => (measure_mono fun ω hω => ?_).trans ((measure_union_le _ _).trans (add_le_add_left (measure_union_le _ _) _))
    obtain ⟨v, hv, hle⟩ := hω
    by_contra hcon
    simp only [mem_union, not_or, mem_ofPred_eq, not_not, not_le] at hcon
    obtain ⟨⟨g1, g2⟩, g3⟩ := hcon
    push Not at g3
    rw [g1.1 hl] at hv
    have h1 := g3 v (List.mem_filter.mp hv).1
    have h2 := abs_lt.mp g2
    linarith [h2.1]
  · intro ε hε
    obtain ⟨b, d, hb, hd0, hd, hb0, htb, htd⟩ := near_edges q hq (ε / 4) (by positivity)
    have law := fun a ha => C154_noise P eigvalsh δ hs c hδ hc float Z hZ N T hN2 hT2 hN hT q hq hr cov tr s h a ha (ε / 4) (by positivity)
    have t := (((nul.add (hlo (b - (1 - √q) ^ 2) (by linarith))).add (hhi ((1 + √q) ^ 2 - d) (by linarith))).add (law b hb0)).add (law d hd0)
    simp only [add_zero] at t
    have ev : ∀ᶠ n in atTop, min 1 ((T n : ℝ) / N n) < min 1 (1 / q) + ε := by
      have h1 : Tendsto (fun n => min 1 ((T n : ℝ) / N n)) atTop (𝓝 (min 1 (1 / q))) := by
        have := (tendsto_const_nhds (x := (1 : ℝ))).min (hr.inv₀ hq.ne')
        simpa [inv_div, one_div] using this
      exact h1.eventually_lt_const (by linarith)
    refine tendsto_of_tendsto_of_tendsto_of_le_of_le' tendsto_const_nhds t (Eventually.of_forall fun _ => zero_le) ?_
    filter_upwards [ev] with n hn
    refine (measure_mono (fun ω hω => ?_)).trans ((measure_union_le _ _).trans (add_le_add_left ((measure_union_le _ _).trans (add_le_add_left ((measure_union_le _ _).trans (add_le_add_left (measure_union_le _ _) _)) _)) _))
    by_contra hcon
    simp only [mem_union, not_or, mem_ofPred_eq, not_not, not_le] at hcon hω
    obtain ⟨⟨⟨⟨⟨g0, g1, g2⟩, g3⟩, g4⟩, g5⟩, g6⟩ := hcon
    refine absurd hω (not_le.mpr ?_)
    have hNp : (0 : ℝ) < N n := by exact_mod_cast (by have := hN2 n; omega : 0 < N n)
    have hlob : (r n ω).2.1 < b := by
      have := (abs_lt.mp g3).2
      linarith
    have hhid : d < (r n ω).2.2 := by
      have := (abs_lt.mp g4).1
      linarith
    have t5 := abs_lt.mp g5
    have t6 := abs_lt.mp g6
    have htd' : ∫ x in Ioi d, mpDensity q x < ε / 4 := htd
    have htb' : min 1 (1 / q) - ε / 4 < ∫ x in Ioi b, mpDensity q x := htb
    generalize (r n ω).2.1 = lo at *
    generalize (r n ω).2.2 = hi at *
    generalize (s n ω).obj.vals = l at *
    cases hl : largest
    · simp only [Bool.false_eq_true, if_false]
      rw [g1 hl]
      have u1 : (l.filter fun v => decide (lo < v ∧ v < hi)).length ≤ min (N n) (T n) := (List.length_filter_le _ _).trans g2
      have u2 : countGT l b ≤ (l.filter fun v => decide (lo < v ∧ v < hi)).length + countGT l d := by
        simp only [countGT, ← List.countP_eq_length_filter]
        clear g0 g1 g2 t5 t6 g5 g6 u1
        induction l with
        | nil => simp
        | cons x l ih =>
          simp only [List.countP_cons, decide_eq_true_eq]
          by_cases h1 : b < x
          · by_cases h2 : x < hi
            · rw [if_pos h1, if_pos (show lo < x ∧ x < hi from ⟨hlob.trans h1, h2⟩)]
              omega
            · rw [if_pos h1, if_pos (show d < x by linarith)]
              omega
          · rw [if_neg h1]
            omega
      have v1 : ((l.filter fun v => decide (lo < v ∧ v < hi)).length : ℝ) / N n ≤ min 1 ((T n : ℝ) / N n) := by
        have h1 : ((l.filter fun v => decide (lo < v ∧ v < hi)).length : ℝ) ≤ min (N n : ℝ) (T n) := by exact_mod_cast u1
        refine le_min ?_ (div_le_div_of_nonneg_right (h1.trans (min_le_right _ _)) hNp.le)
        rw [div_le_one hNp]
        exact h1.trans (min_le_left _ _)
      have v2 : (countGT l b : ℝ) / N n ≤ ((l.filter fun v => decide (lo < v ∧ v < hi)).length : ℝ) / N n + (countGT l d : ℝ) / N n := by
        rw [← add_div]
        refine div_le_div_of_nonneg_right ?_ hNp.le
        exact_mod_cast u2
      generalize ((l.filter fun v => decide (lo < v ∧ v < hi)).length : ℝ) / N n = K at *
      rw [abs_lt]
      constructor <;> linarith [t5.1, t5.2, t6.1, t6.2]
    · simp only [if_true, sub_zero]
      rw [g0 hl]
      have u1 : (l.filter fun v => decide (hi < v)).length ≤ countGT l d := by
        simp only [countGT]
        refine (List.monotone_filter_right _ fun v hv => ?_).length_le
        simp only [decide_eq_true_eq] at hv ⊢
        exact hhid.trans hv
      have v1 : ((l.filter fun v => decide (hi < v)).length : ℝ) / N n ≤ (countGT l d : ℝ) / N n := by
        refine div_le_div_of_nonneg_right ?_ hNp.le
        exact_mod_cast u1
      rw [abs_of_nonneg (by positivity)]
      linarith [t6.2]

end Noise

-- C186: a routine that is not exact, for GOE spectra and for correlations of noise
example : ∃ (eh : EigSolver) (δ : (n : ℕ) → Matrix (Fin n) (Fin n) ℝ → ℝ) (c : ℕ → ℝ), BackwardStable eh δ ∧ RelativeError δ c ∧ Tendsto (fun n : ℕ => c n * √n) atTop (𝓝 0) ∧ ¬ ExactSolver eh ∧
    (∃ vals : Nat → (ℕ → ℝ) → List ℝ, (∀ n, GeneratedVals streamRng eh (fun _ _ => []) n .goe false id id (vals n)) ∧
      SpectrumEnds (fun _ => Measure.infinitePi fun _ : ℕ => gaussianReal 0 1) vals (fun n => √n)) ∧
    ∃ s : ℕ → (ℕ → ℝ) → SeriesEigs,
      (∀ n, ∀ᵐ ω ∂(Measure.infinitePi fun _ : ℕ => gaussianReal 0 1), fromTimeSeries eh (fun _ => none) (.dim2 (n + 2) (n + 2) (noise (fun k (ω : ℕ → ℝ) => draw streamRng ω k) (n + 2) (n + 2) ω)) false false (.str "negative") 1 = .ok (s n ω)) ∧
      UpperEdge (fun _ => Measure.infinitePi fun _ : ℕ => gaussianReal 0 1) (fun n ω => (s n ω).obj.vals) ((1 + √1) ^ 2) := by
  refine ⟨relativeSolver, _, _, relativeSolver_stable, relativeSolver_error, relative_vanishes, relative_inexact, ?_, ?_⟩
  · exact C186_goe streamRng relativeSolver (fun _ _ => []) _ relativeSolver_stable _ relativeSolver_error relative_vanishes (fun _ => Measure.infinitePi fun _ : ℕ => gaussianReal 0 1) (fun _ => id) (fun _ => id)
      fun _ => stream_draws
  have hex := relative_series
  choose s hs using hex
  have hN : Tendsto (fun n : ℕ => n + 2) atTop atTop := tendsto_add_atTop_nat 2
  have hr : Tendsto (fun n : ℕ => ((n + 2 : ℕ) : ℝ) / ((n + 2 : ℕ) : ℝ)) atTop (𝓝 1) := tendsto_const_nhds.congr fun n => by
    rw [div_self]
    positivity
  have h := fun n : ℕ => Eventually.of_forall (f := ae (Measure.infinitePi fun _ : ℕ => gaussianReal 0 1)) fun ω : ℕ → ℝ => hs n (noise (fun k (ω : ℕ → ℝ) => draw streamRng ω k) (n + 2) (n + 2) ω)
  exact ⟨fun n ω => s n _, h, C186_noise (P := fun _ => Measure.infinitePi fun _ : ℕ => gaussianReal 0 1) relativeSolver _ relativeSolver_stable _ relativeSolver_error relative_vanishes (fun _ => none)
    (fun _ k (ω : ℕ → ℝ) => draw streamRng ω k) (fun _ => stream_draws) (fun n => n + 2) (fun n => n + 2) (fun n => by omega) (fun n => by omega) hN hN 1 one_pos hr false false _ h⟩

end Props
end RMT
