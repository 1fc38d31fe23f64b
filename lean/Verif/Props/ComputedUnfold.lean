import Verif.Props.ComputedEdges
import Verif.Props.PolyUniform

/-! # C192: polynomial unfolding of computed spectra -/

namespace RMT
namespace Props
open Gen EigValsM EigM Unfold Smooth MeasureTheory ProbabilityTheory Spec Gauss Inertia Semi Weyl Helpers
open Real Set Filter Topology

variable {σ Ω : Type} [MeasurableSpace Ω]

theorem pow_near (u v δ : ℝ) (hu : |u| ≤ 4) (hv : |v| ≤ 4) (h : |u - v| ≤ δ) : ∀ k : ℕ, |u ^ k - v ^ k| ≤ k * 4 ^ k * δ
  | 0 => by simp
  | k + 1 => by
    have ih := pow_near u v δ hu hv h k
    have hδ : 0 ≤ δ := (abs_nonneg _).trans h
    have e : u ^ (k + 1) - v ^ (k + 1) = u * (u ^ k - v ^ k) + (u - v) * v ^ k := by ring
    have h1 : |u * (u ^ k - v ^ k)| ≤ 4 * (k * 4 ^ k * δ) := by
      rw [abs_mul]
      exact mul_le_mul hu ih (abs_nonneg _) (by norm_num)
    have h2 : |(u - v) * v ^ k| ≤ δ * 4 ^ k := by
      rw [abs_mul, abs_pow]
      exact mul_le_mul h (pow_le_pow_left₀ (abs_nonneg _) hv k) (by positivity) hδ
    have h3 : (0 : ℝ) ≤ 4 ^ k * δ := by positivity
    rw [e]
    calc |u * (u ^ k - v ^ k) + (u - v) * v ^ k| ≤ 4 * (k * 4 ^ k * δ) + δ * 4 ^ k := (abs_add_le _ _).trans (add_le_add h1 h2)
      _ ≤ ((k + 1 : ℕ) : ℝ) * 4 ^ (k + 1) * δ := by
        push_cast
        rw [pow_succ]
        nlinarith

theorem sums_near {d : ℝ} {l e : List ℝ} (h : EntriesWithin d l e) (f : ℝ → ℝ) (K : ℝ) (hf : ∀ x ∈ l, ∀ y, |x - y| ≤ d → |f x - f y| ≤ K) :
    |(l.map f).sum - (e.map f).sum| ≤ l.length * K := by
  induction h with
  | nil => simp
  | @cons x y l e hxy _ ih =>
    have h1 := ih fun z hz => hf z (List.mem_cons_of_mem _ hz)
    have h2 := hf x List.mem_cons_self y hxy
    simp only [List.map_cons, List.sum_cons, List.length_cons, Nat.cast_add, Nat.cast_one]
    have e1 : f x + (l.map f).sum - (f y + (e.map f).sum) = (f x - f y) + ((l.map f).sum - (e.map f).sum) := by ring
    rw [e1]
    have := abs_add_le (f x - f y) ((l.map f).sum - (e.map f).sum)
    linarith

/-- The moments of spectra that are near other spectra, by a distance which is small when those are bounded. -/
theorem moments_within (P : ℕ → Measure Ω) (L V : ℕ → Ω → List ℝ) (a : ℕ → ℝ) (hscale : ∀ᶠ n in atTop, 0 < a n) (h : SpectrumEnds P L a)
    (hL : ∀ n ω, (L n ω).length = n) (d : ℕ → Ω → ℝ) (hw : ∀ n ω, EntriesWithin (d n ω) (L n ω) (V n ω)) (κ : ℕ → ℝ) (hκ : Tendsto κ atTop (𝓝 0))
    (hd : ∀ n ω b, 0 < a n → 0 ≤ b → (∀ x ∈ L n ω, |x| ≤ b * a n) → d n ω ≤ κ n * b * a n) (k : ℕ) (c : ℝ)
    (hm : InProbability P (fun n ω => ((L n ω).map fun x : ℝ => (x / a n) ^ k).sum / n) c) : InProbability P (fun n ω => ((V n ω).map fun x : ℝ => (x / a n) ^ k).sum / n) c := by
  refine inProb_of_cover _ _ fun ε hε => ?_
  have hsm : ∀ η : ℝ, 0 < η → ∀ᶠ n in atTop, κ n * 3 < η := by
    intro η hη
    have := hκ.mul_const 3
    rw [zero_mul] at this
    exact this.eventually_lt_const hη
  have hK : (0 : ℝ) < k * 4 ^ k + 1 := by positivity
  refine ⟨_, _, fun _ => ∅, hm (ε / 2) (by positivity), outside_null h.outside 3 (by norm_num), by simp, ?_⟩
  filter_upwards [hscale, hsm 1 one_pos, hsm (ε / 4 / (k * 4 ^ k + 1)) (by positivity), eventually_gt_atTop 0] with n ha h1 h2 hn ω hω
  by_contra hcon
  simp only [Set.union_empty, Set.mem_union, not_or] at hcon
  obtain ⟨hc1, hc2⟩ := hcon
  have hb : ∀ x ∈ L n ω, |x| ≤ 3 * a n := fun x hx => by
    by_contra hlt
    exact hc2 ⟨x, hx, (not_le.1 hlt).le⟩
  have hdn := hd n ω 3 ha (by norm_num) hb
  have hn' : (0 : ℝ) < n := by exact_mod_cast hn
  have hs := sums_near (hw n ω) (fun x : ℝ => (x / a n) ^ k) (k * 4 ^ k * (κ n * 3)) fun x hx y hxy => by
    have e1 : |x / a n - y / a n| ≤ κ n * 3 := by
      rw [← sub_div, abs_div, abs_of_pos ha, div_le_iff₀ ha]
      exact hxy.trans hdn
    have e2 : |x / a n| ≤ 3 := by
      rw [abs_div, abs_of_pos ha, div_le_iff₀ ha]
      exact hb x hx
    have e3 : |y / a n| ≤ 4 := by
      have := abs_sub_abs_le_abs_sub (y / a n) (x / a n)
      rw [abs_sub_comm] at this
      linarith
    exact pow_near _ _ _ (by linarith) e3 e1 k
  rw [hL n ω] at hs
  have hκ0 : (k * 4 ^ k : ℝ) * (κ n * 3) ≤ ε / 4 := by
    have h0 : (0 : ℝ) ≤ k * 4 ^ k := by positivity
    calc (k * 4 ^ k : ℝ) * (κ n * 3) ≤ k * 4 ^ k * (ε / 4 / (k * 4 ^ k + 1)) := mul_le_mul_of_nonneg_left h2.le h0
      _ ≤ (k * 4 ^ k + 1) * (ε / 4 / (k * 4 ^ k + 1)) := mul_le_mul_of_nonneg_right (by linarith) (by positivity)
      _ = ε / 4 := by field_simp
  have hc1' : |((L n ω).map fun x : ℝ => (x / a n) ^ k).sum / n - c| < ε / 2 := not_le.1 hc1
  generalize ((L n ω).map fun x : ℝ => (x / a n) ^ k).sum = A at *
  generalize ((V n ω).map fun x : ℝ => (x / a n) ^ k).sum = B at *
  have h5 : |A / n - B / n| ≤ ε / 4 := by
    rw [← sub_div, abs_div, abs_of_pos hn', div_le_iff₀ hn']
    refine hs.trans ?_
    rw [mul_comm]
    exact mul_le_mul_of_nonneg_right hκ0 hn'.le
  have h6 := abs_sub_le (B / n) (A / n) c
  rw [abs_sub_comm (B / n) (A / n)] at h6
  linarith

theorem real_limit (P : ℕ → Measure Ω) (eh : EigSolver) (δ : (n : ℕ) → Matrix (Fin n) (Fin n) ℝ → ℝ) (hs : BackwardStable eh δ) (c : ℕ → ℝ) (hδ : RelativeError δ c) (hc : Tendsto (fun n : ℕ => c n * √n) atTop (𝓝 0))
    (M : (n : ℕ) → Ω → Matrix (Fin n) (Fin n) ℝ) (hM : ∀ n ω, (M n ω).IsSymm) (a : ℕ → ℝ) (h : SpectrumEnds P (fun n ω => npSort (exactRoutine n (M n ω))) a)
    (hl : PolyLim.SpectralLimit P (fun n ω => npSort (exactRoutine n (M n ω))) a (semicircleLaw 2))
    (hf : ∀ t : ℝ, InProbability P (fun n ω => (countLE (npSort (eh n (M n ω))) (t * a n) : ℝ) / n) ((semicircleLaw 2).real (Set.Iic t))) :
    PolyLim.SpectralLimit P (fun n ω => npSort (eh n (M n ω))) a (semicircleLaw 2) := by
  have hlen : ∀ n ω, (npSort (exactRoutine n (M n ω))).length = n := fun n ω => (hl.sorted n ω).1
  refine ⟨fun n ω => ⟨?_, npSort_ascending _⟩, hl.scale, fun t => ?_, fun k => ?_⟩
  · rw [← (backward_within eh δ hs n _ (hM n ω)).length_eq]
    exact hlen n ω
  · rw [cdf_eq_real]
    exact hf t
  · refine moments_within P _ _ a hl.scale h hlen (fun n ω => δ n (M n ω)) (fun n ω => backward_within eh δ hs n _ (hM n ω)) (fun n => |c n * √n|) (by simpa using hc.abs) (fun n ω b han hb hx => ?_) k _ (hl.moment k)
    have := error_le n _ (hlen n ω) (frobenius (M n ω)) (c n) (δ n (M n ω)) (b * a n) (Real.sqrt_nonneg _) (frob_vals _ (hM n ω) _ (sorted_roots _)) (hδ n _ (hM n ω)) (by positivity) hx
    rw [mul_assoc]
    exact this

/-- What is claimed of polynomial unfolding of the random spectra `vals n`: the limits of C180 and C183 and the bounds of C191. -/
structure UnfoldsAsExact (P : ℕ → Measure Ω) (vals : ℕ → Ω → List ℝ) (a : ℕ → ℝ) : Prop where
  /-- C180 -/
  fit : PolyFitLimit P vals a (semicircleLaw 2)
  /-- C183 -/
  mean : MeanSpacingLimit P vals
  /-- C191 -/
  nearly : NearlyUnfolds P vals a

theorem unfoldsAsExact (P : ℕ → Measure Ω) (vals : ℕ → Ω → List ℝ) (a : ℕ → ℝ) (h : PolyLim.SpectralLimit P vals a (semicircleLaw 2)) (he : SpectrumEnds P vals a) : UnfoldsAsExact P vals a :=
  have h1 := polyFitLimit P vals a _ semicircle_atom semicircle_pow h
  have h2 := meanSpacingLimit P vals a h he
  ⟨h1, h2, nearlyUnfolds P vals a h1 h2⟩

/-- The limits known for the computed spectra (goe). -/
theorem computed_goe (R : Rng σ) (eh : EigSolver) (ehC : (n : Nat) → Matrix (Fin n) (Fin n) ℂ → List ℝ) (δ : (n : ℕ) → Matrix (Fin n) (Fin n) ℝ → ℝ) (hs : BackwardStable eh δ)
    (c : ℕ → ℝ) (hδ : RelativeError δ c) (hc : Tendsto (fun n : ℕ => c n * √n) atTop (𝓝 0))
    (P : ℕ → Measure Ω) [∀ n, IsProbabilityMeasure (P n)] (e s : ℕ → Ω → σ) (hX : ∀ n, NormalDraws (P n) fun k ω => draw R (s n ω) k) :
    ∃ vals : ℕ → Ω → List ℝ, (∀ n, GeneratedVals R eh ehC n .goe false (e n) (s n) (vals n)) ∧ PolyLim.SpectralLimit P vals (fun n => √n) (semicircleLaw 2) ∧ SpectrumEnds P vals (fun n => √n) := by
  have hg : ∀ n, GeneratedVals R eh ehC n .goe false (e n) (s n) fun ω => npSort (eh n (goeMatrix R n none false (s n ω)).1) := fun n ω => (C49_values R eh ehC n none false (e n ω) (s n ω)).1
  refine ⟨fun n ω => npSort (eh n (goeMatrix R n none false (s n ω)).1), hg, ?_⟩
  obtain ⟨v, hv, he⟩ := C186_goe R eh ehC δ hs c hδ hc P e s hX
  obtain rfl : v = fun n ω => npSort (eh n (goeMatrix R n none false (s n ω)).1) := funext fun n => Props.generated_unique _ _ _ _ _ _ _ _ _ _ (hv n) (hg n)
  obtain ⟨v, hv', hf⟩ := C154_full R eh ehC δ hs c hδ hc P e s hX
  obtain rfl : v = fun n ω => npSort (eh n (goeMatrix R n none false (s n ω)).1) := funext fun n => Props.generated_unique _ _ _ _ _ _ _ _ _ _ (hv' n) (hg n)
  refine ⟨real_limit P eh δ hs c hδ hc (fun n ω => (goeMatrix R n none false (s n ω)).1) (fun n ω => (C49_symmetric R n none false (s n ω)).1) _ ?_ ?_ hf, he⟩
  · simp only [goe_full_draws]
    exact full_ends exactRoutine exactRoutine_exact P _ hX
  · simp only [goe_full_draws]
    exact full_limit exactRoutine exactRoutine_exact P _ hX

/-- **C192 (GOE).** C180, C183 and C191 with a real eigenvalue routine: let the routine used by `generate(n, "goe")` be backward stable with a relative error `c n` on `n × n` matrices such that `c n √n` tends to 0. Then polynomial unfolding of the computed spectra has the same limits. -/
theorem C192_goe (R : Rng σ) (eh : EigSolver) (ehC : (n : Nat) → Matrix (Fin n) (Fin n) ℂ → List ℝ) (δ : (n : ℕ) → Matrix (Fin n) (Fin n) ℝ → ℝ) (hs : BackwardStable eh δ)
    (c : ℕ → ℝ) (hδ : RelativeError δ c) (hc : Tendsto (fun n : ℕ => c n * √n) atTop (𝓝 0))
    (P : ℕ → Measure Ω) [∀ n, IsProbabilityMeasure (P n)] (e s : ℕ → Ω → σ) (hX : ∀ n, NormalDraws (P n) fun k ω => draw R (s n ω) k) :
    ∃ vals : ℕ → Ω → List ℝ, (∀ n, GeneratedVals R eh ehC n .goe false (e n) (s n) (vals n)) ∧ UnfoldsAsExact P vals fun n => √n := by
  obtain ⟨vals, hv, h1, h2⟩ := computed_goe R eh ehC δ hs c hδ hc P e s hX
  exact ⟨vals, hv, unfoldsAsExact P vals _ h1 h2⟩

/-- The limits known for the computed spectra (tridiagonal). -/
theorem computed_tridiagonal (R : Rng σ) (eh : EigSolver) (ehC : (n : Nat) → Matrix (Fin n) (Fin n) ℂ → List ℝ) (δ : (n : ℕ) → Matrix (Fin n) (Fin n) ℝ → ℝ) (hs : BackwardStable eh δ)
    (c : ℕ → ℝ) (hδ : RelativeError δ c) (hc : Tendsto (fun n : ℕ => c n * √n) atTop (𝓝 0))
    (P : Nat → Measure Ω) [∀ n, IsProbabilityMeasure (P n)] (e s : Nat → Ω → σ)
    (hC : ∀ n > 500, ChiSquareDraws (P n) (n - 1) fun k ω => chiDraws R n (s n ω) k) (hZ : ∀ n > 500, NormalDraws (P n) fun k ω => diagDraws R n (s n ω) k)
    (hi : ∀ n > 500, IndepFun (fun ω => chiDraws R n (s n ω)) (fun ω => diagDraws R n (s n ω)) (P n)) :
    ∃ vals : ℕ → Ω → List ℝ, (∀ n, GeneratedVals R eh ehC n .goe true (e n) (s n) (vals n)) ∧ PolyLim.SpectralLimit P vals (fun n => √(n / 2)) (semicircleLaw 2) ∧ SpectrumEnds P vals (fun n => √(n / 2)) := by
  have hg : ∀ n, GeneratedVals R eh ehC n .goe true (e n) (s n) fun ω => npSort (eh n (goeMatrix R n none true (s n ω)).1) := fun n ω => (C49_values R eh ehC n none true (e n ω) (s n ω)).1
  refine ⟨fun n ω => npSort (eh n (goeMatrix R n none true (s n ω)).1), hg, ?_⟩
  obtain ⟨v, hv, he⟩ := C186_tridiagonal R eh ehC δ hs c hδ hc P e s hC hZ hi
  obtain rfl : v = fun n ω => npSort (eh n (goeMatrix R n none true (s n ω)).1) := funext fun n => Props.generated_unique _ _ _ _ _ _ _ _ _ _ (hv n) (hg n)
  obtain ⟨v, hv', hf⟩ := C154_tridiagonal R eh ehC δ hs c hδ hc P e s hC hZ hi
  obtain rfl : v = fun n ω => npSort (eh n (goeMatrix R n none true (s n ω)).1) := funext fun n => Props.generated_unique _ _ _ _ _ _ _ _ _ _ (hv' n) (hg n)
  exact ⟨real_limit P eh δ hs c hδ hc (fun n ω => (goeMatrix R n none true (s n ω)).1) (fun n ω => (C49_symmetric R n none true (s n ω)).1) _
    (tri_ends R exactRoutine exactRoutine_exact P s hC hZ hi) (tri_limit R exactRoutine exactRoutine_exact P s hC hZ hi) hf, he⟩

/-- **C192 (tridiagonal).** The same with `use_tridiagonal`. -/
theorem C192_tridiagonal (R : Rng σ) (eh : EigSolver) (ehC : (n : Nat) → Matrix (Fin n) (Fin n) ℂ → List ℝ) (δ : (n : ℕ) → Matrix (Fin n) (Fin n) ℝ → ℝ) (hs : BackwardStable eh δ)
    (c : ℕ → ℝ) (hδ : RelativeError δ c) (hc : Tendsto (fun n : ℕ => c n * √n) atTop (𝓝 0))
    (P : Nat → Measure Ω) [∀ n, IsProbabilityMeasure (P n)] (e s : Nat → Ω → σ)
    (hC : ∀ n > 500, ChiSquareDraws (P n) (n - 1) fun k ω => chiDraws R n (s n ω) k) (hZ : ∀ n > 500, NormalDraws (P n) fun k ω => diagDraws R n (s n ω) k)
    (hi : ∀ n > 500, IndepFun (fun ω => chiDraws R n (s n ω)) (fun ω => diagDraws R n (s n ω)) (P n)) :
    ∃ vals : ℕ → Ω → List ℝ, (∀ n, GeneratedVals R eh ehC n .goe true (e n) (s n) (vals n)) ∧ UnfoldsAsExact P vals fun n => √(n / 2) := by
  obtain ⟨vals, hv, h1, h2⟩ := computed_tridiagonal R eh ehC δ hs c hδ hc P e s hC hZ hi
  exact ⟨vals, hv, unfoldsAsExact P vals _ h1 h2⟩

/-- The limits known for the computed spectra (gue). -/
theorem computed_gue (R : Rng σ) (eh : EigSolver) (ehC : (n : Nat) → Matrix (Fin n) (Fin n) ℂ → List ℝ) (δ : (n : ℕ) → Matrix (Fin n) (Fin n) ℂ → ℝ) (hs : BackwardStableC ehC δ)
    (c : ℕ → ℝ) (hδ : RelativeErrorC δ c) (hc : Tendsto (fun n : ℕ => c n * √n) atTop (𝓝 0))
    (P : ℕ → Measure Ω) [∀ n, IsProbabilityMeasure (P n)] (e s : ℕ → Ω → σ) (hX : ∀ n, NormalDraws (P n) fun k ω => draw R (s n ω) k) (tri : Bool) :
    ∃ vals : ℕ → Ω → List ℝ, (∀ n, GeneratedVals R eh ehC n .gue tri (e n) (s n) (vals n)) ∧ PolyLim.SpectralLimit P vals (fun n => √n) (semicircleLaw 2) ∧ SpectrumEnds P vals (fun n => √n) := by
  have hg : ∀ n, GeneratedVals R eh ehC n .gue tri (e n) (s n) fun ω => npSort (ehC n (generateGUE R n none (s n ω)).1) := fun n ω => (C49_values R eh ehC n none tri (e n ω) (s n ω)).2.1
  refine ⟨fun n ω => npSort (ehC n (generateGUE R n none (s n ω)).1), hg, ?_⟩
  obtain ⟨v, hv, he⟩ := C186_gue R eh ehC δ hs c hδ hc P e s hX tri
  obtain rfl : v = fun n ω => npSort (ehC n (generateGUE R n none (s n ω)).1) := funext fun n => Props.generated_unique _ _ _ _ _ _ _ _ _ _ (hv n) (hg n)
  obtain ⟨v, hv', hf⟩ := C154_gue R eh ehC δ hs c hδ hc P e s hX tri
  obtain rfl : v = fun n ω => npSort (ehC n (generateGUE R n none (s n ω)).1) := funext fun n => Props.generated_unique _ _ _ _ _ _ _ _ _ _ (hv' n) (hg n)
  have hM : ∀ n ω, (generateGUE R n none (s n ω)).1.IsHermitian := fun n ω => (C49_symmetric R n none tri (s n ω)).2
  set M : (n : ℕ) → Ω → Matrix (Fin n) (Fin n) ℂ := fun n ω => (generateGUE R n none (s n ω)).1 with hMd
  have hr := fun n ω => sorted_rootsC exactHermitian _ _ (exactHermitian_exact n _ (hM n ω))
  have hlen : ∀ n ω, (npSort (exactHermitian n (M n ω))).length = n := fun n ω => (countLE_cntC (hM n ω) _ (hr n ω) 0).1
  have h : SpectrumEnds P (fun n ω => npSort (exactHermitian n (M n ω))) (fun n => √n) := by
    have := gue_ends exactHermitian exactHermitian_exact P _ hX
    simp only [hMd, gue_draws]
    exact this
  have hl : PolyLim.SpectralLimit P (fun n ω => npSort (exactHermitian n (M n ω))) (fun n => √n) (semicircleLaw 2) := by
    have := gue_limit exactHermitian exactHermitian_exact P _ hX
    simp only [hMd, gue_draws]
    exact this
  refine ⟨⟨fun n ω => ⟨?_, npSort_ascending _⟩, hl.scale, fun t => ?_, fun k => ?_⟩, he⟩
  · rw [← (backward_withinC ehC δ hs n _ (hM n ω)).length_eq]
    exact hlen n ω
  · rw [cdf_eq_real]
    exact hf t
  · refine moments_within P _ _ _ hl.scale h hlen (fun n ω => δ n (M n ω)) (fun n ω => backward_withinC ehC δ hs n _ (hM n ω)) (fun n => |c n * √n|) (by simpa using hc.abs) (fun n ω b han hb hx => ?_) k _ (hl.moment k)
    have := error_le n _ (hlen n ω) (frobeniusC (M n ω)) (c n) (δ n (M n ω)) (b * √n) (Real.sqrt_nonneg _) (frobC_vals _ (hM n ω) _ (hr n ω)) (hδ n _ (hM n ω)) (by positivity) hx
    rw [mul_assoc]
    exact this

/-- **C192 (GUE).** The same for `generate(n, "gue")`, with a routine that is backward stable on complex Hermitian matrices. -/
theorem C192_gue (R : Rng σ) (eh : EigSolver) (ehC : (n : Nat) → Matrix (Fin n) (Fin n) ℂ → List ℝ) (δ : (n : ℕ) → Matrix (Fin n) (Fin n) ℂ → ℝ) (hs : BackwardStableC ehC δ)
    (c : ℕ → ℝ) (hδ : RelativeErrorC δ c) (hc : Tendsto (fun n : ℕ => c n * √n) atTop (𝓝 0))
    (P : ℕ → Measure Ω) [∀ n, IsProbabilityMeasure (P n)] (e s : ℕ → Ω → σ) (hX : ∀ n, NormalDraws (P n) fun k ω => draw R (s n ω) k) (tri : Bool) :
    ∃ vals : ℕ → Ω → List ℝ, (∀ n, GeneratedVals R eh ehC n .gue tri (e n) (s n) (vals n)) ∧ UnfoldsAsExact P vals fun n => √n := by
  obtain ⟨vals, hv, h1, h2⟩ := computed_gue R eh ehC δ hs c hδ hc P e s hX tri
  exact ⟨vals, hv, unfoldsAsExact P vals _ h1 h2⟩

/-- Routines with errors meet the hypotheses. -/
example : BackwardStable relativeSolver (fun n M => frobenius M / (n + 1)) ∧ RelativeError (fun n M => frobenius M / (n + 1)) (fun n => 1 / (n + 1)) ∧
    Tendsto (fun n : ℕ => 1 / ((n : ℝ) + 1) * √n) atTop (𝓝 0) ∧ ¬ ExactSolver relativeSolver := ⟨relativeSolver_stable, relativeSolver_error, relative_vanishes, relative_inexact⟩

end Props
end RMT
