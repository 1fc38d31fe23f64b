import Verif.Lemmas.EdgeMoments
import Verif.Props.PolyMeanSpacing
import Verif.Spec.Extremes

/-! # C184: where generated spectra end, and C183: the mean spacing after polynomial unfolding -/

namespace RMT
namespace PolyLim
open Gen EigValsM EigM Unfold Smooth MeasureTheory ProbabilityTheory Spec Gauss Analytic Filter Topology Semi Props

/-- The mean gap of an ascending list. -/
theorem mean_gap_eq (l : List ℝ) (hl : Ascending l) (n : ℕ) (hn : l.length = n) (h2 : 2 ≤ n) (u v : ℝ) (hu : IsSmallest l u) (hv : IsLargest l v) : (n - 1) * avg (gaps l) = v - u := by
  have hlen : (gaps l).length = n - 1 := by simp [gaps, hn]
  have hsum : (gaps l).sum = l.getD (n - 1) 0 - l.getD 0 0 := by
    unfold gaps
    rw [hn]
    exact Finset.sum_range_sub (fun i => l.getD i 0) (n - 1)
  have hmono : ∀ i j (hi : i < l.length) (hj : j < l.length), i ≤ j → l[i] ≤ l[j] := by
    intro i j hi hj hij
    rcases hij.eq_or_lt with rfl | h
    · exact le_rfl
    · exact List.pairwise_iff_getElem.mp hl i j hi hj h
  obtain ⟨⟨hu1, hu2⟩, hv1, hv2⟩ := And.intro hu hv
  obtain ⟨i, hi, rfl⟩ := List.mem_iff_getElem.mp hu1
  obtain ⟨j, hj, rfl⟩ := List.mem_iff_getElem.mp hv1
  have e1 : l.getD (n - 1) 0 = l[n - 1]'(by omega) := by rw [List.getD_eq_getElem?_getD, List.getElem?_eq_getElem (by omega), Option.getD_some]
  have e2 : l.getD 0 0 = l[0]'(by omega) := by rw [List.getD_eq_getElem?_getD, List.getElem?_eq_getElem (by omega), Option.getD_some]
  have hn1 : (0 : ℝ) < n - 1 := by
    have : (2 : ℝ) ≤ n := by exact_mod_cast h2
    linarith
  have a1 := hmono 0 i (by omega) hi (by omega)
  have a2 := hmono j (n - 1) hj (by omega) (by omega)
  have a3 := hu2 _ (List.getElem_mem (l := l) (n := 0) (by omega))
  have a4 := hv2 _ (List.getElem_mem (l := l) (n := n - 1) (by omega))
  rw [avg, hsum, hlen, Nat.cast_sub (by omega), Nat.cast_one, e1, e2]
  field_simp
  linarith

theorem exists_extremes (l : List ℝ) (x : ℝ) (hx : x ∈ l) : (∃ m, IsLargest l m) ∧ ∃ m, IsSmallest l m := by
  have hne : l.toFinset.Nonempty := ⟨x, by simpa using hx⟩
  obtain ⟨a, ha, ha'⟩ := l.toFinset.exists_max_image id hne
  obtain ⟨b, hb, hb'⟩ := l.toFinset.exists_min_image id hne
  exact ⟨⟨a, by simpa using ha, fun y hy => ha' y (by simpa using hy)⟩, b, by simpa using hb, fun y hy => hb' y (by simpa using hy)⟩

end PolyLim
namespace Props
open Gen EigValsM EigM Unfold Smooth MeasureTheory ProbabilityTheory Spec Gauss Analytic Filter Topology Semi
variable {σ Ω : Type} [MeasurableSpace Ω]

/-- The spectra `vals n`, in units of `a n`, fill an interval which ends at `-2` and `2`. -/
structure SpectrumEnds (P : ℕ → Measure Ω) (vals : ℕ → Ω → List ℝ) (a : ℕ → ℝ) : Prop where
  /-- a level further out has an exponentially small probability -/
  outside : ∀ b > 2, ∃ r : ℝ, 0 < r ∧ r < 1 ∧ ∀ᶠ n : ℕ in atTop, P n {ω | ∃ x ∈ vals n ω, b * a n ≤ |x|} ≤ ENNReal.ofReal (r ^ n)
  /-- the largest level -/
  largest : ∀ ε > 0, Tendsto (fun n => P n {ω | ¬ ∃ m, IsLargest (vals n ω) m ∧ |m / a n - 2| < ε}) atTop (𝓝 0)
  /-- the smallest level -/
  smallest : ∀ ε > 0, Tendsto (fun n => P n {ω | ¬ ∃ m, IsSmallest (vals n ω) m ∧ |m / a n + 2| < ε}) atTop (𝓝 0)
  /-- the mean spacing of the levels -/
  spacing : InProbability P (fun n ω => avg (gaps (vals n ω)) * (n / a n)) 4

theorem outside_null {P : ℕ → Measure Ω} {vals : ℕ → Ω → List ℝ} {a : ℕ → ℝ}
    (h : ∀ b > 2, ∃ r : ℝ, 0 < r ∧ r < 1 ∧ ∀ᶠ n : ℕ in atTop, P n {ω | ∃ x ∈ vals n ω, b * a n ≤ |x|} ≤ ENNReal.ofReal (r ^ n)) (b : ℝ) (hb : 2 < b) :
    Tendsto (fun n => P n {ω | ∃ x ∈ vals n ω, b * a n ≤ |x|}) atTop (𝓝 0) := by
  obtain ⟨r, h0, h1, hr⟩ := h b hb
  have ht : Tendsto (fun n : ℕ => ENNReal.ofReal (r ^ n)) atTop (𝓝 0) := by
    have := ENNReal.tendsto_ofReal (tendsto_pow_atTop_nhds_zero_of_lt_one h0.le h1)
    simpa using this
  exact tendsto_of_tendsto_of_tendsto_of_le_of_le' tendsto_const_nhds ht (Eventually.of_forall fun _ => zero_le) hr

/-- The mean spacing follows from the ends. -/
theorem spacing_of_ends (P : ℕ → Measure Ω) (vals : ℕ → Ω → List ℝ) (a : ℕ → ℝ) (hscale : ∀ᶠ n in atTop, 0 < a n) (hsorted : ∀ n ω, (vals n ω).length = n ∧ Ascending (vals n ω))
    (hL : ∀ ε > 0, Tendsto (fun n => P n {ω | ¬ ∃ m, IsLargest (vals n ω) m ∧ |m / a n - 2| < ε}) atTop (𝓝 0))
    (hS : ∀ ε > 0, Tendsto (fun n => P n {ω | ¬ ∃ m, IsSmallest (vals n ω) m ∧ |m / a n + 2| < ε}) atTop (𝓝 0)) : InProbability P (fun n ω => avg (gaps (vals n ω)) * (n / a n)) 4 := by
  intro ε hε
  set δ := min (ε / 4) 1 with hδ
  have hδ0 : 0 < δ := by positivity
  have t3 := (hL δ hδ0).add (hS δ hδ0)
  rw [add_zero] at t3
  refine tendsto_of_tendsto_of_tendsto_of_le_of_le' tendsto_const_nhds t3 (Eventually.of_forall fun _ => zero_le) ?_
  have hbig : ∀ᶠ n : ℕ in atTop, 6 / (ε / 4) + 2 ≤ (n : ℝ) := tendsto_natCast_atTop_atTop.eventually_ge_atTop _
  filter_upwards [hscale, hbig, eventually_ge_atTop 2] with n han hbg hn
  refine (measure_mono fun ω hω => ?_).trans (measure_union_le _ _)
  by_contra hcon
  simp only [Set.mem_union, Set.mem_ofPred_eq, not_or, not_not] at hcon hω
  obtain ⟨⟨v, hv, hv'⟩, u, hu, hu'⟩ := hcon
  refine absurd hω (not_le.mpr ?_)
  have hn2 : (2 : ℝ) ≤ n := by exact_mod_cast hn
  have hn1 : (0 : ℝ) < n - 1 := by linarith
  have key := PolyLim.mean_gap_eq _ (hsorted n ω).2 n (hsorted n ω).1 hn u v hu hv
  generalize avg (gaps (vals n ω)) = A at key
  have eA : A * (n / a n) = (v / a n - u / a n) + (v / a n - u / a n) / (n - 1) := by
    have : A = (v - u) / (n - 1) := by
      rw [eq_div_iff hn1.ne', mul_comm]
      exact key
    rw [this]
    field_simp
    ring
  rw [eA]
  have d1 : δ ≤ ε / 4 := min_le_left _ _
  have d2 : δ ≤ 1 := min_le_right _ _
  rw [abs_lt] at hv' hu'
  have w1 : v / a n - u / a n < 6 := by linarith [hv'.2, hu'.1]
  have w0 : 0 < v / a n - u / a n := by linarith [hv'.1, hu'.2]
  have hq : 6 / (ε / 4) ≤ n - 1 := by linarith
  have w2 : (v / a n - u / a n) / (n - 1) < ε / 4 := by
    rw [div_lt_iff₀ hn1]
    rw [div_le_iff₀ (by linarith)] at hq
    linarith
  have w3 : 0 < (v / a n - u / a n) / (n - 1) := by positivity
  rw [abs_lt]
  constructor <;> linarith [hv'.1, hv'.2, hu'.1, hu'.2]

theorem spectrumEnds (P : ℕ → Measure Ω) (vals : ℕ → Ω → List ℝ) (a : ℕ → ℝ) (h : PolyLim.SpectralLimit P vals a (semicircleLaw 2))
    (ho : ∀ b > 2, ∃ r : ℝ, 0 < r ∧ r < 1 ∧ ∀ᶠ n : ℕ in atTop, P n {ω | ∃ x ∈ vals n ω, b * a n ≤ |x|} ≤ ENNReal.ofReal (r ^ n)) : SpectrumEnds P vals a := by
  have hL : ∀ ε > 0, Tendsto (fun n => P n {ω | ¬ ∃ m, IsLargest (vals n ω) m ∧ |m / a n - 2| < ε}) atTop (𝓝 0) := by
    intro ε hε
    have t1 := level_near P vals a _ h 2 (semicircle_support _ ⟨by norm_num, le_rfl⟩) (ε / 2) (by linarith)
    have t2 := outside_null ho (2 + ε / 2) (by linarith)
    have t3 := t1.add t2
    rw [add_zero] at t3
    refine tendsto_of_tendsto_of_tendsto_of_le_of_le' tendsto_const_nhds t3 (Eventually.of_forall fun _ => zero_le) ?_
    filter_upwards [h.scale] with n han
    refine (measure_mono fun ω hω => ?_).trans (measure_union_le _ _)
    by_contra hcon
    simp only [Set.mem_union, Set.mem_ofPred_eq, not_or, not_not] at hcon hω
    obtain ⟨⟨e, he, hd⟩, g⟩ := hcon
    push Not at hω g
    obtain ⟨m, hm⟩ := (PolyLim.exists_extremes _ e he).1
    refine absurd (hω m hm) (not_le.mpr ?_)
    have b1 := (abs_le.mp hd).1
    have b2 : e / a n ≤ m / a n := div_le_div_of_nonneg_right (hm.2 e he) han.le
    have b3 : m / a n < 2 + ε / 2 := by
      rw [div_lt_iff₀ han]
      exact (le_abs_self m).trans_lt (g m hm.1)
    exact abs_lt.mpr ⟨by linarith, by linarith⟩
  have hS : ∀ ε > 0, Tendsto (fun n => P n {ω | ¬ ∃ m, IsSmallest (vals n ω) m ∧ |m / a n + 2| < ε}) atTop (𝓝 0) := by
    intro ε hε
    have t1 := level_near P vals a _ h (-2) (semicircle_support _ ⟨le_rfl, by norm_num⟩) (ε / 2) (by linarith)
    have t2 := outside_null ho (2 + ε / 2) (by linarith)
    have t3 := t1.add t2
    rw [add_zero] at t3
    refine tendsto_of_tendsto_of_tendsto_of_le_of_le' tendsto_const_nhds t3 (Eventually.of_forall fun _ => zero_le) ?_
    filter_upwards [h.scale] with n han
    refine (measure_mono fun ω hω => ?_).trans (measure_union_le _ _)
    by_contra hcon
    simp only [Set.mem_union, Set.mem_ofPred_eq, not_or, not_not] at hcon hω
    obtain ⟨⟨e, he, hd⟩, g⟩ := hcon
    push Not at hω g
    obtain ⟨m, hm⟩ := (PolyLim.exists_extremes _ e he).2
    refine absurd (hω m hm) (not_le.mpr ?_)
    have b1 := (abs_le.mp hd).2
    have b2 : m / a n ≤ e / a n := div_le_div_of_nonneg_right (hm.2 e he) han.le
    have b3 : -(2 + ε / 2) < m / a n := by
      rw [lt_div_iff₀ han]
      have := (neg_le_abs m).trans_lt (g m hm.1)
      linarith
    exact abs_lt.mpr ⟨by linarith, by linarith⟩
  exact ⟨ho, hL, hS, spacing_of_ends P vals a h.scale h.sorted hL hS⟩

theorem full_ends (eh : EigSolver) (hs : ExactSolver eh) (P : ℕ → Measure Ω) [∀ n, IsProbabilityMeasure (P n)] (X : ℕ → ℕ → Ω → ℝ) (hX : ∀ n, NormalDraws (P n) (X n)) :
    SpectrumEnds P (fun n ω => full eh (X n) n ω) (fun n => √n) :=
  spectrumEnds P _ _ (full_limit eh hs P X hX) fun b hb => Edge.goe_edge eh hs P X hX b hb

theorem gue_ends (ehC : (n : Nat) → Matrix (Fin n) (Fin n) ℂ → List ℝ) (hs : ExactHermitian ehC) (P : ℕ → Measure Ω) [∀ n, IsProbabilityMeasure (P n)] (X : ℕ → ℕ → Ω → ℝ) (hX : ∀ n, NormalDraws (P n) (X n)) :
    SpectrumEnds P (fun n ω => fullC ehC (X n) n ω) (fun n => √n) :=
  spectrumEnds P _ _ (gue_limit ehC hs P X hX) fun b hb => Edge.gue_edge ehC hs P X hX b hb

theorem tri_ends (R : Rng σ) (eh : EigSolver) (hs : ExactSolver eh) (P : ℕ → Measure Ω) [∀ n, IsProbabilityMeasure (P n)] (s : ℕ → Ω → σ)
    (hC : ∀ n > 500, ChiSquareDraws (P n) (n - 1) fun k ω => chiDraws R n (s n ω) k) (hZ : ∀ n > 500, NormalDraws (P n) fun k ω => diagDraws R n (s n ω) k)
    (hi : ∀ n > 500, IndepFun (fun ω => chiDraws R n (s n ω)) (fun ω => diagDraws R n (s n ω)) (P n)) :
    SpectrumEnds P (fun n ω => npSort (eh n (goeMatrix R n none true (s n ω)).1)) (fun n => √(n / 2)) := by
  have hlim := tri_limit R eh hs P s hC hZ hi
  refine spectrumEnds P _ _ hlim fun b hb => ?_
  obtain ⟨r, h0, h1, hr⟩ := Edge.goe_edge eh hs (fun _ => Measure.infinitePi fun _ : ℕ => gaussianReal 0 1) (fun _ k (ω : ℕ → ℝ) => draw streamRng ω k) (fun _ => stream_draws) b hb
  refine ⟨r, h0, h1, ?_⟩
  filter_upwards [hr, eventually_gt_atTop 500] with n hn hn5
  have hid := tri_ident R eh hs P s n (hC n hn5) (hZ n hn5) (hi n hn5)
  have hM : ∀ ω, (goeMatrix R n none true (s n ω)).1 = (generateGOETridiagonal R n none (s n ω)).1 := fun ω => by rw [goeMatrix, if_pos ⟨hn5, rfl⟩]
  have hlen : ∀ ω, (npSort (eh n (generateGOETridiagonal R n none (s n ω)).1)).length = n := fun ω => by rw [(npSort_perm _).length_eq, tri_length R eh hs]
  have hlen' := fun (ω : ℕ → ℝ) => ((full_limit eh hs (fun _ => Measure.infinitePi fun _ : ℕ => gaussianReal 0 1) (fun _ k (ω : ℕ → ℝ) => draw streamRng ω k) fun _ => stream_draws).sorted n ω).1
  have hset : MeasurableSet {v : Fin n → ℝ | ∃ i, b * √n ≤ |v i|} := by
    have : {v : Fin n → ℝ | ∃ i, b * √n ≤ |v i|} = ⋃ i, {v : Fin n → ℝ | b * √n ≤ |v i|} := by ext v; simp
    rw [this]
    exact MeasurableSet.iUnion fun i => measurableSet_le measurable_const (by fun_prop)
  have hmem : ∀ (l : List ℝ), l.length = n → ∀ (t : ℝ) (κ : ℝ), (∃ x ∈ l, t ≤ |κ * x|) ↔ ∃ i : Fin n, t ≤ |κ * vec n l i| := by
    intro l hl t κ
    constructor
    · rintro ⟨x, hx, hle⟩
      obtain ⟨i, hi, rfl⟩ := List.mem_iff_getElem.mp hx
      refine ⟨⟨i, by omega⟩, ?_⟩
      simpa only [vec, List.getD_eq_getElem?_getD, List.getElem?_eq_getElem hi, Option.getD_some] using hle
    · rintro ⟨i, hle⟩
      have hi : i.val < l.length := by omega
      refine ⟨l[i.val], List.getElem_mem hi, ?_⟩
      simpa only [vec, List.getD_eq_getElem?_getD, List.getElem?_eq_getElem hi, Option.getD_some] using hle
  have hm := hid.measure_mem_eq hset
  have e1 : {ω : ℕ → ℝ | ∃ x ∈ full eh (fun k (ω : ℕ → ℝ) => draw streamRng ω k) n ω, b * √n ≤ |x|} = (fun ω => vec n (full eh (fun k (ω : ℕ → ℝ) => draw streamRng ω k) n ω)) ⁻¹' {v : Fin n → ℝ | ∃ i, b * √n ≤ |v i|} := by
    ext ω
    have := hmem _ (hlen' ω) (b * √n) 1
    simp only [one_mul] at this
    exact this
  have h2 : (0 : ℝ) < √2 := by positivity
  have e2 : {ω | ∃ x ∈ npSort (eh n (goeMatrix R n none true (s n ω)).1), b * √(n / 2) ≤ |x|} = (fun ω i => √2 * vec n (npSort (eh n (generateGOETridiagonal R n none (s n ω)).1)) i) ⁻¹' {v : Fin n → ℝ | ∃ i, b * √n ≤ |v i|} := by
    ext ω
    have := hmem _ (hlen ω) (b * √n) √2
    refine Iff.trans ?_ this
    simp only [Set.mem_ofPred_eq, hM ω]
    have key : ∀ x : ℝ, b * √((n : ℝ) / 2) ≤ |x| ↔ b * √n ≤ |√2 * x| := fun x => by
      rw [Real.sqrt_div (by positivity), abs_mul, abs_of_pos h2, ← mul_div_assoc, div_le_iff₀ h2, mul_comm (√2)]
    simp only [key]
  rw [e2, ← hm, ← e1]
  exact hn

/-- **C184 (GOE).** The spectrum of `generate(n, "goe")` ends at `±2√n`: for every `b > 2` the probability of a level outside `[-b√n, b√n]` is at most `r^n` for some `r < 1` and large `n`; the largest level divided by `√n`
tends to 2 and the smallest to -2 in probability, and the mean spacing times `√n` to 4. -/
theorem C184_goe (R : Rng σ) (eh : EigSolver) (ehC : (n : Nat) → Matrix (Fin n) (Fin n) ℂ → List ℝ) (hs : ExactSolver eh) (P : ℕ → Measure Ω) [∀ n, IsProbabilityMeasure (P n)] (e s : ℕ → Ω → σ)
    (hX : ∀ n, NormalDraws (P n) fun k ω => draw R (s n ω) k) :
    ∃ vals : ℕ → Ω → List ℝ, (∀ n, GeneratedVals R eh ehC n .goe false (e n) (s n) (vals n)) ∧ SpectrumEnds P vals (fun n => √n) := by
  refine ⟨fun n ω => full eh (fun k ω => draw R (s n ω) k) n ω, fun n ω => ?_, full_ends eh hs P _ hX⟩
  have := (C49_values R eh ehC n none false (e n ω) (s n ω)).1
  rwa [goe_full_draws] at this

/-- **C184 (GUE).** The same for `generate(n, "gue")`. -/
theorem C184_gue (R : Rng σ) (eh : EigSolver) (ehC : (n : Nat) → Matrix (Fin n) (Fin n) ℂ → List ℝ) (hs : ExactHermitian ehC) (P : ℕ → Measure Ω) [∀ n, IsProbabilityMeasure (P n)] (e s : ℕ → Ω → σ)
    (hX : ∀ n, NormalDraws (P n) fun k ω => draw R (s n ω) k) (tri : Bool) :
    ∃ vals : ℕ → Ω → List ℝ, (∀ n, GeneratedVals R eh ehC n .gue tri (e n) (s n) (vals n)) ∧ SpectrumEnds P vals (fun n => √n) := by
  refine ⟨fun n ω => fullC ehC (fun k ω => draw R (s n ω) k) n ω, fun n ω => ?_, gue_ends ehC hs P _ hX⟩
  have := (C49_values R eh ehC n none tri (e n ω) (s n ω)).2.1
  rwa [gue_draws] at this

/-- **C184 (tridiagonal).** The spectrum of `generate(n, "goe", use_tridiagonal=True)` ends at `±2√(n/2)`. -/
theorem C184_tridiagonal (R : Rng σ) (eh : EigSolver) (ehC : (n : Nat) → Matrix (Fin n) (Fin n) ℂ → List ℝ) (hs : ExactSolver eh)
    (P : Nat → Measure Ω) [∀ n, IsProbabilityMeasure (P n)] (e s : Nat → Ω → σ)
    (hC : ∀ n > 500, ChiSquareDraws (P n) (n - 1) fun k ω => chiDraws R n (s n ω) k) (hZ : ∀ n > 500, NormalDraws (P n) fun k ω => diagDraws R n (s n ω) k)
    (hi : ∀ n > 500, IndepFun (fun ω => chiDraws R n (s n ω)) (fun ω => diagDraws R n (s n ω)) (P n)) :
    ∃ vals : ℕ → Ω → List ℝ, (∀ n, GeneratedVals R eh ehC n .goe true (e n) (s n) (vals n)) ∧ SpectrumEnds P vals (fun n => √(n / 2)) :=
  ⟨fun n ω => npSort (eh n (goeMatrix R n none true (s n ω)).1), fun n ω => (C49_values R eh ehC n none true (e n ω) (s n ω)).1, tri_ends R eh hs P s hC hZ hi⟩

/-- The hypotheses hold for streams of independent draws and a routine that returns the roots of the characteristic polynomial. -/
example : ∃ eh : EigSolver, ExactSolver eh ∧ SpectrumEnds (fun _ => Measure.infinitePi fun _ : ℕ => gaussianReal 0 1) (fun n (ω : ℕ → ℝ) => full eh (fun k (ω : ℕ → ℝ) => draw streamRng ω k) n ω) (fun n => √n) := by
  refine ⟨fun _ M => M.charpoly.roots.toList, fun _ _ _ => Multiset.coe_toList _, ?_⟩
  exact full_ends _ (fun _ _ _ => Multiset.coe_toList _) _ (fun _ k (ω : ℕ → ℝ) => draw streamRng ω k) fun _ => stream_draws
example : IsLargest [1, 3, 2] 3 ∧ IsSmallest [1, 3, 2] 1 := by
  constructor <;> constructor <;> norm_num

end Props
end RMT
