import Verif.Lemmas.PolyLimit
import Verif.Props.PolyUnfold
import Verif.Props.Semicircle
import Verif.Props.PoissonLimits
import Verif.Spec.InProbability

/-!
# Polynomial fits of random spectra
-/

namespace RMT.PolyLim
open MeasureTheory ProbabilityTheory Spec Filter Topology

/-- A distribution function without jumps: monotone functions near it at finitely many points are near it everywhere. -/
theorem cdf_grid (μ : Measure ℝ) [IsProbabilityMeasure μ] (ha : ∀ s, μ {s} = 0) (η : ℝ) (hη : 0 < η) :
    ∃ (S : Finset ℝ) (ρ : ℝ), 0 < ρ ∧ ∀ G : ℝ → ℝ, Monotone G → (∀ t, 0 ≤ G t ∧ G t ≤ 1) → (∀ t ∈ S, |G t - cdf μ t| ≤ ρ) → ∀ t, |G t - cdf μ t| ≤ η := by
  by_contra hcon
  push Not at hcon
  have hT : ∀ K k : ℕ, ∃ t, 0 < k → k < K → cdf μ t = (k : ℝ) / K := fun K k => by
    by_cases h : 0 < k ∧ k < K
    · have hK : (0 : ℝ) < K := by exact_mod_cast (by omega : 0 < K)
      have hk : (0 : ℝ) < k := by exact_mod_cast h.1
      have hkK : (k : ℝ) < K := by exact_mod_cast h.2
      obtain ⟨t, ht⟩ := BrodyC.cdf_value ha (v := (k : ℝ) / K) (by positivity) (by rw [div_lt_one hK]; exact hkK)
      exact ⟨t, fun _ _ => ht⟩
    · exact ⟨0, fun h1 h2 => absurd ⟨h1, h2⟩ h⟩
  choose T hT using hT
  have hN := fun N : ℕ => hcon ((Finset.range (N + 1) ×ˢ Finset.range (N + 1)).image fun p => T p.1 p.2) (1 / ((N : ℝ) + 1)) (by positivity)
  choose G hG1 hG2 hG3 t ht using hN
  have key := BrodyC.polya (F := cdf μ) (monotone_cdf μ) (fun t => ⟨cdf_nonneg μ t, cdf_le_one μ t⟩) (G := G) hG1 hG2 T hT (fun K k h1 h2 => by
    rw [← hT K k h1 h2, Metric.tendsto_atTop]
    intro e he
    obtain ⟨N, hN⟩ := exists_nat_one_div_lt he
    refine ⟨max N K, fun n hn => ?_⟩
    rw [Real.dist_eq]
    refine lt_of_le_of_lt (hG3 n (T K k) ?_) ?_
    · refine Finset.mem_image.mpr ⟨(K, k), ?_, rfl⟩
      simp only [Finset.mem_product, Finset.mem_range]
      have := le_max_right N K
      omega
    · refine lt_of_le_of_lt ?_ hN
      have : (N : ℝ) ≤ n := by exact_mod_cast (le_max_left N K).trans hn
      exact one_div_le_one_div_of_le (by positivity) (by linarith)) η hη
  obtain ⟨n, hn⟩ := key.exists
  exact absurd (hn (t n)) (not_le.mpr (ht n))

variable {Ω : Type} [MeasurableSpace Ω]

theorem tendsto_finset {ι : Type} (P : ℕ → Measure Ω) (S : Finset ι) (E : ι → ℕ → Set Ω) (h : ∀ t ∈ S, Tendsto (fun n => P n (E t n)) atTop (𝓝 0)) :
    Tendsto (fun n => P n (⋃ t ∈ S, E t n)) atTop (𝓝 0) := by
  have h1 : Tendsto (fun n => ∑ t ∈ S, P n (E t n)) atTop (𝓝 0) := by
    have := tendsto_finsetSum (f := fun t n => P n (E t n)) (a := fun _ => 0) S h
    simpa using this
  exact tendsto_of_tendsto_of_tendsto_of_le_of_le tendsto_const_nhds h1 (fun n => zero_le) fun n => measure_biUnion_finset_le S fun t => E t n

/-- Random spectra whose levels, divided by `a n`, are distributed according to `μ` in the limit. -/
structure SpectralLimit (P : ℕ → Measure Ω) (l : ℕ → Ω → List ℝ) (a : ℕ → ℝ) (μ : Measure ℝ) : Prop where
  /-- `n` ascending levels -/
  sorted : ∀ n ω, (l n ω).length = n ∧ Ascending (l n ω)
  /-- the scale is positive -/
  scale : ∀ᶠ n in atTop, 0 < a n
  /-- the fraction of levels -/
  frac : ∀ t : ℝ, InProbability P (fun n ω => (countLE (l n ω) (t * a n) : ℝ) / n) (cdf μ t)
  /-- the moments -/
  moment : ∀ k : ℕ, InProbability P (fun n ω => ((l n ω).map fun x : ℝ => (x / a n) ^ k).sum / n) (∫ x, x ^ k ∂μ)

/-- With probability tending to 1, the least-squares polynomial of a random spectrum is near the best one. -/
theorem ls_limit (P : ℕ → Measure Ω) (l : ℕ → Ω → List ℝ) (a : ℕ → ℝ) (μ : Measure ℝ) [IsProbabilityMeasure μ] (ha : ∀ s, μ {s} = 0) (hm : ∀ k : ℕ, Integrable (fun x : ℝ => x ^ k) μ)
    (h : SpectralLimit P l a μ) (d : ℕ) (q : Polynomial ℝ) (hqd : q.natDegree ≤ d) (hq : ∀ p : Polynomial ℝ, p.natDegree ≤ d → ∫ x, (cdf μ x - q.eval x) ^ 2 ∂μ ≤ ∫ x, (cdf μ x - p.eval x) ^ 2 ∂μ)
    (ε : ℝ) (hε : 0 < ε) :
    ∃ E : ℕ → Set Ω, Tendsto (fun n => P n (E n)) atTop (𝓝 0) ∧ ∀ᶠ n in atTop, ∀ ω, ω ∉ E n → ∀ c : List ℝ, IsPolyLS c (l n ω) ((List.range n).map fun (i : ℕ) => (i : ℝ) + 1) d →
      (∑ j : Fin (d + 1), |c.getD j 0 * a n ^ (j : ℕ) / n - q.coeff j| ≤ ε) ∧
      |fitError (l n ω) ((List.range n).map fun (i : ℕ) => (i : ℝ) + 1) (polyAt c) / n / n ^ 2 - ∫ x, (cdf μ x - q.eval x) ^ 2 ∂μ| ≤ ε := by
  obtain ⟨q', hq'd, hq'1, hq'2, hls⟩ := ls_close μ ha hm d
  obtain rfl : q = q' := hq'2 q hqd (hq q' hq'd)
  obtain ⟨η, hη, n0, hcl⟩ := hls ε hε
  obtain ⟨S, ρ, hρ, hgrid⟩ := cdf_grid μ ha η hη
  refine ⟨fun n => (⋃ t ∈ S, {ω | ρ ≤ |(countLE (l n ω) (t * a n) : ℝ) / n - cdf μ t|}) ∪
      ⋃ k ∈ Finset.range (2 * d + 3), {ω | η ≤ |((l n ω).map fun x : ℝ => (x / a n) ^ k).sum / n - ∫ x, x ^ k ∂μ|}, ?_, ?_⟩
  · have h1 := tendsto_finset P S (fun t n => {ω | ρ ≤ |(countLE (l n ω) (t * a n) : ℝ) / n - cdf μ t|}) fun t _ => h.frac t ρ hρ
    have h2 := tendsto_finset P (Finset.range (2 * d + 3)) (fun k n => {ω | η ≤ |((l n ω).map fun x : ℝ => (x / a n) ^ k).sum / n - ∫ x, x ^ k ∂μ|}) fun k _ => h.moment k η hη
    have h3 := h1.add h2
    rw [add_zero] at h3
    exact tendsto_of_tendsto_of_tendsto_of_le_of_le tendsto_const_nhds h3 (fun n => zero_le) fun n => measure_union_le _ _
  · filter_upwards [h.scale, eventually_ge_atTop (max n0 1)] with n han hn ω hω c hc
    have hn1 : 1 ≤ n := (le_max_right _ _).trans hn
    have hnpos : (0 : ℝ) < n := by exact_mod_cast hn1
    obtain ⟨hlen, hasc⟩ := h.sorted n ω
    simp only [Set.mem_union, Set.mem_iUnion, Set.mem_ofPred_eq, not_or, not_exists, not_le] at hω
    obtain ⟨hω1, hω2⟩ := hω
    set L := (l n ω).map fun x => x / a n with hL
    have hLlen : L.length = n := by rw [hL, List.length_map, hlen]
    have hLasc : Ascending L := by
      unfold Ascending at hasc ⊢
      rw [hL, List.pairwise_map]
      exact hasc.imp fun hxy => div_le_div_of_nonneg_right hxy han.le
    have hcount : ∀ t, L.countP (fun x => decide (x ≤ t)) = countLE (l n ω) (t * a n) := fun t => by
      rw [hL, List.countP_map, countLE]
      congr 1
      ext x
      simp only [Function.comp_apply, div_le_iff₀ han]
    have hkol : ∀ t, |(L.countP (fun x => decide (x ≤ t)) : ℝ) / L.length - cdf μ t| ≤ η := by
      refine hgrid (fun t => (L.countP (fun x => decide (x ≤ t)) : ℝ) / L.length) (fun s t hst => ?_) (fun t => ⟨by positivity, ?_⟩) fun t ht => ?_
      · refine div_le_div_of_nonneg_right ?_ (by positivity)
        exact_mod_cast List.countP_mono_left fun x _ hx => by simp only [decide_eq_true_eq] at hx ⊢; exact hx.trans hst
      · refine div_le_one_of_le₀ ?_ (by positivity)
        exact_mod_cast List.countP_le_length
      · rw [hcount, hLlen]
        exact (hω1 t ht).le
    have hcoef : IsPolyLS ((List.ofFn fun j : Fin (d + 1) => c.getD j 0 * a n ^ (j : ℕ))) L ((List.range L.length).map fun (i : ℕ) => (i : ℝ) + 1) d ∧
        fitError L ((List.range L.length).map fun (i : ℕ) => (i : ℝ) + 1) (polyAt (List.ofFn fun j : Fin (d + 1) => c.getD j 0 * a n ^ (j : ℕ))) =
          fitError (l n ω) ((List.range n).map fun (i : ℕ) => (i : ℝ) + 1) (polyAt c) := by
      have hval : ∀ (c : List ℝ) (b : ℝ), c.length = d + 1 → ∀ x, polyAt (List.ofFn fun j : Fin (d + 1) => c.getD j 0 * b ^ (j : ℕ)) x = polyAt c (b * x) := fun c b hcl x => by
        simp only [polyAt, hcl, List.length_ofFn, Finset.sum_range]
        refine Finset.sum_congr rfl fun j _ => ?_
        rw [List.getD_eq_getElem?_getD, List.getElem?_ofFn, dif_pos j.isLt]
        simp only [Option.getD_some, mul_pow]
        ring
      have hback : ∀ f : ℝ → ℝ, fitError L ((List.range L.length).map fun (i : ℕ) => (i : ℝ) + 1) f = fitError (l n ω) ((List.range n).map fun (i : ℕ) => (i : ℝ) + 1) fun x => f (x / a n) := fun f => by
        rw [hLlen, hL, fitError, fitError, List.zipWith_map_left]
      have e1 : fitError L ((List.range L.length).map fun (i : ℕ) => (i : ℝ) + 1) (polyAt (List.ofFn fun j : Fin (d + 1) => c.getD j 0 * a n ^ (j : ℕ))) =
          fitError (l n ω) ((List.range n).map fun (i : ℕ) => (i : ℝ) + 1) (polyAt c) := by
        rw [hback]
        congr 1
        ext x
        rw [hval c _ hc.1, mul_div_cancel₀ _ han.ne']
      refine ⟨⟨by simp, fun c' hc' => ?_⟩, e1⟩
      rw [e1, hback]
      have e2 : (fun x => polyAt c' (x / a n)) = polyAt (List.ofFn fun j : Fin (d + 1) => c'.getD j 0 * (a n)⁻¹ ^ (j : ℕ)) := funext fun x => by
        rw [hval c' _ hc', div_eq_inv_mul]
      rw [e2]
      exact hc.2 _ (by simp)
    obtain ⟨r1, r2⟩ := hcl L hLasc (by rw [hLlen]; exact (le_max_left _ _).trans hn) (by intro h0; rw [h0] at hLlen; simp at hLlen; omega) hkol (fun k hk => by
      rw [hL, List.map_map, ← hL, hLlen]
      exact (hω2 k (Finset.mem_range.mpr (by omega))).le) _ hcoef.1
    rw [hcoef.2, hLlen] at r2
    rw [hLlen] at r1
    refine ⟨?_, r2⟩
    refine le_trans (le_of_eq (Finset.sum_congr rfl fun j _ => ?_)) r1
    rw [List.getD_eq_getElem?_getD (l := List.ofFn _), List.getElem?_ofFn, dif_pos j.isLt]
    rfl

end RMT.PolyLim
