import Verif.Props.ComputedUnfold
import Verif.Lemmas.LocalAverages

/-! # C192: semicircle unfolding of computed spectra -/

namespace RMT
namespace Props
open Gen EigValsM EigM Unfold Smooth MeasureTheory ProbabilityTheory Spec Gauss Inertia Semi Weyl Helpers Analytic
open Real Set Filter Topology

variable {σ Ω : Type} [MeasurableSpace Ω]

theorem spacing_pointwise (l : List ℝ) (n : ℕ) (h3 : 1 < n) (a1 : l.length = n) (a2 : Ascending l) (a3 : ∀ v ∈ l, 0 ≤ v ∧ v ≤ n) (ε : ℝ) (hε0 : 0 < ε) :
    |avg (gaps l) - 1| ≤ 2 * (2 * ε + (|(countLE l (ε * n) : ℝ) / n - ε| + |(countLE l ((1 - ε) * n) : ℝ) / n - (1 - ε)|) / ε) + 1 / ((n : ℝ) - 1) := by
  have hn2 : (2 : ℝ) ≤ n := by exact_mod_cast h3
  have hn0 : (0 : ℝ) < n := by linarith
  rw [avg_gaps l n a1 (by omega)]
  have hmem : ∀ i, i < n → l.getD i 0 ∈ l := by
    intro i hi
    rw [List.getD_eq_getElem?_getD, List.getElem?_eq_getElem (by omega), Option.getD_some]
    exact List.getElem_mem _
  have b0 := a3 _ (hmem 0 (by omega))
  have b1 := a3 _ (hmem (n - 1) (by omega))
  have b2 : l.getD 0 0 ≤ l.getD (n - 1) 0 := by
    rw [List.getD_eq_getElem?_getD, List.getD_eq_getElem?_getD, List.getElem?_eq_getElem (by omega), List.getElem?_eq_getElem (by omega), Option.getD_some, Option.getD_some]
    exact List.pairwise_iff_getElem.mp a2 0 (n - 1) (by omega) (by omega) (by omega)
  have hz := countLE_zero l n (by omega) a1 a2
  have ho := countLE_all l n (by omega) a1 a2
  generalize l.getD 0 0 = m at *
  generalize l.getD (n - 1) 0 = M at *
  have hb := span_bound (m / n) (M / n) ((countLE l (ε * n) : ℝ) / n) ((countLE l ((1 - ε) * n) : ℝ) / n) ε hε0
    (div_nonneg b0.1 hn0.le) (by rw [div_le_one hn0]; exact b1.2) (by gcongr)
    (fun h => by rw [lt_div_iff₀ hn0] at h; rw [hz _ h]; simp)
    (fun h => by rw [div_le_iff₀ hn0] at h; rw [ho _ h]; exact div_self hn0.ne')
  have hc1 : (0 : ℝ) < n - 1 := by linarith
  have e : (M - m) / ((n : ℝ) - 1) - 1 = (M / n - m / n - 1) * (n / (n - 1)) + 1 / (n - 1) := by
    field_simp
    ring
  rw [e]
  have hr : (n : ℝ) / (n - 1) ≤ 2 := by rw [div_le_iff₀ hc1]; linarith
  have hr0 : 0 ≤ (n : ℝ) / (n - 1) := by positivity
  refine (abs_add_le _ _).trans ?_
  rw [abs_mul, abs_of_nonneg hr0, abs_of_nonneg (show 0 ≤ 1 / ((n : ℝ) - 1) by positivity)]
  nlinarith [abs_nonneg (M / n - m / n - 1)]

/-- The unfolded values fill `[0, n]` evenly, with mean spacing 1, in the limit in probability. -/
structure EvenInProbability (P : ℕ → Measure Ω) (u : ℕ → Ω → List ℝ) : Prop where
  /-- the fraction of values at most `t n` -/
  fraction : ∀ t : ℝ, 0 ≤ t → t ≤ 1 → InProbability P (fun n ω => (countLE (u n ω) (t * n) : ℝ) / n) t
  /-- the mean spacing -/
  spacing : InProbability P (fun n ω => avg (gaps (u n ω))) 1

theorem even_spacing (P : ℕ → Measure Ω) (u : ℕ → Ω → List ℝ) (hu : ∀ᶠ n in atTop, ∀ ω, (u n ω).length = n ∧ Ascending (u n ω) ∧ ∀ v ∈ u n ω, 0 ≤ v ∧ v ≤ n)
    (hf : ∀ t : ℝ, 0 ≤ t → t ≤ 1 → InProbability P (fun n ω => (countLE (u n ω) (t * n) : ℝ) / n) t) : InProbability P (fun n ω => avg (gaps (u n ω))) 1 := by
  refine inProb_of_cover _ _ fun ε hε => ?_
  set η := min (1 / 2) (ε / 16) with hη
  have h0 : 0 < η := lt_min (by norm_num) (by positivity)
  have h1 : η ≤ 1 / 2 := min_le_left _ _
  have h2 : η ≤ ε / 16 := min_le_right _ _
  refine ⟨_, _, fun _ => ∅, hf η h0.le (by linarith) (η * (ε / 16)) (by positivity), hf (1 - η) (by linarith) (by linarith) (η * (ε / 16)) (by positivity), by simp, ?_⟩
  have hlim : Tendsto (fun n : ℕ => 1 / ((n : ℝ) - 1)) atTop (𝓝 0) :=
    tendsto_const_nhds.div_atTop (tendsto_atTop_add_const_right _ _ tendsto_natCast_atTop_atTop)
  filter_upwards [hu, eventually_gt_atTop 1, hlim.eventually_lt_const (show (0 : ℝ) < ε / 4 by positivity)] with n hn h3 h4 ω hω
  by_contra hcon
  simp only [Set.union_empty, Set.mem_union, not_or] at hcon
  have c1 : |(countLE (u n ω) (η * n) : ℝ) / n - η| < η * (ε / 16) := not_le.1 hcon.1
  have c2 : |(countLE (u n ω) ((1 - η) * n) : ℝ) / n - (1 - η)| < η * (ε / 16) := not_le.1 hcon.2
  have hp := spacing_pointwise (u n ω) n h3 (hn ω).1 (hn ω).2.1 (hn ω).2.2 η h0
  have c3 : (|(countLE (u n ω) (η * n) : ℝ) / n - η| + |(countLE (u n ω) ((1 - η) * n) : ℝ) / n - (1 - η)|) / η ≤ ε / 8 := by
    rw [div_le_iff₀ h0]
    linarith
  linarith

theorem count_unfolded (l : List ℝ) (n : ℕ) (hn : 0 < n) (b : ℝ) (h1 : -2 ≤ b) (h2 : b < 2) : countLE (l.map (smoothGoe n)) (F b * n) = countLE l (b * √(n / 2)) := by
  have hn' : (0 : ℝ) < n := by exact_mod_cast hn
  have hp : 0 < √((n : ℝ) / 2) := Real.sqrt_pos.2 (by positivity)
  have e1 : √(2 / (n : ℝ)) * √((n : ℝ) / 2) = 1 := by
    rw [← Real.sqrt_mul (by positivity)]
    have : 2 / (n : ℝ) * (n / 2) = 1 := by field_simp
    rw [this, Real.sqrt_one]
  unfold countLE
  rw [List.countP_map]
  refine List.countP_congr fun x _ => ?_
  simp only [Function.comp, decide_eq_true_eq]
  rw [smooth_eq n hn, mul_comm (F b), mul_le_mul_iff_right₀ hn', F_le_iff b h1 h2]
  have e2 : √(2 / (n : ℝ)) * x * √((n : ℝ) / 2) = x := by rw [mul_right_comm, e1, one_mul]
  constructor
  · intro h
    have := mul_le_mul_of_nonneg_right h hp.le
    rwa [e2] at this
  · intro h
    by_contra hc
    have := mul_lt_mul_of_pos_right (not_le.1 hc) hp
    rw [e2] at this
    linarith

theorem even_of_law (P : ℕ → Measure Ω) (l u : ℕ → Ω → List ℝ) (hlen : ∀ n ω, (l n ω).length = n ∧ Ascending (l n ω)) (hu : ∀ᶠ n in atTop, ∀ ω, u n ω = (l n ω).map (smoothGoe n))
    (hf : ∀ a : ℝ, InProbability P (fun n ω => (countLE (l n ω) (a * √(n / 2)) : ℝ) / n) ((semicircleLaw 2).real (Set.Iic a))) : EvenInProbability P u := by
  have hfacts : ∀ᶠ n in atTop, ∀ ω, (u n ω).length = n ∧ Ascending (u n ω) ∧ ∀ v ∈ u n ω, 0 ≤ v ∧ v ≤ n := by
    filter_upwards [hu] with n hn ω
    obtain ⟨v, -, -, h3, h4, h5, h6⟩ := C51_unfold (l n ω)
    rw [npSort_of_ascending _ (hlen n ω).2, (hlen n ω).1, ← hn ω] at h3
    rw [h3, (hlen n ω).1] at h5
    rw [h3] at h4
    rw [h3, (hlen n ω).1] at h6
    exact ⟨h5, h4, h6⟩
  have hfr : ∀ t : ℝ, 0 ≤ t → t ≤ 1 → InProbability P (fun n ω => (countLE (u n ω) (t * n) : ℝ) / n) t := by
    intro t h0 h1
    rcases lt_or_eq_of_le h1 with h1 | rfl
    · obtain ⟨b, hb1, hb2, rfl⟩ := exists_quantile t h0 h1
      refine UniformM.inProb_congr' _ _ _ ?_ (hf b)
      filter_upwards [hu, eventually_gt_atTop 0] with n hn h0
      refine Eventually.of_forall fun ω => ?_
      rw [hn ω, count_unfolded _ n h0 b hb1 hb2]
    · refine UniformM.inProb_congr' (fun _ _ => (1 : ℝ)) _ _ ?_ fun ε hε => by simp [not_le.2 hε]
      filter_upwards [hfacts, eventually_gt_atTop 0] with n hn h0
      refine Eventually.of_forall fun ω => ?_
      have hn0 : (n : ℝ) ≠ 0 := by exact_mod_cast h0.ne'
      have : countLE (u n ω) (1 * (n : ℝ)) = n := by
        have h9 : (u n ω).countP (fun e => decide (e ≤ 1 * (n : ℝ))) = (u n ω).length := by
          rw [List.countP_eq_length]
          intro x hx
          simpa using ((hn ω).2.2 x hx).2
        rw [countLE, h9, (hn ω).1]
      rw [this, div_self hn0]
  exact ⟨hfr, even_spacing P u hfacts hfr⟩

/-- **C192 (semicircle unfolding).** C148 with a real eigenvalue routine: for `generate(n, "goe", use_tridiagonal=True).unfold_goe()` with a backward stable routine as in C192 (tridiagonal), the unfolded values fill `[0, n]` evenly, with mean spacing 1, in the limit. -/
theorem C192_semicircle (R : Rng σ) (eh : EigSolver) (ehC : (n : Nat) → Matrix (Fin n) (Fin n) ℂ → List ℝ) (δ : (n : ℕ) → Matrix (Fin n) (Fin n) ℝ → ℝ) (hs : BackwardStable eh δ)
    (c : ℕ → ℝ) (hδ : RelativeError δ c) (hc : Tendsto (fun n : ℕ => c n * √n) atTop (𝓝 0))
    (P : Nat → Measure Ω) [∀ n, IsProbabilityMeasure (P n)] (e s : Nat → Ω → σ)
    (hC : ∀ n > 500, ChiSquareDraws (P n) (n - 1) fun k ω => chiDraws R n (s n ω) k) (hZ : ∀ n > 500, NormalDraws (P n) fun k ω => diagDraws R n (s n ω) k)
    (hi : ∀ n > 500, IndepFun (fun ω => chiDraws R n (s n ω)) (fun ω => diagDraws R n (s n ω)) (P n)) :
    ∃ (vals : Nat → Ω → List ℝ) (u : Nat → Ω → Unfolded ℝ), (∀ n, GeneratedVals R eh ehC n .goe true (e n) (s n) (vals n)) ∧ (∀ n ω, unfoldGoe (vals n ω) = .ok (u n ω)) ∧
      EvenInProbability P fun n ω => (u n ω).vals := by
  obtain ⟨l, hl, hf⟩ := C154_tridiagonal R eh ehC δ hs c hδ hc P e s hC hZ hi
  have hg : ∀ n, GeneratedVals R eh ehC n .goe true (e n) (s n) fun ω => npSort (eh n (goeMatrix R n none true (s n ω)).1) := fun n ω => (C49_values R eh ehC n none true (e n ω) (s n ω)).1
  obtain rfl : l = fun n ω => npSort (eh n (goeMatrix R n none true (s n ω)).1) := funext fun n => Props.generated_unique _ _ _ _ _ _ _ _ _ _ (hl n) (hg n)
  have hlen : ∀ n ω, (npSort (eh n (goeMatrix R n none true (s n ω)).1)).length = n := fun n ω => by
    have hM := (C49_symmetric R n none true (s n ω)).1
    rw [← (backward_within eh δ hs n _ hM).length_eq]
    have := Multiset.coe_card (npSort (exactRoutine n (goeMatrix R n none true (s n ω)).1))
    rw [← this, show ((npSort (exactRoutine n (goeMatrix R n none true (s n ω)).1) : List ℝ) : Multiset ℝ) = _ from sorted_roots _, (hermitian_of_symm hM).roots_charpoly_eq_eigenvalues]
    simp
  choose u h1 h2 h3 using fun n ω => C51_unfold (npSort (eh n (goeMatrix R n none true (s n ω)).1))
  refine ⟨_, u, hg, h1, even_of_law P _ _ (fun n ω => ⟨hlen n ω, npSort_ascending _⟩) (Eventually.of_forall fun n ω => ?_) hf⟩
  rw [(h3 n ω).1, npSort_of_ascending _ (npSort_ascending _), hlen n ω]

/-- **C192 (`goe_unfolded`).** The same for `goe_unfolded(n)`: it never fails, and the unfolded values fill `[0, n]` evenly, with mean spacing 1, in the limit. -/
theorem C192_goe_unfolded (R : Rng σ) (eh : EigSolver) (δ : (n : ℕ) → Matrix (Fin n) (Fin n) ℝ → ℝ) (hs : BackwardStable eh δ)
    (c : ℕ → ℝ) (hδ : RelativeError δ c) (hc : Tendsto (fun n : ℕ => c n * √n) atTop (𝓝 0))
    (P : Nat → Measure Ω) [∀ n, IsProbabilityMeasure (P n)] (s : Nat → Ω → σ)
    (hC : ∀ n > 500, ChiSquareDraws (P n) (n - 1) fun k ω => chiDraws R n (s n ω) k) (hZ : ∀ n > 500, NormalDraws (P n) fun k ω => diagDraws R n (s n ω) k)
    (hi : ∀ n > 500, IndepFun (fun ω => chiDraws R n (s n ω)) (fun ω => diagDraws R n (s n ω)) (P n)) :
    ∃ u : Nat → Ω → Unfolded ℝ, (∀ n ω, (goeUnfoldedRun R eh n (s n ω)).1 = .ok (u n ω)) ∧ EvenInProbability P fun n ω => (u n ω).vals := by
  obtain ⟨l, hl, hf⟩ := C154_tridiagonal R eh (fun _ _ => []) δ hs c hδ hc P s s hC hZ hi
  have hg : ∀ n, GeneratedVals R eh (fun _ _ => []) n .goe true (s n) (s n) fun ω => npSort (eh n (goeMatrix R n none true (s n ω)).1) := fun n ω => (C49_values R eh (fun _ _ => []) n none true (s n ω) (s n ω)).1
  obtain rfl : l = fun n ω => npSort (eh n (goeMatrix R n none true (s n ω)).1) := funext fun n => Props.generated_unique _ _ _ _ _ _ _ _ _ _ (hl n) (hg n)
  have hlen : ∀ n (M : Matrix (Fin n) (Fin n) ℝ), M.IsSymm → (npSort (eh n M)).length = n := fun n M hM => by
    rw [← (backward_within eh δ hs n _ hM).length_eq]
    have := Multiset.coe_card (npSort (exactRoutine n M))
    rw [← this, show ((npSort (exactRoutine n M) : List ℝ) : Multiset ℝ) = _ from sorted_roots _, (hermitian_of_symm hM).roots_charpoly_eq_eigenvalues]
    simp
  have hrun : ∀ n ω, ∃ u, (goeUnfoldedRun R eh n (s n ω)).1 = .ok u ∧ u.vals = (npSort (eh n (generateGOETridiagonal R n none (s n ω)).1)).map (smoothGoe (eh n (generateGOETridiagonal R n none (s n ω)).1).length) := by
    intro n ω
    obtain ⟨u, h1, -, h2, -⟩ := C51_unfold (eh n (generateGOETridiagonal R n none (s n ω)).1)
    refine ⟨u, ?_, h2⟩
    have hsym : (generateGOETridiagonal R n none (s n ω)).1.IsSymm := by
      rw [goe_tri_draws]
      exact tridiagonalOf_symm _ _ _
    have hl := hlen n _ hsym
    rw [(npSort_perm _).length_eq] at hl
    simp only [goeUnfoldedRun]
    rw [C51_goe_unfolded _ _ hl, h1]
  choose u h1 h2 using hrun
  refine ⟨u, h1, even_of_law P _ _ (fun n ω => ⟨hlen n _ (C49_symmetric R n none true (s n ω)).1, npSort_ascending _⟩) ?_ hf⟩
  filter_upwards [eventually_gt_atTop 500] with n hn ω
  have hM := (C49_symmetric R n none true (s n ω)).1
  have e : (goeMatrix R n none true (s n ω)) = generateGOETridiagonal R n none (s n ω) := by rw [goeMatrix, if_pos ⟨hn, rfl⟩]
  have hl' := hlen n _ hM
  rw [e, (npSort_perm _).length_eq] at hl'
  rw [h2 n ω, hl', e]

end Props
end RMT
