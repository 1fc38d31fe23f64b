import Verif.Lemmas.WeakLimit
import Verif.Props.BrodyPoisson
import Verif.Props.SpacingMoments

/-!
# C156, C168: means over the spacings of a generated Poisson spectrum, and the deviations reported by the Brody fit
-/

namespace RMT
namespace Props
open Gen EigValsM EigM Unfold MeasureTheory ProbabilityTheory Spec UniformM Ensembles Brody BrodyC
open Real Filter
open scoped Topology

variable {σ Ω : Type} [MeasurableSpace Ω]

/-! ## The exponential law -/

theorem brodyDist_zero (s : ℝ) : brodyDist s 0 = exp (-s) := by
  unfold brodyDist
  rw [brodyAlpha_zero]
  norm_num

theorem exp_law_cdf (d : ℝ) : (law 0).real (Set.Iic d) = poissonCdf d := by
  have := (law_spacing 0 le_rfl).prob
  rcases lt_or_ge 0 d with hd | hd
  · have h := law_cdf (b := 0) le_rfl hd
    rw [cdf_eq_real] at h
    rw [h, brodyCdf, brodyAlpha_zero, poissonCdf, clip0, max_eq_left hd.le]
    norm_num
  · have h0 : (law 0) (Set.Iic d) = 0 := by
      have h1 := (law_spacing 0 le_rfl).pos
      rw [ae_iff] at h1
      exact measure_mono_null (fun x hx => by
        simp only [Set.mem_ofPred_eq, not_lt]
        exact le_trans hx hd) h1
    rw [measureReal_def, h0, poissonCdf, clip0, max_eq_right hd]
    norm_num

theorem exp_law_integral (f : ℝ → ℝ) : ∫ s, f s ∂(law 0) = ∫ s in Set.Ioi (0 : ℝ), f s * exp (-s) := by
  rw [law_integral 0 le_rfl]
  refine setIntegral_congr_fun measurableSet_Ioi fun s _ => ?_
  simp only [brodyDist_zero, mul_comm]

theorem list_means_close (f : ℝ → ℝ) (hf : Continuous f) (C : ℝ) (hC : ∀ x, |f x| ≤ C) (ε : ℝ) (hε : 0 < ε) :
    ∃ η : ℝ, 0 < η ∧ ∀ l : List ℝ, l ≠ [] → (∀ d, |(l.countP (fun x => decide (x ≤ d)) : ℝ) / l.length - poissonCdf d| ≤ η) →
      |Spec.avg (l.map f) - ∫ s in Set.Ioi (0 : ℝ), f s * exp (-s)| < ε := by
  have := (law_spacing 0 le_rfl).prob
  obtain ⟨η, hη, h⟩ := Weak.means_close (law 0) f hf C hC ε hε
  refine ⟨η, hη, fun l hl hd => ?_⟩
  have hp := Weak.empirical_prob l hl
  have := h (Weak.empiricalLaw l) hp fun d => by rw [Weak.empirical_cdf l hl, exp_law_cdf]; exact hd d
  rw [Weak.empirical_integral, exp_law_integral] at this
  simpa [Spec.avg] using this

omit [MeasurableSpace Ω] in
theorem gaps_length_poisson (R : Rng σ) (e : Ω → σ) (n : ℕ) (ω : Ω) : (gaps (normalUnfold n (poissonVals R e n ω))).length = n - 1 := nbr_length R e n 1 ω

/-- **C156 (means).** For one spectrum of `generate(n, "poisson")`, unfolded exactly, the mean of every bounded continuous function of the nearest-neighbour spacings tends in probability to its mean under the
Poisson spacing law. -/
theorem C156_means (R : Rng σ) (eh : EigSolver) (ehC : (n : Nat) → Matrix (Fin n) (Fin n) ℂ → List ℝ) (P : ℕ → Measure Ω) [∀ n, IsProbabilityMeasure (P n)] (e s : ℕ → Ω → σ)
    (hX : ∀ n, NormalDraws (P n) fun k ω => draw R (e n ω) k) (tri : Bool) :
    ∃ vals : ℕ → Ω → List ℝ, (∀ n, GeneratedVals R eh ehC n .poisson tri (e n) (s n) (vals n)) ∧
      ∀ (f : ℝ → ℝ) (C : ℝ), Continuous f → (∀ x, |f x| ≤ C) →
        InProbability P (fun n ω => Spec.avg ((gaps (normalUnfold n (vals n ω))).map f)) (∫ t in Set.Ioi (0 : ℝ), f t * poissonDensity t) := by
  obtain ⟨vals, hv, h⟩ := C156_spacings R eh ehC P e s hX tri
  have hvals : vals = fun n => poissonVals R (e n) n :=
    funext fun n => generated_unique R eh ehC n _ tri (e n) (s n) _ _ (hv n) (poissonVals_generated R eh ehC (e n) (s n) n tri)
  refine ⟨vals, hv, fun f C hf hC ε hε => ?_⟩
  obtain ⟨η, hη, hcl⟩ := list_means_close f hf C hC ε hε
  refine tendsto_of_tendsto_of_tendsto_of_le_of_le' tendsto_const_nhds (h η hη) (Eventually.of_forall fun n => zero_le) ?_
  filter_upwards [eventually_ge_atTop 2] with n hn
  refine measure_mono fun ω hω => ?_
  by_contra hcon
  simp only [Set.mem_ofPred_eq, not_exists, not_le] at hcon
  have hlen : (gaps (normalUnfold n (vals n ω))).length = n - 1 := by rw [hvals]; exact gaps_length_poisson R (e n) n ω
  have hcast : ((n - 1 : ℕ) : ℝ) = (n : ℝ) - 1 := by push_cast [show 1 ≤ n by omega]; ring
  have := hcl (gaps (normalUnfold n (vals n ω))) (by intro h0; rw [h0] at hlen; simp at hlen; omega) fun d => by rw [hlen, hcast]; exact (hcon d).le
  exact absurd this (not_lt.mpr (by simpa [poissonDensity] using hω))

/-! ## The deviations reported by the fit -/

/-- In an ascending list whose distribution function is within `η` of a continuous one, the `i`-th entry has rank near `F`. -/
theorem rank_close (l : List ℝ) (hs : Ascending l) (F : ℝ → ℝ) (hF : Continuous F) (η : ℝ) (h : ∀ d, |(l.countP (fun x => decide (x ≤ d)) : ℝ) / l.length - F d| ≤ η)
    (i : ℕ) (hi : i < l.length) : |((i : ℝ) + 1) / l.length - F l[i]| ≤ η + 1 / l.length := by
  have hn : (0 : ℝ) < l.length := by exact_mod_cast (by omega : 0 < l.length)
  have hmono : ∀ a b (ha : a < l.length) (hb : b < l.length), a ≤ b → l[a] ≤ l[b] := fun a b ha hb hab => by
    rcases hab.lt_or_eq with h1 | rfl
    · exact List.pairwise_iff_getElem.mp hs a b ha hb h1
    · exact le_rfl
  have c1 : i + 1 ≤ l.countP (fun x => decide (x ≤ l[i])) := by
    have h1 : (l.take (i + 1)).countP (fun x => decide (x ≤ l[i])) ≤ l.countP (fun x => decide (x ≤ l[i])) := (List.take_sublist _ _).countP_le
    have h2 : (l.take (i + 1)).countP (fun x => decide (x ≤ l[i])) = (l.take (i + 1)).length := by
      rw [List.countP_eq_length]
      intro x hx
      obtain ⟨j, hj, rfl⟩ := List.getElem_of_mem hx
      rw [List.length_take] at hj
      simp only [List.getElem_take, decide_eq_true_eq]
      exact hmono j i (by omega) hi (by omega)
    rw [h2, List.length_take] at h1
    omega
  have c2 : ∀ d < l[i], l.countP (fun x => decide (x ≤ d)) ≤ i := by
    intro d hd
    have h1 : l.countP (fun x => decide (x ≤ d)) = (l.take i).countP (fun x => decide (x ≤ d)) + (l.drop i).countP (fun x => decide (x ≤ d)) := by
      rw [← List.countP_append, List.take_append_drop]
    have h2 : (l.drop i).countP (fun x => decide (x ≤ d)) = 0 := by
      rw [List.countP_eq_zero]
      intro x hx
      obtain ⟨j, hj, rfl⟩ := List.getElem_of_mem hx
      rw [List.length_drop] at hj
      simp only [List.getElem_drop, decide_eq_true_eq, not_le]
      exact lt_of_lt_of_le hd (hmono i (i + j) hi (by omega) (by omega))
    have h3 : (l.take i).countP (fun x => decide (x ≤ d)) ≤ (l.take i).length := List.countP_le_length
    rw [List.length_take] at h3
    omega
  have u1 : ((i : ℝ) + 1) / l.length ≤ F l[i] + η := by
    have h1 := (abs_le.mp (h l[i])).2
    have h2 : ((i : ℝ) + 1) / l.length ≤ (l.countP (fun x => decide (x ≤ l[i])) : ℝ) / l.length := div_le_div_of_nonneg_right (by exact_mod_cast c1) hn.le
    linarith
  have u2 : F l[i] ≤ (i : ℝ) / l.length + η := by
    have hev : ∀ᶠ d in 𝓝[<] l[i], F d ≤ (i : ℝ) / l.length + η := by
      filter_upwards [self_mem_nhdsWithin] with d hd
      have h1 := (abs_le.mp (h d)).1
      have h2 : (l.countP (fun x => decide (x ≤ d)) : ℝ) / l.length ≤ (i : ℝ) / l.length := div_le_div_of_nonneg_right (by exact_mod_cast c2 d hd) hn.le
      linarith
    exact le_of_tendsto (hF.continuousAt.tendsto.mono_left nhdsWithin_le_nhds) hev
  have e : ((i : ℝ) + 1) / l.length = (i : ℝ) / l.length + 1 / l.length := add_div _ _ _
  have hp : 0 ≤ 1 / (l.length : ℝ) := by positivity
  rw [abs_le]
  constructor <;> linarith

theorem zip_sum (φ : ℝ → ℝ → ℝ) (n : ℕ) (A : List ℝ) (hA : A.length = n) (hA' : ∀ i : Nat, i < n → A[i]? = some (((i : ℝ) + 1) / n)) (B : List ℝ) (hB : B.length = n) (g : ℝ → ℝ) :
    (List.zipWith φ A (B.map g)).sum = ∑ i : Fin n, φ (((i : ℝ) + 1) / n) (g (B[(i : ℕ)]'(by rw [hB]; exact i.isLt))) := by
  rw [← List.sum_ofFn]
  congr 1
  refine List.ext_getElem (by simp [hA, hB]) fun i h1 h2 => ?_
  have hi : i < n := by simpa using h2
  have := hA' i hi
  rw [List.getElem?_eq_getElem (by omega)] at this
  simp only [List.getElem_zipWith, List.getElem_map, List.getElem_ofFn]
  rw [Option.some.inj this]

theorem map_sum (f : ℝ → ℝ) (n : ℕ) (B : List ℝ) (hB : B.length = n) : (B.map f).sum = ∑ i : Fin n, f (B[(i : ℕ)]'(by rw [hB]; exact i.isLt)) := by
  subst hB
  rw [← List.sum_ofFn]
  congr 1
  exact (List.ofFn_getElem_eq_map B f).symm

/-- Means of a Lipschitz function of rank and fitted distribution function. -/
theorem columns_close (φ : ℝ → ℝ → ℝ) (hφc : Continuous fun p : ℝ × ℝ => φ p.1 p.2) (hφb : ∀ u v, 0 ≤ u → u ≤ 1 → 0 ≤ v → v ≤ 1 → |φ u v| ≤ 1)
    (hφ : ∀ u v u' v', 0 ≤ u ∧ u ≤ 1 → 0 ≤ v ∧ v ≤ 1 → 0 ≤ u' ∧ u' ≤ 1 → 0 ≤ v' ∧ v' ≤ 1 → |φ u v - φ u' v'| ≤ 2 * (|u - u'| + |v - v'|))
    (best : ℝ) (hbest : best ∈ Set.Icc (0 : ℝ) 1) (ε : ℝ) (hε : 0 < ε) :
    ∃ η δ : ℝ, 0 < η ∧ 0 < δ ∧ ∀ l : List ℝ, 1 / η ≤ l.length → (∀ x ∈ l, 0 < x) → (∀ d, |(l.countP (fun x => decide (x ≤ d)) : ℝ) / l.length - poissonCdf d| ≤ η) →
      Spec.avg (l.map fun x : ℝ => x ^ 3) ≤ 7 → ∀ b ∈ Set.Icc (0 : ℝ) 1, |b - best| < δ → ∀ A : List ℝ, A.length = l.length → (∀ i : Nat, i < l.length → A[i]? = some (((i : ℝ) + 1) / l.length)) →
        |(List.zipWith φ A ((npSort l).map fun x => brodyCdf x b)).sum / l.length - ∫ t in Set.Ioi (0 : ℝ), φ (poissonCdf t) (brodyCdf t best) * exp (-t)| < ε := by
  have hPc : Continuous poissonCdf := by unfold poissonCdf clip0; fun_prop
  have hGc : Continuous fun x : ℝ => brodyCdf (max x 0) best := by
    unfold brodyCdf
    have : Continuous fun x : ℝ => (max x 0) ^ (best + 1) := by
      refine Continuous.rpow_const (by fun_prop) fun x => Or.inr (by linarith [hbest.1])
    fun_prop
  have hP0 : ∀ t, 0 ≤ poissonCdf t ∧ poissonCdf t ≤ 1 := fun t => by
    unfold poissonCdf clip0
    have h1 : exp (-max t 0) ≤ 1 := exp_le_one_iff.mpr (by linarith [le_max_right t 0])
    have h2 := exp_pos (-max t 0)
    constructor <;> linarith
  have hcdf : ∀ b ∈ Set.Icc (0 : ℝ) 1, ∀ x, 0 ≤ x → 0 ≤ brodyCdf x b ∧ brodyCdf x b ≤ 1 := fun b hb x hx =>
    ⟨((C68_cdf b (by linarith [hb.1])).2.2.1 _ hx).1, ((C68_cdf b (by linarith [hb.1])).2.2.1 _ hx).2.le⟩
  obtain ⟨η₁, hη₁, hcl⟩ := list_means_close (fun x => φ (poissonCdf x) (brodyCdf (max x 0) best)) (hφc.comp (hPc.prodMk hGc)) 1
    (fun x => hφb _ _ (hP0 x).1 (hP0 x).2 (hcdf best hbest _ (le_max_right x 0)).1 (hcdf best hbest _ (le_max_right x 0)).2) (ε / 3) (by positivity)
  -- the parameter
  have hα := brodyAlpha_continuousOn' best hbest
  obtain ⟨δ₁, hδ₁, hα1⟩ := Metric.continuousWithinAt_iff.mp hα (ε / 100) (by positivity)
  refine ⟨min η₁ (ε / 20), min δ₁ (ε / 100), lt_min hη₁ (by positivity), lt_min hδ₁ (by positivity), ?_⟩
  intro l hlen hpos hd h3 b hb hbb A hA hA'
  have hη0 : 0 < min η₁ (ε / 20) := lt_min hη₁ (by positivity)
  have hn : (0 : ℝ) < l.length := lt_of_lt_of_le (by positivity) hlen
  have hne : l ≠ [] := by rintro rfl; simp at hn
  have hinv : 1 / (l.length : ℝ) ≤ ε / 20 := by
    have : 1 / (l.length : ℝ) ≤ min η₁ (ε / 20) := by
      rw [div_le_iff₀ hn]
      rw [div_le_iff₀ hη0] at hlen
      linarith
    exact this.trans (min_le_right _ _)
  have m1 := hcl l hne fun d => (hd d).trans (min_le_left _ _)
  have e1 : ∫ t in Set.Ioi (0 : ℝ), φ (poissonCdf t) (brodyCdf (max t 0) best) * exp (-t) = ∫ t in Set.Ioi (0 : ℝ), φ (poissonCdf t) (brodyCdf t best) * exp (-t) :=
    setIntegral_congr_fun measurableSet_Ioi fun t ht => by
      have ht : (0 : ℝ) < t := ht
      simp only [max_eq_left ht.le]
  rw [e1] at m1
  set S := npSort l with hS
  have hperm : S.Perm l := npSort_perm l
  have hSl : S.length = l.length := hperm.length_eq
  have hSa : Ascending S := npSort_ascending l
  have hSd : ∀ d, |(S.countP (fun x => decide (x ≤ d)) : ℝ) / S.length - poissonCdf d| ≤ ε / 20 := fun d => by
    rw [hperm.countP_eq, hSl]; exact (hd d).trans (min_le_right _ _)
  have hSp : ∀ i (hi : i < S.length), 0 < S[i] := fun i hi => hpos _ (hperm.subset (List.getElem_mem hi))
  have hαb : |brodyAlpha b - brodyAlpha best| < ε / 100 := by
    have := hα1 hb (by rw [Real.dist_eq]; exact lt_of_lt_of_le hbb (min_le_left _ _))
    rwa [Real.dist_eq] at this
  have hbb' : |b - best| < ε / 100 := lt_of_lt_of_le hbb (min_le_right _ _)
  have m2 : |(List.zipWith φ A (S.map fun x => brodyCdf x b)).sum / l.length - Spec.avg (l.map fun x => φ (poissonCdf x) (brodyCdf (max x 0) best))| ≤ 2 * (ε / 10) + 2 * (ε / 50 * 8) := by
    have q1 : Spec.avg (l.map fun x => φ (poissonCdf x) (brodyCdf (max x 0) best)) = (S.map fun x => φ (poissonCdf x) (brodyCdf (max x 0) best)).sum / l.length := by
      rw [Spec.avg, List.length_map, (hperm.map _).sum_eq]
    have q3 : (S.map fun x : ℝ => x ^ 3).sum ≤ 7 * (l.length : ℝ) := by
      rw [Spec.avg, List.length_map, div_le_iff₀ hn] at h3
      rw [(hperm.map _).sum_eq]
      exact h3
    rw [q1, zip_sum φ l.length A hA hA' S hSl, map_sum _ l.length S hSl, ← sub_div, ← Finset.sum_sub_distrib, abs_div, abs_of_pos hn, div_le_iff₀ hn]
    rw [map_sum _ l.length S hSl] at q3
    refine (Finset.abs_sum_le_sum_abs _ _).trans ?_
    have term : ∀ i ∈ (Finset.univ : Finset (Fin l.length)), |φ (((i : ℝ) + 1) / l.length) (brodyCdf (S[(i : ℕ)]'(by rw [hSl]; exact i.isLt)) b) -
        φ (poissonCdf (S[(i : ℕ)]'(by rw [hSl]; exact i.isLt))) (brodyCdf (max (S[(i : ℕ)]'(by rw [hSl]; exact i.isLt)) 0) best)|
        ≤ 2 * (ε / 10) + 2 * (ε / 50) * (1 + (S[(i : ℕ)]'(by rw [hSl]; exact i.isLt)) ^ 3) := by
      intro i _
      have hi : (i : ℕ) < S.length := by rw [hSl]; exact i.isLt
      have hx := hSp i hi
      rw [max_eq_left hx.le]
      have r0 := rank_close S hSa poissonCdf hPc (ε / 20) hSd i hi
      rw [hSl] at r0
      have hr1 : (0 : ℝ) ≤ ((i : ℝ) + 1) / l.length ∧ ((i : ℝ) + 1) / l.length ≤ 1 := by
        constructor
        · positivity
        · rw [div_le_one hn]; exact_mod_cast i.isLt
      have r1 := hφ _ _ _ _ hr1 (hcdf b hb _ hx.le) (hP0 S[(i : ℕ)]) (hcdf best hbest _ hx.le)
      have r2 := cdf_lip hb hbest hx
      have r3 : (|brodyAlpha b - brodyAlpha best| + |b - best|) * (1 + S[(i : ℕ)] ^ 3) ≤ (ε / 50) * (1 + S[(i : ℕ)] ^ 3) :=
        mul_le_mul_of_nonneg_right (by linarith) (by positivity)
      refine r1.trans ?_
      linarith
    refine (Finset.sum_le_sum term).trans ?_
    rw [Finset.sum_add_distrib, ← Finset.mul_sum Finset.univ _ (2 * (ε / 50)), Finset.sum_add_distrib]
    simp only [Finset.sum_const, Finset.card_univ, Fintype.card_fin, nsmul_eq_mul, mul_one]
    nlinarith
  have := abs_sub_le ((List.zipWith φ A (S.map fun x => brodyCdf x b)).sum / l.length) (Spec.avg (l.map fun x => φ (poissonCdf x) (brodyCdf (max x 0) best)))
    (∫ t in Set.Ioi (0 : ℝ), φ (poissonCdf t) (brodyCdf t best) * exp (-t))
  linarith

/-- **C168 (the deviations).** With an exact optimiser, the mean absolute and mean squared deviations reported by `Unfolded.fit_brody(method='spacing')` for one spectrum of `generate(n, "poisson")` unfolded exactly tend in
probability to the mean absolute and mean squared difference, under the Poisson spacing law, of the Poisson distribution function and the fitted one at the lower bound `1e-5`. -/
theorem C168_metrics (R : Rng σ) (eh : EigSolver) (ehC : (n : Nat) → Matrix (Fin n) (Fin n) ℂ → List ℝ) (P : ℕ → Measure Ω) [∀ n, IsProbabilityMeasure (P n)] (e s : ℕ → Ω → σ)
    (hX : ∀ n, NormalDraws (P n) fun k ω => draw R (e n ω) k) (tri : Bool) :
    ∃ vals : ℕ → Ω → List ℝ, (∀ n, GeneratedVals R eh ehC n .poisson tri (e n) (s n) (vals n)) ∧
      ∀ ε : ℝ, 0 < ε → Tendsto (fun n : ℕ => P n {ω | ¬ ∀ opt, ExactOptimizer opt → ∀ r, unfoldedFitBrody opt (normalUnfold n (vals n ω)) "spacing" = .ok r →
        |r.mad - ∫ t in Set.Ioi (0 : ℝ), |poissonCdf t - brodyCdf t 1e-5| * poissonDensity t| < ε ∧
        |r.msqd - ∫ t in Set.Ioi (0 : ℝ), (poissonCdf t - brodyCdf t 1e-5) ^ 2 * poissonDensity t| < ε}) atTop (𝓝 0) := by
  obtain ⟨vals, hv, hcrit⟩ := C168_criterion R eh ehC P e s hX tri
  obtain ⟨vals1, hv1, hcdf⟩ := C156_spacings R eh ehC P e s hX tri
  obtain ⟨vals2, hv2, hmom⟩ := C171_moments R eh ehC P e s hX tri
  have hu : ∀ v : ℕ → Ω → List ℝ, (∀ n, GeneratedVals R eh ehC n .poisson tri (e n) (s n) (v n)) → v = fun n => poissonVals R (e n) n := fun v hv =>
    funext fun n => generated_unique R eh ehC n _ tri (e n) (s n) _ _ (hv n) (poissonVals_generated R eh ehC (e n) (s n) n tri)
  rw [hu vals hv] at hcrit
  rw [hu vals1 hv1] at hcdf
  rw [hu vals2 hv2] at hmom
  refine ⟨vals, hv, fun ε hε => ?_⟩
  rw [hu vals hv]
  have hc0 : (1e-5 : ℝ) ∈ Set.Icc (0 : ℝ) 1 := by constructor <;> norm_num
  obtain ⟨η₁, δ₁, hη₁, hδ₁, hA⟩ := columns_close (fun u v => |u - v|) (by fun_prop)
    (fun u v h1 h2 h3 h4 => by simp only [abs_abs]; rw [abs_le]; constructor <;> linarith)
    (fun u v u' v' _ _ _ _ => by
      have h1 := abs_abs_sub_abs_le_abs_sub (u - v) (u' - v')
      have h2 : |u - v - (u' - v')| ≤ |u - u'| + |v - v'| := by
        rw [show u - v - (u' - v') = (u - u') - (v - v') by ring]; exact abs_sub _ _
      have h3 := abs_nonneg (u - u')
      have h4 := abs_nonneg (v - v')
      linarith) 1e-5 hc0 ε hε
  obtain ⟨η₂, δ₂, hη₂, hδ₂, hB⟩ := columns_close (fun u v => (u - v) ^ 2) (by fun_prop)
    (fun u v h1 h2 h3 h4 => by rw [abs_pow]; exact pow_le_one₀ (abs_nonneg _) (by rw [abs_le]; constructor <;> linarith))
    (fun u v u' v' h1 h2 h3 h4 => by
      have q : (u - v) ^ 2 - (u' - v') ^ 2 = ((u - u') - (v - v')) * ((u - v) + (u' - v')) := by ring
      rw [q, abs_mul]
      have h5 : |u - u' - (v - v')| ≤ |u - u'| + |v - v'| := abs_sub _ _
      have h6 : |(u - v) + (u' - v')| ≤ 2 := by rw [abs_le]; constructor <;> linarith [h1.1, h1.2, h2.1, h2.2, h3.1, h3.2, h4.1, h4.2]
      have := mul_le_mul h5 h6 (abs_nonneg _) (by positivity)
      linarith) 1e-5 hc0 ε hε
  obtain ⟨κ, hκ, hlim⟩ := hcrit (min δ₁ δ₂) (lt_min hδ₁ hδ₂)
  have hη : 0 < min η₁ η₂ := lt_min hη₁ hη₂
  have hsum := (hlim.add (hcdf (min η₁ η₂) hη)).add (hmom 3 1 one_pos)
  simp only [add_zero] at hsum
  refine tendsto_of_tendsto_of_tendsto_of_le_of_le' tendsto_const_nhds hsum (Eventually.of_forall fun n => zero_le) ?_
  filter_upwards [eventually_ge_atTop 2, eventually_ge_atTop (⌈1 / min η₁ η₂⌉₊ + 1)] with n hn hnη
  refine le_trans (measure_mono ?_) ((measure_union_le _ _).trans (add_le_add (measure_union_le _ _) le_rfl))
  intro ω hω
  by_contra hcon
  simp only [Set.mem_union, not_or] at hcon
  obtain ⟨⟨g1, g2⟩, g3⟩ := hcon
  simp only [Set.mem_ofPred_eq, not_not] at g1
  simp only [Set.mem_ofPred_eq, not_exists, not_le] at g2 g3
  obtain ⟨hp, hnear⟩ := g1
  refine hω fun opt hopt r hr => ?_
  have hasc : Ascending (normalUnfold n (poissonVals R (e n) n ω)) := (poisson_unfolded R (e n) n ω).1
  have hlen := gaps_length_poisson R (e n) n ω
  set S := gaps (normalUnfold n (poissonVals R (e n) n ω)) with hS
  have hne : S ≠ [] := by
    intro h0
    rw [h0, List.length_nil] at hlen
    omega
  have hcast : (S.length : ℝ) = (n : ℝ) - 1 := by rw [hlen]; push_cast [show 1 ≤ n by omega]; ring
  have hbig : 1 / min η₁ η₂ ≤ (S.length : ℝ) := by
    rw [hcast]
    have h1 := Nat.le_ceil (1 / min η₁ η₂)
    have h2 : ((⌈1 / min η₁ η₂⌉₊ + 1 : ℕ) : ℝ) ≤ n := by exact_mod_cast hnη
    push_cast at h2
    linarith
  have hd : ∀ d, |(S.countP (fun x => decide (x ≤ d)) : ℝ) / S.length - poissonCdf d| ≤ min η₁ η₂ := fun d => by rw [hcast]; exact (g2 d).le
  have h7 : Spec.avg (S.map fun x : ℝ => x ^ 3) ≤ 7 := by
    have h1 := (abs_lt.mp g3).2
    norm_num [Nat.factorial] at h1
    linarith
  have hC := C106_spacing_partial S hne hp
  have hsp : unfoldedFitBrody opt (normalUnfold n (poissonVals R (e n) n ω)) "spacing" = brodyFitEvaluate opt S "spacing" := by
    unfold unfoldedFitBrody
    rw [npSort_of_ascending _ hasc, ← Report.gaps_eq_diff]
    congr 1
    exact List.filter_eq_self.mpr fun x hx => by simpa using hp x hx
  rw [hsp] at hr
  rcases hf : fitBrody opt S "spacing" with e' | b
  · simp only [brodyFitEvaluate, hf] at hr
    cases hr
  obtain ⟨r', q1, q2, -, q4, q5, q6, q7, q8⟩ := C84_report opt _ hne "spacing" b hf
  rw [hr] at q1
  cases q1
  obtain ⟨m1, m2⟩ := hC.2.2 opt hopt b hf
  have hb := hnear b m1 fun c hc => (m2 c hc).trans (by linarith)
  have hbI := fitBounds_sub m1
  have le1 : 1 / η₁ ≤ (S.length : ℝ) := (one_div_le_one_div_of_le hη (min_le_left _ _)).trans hbig
  have le2 : 1 / η₂ ≤ (S.length : ℝ) := (one_div_le_one_div_of_le hη (min_le_right _ _)).trans hbig
  rw [q7, q8, q6]
  exact ⟨hA S le1 hp (fun d => (hd d).trans (min_le_left _ _)) h7 b hbI (lt_of_lt_of_le hb (min_le_left _ _)) r.ecdf q4 q5,
    hB S le2 hp (fun d => (hd d).trans (min_le_right _ _)) h7 b hbI (lt_of_lt_of_le hb (min_le_right _ _)) r.ecdf q4 q5⟩

/-- Non-vacuity: there are independent normal draws. -/
example (eh : EigSolver) (ehC : (n : Nat) → Matrix (Fin n) (Fin n) ℂ → List ℝ) :=
  C156_means streamRng eh ehC (fun _ => Measure.infinitePi fun _ : ℕ => gaussianReal 0 1) (fun _ => id) (fun _ => id) (fun _ => stream_draws) false

example (eh : EigSolver) (ehC : (n : Nat) → Matrix (Fin n) (Fin n) ℂ → List ℝ) :=
  C168_metrics streamRng eh ehC (fun _ => Measure.infinitePi fun _ : ℕ => gaussianReal 0 1) (fun _ => id) (fun _ => id) (fun _ => stream_draws) false

end Props
end RMT
