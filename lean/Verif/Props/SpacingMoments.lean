import Verif.Lemmas.SpacingMoments
import Verif.Lemmas.LocalAverages
import Verif.Props.SpacingLimits
import Verif.Props.AutoUnfold

/-!
# Property C171: the moments of the spacings of one generated Poisson spectrum, and its GOE score
-/

namespace RMT
namespace Props
open Gen EigValsM EigM Unfold MeasureTheory ProbabilityTheory Spec UniformM Ensembles BrodyC Report
open Real Filter
open scoped Topology

variable {σ Ω : Type} [MeasurableSpace Ω]

omit [MeasurableSpace Ω] in
theorem nbr_le (R : Rng σ) (e : Ω → σ) (n : Nat) (ω : Ω) : ∀ x ∈ nbr 1 (normalUnfold n (poissonVals R e n ω)), x ≤ n := by
  intro x hx
  rw [nbr, List.mem_map] at hx
  obtain ⟨i, hi, rfl⟩ := hx
  rw [List.mem_range] at hi
  have hb : ∀ y ∈ normalUnfold n (poissonVals R e n ω), 0 ≤ y ∧ y ≤ n := by
    intro y hy
    rw [normalUnfold, List.mem_map] at hy
    obtain ⟨x, -, rfl⟩ := hy
    have h1 := cdf_nonneg (gaussianReal 0 1) x
    have h2 := cdf_le_one (gaussianReal 0 1) x
    have h3 : (0 : ℝ) ≤ n := Nat.cast_nonneg n
    constructor <;> nlinarith
  have h1 : i + 1 < (normalUnfold n (poissonVals R e n ω)).length := by omega
  rw [List.getD_eq_getElem _ _ h1, List.getD_eq_getElem _ _ (by omega)]
  have := (hb _ (List.getElem_mem h1)).2
  have := (hb _ (List.getElem_mem (show i < (normalUnfold n (poissonVals R e n ω)).length by omega))).1
  linarith

/-- **C171 (moments).** All moments of the nearest-neighbour spacings of one spectrum of `generate(n, "poisson")`, unfolded exactly, tend in probability to those of the exponential distribution: the mean of the `k`-th powers of the
spacings tends to `k!`. -/
theorem C171_moments (R : Rng σ) (eh : EigSolver) (ehC : (n : Nat) → Matrix (Fin n) (Fin n) ℂ → List ℝ) (P : ℕ → Measure Ω) [∀ n, IsProbabilityMeasure (P n)] (e s : ℕ → Ω → σ)
    (hX : ∀ n, NormalDraws (P n) fun k ω => draw R (e n ω) k) (tri : Bool) :
    ∃ vals : ℕ → Ω → List ℝ, (∀ n, GeneratedVals R eh ehC n .poisson tri (e n) (s n) (vals n)) ∧
      ∀ k : ℕ, InProbability P (fun n ω => Spec.avg ((gaps (normalUnfold n (vals n ω))).map fun x => x ^ k)) k.factorial := by
  obtain ⟨vals, hv, hcdf⟩ := C156_spacings R eh ehC P e s hX tri
  have hvals : vals = fun n => poissonVals R (e n) n :=
    funext fun n => funext fun ω => by
      obtain ⟨o, h1, h2⟩ := hv n ω
      obtain ⟨o', h1', h2'⟩ := poissonVals_generated R eh ehC (e n) (s n) n tri ω
      rw [h1] at h1'
      cases h1'
      rw [← h2, ← h2']
  subst hvals
  refine ⟨_, hv, ?_⟩
  obtain ⟨hY, -⟩ := drawn_uniform R P e hX
  have hl : ∀ n ω, Ascending (normalUnfold n (poissonVals R (e n) n ω)) ∧ (normalUnfold n (poissonVals R (e n) n ω)).Perm ((List.range n).map fun k => drawn R e n k ω) := fun n ω => poisson_unfolded R (e n) n ω
  set S : ℕ → Ω → List ℝ := fun n ω => gaps (normalUnfold n (poissonVals R (e n) n ω)) with hS
  have hSn : ∀ n ω, S n ω = nbr 1 (normalUnfold n (poissonVals R (e n) n ω)) := fun n ω => rfl
  have hlen : ∀ n ω, (S n ω).length = n - 1 := fun n ω => by rw [hSn, nbr_length]
  have hran : ∀ n ω, ∀ x ∈ S n ω, 0 ≤ x ∧ x ≤ n := fun n ω x hx => ⟨nbr_nonneg R (e n) n 1 one_pos ω x hx, nbr_le R (e n) n ω x hx⟩
  intro k
  rcases k with _ | k
  · refine inProb_congr' (fun _ _ => 1) _ _ ?_ (by simpa using inProb_const (P := P) (1 : ℝ))
    filter_upwards [eventually_ge_atTop 2] with n hn
    refine Eventually.of_forall fun ω => ?_
    have h1 : ((S n ω).length : ℝ) ≠ 0 := by
      rw [hlen]
      exact_mod_cast (by omega : n - 1 ≠ 0)
    simp only [Spec.avg, pow_zero, List.map_const', List.sum_replicate, List.length_replicate, nsmul_eq_mul, mul_one]
    exact (div_self h1).symm
  intro δ hδ
  rw [ENNReal.tendsto_nhds_zero]
  intro η hη
  -- the cut-off
  obtain ⟨η', hη', hη2⟩ : ∃ η' : ℝ, 0 < η' ∧ ENNReal.ofReal (2 * η') ≤ η := by
    rcases eq_or_ne η ⊤ with rfl | ht
    · exact ⟨1, one_pos, le_top⟩
    · refine ⟨η.toReal / 2, half_pos (ENNReal.toReal_pos hη.ne' ht), ?_⟩
      rw [mul_div_cancel₀ _ two_ne_zero, ENNReal.ofReal_toReal ht]
  have hB1 := (exponential_moment k).eventually (Metric.ball_mem_nhds _ (show 0 < δ / 4 by positivity))
  have hB2 := (tail_tendsto k).eventually (gt_mem_nhds (show 0 < η' * (δ / 4) by positivity))
  obtain ⟨B, hB1, hB2⟩ := (hB1.and hB2).exists
  rw [Real.dist_eq] at hB1
  set ε : ℝ := δ / 4 / ((B : ℝ) ^ (k + 1) + 1) with hε
  have hεpos : 0 < ε := by positivity
  have hεB : ε * (B : ℝ) ^ (k + 1) ≤ δ / 4 := by
    rw [hε, div_mul_eq_mul_div, div_le_iff₀ (by positivity)]
    nlinarith [show (0 : ℝ) ≤ (B : ℝ) ^ (k + 1) by positivity]
  have hev := (ENNReal.tendsto_nhds_zero.mp (hcdf ε hεpos)) (ENNReal.ofReal η') (by simpa using hη')
  filter_upwards [hev, eventually_ge_atTop 2] with n hn hn2
  have hn2' : (2 : ℝ) ≤ n := by exact_mod_cast hn2
  have hlR : ∀ ω, ((S n ω).length : ℝ) = n - 1 := fun ω => by rw [hlen, Nat.cast_sub (by omega), Nat.cast_one]
  -- the excess is small in the mean
  have hint : ∀ j : ℕ, Integrable (fun ω => ((S n ω).countP fun x => decide ((j : ℝ) < x) : ℝ)) (P n) := fun j =>
    (exists_spacing (hY n (by omega)) n _ (hl n) (fun x => decide ((j : ℝ) < x)) (by simp only [decide_eq_true_eq]; exact measurableSet_Ioi)).1
  have hmean : ∀ j : ℕ, j ≤ n → ∫ ω, ((S n ω).countP fun x => decide ((j : ℝ) < x) : ℝ) ∂(P n) = (n - 1) * (1 - j / n) ^ n := fun j hj =>
    mean_spacings_one (by linarith) (hY n (by omega)) _ (hl n) (by omega) j (Nat.cast_nonneg j) (by exact_mod_cast hj)
  have hiE : Integrable (fun ω => excess k B n (S n ω) / (n - 1)) (P n) := by
    refine Integrable.div_const ?_ _
    unfold excess
    exact integrable_finsetSum _ fun j _ => (hint j).const_mul _
  have hE : ∫ ω, excess k B n (S n ω) / (n - 1) ∂(P n) ≤ tailBound k B := by
    have e1 : ∫ ω, excess k B n (S n ω) / (n - 1) ∂(P n) = ∑ j ∈ Finset.Ico B n, ((j + 1 : ℝ) ^ (k + 1) - (j : ℝ) ^ (k + 1)) * (1 - j / n) ^ n := by
      rw [integral_div]
      unfold excess
      rw [integral_finsetSum _ fun j _ => (hint j).const_mul _, Finset.sum_div]
      refine Finset.sum_congr rfl fun j hj => ?_
      rw [Finset.mem_Ico] at hj
      rw [integral_const_mul, hmean j hj.2.le]
      have : (n : ℝ) - 1 ≠ 0 := by linarith
      field_simp
    rw [e1]
    exact tail_partial k B n (fun j => (1 - j / n) ^ n) fun j hj => Real.one_sub_div_pow_le_exp_neg (by exact_mod_cast hj)
  have hE0 : ∀ ω, 0 ≤ excess k B n (S n ω) / (n - 1) := fun ω => by
    refine div_nonneg (Finset.sum_nonneg fun j _ => mul_nonneg ?_ (Nat.cast_nonneg _)) (by linarith)
    exact sub_nonneg.mpr (pow_le_pow_left₀ (Nat.cast_nonneg j) (by linarith) _)
  have hmark : P n {ω | δ / 4 ≤ excess k B n (S n ω) / (n - 1)} ≤ ENNReal.ofReal η' := by
    have h := mul_meas_ge_le_integral_of_nonneg (Eventually.of_forall hE0) hiE (δ / 4)
    rw [← ofReal_measureReal]
    refine ENNReal.ofReal_le_ofReal ?_
    have h2 := h.trans (hE.trans hB2.le)
    rw [mul_comm η'] at h2
    exact le_of_mul_le_mul_left h2 (by positivity)
  refine le_trans ?_ hη2
  rw [two_mul, ENNReal.ofReal_add hη'.le hη'.le]
  refine le_trans ?_ (add_le_add hn hmark)
  refine le_trans (measure_mono fun ω hω => ?_) (measure_union_le _ _)
  by_contra hcon
  simp only [Set.mem_union, not_or] at hcon
  obtain ⟨g1, g2⟩ := hcon
  simp only [Set.mem_ofPred_eq, not_exists, not_le] at g1 g2
  rw [Set.mem_ofPred_eq] at hω
  have hne : S n ω ≠ [] := by
    intro h
    have := hlR ω
    rw [h] at this
    simp at this
    linarith
  have hclose : ∀ t ∈ Set.Icc (0 : ℝ) B, |above (S n ω) t - exp (-t)| ≤ ε := fun t ht => by
    have h1 := g1 t
    rw [show poissonCdf t = 1 - exp (-t) by rw [poissonCdf, clip0, max_eq_left ht.1], above_below _ _ (by linarith) (hlR ω)] at h1
    rw [above, hlR ω]
    exact h1.le
  have h := average_power k B n (S n ω) hne (hran n ω) ε hclose
  have hav : Spec.avg ((S n ω).map fun x => x ^ (k + 1)) = ((S n ω).map fun x => x ^ (k + 1)).sum / (S n ω).length := by simp [Spec.avg]
  rw [hav] at hω
  have htri := abs_sub_le (((S n ω).map fun x => x ^ (k + 1)).sum / (S n ω).length) (∫ t in (0 : ℝ)..B, (k + 1) * t ^ k * exp (-t)) ((k + 1).factorial : ℝ)
  rw [hlR ω] at h htri hω
  linarith

/-- The sample variance by the first two moments. -/
theorem sampleVar_moments (l : List ℝ) (h : 2 ≤ l.length) : sampleVar l = (l.length : ℝ) / (l.length - 1) * (Spec.avg (l.map fun x => x ^ 2) - Spec.avg l ^ 2) := by
  have h2 : (2 : ℝ) ≤ l.length := by exact_mod_cast h
  have h0 : (l.length : ℝ) ≠ 0 := by linarith
  have h1 : (l.length : ℝ) - 1 ≠ 0 := by linarith
  have e : ∀ (m : ℝ) (l : List ℝ), (l.map fun x => (x - m) ^ 2).sum = (l.map fun x => x ^ 2).sum - 2 * m * l.sum + l.length * m ^ 2 := by
    intro m l
    induction l with
    | nil => simp
    | cons x l ih =>
      simp only [List.map_cons, List.sum_cons, List.length_cons, ih]
      push_cast
      ring
  rw [sampleVar, e]
  simp only [Spec.avg, List.length_map]
  field_simp
  ring

/-- **C171 (score).** For one spectrum of `generate(n, "poisson")`, unfolded exactly, the mean spacing and the variance of the spacings of the trim summary tend to 1 in probability, and the GOE score to `357/143 > 0`, about 2.497: with probability
tending to 1 the score is positive and tells the spectrum from one with GOE spacings (score 0). -/
theorem C171_score (R : Rng σ) (eh : EigSolver) (ehC : (n : Nat) → Matrix (Fin n) (Fin n) ℂ → List ℝ) (P : ℕ → Measure Ω) [∀ n, IsProbabilityMeasure (P n)] (e s : ℕ → Ω → σ)
    (hX : ∀ n, NormalDraws (P n) fun k ω => draw R (e n ω) k) (tri : Bool) :
    ∃ vals : ℕ → Ω → List ℝ, (∀ n, GeneratedVals R eh ehC n .poisson tri (e n) (s n) (vals n)) ∧
      InProbability P (fun n ω => (evaluateUnfolding (normalUnfold n (vals n ω))).1) 1 ∧
      InProbability P (fun n ω => (evaluateUnfolding (normalUnfold n (vals n ω))).2.1) 1 ∧
      InProbability P (fun n ω => (evaluateUnfolding (normalUnfold n (vals n ω))).2.2) (357 / 143) ∧
      Tendsto (fun n : ℕ => P n {ω | (evaluateUnfolding (normalUnfold n (vals n ω))).2.2 ≤ 2}) atTop (𝓝 0) := by
  obtain ⟨vals, hv, hm⟩ := C171_moments R eh ehC P e s hX tri
  have hvals : vals = fun n => poissonVals R (e n) n :=
    funext fun n => funext fun ω => by
      obtain ⟨o, h1, h2⟩ := hv n ω
      obtain ⟨o', h1', h2'⟩ := poissonVals_generated R eh ehC (e n) (s n) n tri ω
      rw [h1] at h1'
      cases h1'
      rw [← h2, ← h2']
  subst hvals
  refine ⟨_, hv, ?_⟩
  have hlen : ∀ n ω, (gaps (normalUnfold n (poissonVals R (e n) n ω))).length = n - 1 := fun n ω => nbr_length R (e n) n 1 ω
  have h1 : InProbability P (fun n ω => (evaluateUnfolding (normalUnfold n (poissonVals R (e n) n ω))).1) 1 := by
    have := hm 1
    simp only [pow_one, List.map_id', Nat.factorial_one, Nat.cast_one] at this
    refine inProb_congr' _ _ _ (Eventually.of_forall fun n => Eventually.of_forall fun ω => ?_) this
    rw [evaluateUnfolding_eq]
  have h2 : InProbability P (fun n ω => (evaluateUnfolding (normalUnfold n (poissonVals R (e n) n ω))).2.1) 1 := by
    have hr : Tendsto (fun n : ℕ => ((n : ℝ) - 1) / (n - 2)) atTop (𝓝 1) := by
      have h0 : Tendsto (fun n : ℕ => 1 + 1 / ((n : ℝ) - 2)) atTop (𝓝 (1 + 0)) := by
        refine tendsto_const_nhds.add ?_
        simpa only [one_div, Function.comp_def, sub_eq_add_neg] using tendsto_inv_atTop_zero.comp (tendsto_atTop_add_const_right _ (-2) (tendsto_natCast_atTop_atTop (R := ℝ)))
      rw [add_zero] at h0
      refine h0.congr' ?_
      filter_upwards [eventually_ge_atTop 3] with n hn
      have : (3 : ℝ) ≤ n := by exact_mod_cast hn
      have : (n : ℝ) - 2 ≠ 0 := by linarith
      field_simp
      ring
    have hrp : InProbability P (fun (n : ℕ) (_ : Ω) => ((n : ℝ) - 1) / (n - 2)) 1 := fun ε hε => by
      refine tendsto_const_nhds.congr' ?_
      filter_upwards [hr.eventually (Metric.ball_mem_nhds _ hε)] with n hn
      rw [Real.dist_eq] at hn
      simp [not_le.mpr hn]
    have := inProb_map3 _ _ _ _ _ _ (hm 2) h1 hrp (fun p => p.2.2 * (p.1 - p.2.1 ^ 2)) (by fun_prop)
    norm_num at this
    refine inProb_congr' _ _ _ ?_ this
    filter_upwards [eventually_ge_atTop 3] with n hn
    refine Eventually.of_forall fun ω => ?_
    have hn3 : (3 : ℝ) ≤ n := by exact_mod_cast hn
    rw [(C76_formula _).2, sampleVar_moments _ (by rw [hlen]; omega), hlen, evaluateUnfolding_eq, Nat.cast_sub (by omega), Nat.cast_one]
    ring_nf
  have h3 : InProbability P (fun n ω => (evaluateUnfolding (normalUnfold n (poissonVals R (e n) n ω))).2.2) (357 / 143) := by
    have := inProb_map3 _ _ _ _ _ _ h2 h1 h1 (fun p => (p.1 - 286 / 1000) / (286 / 1000) + (p.2.1 - 1) / 2) (by fun_prop)
    norm_num at this
    refine inProb_congr' _ _ _ (Eventually.of_forall fun n => Eventually.of_forall fun ω => ?_) this
    rw [(C76_formula _).1]
    norm_num
  refine ⟨h1, h2, h3, ?_⟩
  refine tendsto_of_tendsto_of_tendsto_of_le_of_le tendsto_const_nhds (h3 (1 / 4) (by norm_num)) (fun n => zero_le) fun n => measure_mono fun ω hω => ?_
  rw [Set.mem_ofPred_eq] at hω ⊢
  rw [abs_sub_comm, le_abs]
  left
  linarith

example (eh : EigSolver) (ehC : (n : Nat) → Matrix (Fin n) (Fin n) ℂ → List ℝ) :=
  C171_moments streamRng eh ehC (fun _ => Measure.infinitePi fun _ : ℕ => gaussianReal 0 1) (fun _ => id) (fun _ => id) (fun _ => stream_draws) false

example (eh : EigSolver) (ehC : (n : Nat) → Matrix (Fin n) (Fin n) ℂ → List ℝ) :=
  C171_score streamRng eh ehC (fun _ => Measure.infinitePi fun _ : ℕ => gaussianReal 0 1) (fun _ => id) (fun _ => id) (fun _ => stream_draws) false

end Props
end RMT
