import Verif.Props.Stability
import Verif.Props.Semicircle
import Verif.Props.MarchenkoPastur

/-!
# Property C154: the semicircle and Marchenko-Pastur laws with inexact eigenvalue routines
-/

namespace RMT
namespace Props
open Gen EigValsM EigM Unfold MeasureTheory ProbabilityTheory Spec Gauss Inertia Semi Weyl
open Real Set Filter Topology

variable {σ Ω : Type} [MeasurableSpace Ω]

/-- The relative error of a backward stable routine: on `n × n` matrices at most `c n` times the Frobenius norm. -/
def RelativeError (δ : (n : ℕ) → Matrix (Fin n) (Fin n) ℝ → ℝ) (c : ℕ → ℝ) : Prop := ∀ n (M : Matrix (Fin n) (Fin n) ℝ), M.IsSymm → δ n M ≤ c n * frobenius M

section General
variable {P : ℕ → Measure Ω} [∀ n, IsProbabilityMeasure (P n)]

omit [∀ n, IsProbabilityMeasure (P n)] in
theorem inProb_sandwich (G : ℕ → Ω → ℝ → ℝ) (V err : ℕ → Ω → ℝ) (F : ℝ → ℝ) (a : ℝ) (hF : ContinuousAt F a) (hG : ∀ᶠ b in 𝓝 a, InProbability P (fun n ω => G n ω b) (F b))
    (herr : ∀ η > 0, Tendsto (fun n => P n {ω | η < err n ω}) atTop (𝓝 0))
    (hs : ∃ η0 > 0, ∀ η > 0, η < η0 → ∀ᶠ n in atTop, ∀ ω, err n ω ≤ η → |V n ω - F a| ≤ max |G n ω (a - η) - F a| |G n ω (a + η) - F a|) : InProbability P V (F a) := by
  refine inProb_of_cover _ _ fun ε hε => ?_
  obtain ⟨η0, h0, hs⟩ := hs
  have hc : ∀ᶠ b in 𝓝 a, |F b - F a| < ε / 2 := by
    have := Metric.tendsto_nhds.mp hF (ε / 2) (by positivity)
    simpa [Real.dist_eq] using this
  obtain ⟨r, hr, hb⟩ := Metric.eventually_nhds_iff.mp (hc.and hG)
  set η := min (r / 2) (η0 / 2) with hη
  have h1 : 0 < η := by positivity
  have h2 : η < r := lt_of_le_of_lt (min_le_left _ _) (by linarith)
  have h3 : η < η0 := lt_of_le_of_lt (min_le_right _ _) (by linarith)
  have hm : dist (a - η) a < r := by rw [Real.dist_eq, sub_sub_cancel_left, abs_neg, abs_of_pos h1]; exact h2
  have hp : dist (a + η) a < r := by rw [Real.dist_eq, add_sub_cancel_left, abs_of_pos h1]; exact h2
  refine ⟨_, _, _, (hb hm).2 (ε / 2) (by positivity), (hb hp).2 (ε / 2) (by positivity), herr η h1, (hs η h1 h3).mono fun n hn ω hω => ?_⟩
  by_cases he : η < err n ω
  · exact Or.inr he
  · have hv := hω.trans (hn ω (not_lt.mp he))
    left
    rcases le_max_iff.mp hv with h | h
    · left
      have := abs_sub_le (G n ω (a - η)) (F (a - η)) (F a)
      have := (hb hm).1
      show ε / 2 ≤ _
      linarith
    · right
      have := abs_sub_le (G n ω (a + η)) (F (a + η)) (F a)
      have := (hb hp).1
      show ε / 2 ≤ _
      linarith

/-- Errors of the size of the root of a quantity with bounded mean, times a factor that vanishes, are small in probability. -/
theorem err_small (q err : ℕ → Ω → ℝ) (d : ℕ → ℝ) (hd : Tendsto d atTop (𝓝 0)) (K : ℝ) (hq : ∀ᶠ n in atTop, Integrable (q n) (P n) ∧ ∫ ω, q n ω ∂(P n) ≤ K) (hq0 : ∀ n ω, 0 ≤ q n ω)
    (he : ∀ᶠ n in atTop, ∀ᵐ ω ∂(P n), err n ω ≤ d n * √(q n ω)) (η : ℝ) (hη : 0 < η) : Tendsto (fun n => P n {ω | η < err n ω}) atTop (𝓝 0) := by
  have h1 : Tendsto (fun n => ENNReal.ofReal (d n ^ 2 * K / η ^ 2)) atTop (𝓝 0) := by
    have : Tendsto (fun n => d n ^ 2 * K / η ^ 2) atTop (𝓝 (0 ^ 2 * K / η ^ 2)) := ((hd.pow 2).mul_const K).div_const _
    have := ENNReal.tendsto_ofReal this
    simpa using this
  refine tendsto_of_tendsto_of_tendsto_of_le_of_le' tendsto_const_nhds h1 (Eventually.of_forall fun n => zero_le) ?_
  filter_upwards [hq, he] with n ⟨hi, hK⟩ hen
  have h2 := mul_meas_ge_le_integral_of_nonneg (μ := P n) (f := fun ω => d n ^ 2 * q n ω) (Eventually.of_forall fun ω => mul_nonneg (sq_nonneg _) (hq0 n ω)) (hi.const_mul _) (η ^ 2)
  rw [integral_const_mul] at h2
  have h3 : P n {ω | η < err n ω} ≤ P n {ω | η ^ 2 ≤ d n ^ 2 * q n ω} := by
    refine measure_mono_ae ?_
    filter_upwards [hen] with ω hω hlt
    have hlt' : η < err n ω := hlt
    have h4 : η ≤ |d n| * √(q n ω) := (hlt'.le.trans hω).trans (mul_le_mul_of_nonneg_right (le_abs_self _) (Real.sqrt_nonneg _))
    have h5 := pow_le_pow_left₀ hη.le h4 2
    rw [mul_pow, sq_abs, Real.sq_sqrt (hq0 n ω)] at h5
    exact h5
  refine h3.trans ?_
  rw [← ENNReal.ofReal_toReal (measure_ne_top (P n) _)]
  refine ENNReal.ofReal_le_ofReal ?_
  rw [le_div_iff₀ (by positivity), mul_comm]
  exact h2.trans (mul_le_mul_of_nonneg_left hK (sq_nonneg _))

end General

theorem frob_sq {n : ℕ} (M : Matrix (Fin n) (Fin n) ℝ) (hM : M.IsSymm) : frobenius M ^ 2 = (M * M).trace := by
  have h0 : 0 ≤ ∑ i, ∑ j, M i j ^ 2 := Finset.sum_nonneg fun i _ => Finset.sum_nonneg fun j _ => sq_nonneg _
  have h1 : Spec.frobenius M ^ 2 = ∑ i, ∑ j, M i j ^ 2 := Real.sq_sqrt h0
  rw [h1, Matrix.trace]
  refine Finset.sum_congr rfl fun i _ => ?_
  rw [Matrix.diag_apply, Matrix.mul_apply]
  refine Finset.sum_congr rfl fun j _ => ?_
  rw [sq, hM.apply i j]

theorem frob_vals {n : ℕ} (M : Matrix (Fin n) (Fin n) ℝ) (hM : M.IsSymm) (l : List ℝ) (hl : (l : Multiset ℝ) = M.charpoly.roots) : frobenius M ^ 2 = (l.map (· ^ 2)).sum := by
  have hs : ExactSolver fun _ M => M.charpoly.roots.toList := fun _ _ _ => Multiset.coe_toList _
  have h := sumSq_exact _ hs M hM
  rw [frob_sq M hM, ← h, sumSq, ← Multiset.sum_coe, ← Multiset.sum_coe, ← Multiset.map_coe, ← Multiset.map_coe, hl, Multiset.coe_toList]

/-- The exact routine to compare with. -/
noncomputable def exactRoutine : EigSolver := fun _ M => M.charpoly.roots.toList

theorem exactRoutine_exact : ExactSolver exactRoutine := fun _ _ _ => Multiset.coe_toList _

theorem between {x y z f : ℝ} (h1 : x ≤ y) (h2 : y ≤ z) : |y - f| ≤ max |x - f| |z - f| := by
  rcases le_total f y with h | h
  · refine le_max_of_le_right ?_
    rw [abs_of_nonneg (by linarith), abs_of_nonneg (by linarith)]
    linarith
  · refine le_max_of_le_left ?_
    rw [abs_of_nonpos (by linarith), abs_of_nonpos (by linarith)]
    linarith

theorem countLE_le (l : List ℝ) {a b : ℝ} (h : a ≤ b) : countLE l a ≤ countLE l b :=
  List.countP_mono_left fun x _ hx => by
    simp only [decide_eq_true_eq] at hx ⊢
    exact hx.trans h

/-- The counts of the computed and the exact levels, in units of `r`. -/
theorem counts_within {n : ℕ} (eh : EigSolver) (δ : (n : ℕ) → Matrix (Fin n) (Fin n) ℝ → ℝ) (h : BackwardStable eh δ) (M : Matrix (Fin n) (Fin n) ℝ) (hM : M.IsSymm) (r a η f m : ℝ) (hr : 0 < r) (hm : 0 ≤ m)
    (he : δ n M / r ≤ η) :
    |(countLE (npSort (eh n M)) (a * r) : ℝ) / m - f| ≤
      max |(countLE (npSort (exactRoutine n M)) ((a - η) * r) : ℝ) / m - f| |(countLE (npSort (exactRoutine n M)) ((a + η) * r) : ℝ) / m - f| := by
  obtain ⟨M', hM', hf, e⟩ := h n M hM
  have e1 : ((npSort (eh n M) : List ℝ) : Multiset ℝ) = M'.charpoly.roots := by rw [Multiset.coe_eq_coe.mpr (npSort_perm _), e]
  have e2 : ((npSort (exactRoutine n M) : List ℝ) : Multiset ℝ) = M.charpoly.roots := sorted_roots M
  have hd : δ n M ≤ η * r := (div_le_iff₀ hr).mp he
  refine between (div_le_div_of_nonneg_right ?_ hm) (div_le_div_of_nonneg_right ?_ hm)
  · have h1 := counts_shift hM' hM (forms_symm hf) _ _ e1 e2 (a * r - δ n M)
    rw [sub_add_cancel] at h1
    exact_mod_cast (countLE_le _ (by linarith)).trans h1
  · have h1 := counts_shift hM hM' hf _ _ e2 e1 (a * r)
    exact_mod_cast h1.trans (countLE_le _ (by linarith))

theorem countLE_measurable {n : ℕ} (l : Ω → List ℝ) (hl : ∀ ω, (l ω).length = n) (hm : ∀ i : ℕ, Measurable fun ω => (l ω).getD i 0) (x : ℝ) : Measurable fun ω => (countLE (l ω) x : ℝ) := by
  have e : (fun ω => (countLE (l ω) x : ℝ)) = fun ω => ∑ i : Fin n, (ind x ((l ω).getD i.val 0)) := by
    funext ω
    exact countP_sum (l ω) n (hl ω) (fun y => y ≤ x) (ind x) fun y => rfl
  rw [e]
  exact Finset.measurable_fun_sum _ fun i _ => (ind_measurable x).comp (hm i.val)

theorem fraction_integrable {n : ℕ} (P : Measure Ω) [IsProbabilityMeasure P] (l : Ω → List ℝ) (hl : ∀ ω, (l ω).length = n) (hm : ∀ i : ℕ, Measurable fun ω => (l ω).getD i 0) (x c : ℝ) :
    Integrable (fun ω => |(countLE (l ω) x : ℝ) / n - c|) P := by
  refine Integrable.of_bound (((countLE_measurable l hl hm x).div_const _).sub_const _).norm.aestronglyMeasurable (1 + |c|) (Eventually.of_forall fun ω => ?_)
  rw [Real.norm_eq_abs, abs_abs]
  refine (abs_sub _ _).trans ?_
  gcongr
  rw [abs_of_nonneg (by positivity)]
  refine div_le_one_of_le₀ ?_ (by positivity)
  have := List.countP_le_length (p := fun e => decide (e ≤ x)) (l := l ω)
  rw [hl ω] at this
  exact_mod_cast this

/-- **C154 (GOE).** C147 with a real eigenvalue routine: let the routine used by `generate(n, "goe")` be backward stable with a relative error `c n` on `n × n` matrices such that `c n √n` tends to 0. Then for every `a` the fraction of the
returned levels which are at most `a √n` tends in probability to the probability of `(-∞, a]` under the semicircle law on `[-2, 2]`. -/
theorem C154_full (R : Rng σ) (eh : EigSolver) (ehC : (n : Nat) → Matrix (Fin n) (Fin n) ℂ → List ℝ) (δ : (n : ℕ) → Matrix (Fin n) (Fin n) ℝ → ℝ) (hs : BackwardStable eh δ)
    (c : ℕ → ℝ) (hδ : RelativeError δ c) (hc : Tendsto (fun n : ℕ => c n * √n) atTop (𝓝 0))
    (P : Nat → Measure Ω) [∀ n, IsProbabilityMeasure (P n)] (e s : Nat → Ω → σ) (hX : ∀ n, NormalDraws (P n) fun k ω => draw R (s n ω) k) :
    ∃ vals : Nat → Ω → List ℝ, (∀ n, GeneratedVals R eh ehC n .goe false (e n) (s n) (vals n)) ∧
      ∀ a : ℝ, InProbability P (fun n ω => (countLE (vals n ω) (a * √n) : ℝ) / n) ((semicircleLaw 2).real (Set.Iic a)) := by
  refine ⟨fun n ω => npSort (eh n (goeMatrix R n none false (s n ω)).1), fun n ω => (C49_values R eh ehC n none false (e n ω) (s n ω)).1, fun a => ?_⟩
  set X : ℕ → ℕ → Ω → ℝ := fun n k ω => draw R (s n ω) k with hXd
  have hM : ∀ n ω, (goeMatrix R n none false (s n ω)).1.IsSymm := fun n ω => (C49_symmetric R n none false (s n ω)).1
  have hL : ∀ n ω, npSort (exactRoutine n (goeMatrix R n none false (s n ω)).1) = full exactRoutine (X n) n ω := fun n ω => by rw [goe_full_draws]; rfl
  have hfacts := fun n => full_facts exactRoutine exactRoutine_exact (X n) (hX n).measurable n
  refine inProb_sandwich (fun n ω b => (countLE (npSort (exactRoutine n (goeMatrix R n none false (s n ω)).1)) (b * √n) : ℝ) / n) _
    (fun n ω => δ n (goeMatrix R n none false (s n ω)).1 / √n) F a F_cont.continuousAt (Eventually.of_forall fun b => ?_) ?_ ⟨1, one_pos, fun η _ _ => ?_⟩
  · simp only [hL]
    refine inProb_of_mean _ _ (fun n => fraction_integrable (P n) _ (hfacts n).1 (hfacts n).2.1 _ _) ?_
    refine (tendsto_full (P := P) exactRoutine exactRoutine_exact X hX b).congr' ?_
    filter_upwards [eventually_gt_atTop 0] with n hn
    refine integral_congr_ae (Eventually.of_forall fun ω => ?_)
    simp only
    rw [frac_levels _ n hn ((hfacts n).1 ω)]
    rfl
  · have h2 := tendsto_w [2]
    refine err_small (fun n ω => emp n (fun i => scaled exactRoutine (X n) n i ω) fun y => y ^ 2) _ (fun n => c n * √n) hc 2 ?_ (fun n ω => ?_) ?_
    · have hw : (([2].map fun k => (wig k : ℝ)).prod) = 1 := by simp [wig]
      rw [hw] at h2
      filter_upwards [h2.eventually (gt_mem_nhds (show (1 : ℝ) < 2 by norm_num))] with n hn
      refine ⟨moment_integrable exactRoutine exactRoutine_exact (X n) (hX n) n 2, ?_⟩
      rw [moment_first exactRoutine exactRoutine_exact (X n) (hX n)]
      exact hn.le
    · exact div_nonneg (Finset.sum_nonneg fun i _ => sq_nonneg _) (by positivity)
    · filter_upwards [eventually_gt_atTop 0] with n hn
      refine Eventually.of_forall fun ω => ?_
      have hn' : (0 : ℝ) < n := by exact_mod_cast hn
      have hq : emp n (fun i => scaled exactRoutine (X n) n i ω) (fun y => y ^ 2) = (frobenius (goeMatrix R n none false (s n ω)).1 / n) ^ 2 := by
        rw [div_pow, frob_vals _ (hM n ω) (full exactRoutine (X n) n ω) (by rw [← hL]; exact sorted_roots _), emp]
        have h4 := Semi.sum_getD (full exactRoutine (X n) n ω) n ((hfacts n).1 ω) (fun y => y ^ 2)
        simp only [scaled, div_pow]
        rw [← Finset.sum_div, h4, Real.sq_sqrt hn'.le]
        field_simp
      have hf : 0 ≤ frobenius (goeMatrix R n none false (s n ω)).1 := Real.sqrt_nonneg _
      rw [hq, Real.sqrt_sq (by positivity), div_le_iff₀ (Real.sqrt_pos.mpr hn')]
      refine (hδ n _ (hM n ω)).trans (le_of_eq ?_)
      have := Real.mul_self_sqrt hn'.le
      field_simp
      rw [sq, this]
  · filter_upwards [eventually_gt_atTop 0] with n hn ω he
    exact counts_within eh δ hs _ (hM n ω) (√n) a η (F a) n (Real.sqrt_pos.mpr (by exact_mod_cast hn)) (by positivity) he

omit [MeasurableSpace Ω] in
theorem inProb_of_mean' [MeasurableSpace Ω] {P : ℕ → Measure Ω} (X : ℕ → Ω → ℝ) (c : ℝ) (k : ℕ) (hi : ∀ n > k, Integrable (fun ω => |X n ω - c|) (P n))
    (h : Tendsto (fun n => ∫ ω, |X n ω - c| ∂(P n)) atTop (𝓝 0)) : InProbability P X c := by
  have h1 := inProb_of_mean (P := P) (fun n => if k < n then X n else fun _ => c) c (fun n => by
    by_cases hn : k < n
    · simpa [if_pos hn] using hi n hn
    · simp [if_neg hn]) (h.congr' (by
      filter_upwards [eventually_gt_atTop k] with n hn
      simp [if_pos hn]))
  intro ε hε
  refine (h1 ε hε).congr' ?_
  filter_upwards [eventually_gt_atTop k] with n hn
  simp [if_pos hn]

/-- **C154 (tridiagonal).** The same with `use_tridiagonal`, for the fraction of levels at most `a √(n/2)`. -/
theorem C154_tridiagonal (R : Rng σ) (eh : EigSolver) (ehC : (n : Nat) → Matrix (Fin n) (Fin n) ℂ → List ℝ) (δ : (n : ℕ) → Matrix (Fin n) (Fin n) ℝ → ℝ) (hs : BackwardStable eh δ)
    (c : ℕ → ℝ) (hδ : RelativeError δ c) (hc : Tendsto (fun n : ℕ => c n * √n) atTop (𝓝 0))
    (P : Nat → Measure Ω) [∀ n, IsProbabilityMeasure (P n)] (e s : Nat → Ω → σ)
    (hC : ∀ n > 500, ChiSquareDraws (P n) (n - 1) fun k ω => chiDraws R n (s n ω) k) (hZ : ∀ n > 500, NormalDraws (P n) fun k ω => diagDraws R n (s n ω) k)
    (hi : ∀ n > 500, IndepFun (fun ω => chiDraws R n (s n ω)) (fun ω => diagDraws R n (s n ω)) (P n)) :
    ∃ vals : Nat → Ω → List ℝ, (∀ n, GeneratedVals R eh ehC n .goe true (e n) (s n) (vals n)) ∧
      ∀ a : ℝ, InProbability P (fun n ω => (countLE (vals n ω) (a * √(n / 2)) : ℝ) / n) ((semicircleLaw 2).real (Set.Iic a)) := by
  refine ⟨fun n ω => npSort (eh n (goeMatrix R n none true (s n ω)).1), fun n ω => (C49_values R eh ehC n none true (e n ω) (s n ω)).1, fun a => ?_⟩
  have hM : ∀ n ω, (goeMatrix R n none true (s n ω)).1.IsSymm := fun n ω => (C49_symmetric R n none true (s n ω)).1
  have hG : ∀ n > 500, ∀ ω, (goeMatrix R n none true (s n ω)).1 = (generateGOETridiagonal R n none (s n ω)).1 := fun n hn ω => by rw [goeMatrix, if_pos ⟨hn, rfl⟩]
  set L : (n : ℕ) → Ω → List ℝ := fun n ω => npSort (exactRoutine n (goeMatrix R n none true (s n ω)).1) with hL
  have hlen : ∀ n > 500, ∀ ω, (L n ω).length = n := fun n hn ω => by
    rw [hL]; simp only
    rw [hG n hn, (npSort_perm _).length_eq]
    exact tri_length R exactRoutine exactRoutine_exact n _
  have hid : ∀ n > 500, IdentDistrib (fun ω => vec n (full exactRoutine (fun k (ω : ℕ → ℝ) => draw streamRng ω k) n ω)) (fun ω i => √2 * vec n (L n ω) i)
      (Measure.infinitePi fun _ : ℕ => gaussianReal 0 1) (P n) := fun n hn => by
    simp only [hL, hG n hn]
    exact tri_ident R exactRoutine exactRoutine_exact P s n (hC n hn) (hZ n hn) (hi n hn)
  have hfrac : ∀ n > 500, ∀ b ω, (countLE (L n ω) (b * √(n / 2)) : ℝ) / n = emp n (fun i => √2 * vec n (L n ω) i / √n) (ind b) := fun n hn b ω => by
    have := frac_levels _ n (by omega) (hlen n hn ω) (b / √2)
    have e1 : b * √((n : ℝ) / 2) = b / √2 * √n := by rw [Real.sqrt_div (by positivity)]; ring
    rw [e1, this]
    unfold emp
    congr 1
    refine Finset.sum_congr rfl fun i _ => ?_
    unfold ind
    have h2 : (0 : ℝ) < √2 := by positivity
    have : ∀ x : ℝ, √2 * x / √n ≤ b ↔ x / √n ≤ b / √2 := by
      intro x
      rw [le_div_iff₀ h2, mul_div_assoc, mul_comm]
    simp only [this]
  refine inProb_sandwich (fun n ω b => (countLE (L n ω) (b * √(n / 2)) : ℝ) / n) _
    (fun n ω => δ n (goeMatrix R n none true (s n ω)).1 / √(n / 2)) F a F_cont.continuousAt (Eventually.of_forall fun b => ?_) ?_ ⟨1, one_pos, fun η _ _ => ?_⟩
  · refine inProb_of_mean' _ _ 500 (fun n hn => ?_) ?_
    · have hm : Measurable fun v : Fin n → ℝ => emp n (fun i => v i / √n) (ind b) := by
        unfold emp
        exact (Finset.measurable_fun_sum _ fun i _ => (ind_measurable b).comp ((measurable_pi_apply i).div_const _)).div_const _
      simp only [hfrac n hn]
      refine Integrable.of_bound ((hm.comp_aemeasurable (hid n hn).aemeasurable_snd).sub_const _).norm.aestronglyMeasurable (1 + |F b|) (Eventually.of_forall fun ω => ?_)
      rw [Real.norm_eq_abs]
      rw [abs_abs]
      refine (abs_sub _ _).trans ?_
      gcongr
      rw [← hfrac n hn, abs_of_nonneg (by positivity)]
      refine div_le_one_of_le₀ ?_ (by positivity)
      have := List.countP_le_length (p := fun e => decide (e ≤ b * √(n / 2))) (l := L n ω)
      rw [hlen n hn ω] at this
      exact_mod_cast this
    · refine (tendsto_tri R exactRoutine exactRoutine_exact P s hC hZ hi b).congr' ?_
      filter_upwards [eventually_gt_atTop 500] with n hn
      refine integral_congr_ae (Eventually.of_forall fun ω => ?_)
      simp only
      rw [hfrac n hn]
      simp only [hL, hG n hn]
  · have h2 := tendsto_w [2]
    refine err_small (fun n ω => emp n (fun i => √2 * vec n (L n ω) i / √n) fun y => y ^ 2) _ (fun n => c n * √n) hc 2 ?_ (fun n ω => ?_) ?_
    · have hw : (([2].map fun k => (wig k : ℝ)).prod) = 1 := by simp [wig]
      rw [hw] at h2
      filter_upwards [h2.eventually (gt_mem_nhds (show (1 : ℝ) < 2 by norm_num)), eventually_gt_atTop 500] with n hn h500
      have hm : Measurable fun v : Fin n → ℝ => emp n (fun i => v i / √n) (fun y => y ^ 2) := by
        unfold emp
        exact (Finset.measurable_fun_sum _ fun i _ => ((measurable_pi_apply i).div_const _).pow_const 2).div_const _
      have hcomp := (hid n h500).comp hm
      have h3 := moment_integrable (P := Measure.infinitePi fun _ : ℕ => gaussianReal 0 1) exactRoutine exactRoutine_exact _ stream_draws n 2
      have h4 := moment_first (P := Measure.infinitePi fun _ : ℕ => gaussianReal 0 1) exactRoutine exactRoutine_exact _ stream_draws n 2
      refine ⟨hcomp.integrable_iff.mp h3, ?_⟩
      have h5 := hcomp.integral_eq
      exact (h5.symm.trans h4).le.trans hn.le
    · exact div_nonneg (Finset.sum_nonneg fun i _ => sq_nonneg _) (by positivity)
    · filter_upwards [eventually_gt_atTop 500] with n hn
      refine Eventually.of_forall fun ω => ?_
      have hn' : (0 : ℝ) < n := by exact_mod_cast (by omega : 0 < n)
      have h2' : (0 : ℝ) < √2 := by positivity
      have hq : emp n (fun i => √2 * vec n (L n ω) i / √n) (fun y => y ^ 2) = (√2 * frobenius (goeMatrix R n none true (s n ω)).1 / n) ^ 2 := by
        rw [div_pow, mul_pow, frob_vals _ (hM n ω) (L n ω) (sorted_roots _), emp]
        have h4 := Semi.sum_getD (L n ω) n (hlen n hn ω) (fun y => y ^ 2)
        simp only [vec, div_pow, mul_pow]
        rw [← Finset.sum_div, ← Finset.mul_sum, h4, Real.sq_sqrt hn'.le]
        field_simp
      have hf : 0 ≤ frobenius (goeMatrix R n none true (s n ω)).1 := Real.sqrt_nonneg _
      rw [hq, Real.sqrt_sq (by positivity), div_le_iff₀ (Real.sqrt_pos.mpr (by positivity)), Real.sqrt_div hn'.le]
      refine (hδ n _ (hM n ω)).trans (le_of_eq ?_)
      have := Real.mul_self_sqrt hn'.le
      field_simp
      rw [sq, this]
  · filter_upwards [eventually_gt_atTop 500] with n hn ω he
    exact counts_within eh δ hs _ (hM n ω) (√(n / 2)) a η (F a) n (Real.sqrt_pos.mpr (by
      have : (0 : ℝ) < n := by exact_mod_cast (by omega : 0 < n)
      positivity)) (by positivity) he

/-! ## Noise -/

theorem countGT_within {d : ℝ} {l e : List ℝ} (h : EntriesWithin d l e) (a : ℝ) : countGT l (a + d) ≤ countGT e a ∧ countGT e a ≤ countGT l (a - d) := by
  simp only [countGT]
  induction h with
  | nil => simp
  | @cons x y l e hxy _ ih =>
    have h := abs_le.mp hxy
    simp only [List.filter_cons, decide_eq_true_eq]
    constructor
    · split_ifs <;> first | (simp only [List.length_cons]; omega) | omega | (exfalso; linarith)
    · split_ifs <;> first | (simp only [List.length_cons]; omega) | omega | (exfalso; linarith)

variable {N T : ℕ}

/-- The number of returned values above `a > d`. -/
theorem series_within (eigvalsh : EigSolver) (δ : (n : ℕ) → Matrix (Fin n) (Fin n) ℝ → ℝ) (hs : BackwardStable eigvalsh δ) (float : String → Option ℝ) (X : Matrix (Fin N) (Fin T) ℝ) (cov : Bool)
    (hT : 2 ≤ T) (hc : cov = false → ∀ i, NonConstant (X i)) (tr : Bool) (s : SeriesEigs) (h : fromTimeSeries eigvalsh float (.dim2 N T X) cov tr (.str "negative") 1 = .ok s) (a : ℝ)
    (ha : 0 < a) (hd : seriesError δ X cov ≤ a) :
    cnt (wantedMatrix X cov) (a + seriesError δ X cov) ≤ countGT s.obj.vals a ∧ countGT s.obj.vals a ≤ cnt (wantedMatrix X cov) (a - seriesError δ X cov) := by
  have h' : fromSeries eigvalsh float X cov tr (.str "negative") = .ok s := by simpa [fromTimeSeries] using h
  obtain ⟨e, e', m, h1, h2, h3, rfl⟩ := (fromSeries_eq _ _ _ _ _ _ _).mp h'
  obtain ⟨l, a1, a2, a3, a4⟩ := computed_close eigvalsh δ hs X cov hT hc e h1
  have hv : countGT (npSort e') a = countGT (npSort e) a := by
    rw [countGT_eq, countGT_eq, Multiset.coe_eq_coe.mpr (npSort_perm _), Multiset.coe_eq_coe.mpr (npSort_perm _)]
    cases tr with
    | false =>
      simp only [Bool.false_eq_true, if_false, Except.ok.injEq] at h2
      rw [h2]
    | true =>
      simp only [if_true, trimZeros] at h2
      rw [if_neg (by decide)] at h2
      simp only [Except.ok.injEq] at h2
      rw [← h2, Multiset.coe_countP, Multiset.coe_countP, List.countP_filter]
      refine List.countP_congr fun x _ => ?_
      simp only [decide_eq_true_eq, Bool.and_eq_true, gt_iff_lt]
      exact ⟨fun h => h.1, fun h => ⟨h, ha.trans h⟩⟩
  have hd0 : 0 ≤ seriesError δ X cov := by
    have hne : e ≠ [] := by
      rintro rfl
      have : e' = [] := by
        cases tr with
        | false => simpa using h2.symm
        | true => simpa [trimZeros] using h2.symm
      rw [this] at h3
      simp [npMax] at h3
    have hne' : npSort e ≠ [] := fun h0 => by
      have := (npSort_perm e).length_eq
      rw [h0] at this
      exact hne (List.length_eq_zero_iff.mp this.symm)
    obtain ⟨v, vs, hv⟩ := List.exists_cons_of_ne_nil hne'
    rw [hv] at a4
    cases a4 with
    | cons h _ => exact (abs_nonneg _).trans h
  have hcnt : ∀ b, 0 ≤ b → cnt (wantedMatrix X cov) b = countGT l b := by
    intro b hb
    rw [cnt, ← a3, ← countGT_eq, countGT, countGT, List.filter_append]
    have : (List.replicate (N - T) (0 : ℝ)).filter (fun x => decide (b < x)) = [] := by
      rw [List.filter_eq_nil_iff]
      intro x hx
      rw [List.eq_of_mem_replicate hx]
      simpa using hb
    rw [this, List.nil_append]
  simp only [mkSeriesEigs]
  rw [hv, hcnt _ (by linarith), hcnt _ (by linarith)]
  exact countGT_within a4 a

theorem frobenius_transposed (X : Matrix (Fin N) (Fin T) ℝ) (hT : 2 ≤ T) (hNT : T ≤ N) (cov : Bool) (hc : cov = false → ∀ i, NonConstant (X i)) :
    frobenius (transposedMatrix X cov) = frobenius (wantedMatrix X cov) := by
  have hp := transposed_charpoly X hT hNT cov hc
  have hne : Polynomial.X ^ (N - T) * (transposedMatrix X cov).charpoly ≠ 0 := by
    rw [← hp]; exact (Matrix.charpoly_monic _).ne_zero
  have h1 := frob_vals _ (transposedMatrix_isSymm X cov) _ (sorted_roots (transposedMatrix X cov))
  have h2 := frob_vals (wantedMatrix X cov) (wantedMatrix_isSymm X cov) (List.replicate (N - T) 0 ++ npSort (transposedMatrix X cov).charpoly.roots.toList) (by
    rw [← Multiset.coe_add, sorted_roots, wantedMatrix, hp, Polynomial.roots_mul hne, Polynomial.roots_X_pow, Multiset.nsmul_singleton, Multiset.coe_replicate])
  rw [List.map_append, List.sum_append, ← h1] at h2
  simp only [List.map_replicate, List.sum_replicate, ne_eq, OfNat.ofNat_ne_zero, not_false_eq_true, zero_pow, smul_zero, zero_add] at h2
  have f1 : 0 ≤ frobenius (transposedMatrix X cov) := Real.sqrt_nonneg _
  have f2 : 0 ≤ frobenius (wantedMatrix X cov) := Real.sqrt_nonneg _
  exact (pow_left_inj₀ f1 f2 two_ne_zero).mp h2.symm

theorem series_error_le (δ : (n : ℕ) → Matrix (Fin n) (Fin n) ℝ → ℝ) (c : ℕ → ℝ) (hδ : RelativeError δ c) (X : Matrix (Fin N) (Fin T) ℝ) (hT : 2 ≤ T) (cov : Bool) (hc : cov = false → ∀ i, NonConstant (X i)) :
    seriesError δ X cov ≤ c (min N T) * √((wantedMatrix X cov * wantedMatrix X cov).trace) := by
  have hf : √((wantedMatrix X cov * wantedMatrix X cov).trace) = frobenius (wantedMatrix X cov) := by
    rw [← frob_sq _ (wantedMatrix_isSymm X cov)]
    exact Real.sqrt_sq (Real.sqrt_nonneg _)
  rw [hf, seriesError]
  split_ifs with h
  · rw [min_eq_left h]
    exact hδ N _ (wantedMatrix_isSymm X cov)
  · rw [min_eq_right (by omega), ← frobenius_transposed X hT (by omega) cov hc]
    exact hδ T _ (transposedMatrix_isSymm X cov)

theorem tail_cont (q : ℝ) (hq : 0 < q) (a : ℝ) (ha : 0 < a) : ContinuousAt (tail q) a := by
  have hs : 0 < √q := Real.sqrt_pos.mpr hq
  have hanti : ∀ x y, 0 < x → x ≤ y → tail q x - tail q y ≤ (y - x) / (x * √q) := fun x y hx hxy => tail_lipschitz q hq x y hx hxy
  have hmono : ∀ x y, 0 < x → x ≤ y → tail q y ≤ tail q x := fun x y hx hxy => tail_antitone q hq x y hx hxy
  have hbound : ∀ᶠ x in 𝓝 a, dist (tail q x) (tail q a) ≤ |x - a| / (a / 2 * √q) := by
    filter_upwards [lt_mem_nhds (show a / 2 < a by linarith)] with x hx
    have hx0 : 0 < x := by linarith
    have hden : 0 < a / 2 * √q := by positivity
    rw [Real.dist_eq]
    rcases le_total x a with h | h
    · rw [abs_of_nonneg (by linarith [hmono x a hx0 h]), abs_of_nonpos (by linarith)]
      refine (hanti x a hx0 h).trans ?_
      rw [neg_sub]
      exact div_le_div_of_nonneg_left (by linarith) hden (mul_le_mul_of_nonneg_right hx.le hs.le)
    · rw [abs_of_nonpos (by linarith [hmono a x ha h]), abs_of_nonneg (by linarith), neg_sub]
      refine (hanti a x ha h).trans ?_
      exact div_le_div_of_nonneg_left (by linarith) hden (mul_le_mul_of_nonneg_right (by linarith) hs.le)
  refine tendsto_iff_dist_tendsto_zero.mpr (squeeze_zero' (Eventually.of_forall fun _ => dist_nonneg) hbound ?_)
  have : Tendsto (fun x => |x - a| / (a / 2 * √q)) (𝓝 a) (𝓝 (|a - a| / (a / 2 * √q))) := by
    have : Continuous fun x => |x - a| / (a / 2 * √q) := by fun_prop
    exact this.tendsto a
  simpa using this

/-- A small multiple of the Frobenius norm of the matrix for noise is small in probability. -/
theorem noise_error_small (P : ℕ → Measure Ω) [∀ n, IsProbabilityMeasure (P n)] (Z : ℕ → ℕ → Ω → ℝ) (hZ : ∀ n, NormalDraws (P n) (Z n)) (N T : ℕ → ℕ)
    (hN2 : ∀ n, 2 ≤ N n) (hT2 : ∀ n, 2 ≤ T n) (hT : Tendsto T atTop atTop) (q : ℝ) (hr : Tendsto (fun n => (N n : ℝ) / T n) atTop (𝓝 q)) (cov : Bool) (k : ℕ → ℝ) (hd : Tendsto (fun n => k n * √(N n)) atTop (𝓝 0))
    (err : ℕ → Ω → ℝ) (he : ∀ n, ∀ᵐ ω ∂(P n), err n ω ≤ k n * √((wantedMatrix (noise (Z n) (N n) (T n) ω) cov * wantedMatrix (noise (Z n) (N n) (T n) ω) cov).trace)) (η : ℝ) (hη : 0 < η) :
    Tendsto (fun n => P n {ω | η < err n ω}) atTop (𝓝 0) := by
  let W := fun n ω => wantedMatrix (noise (Z n) (N n) (T n) ω) cov
  have hlim : Tendsto (fun n => 1 + ((N n : ℝ) / T n + (T n : ℝ)⁻¹) * 2) atTop (𝓝 (1 + (q + 0) * 2)) :=
    tendsto_const_nhds.add ((hr.add (tendsto_inv_atTop_zero.comp (tendsto_natCast_atTop_atTop.comp hT))).mul_const 2)
  refine err_small (fun n ω => (W n ω * W n ω).trace / N n) _ _ hd (1 + (q + 0) * 2 + 1) ?_ (fun n ω => ?_) (Eventually.of_forall fun n => ?_) η hη
  · filter_upwards [hlim.eventually (gt_mem_nhds (lt_add_one _))] with n hn
    have hTp : (2 : ℝ) ≤ T n := by exact_mod_cast hT2 n
    have hNp : (2 : ℝ) ≤ N n := by exact_mod_cast hN2 n
    obtain ⟨-, hm⟩ := mean_wanted (N := N n) (P n) (Z n) (hZ n) (by have := hN2 n; omega) (hT2 n) cov
    have hcc : (-1 : ℝ) ≤ (if cov then 1 else -1) ∧ (if cov then (1 : ℝ) else -1) ≤ 1 := by cases cov <;> norm_num
    have hpos : 0 < (N n : ℝ) * (1 + ((N n : ℝ) + if cov then 1 else -1) / ((T n : ℝ) - 1)) := by
      have : 0 ≤ ((N n : ℝ) + if cov then 1 else -1) / ((T n : ℝ) - 1) := div_nonneg (by linarith [hcc.1]) (by linarith)
      positivity
    have hi : Integrable (fun ω => (W n ω * W n ω).trace) (P n) := by
      by_contra hni
      rw [integral_undef hni] at hm
      linarith
    refine ⟨hi.div_const _, ?_⟩
    rw [integral_div, hm, mul_div_cancel_left₀ _ (by linarith)]
    refine le_trans ?_ hn.le
    gcongr
    rw [show ((N n : ℝ) / T n + (T n : ℝ)⁻¹) * 2 = ((N n : ℝ) + 1) * 2 / T n by field_simp, div_le_div_iff₀ (by linarith) (by linarith)]
    nlinarith [hcc.2]
  · refine div_nonneg ?_ (by positivity)
    simp only [W]
    rw [← frob_sq _ (wantedMatrix_isSymm _ _)]
    exact sq_nonneg _
  · filter_upwards [he n] with ω hω
    refine hω.trans (le_of_eq ?_)
    have hNp : (0 : ℝ) < N n := by exact_mod_cast (by have := hN2 n; omega : 0 < N n)
    rw [mul_assoc, ← Real.sqrt_mul hNp.le]
    congr 2
    simp only [W]
    field_simp

/-- The error of the routine on the matrix for noise is small in probability. -/
theorem series_error_small (P : ℕ → Measure Ω) [∀ n, IsProbabilityMeasure (P n)] (δ : (n : ℕ) → Matrix (Fin n) (Fin n) ℝ → ℝ)
    (c : ℕ → ℝ) (hδ : RelativeError δ c) (hc : Tendsto (fun n : ℕ => c n * √n) atTop (𝓝 0)) (Z : ℕ → ℕ → Ω → ℝ) (hZ : ∀ n, NormalDraws (P n) (Z n)) (N T : ℕ → ℕ)
    (hN2 : ∀ n, 2 ≤ N n) (hT2 : ∀ n, 2 ≤ T n) (hN : Tendsto N atTop atTop) (hT : Tendsto T atTop atTop) (q : ℝ) (hr : Tendsto (fun n => (N n : ℝ) / T n) atTop (𝓝 q)) (cov : Bool) (η : ℝ) (hη : 0 < η) :
    Tendsto (fun n => P n {ω | η < seriesError δ (noise (Z n) (N n) (T n) ω) cov}) atTop (𝓝 0) := by
  have hmin : Tendsto (fun n => min (N n) (T n)) atTop atTop := by
    rw [tendsto_atTop] at hN hT ⊢
    intro b
    filter_upwards [hN b, hT b] with n h1 h2
    exact le_min h1 h2
  have hd : Tendsto (fun n => c (min (N n) (T n)) * √(N n)) atTop (𝓝 0) := by
    have h1 := (hc.comp hmin).mul ((hr.max (tendsto_const_nhds (x := (1 : ℝ)))).sqrt)
    rw [zero_mul] at h1
    refine h1.congr fun n => ?_
    have hTp : (0 : ℝ) < T n := by exact_mod_cast (by have := hT2 n; omega : 0 < T n)
    simp only [Function.comp]
    rw [mul_assoc, ← Real.sqrt_mul (by positivity)]
    congr 2
    push_cast
    rcases le_total (N n : ℝ) (T n) with h2 | h2
    · rw [min_eq_left h2, max_eq_right (by rw [div_le_one hTp]; exact h2), mul_one]
    · rw [min_eq_right h2, max_eq_left (by rw [one_le_div hTp]; exact h2)]
      field_simp
  refine noise_error_small P Z hZ N T hN2 hT2 hT q hr cov _ hd _ (fun n => ?_) η hη
  filter_upwards [noise_nonconstant (N := N n) (P n) (Z n) (hZ n) (hT2 n)] with ω hω
  exact series_error_le δ c hδ _ (hT2 n) cov fun _ => hω

/-- **C154 (noise).** C150 with a real eigenvalue routine: let `from_time_series` be given `N` series of `T` independent standard normal values each, with `N` and `T` growing and `N/T` tending to `q`, and let the routine be backward
stable with a relative error `c n` on `n × n` matrices such that `c n √n` tends to 0. Then for every `a > 0` the number of returned eigenvalues above `a`, divided by `N`, tends in probability to the integral of the Marchenko-Pastur density for
`q` above `a`, for correlations and for covariances, with and without the zeros. -/
theorem C154_noise (P : ℕ → Measure Ω) [∀ n, IsProbabilityMeasure (P n)] (eigvalsh : EigSolver) (δ : (n : ℕ) → Matrix (Fin n) (Fin n) ℝ → ℝ) (hs : BackwardStable eigvalsh δ)
    (c : ℕ → ℝ) (hδ : RelativeError δ c) (hc : Tendsto (fun n : ℕ => c n * √n) atTop (𝓝 0))
    (float : String → Option ℝ) (Z : ℕ → ℕ → Ω → ℝ) (hZ : ∀ n, NormalDraws (P n) (Z n)) (N T : ℕ → ℕ)
    (hN2 : ∀ n, 2 ≤ N n) (hT2 : ∀ n, 2 ≤ T n) (hN : Tendsto N atTop atTop) (hT : Tendsto T atTop atTop) (q : ℝ) (hq : 0 < q) (hr : Tendsto (fun n => (N n : ℝ) / T n) atTop (𝓝 q))
    (cov tr : Bool) (s : ℕ → Ω → SeriesEigs)
    (h : ∀ n, ∀ᵐ ω ∂(P n), fromTimeSeries eigvalsh float (.dim2 (N n) (T n) (noise (Z n) (N n) (T n) ω)) cov tr (.str "negative") 1 = .ok (s n ω)) (a : ℝ) (ha : 0 < a) :
    InProbability P (fun n ω => (countGT (s n ω).obj.vals a : ℝ) / N n) (∫ x in Ioi a, mpDensity q x) := by
  classical
  let W := fun n ω => wantedMatrix (noise (Z n) (N n) (T n) ω) cov
  let good : ℕ → Ω → Prop := fun n ω => (∀ i, NonConstant (noise (Z n) (N n) (T n) ω i)) ∧ fromTimeSeries eigvalsh float (.dim2 (N n) (T n) (noise (Z n) (N n) (T n) ω)) cov tr (.str "negative") 1 = .ok (s n ω)
  have hgood : ∀ n, ∀ᵐ ω ∂(P n), good n ω := fun n => by
    filter_upwards [noise_nonconstant (N := N n) (P n) (Z n) (hZ n) (hT2 n), h n] with ω h1 h2
    exact ⟨h1, h2⟩
  refine inProb_sandwich (fun n ω b => (cnt (W n ω) b : ℝ) / N n) _ (fun n ω => if good n ω then seriesError δ (noise (Z n) (N n) (T n) ω) cov else a) (tail q) a (tail_cont q hq a ha)
    ?_ ?_ ⟨a, ha, fun η h0 hη => ?_⟩
  · filter_upwards [lt_mem_nhds ha] with b hb
    exact inProb_wanted Z hZ N T hT2 hN hT q hq hr cov b hb
  · intro η hη
    refine tendsto_of_tendsto_of_tendsto_of_le_of_le tendsto_const_nhds (series_error_small P δ c hδ hc Z hZ N T hN2 hT2 hN hT q hr cov η hη) (fun _ => zero_le) fun n => measure_mono_ae ?_
    filter_upwards [hgood n] with ω hω hlt
    have hlt' : η < if good n ω then seriesError δ (noise (Z n) (N n) (T n) ω) cov else a := hlt
    rwa [if_pos hω] at hlt'
  · refine Eventually.of_forall fun n ω he => ?_
    by_cases hg : good n ω
    · rw [if_pos hg] at he
      have hw := series_within eigvalsh δ hs float _ cov (hT2 n) (fun _ => hg.1) tr _ hg.2 a ha (he.trans hη.le)
      have anti : ∀ x y, x ≤ y → cnt (W n ω) y ≤ cnt (W n ω) x := by
        intro x y hxy
        rw [cnt, cnt]
        conv_lhs => rw [← sorted_roots (W n ω)]
        conv_rhs => rw [← sorted_roots (W n ω)]
        rw [← countGT_eq, ← countGT_eq]
        exact countGT_anti _ hxy
      rw [max_comm]
      refine between (div_le_div_of_nonneg_right ?_ (by positivity)) (div_le_div_of_nonneg_right ?_ (by positivity))
      · exact_mod_cast (anti _ _ (by linarith)).trans hw.1
      · exact_mod_cast hw.2.trans (anti _ _ (by linarith))
    · rw [if_neg hg] at he
      linarith

/-! ## The hypotheses can be met -/

/-- A routine with relative error `1 / (n + 1)`: the eigenvalues of `M + frobenius M / (n + 1)`. -/
noncomputable def relativeSolver : EigSolver := fun n M => npSort (M + (frobenius M / (n + 1)) • (1 : Matrix _ _ ℝ)).charpoly.roots.toList

theorem relativeSolver_stable : BackwardStable relativeSolver fun n M => frobenius M / (n + 1) := fun n M hM => by
  have hf : 0 ≤ frobenius M / ((n : ℝ) + 1) := div_nonneg (Real.sqrt_nonneg _) (by positivity)
  exact shiftSolver_stable (frobenius M / (n + 1)) hf n M hM

theorem relativeSolver_error : RelativeError (fun n M => frobenius M / (n + 1)) fun n => 1 / (n + 1) := fun n M _ => le_of_eq (by ring)

theorem relative_vanishes : Tendsto (fun n : ℕ => 1 / ((n : ℝ) + 1) * √n) atTop (𝓝 0) := by
  have h0 := (tendsto_one_div_add_atTop_nhds_zero_nat (𝕜 := ℝ)).sqrt
  rw [Real.sqrt_zero] at h0
  refine squeeze_zero (fun n => by positivity) (fun n => ?_) h0
  have h : (0 : ℝ) < (n : ℝ) + 1 := by positivity
  rw [Real.sqrt_div zero_le_one, Real.sqrt_one, div_mul_eq_mul_div, one_mul, div_le_div_iff₀ h (Real.sqrt_pos.mpr h), one_mul]
  calc √(n : ℝ) * √((n : ℝ) + 1) ≤ √((n : ℝ) + 1) * √((n : ℝ) + 1) := mul_le_mul_of_nonneg_right (Real.sqrt_le_sqrt (by linarith)) (Real.sqrt_nonneg _)
    _ = (n : ℝ) + 1 := Real.mul_self_sqrt h.le

theorem relative_inexact : ¬ ExactSolver relativeSolver := by
  intro h
  have hsym : (1 : Matrix (Fin 1) (Fin 1) ℝ).IsSymm := Matrix.isSymm_one
  have h1 := h 1 1 hsym
  have hf : frobenius (1 : Matrix (Fin 1) (Fin 1) ℝ) = 1 := by simp [Spec.frobenius]
  have h2 : ((relativeSolver 1 1 : List ℝ) : Multiset ℝ) = ((1 : Matrix (Fin 1) (Fin 1) ℝ) + (frobenius (1 : Matrix (Fin 1) (Fin 1) ℝ) / ((1 : ℕ) + 1 : ℝ)) • 1).charpoly.roots := sorted_roots _
  rw [h1, hf] at h2
  have h3 : (1 : ℝ) ∈ (1 : Matrix (Fin 1) (Fin 1) ℝ).charpoly.roots := by
    rw [Polynomial.mem_roots (Matrix.charpoly_monic _).ne_zero, Polynomial.IsRoot, Matrix.charpoly, Matrix.det_fin_one]
    simp [Matrix.charmatrix]
  rw [h2, Polynomial.mem_roots (Matrix.charpoly_monic _).ne_zero, Polynomial.IsRoot, Matrix.charpoly, Matrix.det_fin_one] at h3
  simp [Matrix.charmatrix] at h3

theorem relative_series (n : ℕ) (X : Matrix (Fin (n + 2)) (Fin (n + 2)) ℝ) : ∃ s, fromTimeSeries relativeSolver (fun _ => none) (.dim2 (n + 2) (n + 2) X) false false (.str "negative") 1 = .ok s := by
  have hc : computedEigs relativeSolver X false = .ok (relativeSolver (n + 2) (corrMatrix X)) := by
    rw [computedEigs, if_pos le_rfl, if_neg (by omega)]
    simp [correlateFast_eq X 1 (by omega)]
  have hsym : (corrMatrix X + (frobenius (corrMatrix X) / (((n + 2 : ℕ) : ℝ) + 1)) • (1 : Matrix _ _ ℝ)).IsSymm := (corrMatrix_isSymm X).add (Matrix.isSymm_one.smul _)
  have hlen : (relativeSolver (n + 2) (corrMatrix X)).length = n + 2 := by
    have h1 : ((relativeSolver (n + 2) (corrMatrix X) : List ℝ) : Multiset ℝ) = _ := sorted_roots _
    rw [(symm_herm _ hsym).roots_charpoly_eq_eigenvalues] at h1
    have := congrArg Multiset.card h1
    simpa using this
  have hne : relativeSolver (n + 2) (corrMatrix X) ≠ [] := by
    intro h0
    rw [h0] at hlen
    simp at hlen
  obtain ⟨m, hm, -, -⟩ := npMax_ok hne
  refine ⟨_, by
    have : fromTimeSeries relativeSolver (fun _ => none) (.dim2 (n + 2) (n + 2) X) false false (.str "negative") 1 = fromSeries relativeSolver (fun _ => none) X false false (.str "negative") := by simp [fromTimeSeries]
    rw [this]
    exact (fromSeries_eq _ _ _ _ _ _ _).mpr ⟨_, _, m, hc, by simp, hm, rfl⟩⟩

-- C154: a routine that is not exact, for GOE spectra and for correlations of noise
example : ∃ (eh : EigSolver) (δ : (n : ℕ) → Matrix (Fin n) (Fin n) ℝ → ℝ) (c : ℕ → ℝ), BackwardStable eh δ ∧ RelativeError δ c ∧ Tendsto (fun n : ℕ => c n * √n) atTop (𝓝 0) ∧ ¬ ExactSolver eh ∧
    (∃ vals : Nat → (ℕ → ℝ) → List ℝ, (∀ n, GeneratedVals streamRng eh (fun _ _ => []) n .goe false id id (vals n)) ∧
      ∀ a : ℝ, InProbability (fun _ => Measure.infinitePi fun _ : ℕ => gaussianReal 0 1) (fun n ω => (countLE (vals n ω) (a * √n) : ℝ) / n) ((semicircleLaw 2).real (Set.Iic a))) ∧
    ∃ s : ℕ → (ℕ → ℝ) → SeriesEigs,
      (∀ n, ∀ᵐ ω ∂(Measure.infinitePi fun _ : ℕ => gaussianReal 0 1), fromTimeSeries eh (fun _ => none) (.dim2 (n + 2) (n + 2) (noise (fun k (ω : ℕ → ℝ) => draw streamRng ω k) (n + 2) (n + 2) ω)) false false (.str "negative") 1 = .ok (s n ω)) ∧
      InProbability (fun _ => Measure.infinitePi fun _ : ℕ => gaussianReal 0 1) (fun n ω => (countGT (s n ω).obj.vals 1 : ℝ) / ((n + 2 : ℕ) : ℝ)) (∫ x in Ioi 1, mpDensity 1 x) := by
  refine ⟨relativeSolver, _, _, relativeSolver_stable, relativeSolver_error, relative_vanishes, relative_inexact, ?_, ?_⟩
  · exact C154_full streamRng relativeSolver (fun _ _ => []) _ relativeSolver_stable _ relativeSolver_error relative_vanishes (fun _ => Measure.infinitePi fun _ : ℕ => gaussianReal 0 1) (fun _ => id) (fun _ => id)
      fun _ => stream_draws
  have hex := relative_series
  choose s hs using hex
  have hN : Tendsto (fun n : ℕ => n + 2) atTop atTop := tendsto_add_atTop_nat 2
  have hr : Tendsto (fun n : ℕ => ((n + 2 : ℕ) : ℝ) / ((n + 2 : ℕ) : ℝ)) atTop (𝓝 1) := tendsto_const_nhds.congr fun n => by
    rw [div_self]
    positivity
  have h := fun n : ℕ => Eventually.of_forall (f := ae (Measure.infinitePi fun _ : ℕ => gaussianReal 0 1)) fun ω : ℕ → ℝ => hs n (noise (fun k (ω : ℕ → ℝ) => draw streamRng ω k) (n + 2) (n + 2) ω)
  exact ⟨fun n ω => s n _, h, C154_noise (fun _ => Measure.infinitePi fun _ : ℕ => gaussianReal 0 1) relativeSolver _ relativeSolver_stable _ relativeSolver_error relative_vanishes (fun _ => none)
    (fun _ k (ω : ℕ → ℝ) => draw streamRng ω k) (fun _ => stream_draws) (fun n => n + 2) (fun n => n + 2) (fun n => by omega) (fun n => by omega) hN hN 1 one_pos hr false false _ h 1 one_pos⟩

end Props
end RMT
