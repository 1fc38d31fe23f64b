import Verif.Props.PoissonLimits
import Verif.Lemmas.SpacingChange

/-!
# Property C156: the spacings of one generated Poisson spectrum follow the Poisson spacing law
-/

namespace RMT
namespace Props
open Gen EigValsM EigM Unfold MeasureTheory ProbabilityTheory Spec UniformM Ensembles
open Real Set Filter
open scoped Topology

variable {σ Ω : Type} [MeasurableSpace Ω]

omit [MeasurableSpace Ω] in
theorem unfolded_length (R : Rng σ) (e : Ω → σ) (n : Nat) (ω : Ω) : (normalUnfold n (poissonVals R e n ω)).length = n := by
  rw [(poisson_unfolded R e n ω).2.length_eq]
  simp

omit [MeasurableSpace Ω] in
theorem nbr_length (R : Rng σ) (e : Ω → σ) (n m : Nat) (ω : Ω) : (nbr m (normalUnfold n (poissonVals R e n ω))).length = n - m := by
  rw [nbr, List.length_map, List.length_range, unfolded_length]

omit [MeasurableSpace Ω] in
theorem nbr_nonneg (R : Rng σ) (e : Ω → σ) (n m : Nat) (hm : 0 < m) (ω : Ω) : ∀ x ∈ nbr m (normalUnfold n (poissonVals R e n ω)), 0 ≤ x := by
  intro x hx
  rw [nbr, List.mem_map] at hx
  obtain ⟨i, hi, rfl⟩ := hx
  rw [List.mem_range] at hi
  have h := (poisson_unfolded R e n ω).1
  unfold Ascending at h
  rw [List.pairwise_iff_getElem] at h
  have h1 : i + m < (normalUnfold n (poissonVals R e n ω)).length := by omega
  have := h i (i + m) (by omega) h1 (by omega)
  rw [List.getD_eq_getElem _ _ h1, List.getD_eq_getElem _ _ (by omega)]
  linarith

/-- The fraction of values above `d` of a list of nonnegative values. -/
theorem above_facts (l : List ℝ) (N : ℝ) (hN : 0 < N) (hl : (l.length : ℝ) = N) (h0 : ∀ x ∈ l, 0 ≤ x) :
    Antitone (fun d => (l.countP (fun x => decide (d < x)) : ℝ) / N) ∧ (∀ d, 0 ≤ (l.countP (fun x => decide (d < x)) : ℝ) / N) ∧ ∀ d < 0, (l.countP (fun x => decide (d < x)) : ℝ) / N = 1 := by
  refine ⟨fun a b hab => ?_, fun d => by positivity, fun d hd => ?_⟩
  · refine div_le_div_of_nonneg_right ?_ hN.le
    have : l.countP (fun x => decide (b < x)) ≤ l.countP (fun x => decide (a < x)) := by
      refine List.countP_mono_left fun x _ hx => ?_
      simp only [decide_eq_true_eq] at hx ⊢
      linarith
    exact_mod_cast this
  · have : l.countP (fun x => decide (d < x)) = l.length := by
      rw [List.countP_eq_length]
      intro x hx
      have := h0 x hx
      simp only [decide_eq_true_eq]
      linarith
    rw [this, hl, div_self hN.ne']

theorem above_below (l : List ℝ) (N : ℝ) (hN : 0 < N) (hl : (l.length : ℝ) = N) (d c : ℝ) :
    |(l.countP (fun x => decide (x ≤ d)) : ℝ) / N - (1 - c)| = |(l.countP (fun x => decide (d < x)) : ℝ) / N - c| := by
  have h := List.length_eq_countP_add_countP (fun x => decide (x ≤ d)) (l := l)
  have e : (l.countP fun a => decide (¬ decide (a ≤ d) = true)) = l.countP fun x => decide (d < x) := by
    congr 1
    funext x
    simp
  rw [e] at h
  have h' : (l.length : ℝ) = l.countP (fun x => decide (x ≤ d)) + l.countP (fun x => decide (d < x)) := by exact_mod_cast h
  rw [hl] at h'
  have : (l.countP (fun x => decide (x ≤ d)) : ℝ) / N - (1 - c) = -((l.countP (fun x => decide (d < x)) : ℝ) / N - c) := by
    have h1 : (l.countP (fun x => decide (x ≤ d)) : ℝ) = N - l.countP (fun x => decide (d < x)) := by linarith
    rw [h1, sub_div, div_self hN.ne']
    ring
  rw [this, abs_neg]

/-- **C156 (spacings).** The distribution function of the nearest-neighbour spacings of one spectrum of `generate(n, "poisson")`, unfolded exactly, tends in probability to
`Poisson.nnsd_cdf`, uniformly in the spacing: for every `ε`, the probability that the fraction of the spacings up to some `d` differs by `ε` or more from the curve tends to 0. -/
theorem C156_spacings (R : Rng σ) (eh : EigSolver) (ehC : (n : Nat) → Matrix (Fin n) (Fin n) ℂ → List ℝ) (P : ℕ → Measure Ω) [∀ n, IsProbabilityMeasure (P n)] (e s : ℕ → Ω → σ)
    (hX : ∀ n, NormalDraws (P n) fun k ω => draw R (e n ω) k) (tri : Bool) :
    ∃ vals : ℕ → Ω → List ℝ, (∀ n, GeneratedVals R eh ehC n .poisson tri (e n) (s n) (vals n)) ∧
      ∀ ε : ℝ, 0 < ε → Tendsto (fun n : ℕ => P n {ω | ∃ d : ℝ, ε ≤ |((gaps (normalUnfold n (vals n ω))).countP (fun x => decide (x ≤ d)) : ℝ) / (n - 1) - poissonCdf d|}) atTop (𝓝 0) := by
  refine ⟨fun n => poissonVals R (e n) n, fun n => poissonVals_generated R eh ehC (e n) (s n) n tri, fun ε hε => ?_⟩
  obtain ⟨hY, hY0⟩ := drawn_uniform R P e hX
  set G : ℕ → Ω → ℝ → ℝ := fun n ω d => ((nbr 1 (normalUnfold n (poissonVals R (e n) n ω))).countP (fun x => decide (d < x)) : ℝ) / (n - 1) with hGd
  have hgd : ∀ d, 0 ≤ d → 1 - poissonCdf d = exp (-d) := fun d hd => by
    rw [poissonCdf, clip0, max_eq_left hd]
    ring
  have hlen : ∀ n : ℕ, 2 ≤ n → ∀ ω, (0 : ℝ) < n - 1 ∧ ((nbr 1 (normalUnfold n (poissonVals R (e n) n ω))).length : ℝ) = n - 1 := by
    intro n hn ω
    have : (2 : ℝ) ≤ n := by exact_mod_cast hn
    refine ⟨by linarith, ?_⟩
    rw [nbr_length, Nat.cast_sub (by omega), Nat.cast_one]
  have hfacts : ∀ᶠ n : ℕ in atTop, ∀ ω, Antitone (G n ω) ∧ (∀ d, 0 ≤ G n ω d) ∧ ∀ d < 0, G n ω d = 1 := by
    filter_upwards [eventually_ge_atTop 2] with n hn ω
    exact above_facts _ _ (hlen n hn ω).1 (hlen n hn ω).2 (nbr_nonneg R (e n) n 1 one_pos ω)
  have key := uniform_limit P G (fun d => 1 - poissonCdf d) 1 one_pos (hfacts.mono fun n h ω => (h ω).1) (hfacts.mono fun n h ω => (h ω).2.1)
    (hfacts.mono fun n h ω d hd => by
      rw [(h ω).2.2 d hd, poissonCdf, clip0, max_eq_right hd.le]
      simp)
    (fun d => by
      simp only [poissonCdf, sub_sub_cancel]
      positivity)
    (fun a b ha hab => by
      simp only [hgd a ha, hgd b (ha.trans hab), one_mul]
      have h1 := add_one_le_exp (-(b - a))
      have h2 : exp (-b) = exp (-a) * exp (-(b - a)) := by rw [← exp_add]; ring_nf
      have h3 : exp (-a) ≤ 1 := exp_le_one_iff.mpr (by linarith)
      have h4 := exp_pos (-a)
      rw [h2]
      nlinarith)
    (fun a b ha hab => by
      simp only [hgd a ha, hgd b (ha.trans hab)]
      exact exp_le_exp.mpr (by linarith))
    (by
      refine tendsto_exp_neg_atTop_nhds_zero.congr' ?_
      filter_upwards [eventually_ge_atTop 0] with d hd
      exact (hgd d hd).symm)
    (fun d hd => by
      have hp : MeasurableSet {x : ℝ | decide (d < x) = true} := by
        simp only [decide_eq_true_eq]
        exact measurableSet_Ioi
      have := fraction_limit P (drawn R e) hY (fun n ω => normalUnfold n (poissonVals R (e n) n ω)) (fun n ω => poisson_unfolded R (e n) n ω) 1 one_pos (fun x => decide (d < x)) hp (1 - poissonCdf d) (by
        rw [hgd d hd]
        refine (pow_limit d).congr' ?_
        filter_upwards [eventually_ge_atTop (max 2 ⌈d⌉₊)] with n hn
        have hn2 : 2 ≤ n := le_of_max_le_left hn
        have hn' : (2 : ℝ) ≤ n := by exact_mod_cast hn2
        rw [integral_div, mean_spacings_one (N := n) (by linarith) (hY n (by omega)) (fun ω => normalUnfold n (poissonVals R (e n) n ω)) (fun ω => poisson_unfolded R (e n) n ω) (by omega) d hd
          ((Nat.le_ceil d).trans (by exact_mod_cast le_of_max_le_right hn))]
        have : (n : ℝ) - 1 ≠ 0 := by linarith
        push_cast
        field_simp)
      push_cast at this
      exact this)
    ε hε
  refine key.congr' ?_
  filter_upwards [eventually_ge_atTop 2] with n hn
  congr 1
  ext ω
  simp only [mem_ofPred_eq]
  refine exists_congr fun d => ?_
  have := above_below _ _ (hlen n hn ω).1 (hlen n hn ω).2 d (1 - poissonCdf d)
  rw [sub_sub_cancel] at this
  show ε ≤ |G n ω d - (1 - poissonCdf d)| ↔ _
  rw [show G n ω d = _ from rfl, ← this]
  rfl

/-- **C156 (histogram).** The fraction of the nearest-neighbour spacings in a bin, open or closed at either end, tends in probability to the difference of `Poisson.nnsd_cdf` at the
ends of the bin, uniformly over all bins. -/
theorem C156_histogram (R : Rng σ) (eh : EigSolver) (ehC : (n : Nat) → Matrix (Fin n) (Fin n) ℂ → List ℝ) (P : ℕ → Measure Ω) [∀ n, IsProbabilityMeasure (P n)] (e s : ℕ → Ω → σ)
    (hX : ∀ n, NormalDraws (P n) fun k ω => draw R (e n ω) k) (tri : Bool) :
    ∃ vals : ℕ → Ω → List ℝ, (∀ n, GeneratedVals R eh ehC n .poisson tri (e n) (s n) (vals n)) ∧
      ∀ ε : ℝ, 0 < ε → Tendsto (fun n : ℕ => P n {ω | ∃ a b : ℝ, a ≤ b ∧ ∃ B : ℝ → Bool, (∀ x, a < x → x < b → B x = true) ∧ (∀ x, B x = true → a ≤ x ∧ x ≤ b) ∧
        ε ≤ |((gaps (normalUnfold n (vals n ω))).countP B : ℝ) / (n - 1) - (poissonCdf b - poissonCdf a)|}) atTop (𝓝 0) := by
  obtain ⟨vals, hv, h⟩ := C156_spacings R eh ehC P e s hX tri
  refine ⟨vals, hv, fun ε hε => ?_⟩
  have hcdf : ∀ x y : ℝ, x ≤ y → poissonCdf x ≤ poissonCdf y ∧ poissonCdf y ≤ poissonCdf x + (y - x) := by
    intro x y hxy
    simp only [poissonCdf, clip0]
    have h1 : max x 0 ≤ max y 0 := max_le_max_right 0 hxy
    have h0 : 0 ≤ max x 0 := le_max_right _ _
    have h5 : max y 0 - max x 0 ≤ y - x := by
      rcases le_total y 0 with h | h
      · rw [max_eq_right h, max_eq_right (hxy.trans h)]
        linarith
      · rw [max_eq_left h]
        linarith [le_max_left x 0]
    generalize max x 0 = a at *
    generalize max y 0 = b at *
    have h2 : exp (-b) = exp (-a) * exp (-(b - a)) := by rw [← exp_add]; ring_nf
    have h3 : exp (-a) ≤ 1 := exp_le_one_iff.mpr (by linarith)
    have h4 := exp_pos (-a)
    have h6 := add_one_le_exp (-(b - a))
    constructor
    · have : exp (-b) ≤ exp (-a) := exp_le_exp.mpr (by linarith)
      linarith
    · rw [h2]
      nlinarith
  have h4 := h (ε / 4) (by positivity)
  refine tendsto_of_tendsto_of_tendsto_of_le_of_le' tendsto_const_nhds h4 (Eventually.of_forall fun n => zero_le) ?_
  filter_upwards [eventually_ge_atTop 2] with n hn
  refine measure_mono ?_
  rintro ω ⟨a, b, hab, B, hB1, hB2, hB⟩
  by_contra hc
  simp only [mem_ofPred_eq, not_exists, not_le] at hc
  have hn' : (0 : ℝ) < n - 1 := by
    have : (2 : ℝ) ≤ n := by exact_mod_cast hn
    linarith
  set l := gaps (normalUnfold n (vals n ω)) with hl
  set F : ℝ → ℝ := fun d => (l.countP (fun x => decide (x ≤ d)) : ℝ) with hF
  have hc' : ∀ d, |F d / (n - 1) - poissonCdf d| < ε / 4 := hc
  -- the count in the bin is below the count in `(a - ε/4, b]` and above that in `(a, b - ε/4]`
  have split : ∀ (x y : ℝ), x ≤ y → F y - F x = l.countP (fun z => decide (x < z ∧ z ≤ y)) := by
    intro x y hxy
    have : ∀ l : List ℝ, l.countP (fun z => decide (z ≤ y)) = l.countP (fun z => decide (z ≤ x)) + l.countP (fun z => decide (x < z ∧ z ≤ y)) := by
      intro l
      induction l with
      | nil => simp
      | cons z t ih =>
        simp only [List.countP_cons, ih, decide_eq_true_eq]
        by_cases h1 : z ≤ x
        · have h2 : z ≤ y := h1.trans hxy
          simp [h1, h2, not_lt.mpr h1]
          omega
        · simp only [h1, not_le.mp h1, true_and, if_false]
          omega
    simp only [hF, this l]
    push_cast
    ring
  have up : (l.countP B : ℝ) ≤ F b - F (a - ε / 4) := by
    rw [split _ _ (by linarith)]
    have : l.countP B ≤ l.countP (fun z => decide (a - ε / 4 < z ∧ z ≤ b)) := by
      refine List.countP_mono_left fun x _ hx => ?_
      obtain ⟨h1, h2⟩ := hB2 x hx
      simp only [decide_eq_true_eq]
      exact ⟨by linarith, h2⟩
    exact_mod_cast this
  have c1 := abs_lt.mp (hc' b)
  have c2 := abs_lt.mp (hc' (a - ε / 4))
  have c3 := abs_lt.mp (hc' a)
  have c4 := abs_lt.mp (hc' (b - ε / 4))
  have d1 := hcdf (a - ε / 4) a (by linarith)
  have d2 := hcdf (b - ε / 4) b (by linarith)
  have d3 := hcdf a b hab
  have low : F (b - ε / 4) - F a ≤ (l.countP B : ℝ) := by
    rcases le_total a (b - ε / 4) with h1 | h1
    · rw [split _ _ h1]
      have : l.countP (fun z => decide (a < z ∧ z ≤ b - ε / 4)) ≤ l.countP B := by
        refine List.countP_mono_left fun x _ hx => ?_
        simp only [decide_eq_true_eq] at hx
        exact hB1 x hx.1 (by linarith)
      exact_mod_cast this
    · have := split _ _ h1
      have : (0 : ℝ) ≤ (l.countP (fun z => decide (b - ε / 4 < z ∧ z ≤ a)) : ℝ) := Nat.cast_nonneg _
      have : (0 : ℝ) ≤ (l.countP B : ℝ) := Nat.cast_nonneg _
      linarith
  have up' : (l.countP B : ℝ) / (n - 1) ≤ F b / (n - 1) - F (a - ε / 4) / (n - 1) := by
    rw [← sub_div]
    exact div_le_div_of_nonneg_right up hn'.le
  have low' : F (b - ε / 4) / (n - 1) - F a / (n - 1) ≤ (l.countP B : ℝ) / (n - 1) := by
    rw [← sub_div]
    exact div_le_div_of_nonneg_right low hn'.le
  have : |(l.countP B : ℝ) / (n - 1) - (poissonCdf b - poissonCdf a)| < ε := by
    rw [abs_lt]
    constructor <;> linarith
  linarith

/-- **C156 (next-nearest spacings).** The distribution function of the next-nearest-neighbour spacings of one spectrum, halved as the plots do, tends in probability to
`1 - (1 + 2d) exp(-2d)`, uniformly in `d ≥ 0`. -/
theorem C156_next (R : Rng σ) (eh : EigSolver) (ehC : (n : Nat) → Matrix (Fin n) (Fin n) ℂ → List ℝ) (P : ℕ → Measure Ω) [∀ n, IsProbabilityMeasure (P n)] (e s : ℕ → Ω → σ)
    (hX : ∀ n, NormalDraws (P n) fun k ω => draw R (e n ω) k) (tri : Bool) :
    ∃ vals : ℕ → Ω → List ℝ, (∀ n, GeneratedVals R eh ehC n .poisson tri (e n) (s n) (vals n)) ∧
      ∀ ε : ℝ, 0 < ε → Tendsto (fun n : ℕ => P n {ω | ∃ d : ℝ, 0 ≤ d ∧ ε ≤ |((nbr 2 (normalUnfold n (vals n ω))).countP (fun x => decide (x / 2 ≤ d)) : ℝ) / (n - 2) - (1 - (1 + 2 * d) * exp (-(2 * d)))|})
        atTop (𝓝 0) := by
  obtain ⟨vals, hv, -, hmean, -⟩ : ∃ vals : ℕ → Ω → List ℝ, (∀ n, GeneratedVals R eh ehC n .poisson tri (e n) (s n) (vals n)) ∧ True ∧
      (∀ d : ℝ, 0 ≤ d → Tendsto (fun n : ℕ => ∫ ω, ((nbr 2 (normalUnfold n (vals n ω))).countP (fun x => decide (2 * d < x)) : ℝ) / (n - 2) ∂(P n)) atTop (𝓝 ((1 + 2 * d) * exp (-(2 * d))))) ∧ True := by
    refine ⟨fun n => poissonVals R (e n) n, fun n => poissonVals_generated R eh ehC (e n) (s n) n tri, trivial, fun d hd => ?_, trivial⟩
    have h2 : Tendsto (fun n : ℕ => (1 - 2 * d / n) ^ n + 2 * d * (1 - 2 * d / n) ^ (n - 1)) atTop (𝓝 ((1 + 2 * d) * exp (-(2 * d)))) := by
      have t1 := pow_limit (2 * d)
      have t0 : Tendsto (fun n : ℕ => 1 - 2 * d / (n : ℝ)) atTop (𝓝 1) := by
        have := (tendsto_const_div_atTop_nhds_zero_nat (2 * d)).const_sub 1
        simpa using this
      have t2 : Tendsto (fun n : ℕ => (1 - 2 * d / n) ^ (n - 1)) atTop (𝓝 (exp (-(2 * d)))) := by
        have := t1.div t0 one_ne_zero
        rw [div_one] at this
        refine this.congr' ?_
        filter_upwards [t0.eventually_ne one_ne_zero, eventually_ge_atTop 1] with n h1 h2
        obtain ⟨k, rfl⟩ : ∃ k, n = k + 1 := ⟨n - 1, by omega⟩
        rw [Nat.add_sub_cancel, Pi.div_apply, pow_succ, mul_div_assoc, div_self h1, mul_one]
      have := t1.add (t2.const_mul (2 * d))
      have e2 : (1 + 2 * d) * exp (-(2 * d)) = exp (-(2 * d)) + 2 * d * exp (-(2 * d)) := by ring
      rw [e2]
      exact this
    refine h2.congr' ?_
    filter_upwards [eventually_ge_atTop (max 3 ⌈2 * d⌉₊)] with n hn
    have hn3 : 3 ≤ n := le_of_max_le_left hn
    have hn' : (3 : ℝ) ≤ n := by exact_mod_cast hn3
    rw [integral_div, mean_spacings_two (N := n) (by linarith) (uniform_of_normal (hX n) n (by omega)) (fun ω => normalUnfold n (poissonVals R (e n) n ω)) (fun ω => poisson_unfolded R (e n) n ω) (by omega) (2 * d)
      (by linarith) ((Nat.le_ceil _).trans (by exact_mod_cast le_of_max_le_right hn))]
    have : (n : ℝ) - 2 ≠ 0 := by linarith
    field_simp
  have hvals : vals = fun n => poissonVals R (e n) n :=
    funext fun n => generated_unique R eh ehC n _ tri (e n) (s n) _ _ (hv n) (poissonVals_generated R eh ehC (e n) (s n) n tri)
  subst hvals
  refine ⟨_, hv, fun ε hε => ?_⟩
  obtain ⟨hY, hY0⟩ := drawn_uniform R P e hX
  set G : ℕ → Ω → ℝ → ℝ := fun n ω d => ((nbr 2 (normalUnfold n (poissonVals R (e n) n ω))).countP (fun x => decide (d < x)) : ℝ) / (n - 2) with hGd
  set g : ℝ → ℝ := fun u => if u < 0 then 1 else (1 + u) * exp (-u) with hg
  have hg0 : ∀ u, 0 ≤ u → g u = (1 + u) * exp (-u) := fun u hu => by simp [hg, not_lt.mpr hu]
  have hlen : ∀ n : ℕ, 3 ≤ n → ∀ ω, (0 : ℝ) < n - 2 ∧ ((nbr 2 (normalUnfold n (poissonVals R (e n) n ω))).length : ℝ) = n - 2 := by
    intro n hn ω
    have : (3 : ℝ) ≤ n := by exact_mod_cast hn
    refine ⟨by linarith, ?_⟩
    rw [nbr_length, Nat.cast_sub (by omega)]
    norm_num
  have hfacts : ∀ᶠ n : ℕ in atTop, ∀ ω, Antitone (G n ω) ∧ (∀ d, 0 ≤ G n ω d) ∧ ∀ d < 0, G n ω d = 1 := by
    filter_upwards [eventually_ge_atTop 3] with n hn ω
    exact above_facts _ _ (hlen n hn ω).1 (hlen n hn ω).2 (nbr_nonneg R (e n) n 2 two_pos ω)
  have hderiv : ∀ u : ℝ, HasDerivAt (fun u => (1 + u) * exp (-u)) (-(u * exp (-u))) u := fun u => by
    have := ((hasDerivAt_id u).const_add 1).mul (hasDerivAt_neg u).exp
    refine this.congr_deriv ?_
    simp only [id]
    ring
  have hbound : ∀ u : ℝ, u * exp (-u) ≤ 1 := fun u => by
    rw [exp_neg, ← div_eq_mul_inv, div_le_one (exp_pos u)]
    linarith [add_one_le_exp u]
  have key := uniform_limit P G g 1 one_pos (hfacts.mono fun n h ω => (h ω).1) (hfacts.mono fun n h ω => (h ω).2.1)
    (hfacts.mono fun n h ω d hd => by
      rw [(h ω).2.2 d hd]
      simp [hg, hd])
    (fun d => by
      simp only [hg]
      split_ifs with h
      · exact zero_le_one
      · have := not_lt.mp h
        positivity)
    (fun a b ha hab => by
      rw [hg0 a ha, hg0 b (ha.trans hab), one_mul]
      have hm : Monotone fun u : ℝ => u + (1 + u) * exp (-u) := by
        refine monotone_of_deriv_nonneg (fun u => ((hasDerivAt_id u).add (hderiv u)).differentiableAt) fun u => ?_
        have := ((hasDerivAt_id u).add (hderiv u)).deriv
        have e1 : (fun u : ℝ => u + (1 + u) * exp (-u)) = id + fun u => (1 + u) * exp (-u) := rfl
        rw [e1, this]
        linarith [hbound u]
      have := hm hab
      simp only at this
      linarith)
    (fun a b ha hab => by
      rw [hg0 a ha, hg0 b (ha.trans hab)]
      have hm : AntitoneOn (fun u : ℝ => (1 + u) * exp (-u)) (Ici 0) := by
        refine antitoneOn_of_deriv_nonpos (convex_Ici 0) (fun u _ => (hderiv u).continuousAt.continuousWithinAt) (fun u _ => (hderiv u).differentiableAt.differentiableWithinAt) fun u hu => ?_
        rw [(hderiv u).deriv]
        rw [interior_Ici] at hu
        have := mul_nonneg (le_of_lt hu) (exp_pos (-u)).le
        linarith
      exact hm ha (ha.trans hab) hab)
    (by
      have h1 := tendsto_pow_mul_exp_neg_atTop_nhds_zero 1
      have h2 := tendsto_exp_neg_atTop_nhds_zero.add h1
      rw [add_zero] at h2
      refine h2.congr' ?_
      filter_upwards [eventually_ge_atTop 0] with d hd
      rw [hg0 d hd]
      ring)
    (fun d hd => by
      have hp : MeasurableSet {x : ℝ | decide (d < x) = true} := by
        simp only [decide_eq_true_eq]
        exact measurableSet_Ioi
      have hm := hmean (d / 2) (by linarith)
      rw [mul_div_cancel₀ d two_ne_zero, ← hg0 d hd] at hm
      have := fraction_limit P (drawn R e) hY (fun n ω => normalUnfold n (poissonVals R (e n) n ω)) (fun n ω => poisson_unfolded R (e n) n ω) 2 two_pos (fun x => decide (d < x)) hp (g d) (by
        push_cast
        exact hm)
      push_cast at this
      exact this)
    ε hε
  refine tendsto_of_tendsto_of_tendsto_of_le_of_le' tendsto_const_nhds key (Eventually.of_forall fun n => zero_le) ?_
  filter_upwards [eventually_ge_atTop 3] with n hn
  refine measure_mono ?_
  rintro ω ⟨d, hd, h⟩
  refine ⟨2 * d, ?_⟩
  have e1 : ∀ x : ℝ, (x / 2 ≤ d) = (x ≤ 2 * d) := fun x => propext ⟨fun h => by linarith, fun h => by linarith⟩
  simp only [e1] at h
  rw [above_below _ _ (hlen n hn ω).1 (hlen n hn ω).2 (2 * d)] at h
  rw [hg0 _ (by linarith)]
  exact h

/-! ## The hypotheses can be met -/

-- C156: independent standard normal streams
example (eh : EigSolver) (ehC : (n : Nat) → Matrix (Fin n) (Fin n) ℂ → List ℝ) :=
  C156_spacings streamRng eh ehC (fun _ => Measure.infinitePi fun _ : ℕ => gaussianReal 0 1) (fun _ => id) (fun _ => id) (fun _ => stream_draws) false

example (eh : EigSolver) (ehC : (n : Nat) → Matrix (Fin n) (Fin n) ℂ → List ℝ) :=
  C156_histogram streamRng eh ehC (fun _ => Measure.infinitePi fun _ : ℕ => gaussianReal 0 1) (fun _ => id) (fun _ => id) (fun _ => stream_draws) false

example (eh : EigSolver) (ehC : (n : Nat) → Matrix (Fin n) (Fin n) ℂ → List ℝ) :=
  C156_next streamRng eh ehC (fun _ => Measure.infinitePi fun _ : ℕ => gaussianReal 0 1) (fun _ => id) (fun _ => id) (fun _ => stream_draws) false

end Props
end RMT
