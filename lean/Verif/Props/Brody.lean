import Verif.Lemmas.Brody
import Verif.Lemmas.Numeric
import Verif.Props.Ensemble
import Mathlib.Topology.Order.Compact
import Mathlib.Analysis.SpecialFunctions.Gamma.Deriv

/-!
# C78, C82, C83, C84: fitting the Brody distribution
-/

namespace RMT
namespace Props
open Spec Ensembles Brody EigValsM Real

/-! ## C78 -/

/-- **C78.** `fit_brody` accepts exactly the spellings of 'spacing', 'spacings' and 'mle', in any letter case, and runs the fit of that name; every
other string raises `ValueError`, whatever the data. -/
theorem C78_dispatch (opt : Optimizer) (s : List ℝ) (method : String) :
    (SameUpToCase method "spacing" ∨ SameUpToCase method "spacings" → fitBrody opt s method = fitBrodyMaxSpacing opt s) ∧
    (SameUpToCase method "mle" → fitBrody opt s method = fitBrodyMle opt s) ∧
    (¬ SameUpToCase method "spacing" → ¬ SameUpToCase method "spacings" → ¬ SameUpToCase method "mle" →
      fitBrody opt s method = .error .valueError) := by
  have e1 : pyLower method = "spacing".toList ↔ SameUpToCase method "spacing" := lower_eq_iff _ _ (by decide)
  have e2 : pyLower method = "spacings".toList ↔ SameUpToCase method "spacings" := lower_eq_iff _ _ (by decide)
  have e3 : pyLower method = "mle".toList ↔ SameUpToCase method "mle" := lower_eq_iff _ _ (by decide)
  simp only [fitBrody, ← e1, ← e2, ← e3]
  refine ⟨fun h => if_pos h, fun h => ?_, fun h1 h2 h3 => ?_⟩
  · have hn : ¬ (pyLower method = "spacing".toList ∨ pyLower method = "spacings".toList) := by
      rw [h]; decide
    rw [if_neg hn, if_pos h]
  · rw [if_neg (not_or.mpr ⟨h1, h2⟩), if_neg h3]

/-- **C78 (positive spacings).** `Unfolded.fit_brody` fits the strictly positive spacings of the sorted unfolded values, in their order, and no others. -/
theorem C78_positive (opt : Optimizer) (vals : List ℝ) (method : String) :
    ∃ s : List ℝ, unfoldedFitBrody opt vals method = brodyFitEvaluate opt s method ∧ s.Sublist (diff (npSort vals)) ∧
      (∀ x ∈ s, 0 < x) ∧ ∀ x, 0 < x → s.count x = (diff (npSort vals)).count x := by
  refine ⟨_, rfl, List.filter_sublist, fun x hx => by simpa using (List.mem_filter.mp hx).2, fun x hx => ?_⟩
  exact List.count_filter (by simpa using hx)

/-- C78, concrete spellings. -/
example : SameUpToCase "Spacings" "spacings" := by unfold SameUpToCase; decide
example : SameUpToCase "MLE" "mle" := by unfold SameUpToCase; decide
example (opt : Optimizer) (s : List ℝ) : fitBrody opt s "mse" = .error .valueError := by
  refine (C78_dispatch opt s "mse").2.2 ?_ ?_ ?_ <;> (unfold SameUpToCase; decide)

/-! ## C82 -/

/-- The negative log-likelihood of the Brody distribution. -/
noncomputable def negLogLik (s : List ℝ) (beta : ℝ) : ℝ := -(s.map fun x => log (brodyDist x beta)).sum

/-- `b` minimises `f` between the bounds used by the fits. -/
def MinimisesInBounds (f : ℝ → ℝ) (b : ℝ) : Prop := b ∈ Set.Icc (1e-5 : ℝ) (1 - 1e-5) ∧ ∀ b' ∈ Set.Icc (1e-5 : ℝ) (1 - 1e-5), f b ≤ f b'

/-- **C82 (what is minimised).** `fit_brody(s, 'mle')` minimises minus the *sum* of the densities. -/
theorem C82_objective (opt : Optimizer) (s : List ℝ) :
    fitBrodyMle opt s = (let r := opt (fun beta => -(s.map fun x => brodyDist x beta).sum) 1e-5 (1 - 1e-5)
      if r.success then .ok r.x else .error .runtimeError) := rfl

theorem brodyAlpha_continuousOn : ContinuousOn brodyAlpha (Set.Icc (1e-5 : ℝ) (1 - 1e-5)) := by
  have hpos : ∀ b ∈ Set.Icc (1e-5 : ℝ) (1 - 1e-5), 0 < b := fun b hb => by have := hb.1; norm_num at this ⊢; linarith
  have harg : ContinuousOn (fun b : ℝ => (b + 2) / (b + 1)) (Set.Icc (1e-5 : ℝ) (1 - 1e-5)) := by
    apply ContinuousOn.div (by fun_prop) (by fun_prop)
    intro b hb; have := hpos b hb; linarith
  have hG : ContinuousOn (fun b : ℝ => Gamma ((b + 2) / (b + 1))) (Set.Icc (1e-5 : ℝ) (1 - 1e-5)) := by
    intro b hb
    have hb' := hpos b hb
    have hc : ContinuousAt Gamma ((b + 2) / (b + 1)) := by
      apply (differentiableAt_Gamma _).continuousAt
      intro m
      have : 0 < (b + 2) / (b + 1) := by positivity
      have : (0 : ℝ) ≤ m := by positivity
      linarith
    exact ContinuousAt.comp_continuousWithinAt (g := Gamma) (f := fun b : ℝ => (b + 2) / (b + 1)) hc (harg b hb)
  apply ContinuousOn.rpow hG (by fun_prop)
  intro b hb; left
  have hb' := hpos b hb
  exact (Gamma_pos_of_pos (by positivity)).ne'

theorem brodyDist_continuousOn (x : ℝ) (hx : 0 < x) : ContinuousOn (fun beta => brodyDist x beta) (Set.Icc (1e-5 : ℝ) (1 - 1e-5)) := by
  have hA := brodyAlpha_continuousOn
  have hp : ∀ c : ℝ, Continuous fun b : ℝ => x ^ (b + c) := fun c => by
    apply Continuous.rpow continuous_const (by fun_prop)
    intro b; left; exact hx.ne'
  have h0 := hp 0
  simp only [add_zero] at h0
  simp only [brodyDist]
  have h1 := (hp 1).continuousOn (s := Set.Icc (1e-5 : ℝ) (1 - 1e-5))
  have h0' := h0.continuousOn (s := Set.Icc (1e-5 : ℝ) (1 - 1e-5))
  exact ((((continuousOn_id.add continuousOn_const).mul hA).mul h0').mul (continuous_exp.comp_continuousOn ((hA.neg).mul h1)))

/-- **C82 (a minimiser exists).** For positive spacings the objective attains its minimum between the bounds. -/
theorem C82_minimiser_exists (s : List ℝ) (hs : ∀ x ∈ s, 0 < x) : ∃ b, MinimisesInBounds (mleObjective s) b := by
  have hc : ContinuousOn (mleObjective s) (Set.Icc (1e-5 : ℝ) (1 - 1e-5)) := by
    have : ContinuousOn (fun beta => (s.map fun x => brodyDist x beta).sum) (Set.Icc (1e-5 : ℝ) (1 - 1e-5)) := by
      induction s with
      | nil => simp only [List.map_nil, List.sum_nil]; exact continuousOn_const
      | cons x s ih =>
        simp only [List.map_cons, List.sum_cons]
        exact (brodyDist_continuousOn x (hs x List.mem_cons_self)).add (ih fun y hy => hs y (List.mem_cons_of_mem _ hy))
    exact this.neg
  obtain ⟨b, hb, hmin⟩ := isCompact_Icc.exists_isMinOn ⟨1e-5, by constructor <;> norm_num⟩ hc
  exact ⟨b, hb, fun b' hb' => hmin hb'⟩

/-- The data of the counterexample: a hundred spacings equal to 1 and a very small one. -/
noncomputable def mleData : List ℝ := List.replicate 100 1 ++ [exp (-10000)]

theorem mleData_pos : ∀ x ∈ mleData, 0 < x := by
  intro x hx
  simp only [mleData, List.mem_append, List.mem_replicate, List.mem_singleton] at hx
  rcases hx with ⟨_, rfl⟩ | rfl
  · norm_num
  · exact exp_pos _

/-- **C82 is false.** For these spacings no minimiser of the objective between the bounds is a maximum-likelihood estimate: another parameter between
the bounds, `1e-5`, has a strictly greater likelihood. -/
theorem C82_refuted (b : ℝ) (hb : MinimisesInBounds (mleObjective mleData) b) :
    negLogLik mleData 1e-5 < negLogLik mleData b ∧ ¬ MinimisesInBounds (negLogLik mleData) b := by
  obtain ⟨e1, e2⟩ := exp_neg_one_bounds
  have hb0 : 0 < b := by have := hb.1.1; norm_num at this ⊢; linarith
  have hb1 : b ≤ 1 := by have := hb.1.2; norm_num at this ⊢; linarith
  have hsum : ∀ f : ℝ → ℝ, (mleData.map f).sum = 100 * f 1 + f (exp (-10000)) := fun f => by
    rw [mleData, List.map_append, List.map_replicate, List.sum_append, List.sum_replicate]
    simp
  have hpow : ∀ c : ℝ, exp (-10000) ^ c = exp (-10000 * c) := fun c => by rw [← exp_mul]
  -- a minimiser is at least 0.1
  have hlarge : 0.1 ≤ b := by
    by_contra hc
    have hc' : b < 0.1 := not_le.mp hc
    have h := hb.2 (1 - 1e-5) (by constructor <;> norm_num)
    simp only [mleObjective, hsum] at h
    have h1 := dist_one_le hb0.le
    have h2 : brodyDist (exp (-10000)) b ≤ b + 1 := by
      refine (dist_le (exp_pos _) hb0.le).trans ?_
      rw [hpow]
      have : exp (-10000 * b) ≤ 1 := exp_le_one_iff.mpr (by linarith)
      nlinarith
    have h3 : ((1 - 1e-5 : ℝ) + 1) * (0.59 * exp (-1)) ≤ brodyDist 1 (1 - 1e-5) := dist_one_ge (by norm_num) (by norm_num)
    have h4 : 0 < brodyDist (exp (-10000)) (1 - 1e-5) := dist_pos (exp_pos _) (by norm_num)
    norm_num at h1 h2 h3 h4 h e1 e2 hc'
    nlinarith
  have hlog2 : log 2 < 0.7 := by have := log_two_lt_d9; norm_num at this ⊢; linarith
  -- the likelihood of the minimiser is tiny
  have hup : (mleData.map fun x => log (brodyDist x b)).sum ≤ -1000 := by
    rw [hsum]
    have l1 : log (brodyDist 1 b) ≤ 0 := by
      apply log_nonpos (dist_pos one_pos hb0.le).le
      have := dist_one_le hb0.le
      norm_num at this e2
      nlinarith
    have l2 : log (brodyDist (exp (-10000)) b) ≤ log 2 - 10000 * b := by
      have h2 := dist_le (exp_pos (-10000)) hb0.le
      rw [hpow] at h2
      have h3 : brodyDist (exp (-10000)) b ≤ 2 * exp (-10000 * b) := by
        have := exp_pos (-10000 * b)
        nlinarith
      have h4 := log_le_log (dist_pos (exp_pos (-10000)) hb0.le) h3
      rw [log_mul (by norm_num) (exp_pos _).ne', log_exp] at h4
      linarith
    norm_num at hlarge hlog2
    -- 0.7 - 1000 is not enough by itself: use the first term as well
    have l1' : log (brodyDist 1 b) ≤ log 2 - 1 := by
      have h2 := dist_one_le hb0.le
      have h3 : brodyDist 1 b ≤ 2 * exp (-1) := by nlinarith [exp_pos (-1 : ℝ)]
      have h4 := log_le_log (dist_pos one_pos hb0.le) h3
      rw [log_mul (by norm_num) (exp_pos _).ne', log_exp] at h4
      linarith
    linarith
  -- the likelihood at the lower bound is not
  have hlo : -300 ≤ (mleData.map fun x => log (brodyDist x 1e-5)).sum := by
    rw [hsum]
    have h59 : -1 ≤ log (0.59 : ℝ) := by
      rw [le_log_iff_exp_le (by norm_num)]; norm_num at e2 ⊢; linarith
    have m1 : -2 ≤ log (brodyDist 1 1e-5) := by
      have h := dist_one_ge (beta := 1e-5) (by norm_num) (by norm_num)
      have h' : 0.59 * exp (-1) ≤ brodyDist 1 1e-5 := by
        have := exp_pos (-1 : ℝ)
        norm_num at h ⊢; nlinarith
      have h4 := log_le_log (by have := exp_pos (-1 : ℝ); positivity) h'
      rw [log_mul (by norm_num) (exp_pos _).ne', log_exp] at h4
      linarith
    have m2 : -3 ≤ log (brodyDist (exp (-10000)) 1e-5) := by
      have ha := alpha_ge (beta := 1e-5) (by norm_num) (by norm_num)
      have ha1 := alpha_le_one (beta := 1e-5) (by norm_num)
      have hx : exp (-10000) ^ ((1e-5 : ℝ) + 1) ≤ 1 := rpow_le_one (exp_pos _).le (exp_le_one_iff.mpr (by norm_num)) (by norm_num)
      have hx0 : 0 < exp (-10000) ^ ((1e-5 : ℝ) + 1) := rpow_pos_of_pos (exp_pos _) _
      have h' : 0.59 * exp (-0.1) * exp (-1) ≤ brodyDist (exp (-10000)) 1e-5 := by
        simp only [brodyDist]
        apply mul_le_mul _ _ (exp_pos _).le
        · have : 0 < exp (-10000) ^ (1e-5 : ℝ) := rpow_pos_of_pos (exp_pos _) _
          positivity
        · rw [hpow, show (-10000 : ℝ) * 1e-5 = -0.1 by norm_num]
          apply mul_le_mul_of_nonneg_right _ (exp_pos _).le
          norm_num at ha ⊢; nlinarith
        · apply exp_le_exp.mpr; nlinarith
      have h4 := log_le_log (by have := exp_pos (-1 : ℝ); have := exp_pos (-0.1 : ℝ); positivity) h'
      rw [log_mul (by have := exp_pos (-0.1 : ℝ); positivity) (exp_pos _).ne', log_mul (by norm_num) (exp_pos _).ne', log_exp, log_exp] at h4
      norm_num at h4 h59 ⊢
      linarith
    linarith
  have hlt : negLogLik mleData 1e-5 < negLogLik mleData b := by simp only [negLogLik]; linarith
  exact ⟨hlt, fun h => absurd (h.2 1e-5 (by constructor <;> norm_num)) (not_le.mpr hlt)⟩

/-- C82: the hypothesis of the refutation is met: the objective has a minimiser for these data. -/
example : ∃ b, MinimisesInBounds (mleObjective mleData) b := C82_minimiser_exists mleData mleData_pos

/-- **C82 (the part that holds).** For a single spacing the two criteria have the same minimisers. -/
theorem C82_single_partial (x : ℝ) (hx : 0 < x) (b : ℝ) :
    MinimisesInBounds (mleObjective [x]) b ↔ MinimisesInBounds (negLogLik [x]) b := by
  have hpos : ∀ b ∈ Set.Icc (1e-5 : ℝ) (1 - 1e-5), 0 < brodyDist x b := fun b hb =>
    dist_pos hx (by have := hb.1; norm_num at this ⊢; linarith)
  simp only [MinimisesInBounds, mleObjective, negLogLik, List.map_cons, List.map_nil, List.sum_cons, List.sum_nil, add_zero, neg_le_neg_iff]
  constructor
  · rintro ⟨h1, h2⟩
    exact ⟨h1, fun b' hb' => log_le_log (hpos b' hb') (h2 b' hb')⟩
  · rintro ⟨h1, h2⟩
    exact ⟨h1, fun b' hb' => (log_le_log_iff (hpos b' hb') (hpos b h1)).mp (h2 b' hb')⟩

/-! ## C83 -/

/-- **C83 (bounds and failure).** For every optimiser that stays within its bounds when it reports success, `fit_brody` either returns a number in
`[1e-5, 1 - 1e-5]`, or raises `RuntimeError` (the optimiser failed) or `ValueError` (unknown method). -/
theorem C83_bounds (opt : Optimizer) (hopt : ∀ f lo hi, lo ≤ hi → (opt f lo hi).success = true → lo ≤ (opt f lo hi).x ∧ (opt f lo hi).x ≤ hi)
    (s : List ℝ) (method : String) :
    (∃ b, fitBrody opt s method = .ok b ∧ (1e-5 : ℝ) ≤ b ∧ b ≤ 1 - 1e-5) ∨ fitBrody opt s method = .error .runtimeError ∨
    fitBrody opt s method = .error .valueError := by
  have key : ∀ f, (∃ b, optimise opt f = .ok b ∧ (1e-5 : ℝ) ≤ b ∧ b ≤ 1 - 1e-5) ∨ optimise opt f = .error .runtimeError := by
    intro f
    by_cases h : (opt f 1e-5 (1 - 1e-5)).success = true
    · left
      exact ⟨_, by simp only [optimise, if_pos h], hopt f _ _ (by norm_num) h⟩
    · right
      simp only [optimise, if_neg h]
  simp only [fitBrody]
  split
  · rcases key (spacingObjective s) with h | h
    · exact Or.inl h
    · exact Or.inr (Or.inl h)
  · split
    · rcases key (mleObjective s) with h | h
      · exact Or.inl h
      · exact Or.inr (Or.inl h)
    · exact Or.inr (Or.inr rfl)

/-- **C83 (failure).** `RuntimeError` is raised exactly when the optimiser reports failure. -/
theorem C83_failure (opt : Optimizer) (s : List ℝ) :
    (fitBrodyMaxSpacing opt s = .error .runtimeError ↔ (opt (spacingObjective s) 1e-5 (1 - 1e-5)).success = false) ∧
    (fitBrodyMle opt s = .error .runtimeError ↔ (opt (mleObjective s) 1e-5 (1 - 1e-5)).success = false) := by
  constructor
  · simp only [fitBrodyMaxSpacing, optimise]; split <;> simp_all
  · simp only [fitBrodyMle, optimise]; split <;> simp_all

/-- **C83 (order).** The maximum-spacing criterion and the 'mle' objective do not depend on the order of the spacings; hence neither do the fits. -/
theorem C83_order (s s' : List ℝ) (h : s.Perm s') :
    spacingObjective s = spacingObjective s' ∧ mleObjective s = mleObjective s' ∧
    ∀ opt method, fitBrody opt s method = fitBrody opt s' method := by
  have h1 : spacingObjective s = spacingObjective s' := by
    funext b; simp only [spacingObjective, positiveDiffs, npSort_eq_of_perm h, h.length_eq]
  have h2 : mleObjective s = mleObjective s' := by
    funext b; simp only [mleObjective, (h.map _).sum_eq]
  refine ⟨h1, h2, fun opt method => ?_⟩
  simp only [fitBrody, fitBrodyMaxSpacing, fitBrodyMle, h1, h2]

theorem diff_of_ascending {l : List ℝ} (h : Ascending l) (lo hi : ℝ) (hb : ∀ x ∈ l, lo ≤ x ∧ x < hi) :
    ∀ d ∈ diff l, 0 ≤ d ∧ d < hi - lo := by
  induction l with
  | nil => simp [diff]
  | cons a l ih =>
    cases l with
    | nil => simp [diff]
    | cons b l =>
      intro d hd
      simp only [diff, List.mem_cons] at hd
      rcases hd with rfl | hd
      · have h1 : a ≤ b := (List.pairwise_cons.mp h).1 b List.mem_cons_self
        have h2 := hb a List.mem_cons_self
        have h3 := hb b (List.mem_cons_of_mem _ List.mem_cons_self)
        constructor <;> linarith
      · exact ih (List.pairwise_cons.mp h).2 (fun x hx => hb x (List.mem_cons_of_mem _ hx)) d hd

/-- **C83 (criterion).** For non-negative spacings and every parameter above -1 the logarithms are taken of numbers in `(0, 1)`, and the criterion is
non-negative. -/
theorem C83_criterion (s : List ℝ) (hs : ∀ x ∈ s, 0 ≤ x) (beta : ℝ) (hb : -1 < beta) :
    (∀ d ∈ positiveDiffs s beta, 0 < d ∧ d < 1) ∧ 0 ≤ spacingObjective s beta := by
  obtain ⟨h0, hm, hr, _⟩ := C68_cdf beta hb
  have hd : ∀ d ∈ positiveDiffs s beta, 0 < d ∧ d < 1 := by
    intro d hd
    simp only [positiveDiffs, List.mem_filter, decide_eq_true_eq] at hd
    refine ⟨hd.2, ?_⟩
    have hmem : ∀ x ∈ npSort s, 0 ≤ x := fun x hx => hs x ((npSort_perm s).mem_iff.mp hx)
    have hasc : Ascending ((npSort s).map fun x => brodyCdf x beta) := by
      rw [Ascending, List.pairwise_map]
      refine (npSort_ascending s).imp_of_mem fun {a b} ha hb' hab => ?_
      exact hm.monotoneOn (hmem a ha) (hmem b hb') hab
    have := diff_of_ascending hasc 0 1 (by
      intro x hx
      obtain ⟨y, hy, rfl⟩ := List.mem_map.mp hx
      exact hr y (hmem y hy)) d hd.1
    linarith [this.2]
  refine ⟨hd, ?_⟩
  simp only [spacingObjective]
  apply div_nonneg
  · rw [neg_nonneg]
    have : ∀ l : List ℝ, (∀ d ∈ l, 0 < d ∧ d < 1) → (l.map log).sum ≤ 0 := by
      intro l
      induction l with
      | nil => simp
      | cons a l ih =>
        intro h
        have h1 := h a List.mem_cons_self
        have h2 := ih fun d hd => h d (List.mem_cons_of_mem _ hd)
        have h3 := log_nonpos h1.1.le h1.2.le
        simp only [List.map_cons, List.sum_cons]; linarith
    exact this _ hd
  · have : (0 : ℝ) ≤ s.length := by positivity
    linarith

/-- **C83 (no data, no information).** With a single spacing, or all spacings equal, the criterion is 0 for every parameter: the end intervals of the
maximum-spacing method are left out. -/
theorem C83_degenerate (n : Nat) (c beta : ℝ) : spacingObjective (List.replicate n c) beta = 0 := by
  have h : npSort (List.replicate n c) = List.replicate n c := npSort_of_ascending _ (by
    rw [Ascending, List.pairwise_replicate]; simp)
  have hd : ∀ (m : Nat) (v : ℝ), (diff (List.replicate m v)).filter (fun d => decide (0 < d)) = [] := by
    intro m v
    induction m with
    | zero => rfl
    | succ m ih =>
      cases m with
      | zero => rfl
      | succ m =>
        rw [List.replicate_succ, List.replicate_succ]
        simp only [diff, sub_self]
        rw [List.filter_cons_of_neg (by simp), ← List.replicate_succ]
        exact ih
  simp only [spacingObjective, positiveDiffs, h, List.map_replicate, hd]
  simp

/-- C83, concrete: an optimiser that respects its bounds (it returns the middle), and what `fit_brody` returns with it. -/
example : fitBrody (fun _ lo hi => ⟨true, (lo + hi) / 2⟩) [1, 2] "mle" = .ok (1 / 2) := by
  have := (C78_dispatch (fun _ lo hi => ⟨true, (lo + hi) / 2⟩) [1, 2] "mle").2.1 (by unfold SameUpToCase; decide)
  rw [this]
  simp [fitBrodyMle, optimise]

/-! ## C84 -/

theorem linspace_ecdf (n i : Nat) (hi : i < n) : (linspace (1 / (n : ℝ)) 1 n)[i]? = some (((i : ℝ) + 1) / n) := by
  rw [linspace, List.getElem?_map, List.getElem?_range hi]
  simp only [Option.map_some, Option.some.injEq]
  have hn : (n : ℝ) ≠ 0 := by norm_cast; omega
  by_cases h1 : n = 1
  · subst h1
    have : i = 0 := by omega
    subst this
    simp
  · have hn1 : (n : ℝ) - 1 ≠ 0 := by
      intro h
      apply h1
      have : (n : ℝ) = 1 := by linarith
      exact_mod_cast this
    field_simp
    ring

/-- The fraction of the sample up to the `i`-th smallest value is at least `(i + 1) / n`, with equality exactly when the next value is larger. -/
theorem ecdf_sorted (s : List ℝ) (i : Nat) (x : ℝ) (hx : (npSort s)[i]? = some x) :
    ((i : ℝ) + 1) / s.length ≤ ecdfAt s x ∧
    (((i : ℝ) + 1) / s.length = ecdfAt s x ↔ ∀ y, (npSort s)[i + 1]? = some y → x < y) := by
  have hlen : (npSort s).length = s.length := (npSort_perm s).length_eq
  have hi : i < (npSort s).length := by
    by_contra hc
    rw [List.getElem?_eq_none (by omega)] at hx; cases hx
  have hxi : (npSort s)[i] = x := by rw [List.getElem?_eq_getElem hi] at hx; simpa using hx
  have hc1 : (s.filter fun v => decide (v ≤ x)).length = ((npSort s).filter fun v => decide (v ≤ x)).length :=
    (((npSort_perm s).filter _).length_eq).symm
  have hasc := npSort_ascending s
  have hsplit : ((npSort s).filter fun v => decide (v ≤ x)).length = (i + 1) + (((npSort s).drop (i + 1)).filter fun v => decide (v ≤ x)).length := by
    conv_lhs => rw [← List.take_append_drop (i + 1) (npSort s)]
    rw [List.filter_append, List.length_append]
    congr 1
    rw [List.filter_eq_self.mpr, List.length_take, Nat.min_eq_left (by omega)]
    intro v hv
    obtain ⟨j, hj, rfl⟩ := List.mem_iff_getElem.mp hv
    rw [List.length_take] at hj
    rw [List.getElem_take, decide_eq_true_eq, ← hxi]
    rcases Nat.lt_or_ge j i with h | h
    · exact List.pairwise_iff_getElem.mp hasc j i (by omega) hi h
    · have : j = i := by omega
      subst this; exact le_rfl
  have hpos : (0 : ℝ) < s.length := by rw [← hlen]; exact_mod_cast (by omega : 0 < (npSort s).length)
  rw [ecdfAt, hc1, hsplit]
  have e : ((i : ℝ) + 1) / s.length = (((i + 1 : Nat) : ℝ)) / s.length := by push_cast; rfl
  rw [e]
  constructor
  · apply div_le_div_of_nonneg_right _ hpos.le
    exact_mod_cast Nat.le_add_right _ _
  · rw [div_left_inj' hpos.ne', Nat.cast_inj]
    constructor
    · intro h y hy
      have h0 : ((npSort s).drop (i + 1)).filter (fun v => decide (v ≤ x)) = [] := List.length_eq_zero_iff.mp (by omega)
      have hmem : y ∈ (npSort s).drop (i + 1) := by
        apply List.mem_of_getElem? (i := 0)
        rw [List.getElem?_drop, Nat.add_zero]; exact hy
      have := List.filter_eq_nil_iff.mp h0 y hmem
      simpa using this
    · intro h
      have h0 : ((npSort s).drop (i + 1)).filter (fun v => decide (v ≤ x)) = [] := by
        apply List.filter_eq_nil_iff.mpr
        intro v hv
        obtain ⟨j, hj, rfl⟩ := List.mem_iff_getElem.mp hv
        rw [List.length_drop] at hj
        rw [List.getElem_drop, decide_eq_true_eq, not_le]
        have hs1 : i + 1 < (npSort s).length := by omega
        have h1 := h _ (List.getElem?_eq_getElem hs1)
        refine lt_of_lt_of_le h1 ?_
        rcases Nat.eq_zero_or_pos j with h | h
        · subst h; exact le_rfl
        · exact List.pairwise_iff_getElem.mp hasc (i + 1) (i + 1 + j) hs1 (by omega) (by omega)
      rw [h0]; rfl

/-- **C84 (what is reported).** For at least one spacing and a successful fit: the spacings in ascending order; the column `ecdf` is `1/n, 2/n, ..., 1`; the Brody CDF
with the fitted parameter at each spacing; the mean absolute and mean squared difference of the two columns. -/
theorem C84_report (opt : Optimizer) (s : List ℝ) (hs : s ≠ []) (method : String) (b : ℝ) (hb : fitBrody opt s method = .ok b) :
    ∃ r, brodyFitEvaluate opt s method = .ok r ∧ r.beta = b ∧ r.spacings = npSort s ∧
      r.ecdf.length = s.length ∧ (∀ i : Nat, i < s.length → r.ecdf[i]? = some (((i : ℝ) + 1) / s.length)) ∧
      r.brodyCdf = (npSort s).map (fun x => Ensembles.brodyCdf x b) ∧
      r.mad = (List.zipWith (fun u v => |u - v|) r.ecdf r.brodyCdf).sum / s.length ∧
      r.msqd = (List.zipWith (fun u v => (u - v) ^ 2) r.ecdf r.brodyCdf).sum / s.length := by
  have hn : s.length ≠ 0 := by simpa using hs
  have hl : (npSort s).length = s.length := (npSort_perm s).length_eq
  simp only [brodyFitEvaluate, hb, bind, Except.bind, if_neg hn]
  refine ⟨_, rfl, rfl, rfl, by simp [linspace], fun i hi => linspace_ecdf _ i hi, rfl, ?_, ?_⟩
  · simp [mean, linspace, hl]
  · simp [mean, linspace, hl]

/-- **C84 (ranges).** For positive spacings both columns are in `[0, 1]`, `mad` and `msqd` are in `[0, 1]`, and `msqd ≤ mad`. -/
theorem C84_ranges (opt : Optimizer) (s : List ℝ) (hs : ∀ x ∈ s, 0 < x) (method : String) (r : Eval)
    (hr : brodyFitEvaluate opt s method = .ok r) (hb : -1 < r.beta) :
    (∀ y ∈ r.ecdf, 0 < y ∧ y ≤ 1) ∧ (∀ y ∈ r.brodyCdf, 0 ≤ y ∧ y < 1) ∧
    0 ≤ r.msqd ∧ r.msqd ≤ r.mad ∧ r.mad ≤ 1 := by
  rcases hf : fitBrody opt s method with e | b
  · simp [brodyFitEvaluate, hf, bind, Except.bind] at hr
  by_cases hne : s = []
  · subst hne
    simp [brodyFitEvaluate, hf, bind, Except.bind] at hr
  obtain ⟨r', h1, h2, h3, h4, h5, h6, h7, h8⟩ := C84_report opt s hne method b hf
  rw [hr] at h1
  cases h1
  rw [h2] at hb
  have hpos : (0 : ℝ) < s.length := by exact_mod_cast List.length_pos_iff.mpr hne
  have hE : ∀ y ∈ r.ecdf, 0 < y ∧ y ≤ 1 := by
    intro y hy
    obtain ⟨i, hi, rfl⟩ := List.mem_iff_getElem.mp hy
    have := h5 i (by omega)
    rw [List.getElem?_eq_getElem hi] at this
    have := Option.some.inj this
    rw [this]
    have hi' : ((i + 1 : Nat) : ℝ) ≤ s.length := by exact_mod_cast (by omega : i + 1 ≤ s.length)
    push_cast at hi'
    constructor
    · positivity
    · rw [div_le_one hpos]; exact hi'
  have hB : ∀ y ∈ r.brodyCdf, 0 ≤ y ∧ y < 1 := by
    intro y hy
    rw [h6] at hy
    obtain ⟨x, hx, rfl⟩ := List.mem_map.mp hy
    exact (C68_cdf b hb).2.2.1 x (hs x ((npSort_perm s).mem_iff.mp hx)).le
  refine ⟨hE, hB, ?_, ?_, ?_⟩
  · rw [h8]
    apply div_nonneg _ hpos.le
    apply List.sum_nonneg
    intro z hz
    obtain ⟨i, hi, rfl⟩ := List.mem_iff_getElem.mp hz
    rw [List.getElem_zipWith]
    positivity
  · rw [h7, h8]
    apply div_le_div_of_nonneg_right _ hpos.le
    have : ∀ (u v : List ℝ), (∀ y ∈ u, 0 < y ∧ y ≤ 1) → (∀ y ∈ v, 0 ≤ y ∧ y < 1) →
        (List.zipWith (fun u v => (u - v) ^ 2) u v).sum ≤ (List.zipWith (fun u v => |u - v|) u v).sum := by
      intro u
      induction u with
      | nil => intro v _ _; simp
      | cons a u ih =>
        intro v hu hv
        cases v with
        | nil => simp
        | cons c v =>
          simp only [List.zipWith_cons_cons, List.sum_cons]
          have ha := hu a List.mem_cons_self
          have hc := hv c List.mem_cons_self
          have := ih v (fun y hy => hu y (List.mem_cons_of_mem _ hy)) (fun y hy => hv y (List.mem_cons_of_mem _ hy))
          have h1 : |a - c| ≤ 1 := abs_le.mpr ⟨by linarith, by linarith⟩
          have h2 : (a - c) ^ 2 ≤ |a - c| := by
            rw [← sq_abs]; nlinarith [abs_nonneg (a - c)]
          linarith
    exact this _ _ hE hB
  · rw [h7, div_le_one hpos]
    have : ∀ (u v : List ℝ), (∀ y ∈ u, 0 < y ∧ y ≤ 1) → (∀ y ∈ v, 0 ≤ y ∧ y < 1) →
        (List.zipWith (fun u v => |u - v|) u v).sum ≤ u.length := by
      intro u
      induction u with
      | nil => intro v _ _; simp
      | cons a u ih =>
        intro v hu hv
        cases v with
        | nil => simp; positivity
        | cons c v =>
          simp only [List.zipWith_cons_cons, List.sum_cons, List.length_cons]
          have ha := hu a List.mem_cons_self
          have hc := hv c List.mem_cons_self
          have := ih v (fun y hy => hu y (List.mem_cons_of_mem _ hy)) (fun y hy => hv y (List.mem_cons_of_mem _ hy))
          have h1 : |a - c| ≤ 1 := abs_le.mpr ⟨by linarith, by linarith⟩
          push_cast
          linarith
    have := this _ _ hE hB
    rwa [h4] at this

/-- **C84 (distinct spacings).** If no two spacings are equal, the column `ecdf` is the empirical distribution function at the reported spacings. -/
theorem C84_ecdf_partial (opt : Optimizer) (s : List ℝ) (hd : s.Nodup) (method : String) (r : Eval)
    (hr : brodyFitEvaluate opt s method = .ok r) : r.ecdf = r.spacings.map (ecdfAt s) := by
  rcases hf : fitBrody opt s method with e | b
  · simp [brodyFitEvaluate, hf, bind, Except.bind] at hr
  by_cases hne : s = []
  · subst hne
    simp [brodyFitEvaluate, hf, bind, Except.bind] at hr
  obtain ⟨r', h1, h2, h3, h4, h5, h6, h7, h8⟩ := C84_report opt s hne method b hf
  rw [hr] at h1
  cases h1
  have hl : (npSort s).length = s.length := (npSort_perm s).length_eq
  apply List.ext_getElem?
  intro i
  by_cases hi : i < s.length
  · rw [h5 i hi, List.getElem?_map, h3]
    obtain ⟨x, hx⟩ : ∃ x, (npSort s)[i]? = some x := ⟨_, List.getElem?_eq_getElem (by omega)⟩
    rw [hx]
    simp only [Option.map_some, Option.some.injEq]
    rw [(ecdf_sorted s i x hx).2]
    intro y hy
    have hnd : (npSort s).Nodup := (npSort_perm s).nodup_iff.mpr hd
    have hi1 : i + 1 < (npSort s).length := by
      by_contra hc
      rw [List.getElem?_eq_none (by omega)] at hy; cases hy
    rw [List.getElem?_eq_getElem (by omega)] at hx hy
    have ex := Option.some.inj hx
    have ey := Option.some.inj hy
    rw [← ex, ← ey]
    have hle := List.pairwise_iff_getElem.mp (npSort_ascending s) i (i + 1) (by omega) hi1 (by omega)
    refine lt_of_le_of_ne hle fun e => ?_
    have := (List.Nodup.getElem_inj_iff hnd).mp e
    omega
  · rw [List.getElem?_eq_none (by omega), List.getElem?_eq_none (by rw [List.length_map, h3]; omega)]

/-- **C84 (ties) is false.** Entry `i` of the column is below the empirical distribution function at the reported spacing exactly when the next spacing is
equal: with tied spacings the column is not the empirical distribution function. -/
theorem C84_ties_refuted (opt : Optimizer) (s : List ℝ) (method : String) (r : Eval)
    (hr : brodyFitEvaluate opt s method = .ok r) (i : Nat) (x : ℝ) (h1 : r.spacings[i]? = some x) (h2 : r.spacings[i + 1]? = some x) :
    ∃ y, r.ecdf[i]? = some y ∧ y < ecdfAt s x := by
  rcases hf : fitBrody opt s method with e | b
  · simp [brodyFitEvaluate, hf, bind, Except.bind] at hr
  by_cases hne : s = []
  · subst hne
    simp [brodyFitEvaluate, hf, bind, Except.bind] at hr
  obtain ⟨r', e1, _, h3, h4, h5, _, _, _⟩ := C84_report opt s hne method b hf
  rw [hr] at e1
  cases e1
  rw [h3] at h1 h2
  have hl : (npSort s).length = s.length := (npSort_perm s).length_eq
  have hi : i < s.length := by
    by_contra hc
    rw [List.getElem?_eq_none (by omega)] at h1; cases h1
  refine ⟨_, h5 i hi, ?_⟩
  obtain ⟨a, c⟩ := ecdf_sorted s i x h1
  refine lt_of_le_of_ne a fun e => ?_
  exact lt_irrefl _ (c.mp e x h2)

/-- C84, concrete: two equal spacings give the column 1/2, 1, while the empirical distribution function is 1 at both. -/
example : ∃ r, brodyFitEvaluate (fun _ lo hi => ⟨true, (lo + hi) / 2⟩) [1, 1] "mle" = .ok r ∧ r.ecdf[0]? = some (1 / 2) ∧
    r.spacings[0]? = some 1 ∧ r.spacings[1]? = some 1 := by
  have hf : fitBrody (fun _ lo hi => ⟨true, (lo + hi) / 2⟩) [1, 1] "mle" = .ok (1 / 2) := by
    rw [(C78_dispatch _ _ "mle").2.1 (by unfold SameUpToCase; decide)]
    simp [fitBrodyMle, optimise]
  obtain ⟨r, h1, _, h3, _, h5, _⟩ := C84_report _ [1, 1] (by simp) "mle" _ hf
  have e : npSort [(1 : ℝ), 1] = [1, 1] := npSort_of_ascending _ (by simp [Ascending])
  refine ⟨r, h1, ?_, by rw [h3, e]; rfl, by rw [h3, e]; rfl⟩
  rw [h5 0 (by simp)]; norm_num

end Props
end RMT
