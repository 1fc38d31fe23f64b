import Verif.Props.Brody

/-!
# C106: the maximum-spacing estimate of the Brody parameter
-/

set_option linter.unusedSectionVars false

namespace RMT
namespace Props
open Real Brody Ensembles EigValsM Spec

/-- The product of the probabilities which the distribution function `F` gives to the intervals between neighbouring different values of a sorted list. -/
noncomputable def gapProduct (F : ℝ → ℝ) : List ℝ → ℝ
  | a :: b :: l => (if a = b then 1 else F b - F a) * gapProduct F (b :: l)
  | _ => 1

/-- The criterion of the maximum-spacing method: the two end intervals included (for a distribution on `[0, ∞)` with distribution function `F`). -/
noncomputable def fullGapProduct (F : ℝ → ℝ) (l : List ℝ) : ℝ :=
  match l.head?, l.getLast? with
  | some a, some z => F a * gapProduct F l * (1 - F z)
  | _, _ => 1

/-- An optimiser that returns an exact minimiser whenever it reports success. -/
def ExactOptimizer (opt : Optimizer) : Prop :=
  ∀ f lo hi, (opt f lo hi).success = true → (opt f lo hi).x ∈ Set.Icc lo hi ∧ ∀ b' ∈ Set.Icc lo hi, f (opt f lo hi).x ≤ f b'

theorem gap_pos {F : ℝ → ℝ} (hF : StrictMonoOn F (Set.Ici 0)) : ∀ {l : List ℝ}, Ascending l → (∀ x ∈ l, 0 ≤ x) → 0 < gapProduct F l
  | [], _, _ => by simp [gapProduct]
  | [_], _, _ => by simp [gapProduct]
  | a :: b :: l, hs, h0 => by
    have ih := gap_pos hF (l := b :: l) (List.pairwise_cons.mp hs).2 (fun x hx => h0 x (List.mem_cons_of_mem _ hx))
    have hab : a ≤ b := (List.pairwise_cons.mp hs).1 b List.mem_cons_self
    simp only [gapProduct]
    split
    · simpa using ih
    · rename_i hne
      have := hF (h0 a List.mem_cons_self) (h0 b (by simp)) (lt_of_le_of_ne hab hne)
      exact mul_pos (by linarith) ih

theorem log_gap {F : ℝ → ℝ} (hF : StrictMonoOn F (Set.Ici 0)) : ∀ {l : List ℝ}, Ascending l → (∀ x ∈ l, 0 ≤ x) →
    (((diff (l.map F)).filter fun d => decide (0 < d)).map log).sum = log (gapProduct F l)
  | [], _, _ => by simp [gapProduct, diff]
  | [_], _, _ => by simp [gapProduct, diff]
  | a :: b :: l, hs, h0 => by
    have hs' := (List.pairwise_cons.mp hs).2
    have h0' : ∀ x ∈ b :: l, 0 ≤ x := fun x hx => h0 x (List.mem_cons_of_mem _ hx)
    have ih := log_gap hF (l := b :: l) hs' h0'
    have hp := gap_pos hF hs' h0'
    have hab : a ≤ b := (List.pairwise_cons.mp hs).1 b List.mem_cons_self
    simp only [gapProduct, List.map_cons, diff] at ih ⊢
    by_cases hne : a = b
    · subst hne
      rw [List.filter_cons_of_neg (by simp)]
      simpa using ih
    · have := hF (h0 a List.mem_cons_self) (h0 b (by simp)) (lt_of_le_of_ne hab hne)
      rw [List.filter_cons_of_pos (by simpa using this), if_neg hne, log_mul (by linarith) hp.ne', List.map_cons, List.sum_cons, ih]

theorem objective_eq (s : List ℝ) (hs : ∀ x ∈ s, 0 ≤ x) (beta : ℝ) (hb : -1 < beta) :
    spacingObjective s beta = -log (gapProduct (fun x => brodyCdf x beta) (npSort s)) / s.length := by
  have h := log_gap (C68_cdf beta hb).2.1 (npSort_ascending s) (fun x hx => hs x ((npSort_perm s).mem_iff.mp hx))
  simp only [spacingObjective, positiveDiffs]
  rw [← h]
  simp only [brodyCdf, sub_add_cancel]

/-- **C106 (partial: the intervals between the spacings).** For non-negative spacings, what `fit_brody(s, 'spacing')` minimises is smallest exactly where the product of the probabilities of the intervals between neighbouring
different spacings is largest; a minimiser exists; and an exact optimiser returns one. -/
theorem C106_spacing_partial (s : List ℝ) (hne : s ≠ []) (hs : ∀ x ∈ s, 0 < x) :
    (∀ b, MinimisesInBounds (spacingObjective s) b ↔ (b ∈ Set.Icc (1e-5 : ℝ) (1 - 1e-5) ∧ ∀ b' ∈ Set.Icc (1e-5 : ℝ) (1 - 1e-5),
      gapProduct (fun x => brodyCdf x b') (npSort s) ≤ gapProduct (fun x => brodyCdf x b) (npSort s))) ∧
    (∃ b, MinimisesInBounds (spacingObjective s) b) ∧
    ∀ opt, ExactOptimizer opt → ∀ b, fitBrody opt s "spacing" = .ok b → MinimisesInBounds (spacingObjective s) b := by
  have hs0 : ∀ x ∈ s, 0 ≤ x := fun x hx => (hs x hx).le
  have hbnd : ∀ b ∈ Set.Icc (1e-5 : ℝ) (1 - 1e-5), -1 < b := fun b hb => by have := hb.1; norm_num at this ⊢; linarith
  have hlen : (0 : ℝ) < s.length := by exact_mod_cast List.length_pos_iff.mpr hne
  have hpos : ∀ b ∈ Set.Icc (1e-5 : ℝ) (1 - 1e-5), 0 < gapProduct (fun x => brodyCdf x b) (npSort s) := fun b hb =>
    gap_pos (C68_cdf b (hbnd b hb)).2.1 (npSort_ascending s) (fun x hx => hs0 x ((npSort_perm s).mem_iff.mp hx))
  have hle : ∀ b ∈ Set.Icc (1e-5 : ℝ) (1 - 1e-5), ∀ b' ∈ Set.Icc (1e-5 : ℝ) (1 - 1e-5), (spacingObjective s b ≤ spacingObjective s b' ↔
      gapProduct (fun x => brodyCdf x b') (npSort s) ≤ gapProduct (fun x => brodyCdf x b) (npSort s)) := by
    intro b hb b' hb'
    rw [objective_eq s hs0 b (hbnd b hb), objective_eq s hs0 b' (hbnd b' hb'), div_le_div_iff_of_pos_right hlen, neg_le_neg_iff,
      log_le_log_iff (hpos b' hb') (hpos b hb)]
  have hcdf : ∀ x, 0 < x → ContinuousOn (fun beta => brodyCdf x beta) (Set.Icc (1e-5 : ℝ) (1 - 1e-5)) := by
    intro x hx
    have hd := brodyDist_continuousOn x hx
    have hp : ∀ c : ℝ, Continuous fun b : ℝ => x ^ (b + c) := fun c => by
      apply Continuous.rpow continuous_const (by fun_prop)
      intro b; left; exact hx.ne'
    have hA := brodyAlpha_continuousOn
    simp only [brodyCdf]
    exact continuousOn_const.sub (continuous_exp.comp_continuousOn ((hA.neg).mul (hp 1).continuousOn))
  have hgap : ∀ l : List ℝ, (∀ x ∈ l, 0 < x) → ContinuousOn (fun beta => gapProduct (fun x => brodyCdf x beta) l) (Set.Icc (1e-5 : ℝ) (1 - 1e-5)) := by
    intro l
    induction l with
    | nil => intro _; simp only [gapProduct]; exact continuousOn_const
    | cons a l ih =>
      intro h
      cases l with
      | nil => simp only [gapProduct]; exact continuousOn_const
      | cons b l =>
        have := ih fun x hx => h x (List.mem_cons_of_mem _ hx)
        simp only [gapProduct]
        by_cases hab : a = b
        · simpa [hab] using this
        · simp only [if_neg hab]
          exact ((hcdf b (h b (by simp))).sub (hcdf a (h a (by simp)))).mul this
  refine ⟨fun b => ?_, ?_, ?_⟩
  · constructor
    · rintro ⟨h1, h2⟩; exact ⟨h1, fun b' hb' => (hle b h1 b' hb').mp (h2 b' hb')⟩
    · rintro ⟨h1, h2⟩; exact ⟨h1, fun b' hb' => (hle b h1 b' hb').mpr (h2 b' hb')⟩
  · obtain ⟨b, hb, hmax⟩ := isCompact_Icc.exists_isMaxOn ⟨1e-5, by constructor <;> norm_num⟩
      (hgap (npSort s) fun x hx => hs x ((npSort_perm s).mem_iff.mp hx))
    exact ⟨b, hb, fun b' hb' => (hle b hb b' hb').mpr (hmax hb')⟩
  · intro opt hopt b hb
    rw [(C78_dispatch opt s "spacing").1 (Or.inl (by unfold SameUpToCase; decide))] at hb
    simp only [fitBrodyMaxSpacing, optimise] at hb
    split at hb
    · rename_i hsucc
      cases hb
      exact hopt _ _ _ hsucc
    · cases hb

/-- **C106 is false.** For one spacing `x > 1` the code's criterion is constant, so an exact optimiser may return any parameter, and one returns a parameter
that does not maximise the maximum-spacing criterion `F(x) (1 - F(x))`: for large `x` even the worst parameter. -/
theorem C106_refuted : ∃ x : ℝ, 0 < x ∧ ∃ opt, ExactOptimizer opt ∧ ∃ b, fitBrody opt [x] "spacing" = .ok b ∧
    ∃ b' ∈ Set.Icc (1e-5 : ℝ) (1 - 1e-5), fullGapProduct (fun y => brodyCdf y b) [x] < fullGapProduct (fun y => brodyCdf y b') [x] := by
  classical
  set lo : ℝ := 1e-5 with hlo
  set hi : ℝ := 1 - 1e-5 with hhi
  have hlo0 : (0 : ℝ) ≤ lo := by rw [hlo]; norm_num
  have hhi0 : (0 : ℝ) ≤ hi := by rw [hhi]; norm_num
  have hhi1 : hi ≤ 1 := by rw [hhi]; norm_num
  have hlohi : lo ≤ hi := by rw [hlo, hhi]; norm_num
  have hd : (0.5 : ℝ) ≤ hi - lo := by rw [hlo, hhi]; norm_num
  refine ⟨16, by norm_num, fun f a b => ⟨decide (∀ b' ∈ Set.Icc a b, f b ≤ f b') && decide (a ≤ b), b⟩, ?_, hi, ?_, lo, ⟨le_rfl, hlohi⟩, ?_⟩
  · intro f a b h
    simp only [Bool.and_eq_true, decide_eq_true_eq] at h
    exact ⟨⟨h.2, le_rfl⟩, h.1⟩
  · rw [(C78_dispatch _ _ "spacing").1 (Or.inl (by unfold SameUpToCase; decide))]
    simp only [fitBrodyMaxSpacing, optimise]
    have hc : ∀ b, spacingObjective [(16 : ℝ)] b = 0 := fun b => C83_degenerate 1 16 b
    rw [← hhi, ← hlo]
    simp only [hc, le_refl, implies_true, decide_true, Bool.true_and, decide_eq_true_eq]
    rw [if_pos hlohi]
  · -- `a e^{-…}`: the survival function at the two parameters
    have hal := alpha_le_one hlo0
    have hag := alpha_ge hhi0 hhi1
    have hal2 := alpha_ge hlo0 (hlohi.trans hhi1)
    set u := brodyAlpha lo * (16 : ℝ) ^ (lo + 1) with hu
    set v := brodyAlpha hi * (16 : ℝ) ^ (hi + 1) with hv
    have h16 : (16 : ℝ) ^ (hi + 1) = (16 : ℝ) ^ (hi - lo) * (16 : ℝ) ^ (lo + 1) := by
      rw [← rpow_add (by norm_num)]; congr 1; ring
    have h4 : (4 : ℝ) ≤ (16 : ℝ) ^ (hi - lo) := by
      have : (16 : ℝ) ^ (0.5 : ℝ) ≤ (16 : ℝ) ^ (hi - lo) := rpow_le_rpow_of_exponent_le (by norm_num) hd
      have e : (16 : ℝ) ^ (0.5 : ℝ) = 4 := by
        rw [show (16 : ℝ) = 4 ^ (2 : ℝ) by norm_num, ← rpow_mul (by norm_num)]; norm_num
      exact e ▸ this
    have h1 : (16 : ℝ) ≤ (16 : ℝ) ^ (lo + 1) := by
      calc (16 : ℝ) = (16 : ℝ) ^ (1 : ℝ) := by simp
        _ ≤ _ := rpow_le_rpow_of_exponent_le (by norm_num) (by linarith)
    have hag' : (1 / 2 : ℝ) ≤ brodyAlpha hi := le_trans (by norm_num) hag
    have hal2' : (1 / 2 : ℝ) ≤ brodyAlpha lo := le_trans (by norm_num) hal2
    have hu1 : 1 < u := by
      rw [hu]
      calc (1 : ℝ) < 1 / 2 * 16 := by norm_num
        _ ≤ _ := mul_le_mul hal2' h1 (by norm_num) (le_trans (by norm_num) hal2')
    have huv : u < v := by
      rw [hu, hv, h16]
      have h2 : (2 : ℝ) ≤ brodyAlpha hi * (16 : ℝ) ^ (hi - lo) := by
        calc (2 : ℝ) = 1 / 2 * 4 := by norm_num
          _ ≤ _ := mul_le_mul hag' h4 (by norm_num) (le_trans (by norm_num) hag')
      rw [← mul_assoc]
      exact mul_lt_mul_of_pos_right (lt_of_le_of_lt hal (lt_of_lt_of_le (by norm_num) h2)) (lt_of_lt_of_le (by norm_num) h1)
    have eq : ∀ b, fullGapProduct (fun y => brodyCdf y b) [16] = (1 - exp (-(brodyAlpha b * 16 ^ (b + 1)))) * exp (-(brodyAlpha b * 16 ^ (b + 1))) := by
      intro b
      simp [fullGapProduct, gapProduct, brodyCdf]
    rw [eq, eq, ← hu, ← hv]
    have e1 : exp (-v) < exp (-u) := exp_lt_exp.mpr (by linarith)
    have e2 : exp (-u) < 1 / 2 := by
      have : exp (-u) < exp (-1) := exp_lt_exp.mpr (by linarith)
      have h2 : exp (-1 : ℝ) < 0.3678794412 := exp_neg_one_lt_d9
      norm_num at h2 ⊢; linarith
    have e3 := exp_pos (-v)
    nlinarith

/-- The hypotheses are met: an exact optimiser (it succeeds only if the right end is a minimiser). -/
example : ∃ opt, ExactOptimizer opt ∧ (opt (fun b => -b) 0 1).success = true := by
  classical
  refine ⟨fun f a b => ⟨decide (∀ b' ∈ Set.Icc a b, f b ≤ f b') && decide (a ≤ b), b⟩, ?_, ?_⟩
  · intro f a b h
    simp only [Bool.and_eq_true, decide_eq_true_eq] at h
    exact ⟨⟨h.2, le_rfl⟩, h.1⟩
  · simp only [Bool.and_eq_true, decide_eq_true_eq]
    exact ⟨fun b' hb' => by simpa using hb'.2, by norm_num⟩

end Props
end RMT
