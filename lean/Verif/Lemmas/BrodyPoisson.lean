import Verif.Lemmas.BrodyConcave
import Mathlib.MeasureTheory.Integral.IntegralEqImproper
import Mathlib.MeasureTheory.Integral.IntervalIntegral.IntegrationByParts

/-!
# Lemmas for C168: averages over spacings whose distribution is nearly exponential
-/

namespace RMT
namespace BrodyC
open Real Brody Ensembles EigValsM Spec Props Filter Topology MeasureTheory

/-- The fraction of the values above `t`. -/
noncomputable def above (s : List ℝ) (t : ℝ) : ℝ := (s.countP fun x => decide (t < x) : ℝ) / s.length

theorem count_integrable (s : List ℝ) (a B : ℝ) : IntervalIntegrable (fun t => (s.countP fun x => decide (t < x) : ℝ)) volume a B := by
  refine Antitone.intervalIntegrable fun t u htu => ?_
  have : s.countP (fun x => decide (u < x)) ≤ s.countP (fun x => decide (t < x)) := by
    refine List.countP_mono_left fun x _ hx => ?_
    simp only [decide_eq_true_eq] at hx ⊢
    linarith
  exact_mod_cast this

/-- A sum over a list, from below, by the counting function of the list. -/
theorem sum_clamped (f f' : ℝ → ℝ) (a B : ℝ) (hab : a ≤ B) (hd : ∀ t ∈ Set.Icc a B, HasDerivAt f (f' t) t) (hc : ContinuousOn f' (Set.Icc a B)) (hlo : ∀ x, 0 < x → x ≤ a → f a ≤ f x)
    (hhi : ∀ x, B ≤ x → f B ≤ f x) : ∀ s : List ℝ, (∀ x ∈ s, 0 < x) → s.length * f a + ∫ t in a..B, f' t * (s.countP fun x => decide (t < x) : ℝ) ≤ (s.map f).sum
  | [], _ => by simp
  | x :: s, hs => by
    have ih := sum_clamped f f' a B hab hd hc hlo hhi s fun y hy => hs y (List.mem_cons_of_mem _ hy)
    have hcu : ContinuousOn f' (Set.uIcc a B) := by rwa [Set.uIcc_of_le hab]
    have i1 : IntervalIntegrable (fun t => f' t * (s.countP fun x => decide (t < x) : ℝ)) volume a B := (count_integrable s a B).continuousOn_mul hcu
    have i2 : IntervalIntegrable (fun t => f' t * ([x].countP fun x => decide (t < x) : ℝ)) volume a B := (count_integrable [x] a B).continuousOn_mul hcu
    have e : (fun t => f' t * ((x :: s).countP fun x => decide (t < x) : ℝ)) = fun t => f' t * ([x].countP fun x => decide (t < x) : ℝ) + f' t * (s.countP fun x => decide (t < x) : ℝ) := by
      funext t
      rw [← mul_add, show x :: s = [x] ++ s from rfl, List.countP_append]
      push_cast
      rfl
    have key : f a + ∫ t in a..B, f' t * ([x].countP fun x => decide (t < x) : ℝ) ≤ f x := by
      have g : ∀ t, f' t * ([x].countP fun x => decide (t < x) : ℝ) = if t < x then f' t else 0 := fun t => by
        by_cases h : t < x <;> simp [h]
      have ftc : ∀ u v, a ≤ u → u ≤ v → v ≤ B → ∫ t in u..v, f' t = f v - f u := fun u v h1 h2 h3 => by
        refine intervalIntegral.integral_eq_sub_of_hasDerivAt (fun t ht => hd t ?_) ((hc.mono ?_).intervalIntegrable)
        · rw [Set.uIcc_of_le h2] at ht; exact ⟨h1.trans ht.1, ht.2.trans h3⟩
        · rw [Set.uIcc_of_le h2]; exact Set.Icc_subset_Icc h1 h3
      simp only [g]
      simp only [g] at i2
      have cut : ∀ u v, u ≤ v → v ≤ x → ∫ t in u..v, (if t < x then f' t else 0) = ∫ t in u..v, f' t := fun u v huv h => by
        refine intervalIntegral.integral_congr_ae ?_
        filter_upwards [Measure.ae_ne volume x] with t ht hm
        rw [Set.uIoc_of_le huv] at hm
        rw [if_pos (lt_of_le_of_ne (hm.2.trans h) ht)]
      have cut' : ∀ u v, u ≤ v → x ≤ u → ∫ t in u..v, (if t < x then f' t else 0) = 0 := fun u v huv h => by
        rw [intervalIntegral.integral_congr (g := fun _ => (0 : ℝ)) fun t ht => ?_]
        · simp
        · rw [Set.uIcc_of_le huv] at ht
          exact if_neg (not_lt.mpr (h.trans ht.1))
      rcases le_or_gt x a with h | h
      · rw [cut' a B hab h, add_zero]
        exact hlo x (hs x List.mem_cons_self) h
      · rcases le_or_gt x B with h' | h'
        · rw [← intervalIntegral.integral_add_adjacent_intervals (b := x), cut a x h.le le_rfl, cut' x B h' le_rfl, ftc a x le_rfl h.le h']
          · linarith
          · exact i2.mono_set (by rw [Set.uIcc_of_le h.le, Set.uIcc_of_le hab]; exact Set.Icc_subset_Icc le_rfl h')
          · exact i2.mono_set (by rw [Set.uIcc_of_le h', Set.uIcc_of_le hab]; exact Set.Icc_subset_Icc h.le le_rfl)
        · rw [cut a B hab h'.le, ftc a B le_rfl hab le_rfl]
          linarith [hhi x h'.le]
    rw [e, intervalIntegral.integral_add i2 i1, List.map_cons, List.sum_cons, List.length_cons]
    push_cast
    linarith

/-- If the fraction above `t` is near `exp (-t)`, averages are at least nearly the mean under the exponential distribution. -/
theorem average_above (f f' : ℝ → ℝ) (a B : ℝ) (hab : a ≤ B) (hd : ∀ t ∈ Set.Icc a B, HasDerivAt f (f' t) t) (hc : ContinuousOn f' (Set.Icc a B)) (hlo : ∀ x, 0 < x → x ≤ a → f a ≤ f x)
    (hhi : ∀ x, B ≤ x → f B ≤ f x) (s : List ℝ) (hne : s ≠ []) (hs : ∀ x ∈ s, 0 < x) (ε : ℝ) (hε : ∀ t ∈ Set.Icc a B, |above s t - exp (-t)| ≤ ε) :
    f a * (1 - exp (-a)) + f B * exp (-B) + (∫ t in a..B, f t * exp (-t)) - ε * ∫ t in a..B, |f' t| ≤ (s.map f).sum / s.length := by
  have hn : (0 : ℝ) < s.length := by exact_mod_cast List.length_pos_of_ne_nil hne
  have h1 := sum_clamped f f' a B hab hd hc hlo hhi s hs
  have hcu : ContinuousOn f' (Set.uIcc a B) := by rwa [Set.uIcc_of_le hab]
  have iA : IntervalIntegrable (fun t => f' t * above s t) volume a B := by
    have := ((count_integrable s a B).div_const (s.length : ℝ)).continuousOn_mul hcu
    exact this
  have iE : IntervalIntegrable (fun t => f' t * exp (-t)) volume a B := (hcu.mul (by fun_prop)).intervalIntegrable
  have iabs : IntervalIntegrable (fun t => ε * |f' t|) volume a B := (continuousOn_const.mul hcu.abs).intervalIntegrable
  have e1 : ∫ t in a..B, f' t * (s.countP fun x => decide (t < x) : ℝ) = s.length * ∫ t in a..B, f' t * above s t := by
    rw [← intervalIntegral.integral_const_mul]
    refine intervalIntegral.integral_congr fun t _ => ?_
    simp only [above]
    field_simp
  have h2 : f a + ∫ t in a..B, f' t * above s t ≤ (s.map f).sum / s.length := by
    rw [le_div_iff₀ hn]
    rw [e1] at h1
    linarith
  have h3 : (∫ t in a..B, f' t * exp (-t)) - ε * ∫ t in a..B, |f' t| ≤ ∫ t in a..B, f' t * above s t := by
    rw [← intervalIntegral.integral_const_mul, ← intervalIntegral.integral_sub iE iabs]
    refine intervalIntegral.integral_mono_on hab (iE.sub iabs) iA fun t ht => ?_
    have := hε t ht
    have q : |f' t * (above s t - exp (-t))| ≤ |f' t| * ε := by rw [abs_mul]; exact mul_le_mul_of_nonneg_left this (abs_nonneg _)
    have := (abs_le.mp q).1
    linarith
  have h4 : ∫ t in a..B, f' t * exp (-t) = f B * exp (-B) - f a * exp (-a) + ∫ t in a..B, f t * exp (-t) := by
    have := intervalIntegral.integral_mul_deriv_eq_deriv_mul (u := fun t => exp (-t)) (v := f) (u' := fun t => -exp (-t)) (v' := f') (a := a) (b := B)
      (fun t _ => by simpa using (hasDerivAt_neg t).exp) (fun t ht => hd t (by rwa [Set.uIcc_of_le hab] at ht)) ((by fun_prop : Continuous fun t : ℝ => -exp (-t)).intervalIntegrable _ _) hcu.intervalIntegrable
    have e2 : ∫ t in a..B, f' t * exp (-t) = ∫ t in a..B, exp (-t) * f' t := intervalIntegral.integral_congr fun t _ => mul_comm _ _
    have e3 : ∫ t in a..B, -exp (-t) * f t = -∫ t in a..B, f t * exp (-t) := by
      rw [← intervalIntegral.integral_neg]
      exact intervalIntegral.integral_congr fun t _ => by ring
    rw [e2, this, e3]
    ring
  linarith

theorem gain_deriv (c b : ℝ) {t : ℝ} (ht : 0 < t) :
    HasDerivAt (fun x => logDens c x - logDens b x) ((c - b) / t - brodyAlpha c * ((c + 1) * t ^ c) + brodyAlpha b * ((b + 1) * t ^ b)) t := by
  have hp : ∀ r : ℝ, HasDerivAt (fun x : ℝ => x ^ (r + 1)) ((r + 1) * t ^ r) t := fun r => by
    have := Real.hasDerivAt_rpow_const (x := t) (p := r + 1) (Or.inl ht.ne')
    rwa [add_sub_cancel_right] at this
  have hl := Real.hasDerivAt_log ht.ne'
  have h1 : ∀ r : ℝ, HasDerivAt (fun x => logDens r x) (r * t⁻¹ - brodyAlpha r * ((r + 1) * t ^ r)) t := fun r =>
    ((hl.const_mul r).const_add _).sub ((hp r).const_mul _)
  refine ((h1 c).sub (h1 b)).congr_deriv ?_
  rw [div_eq_mul_inv]
  ring

theorem gain_low {c b : ℝ} (hc : c ∈ Set.Icc (0 : ℝ) 1) (hb : b ∈ Set.Icc (0 : ℝ) 1) {a : ℝ} (ha : a ≤ (b - c) / 2) :
    AntitoneOn (fun x => logDens c x - logDens b x) (Set.Ioc 0 a) := by
  refine antitoneOn_of_deriv_nonpos (convex_Ioc 0 a) (fun x hx => (gain_deriv c b hx.1).continuousAt.continuousWithinAt) (fun x hx => ?_) fun x hx => ?_
  · rw [interior_Ioc] at hx
    exact (gain_deriv c b hx.1).differentiableAt.differentiableWithinAt
  · rw [interior_Ioc] at hx
    rw [(gain_deriv c b hx.1).deriv]
    have a1 := alpha_le_one hb.1
    have a0 := brodyAlpha_pos b (by linarith [hb.1])
    have a2 := brodyAlpha_pos c (by linarith [hc.1])
    have hx1 : x ≤ 1 := by linarith [hx.2, hb.2, hc.1]
    have p1 : x ^ b ≤ 1 := rpow_le_one hx.1.le hx1 hb.1
    have p0 := rpow_pos_of_pos hx.1 b
    have p2 := rpow_pos_of_pos hx.1 c
    have h1 : (c - b) / x ≤ -2 := by
      rw [div_le_iff₀ hx.1]
      linarith [hx.2]
    have h2 : brodyAlpha b * ((b + 1) * x ^ b) ≤ 2 := by
      have : (b + 1) * x ^ b ≤ 2 := by nlinarith [hb.1, hb.2]
      have h0 : 0 ≤ (b + 1) * x ^ b := by nlinarith [hb.1]
      nlinarith
    have h3 : 0 ≤ brodyAlpha c * ((c + 1) * x ^ c) := by
      have := hc.1
      positivity
    linarith

theorem gain_high {c b : ℝ} (hc : c ∈ Set.Icc (0 : ℝ) 1) (hb : b ∈ Set.Icc (0 : ℝ) 1) (hcb : c < b) : ∃ B₀, 1 ≤ B₀ ∧ MonotoneOn (fun x => logDens c x - logDens b x) (Set.Ici B₀) := by
  have ht : Tendsto (fun x : ℝ => x ^ (b - c)) atTop atTop := tendsto_rpow_atTop (by linarith)
  obtain ⟨B₀, hB⟩ := eventually_atTop.mp ((ht.eventually_ge_atTop 6).and (eventually_ge_atTop 1))
  refine ⟨B₀, (hB B₀ le_rfl).2, ?_⟩
  have hB0 := (hB B₀ le_rfl).2
  refine monotoneOn_of_deriv_nonneg (convex_Ici B₀) (fun x hx => (gain_deriv c b (by linarith [Set.mem_Ici.mp hx])).continuousAt.continuousWithinAt) (fun x hx => ?_) fun x hx => ?_
  · rw [interior_Ici] at hx
    exact (gain_deriv c b (by linarith [Set.mem_Ioi.mp hx])).differentiableAt.differentiableWithinAt
  · rw [interior_Ici] at hx
    have hx' := Set.mem_Ioi.mp hx
    have hx0 : 0 < x := by linarith
    have hx1 : 1 ≤ x := by linarith
    rw [(gain_deriv c b hx0).deriv]
    have a1 := alpha_ge hb.1 hb.2
    have a2 := alpha_le_one hc.1
    have a3 := brodyAlpha_pos c (by linarith [hc.1])
    have h6 := (hB x hx'.le).1
    have e : x ^ b = x ^ c * x ^ (b - c) := by rw [← rpow_add hx0]; congr 1; ring
    have pc : 1 ≤ x ^ c := one_le_rpow hx1 hc.1
    have h1 : -1 ≤ (c - b) / x := by
      rw [le_div_iff₀ hx0]
      linarith [hb.2, hc.1]
    have h2 : brodyAlpha c * ((c + 1) * x ^ c) ≤ 2 * x ^ c := by
      have : (c + 1) * x ^ c ≤ 2 * x ^ c := by nlinarith [hc.2]
      have h0 : 0 ≤ (c + 1) * x ^ c := by nlinarith [hc.1]
      nlinarith
    have h3 : 0.59 * (6 * x ^ c) ≤ brodyAlpha b * ((b + 1) * x ^ b) := by
      have q : 6 * x ^ c ≤ x ^ b := by rw [e]; nlinarith
      have q' : 6 * x ^ c ≤ (b + 1) * x ^ b := by nlinarith [hb.1]
      have : (0 : ℝ) ≤ 6 * x ^ c := by linarith
      nlinarith
    norm_num at h3
    linarith

/-- If the mean log-likelihood under the exponential distribution is larger at `c` than at `b > c`, so is the log-likelihood of spacings whose distribution is nearly exponential. -/
theorem gain_exists {c b : ℝ} (hc : c ∈ Set.Icc (0 : ℝ) 1) (hb : b ∈ Set.Icc (0 : ℝ) 1) (hcb : c < b) (hI : 0 < ∫ t in Set.Ioi (0 : ℝ), (logDens c t - logDens b t) * exp (-t))
    (hint : IntegrableOn (fun t => (logDens c t - logDens b t) * exp (-t)) (Set.Ioi 0)) :
    ∃ ε > 0, ∃ η > 0, ∀ s : List ℝ, s ≠ [] → (∀ x ∈ s, 0 < x) → (∀ t, |above s t - exp (-t)| ≤ ε ∨ t < 0) → η ≤ (s.map fun x => logDens c x - logDens b x).sum / s.length := by
  set f : ℝ → ℝ := fun x => logDens c x - logDens b x with hf
  set f' : ℝ → ℝ := fun t => (c - b) / t - brodyAlpha c * ((c + 1) * t ^ c) + brodyAlpha b * ((b + 1) * t ^ b) with hf'
  obtain ⟨B₀, hB1, hmono⟩ := gain_high hc hb hcb
  set a₀ := (b - c) / 2 with ha₀
  have ha0 : 0 < a₀ := by rw [ha₀]; linarith
  have hanti := gain_low hc hb (le_refl a₀)
  have hlim : Tendsto (fun k : ℕ => f a₀ * (1 - exp (-(1 / ((k : ℝ) + 1)))) + f B₀ * exp (-((k : ℝ) + 1)) + ∫ t in Set.Ioc (1 / ((k : ℝ) + 1)) ((k : ℝ) + 1), f t * exp (-t)) atTop (𝓝 (∫ t in Set.Ioi (0 : ℝ), f t * exp (-t))) := by
    have l1 : Tendsto (fun k : ℕ => 1 / ((k : ℝ) + 1)) atTop (𝓝 0) := tendsto_one_div_add_atTop_nhds_zero_nat
    have l2 : Tendsto (fun k : ℕ => (k : ℝ) + 1) atTop atTop := tendsto_atTop_add_const_right _ _ tendsto_natCast_atTop_atTop
    have l3 : Tendsto (fun k : ℕ => f a₀ * (1 - exp (-(1 / ((k : ℝ) + 1))))) atTop (𝓝 (f a₀ * (1 - exp (-0)))) := ((l1.neg.rexp).const_sub 1).const_mul _
    have l4 : Tendsto (fun k : ℕ => f B₀ * exp (-((k : ℝ) + 1))) atTop (𝓝 (f B₀ * 0)) := (tendsto_exp_neg_atTop_nhds_zero.comp l2).const_mul _
    have hU : (⋃ k : ℕ, Set.Ioc (1 / ((k : ℝ) + 1)) ((k : ℝ) + 1)) = Set.Ioi 0 := by
      ext x
      simp only [Set.mem_iUnion, Set.mem_Ioi]
      constructor
      · rintro ⟨k, hk⟩
        exact lt_trans (by positivity) hk.1
      · intro hx
        obtain ⟨k, h1, h2⟩ := ((l1.eventually (gt_mem_nhds hx)).and (l2.eventually_ge_atTop x)).exists
        exact ⟨k, h1, h2⟩
    have l5 := tendsto_setIntegral_of_monotone (μ := volume) (s := fun k : ℕ => Set.Ioc (1 / ((k : ℝ) + 1)) ((k : ℝ) + 1)) (f := fun t => f t * exp (-t)) (fun k => measurableSet_Ioc) (fun i j hij => by
      have : (i : ℝ) ≤ j := by exact_mod_cast hij
      exact Set.Ioc_subset_Ioc (one_div_le_one_div_of_le (by positivity) (by linarith)) (by linarith)) (by rw [hU]; exact hint)
    rw [hU] at l5
    have := (l3.add l4).add l5
    simpa using this
  have l1 : Tendsto (fun k : ℕ => 1 / ((k : ℝ) + 1)) atTop (𝓝 0) := tendsto_one_div_add_atTop_nhds_zero_nat
  have l2 : Tendsto (fun k : ℕ => (k : ℝ) + 1) atTop atTop := tendsto_atTop_add_const_right _ _ tendsto_natCast_atTop_atTop
  obtain ⟨k, hk1, hk2, hk3⟩ := ((hlim.eventually (lt_mem_nhds hI)).and ((l1.eventually (gt_mem_nhds ha0)).and (l2.eventually_ge_atTop B₀))).exists
  set a := 1 / ((k : ℝ) + 1) with ha
  set B := (k : ℝ) + 1 with hB
  have hapos : 0 < a := by positivity
  have hab : a ≤ B := by
    have : a ≤ 1 := by rw [ha, div_le_one (by positivity)]; rw [hB]; linarith [(Nat.cast_nonneg k : (0 : ℝ) ≤ k)]
    linarith
  set Q := f a₀ * (1 - exp (-a)) + f B₀ * exp (-B) + ∫ t in Set.Ioc a B, f t * exp (-t) with hQ
  set T := ∫ t in a..B, |f' t| with hT
  have hT0 : 0 ≤ T := intervalIntegral.integral_nonneg hab fun t _ => abs_nonneg _
  have hcont : ContinuousOn f' (Set.Icc a B) := fun t ht => by
    have ht0 : 0 < t := hapos.trans_le ht.1
    refine ContinuousAt.continuousWithinAt ?_
    have p : ∀ r : ℝ, ContinuousAt (fun t : ℝ => t ^ r) t := fun r => Real.continuousAt_rpow_const t r (Or.inl ht0.ne')
    have := (continuousAt_const (y := c - b)).div (continuousAt_id (x := t)) ht0.ne'
    exact (this.sub (((p c).const_mul _).const_mul _)).add (((p b).const_mul _).const_mul _)
  refine ⟨Q / (2 * (T + 1)), by positivity, Q / 2, by positivity, fun s hne hs hε => ?_⟩
  have h := average_above f f' a B hab (fun t ht => gain_deriv c b (hapos.trans_le ht.1)) hcont
    (fun x hx hxa => hanti ⟨hx, hxa.trans hk2.le⟩ ⟨hapos, hk2.le⟩ hxa) (fun x hx => hmono hk3 (hk3.trans hx) hx) s hne hs (Q / (2 * (T + 1))) (fun t ht => by
      rcases hε t with h | h
      · exact h
      · linarith [ht.1])
  rw [intervalIntegral.integral_of_le hab] at h
  have q1 : f a₀ ≤ f a := hanti ⟨hapos, hk2.le⟩ ⟨ha0, le_rfl⟩ hk2.le
  have q2 : f B₀ ≤ f B := hmono (Set.mem_Ici.mpr le_rfl) hk3 hk3
  have q3 : exp (-a) ≤ 1 := exp_le_one_iff.mpr (by linarith)
  have q4 := mul_le_mul_of_nonneg_right q1 (sub_nonneg.mpr q3)
  have q5 := mul_le_mul_of_nonneg_right q2 (exp_pos (-B)).le
  have q6 : Q / (2 * (T + 1)) * T ≤ Q / 2 := by
    rw [div_mul_eq_mul_div, div_le_div_iff₀ (by positivity) (by norm_num)]
    nlinarith
  linarith

end BrodyC
end RMT
