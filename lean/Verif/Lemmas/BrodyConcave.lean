import Verif.Lemmas.BrodySample
import Mathlib.Analysis.SpecialFunctions.Gamma.BohrMollerup
import Mathlib.Analysis.SpecialFunctions.Log.NegMulLog
import Mathlib.Analysis.Convex.SpecificFunctions.Basic

/-!
# Lemmas for C167: the logarithm of the Brody density is strictly concave in the parameter
-/

namespace RMT
namespace BrodyC
open Real Brody Ensembles EigValsM Spec Props Filter Topology MeasureTheory ProbabilityTheory

/-! ### The logarithm of the Brody density is strictly concave in the parameter -/

theorem perspective_key {x y a b : ℝ} (hx : 0 < x) (hy : 0 < y) (ha : 0 < a) (hb : 0 < b) :
    0 < a * x + b * y ∧ a * x / (a * x + b * y) + b * y / (a * x + b * y) = 1 ∧
      a * x / (a * x + b * y) * (1 / x) + b * y / (a * x + b * y) * (1 / y) = (a + b) / (a * x + b * y) := by
  have hz : 0 < a * x + b * y := by positivity
  refine ⟨hz, by field_simp, by field_simp⟩

theorem perspective_concave {φ : ℝ → ℝ} (h : StrictConcaveOn ℝ (Set.Ioi 0) φ) : StrictConcaveOn ℝ (Set.Ioi 0) fun x => x * φ (1 / x) := by
  refine ⟨convex_Ioi 0, fun x hx y hy hxy a b ha hb hab => ?_⟩
  have hx' : 0 < x := hx
  have hy' : 0 < y := hy
  obtain ⟨hz, h1, h2⟩ := perspective_key hx' hy' ha hb
  have := h.2 (show 1 / x ∈ Set.Ioi (0 : ℝ) by simpa using hx') (show 1 / y ∈ Set.Ioi (0 : ℝ) by simpa using hy') (by simpa using hxy)
    (show 0 < a * x / (a * x + b * y) by positivity) (show 0 < b * y / (a * x + b * y) by positivity) h1
  simp only [smul_eq_mul] at this ⊢
  rw [h2, hab] at this
  have := mul_lt_mul_of_pos_left this hz
  refine lt_of_eq_of_lt ?_ this
  field_simp

theorem perspective_convex {φ : ℝ → ℝ} (h : ConvexOn ℝ (Set.Ioi 0) φ) : ConvexOn ℝ (Set.Ioi 0) fun x => x * φ (1 / x) := by
  refine convexOn_iff_forall_pos.mpr ⟨convex_Ioi 0, fun x hx y hy a b ha hb hab => ?_⟩
  have hx' : 0 < x := hx
  have hy' : 0 < y := hy
  obtain ⟨hz, h1, h2⟩ := perspective_key hx' hy' ha hb
  have := h.2 (show 1 / x ∈ Set.Ioi (0 : ℝ) by simpa using hx') (show 1 / y ∈ Set.Ioi (0 : ℝ) by simpa using hy')
    (show 0 ≤ a * x / (a * x + b * y) by positivity) (show 0 ≤ b * y / (a * x + b * y) by positivity) h1
  simp only [smul_eq_mul] at this ⊢
  rw [h2, hab] at this
  have := mul_le_mul_of_nonneg_left this hz.le
  refine this.trans (le_of_eq ?_)
  field_simp

theorem log_one_add_concave : StrictConcaveOn ℝ (Set.Ioi 0) fun t : ℝ => log (1 + t) := by
  refine ⟨convex_Ioi 0, fun x hx y hy hxy a b ha hb hab => ?_⟩
  have hx' : 0 < x := hx
  have hy' : 0 < y := hy
  have := strictConcaveOn_log_Ioi.2 (show 1 + x ∈ Set.Ioi (0 : ℝ) by simp; linarith) (show 1 + y ∈ Set.Ioi (0 : ℝ) by simp; linarith) (by simpa using hxy) ha hb hab
  simp only [smul_eq_mul] at this ⊢
  rwa [show a * (1 + x) + b * (1 + y) = 1 + (a * x + b * y) by linear_combination hab] at this

theorem u_concave : StrictConcaveOn ℝ (Set.Ioi 0) fun s : ℝ => s * log (1 + 1 / s) := perspective_concave log_one_add_concave

theorem u_eq {s : ℝ} (hs : 0 < s) : s * log (1 + 1 / s) = s * log (s + 1) - s * log s := by
  rw [show 1 + 1 / s = (s + 1) / s by field_simp, log_div (by positivity) (by positivity)]
  ring

theorem telescope {t : ℝ} (ht : 0 < t) (n : ℕ) :
    -(∑ m ∈ Finset.range n, log (t + (m + 1 : ℕ))) - t * log t = ∑ j ∈ Finset.range n, (t + j) * log (1 + 1 / (t + j)) - (t + n) * log (t + n) := by
  induction n with
  | zero => simp
  | succ n ih =>
    rw [Finset.sum_range_succ, Finset.sum_range_succ, u_eq (show 0 < t + n by positivity)]
    have : t + (n : ℝ) + 1 = t + ((n + 1 : ℕ) : ℝ) := by push_cast; ring
    rw [this]
    have h2 : ((n + 1 : ℕ) : ℝ) = n + 1 := by push_cast; ring
    linear_combination ih + log (t + ((n + 1 : ℕ) : ℝ)) * h2

/-- The sequence behind `log Γ(1 + t) - t log t - t log (1 + 1 / t)`. -/
noncomputable def restSeq (n : ℕ) (t : ℝ) : ℝ :=
  t * log ((n + 1 : ℕ) : ℝ) + log ((n + 1).factorial : ℝ) + ∑ j ∈ Finset.range n, (t + (j + 1 : ℕ)) * log (1 + 1 / (t + (j + 1 : ℕ))) - (t + (n + 1 : ℕ)) * log (t + (n + 1 : ℕ))

theorem shift_concave {φ : ℝ → ℝ} (h : ConcaveOn ℝ (Set.Ioi 0) φ) {k : ℝ} (hk : 0 ≤ k) : ConcaveOn ℝ (Set.Ioi 0) fun t => φ (t + k) := by
  refine ⟨convex_Ioi 0, fun x hx y hy a b ha hb hab => ?_⟩
  have hx' : 0 < x := hx
  have hy' : 0 < y := hy
  have := h.2 (show x + k ∈ Set.Ioi (0 : ℝ) by simp; linarith) (show y + k ∈ Set.Ioi (0 : ℝ) by simp; linarith) ha hb hab
  simp only [smul_eq_mul] at this ⊢
  rwa [show a * (x + k) + b * (y + k) = a * x + b * y + k by linear_combination k * hab] at this

theorem sum_concave {S : Set ℝ} (hS : Convex ℝ S) (φ : ℕ → ℝ → ℝ) (h : ∀ j, ConcaveOn ℝ S (φ j)) (n : ℕ) : ConcaveOn ℝ S fun t => ∑ j ∈ Finset.range n, φ j t := by
  induction n with
  | zero => simpa using concaveOn_const 0 hS
  | succ n ih =>
    simp only [Finset.sum_range_succ]
    exact ih.add (h n)

theorem restSeq_concave (n : ℕ) : ConcaveOn ℝ (Set.Ioi 0) (restSeq n) := by
  have h1 := sum_concave (convex_Ioi (0 : ℝ)) (fun j t => (t + (j + 1 : ℕ)) * log (1 + 1 / (t + (j + 1 : ℕ))))
    (fun j => shift_concave u_concave.concaveOn (k := ((j + 1 : ℕ) : ℝ)) (by positivity)) n
  have h2 : ConcaveOn ℝ (Set.Ioi 0) fun t : ℝ => negMulLog (t + (n + 1 : ℕ)) :=
    shift_concave (concaveOn_negMulLog.subset Set.Ioi_subset_Ici_self (convex_Ioi 0)) (by positivity)
  have h3 : ConcaveOn ℝ (Set.Ioi 0) fun t : ℝ => t * log ((n + 1 : ℕ) : ℝ) + log ((n + 1).factorial : ℝ) := by
    refine ⟨convex_Ioi 0, fun x _ y _ a b _ _ hab => le_of_eq ?_⟩
    simp only [smul_eq_mul]
    linear_combination log ((n + 1).factorial : ℝ) * hab
  have := (h3.add h1).add h2
  refine this.congr fun t _ => ?_
  simp only [Pi.add_apply, restSeq, negMulLog]
  ring

theorem restSeq_limit {t : ℝ} (ht : 0 < t) :
    Tendsto (fun n => restSeq n t) atTop (𝓝 (log (Gamma (1 + t)) - t * log t - t * log (1 + 1 / t))) := by
  have h := BohrMollerup.tendsto_logGammaSeq convexOn_log_Gamma (fun {y} hy => by
    simp only [Function.comp_apply]
    rw [Gamma_add_one hy.ne', log_mul hy.ne' (Gamma_pos_of_pos hy).ne', add_comm]) ht
  simp only [Function.comp_apply, Gamma_one, log_one, sub_zero] at h
  have h' := (h.comp (tendsto_add_atTop_nat 1)).add_const (log t - t * log t - t * log (1 + 1 / t))
  have e : log (Gamma (1 + t)) - t * log t - t * log (1 + 1 / t) = log (Gamma t) + (log t - t * log t - t * log (1 + 1 / t)) := by
    rw [add_comm 1 t, Gamma_add_one ht.ne', log_mul ht.ne' (Gamma_pos_of_pos ht).ne']
    ring
  rw [e]
  refine h'.congr fun n => ?_
  have h1 := telescope ht (n + 1)
  have h2 := Finset.sum_range_succ' (fun j : ℕ => (t + (j : ℝ)) * log (1 + 1 / (t + (j : ℝ)))) n
  have h3 := Finset.sum_range_succ' (fun m : ℕ => log (t + (m : ℝ))) (n + 1)
  simp only [Function.comp_apply, BohrMollerup.logGammaSeq, restSeq]
  simp only [Nat.cast_zero, add_zero] at h2 h3
  rw [h3]
  linarith

theorem rest_concave : StrictConcaveOn ℝ (Set.Ioi 0) fun t => log (Gamma (1 + t)) - t * log t := by
  have h1 : ConcaveOn ℝ (Set.Ioi 0) fun t => log (Gamma (1 + t)) - t * log t - t * log (1 + 1 / t) := by
    refine ⟨convex_Ioi 0, fun x hx y hy a b ha hb hab => ?_⟩
    have hz : 0 < a * x + b * y := convex_Ioi (0 : ℝ) hx hy ha hb hab
    refine le_of_tendsto_of_tendsto' (((restSeq_limit hx).const_mul a).add ((restSeq_limit hy).const_mul b)) (restSeq_limit hz) fun n => ?_
    exact (restSeq_concave n).2 hx hy ha hb hab
  have := u_concave.add_concaveOn h1
  refine this.congr fun t _ => ?_
  simp only [Pi.add_apply]
  ring

theorem log_alpha {b : ℝ} (hb : -1 < b) : log (brodyAlpha b) = (b + 1) * log (Gamma (1 + 1 / (b + 1))) := by
  have h1 : 0 < b + 1 := by linarith
  unfold brodyAlpha
  rw [show (b + 2) / (b + 1) = 1 + 1 / (b + 1) by field_simp; ring]
  exact log_rpow (Gamma_pos_of_pos (by positivity)) _

theorem logMul_concave : StrictConcaveOn ℝ (Set.Ioi (-1)) fun b => log ((b + 1) * brodyAlpha b) := by
  have h := perspective_concave rest_concave
  have e : ∀ b : ℝ, -1 < b → log ((b + 1) * brodyAlpha b) = (b + 1) * (log (Gamma (1 + 1 / (b + 1))) - 1 / (b + 1) * log (1 / (b + 1))) := fun b hb => by
    have h1 : 0 < b + 1 := by linarith
    rw [log_mul h1.ne' (brodyAlpha_pos b hb).ne', log_alpha hb, one_div, log_inv]
    field_simp
    ring
  refine ⟨convex_Ioi _, fun x hx y hy hxy a b ha hb hab => ?_⟩
  have hx' : -1 < x := hx
  have hy' : -1 < y := hy
  have hz : -1 < a * x + b * y := convex_Ioi (-1 : ℝ) hx hy ha.le hb.le hab
  have := h.2 (show x + 1 ∈ Set.Ioi (0 : ℝ) by simp; linarith) (show y + 1 ∈ Set.Ioi (0 : ℝ) by simp; linarith) (by simpa using hxy) ha hb hab
  simp only [smul_eq_mul] at this ⊢
  rw [e _ hx', e _ hy', e _ hz]
  rwa [show a * (x + 1) + b * (y + 1) = a * x + b * y + 1 by linear_combination hab] at this

theorem logAlpha_convex : ConvexOn ℝ (Set.Ioi (-1)) fun b => log (brodyAlpha b) := by
  have h0 : ConvexOn ℝ (Set.Ioi 0) fun t : ℝ => log (Gamma (1 + t)) := by
    refine ⟨convex_Ioi 0, fun x hx y hy a b ha hb hab => ?_⟩
    have hx' : 0 < x := hx
    have hy' : 0 < y := hy
    have := convexOn_log_Gamma.2 (show 1 + x ∈ Set.Ioi (0 : ℝ) by simp; linarith) (show 1 + y ∈ Set.Ioi (0 : ℝ) by simp; linarith) ha hb hab
    simp only [smul_eq_mul, Function.comp_apply] at this ⊢
    rwa [show a * (1 + x) + b * (1 + y) = 1 + (a * x + b * y) by linear_combination hab] at this
  have h := perspective_convex h0
  refine ⟨convex_Ioi _, fun x hx y hy a b ha hb hab => ?_⟩
  have hx' : -1 < x := hx
  have hy' : -1 < y := hy
  have hz : -1 < a * x + b * y := convex_Ioi (-1 : ℝ) hx hy ha hb hab
  have := h.2 (show x + 1 ∈ Set.Ioi (0 : ℝ) by simp; linarith) (show y + 1 ∈ Set.Ioi (0 : ℝ) by simp; linarith) ha hb hab
  simp only [smul_eq_mul] at this ⊢
  rw [log_alpha hx', log_alpha hy', log_alpha hz]
  rwa [show a * (x + 1) + b * (y + 1) = a * x + b * y + 1 by linear_combination hab] at this

theorem term_convex {s : ℝ} (hs : 0 < s) : ConvexOn ℝ (Set.Ioi (-1)) fun b => brodyAlpha b * s ^ (b + 1) := by
  have e : ∀ b : ℝ, -1 < b → brodyAlpha b * s ^ (b + 1) = exp (log (brodyAlpha b) + (b + 1) * log s) := fun b hb => by
    rw [exp_add, exp_log (brodyAlpha_pos b hb), rpow_def_of_pos hs, mul_comm (log s)]
  have hc : ConvexOn ℝ (Set.Ioi (-1)) fun b => log (brodyAlpha b) + (b + 1) * log s := by
    refine logAlpha_convex.add ⟨convex_Ioi _, fun x _ y _ a b _ _ hab => le_of_eq ?_⟩
    simp only [smul_eq_mul]
    linear_combination (-log s) * hab
  refine ⟨convex_Ioi _, fun x hx y hy a b ha hb hab => ?_⟩
  have hz : -1 < a * x + b * y := convex_Ioi (-1 : ℝ) hx hy ha hb hab
  have h1 := hc.2 hx hy ha hb hab
  have h2 := convexOn_exp.2 (Set.mem_univ (log (brodyAlpha x) + (x + 1) * log s)) (Set.mem_univ (log (brodyAlpha y) + (y + 1) * log s)) ha hb hab
  simp only [smul_eq_mul] at h1 h2 ⊢
  rw [e x hx, e y hy, e _ hz]
  exact (exp_le_exp.mpr h1).trans h2

/-- For every spacing the logarithm of the Brody density is strictly concave in the parameter. -/
theorem logDens_concave {s : ℝ} (hs : 0 < s) : StrictConcaveOn ℝ (Set.Ioi (-1)) fun b => logDens b s := by
  have h2 : ConcaveOn ℝ (Set.Ioi (-1)) fun b => b * log s - brodyAlpha b * s ^ (b + 1) := by
    refine ConcaveOn.sub ⟨convex_Ioi _, fun x _ y _ a b _ _ hab => le_of_eq ?_⟩ (term_convex hs)
    simp only [smul_eq_mul]
    ring
  refine (logMul_concave.add_concaveOn h2).congr fun b _ => ?_
  simp only [Pi.add_apply, logDens]
  ring

theorem meanLogDens_concave {μ : Measure ℝ} (hμ : SpacingLaw μ) : StrictConcaveOn ℝ (Set.Icc (0 : ℝ) 1) (meanLogDens (∫ s, log s ∂μ) (meanPow μ)) := by
  have h1 := logMul_concave.subset (show Set.Icc (0 : ℝ) 1 ⊆ Set.Ioi (-1) from fun x hx => by have := hx.1; simp; linarith) (convex_Icc 0 1)
  have h2 : ConvexOn ℝ (Set.Icc (0 : ℝ) 1) fun b => brodyAlpha b * meanPow μ b := by
    refine ⟨convex_Icc 0 1, fun x hx y hy a b ha hb hab => ?_⟩
    have hz : a * x + b * y ∈ Set.Icc (0 : ℝ) 1 := convex_Icc (0 : ℝ) 1 hx hy ha hb hab
    simp only [smul_eq_mul, meanPow, ← integral_const_mul]
    rw [← integral_add (((pow_integrable hμ hx).const_mul _).const_mul _) (((pow_integrable hμ hy).const_mul _).const_mul _)]
    refine integral_mono_ae ((pow_integrable hμ hz).const_mul _) ((((pow_integrable hμ hx).const_mul _).const_mul _).add (((pow_integrable hμ hy).const_mul _).const_mul _)) ?_
    filter_upwards [hμ.pos] with s hs
    have := (term_convex hs).2 (show x ∈ Set.Ioi (-1 : ℝ) by have := hx.1; simp; linarith) (show y ∈ Set.Ioi (-1 : ℝ) by have := hy.1; simp; linarith) ha hb hab
    simpa only [smul_eq_mul] using this
  have h3 : ConcaveOn ℝ (Set.Icc (0 : ℝ) 1) fun b => b * (∫ s, log s ∂μ) - brodyAlpha b * meanPow μ b := by
    refine ConcaveOn.sub ⟨convex_Icc _ _, fun x _ y _ a b _ _ hab => le_of_eq ?_⟩ h2
    simp only [smul_eq_mul]
    ring
  refine (h1.add_concaveOn h3).congr fun b _ => ?_
  simp only [Pi.add_apply, meanLogDens]
  ring

/-- The largest value on an interval. -/
theorem strictConcave_clamp {M : ℝ → ℝ} (h : StrictConcaveOn ℝ (Set.Icc (0 : ℝ) 1) M) {b₀ lo hi : ℝ} (h0 : 0 ≤ lo) (hlh : lo ≤ hi) (h1 : hi ≤ 1) (hb : b₀ ∈ Set.Icc (0 : ℝ) 1)
    (hmax : ∀ b ∈ Set.Icc (0 : ℝ) 1, M b ≤ M b₀) : ∀ b ∈ Set.Icc lo hi, b ≠ max lo (min b₀ hi) → M b < M (max lo (min b₀ hi)) := by
  intro b hbI hne
  have hbI' : b ∈ Set.Icc (0 : ℝ) 1 := ⟨h0.trans hbI.1, hbI.2.trans h1⟩
  set c := max lo (min b₀ hi) with hc
  have key : c = b₀ ∨ (b₀ < c ∧ c < b) ∨ (b < c ∧ c < b₀) := by
    rcases le_total b₀ lo with hl | hl
    · have : c = lo := by rw [hc, min_eq_left (hl.trans hlh), max_eq_left hl]
      rcases hl.eq_or_lt with e | e
      · exact Or.inl (by rw [this, e])
      · exact Or.inr (Or.inl ⟨by rwa [this], by rw [this]; exact lt_of_le_of_ne hbI.1 fun e => hne (by rw [this, e])⟩)
    · rcases le_total b₀ hi with hh | hh
      · exact Or.inl (by rw [hc, min_eq_left hh, max_eq_right hl])
      · have : c = hi := by rw [hc, min_eq_right hh, max_eq_right hlh]
        rcases hh.eq_or_lt with e | e
        · exact Or.inl (by rw [this, e])
        · exact Or.inr (Or.inr ⟨by rw [this]; exact lt_of_le_of_ne hbI.2 fun e => hne (by rw [this, e]), by rwa [this]⟩)
  have hcI : c ∈ Set.Icc (0 : ℝ) 1 := ⟨h0.trans (le_max_left _ _), (max_le hlh (min_le_right _ _)).trans h1⟩
  rcases key with e | ⟨e1, e2⟩ | ⟨e1, e2⟩
  · have hm := h.2 hbI' hb (by rw [← e]; exact hne) (show (0 : ℝ) < 1 / 2 by norm_num) (show (0 : ℝ) < 1 / 2 by norm_num) (by norm_num)
    have := hmax _ (convex_Icc (0 : ℝ) 1 hbI' hb (show (0 : ℝ) ≤ 1 / 2 by norm_num) (show (0 : ℝ) ≤ 1 / 2 by norm_num) (by norm_num))
    simp only [smul_eq_mul] at hm this
    rw [e]
    linarith
  · have := h.slope_anti_adjacent hb hbI' e1 e2
    have hh := hmax c hcI
    have h3 : (M c - M b₀) / (c - b₀) ≤ 0 := div_nonpos_of_nonpos_of_nonneg (by linarith) (by linarith)
    have h4 := (div_lt_iff₀ (show 0 < b - c by linarith)).mp (lt_of_lt_of_le this h3)
    linarith
  · have := h.slope_anti_adjacent hbI' hb e1 e2
    have hh := hmax c hcI
    have h3 : 0 ≤ (M b₀ - M c) / (b₀ - c) := div_nonneg (by linarith) (by linarith)
    have h4 := (lt_div_iff₀ (show 0 < c - b by linarith)).mp (lt_of_le_of_lt h3 this)
    linarith

end BrodyC
end RMT
