import Verif.Props.BrodyFit
import Mathlib.Analysis.Calculus.MeanValue

/-!
# Lemmas for C167: the maximum-spacing criterion of `fit_brody` and the likelihood
-/

namespace RMT
namespace BrodyC
open Real Brody Ensembles EigValsM Spec Props Filter Topology

/-- The logarithm of the Brody density. -/
noncomputable def logDens (b x : ℝ) : ℝ := log ((b + 1) * brodyAlpha b) + b * log x - brodyAlpha b * x ^ (b + 1)

theorem logDens_eq {b x : ℝ} (hb : 0 ≤ b) (hx : 0 < x) : logDens b x = log (brodyDist x b) := by
  have ha := brodyAlpha_pos b (by linarith)
  have hb1 : 0 < b + 1 := by linarith
  have hp := rpow_pos_of_pos hx b
  unfold brodyDist logDens
  rw [log_mul (by positivity) (exp_pos _).ne', log_mul (by positivity) hp.ne', log_exp, log_rpow hx]
  ring

/-- What bounds the variation of the difference of two log densities. -/
noncomputable def vary (b c x : ℝ) : ℝ := |b - c| * log x + brodyAlpha b * x ^ (b + 1) + brodyAlpha c * x ^ (c + 1)

theorem vary_bound {b c x y : ℝ} (hb : 0 ≤ b) (hc : 0 ≤ c) (hx : 0 < x) (hxy : x ≤ y) :
    |(logDens b y - logDens c y) - (logDens b x - logDens c x)| ≤ vary b c y - vary b c x := by
  have ha := (brodyAlpha_pos b (by linarith)).le
  have ha' := (brodyAlpha_pos c (by linarith)).le
  have h1 : log x ≤ log y := log_le_log hx hxy
  have h2 : x ^ (b + 1) ≤ y ^ (b + 1) := rpow_le_rpow hx.le hxy (by linarith)
  have h3 : x ^ (c + 1) ≤ y ^ (c + 1) := rpow_le_rpow hx.le hxy (by linarith)
  have e : (logDens b y - logDens c y) - (logDens b x - logDens c x) = (b - c) * (log y - log x) + (-(brodyAlpha b * (y ^ (b + 1) - x ^ (b + 1))) + brodyAlpha c * (y ^ (c + 1) - x ^ (c + 1))) := by
    unfold logDens; ring
  have e2 : vary b c y - vary b c x = |b - c| * (log y - log x) + (brodyAlpha b * (y ^ (b + 1) - x ^ (b + 1)) + brodyAlpha c * (y ^ (c + 1) - x ^ (c + 1))) := by
    unfold vary; ring
  have q2 := mul_nonneg ha (sub_nonneg.mpr h2)
  have q3 := mul_nonneg ha' (sub_nonneg.mpr h3)
  rw [e, e2]
  refine (abs_add_le _ _).trans (add_le_add ?_ ?_)
  · rw [abs_mul, abs_of_nonneg (sub_nonneg.mpr h1)]
  · rw [abs_le]
    constructor <;> linarith

/-- The ratio of the probabilities of an interval is the ratio of the densities somewhere in it. -/
theorem gap_ratio {b c x y : ℝ} (hb : 0 ≤ b) (hc : 0 ≤ c) (hx : 0 < x) (hxy : x < y) :
    |log (brodyCdf y b - brodyCdf x b) - log (brodyCdf y c - brodyCdf x c) - (logDens b x - logDens c x)| ≤ vary b c y - vary b c x := by
  have cont : ∀ b : ℝ, ContinuousOn (fun s => brodyCdf s b) (Set.Icc x y) := fun b s hs => (brodyCdf_deriv s b (hx.trans_le hs.1)).continuousAt.continuousWithinAt
  obtain ⟨ξ, hξ, he⟩ := exists_ratio_hasDerivAt_eq_ratio_slope (fun s => brodyCdf s b) (fun s => brodyDist s b) hxy (cont b) (fun s hs => brodyCdf_deriv s b (hx.trans hs.1))
    (fun s => brodyCdf s c) (fun s => brodyDist s c) (cont c) (fun s hs => brodyCdf_deriv s c (hx.trans hs.1))
  have hξ0 : 0 < ξ := hx.trans hξ.1
  have p1 := dist_pos hξ0 hb
  have p2 := dist_pos hξ0 hc
  have m1 : 0 < brodyCdf y b - brodyCdf x b := sub_pos.mpr ((C68_cdf b (by linarith)).2.1 hx.le (hx.trans hxy).le hxy)
  have m2 : 0 < brodyCdf y c - brodyCdf x c := sub_pos.mpr ((C68_cdf c (by linarith)).2.1 hx.le (hx.trans hxy).le hxy)
  have hl : log (brodyCdf y b - brodyCdf x b) - log (brodyCdf y c - brodyCdf x c) = logDens b ξ - logDens c ξ := by
    rw [logDens_eq hb hξ0, logDens_eq hc hξ0, ← log_div m1.ne' m2.ne', ← log_div p1.ne' p2.ne']
    congr 1
    rw [div_eq_div_iff m2.ne' p2.ne']
    linarith
  rw [hl]
  have h1 := vary_bound hb hc hx hξ.1.le
  have h2 := (abs_nonneg _).trans (vary_bound hb hc hξ0 hξ.2.le)
  linarith

/-- The criterion along a strictly ascending list. -/
theorem gap_sum {b c : ℝ} (hb : 0 ≤ b) (hc : 0 ≤ c) : ∀ (a : ℝ) (l : List ℝ), (a :: l).Pairwise (· < ·) → 0 < a →
    |log (gapProduct (fun x => brodyCdf x b) (a :: l)) - log (gapProduct (fun x => brodyCdf x c) (a :: l)) -
      (((a :: l).map fun x => logDens b x - logDens c x).sum - (logDens b ((a :: l).getLast (by simp)) - logDens c ((a :: l).getLast (by simp))))| ≤
      vary b c ((a :: l).getLast (by simp)) - vary b c a
  | a, [], _, _ => by simp [gapProduct]
  | a, z :: l, hs, ha => by
    have hs' := (List.pairwise_cons.mp hs).2
    have haz : a < z := (List.pairwise_cons.mp hs).1 z List.mem_cons_self
    have hz := ha.trans haz
    have ih := gap_sum hb hc z l hs' hz
    have hpos : ∀ x ∈ z :: l, 0 ≤ x := fun x hx => by
      rcases List.mem_cons.mp hx with rfl | hx
      · exact hz.le
      · exact hz.le.trans ((List.pairwise_cons.mp hs').1 x hx).le
    have hasc : Ascending (z :: l) := hs'.imp fun h => h.le
    have g1 := gap_pos (C68_cdf b (by linarith)).2.1 hasc hpos
    have g2 := gap_pos (C68_cdf c (by linarith)).2.1 hasc hpos
    have hr := gap_ratio hb hc ha haz
    have m1 : 0 < brodyCdf z b - brodyCdf a b := sub_pos.mpr ((C68_cdf b (by linarith)).2.1 ha.le hz.le haz)
    have m2 : 0 < brodyCdf z c - brodyCdf a c := sub_pos.mpr ((C68_cdf c (by linarith)).2.1 ha.le hz.le haz)
    rw [List.getLast_cons (by simp)]
    have e : ∀ b, gapProduct (fun x => brodyCdf x b) (a :: z :: l) = (brodyCdf z b - brodyCdf a b) * gapProduct (fun x => brodyCdf x b) (z :: l) := fun b => by
      rw [gapProduct, if_neg haz.ne]
    rw [e b, e c, log_mul m1.ne' g1.ne', log_mul m2.ne' g2.ne', List.map_cons, List.sum_cons]
    rw [abs_le] at ih hr ⊢
    constructor <;> linarith [ih.1, ih.2, hr.1, hr.2]

/-- The criterion of `fit_brody` compared with the likelihood: for distinct positive spacings with `|log x| ≤ A` and `x² ≤ A`. -/
theorem criterion_likelihood (s : List ℝ) (hne : s ≠ []) (hnd : s.Nodup) (hs : ∀ x ∈ s, 0 < x) (A : ℝ) (hA : ∀ x ∈ s, |log x| ≤ A ∧ x ^ 2 ≤ A) {b c : ℝ} (hb : b ∈ Set.Icc (0 : ℝ) 1) (hc : c ∈ Set.Icc (0 : ℝ) 1) :
    |(spacingObjective s c - spacingObjective s b) - (s.map fun x => logDens b x - logDens c x).sum / s.length| ≤ (7 * A + 6) / s.length := by
  obtain ⟨hb0, hb1⟩ := hb
  obtain ⟨hc0, hc1⟩ := hc
  have hn : (0 : ℝ) < s.length := by exact_mod_cast List.length_pos_of_ne_nil hne
  have hperm := npSort_perm s
  have hnd' : (npSort s).Nodup := hperm.nodup_iff.mpr hnd
  have hmem : ∀ x, x ∈ npSort s ↔ x ∈ s := fun x => hperm.mem_iff
  have hst : (npSort s).Pairwise (· < ·) := by
    have h1 := npSort_ascending s
    exact (List.Pairwise.and h1 hnd').imp fun h => lt_of_le_of_ne h.1 h.2
  have hnn : ∀ x ∈ s, 0 ≤ x := fun x hx => (hs x hx).le
  rw [objective_eq s hnn b (by linarith), objective_eq s hnn c (by linarith)]
  have hsum : (s.map fun x => logDens b x - logDens c x).sum = ((npSort s).map fun x => logDens b x - logDens c x).sum := (hperm.map _).sum_eq.symm
  rw [hsum]
  obtain ⟨a, l, hal⟩ : ∃ a l, npSort s = a :: l := by
    cases h : npSort s with
    | nil => rw [h] at hperm; exact absurd hperm.symm.eq_nil hne
    | cons a l => exact ⟨a, l, rfl⟩
  rw [hal] at hst hmem ⊢
  have ha := (hmem a).mp List.mem_cons_self
  have hz := (hmem _).mp (List.getLast_mem (l := a :: l) (by simp))
  have key := gap_sum hb0 hc0 a l hst (hs a ha)
  generalize (a :: l).getLast (by simp) = z at key hz
  have hz0 := hs z hz
  obtain ⟨A1, A2⟩ := hA z hz
  obtain ⟨A3, A4⟩ := hA a ha
  have hA0 : 0 ≤ A := (abs_nonneg _).trans A1
  have al := alpha_le_one hb0
  have al' := alpha_le_one hc0
  have ap := brodyAlpha_pos b (by linarith)
  have ap' := brodyAlpha_pos c (by linarith)
  have ag := alpha_ge hb0 hb1
  have ag' := alpha_ge hc0 hc1
  have hpow : ∀ t : ℝ, 0 ≤ t → t ≤ 1 → 0 ≤ z ^ (t + 1) ∧ z ^ (t + 1) ≤ 1 + A := fun t h0 h1 => by
    refine ⟨(rpow_pos_of_pos hz0 _).le, ?_⟩
    rcases le_total z 1 with h | h
    · linarith [rpow_le_one hz0.le h (by linarith : 0 ≤ t + 1)]
    · have := rpow_le_rpow_of_exponent_le h (by push_cast; linarith : t + 1 ≤ ((2 : ℕ) : ℝ))
      rw [rpow_natCast] at this
      linarith
  have hpb : 0 ≤ brodyAlpha b * z ^ (b + 1) ∧ brodyAlpha b * z ^ (b + 1) ≤ 1 + A := by
    obtain ⟨p0, p1⟩ := hpow b hb0 hb1
    exact ⟨by positivity, by nlinarith⟩
  have hpc : 0 ≤ brodyAlpha c * z ^ (c + 1) ∧ brodyAlpha c * z ^ (c + 1) ≤ 1 + A := by
    obtain ⟨p0, p1⟩ := hpow c hc0 hc1
    exact ⟨by positivity, by nlinarith⟩
  have hab : |b - c| ≤ 1 := abs_le.mpr ⟨by linarith, by linarith⟩
  have hlog : ∀ t : ℝ, 0 ≤ t → t ≤ 1 → 0.59 ≤ brodyAlpha t → brodyAlpha t ≤ 1 → |log ((t + 1) * brodyAlpha t)| ≤ 1 := fun t h0 h1 h2 h3 => by
    have hlo : 0.59 ≤ (t + 1) * brodyAlpha t := by nlinarith
    have hhi : (t + 1) * brodyAlpha t ≤ 2 := by nlinarith
    have hp : 0 < (t + 1) * brodyAlpha t := by linarith
    have e1 := exp_one_gt_d9
    have e2 := exp_neg_one_bounds
    rw [abs_le, le_log_iff_exp_le hp, log_le_iff_le_exp hp]
    norm_num at e1 e2 hlo ⊢
    constructor <;> linarith
  have l1 := abs_le.mp (hlog b hb0 hb1 ag al)
  have l2 := abs_le.mp (hlog c hc0 hc1 ag' al')
  have hv : vary b c z - vary b c a ≤ 4 * A + 2 := by
    have v1 : 0 ≤ brodyAlpha b * a ^ (b + 1) := mul_nonneg ap.le (rpow_pos_of_pos (hs a ha) _).le
    have v2 : 0 ≤ brodyAlpha c * a ^ (c + 1) := mul_nonneg ap'.le (rpow_pos_of_pos (hs a ha) _).le
    have v3 : |b - c| * log z - |b - c| * log a ≤ 2 * A := by
      rw [← mul_sub]
      have : log z - log a ≤ 2 * A := by linarith [abs_le.mp A1, abs_le.mp A3]
      have q := mul_le_mul_of_nonneg_left this (abs_nonneg (b - c))
      nlinarith
    unfold vary
    linarith [hpb.2, hpc.2]
  have hf : |logDens b z - logDens c z| ≤ 3 * A + 4 := by
    have e : logDens b z - logDens c z = (log ((b + 1) * brodyAlpha b) - log ((c + 1) * brodyAlpha c)) + (b - c) * log z - brodyAlpha b * z ^ (b + 1) + brodyAlpha c * z ^ (c + 1) := by unfold logDens; ring
    have q : |(b - c) * log z| ≤ A := by
      rw [abs_mul]
      nlinarith [abs_nonneg (b - c), abs_nonneg (log z)]
    have q' := abs_le.mp q
    rw [e, abs_le]
    constructor <;> linarith [hpb.1, hpb.2, hpc.1, hpc.2, l1.1, l1.2, l2.1, l2.2]
  rw [show ∀ p q r : ℝ, -q / s.length - -p / s.length - r / s.length = (p - q - r) / s.length from fun p q r => by ring, abs_div, abs_of_pos hn]
  apply div_le_div_of_nonneg_right _ hn.le
  have k := abs_le.mp key
  have f := abs_le.mp hf
  rw [abs_le]
  constructor <;> linarith [k.1, k.2, f.1, f.2]

/-! ### Averages along a sequence -/

/-- The average of `f` over the first `n` terms. -/
noncomputable def avg (x : ℕ → ℝ) (f : ℝ → ℝ) (n : ℕ) : ℝ := (∑ i ∈ Finset.range n, f (x i)) / n

theorem pow_lip_aux {x b c : ℝ} (hx : 0 < x) (hb : 0 ≤ b) (hbc : b ≤ c) (hc : c ≤ 1) : |x ^ (b + 1) - x ^ (c + 1)| ≤ (c - b) * (1 + x ^ 3) := by
  have hd : 0 ≤ c - b := by linarith
  have hx3 : 0 < x ^ 3 := by positivity
  have e : x ^ (c + 1) = x ^ (b + 1) * x ^ (c - b) := by rw [← rpow_add hx]; congr 1; ring
  have hp := rpow_pos_of_pos hx (b + 1)
  have hq := rpow_pos_of_pos hx (c - b)
  have hexp : x ^ (c - b) = exp ((c - b) * log x) := by rw [rpow_def_of_pos hx, mul_comm]
  rcases le_total 1 x with h | h
  · have hl := log_nonneg h
    have h1 : x ^ (c - b) - 1 ≤ (c - b) * log x * x ^ (c - b) := by
      have := add_one_le_exp (-((c - b) * log x))
      have h2 : exp (-((c - b) * log x)) * x ^ (c - b) = 1 := by rw [hexp, ← exp_add]; simp
      nlinarith
    have h0 : 1 ≤ x ^ (c - b) := one_le_rpow h hd
    rw [abs_sub_comm, e, show x ^ (b + 1) * x ^ (c - b) - x ^ (b + 1) = x ^ (b + 1) * (x ^ (c - b) - 1) by ring, abs_of_nonneg (mul_nonneg hp.le (by linarith))]
    have h3 : x ^ (b + 1) * (x ^ (c - b) - 1) ≤ (c - b) * (log x * x ^ (c + 1)) := by
      rw [e]
      nlinarith [mul_le_mul_of_nonneg_left h1 hp.le]
    refine h3.trans (mul_le_mul_of_nonneg_left ?_ hd)
    have h4 : x ^ (c + 1) ≤ x ^ 2 := by
      have := rpow_le_rpow_of_exponent_le h (by push_cast; linarith : c + 1 ≤ ((2 : ℕ) : ℝ))
      rwa [rpow_natCast] at this
    have h5 : log x ≤ x := by linarith [log_le_sub_one_of_pos hx]
    have := mul_le_mul h5 h4 (rpow_pos_of_pos hx _).le hx.le
    nlinarith
  · have hl := log_nonpos hx.le h
    have h1 : 1 - x ^ (c - b) ≤ (c - b) * (-log x) := by
      have := add_one_le_exp ((c - b) * log x)
      rw [hexp]
      linarith
    have h0 : x ^ (c - b) ≤ 1 := rpow_le_one hx.le h hd
    rw [e, show x ^ (b + 1) - x ^ (b + 1) * x ^ (c - b) = x ^ (b + 1) * (1 - x ^ (c - b)) by ring, abs_of_nonneg (mul_nonneg hp.le (by linarith))]
    have h2 : x ^ (b + 1) ≤ x := by
      have := rpow_le_rpow_of_exponent_ge hx h (by linarith : (1 : ℝ) ≤ b + 1)
      rwa [rpow_one] at this
    have h3 : x * (-log x) ≤ 1 := by
      have := log_le_sub_one_of_pos (inv_pos.mpr hx)
      rw [log_inv] at this
      have := mul_le_mul_of_nonneg_left this hx.le
      rw [mul_sub, mul_inv_cancel₀ hx.ne'] at this
      linarith
    have h4 : x ^ (b + 1) * (1 - x ^ (c - b)) ≤ x * ((c - b) * (-log x)) := mul_le_mul h2 h1 (by linarith) hx.le
    nlinarith

theorem pow_lip {x b c : ℝ} (hx : 0 < x) (hb : b ∈ Set.Icc (0 : ℝ) 1) (hc : c ∈ Set.Icc (0 : ℝ) 1) : |x ^ (b + 1) - x ^ (c + 1)| ≤ |b - c| * (1 + x ^ 3) := by
  rcases le_total b c with h | h
  · rw [abs_sub_comm b c, abs_of_nonneg (sub_nonneg.mpr h)]
    exact pow_lip_aux hx hb.1 h hc.2
  · rw [abs_sub_comm, abs_of_nonneg (sub_nonneg.mpr h)]
    exact pow_lip_aux hx hc.1 h hb.2

/-- A sequence of spacings whose averages converge: `m` is the limit for the logarithm, `e b` for the power `b + 1`. -/
structure Typical (x : ℕ → ℝ) (m : ℝ) (e : ℝ → ℝ) : Prop where
  pos : ∀ i, 0 < x i
  inj : Function.Injective x
  logs : Tendsto (avg x Real.log) atTop (𝓝 m)
  absLog : ∃ m', Tendsto (avg x fun y => |Real.log y|) atTop (𝓝 m')
  cube : ∃ m', Tendsto (avg x fun y => y ^ 3) atTop (𝓝 m')
  pow : ∀ q : ℚ, (q : ℝ) ∈ Set.Icc (0 : ℝ) 1 → Tendsto (avg x fun y => y ^ ((q : ℝ) + 1)) atTop (𝓝 (e q))
  lip : ∃ K, ∀ b ∈ Set.Icc (0 : ℝ) 1, ∀ c ∈ Set.Icc (0 : ℝ) 1, |e b - e c| ≤ |b - c| * K

theorem avg_pow_lip {x : ℕ → ℝ} (hx : ∀ i, 0 < x i) (n : ℕ) {b c : ℝ} (hb : b ∈ Set.Icc (0 : ℝ) 1) (hc : c ∈ Set.Icc (0 : ℝ) 1) :
    |avg x (fun y => y ^ (b + 1)) n - avg x (fun y => y ^ (c + 1)) n| ≤ |b - c| * (1 + avg x (fun y => y ^ 3) n) := by
  rcases Nat.eq_zero_or_pos n with rfl | hn
  · simp [avg]
  have hn0 : (0 : ℝ) < n := by exact_mod_cast hn
  unfold avg
  rw [← sub_div, ← Finset.sum_sub_distrib, abs_div, abs_of_pos hn0, div_le_iff₀ hn0]
  calc |∑ i ∈ Finset.range n, (x i ^ (b + 1) - x i ^ (c + 1))| ≤ ∑ i ∈ Finset.range n, |x i ^ (b + 1) - x i ^ (c + 1)| := Finset.abs_sum_le_sum_abs _ _
    _ ≤ ∑ i ∈ Finset.range n, |b - c| * (1 + x i ^ 3) := Finset.sum_le_sum fun i _ => pow_lip (hx i) hb hc
    _ = _ := by
      rw [← Finset.mul_sum, Finset.sum_add_distrib, Finset.sum_const, Finset.card_range, nsmul_eq_mul]
      field_simp

theorem Typical.uniform {x : ℕ → ℝ} {m : ℝ} {e : ℝ → ℝ} (h : Typical x m e) (η : ℝ) (hη : 0 < η) :
    ∀ᶠ n in atTop, ∀ b ∈ Set.Icc (0 : ℝ) 1, |avg x (fun y => y ^ (b + 1)) n - e b| ≤ η := by
  obtain ⟨m3, h3⟩ := h.cube
  obtain ⟨K, hK⟩ := h.lip
  set Λ := |2 + m3| + |K| with hΛ
  have hΛ0 : 0 ≤ Λ := by positivity
  obtain ⟨N, hN⟩ := exists_nat_gt (2 * Λ / η)
  have hN0 : (0 : ℝ) < N := lt_of_le_of_lt (by positivity) hN
  have hq : ∀ j ∈ Finset.range (N + 1), ∀ᶠ n in atTop, |avg x (fun y => y ^ ((j : ℝ) / N + 1)) n - e ((j : ℝ) / N)| < η / 2 := by
    intro j hj
    rw [Finset.mem_range] at hj
    have hm : ((j : ℚ) / N : ℚ) = ((j : ℝ) / N : ℝ) := by push_cast; rfl
    have := h.pow ((j : ℚ) / N) (by
      rw [hm]
      exact ⟨by positivity, by rw [div_le_one hN0]; exact_mod_cast (by omega : j ≤ N)⟩)
    rw [hm] at this
    have := (Metric.tendsto_nhds.mp this) (η / 2) (by positivity)
    simpa [Real.dist_eq] using this
  have hq' := (Filter.eventually_all_finset (Finset.range (N + 1))).mpr hq
  filter_upwards [hq', (Metric.tendsto_nhds.mp h3) 1 one_pos] with n hn1 hn2 b hb
  rw [Real.dist_eq] at hn2
  have hn2' := abs_lt.mp hn2
  set j := ⌊b * N⌋₊ with hj
  have hbN : 0 ≤ b * N := mul_nonneg hb.1 hN0.le
  have j1 : (j : ℝ) ≤ b * N := Nat.floor_le hbN
  have j2 : b * N < j + 1 := Nat.lt_floor_add_one _
  have j3 : j ≤ N := by
    have : (j : ℝ) ≤ N := j1.trans (by nlinarith [hb.2])
    exact_mod_cast this
  have hqm : ((j : ℝ) / N) ∈ Set.Icc (0 : ℝ) 1 := ⟨by positivity, by rw [div_le_one hN0]; exact_mod_cast j3⟩
  have hd : |b - j / N| ≤ 1 / N := by
    rw [abs_le]
    constructor
    · have : (j : ℝ) / N ≤ b := by rw [div_le_iff₀ hN0]; exact j1
      have : 0 ≤ 1 / (N : ℝ) := by positivity
      linarith
    · rw [sub_le_iff_le_add, ← add_div, le_div_iff₀ hN0]
      linarith
  have a1 := avg_pow_lip h.pos n hb hqm
  have a2 := hn1 j (Finset.mem_range.mpr (by omega))
  have a3 := hK _ hqm _ hb
  have b1 : |b - j / N| * (1 + avg x (fun y => y ^ 3) n) ≤ 1 / N * |2 + m3| := by
    have q0 : 0 ≤ avg x (fun y => y ^ 3) n := div_nonneg (Finset.sum_nonneg fun i _ => (pow_pos (h.pos i) 3).le) (Nat.cast_nonneg n)
    exact mul_le_mul hd (le_trans (by linarith) (le_abs_self _)) (by linarith) (by positivity)
  have b2 : |(j : ℝ) / N - b| * K ≤ 1 / N * |K| := by
    rw [abs_sub_comm]
    exact (mul_le_mul_of_nonneg_left (le_abs_self K) (abs_nonneg _)).trans (mul_le_mul_of_nonneg_right hd (abs_nonneg _))
  have b3 : 1 / N * |2 + m3| + 1 / N * |K| ≤ η / 2 := by
    rw [← mul_add, ← hΛ, one_div, inv_mul_le_iff₀ hN0]
    rw [div_lt_iff₀ hη] at hN
    linarith
  have t1 := abs_sub_le (avg x (fun y => y ^ (b + 1)) n) (avg x (fun y => y ^ ((j : ℝ) / N + 1)) n) (e b)
  have t2 := abs_sub_le (avg x (fun y => y ^ ((j : ℝ) / N + 1)) n) (e ((j : ℝ) / N)) (e b)
  linarith

/-- If averages converge, the terms are small compared with their number. -/
theorem terms_small {y : ℕ → ℝ} {m : ℝ} (h : Tendsto (fun n : ℕ => (∑ i ∈ Finset.range n, y i) / n) atTop (𝓝 m)) (η : ℝ) (hη : 0 < η) :
    ∀ᶠ n : ℕ in atTop, ∀ i < n, |y i| ≤ η * n := by
  have h1 : Tendsto (fun n : ℕ => y n / n) atTop (𝓝 0) := by
    have a := (h.comp (tendsto_add_atTop_nat 1)).mul (tendsto_natCast_div_add_atTop (1 : ℝ) |>.inv₀ one_ne_zero)
    have b := a.sub h
    simp only [inv_one, mul_one, sub_self] at b
    refine b.congr' ?_
    filter_upwards [eventually_gt_atTop 0] with n hn
    have hn0 : (n : ℝ) ≠ 0 := by positivity
    have hn1 : (n : ℝ) + 1 ≠ 0 := by positivity
    simp only [Function.comp_def, Finset.sum_range_succ]
    push_cast
    field_simp
    ring
  obtain ⟨N, hN⟩ := Filter.eventually_atTop.mp ((Metric.tendsto_nhds.mp h1) η hη)
  obtain ⟨B, hB⟩ : ∃ B, ∀ i < N + 1, |y i| ≤ B := ⟨∑ i ∈ Finset.range (N + 1), |y i|, fun i hi => Finset.single_le_sum (f := fun i => |y i|) (fun _ _ => abs_nonneg _) (Finset.mem_range.mpr hi)⟩
  obtain ⟨N', hN'⟩ := exists_nat_gt (B / η)
  filter_upwards [eventually_ge_atTop N', eventually_gt_atTop 0] with n hn hn0 i hi
  have hn0' : (0 : ℝ) < n := by exact_mod_cast hn0
  by_cases hiN : i < N + 1
  · have : B < N' * η := by rwa [div_lt_iff₀ hη] at hN'
    have h2 : (N' : ℝ) ≤ n := by exact_mod_cast hn
    nlinarith [hB i hiN]
  · have := hN i (by omega)
    have hi' : (0 : ℝ) < i := by exact_mod_cast (by omega : 0 < i)
    rw [Real.dist_eq, sub_zero, abs_div, abs_of_pos hi', div_lt_iff₀ hi'] at this
    have : (i : ℝ) ≤ n := by exact_mod_cast hi.le
    nlinarith

/-- The limit of the average log density. -/
noncomputable def meanLogDens (m : ℝ) (e : ℝ → ℝ) (b : ℝ) : ℝ := log ((b + 1) * brodyAlpha b) + b * m - brodyAlpha b * e b

theorem avg_logDens (x : ℕ → ℝ) (n : ℕ) (hn : 0 < n) (b : ℝ) :
    avg x (logDens b) n = meanLogDens (avg x log n) (fun b => avg x (fun y => y ^ (b + 1)) n) b := by
  have hn0 : (n : ℝ) ≠ 0 := by positivity
  simp only [avg, logDens, meanLogDens, Finset.sum_add_distrib, Finset.sum_sub_distrib, Finset.sum_const, Finset.card_range, nsmul_eq_mul, ← Finset.mul_sum]
  field_simp

/-- **The criterion tends to the likelihood**, uniformly. -/
theorem Typical.criterion {x : ℕ → ℝ} {m : ℝ} {e : ℝ → ℝ} (h : Typical x m e) (η : ℝ) (hη : 0 < η) :
    ∀ᶠ n in atTop, ∀ b ∈ Set.Icc (0 : ℝ) 1, ∀ c ∈ Set.Icc (0 : ℝ) 1,
      |(spacingObjective ((List.range n).map x) c - spacingObjective ((List.range n).map x) b) - (meanLogDens m e b - meanLogDens m e c)| ≤ η := by
  obtain ⟨m1, h1⟩ := h.absLog
  obtain ⟨m3, h3⟩ := h.cube
  have hlog := (Metric.tendsto_nhds.mp h.logs) (η / 8) (by positivity)
  filter_upwards [h.uniform (η / 8) (by positivity), hlog, terms_small h1 (η / 56) (by positivity), terms_small h3 (η / 112) (by positivity),
    eventually_ge_atTop (Nat.ceil (56 / η + 1)), eventually_gt_atTop 0] with n u1 u2 u3 u4 u5 hn b hb c hc
  have hn0 : (0 : ℝ) < n := by exact_mod_cast hn
  have hnη : 56 ≤ η * n := by
    have : 56 / η + 1 ≤ n := (Nat.le_ceil _).trans (by exact_mod_cast u5)
    have h2 : 56 / η ≤ n := by linarith
    rw [div_le_iff₀ hη] at h2
    linarith
  set s := (List.range n).map x with hs
  have hlen : s.length = n := by simp [hs]
  have hmem : ∀ y ∈ s, ∃ i < n, x i = y := fun y hy => by
    obtain ⟨i, hi, rfl⟩ := List.mem_map.mp hy
    exact ⟨i, List.mem_range.mp hi, rfl⟩
  have key := criterion_likelihood s (List.ne_nil_of_length_pos (by omega)) (List.nodup_range.map h.inj) (fun y hy => by obtain ⟨i, -, rfl⟩ := hmem y hy; exact h.pos i)
    (η / 56 * n) (fun y hy => by
      obtain ⟨i, hi, rfl⟩ := hmem y hy
      have a1 := u3 i hi
      have a2 := u4 i hi
      rw [abs_abs] at a1
      have hp := h.pos i
      rw [abs_of_pos (by positivity)] at a2
      refine ⟨a1, ?_⟩
      have : x i ^ 2 ≤ 1 / 2 + x i ^ 3 := by
        rcases le_total (x i) 1 with h1 | h1
        · nlinarith [sq_nonneg (x i - 1 / 2), sq_nonneg (x i - 1), mul_nonneg hp.le (sq_nonneg (x i - 2 / 3)), mul_nonneg hp.le (sq_nonneg (x i - 1 / 2))]
        · nlinarith [mul_nonneg (sq_nonneg (x i)) (sub_nonneg.mpr h1)]
      linarith) hb hc
  have hsum : (s.map fun y => logDens b y - logDens c y).sum / s.length = avg x (logDens b) n - avg x (logDens c) n := by
    have e1 : ∀ f : ℝ → ℝ, (s.map f).sum = ∑ i ∈ Finset.range n, f (x i) := fun f => by
      rw [hs, List.map_map]
      rfl
    rw [e1, hlen, avg, avg, ← sub_div, Finset.sum_sub_distrib]
  rw [hsum, avg_logDens x n hn, avg_logDens x n hn, hlen] at key
  rw [Real.dist_eq] at u2
  have k2 : (7 * (η / 56 * n) + 6) / n ≤ η / 4 := by
    rw [div_le_iff₀ hn0]
    linarith
  have part : ∀ b ∈ Set.Icc (0 : ℝ) 1, |meanLogDens (avg x log n) (fun b => avg x (fun y => y ^ (b + 1)) n) b - meanLogDens m e b| ≤ η / 4 := fun b hb => by
    have al := alpha_le_one hb.1
    have ap := brodyAlpha_pos b (by linarith [hb.1])
    have q := u1 b hb
    have : meanLogDens (avg x log n) (fun b => avg x (fun y => y ^ (b + 1)) n) b - meanLogDens m e b = b * (avg x log n - m) - brodyAlpha b * (avg x (fun y => y ^ (b + 1)) n - e b) := by
      unfold meanLogDens; ring
    rw [this]
    refine (abs_sub _ _).trans ?_
    rw [abs_mul, abs_mul, abs_of_nonneg hb.1, abs_of_pos ap]
    have r1 : b * |avg x log n - m| ≤ η / 8 := by nlinarith [abs_nonneg (avg x log n - m), hb.1, hb.2]
    have r2 : brodyAlpha b * |avg x (fun y => y ^ (b + 1)) n - e b| ≤ η / 8 := by nlinarith [abs_nonneg (avg x (fun y => y ^ (b + 1)) n - e b)]
    linarith
  have p1 := abs_le.mp (part b hb)
  have p2 := abs_le.mp (part c hc)
  have k := abs_le.mp (key.trans k2)
  rw [abs_le]
  constructor <;> linarith [p1.1, p1.2, p2.1, p2.2, k.1, k.2]

/-- Near-minimisers of criteria whose differences converge uniformly. -/
theorem near_minimisers {S : ℕ → ℝ → ℝ} {M : ℝ → ℝ} {I : Set ℝ} (hI : IsCompact I) (hM : ContinuousOn M I) (b₀ : ℝ) (hb₀ : b₀ ∈ I) (hmax : ∀ b ∈ I, b ≠ b₀ → M b < M b₀)
    (h : ∀ η > 0, ∀ᶠ n in atTop, ∀ b ∈ I, ∀ c ∈ I, |(S n c - S n b) - (M b - M c)| ≤ η) (δ : ℝ) (hδ : 0 < δ) :
    ∃ η > 0, ∀ᶠ n in atTop, ∀ b ∈ I, (∀ c ∈ I, S n b ≤ S n c + η) → |b - b₀| < δ := by
  set J := I ∩ {b | δ ≤ |b - b₀|} with hJ
  have hJc : IsCompact J := hI.inter_right (isClosed_le continuous_const (by fun_prop))
  by_cases hne : J.Nonempty
  · obtain ⟨b₁, hb₁, hm⟩ := hJc.exists_isMaxOn hne (hM.mono Set.inter_subset_left)
    have hlt : M b₁ < M b₀ := hmax b₁ hb₁.1 fun he => by
      have : δ ≤ |b₁ - b₀| := hb₁.2
      rw [he, sub_self, abs_zero] at this
      linarith
    refine ⟨(M b₀ - M b₁) / 3, by linarith, ?_⟩
    filter_upwards [h ((M b₀ - M b₁) / 3) (by linarith)] with n hn b hb hmin
    by_contra hcon
    have hbJ : b ∈ J := ⟨hb, not_lt.mp hcon⟩
    have h1 : M b ≤ M b₁ := hm hbJ
    have h2 := abs_le.mp (hn b₀ hb₀ b hb)
    have h3 := hmin b₀ hb₀
    linarith [h2.1]
  · refine ⟨1, one_pos, Filter.Eventually.of_forall fun n b hb _ => ?_⟩
    by_contra hcon
    exact hne ⟨b, hb, not_lt.mp hcon⟩

end BrodyC
end RMT
