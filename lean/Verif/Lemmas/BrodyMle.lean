import Verif.Lemmas.BrodyConcave
import Mathlib.MeasureTheory.Integral.Gamma
import Mathlib.Analysis.SpecialFunctions.Gamma.Beta
import Mathlib.Analysis.Real.Pi.Bounds

/-!
# Lemmas for C169: sums of Brody densities
-/

namespace RMT
namespace BrodyC
open Real Brody Ensembles EigValsM Spec Props Filter Topology MeasureTheory ProbabilityTheory

/-- A convex function is Lipschitz inside its domain. -/
theorem convex_lip {φ : ℝ → ℝ} (h : ConvexOn ℝ (Set.Ioi (-1)) φ) : ∃ K, 0 ≤ K ∧ ∀ b ∈ Set.Icc (0 : ℝ) 1, ∀ c ∈ Set.Icc (0 : ℝ) 1, |φ b - φ c| ≤ K * |b - c| := by
  set lo := (φ (-1 / 2) - φ (-3 / 4)) / (-1 / 2 - -3 / 4) with hlo
  set hi := (φ 3 - φ 2) / (3 - 2) with hhi
  have key : ∀ b c : ℝ, 0 ≤ b → b < c → c ≤ 1 → |φ b - φ c| ≤ (|lo| + |hi|) * |b - c| := fun b c h0 hbc h1 => by
    have m : ∀ t : ℝ, -1 < t → t ∈ Set.Ioi (-1 : ℝ) := fun t ht => ht
    have s1 := h.slope_mono_adjacent (m (-3 / 4) (by norm_num)) (m b (by linarith)) (by norm_num : (-3 / 4 : ℝ) < -1 / 2) (by linarith)
    have s2 := h.slope_mono_adjacent (m (-1 / 2) (by norm_num)) (m c (by linarith)) (by linarith : (-1 / 2 : ℝ) < b) hbc
    have s3 := h.slope_mono_adjacent (m b (by linarith)) (m 2 (by norm_num)) hbc (by linarith : c < 2)
    have s4 := h.slope_mono_adjacent (m c (by linarith)) (m 3 (by norm_num)) (by linarith : c < 2) (by norm_num : (2 : ℝ) < 3)
    have hd : 0 < c - b := by linarith
    have a1 : lo ≤ (φ c - φ b) / (c - b) := s1.trans s2
    have a2 : (φ c - φ b) / (c - b) ≤ hi := s3.trans s4
    rw [abs_sub_comm, abs_sub_comm b c, abs_of_pos hd, ← div_le_iff₀ hd]
    have : |φ c - φ b| / (c - b) = |(φ c - φ b) / (c - b)| := by rw [abs_div, abs_of_pos hd]
    rw [this, abs_le]
    constructor <;> linarith [neg_abs_le lo, le_abs_self hi, abs_nonneg lo, abs_nonneg hi]
  refine ⟨|lo| + |hi|, by positivity, fun b hb c hc => ?_⟩
  rcases lt_trichotomy b c with hlt | heq | hgt
  · exact key b c hb.1 hlt hc.2
  · rw [heq]; simp
  · rw [abs_sub_comm, abs_sub_comm b c]
    exact key c b hc.1 hgt hb.2

theorem logDens_lip : ∃ K, 0 ≤ K ∧ ∀ x, 0 < x → ∀ b ∈ Set.Icc (0 : ℝ) 1, ∀ c ∈ Set.Icc (0 : ℝ) 1, |logDens b x - logDens c x| ≤ |b - c| * (K * (1 + |log x| + x ^ 3)) := by
  obtain ⟨K1, k1, h1⟩ := convex_lip (logMul_concave.concaveOn.neg)
  obtain ⟨K2, k2, h2⟩ := convex_lip (term_convex one_pos)
  simp only [one_rpow, mul_one] at h2
  refine ⟨K1 + K2 + 1, by positivity, fun x hx b hb c hc => ?_⟩
  have e1 := h1 b hb c hc
  have e2 := h2 b hb c hc
  simp only [Pi.neg_apply] at e1
  have e3 := pow_lip hx hb hc
  have e4 := pow_le_cube hx hb
  have a1 := alpha_le_one hc.1
  have a0 := brodyAlpha_pos c (by linarith [hc.1])
  have p0 := rpow_pos_of_pos hx (b + 1)
  have hx3 : 0 < x ^ 3 := by positivity
  have e : logDens b x - logDens c x = -(-log ((b + 1) * brodyAlpha b) - -log ((c + 1) * brodyAlpha c)) + (b - c) * log x - ((brodyAlpha b - brodyAlpha c) * x ^ (b + 1) + brodyAlpha c * (x ^ (b + 1) - x ^ (c + 1))) := by
    unfold logDens; ring
  have t1 : |(b - c) * log x| = |b - c| * |log x| := abs_mul _ _
  have t2 : |(brodyAlpha b - brodyAlpha c) * x ^ (b + 1)| ≤ K2 * |b - c| * (1 + x ^ 3) := by
    rw [abs_mul, abs_of_pos p0]
    exact mul_le_mul e2 e4 p0.le (by positivity)
  have t3 : |brodyAlpha c * (x ^ (b + 1) - x ^ (c + 1))| ≤ 1 * (|b - c| * (1 + x ^ 3)) := by
    rw [abs_mul, abs_of_pos a0]
    exact mul_le_mul a1 e3 (abs_nonneg _) zero_le_one
  have t0 := abs_nonneg (b - c)
  have l0 := abs_nonneg (log x)
  rw [e]
  refine (abs_sub _ _).trans ((add_le_add ((abs_add_le _ _).trans (add_le_add (abs_neg _).le t1.le)) ((abs_add_le _ _).trans (add_le_add t2 t3))).trans ?_)
  refine (add_le_add_left (add_le_add_left e1 _) _).trans ?_
  have q1 : 0 ≤ |b - c| * (K1 * (|log x| + x ^ 3)) := by positivity
  have q2 : 0 ≤ |b - c| * (K2 * |log x|) := by positivity
  nlinarith

theorem dens_bound {b x : ℝ} (hb : b ∈ Set.Icc (0 : ℝ) 1) (hx : 0 < x) : 0 < brodyDist x b ∧ brodyDist x b ≤ 6 * exp (-(x / 4)) := by
  refine ⟨dist_pos hx hb.1, ?_⟩
  have a1 := alpha_le_one hb.1
  have a2 := alpha_ge hb.1 hb.2
  have a0 := brodyAlpha_pos b (by linarith [hb.1])
  have hp := rpow_pos_of_pos hx b
  have hc : (b + 1) * brodyAlpha b ≤ 2 := by nlinarith [hb.1, hb.2]
  have hc0 : 0 < (b + 1) * brodyAlpha b := mul_pos (by linarith [hb.1]) a0
  unfold brodyDist
  rcases le_total x 1 with h | h
  · have p1 : x ^ b ≤ 1 := rpow_le_one hx.le h hb.1
    have p2 : exp (-brodyAlpha b * x ^ (b + 1)) ≤ 1 := exp_le_one_iff.mpr (by
      have := mul_pos a0 (rpow_pos_of_pos hx (b + 1))
      linarith)
    have p3 : 3 / 4 ≤ exp (-(x / 4)) := by linarith [add_one_le_exp (-(x / 4))]
    have p4 : (b + 1) * brodyAlpha b * x ^ b ≤ 2 := by nlinarith
    have p5 := exp_pos (-brodyAlpha b * x ^ (b + 1))
    have p6 : 0 < (b + 1) * brodyAlpha b * x ^ b := mul_pos hc0 hp
    nlinarith
  · have p1 : x ^ b ≤ x := by
      have := rpow_le_rpow_of_exponent_le h hb.2
      rwa [rpow_one] at this
    have p2 : x ≤ x ^ (b + 1) := by
      have := rpow_le_rpow_of_exponent_le h (by linarith [hb.1] : (1 : ℝ) ≤ b + 1)
      rwa [rpow_one] at this
    have p3 : exp (-brodyAlpha b * x ^ (b + 1)) ≤ exp (-(0.59 * x)) := exp_le_exp.mpr (by
      have : 0.59 * x ≤ brodyAlpha b * x ^ (b + 1) := mul_le_mul a2 p2 hx.le a0.le
      linarith)
    have p4 : x / 3 ≤ exp (0.34 * x) := by
      have := add_one_le_exp (0.34 * x)
      norm_num at this ⊢
      linarith
    have p5 : exp (-(0.59 * x)) * exp (0.34 * x) = exp (-(x / 4)) := by rw [← exp_add]; congr 1; norm_num; ring
    have e0 := exp_pos (-(0.59 * x))
    have p6 : (b + 1) * brodyAlpha b * x ^ b ≤ 2 * x := mul_le_mul hc p1 hp.le (by norm_num)
    have p7 : 0 < (b + 1) * brodyAlpha b * x ^ b := mul_pos hc0 hp
    calc (b + 1) * brodyAlpha b * x ^ b * exp (-brodyAlpha b * x ^ (b + 1)) ≤ 2 * x * exp (-(0.59 * x)) := mul_le_mul p6 p3 (exp_pos _).le (by positivity)
      _ ≤ 6 * (exp (-(0.59 * x)) * exp (0.34 * x)) := by nlinarith
      _ = _ := by rw [p5]

theorem exp_diff (u v : ℝ) : |exp u - exp v| ≤ max (exp u) (exp v) * |u - v| := by
  rcases le_total u v with h | h
  · rw [max_eq_right (exp_le_exp.mpr h), abs_sub_comm, abs_of_nonneg (sub_nonneg.mpr (exp_le_exp.mpr h)), abs_sub_comm u v, abs_of_nonneg (sub_nonneg.mpr h)]
    have := add_one_le_exp (u - v)
    have e : exp u = exp v * exp (u - v) := by rw [← exp_add]; congr 1; ring
    rw [e]
    nlinarith [exp_pos v]
  · rw [max_eq_left (exp_le_exp.mpr h), abs_of_nonneg (sub_nonneg.mpr (exp_le_exp.mpr h)), abs_of_nonneg (sub_nonneg.mpr h)]
    have := add_one_le_exp (v - u)
    have e : exp v = exp u * exp (v - u) := by rw [← exp_add]; congr 1; ring
    rw [e]
    nlinarith [exp_pos u]

/-- The Brody density is Lipschitz in the parameter. -/
theorem dens_lip : ∃ K, 0 ≤ K ∧ ∀ x, 0 < x → ∀ b ∈ Set.Icc (0 : ℝ) 1, ∀ c ∈ Set.Icc (0 : ℝ) 1, |brodyDist x b - brodyDist x c| ≤ |b - c| * (K * (1 + |log x| + x ^ 3) * exp (-(x / 4))) := by
  obtain ⟨K, hK, h⟩ := logDens_lip
  refine ⟨6 * K, by positivity, fun x hx b hb c hc => ?_⟩
  obtain ⟨p0, p1⟩ := dens_bound hb hx
  obtain ⟨q0, q1⟩ := dens_bound hc hx
  have h1 := h x hx b hb c hc
  have h2 := exp_diff (logDens b x) (logDens c x)
  rw [logDens_eq hb.1 hx, logDens_eq hc.1 hx] at h1 h2
  rw [exp_log p0, exp_log q0] at h2
  refine h2.trans ((mul_le_mul (max_le p1 q1) h1 (abs_nonneg _) (by positivity)).trans (le_of_eq ?_))
  ring

/-- A law of large numbers, uniform over a family which is Lipschitz in the parameter. -/
theorem uniform_lln {Ω : Type} [MeasurableSpace Ω] {P : Measure Ω} {X : ℕ → Ω → ℝ} {μ : Measure ℝ} (h : IsSample P X μ) (hpos : ∀ᵐ s ∂μ, 0 < s) (f : ℝ → ℝ → ℝ) (H : ℝ → ℝ)
    (hf : ∀ b, Measurable (f b)) (hH : Measurable H) (hi : ∀ b ∈ Set.Icc (0 : ℝ) 1, Integrable (f b) μ) (hHi : Integrable H μ)
    (hlip : ∀ x, 0 < x → ∀ b ∈ Set.Icc (0 : ℝ) 1, ∀ c ∈ Set.Icc (0 : ℝ) 1, |f b x - f c x| ≤ |b - c| * H x) :
    ∀ᵐ ω ∂P, ∀ η > 0, ∀ᶠ n : ℕ in atTop, ∀ b ∈ Set.Icc (0 : ℝ) 1, |avg (fun i => X i ω) (f b) n - ∫ s, f b s ∂μ| ≤ η := by
  have hq : ∀ᵐ ω ∂P, ∀ q : ℚ, (q : ℝ) ∈ Set.Icc (0 : ℝ) 1 → Tendsto (avg (fun i => X i ω) (f q)) atTop (𝓝 (∫ s, f q s ∂μ)) := by
    rw [ae_all_iff]
    intro q
    by_cases hq : (q : ℝ) ∈ Set.Icc (0 : ℝ) 1
    · filter_upwards [sample_lln h (f q) (hf q) (hi q hq)] with ω hω _ using hω
    · exact Eventually.of_forall fun ω h' => absurd h' hq
  have hp : ∀ᵐ ω ∂P, ∀ i, 0 < X i ω := by
    rw [ae_all_iff]
    intro i
    rw [← h.law i] at hpos
    exact ae_of_ae_map (h.measurable i).aemeasurable hpos
  have hmean : ∀ b ∈ Set.Icc (0 : ℝ) 1, ∀ c ∈ Set.Icc (0 : ℝ) 1, |∫ s, f b s ∂μ - ∫ s, f c s ∂μ| ≤ |b - c| * ∫ s, H s ∂μ := fun b hb c hc => by
    rw [← integral_sub (hi b hb) (hi c hc), ← integral_const_mul]
    refine norm_integral_le_of_norm_le (f := fun s => f b s - f c s) (hHi.const_mul _) ?_
    filter_upwards [hpos] with s hs using hlip s hs b hb c hc
  filter_upwards [hq, hp, sample_lln h H hH hHi] with ω h1 h2 h3 η hη
  have hH0 : 0 ≤ ∫ s, H s ∂μ := by
    have := (abs_nonneg _).trans (hmean 0 ⟨le_rfl, zero_le_one⟩ 1 ⟨zero_le_one, le_rfl⟩)
    simpa using this
  set I := ∫ s, H s ∂μ with hI
  obtain ⟨m, hm⟩ := exists_nat_gt (4 * (I + 1) / η)
  have hm0 : (0 : ℝ) < m := lt_of_le_of_lt (by positivity) hm
  rw [div_lt_iff₀ hη] at hm
  have hgrid : ∀ᶠ n : ℕ in atTop, ∀ j ∈ Finset.range (m + 1), |avg (fun i => X i ω) (f ((j : ℝ) / m)) n - ∫ s, f ((j : ℝ) / m) s ∂μ| < η / 2 := by
    rw [eventually_all_finset]
    intro j hj
    rw [Finset.mem_range] at hj
    have hj1 : (j : ℝ) / m ∈ Set.Icc (0 : ℝ) 1 := ⟨by positivity, by rw [div_le_one hm0]; exact_mod_cast Nat.lt_succ_iff.mp hj⟩
    have := h1 ((j : ℚ) / m) (by push_cast; exact hj1)
    push_cast at this
    exact (Metric.tendsto_nhds.mp this (η / 2) (by positivity)).mono fun n hn => by rwa [Real.dist_eq] at hn
  filter_upwards [hgrid, h3.eventually (gt_mem_nhds (lt_add_one I))] with n hn hHn b hb
  set j := ⌊b * m⌋₊ with hj
  have j1 : (j : ℝ) ≤ b * m := Nat.floor_le (mul_nonneg hb.1 hm0.le)
  have j2 : b * m < j + 1 := Nat.lt_floor_add_one _
  have jm : j ≤ m := by
    have : (j : ℝ) ≤ m := j1.trans (by nlinarith [hb.2])
    exact_mod_cast this
  have hc : (j : ℝ) / m ∈ Set.Icc (0 : ℝ) 1 := ⟨by positivity, by rw [div_le_one hm0]; exact_mod_cast jm⟩
  have hbc : |b - (j : ℝ) / m| ≤ 1 / m := by
    have e : b - (j : ℝ) / m = (b * m - j) / m := by field_simp
    rw [e, abs_div, abs_of_pos hm0]
    refine div_le_div_of_nonneg_right ?_ hm0.le
    rw [abs_le]
    constructor <;> linarith
  have g1 := hn j (Finset.mem_range.mpr (by omega))
  have g2 := hmean b hb _ hc
  have g3 : |avg (fun i => X i ω) (f b) n - avg (fun i => X i ω) (f ((j : ℝ) / m)) n| ≤ |b - (j : ℝ) / m| * avg (fun i => X i ω) H n := by
    unfold avg
    rw [← sub_div, ← Finset.sum_sub_distrib, abs_div, Nat.abs_cast, ← mul_div_assoc, Finset.mul_sum]
    refine div_le_div_of_nonneg_right ((Finset.abs_sum_le_sum_abs _ _).trans (Finset.sum_le_sum fun i _ => hlip _ (h2 i) b hb _ hc)) (Nat.cast_nonneg n)
  have g4 : |b - (j : ℝ) / m| * avg (fun i => X i ω) H n ≤ η / 4 := by
    have : |b - (j : ℝ) / m| * avg (fun i => X i ω) H n ≤ |b - (j : ℝ) / m| * (I + 1) := mul_le_mul_of_nonneg_left hHn.le (abs_nonneg _)
    refine this.trans ((mul_le_mul_of_nonneg_right hbc (by positivity)).trans ?_)
    rw [div_mul_eq_mul_div, one_mul, div_le_iff₀ hm0]
    linarith
  have g5 : |b - (j : ℝ) / m| * I ≤ η / 4 := by
    refine (mul_le_mul_of_nonneg_right hbc hH0).trans ?_
    rw [div_mul_eq_mul_div, one_mul, div_le_iff₀ hm0]
    linarith
  have a1 := abs_lt.mp g1
  have a2 := abs_le.mp (g2.trans g5)
  have a3 := abs_le.mp (g3.trans g4)
  rw [abs_le]
  constructor <;> linarith [a1.1, a1.2, a2.1, a2.2, a3.1, a3.2]

/-- What dominates the squared differences of densities. -/
theorem weight_sq_integrable : IntegrableOn (fun x => ((1 + |log x| + x ^ 3) * exp (-(x / 4))) ^ 2) (Set.Ioi (0 : ℝ)) := by
  have i : ∀ q : ℝ, -1 < q → IntegrableOn (fun x : ℝ => x ^ q * exp (-(1 / 2) * x ^ (1 : ℝ))) (Set.Ioi 0) := fun q hq => integrableOn_rpow_mul_exp_neg_mul_rpow hq one_pos (by norm_num)
  have hsum := (((i 0 (by norm_num)).add ((i (-1 / 2) (by norm_num)).const_mul 16)).add ((i 2 (by norm_num)).add (i 6 (by norm_num)))).const_mul 4
  refine Integrable.mono' hsum (by fun_prop) ?_
  filter_upwards [ae_restrict_mem measurableSet_Ioi] with x hx
  have hx : 0 < x := hx
  rw [norm_of_nonneg (sq_nonneg _)]
  simp only [Pi.add_apply, rpow_one, rpow_zero]
  have e1 : exp (-(x / 4)) ^ 2 = exp (-(1 / 2) * x) := by rw [← exp_nat_mul]; congr 1; push_cast; ring
  rw [mul_pow, e1]
  have r2 : x ^ (2 : ℝ) = x ^ 2 := rpow_two x
  have r6 : x ^ (6 : ℝ) = x ^ 6 := by exact_mod_cast rpow_natCast x 6
  rw [r2, r6]
  set w := x ^ (-1 / 4 : ℝ) with hw
  have hw0 : 0 < w := rpow_pos_of_pos hx _
  have hw2 : x ^ (-1 / 2 : ℝ) = w ^ 2 := by rw [hw, ← rpow_natCast, ← rpow_mul hx.le]; norm_num
  rw [hw2]
  have hlog : |log x| ≤ 4 * w + x := by
    rw [abs_le]
    constructor
    · have h1 := log_le_sub_one_of_pos hw0
      rw [hw, log_rpow hx] at h1
      rw [← hw] at h1
      linarith
    · linarith [log_le_sub_one_of_pos hx]
  have he := exp_pos (-(1 / 2) * x)
  have hl0 := abs_nonneg (log x)
  have hx3 : 0 < x ^ 3 := by positivity
  have hmain : (1 + |log x| + x ^ 3) ^ 2 ≤ 4 * ((1 + 16 * w ^ 2) + (x ^ 2 + x ^ 6)) := by
    have h1 : (1 + |log x| + x ^ 3) ^ 2 ≤ (1 + (4 * w + x) + x ^ 3) ^ 2 := pow_le_pow_left₀ (by positivity) (by linarith) 2
    refine h1.trans ?_
    have e6 : x ^ 6 = (x ^ 3) ^ 2 := by ring
    rw [e6]
    generalize x ^ 3 = y at *
    nlinarith [sq_nonneg (1 - 4 * w), sq_nonneg (1 - x), sq_nonneg (1 - y), sq_nonneg (4 * w - x), sq_nonneg (4 * w - y), sq_nonneg (x - y)]
  calc (1 + |log x| + x ^ 3) ^ 2 * exp (-(1 / 2) * x) ≤ (4 * ((1 + 16 * w ^ 2) + (x ^ 2 + x ^ 6))) * exp (-(1 / 2) * x) := mul_le_mul_of_nonneg_right hmain he.le
    _ = _ := by ring

theorem dens_prod_integrable {b c : ℝ} (hb : b ∈ Set.Icc (0 : ℝ) 1) (hc : c ∈ Set.Icc (0 : ℝ) 1) : IntegrableOn (fun x => brodyDist x b * brodyDist x c) (Set.Ioi (0 : ℝ)) := by
  refine Integrable.mono' ((dist_integrable b hb.1).const_mul 6) ((dist_measurable b).mul (dist_measurable c)).aestronglyMeasurable ?_
  filter_upwards [ae_restrict_mem measurableSet_Ioi] with x hx
  obtain ⟨p0, -⟩ := dens_bound hb hx
  obtain ⟨q0, q1⟩ := dens_bound hc hx
  have hx : 0 < x := hx
  have : exp (-(x / 4)) ≤ 1 := exp_le_one_iff.mpr (by linarith)
  rw [norm_of_nonneg (by positivity)]
  nlinarith

/-- The mean of one Brody density under another. -/
noncomputable def overlap (b c : ℝ) : ℝ := ∫ x in Set.Ioi (0 : ℝ), brodyDist x b * brodyDist x c

theorem overlap_close : ∃ C, 0 ≤ C ∧ ∀ b ∈ Set.Icc (0 : ℝ) 1, ∀ c ∈ Set.Icc (0 : ℝ) 1, overlap b b + overlap c c - 2 * overlap b c ≤ C * (b - c) ^ 2 := by
  obtain ⟨K, hK, h⟩ := dens_lip
  set W := ∫ x in Set.Ioi (0 : ℝ), ((1 + |log x| + x ^ 3) * exp (-(x / 4))) ^ 2 with hW
  have hW0 : 0 ≤ W := integral_nonneg fun x => sq_nonneg _
  refine ⟨K ^ 2 * W, by positivity, fun b hb c hc => ?_⟩
  have i1 := dens_prod_integrable hb hb
  have i2 := dens_prod_integrable hc hc
  have i3 := (dens_prod_integrable hb hc).const_mul 2
  have e : overlap b b + overlap c c - 2 * overlap b c = ∫ x in Set.Ioi (0 : ℝ), (brodyDist x b - brodyDist x c) ^ 2 := by
    unfold overlap
    rw [← integral_const_mul, ← integral_add i1 i2, ← integral_sub (f := fun x => brodyDist x b * brodyDist x b + brodyDist x c * brodyDist x c) (i1.add i2) i3]
    refine integral_congr_ae (Eventually.of_forall fun x => ?_)
    ring
  rw [e, hW, mul_assoc, mul_comm (∫ x in Set.Ioi (0 : ℝ), _) _, ← mul_assoc, ← integral_const_mul]
  refine integral_mono_ae ?_ (weight_sq_integrable.const_mul _) ?_
  · have : (fun x => (brodyDist x b - brodyDist x c) ^ 2) = fun x => (brodyDist x b * brodyDist x b + brodyDist x c * brodyDist x c) - 2 * (brodyDist x b * brodyDist x c) := by funext x; ring
    rw [this]
    exact (i1.add i2).sub i3
  · filter_upwards [ae_restrict_mem measurableSet_Ioi] with x hx
    have := h x hx b hb c hc
    have h2 := pow_le_pow_left₀ (abs_nonneg _) this 2
    rw [sq_abs] at h2
    refine h2.trans (le_of_eq ?_)
    rw [mul_pow, sq_abs]
    ring

theorem overlap_comm (b c : ℝ) : overlap b c = overlap c b := by
  unfold overlap
  simp only [mul_comm]

/-- The mean of a Brody density under itself. -/
theorem overlap_self {b : ℝ} (hb : 0 < b) : overlap b b = (1 - 1 / (b + 1)) * (π / sin (π * (1 / (b + 1)))) * 2 ^ (1 / (b + 1) - 2) := by
  have ha : 0 < b + 1 := by linarith
  have hα := brodyAlpha_pos b (by linarith)
  set x := 1 / (b + 1) with hx
  have hx0 : 0 < x := by positivity
  have hx1 : x < 1 := by rw [hx, div_lt_one ha]; linarith
  have hax : (b + 1) * x = 1 := by rw [hx]; field_simp
  have e : overlap b b = ((b + 1) * brodyAlpha b) ^ 2 * ∫ t in Set.Ioi (0 : ℝ), t ^ (2 * b) * exp (-(2 * brodyAlpha b) * t ^ (b + 1)) := by
    unfold overlap
    rw [← integral_const_mul]
    refine setIntegral_congr_fun measurableSet_Ioi fun t ht => ?_
    have ht : 0 < t := ht
    unfold brodyDist
    have e1 : t ^ (2 * b) = t ^ b * t ^ b := by rw [← rpow_add ht]; congr 1; ring
    have e2 : exp (-(2 * brodyAlpha b) * t ^ (b + 1)) = exp (-brodyAlpha b * t ^ (b + 1)) * exp (-brodyAlpha b * t ^ (b + 1)) := by rw [← exp_add]; congr 1; ring
    simp only [e1, e2]
    ring
  have hG : (2 * b + 1) / (b + 1) = 2 - x := by rw [hx]; field_simp; ring
  have hG' : -(2 * b + 1) / (b + 1) = x - 2 := by rw [neg_div, hG]; ring
  rw [e, integral_rpow_mul_exp_neg_mul_rpow ha (by linarith) (by positivity), hG, hG', mul_rpow (by norm_num) hα.le]
  have g1 : brodyAlpha b ^ 2 * brodyAlpha b ^ (x - 2) = Gamma (1 + x) := by
    rw [← rpow_two, ← rpow_add hα, show (2 : ℝ) + (x - 2) = x by ring]
    unfold brodyAlpha
    rw [← rpow_mul (Gamma_pos_of_pos (by positivity)).le, hax, rpow_one]
    congr 1
    rw [hx]
    field_simp
    ring
  have g2 : Gamma (1 + x) = x * Gamma x := by rw [add_comm]; exact Gamma_add_one hx0.ne'
  have g3 : Gamma (2 - x) = (1 - x) * Gamma (1 - x) := by
    rw [show 2 - x = (1 - x) + 1 by ring]
    exact Gamma_add_one (by linarith)
  have g4 := Real.Gamma_mul_Gamma_one_sub x
  rw [← hx, g3, ← g4]
  have : ((b + 1) * brodyAlpha b) ^ 2 * (2 ^ (x - 2) * brodyAlpha b ^ (x - 2) * x * ((1 - x) * Gamma (1 - x))) = (b + 1) * ((b + 1) * x) * (brodyAlpha b ^ 2 * brodyAlpha b ^ (x - 2)) * (1 - x) * Gamma (1 - x) * 2 ^ (x - 2) := by ring
  rw [this, g1, g2, hax]
  have : (b + 1) * 1 * (x * Gamma x) * (1 - x) * Gamma (1 - x) * 2 ^ (x - 2) = ((b + 1) * x) * (Gamma x * (1 - x) * Gamma (1 - x)) * 2 ^ (x - 2) := by ring
  rw [this, hax]
  ring

theorem overlap_differs : overlap (1 / 3) (1 / 3) ≠ overlap (1 / 2) (1 / 2) := by
  intro h
  rw [overlap_self (by norm_num), overlap_self (by norm_num)] at h
  have e1 : (1 : ℝ) / (1 / 3 + 1) = 3 / 4 := by norm_num
  have e2 : (1 : ℝ) / (1 / 2 + 1) = 2 / 3 := by norm_num
  rw [e1, e2] at h
  have s1 : sin (π * (3 / 4)) = √2 / 2 := by rw [show π * (3 / 4) = π - π / 4 by ring, sin_pi_sub, sin_pi_div_four]
  have s2 : sin (π * (2 / 3)) = √3 / 2 := by rw [show π * (2 / 3) = π - π / 3 by ring, sin_pi_sub, sin_pi_div_three]
  rw [s1, s2] at h
  have h2 : √2 ≠ 0 := by positivity
  have h3 : √3 ≠ 0 := by positivity
  have hπ := pi_ne_zero
  have h4 : (1 / 4 : ℝ) * (2 / √2) * 2 ^ ((3 : ℝ) / 4 - 2) = (1 / 3) * (2 / √3) * 2 ^ ((2 : ℝ) / 3 - 2) := by
    have := congrArg (fun t => t / π) h
    have l : (1 - 3 / 4) * (π / (√2 / 2)) * (2 : ℝ) ^ ((3 : ℝ) / 4 - 2) / π = (1 / 4 : ℝ) * (2 / √2) * 2 ^ ((3 : ℝ) / 4 - 2) := by field_simp; ring
    have r : (1 - 2 / 3) * (π / (√3 / 2)) * (2 : ℝ) ^ ((2 : ℝ) / 3 - 2) / π = (1 / 3 : ℝ) * (2 / √3) * 2 ^ ((2 : ℝ) / 3 - 2) := by field_simp; ring
    rw [l, r] at this
    exact this
  have h5 := congrArg (fun t => t ^ 12) h4
  simp only [mul_pow, div_pow] at h5
  have q2 : √2 ^ 12 = 64 := by rw [show √2 ^ 12 = (√2 ^ 2) ^ 6 by ring, sq_sqrt (by norm_num)]; norm_num
  have q3 : √3 ^ 12 = 729 := by rw [show √3 ^ 12 = (√3 ^ 2) ^ 6 by ring, sq_sqrt (by norm_num)]; norm_num
  have q4 : ((2 : ℝ) ^ ((3 : ℝ) / 4 - 2)) ^ 12 = 1 / 2 ^ 15 := by
    rw [← rpow_natCast, ← rpow_mul (by norm_num), show ((3 : ℝ) / 4 - 2) * ((12 : ℕ) : ℝ) = -((15 : ℕ) : ℝ) by norm_num, rpow_neg (by norm_num), rpow_natCast]
    norm_num
  have q5 : ((2 : ℝ) ^ ((2 : ℝ) / 3 - 2)) ^ 12 = 1 / 2 ^ 16 := by
    rw [← rpow_natCast, ← rpow_mul (by norm_num), show ((2 : ℝ) / 3 - 2) * ((12 : ℕ) : ℝ) = -((16 : ℕ) : ℝ) by norm_num, rpow_neg (by norm_num), rpow_natCast]
    norm_num
  rw [q2, q3, q4, q5] at h5
  norm_num at h5

/-- Some Brody density has a larger mean under another parameter than its own. -/
theorem overlap_not_best : ∃ b ∈ Set.Icc (1 / 3 : ℝ) (1 / 2), ∃ c ∈ Set.Icc (1 / 3 : ℝ) (1 / 2), overlap b b < overlap b c := by
  by_contra hcon
  push Not at hcon
  obtain ⟨C, hC, hclose⟩ := overlap_close
  have sub : ∀ b ∈ Set.Icc (1 / 3 : ℝ) (1 / 2), b ∈ Set.Icc (0 : ℝ) 1 := fun b hb => ⟨by linarith [hb.1], by linarith [hb.2]⟩
  have step : ∀ b ∈ Set.Icc (1 / 3 : ℝ) (1 / 2), ∀ c ∈ Set.Icc (1 / 3 : ℝ) (1 / 2), |overlap b b - overlap c c| ≤ C * (b - c) ^ 2 := fun b hb c hc => by
    have h1 := hcon b hb c hc
    have h2 := hcon c hc b hb
    rw [overlap_comm c b] at h2
    have h3 := hclose b (sub b hb) c (sub c hc)
    rw [abs_le]
    constructor <;> linarith
  have chain : ∀ n : ℕ, 0 < n → ∀ k : ℕ, k ≤ n → |overlap (1 / 3 + k * (1 / (6 * n))) (1 / 3 + k * (1 / (6 * n))) - overlap (1 / 3) (1 / 3)| ≤ k * (C * (1 / (6 * n)) ^ 2) := by
    intro n hn k
    have hn0 : (0 : ℝ) < n := by exact_mod_cast hn
    have hin : ∀ k : ℕ, k ≤ n → (1 / 3 + k * (1 / (6 * n)) : ℝ) ∈ Set.Icc (1 / 3 : ℝ) (1 / 2) := fun k hk => by
      have hk' : (k : ℝ) ≤ n := by exact_mod_cast hk
      have : (k : ℝ) * (1 / (6 * n)) ≤ 1 / 6 := by
        rw [mul_one_div, div_le_div_iff₀ (by positivity) (by norm_num)]
        linarith
      have h0 : 0 ≤ (k : ℝ) * (1 / (6 * n)) := by positivity
      constructor <;> linarith
    induction k with
    | zero => intro _; simp
    | succ k ih =>
      intro hk
      have h1 := ih (by omega)
      have h2 := step _ (hin (k + 1) hk) _ (hin k (by omega))
      rw [show (1 / 3 + ((k + 1 : ℕ) : ℝ) * (1 / (6 * n)) - (1 / 3 + k * (1 / (6 * n)))) = 1 / (6 * n) by push_cast; ring] at h2
      refine (abs_sub_le _ (overlap (1 / 3 + k * (1 / (6 * n))) (1 / 3 + k * (1 / (6 * n)))) _).trans ((add_le_add h2 h1).trans (le_of_eq ?_))
      push_cast
      ring
  have hzero : |overlap (1 / 2) (1 / 2) - overlap (1 / 3) (1 / 3)| ≤ 0 := by
    have hlim : Tendsto (fun n : ℕ => C / 36 * (1 / (n : ℝ))) atTop (𝓝 (C / 36 * 0)) := tendsto_one_div_atTop_nhds_zero_nat.const_mul _
    rw [mul_zero] at hlim
    refine ge_of_tendsto hlim ?_
    filter_upwards [eventually_gt_atTop 0] with n hn
    have hn0 : (0 : ℝ) < n := by exact_mod_cast hn
    have := chain n hn n le_rfl
    rw [show (1 / 3 + (n : ℝ) * (1 / (6 * n)) : ℝ) = 1 / 2 by field_simp; norm_num] at this
    refine this.trans (le_of_eq ?_)
    field_simp
    norm_num
  have := abs_nonpos_iff.mp hzero
  exact overlap_differs (by linarith)

end BrodyC
end RMT
