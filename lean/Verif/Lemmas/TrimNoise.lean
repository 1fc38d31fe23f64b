import Verif.Lemmas.TrimUniform
import Verif.Lemmas.MarchenkoPasturLaw

/-! # The density of the Marchenko-Pastur law is approximated by polynomials -/

namespace RMT
namespace TrimUni
open MeasureTheory Filter Topology Polynomial Set Spec

/-- Polynomials of degree `k n` approximate `f` on `[u, v]` with an error that falls geometrically with `n`. -/
def Ap (u v : ℝ) (f : ℝ → ℝ) (k : ℕ) : Prop := ∃ a ∈ Ioo (0 : ℝ) 1, ∃ c > 0, ∀ n : ℕ, ∃ P : ℝ[X], P.natDegree ≤ k * n ∧ ∀ y ∈ Icc u v, |f y - P.eval y| ≤ c * a ^ n

variable {u v : ℝ}

theorem ap_mul {f g : ℝ → ℝ} {k l : ℕ} (hf : ContinuousOn f (Icc u v)) (hg : ContinuousOn g (Icc u v)) (h1 : Ap u v f k) (h2 : Ap u v g l) : Ap u v (fun x => f x * g x) (k + l) := by
  obtain ⟨a, ⟨ha0, ha1⟩, c, hc, h1⟩ := h1
  obtain ⟨b, ⟨hb0, hb1⟩, e, he, h2⟩ := h2
  obtain ⟨M, hM⟩ := isCompact_Icc.exists_bound_of_continuousOn hf
  obtain ⟨M', hM'⟩ := isCompact_Icc.exists_bound_of_continuousOn hg
  refine ⟨max a b, ⟨lt_max_of_lt_left ha0, max_lt ha1 hb1⟩, |M| * e + (|M'| + e) * c, by positivity, fun n => ?_⟩
  obtain ⟨P, hP, p1⟩ := h1 n
  obtain ⟨Q, hQ, q1⟩ := h2 n
  refine ⟨P * Q, natDegree_mul_le.trans ((add_le_add hP hQ).trans (by rw [add_mul])), fun y hy => ?_⟩
  have b1 := p1 y hy
  have b2 := q1 y hy
  have m1 : |f y| ≤ |M| := (hM y hy).trans (le_abs_self M)
  have m2 : |g y| ≤ |M'| := (hM' y hy).trans (le_abs_self M')
  have r1 : a ^ n ≤ max a b ^ n := pow_le_pow_left₀ ha0.le (le_max_left _ _) n
  have r2 : b ^ n ≤ max a b ^ n := pow_le_pow_left₀ hb0.le (le_max_right _ _) n
  have r3 : b ^ n ≤ 1 := pow_le_one₀ hb0.le hb1.le
  rw [eval_mul]
  have e1 : f y * g y - P.eval y * Q.eval y = f y * (g y - Q.eval y) + Q.eval y * (f y - P.eval y) := by ring
  have m3 : |Q.eval y| ≤ |M'| + e := by
    have := abs_sub_abs_le_abs_sub (Q.eval y) (g y)
    rw [abs_sub_comm] at this
    have : e * b ^ n ≤ e * 1 := mul_le_mul_of_nonneg_left r3 he.le
    linarith
  rw [e1]
  refine (abs_add_le _ _).trans ?_
  rw [abs_mul, abs_mul]
  have k1 : |f y| * |g y - Q.eval y| ≤ |M| * (e * max a b ^ n) := mul_le_mul m1 (b2.trans (mul_le_mul_of_nonneg_left r2 he.le)) (abs_nonneg _) (abs_nonneg _)
  have k2 : |Q.eval y| * |f y - P.eval y| ≤ (|M'| + e) * (c * max a b ^ n) := mul_le_mul m3 (b1.trans (mul_le_mul_of_nonneg_left r1 hc.le)) (abs_nonneg _) (by positivity)
  calc _ ≤ _ := add_le_add k1 k2
    _ = _ := by ring

theorem ap_const {f : ℝ → ℝ} {k : ℕ} (h : Ap u v f k) (t : ℝ) : Ap u v (fun x => t * f x) k := by
  obtain ⟨a, ha, c, hc, h⟩ := h
  refine ⟨a, ha, (|t| + 1) * c, by positivity, fun n => ?_⟩
  obtain ⟨P, hP, p⟩ := h n
  refine ⟨C t * P, (natDegree_C_mul_le _ _).trans hP, fun y hy => ?_⟩
  rw [eval_mul, eval_C, ← mul_sub, abs_mul, mul_assoc]
  exact mul_le_mul (by linarith) (p y hy) (abs_nonneg _) (by positivity)

theorem rpow_inside (m s : ℝ) (x : ℝ) (hm : m = (u + v) / 2) (hx : x ∈ Icc u v) : |s * (x - m)| ≤ |s| * ((v - u) / 2) := by
  rw [abs_mul]
  refine mul_le_mul_of_nonneg_left ?_ (abs_nonneg _)
  rw [abs_le]
  constructor <;> linarith [hx.1, hx.2]

theorem ap_rpow (α m s : ℝ) (hm : m = (u + v) / 2) (h : |s| * ((v - u) / 2) < 1) (huv : u < v) : Ap u v (fun x => (1 + s * (x - m)) ^ α) 1 ∧ ContinuousOn (fun x => (1 + s * (x - m)) ^ α) (Icc u v) := by
  constructor
  · obtain ⟨ρ, h1, h2⟩ := exists_between h
    have hρ0 : 0 ≤ ρ := le_trans (mul_nonneg (abs_nonneg _) (by linarith)) h1.le
    lift ρ to NNReal using hρ0
    obtain ⟨a, ha, c, hc, hb⟩ := series_approx _ _ _ (Real.one_add_rpow_hasFPowerSeriesOnBall_zero (a := α)) ρ (by exact_mod_cast h2)
    refine ⟨a, ha, c, hc, fun n => ?_⟩
    obtain ⟨P, hP, hn⟩ := hb n
    refine ⟨P.comp (C s * X + C (-s * m)), natDegree_comp_le.trans ?_, fun y hy => ?_⟩
    · calc _ ≤ n * 1 := Nat.mul_le_mul hP natDegree_linear_le
        _ = _ := mul_comm _ _
    · have h3 := rpow_inside m s y hm hy
      have := hn _ (lt_of_le_of_lt h3 h1)
      rw [eval_comp]
      simp only [eval_add, eval_mul, eval_C, eval_X]
      rw [show s * y + -s * m = s * (y - m) by ring]
      exact this
  · intro x hx
    have h3 := (abs_le.1 (rpow_inside m s x hm hx)).1
    refine ContinuousAt.continuousWithinAt ?_
    exact ContinuousAt.rpow_const (by fun_prop) (Or.inl (by
      have : 0 < 1 + s * (x - m) := by linarith
      exact this.ne'))

theorem ap_halve {f : ℝ → ℝ} {k : ℕ} (hk : k ≤ 4) (h : Ap u v f k) : Ap u v f 2 := by
  obtain ⟨a, ⟨ha0, ha1⟩, c, hc, h⟩ := h
  have hr0 : 0 < √a := Real.sqrt_pos.2 ha0
  have hr1 : √a < 1 := by rw [Real.sqrt_lt' one_pos]; simpa using ha1
  refine ⟨√a, ⟨hr0, hr1⟩, c / √a, by positivity, fun n => ?_⟩
  obtain ⟨P, hP, p⟩ := h (n / 2)
  refine ⟨P, hP.trans ?_, fun y hy => (p y hy).trans ?_⟩
  · calc k * (n / 2) ≤ 4 * (n / 2) := Nat.mul_le_mul_right _ hk
      _ ≤ 2 * n := by omega
  · have e : a ^ (n / 2) = √a ^ (2 * (n / 2)) := by rw [pow_mul, Real.sq_sqrt ha0.le]
    have e2 : √a ^ (2 * (n / 2)) * √a ≤ √a ^ n := by
      rw [← pow_succ]
      exact pow_le_pow_of_le_one hr0.le hr1.le (by omega)
    rw [e, div_mul_eq_mul_div, le_div_iff₀ hr0, mul_assoc]
    exact mul_le_mul_of_nonneg_left e2 hc.le

theorem mp_ap (q : ℝ) (hq : 0 < q) (hu : (1 - √q) ^ 2 < u) (huv : u < v) (hv : v < (1 + √q) ^ 2) : Ap u v (mpDensity q) 2 ∧ ContinuousOn (mpDensity q) (Icc u v) ∧ ∀ x ∈ Icc u v, 0 < mpDensity q x := by
  set A := (1 - √q) ^ 2 with hA
  set B := (1 + √q) ^ 2 with hB
  have hA0 : 0 ≤ A := sq_nonneg _
  set m := (u + v) / 2 with hm
  have b1 : 0 < B - m := by linarith
  have b2 : 0 < m - A := by linarith
  have b3 : 0 < m := by linarith
  have s1 : |-(1 / (B - m))| * ((v - u) / 2) < 1 := by
    rw [abs_neg, abs_of_pos (by positivity), div_mul_eq_mul_div, one_mul, div_lt_one b1]
    linarith
  have s2 : |1 / (m - A)| * ((v - u) / 2) < 1 := by
    rw [abs_of_pos (by positivity), div_mul_eq_mul_div, one_mul, div_lt_one b2]
    linarith
  have s3 : |1 / m| * ((v - u) / 2) < 1 := by
    rw [abs_of_pos (by positivity), div_mul_eq_mul_div, one_mul, div_lt_one b3]
    linarith
  obtain ⟨p1, c1⟩ := ap_rpow (1 / 2) m _ hm s1 huv
  obtain ⟨p2, c2⟩ := ap_rpow (1 / 2) m _ hm s2 huv
  obtain ⟨p3, c3⟩ := ap_rpow (-1) m _ hm s3 huv
  have p := ap_const (ap_mul (c1.mul c2) c3 (ap_mul c1 c2 p1 p2) p3) (√(B - m) * √(m - A) / (2 * Real.pi * q * m))
  have c : ContinuousOn _ (Icc u v) := ((c1.mul c2).mul c3).const_smul (√(B - m) * √(m - A) / (2 * Real.pi * q * m))
  have e : ∀ x ∈ Icc u v, mpDensity q x = √(B - m) * √(m - A) / (2 * Real.pi * q * m) * ((1 + -(1 / (B - m)) * (x - m)) ^ (1 / 2 : ℝ) * (1 + 1 / (m - A) * (x - m)) ^ (1 / 2 : ℝ) * (1 + 1 / m * (x - m)) ^ (-1 : ℝ)) := by
    intro x hx
    have hx0 : 0 < x := by linarith [hx.1]
    have t1 : 1 + -(1 / (B - m)) * (x - m) = (B - x) / (B - m) := by
      field_simp
      ring
    have t2 : 1 + 1 / (m - A) * (x - m) = (x - A) / (m - A) := by
      field_simp
      ring
    have t3 : 1 + 1 / m * (x - m) = x / m := by
      field_simp
      ring
    rw [t1, t2, t3, ← Real.sqrt_eq_rpow, ← Real.sqrt_eq_rpow, Real.rpow_neg_one, Real.sqrt_div (by linarith [hx.2]), Real.sqrt_div (by linarith [hx.1]), mpDensity, Real.sqrt_mul (by linarith [hx.2])]
    have z1 : √(B - m) ≠ 0 := (Real.sqrt_pos.2 b1).ne'
    have z2 : √(m - A) ≠ 0 := (Real.sqrt_pos.2 b2).ne'
    field_simp
    rfl
  refine ⟨ap_halve (by norm_num) (k := 1 + 1 + 1) ?_, ?_, fun x hx => ?_⟩
  · obtain ⟨a, ha, c, hc, h⟩ := p
    refine ⟨a, ha, c, hc, fun n => ?_⟩
    obtain ⟨P, hP, p⟩ := h n
    exact ⟨P, hP, fun y hy => by rw [e y hy]; exact p y hy⟩
  · refine c.congr fun x hx => ?_
    rw [e x hx]
    rfl
  · have hx0 : 0 < x := by linarith [hx.1]
    have h1 : 0 < (B - x) * (x - A) := mul_pos (by linarith [hx.2]) (by linarith [hx.1])
    have := Real.sqrt_pos.mpr h1
    unfold mpDensity
    positivity

theorem mp_analytic (q : ℝ) (hq : 0 < q) (hu : (1 - √q) ^ 2 < u) (huv : u < v) (hv : v < (1 + √q) ^ 2) : AnalyticLaw (mpLaw q) (fun x => mpDensity q (max u (min v x))) u v := by
  obtain ⟨p, c, pos⟩ := mp_ap q hq hu huv hv
  have hcl : ∀ x, max u (min v x) ∈ Icc u v := fun x => ⟨le_max_left _ _, max_le huv.le (min_le_left _ _)⟩
  have hid : ∀ x ∈ Icc u v, max u (min v x) = x := fun x hx => by rw [min_eq_right hx.2, max_eq_right hx.1]
  have hcont : Continuous fun x => mpDensity q (max u (min v x)) := c.comp_continuous (by fun_prop) hcl
  refine ⟨?_, hcont, fun x => (pos _ (hcl x)).le, ?_, ?_⟩
  · have hs : Icc u v ⊆ Ioi 0 := fun x hx => lt_of_lt_of_le (lt_of_le_of_lt (sq_nonneg _) hu) hx.1
    rw [mpLaw, restrict_withDensity measurableSet_Icc, Measure.restrict_restrict measurableSet_Icc, inter_eq_self_of_subset_left hs]
    refine withDensity_congr_ae ?_
    filter_upwards [ae_restrict_mem measurableSet_Icc] with x hx
    rw [hid x hx]
  · obtain ⟨x, hx, hmin⟩ := isCompact_Icc.exists_isMinOn (nonempty_Icc.2 huv.le) c
    exact ⟨_, pos x hx, fun y hy => hmin (hcl y)⟩
  · obtain ⟨a, ha, c, hc, h⟩ := p
    refine ⟨a, ha, c, hc, fun n => ?_⟩
    obtain ⟨P, hP, p⟩ := h n
    exact ⟨P, hP, fun y hy => by simpa only [hid y hy] using p y hy⟩

end TrimUni
end RMT
