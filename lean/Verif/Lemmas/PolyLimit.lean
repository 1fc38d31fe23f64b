import Verif.Lemmas.WeakLimit
import Verif.Props.SpacingMeans
import Verif.Spec.PolyFit
import Verif.Lemmas.Glivenko
import Verif.Lemmas.LeastSquares
import Mathlib.LinearAlgebra.FiniteDimensional.Basic

/-!
# Least-squares polynomials of samples converge

Deterministic part: if the distribution function and the moments of a list are close to those of a law without atoms, the least-squares polynomial for the points (level, rank) is close to the best
approximation of the distribution function in the mean square.
-/

namespace RMT.PolyLim
open MeasureTheory ProbabilityTheory Spec

variable {d : ℕ}

/-- The polynomial with coefficients `c`. -/
noncomputable def pv (c : Fin (d + 1) → ℝ) (x : ℝ) : ℝ := ∑ j, c j * x ^ (j : ℕ)

/-- The quadratic form of the moments `m`. -/
noncomputable def form (m : ℕ → ℝ) (c : Fin (d + 1) → ℝ) : ℝ := ∑ j : Fin (d + 1), ∑ k : Fin (d + 1), m (j + k) * (c j * c k)

/-- The mean squared error as a function of the coefficients. -/
noncomputable def Q (m b : ℕ → ℝ) (s : ℝ) (c : Fin (d + 1) → ℝ) : ℝ := s - 2 * ∑ j : Fin (d + 1), b j * c j + form m c

theorem sq_expand (c : Fin (d + 1) → ℝ) (x y : ℝ) : (y - pv c x) ^ 2 = Q (fun k => x ^ k) (fun k => y * x ^ k) (y ^ 2) c := by
  have e : pv c x ^ 2 = form (fun k => x ^ k) c := by
    rw [sq, pv, Finset.sum_mul_sum, form]
    refine Finset.sum_congr rfl fun j _ => Finset.sum_congr rfl fun k _ => ?_
    rw [pow_add]; ring
  have e2 : y * pv c x = ∑ j : Fin (d + 1), y * x ^ (j : ℕ) * c j := by
    rw [pv, Finset.mul_sum]
    exact Finset.sum_congr rfl fun j _ => by ring
  unfold Q
  rw [← e, ← e2]
  ring

/-- The `ℓ¹` size of coefficients. -/
noncomputable def N1 (c : Fin (d + 1) → ℝ) : ℝ := ∑ j, |c j|

theorem N1_nonneg (c : Fin (d + 1) → ℝ) : 0 ≤ N1 c := Finset.sum_nonneg fun _ _ => abs_nonneg _

theorem N1_sub (c q : Fin (d + 1) → ℝ) : N1 c ≤ N1 q + N1 (c - q) := by
  unfold N1
  rw [← Finset.sum_add_distrib]
  refine Finset.sum_le_sum fun j _ => ?_
  have := abs_add_le (q j) (c j - q j)
  simpa using this

theorem Q_close (m b m' b' : ℕ → ℝ) (s s' δ : ℝ) (hm : ∀ k ≤ 2 * d, |m' k - m k| ≤ δ) (hb : ∀ k ≤ d, |b' k - b k| ≤ δ) (hs : |s' - s| ≤ δ) (c : Fin (d + 1) → ℝ) :
    |Q m' b' s' c - Q m b s c| ≤ δ * (1 + N1 c) ^ 2 := by
  have e : Q m' b' s' c - Q m b s c = (s' - s) - 2 * ∑ j : Fin (d + 1), (b' j - b j) * c j + ∑ j : Fin (d + 1), ∑ k : Fin (d + 1), (m' (j + k) - m (j + k)) * (c j * c k) := by
    simp only [Q, form, sub_mul, Finset.sum_sub_distrib]
    ring
  have h1 : |∑ j : Fin (d + 1), (b' j - b j) * c j| ≤ δ * N1 c := by
    rw [N1, Finset.mul_sum]
    refine (Finset.abs_sum_le_sum_abs _ _).trans (Finset.sum_le_sum fun j _ => ?_)
    rw [abs_mul]
    exact mul_le_mul_of_nonneg_right (hb j (by omega)) (abs_nonneg _)
  have h2 : |∑ j : Fin (d + 1), ∑ k : Fin (d + 1), (m' (j + k) - m (j + k)) * (c j * c k)| ≤ δ * N1 c ^ 2 := by
    rw [sq, N1, Finset.sum_mul_sum, Finset.mul_sum]
    refine (Finset.abs_sum_le_sum_abs _ _).trans (Finset.sum_le_sum fun j _ => ?_)
    rw [Finset.mul_sum]
    refine (Finset.abs_sum_le_sum_abs _ _).trans (Finset.sum_le_sum fun k _ => ?_)
    rw [abs_mul, abs_mul]
    exact mul_le_mul_of_nonneg_right (hm _ (by omega)) (by positivity)
  rw [e]
  have a1 := abs_le.mp h1
  have a2 := abs_le.mp h2
  have a3 := abs_le.mp hs
  rw [abs_le]
  constructor <;> nlinarith [a1.1, a1.2, a2.1, a2.2, a3.1, a3.2]

/-- Completing the square at a solution of the normal equations. -/
theorem Q_square (m b : ℕ → ℝ) (s : ℝ) (q : Fin (d + 1) → ℝ) (hq : ∀ j : Fin (d + 1), ∑ k : Fin (d + 1), m (j + k) * q k = b j) (c : Fin (d + 1) → ℝ) :
    Q m b s c = Q m b s q + form m (c - q) := by
  have e1 : ∀ v : Fin (d + 1) → ℝ, ∑ j : Fin (d + 1), b j * v j = ∑ j : Fin (d + 1), ∑ k : Fin (d + 1), m (j + k) * (v j * q k) := fun v => by
    refine Finset.sum_congr rfl fun j _ => ?_
    rw [← hq j, Finset.sum_mul]
    exact Finset.sum_congr rfl fun k _ => by ring
  have e2 : ∑ j : Fin (d + 1), ∑ k : Fin (d + 1), m (j + k) * (c j * q k) = ∑ j : Fin (d + 1), ∑ k : Fin (d + 1), m (j + k) * (q j * c k) := by
    rw [Finset.sum_comm]
    refine Finset.sum_congr rfl fun j _ => Finset.sum_congr rfl fun k _ => ?_
    rw [add_comm (k : ℕ) (j : ℕ)]; ring
  have e3 : form m (c - q) = form m c - ∑ j : Fin (d + 1), ∑ k : Fin (d + 1), m (j + k) * (c j * q k) - ∑ j : Fin (d + 1), ∑ k : Fin (d + 1), m (j + k) * (q j * c k) + form m q := by
    unfold form
    simp only [← Finset.sum_sub_distrib, ← Finset.sum_add_distrib]
    refine Finset.sum_congr rfl fun j _ => Finset.sum_congr rfl fun k _ => ?_
    simp only [Pi.sub_apply]
    ring
  rw [e3, ← e2]
  simp only [Q, e1 c, e1 q]
  have : form m q = ∑ j : Fin (d + 1), ∑ k : Fin (d + 1), m (j + k) * (q j * q k) := rfl
  rw [this]
  ring

theorem form_smul (m : ℕ → ℝ) (t : ℝ) (c : Fin (d + 1) → ℝ) : form m (t • c) = t ^ 2 * form m c := by
  unfold form
  simp only [Finset.mul_sum]
  refine Finset.sum_congr rfl fun j _ => Finset.sum_congr rfl fun k _ => ?_
  simp only [Pi.smul_apply, smul_eq_mul]
  ring

theorem N1_smul (t : ℝ) (c : Fin (d + 1) → ℝ) : N1 (t • c) = |t| * N1 c := by
  unfold N1
  simp only [Pi.smul_apply, smul_eq_mul, abs_mul, Finset.mul_sum]

/-- A positive definite form is bounded below. -/
theorem form_lower (m : ℕ → ℝ) (hpos : ∀ c : Fin (d + 1) → ℝ, c ≠ 0 → 0 < form m c) : ∃ lam : ℝ, 0 < lam ∧ ∀ c : Fin (d + 1) → ℝ, lam * N1 c ^ 2 ≤ form m c := by
  have hcont : Continuous fun c : Fin (d + 1) → ℝ => form m c := by unfold form; fun_prop
  have hne : (Metric.sphere (0 : Fin (d + 1) → ℝ) 1).Nonempty := ⟨fun _ => 1, by
    rw [mem_sphere_zero_iff_norm]
    exact pi_norm_const (1 : ℝ) |>.trans (by simp)⟩
  obtain ⟨c0, hc0, hmin⟩ := (isCompact_sphere (0 : Fin (d + 1) → ℝ) 1).exists_isMinOn hne hcont.continuousOn
  have hc0' : c0 ≠ 0 := by
    rintro rfl
    rw [mem_sphere_zero_iff_norm, norm_zero] at hc0
    exact zero_ne_one hc0
  have h0 := hpos c0 hc0'
  refine ⟨form m c0 / (d + 1) ^ 2, by positivity, fun c => ?_⟩
  by_cases hc : c = 0
  · subst hc
    simp [N1, form]
  have hn : 0 < ‖c‖ := norm_pos_iff.mpr hc
  have h1 : form m c0 ≤ form m (‖c‖⁻¹ • c) := hmin (by
    rw [mem_sphere_zero_iff_norm, norm_smul, norm_inv, norm_norm, inv_mul_cancel₀ hn.ne'])
  rw [form_smul] at h1
  have h2 : N1 c ≤ (d + 1) * ‖c‖ := by
    unfold N1
    refine (Finset.sum_le_card_nsmul _ _ ‖c‖ fun j _ => ?_).trans (by simp)
    exact norm_le_pi_norm c j
  have h3 : N1 c ^ 2 ≤ ((d + 1) * ‖c‖) ^ 2 := pow_le_pow_left₀ (N1_nonneg c) h2 2
  have h4 : form m c0 * ‖c‖ ^ 2 ≤ form m c := by
    rw [inv_pow, inv_mul_eq_div, le_div_iff₀ (by positivity)] at h1
    exact h1
  calc form m c0 / (d + 1) ^ 2 * N1 c ^ 2 ≤ form m c0 / (d + 1) ^ 2 * ((d + 1) * ‖c‖) ^ 2 := mul_le_mul_of_nonneg_left h3 (by positivity)
    _ = form m c0 * ‖c‖ ^ 2 := by field_simp
    _ ≤ form m c := h4

/-- The normal equations of a positive definite form have a solution. -/
theorem normal_solution (m b : ℕ → ℝ) (hpos : ∀ c : Fin (d + 1) → ℝ, c ≠ 0 → 0 < form m c) : ∃ q : Fin (d + 1) → ℝ, ∀ j : Fin (d + 1), ∑ k : Fin (d + 1), m (j + k) * q k = b j := by
  let T : (Fin (d + 1) → ℝ) →ₗ[ℝ] (Fin (d + 1) → ℝ) :=
    { toFun := fun q j => ∑ k : Fin (d + 1), m (j + k) * q k
      map_add' := fun x y => by
        ext j
        simp only [Pi.add_apply, mul_add, Finset.sum_add_distrib]
      map_smul' := fun t x => by
        ext j
        simp only [Pi.smul_apply, smul_eq_mul, RingHom.id_apply, Finset.mul_sum]
        exact Finset.sum_congr rfl fun k _ => by ring }
  have hinj : Function.Injective T := by
    rw [← LinearMap.ker_eq_bot, LinearMap.ker_eq_bot']
    intro c hc
    by_contra h0
    have h1 := hpos c h0
    have h2 : form m c = ∑ j, c j * T c j := by
      unfold form
      refine Finset.sum_congr rfl fun j _ => ?_
      change _ = c j * ∑ k : Fin (d + 1), m (j + k) * c k
      rw [Finset.mul_sum]
      exact Finset.sum_congr rfl fun k _ => by ring
    rw [h2, hc] at h1
    simp at h1
  obtain ⟨q, hq⟩ := (LinearMap.injective_iff_surjective.mp hinj) (fun j => b j)
  exact ⟨q, fun j => congrFun hq j⟩

/-- Near a strongly convex quadratic, minimisers and minima are near. -/
theorem minimiser_close (m b : ℕ → ℝ) (s : ℝ) (hpos : ∀ c : Fin (d + 1) → ℝ, c ≠ 0 → 0 < form m c) (q : Fin (d + 1) → ℝ)
    (hq : ∀ j : Fin (d + 1), ∑ k : Fin (d + 1), m (j + k) * q k = b j) (ε : ℝ) (hε : 0 < ε) :
    ∃ δ : ℝ, 0 < δ ∧ ∀ (m' b' : ℕ → ℝ) (s' : ℝ), (∀ k ≤ 2 * d, |m' k - m k| ≤ δ) → (∀ k ≤ d, |b' k - b k| ≤ δ) → |s' - s| ≤ δ →
      ∀ c : Fin (d + 1) → ℝ, Q m' b' s' c ≤ Q m' b' s' q → N1 (c - q) ≤ ε ∧ |Q m' b' s' c - Q m b s q| ≤ ε := by
  obtain ⟨lam, hl, hlow⟩ := form_lower m hpos
  set A := 1 + N1 q with hA
  have hA1 : 1 ≤ A := by have := N1_nonneg q; linarith
  set e := min ε 1 with he
  have he0 : 0 < e := lt_min hε one_pos
  refine ⟨min (lam / 4) (min (lam * e ^ 2 / (6 * A ^ 2)) (e / (A + 1) ^ 2)), by positivity, fun m' b' s' hm hb hs c hc => ?_⟩
  set δ := min (lam / 4) (min (lam * e ^ 2 / (6 * A ^ 2)) (e / (A + 1) ^ 2)) with hδ
  have hδ0 : 0 < δ := by positivity
  have d1 : δ ≤ lam / 4 := min_le_left _ _
  have d2 : δ * (6 * A ^ 2) ≤ lam * e ^ 2 := by
    rw [← le_div_iff₀ (by positivity)]
    exact (min_le_right _ _).trans (min_le_left _ _)
  have d3 : δ * (A + 1) ^ 2 ≤ e := by
    rw [← le_div_iff₀ (by positivity)]
    exact (min_le_right _ _).trans (min_le_right _ _)
  set v := N1 (c - q) with hv
  have hv0 : 0 ≤ v := N1_nonneg _
  have hcv : 1 + N1 c ≤ A + v := by have := N1_sub c q; linarith
  have hc0 := N1_nonneg c
  have hc2 : (1 + N1 c) ^ 2 ≤ (A + v) ^ 2 := pow_le_pow_left₀ (by positivity) hcv 2
  have k1 := abs_le.mp (Q_close m b m' b' s s' δ hm hb hs c)
  have k2 := abs_le.mp (Q_close m b m' b' s s' δ hm hb hs q)
  have k3 := Q_square m b s q hq c
  have k4 := hlow (c - q)
  have k5 : δ * (1 + N1 c) ^ 2 ≤ δ * (A + v) ^ 2 := mul_le_mul_of_nonneg_left hc2 hδ0.le
  have k6 : δ * (A + v) ^ 2 ≤ δ * (2 * A ^ 2 + 2 * v ^ 2) := mul_le_mul_of_nonneg_left (by nlinarith [sq_nonneg (A - v)]) hδ0.le
  have k7 : lam * v ^ 2 ≤ δ * A ^ 2 + δ * (2 * A ^ 2 + 2 * v ^ 2) := by
    have := k2.2
    have := k1.1
    rw [← hv] at k4
    linarith
  have k8 : δ * v ^ 2 ≤ lam / 4 * v ^ 2 := mul_le_mul_of_nonneg_right d1 (sq_nonneg v)
  have k9 : lam * v ^ 2 ≤ lam * e ^ 2 := by
    have : δ * A ^ 2 + δ * (2 * A ^ 2 + 2 * v ^ 2) = δ * (6 * A ^ 2) / 2 + 2 * (δ * v ^ 2) := by ring
    linarith
  have hve : v ≤ e := by
    have := le_of_mul_le_mul_left k9 hl
    exact (sq_le_sq₀ hv0 he0.le).mp this
  have hv1 : v ≤ 1 := hve.trans (min_le_right _ _)
  have h10 : δ * (A + v) ^ 2 ≤ e := by
    refine le_trans (mul_le_mul_of_nonneg_left (pow_le_pow_left₀ (by positivity) ?_ 2) hδ0.le) d3
    linarith
  have h11 : δ * A ^ 2 ≤ e := by
    refine le_trans (mul_le_mul_of_nonneg_left (pow_le_pow_left₀ (by positivity) ?_ 2) hδ0.le) d3
    linarith
  have h12 : 0 ≤ form m (c - q) := le_trans (by positivity) (hlow (c - q))
  have hεe : e ≤ ε := min_le_left _ _
  refine ⟨hve.trans hεe, ?_⟩
  rw [abs_le]
  have := k1.1
  have := k2.2
  constructor <;> linarith

/-! ## Laws -/

/-- The polynomial with coefficients `c`. -/
noncomputable def toP (c : Fin (d + 1) → ℝ) : Polynomial ℝ := ∑ j : Fin (d + 1), Polynomial.C (c j) * Polynomial.X ^ (j : ℕ)

theorem toP_eval (c : Fin (d + 1) → ℝ) (x : ℝ) : (toP c).eval x = pv c x := by
  simp [toP, pv, Polynomial.eval_finsetSum]

theorem toP_coeff (c : Fin (d + 1) → ℝ) (i : Fin (d + 1)) : (toP c).coeff i = c i := by
  simp only [toP, Polynomial.finsetSum_coeff, Polynomial.coeff_C_mul, Polynomial.coeff_X_pow]
  rw [Finset.sum_eq_single i]
  · simp
  · intro j _ hj
    rw [if_neg (fun h => hj (Fin.ext h.symm)), mul_zero]
  · simp

theorem toP_degree (c : Fin (d + 1) → ℝ) : (toP c).natDegree ≤ d := by
  refine Polynomial.natDegree_sum_le_of_forall_le _ _ fun j _ => ?_
  exact (Polynomial.natDegree_C_mul_X_pow_le _ _).trans (by omega)

theorem toP_surj (p : Polynomial ℝ) (hp : p.natDegree ≤ d) : toP (fun j : Fin (d + 1) => p.coeff j) = p := by
  ext i
  by_cases hi : i < d + 1
  · exact toP_coeff (fun j : Fin (d + 1) => p.coeff j) ⟨i, hi⟩
  · rw [Polynomial.coeff_eq_zero_of_natDegree_lt (lt_of_le_of_lt (toP_degree _) (by omega)), Polynomial.coeff_eq_zero_of_natDegree_lt (by omega)]

theorem pv_cont (c : Fin (d + 1) → ℝ) : Continuous (pv c) := by unfold pv; fun_prop

variable (μ : Measure ℝ)

/-- The moments of a law. -/
noncomputable def mom (k : ℕ) : ℝ := ∫ x, x ^ k ∂μ

theorem form_integral (hm : ∀ k : ℕ, Integrable (fun x : ℝ => x ^ k) μ) (c : Fin (d + 1) → ℝ) : form (mom μ) c = ∫ x, pv c x ^ 2 ∂μ := by
  have e : ∀ x, pv c x ^ 2 = ∑ j : Fin (d + 1), ∑ k : Fin (d + 1), x ^ ((j : ℕ) + (k : ℕ)) * (c j * c k) := fun x => by
    have := sq_expand c x 0
    simp only [Q, zero_sub, zero_mul, Finset.sum_const_zero, mul_zero, sub_zero, neg_sq, form] at this
    rw [this]; simp
  simp only [e]
  rw [integral_finsetSum _ fun j _ => integrable_finsetSum _ fun k _ => (hm _).mul_const _]
  unfold form mom
  refine Finset.sum_congr rfl fun j _ => ?_
  rw [integral_finsetSum _ fun k _ => (hm _).mul_const _]
  exact Finset.sum_congr rfl fun k _ => (integral_mul_const _ _).symm

theorem pv_sq_integrable (hm : ∀ k : ℕ, Integrable (fun x : ℝ => x ^ k) μ) (c : Fin (d + 1) → ℝ) : Integrable (fun x => pv c x ^ 2) μ := by
  have e : (fun x => pv c x ^ 2) = fun x => ∑ j : Fin (d + 1), ∑ k : Fin (d + 1), x ^ ((j : ℕ) + (k : ℕ)) * (c j * c k) := funext fun x => by
    have := sq_expand c x 0
    simp only [Q, zero_sub, zero_mul, Finset.sum_const_zero, mul_zero, sub_zero, neg_sq, form] at this
    rw [this]; simp
  rw [e]
  exact integrable_finsetSum _ fun j _ => integrable_finsetSum _ fun k _ => (hm _).mul_const _

/-- The moments of a law without atoms form a positive definite form. -/
theorem form_pos [IsProbabilityMeasure μ] (ha : ∀ s, μ {s} = 0) (hm : ∀ k : ℕ, Integrable (fun x : ℝ => x ^ k) μ) (c : Fin (d + 1) → ℝ) (hc : c ≠ 0) : 0 < form (mom μ) c := by
  rw [form_integral μ hm]
  refine lt_of_le_of_ne (integral_nonneg fun x => sq_nonneg _) fun h0 => ?_
  have h1 := (integral_eq_zero_iff_of_nonneg (fun x => sq_nonneg (pv c x)) (pv_sq_integrable μ hm c)).mp h0.symm
  have hne : toP c ≠ 0 := fun h => hc (by
    ext i
    rw [← toP_coeff c i, h]; simp)
  have h2 : μ (↑(toP c).roots.toFinset : Set ℝ) = 0 := by
    have : NullSingletonClass μ := ⟨ha⟩
    exact (Finset.finite_toSet _).measure_zero μ
  have h3 : ∀ᵐ x ∂μ, x ∉ (↑(toP c).roots.toFinset : Set ℝ) := measure_eq_zero_iff_ae_notMem.mp h2
  obtain ⟨x, hx, hx'⟩ := (h1.and h3).exists
  apply hx'
  simp only [Finset.mem_coe, Multiset.mem_toFinset, Polynomial.mem_roots hne, Polynomial.IsRoot]
  rw [toP_eval]
  simpa using hx

/-- The cut-off. -/
noncomputable def cut (R x : ℝ) : ℝ := max 0 (min 1 (R + 1 - |x|))

theorem cut_range (R x : ℝ) : 0 ≤ cut R x ∧ cut R x ≤ 1 := ⟨le_max_left _ _, max_le zero_le_one (min_le_left _ _)⟩

theorem cut_tail (R x : ℝ) (hR : 1 ≤ R) (k : ℕ) : |x| ^ k * (1 - cut R x) ≤ x ^ (2 * k + 2) / R := by
  have hpow : x ^ (2 * k + 2) = |x| ^ (2 * k + 2) := by rw [← abs_pow]; exact (abs_of_nonneg (Even.pow_nonneg ⟨k + 1, by ring⟩ x)).symm
  rw [hpow]
  by_cases hx : |x| ≤ R
  · have : cut R x = 1 := by
      unfold cut
      rw [min_eq_left (by linarith), max_eq_right zero_le_one]
    rw [this, sub_self, mul_zero]
    positivity
  · push Not at hx
    have h1 : 1 ≤ |x| := hR.trans hx.le
    calc |x| ^ k * (1 - cut R x) ≤ |x| ^ k * 1 := mul_le_mul_of_nonneg_left (by linarith [(cut_range R x).1]) (by positivity)
      _ ≤ |x| ^ (2 * k + 2) / R := by
        rw [le_div_iff₀ (by linarith), mul_one]
        calc |x| ^ k * R ≤ |x| ^ k * |x| ^ 1 := mul_le_mul_of_nonneg_left (by rw [pow_one]; exact hx.le) (by positivity)
          _ = |x| ^ (k + 1) := (pow_add _ _ _).symm
          _ ≤ |x| ^ (2 * k + 2) := pow_le_pow_right₀ h1 (by omega)

theorem cut_bound (R x : ℝ) (hR : 0 ≤ R) (k : ℕ) : |x| ^ k * cut R x ≤ (R + 1) ^ k := by
  by_cases hx : |x| ≤ R + 1
  · calc |x| ^ k * cut R x ≤ |x| ^ k * 1 := mul_le_mul_of_nonneg_left (cut_range R x).2 (by positivity)
      _ ≤ (R + 1) ^ k := by rw [mul_one]; exact pow_le_pow_left₀ (abs_nonneg _) hx k
  · have : cut R x = 0 := by
      unfold cut
      rw [max_eq_left]
      exact (min_le_right _ _).trans (by linarith)
    rw [this, mul_zero]
    positivity

/-- Means of functions of polynomial growth: laws whose distribution function is close to that of `μ` and whose moments are bounded give nearly the same mean. -/
theorem means_growth [IsProbabilityMeasure μ] (f : ℝ → ℝ) (hf : Continuous f) (k : ℕ) (hfk : ∀ x, |f x| ≤ |x| ^ k) (hm : Integrable (fun x : ℝ => x ^ (2 * k + 2)) μ) (hfi : Integrable f μ) (ε : ℝ) (hε : 0 < ε) :
    ∃ η : ℝ, 0 < η ∧ ∀ ν : Measure ℝ, IsProbabilityMeasure ν → (∀ t, |ν.real (Set.Iic t) - μ.real (Set.Iic t)| ≤ η) → Integrable (fun x : ℝ => x ^ (2 * k + 2)) ν → Integrable f ν →
      ∫ x, x ^ (2 * k + 2) ∂ν ≤ (∫ x, x ^ (2 * k + 2) ∂μ) + 1 → |(∫ x, f x ∂ν) - ∫ x, f x ∂μ| < ε := by
  set M := (∫ x, x ^ (2 * k + 2) ∂μ) + 1 with hM
  have hM0 : 0 < M := by
    have : 0 ≤ ∫ x, x ^ (2 * k + 2) ∂μ := integral_nonneg fun x => Even.pow_nonneg ⟨k + 1, by ring⟩ x
    linarith
  set R := max 1 (4 * M / ε) with hR
  have hR1 : 1 ≤ R := le_max_left _ _
  have hRM : M / R ≤ ε / 4 := by
    rw [div_le_iff₀ (by linarith)]
    have : 4 * M / ε ≤ R := le_max_right _ _
    rw [div_le_iff₀ hε] at this
    linarith
  have hcutc : Continuous (cut R) := by unfold cut; fun_prop
  obtain ⟨η, hη, hcl⟩ := Weak.means_close μ (fun x => f x * cut R x) (hf.mul hcutc) ((R + 1) ^ k) (fun x => by
    rw [abs_mul, abs_of_nonneg (cut_range R x).1]
    exact (mul_le_mul_of_nonneg_right (hfk x) (cut_range R x).1).trans (cut_bound R x (by linarith) k)) (ε / 4) (by positivity)
  refine ⟨η, hη, fun ν hν hc hi hfi' hb => ?_⟩
  have tail : ∀ ρ : Measure ℝ, IsProbabilityMeasure ρ → Integrable (fun x : ℝ => x ^ (2 * k + 2)) ρ → Integrable f ρ → ∫ x, x ^ (2 * k + 2) ∂ρ ≤ M →
      |(∫ x, f x ∂ρ) - ∫ x, f x * cut R x ∂ρ| ≤ ε / 4 := by
    intro ρ hρ h1 h2 h3
    have h2' : Integrable (fun x => f x * cut R x) ρ := h2.mono (hf.mul hcutc).aestronglyMeasurable (Filter.Eventually.of_forall fun x => by
      rw [norm_mul, Real.norm_eq_abs (cut R x), abs_of_nonneg (cut_range R x).1]
      exact mul_le_of_le_one_right (norm_nonneg _) (cut_range R x).2)
    rw [← integral_sub h2 h2', ← Real.norm_eq_abs]
    refine (norm_integral_le_of_norm_le (h1.div_const R) (Filter.Eventually.of_forall fun x => ?_)).trans ?_
    · rw [Real.norm_eq_abs]
      have : f x - f x * cut R x = f x * (1 - cut R x) := by ring
      rw [this, abs_mul, abs_of_nonneg (a := 1 - cut R x) (by linarith [(cut_range R x).2])]
      exact (mul_le_mul_of_nonneg_right (hfk x) (by linarith [(cut_range R x).2])).trans (cut_tail R x hR1 k)
    · rw [integral_div]
      exact (div_le_div_of_nonneg_right h3 (by linarith)).trans hRM
  have t1 := abs_le.mp (tail μ inferInstance hm hfi (by linarith))
  have t2 := abs_le.mp (tail ν hν hi hfi' hb)
  have t3 := abs_lt.mp (hcl ν hν hc)
  rw [abs_lt]
  constructor <;> linarith

/-! ## Lists -/

theorem mean_Q {n : ℕ} (x y : Fin n → ℝ) (c : Fin (d + 1) → ℝ) :
    (∑ i, (y i - pv c (x i)) ^ 2) / n = Q (fun k => (∑ i, x i ^ k) / n) (fun k => (∑ i, y i * x i ^ k) / n) ((∑ i, y i ^ 2) / n) c := by
  simp only [sq_expand]
  unfold Q form
  rw [Finset.sum_add_distrib, Finset.sum_sub_distrib, ← Finset.mul_sum, Finset.sum_comm, add_div, sub_div, mul_div_assoc]
  congr 1
  · congr 2
    rw [Finset.sum_div]
    refine Finset.sum_congr rfl fun j _ => ?_
    rw [← Finset.sum_mul, div_mul_eq_mul_div]
  · rw [Finset.sum_comm, Finset.sum_div]
    refine Finset.sum_congr rfl fun j _ => ?_
    rw [Finset.sum_comm, Finset.sum_div]
    refine Finset.sum_congr rfl fun k _ => ?_
    rw [← Finset.sum_mul, div_mul_eq_mul_div]

/-- The means entering the normal equations of the limit. -/
noncomputable def cross (k : ℕ) : ℝ := ∫ x, cdf μ x * x ^ k ∂μ

/-- The second moment of the rank. -/
noncomputable def rankSq : ℝ := ∫ x, cdf μ x ^ 2 ∂μ

theorem empirical_integrable (l : List ℝ) (f : ℝ → ℝ) : Integrable f (Weak.empiricalLaw l) := by
  unfold Weak.empiricalLaw
  refine Integrable.smul_measure ?_ (by simp)
  rw [integrable_finsetSum_measure]
  intro i _
  exact integrable_dirac (by simp)

theorem cross_integrable [IsProbabilityMeasure μ] (ha : ∀ s, μ {s} = 0) (hm : ∀ k : ℕ, Integrable (fun x : ℝ => x ^ k) μ) (k : ℕ) : Integrable (fun x => cdf μ x * x ^ k) μ := by
  refine (hm k).mono ((BrodyC.cdf_continuous ha).mul (continuous_pow k)).aestronglyMeasurable (Filter.Eventually.of_forall fun x => ?_)
  rw [norm_mul, Real.norm_eq_abs, abs_of_nonneg (cdf_nonneg μ x)]
  exact mul_le_of_le_one_left (norm_nonneg _) (cdf_le_one μ x)

/-- The means of the data are close to those of the limit. -/
theorem data_close [IsProbabilityMeasure μ] (ha : ∀ s, μ {s} = 0) (hm : ∀ k : ℕ, Integrable (fun x : ℝ => x ^ k) μ) (d : ℕ) (δ : ℝ) (hδ : 0 < δ) :
    ∃ η : ℝ, 0 < η ∧ ∃ n0 : ℕ, ∀ l : List ℝ, Ascending l → n0 ≤ l.length → l ≠ [] → (∀ t, |(l.countP (fun x => decide (x ≤ t)) : ℝ) / l.length - cdf μ t| ≤ η) →
      (∀ k ≤ 2 * d + 2, |(l.map fun x : ℝ => x ^ k).sum / l.length - mom μ k| ≤ η) →
      (∀ k ≤ d, |(∑ i : Fin l.length, ((i : ℕ) + 1 : ℝ) / l.length * l[i] ^ k) / l.length - cross μ k| ≤ δ) ∧
      |(∑ i : Fin l.length, (((i : ℕ) + 1 : ℝ) / l.length) ^ 2) / l.length - rankSq μ| ≤ δ := by
  have hFc := BrodyC.cdf_continuous ha
  have hF0 := cdf_nonneg μ
  have hF1 := cdf_le_one μ
  have h1 : ∀ k, ∃ η : ℝ, 0 < η ∧ ∀ ν : Measure ℝ, IsProbabilityMeasure ν → (∀ t, |ν.real (Set.Iic t) - μ.real (Set.Iic t)| ≤ η) → Integrable (fun x : ℝ => x ^ (2 * k + 2)) ν →
      Integrable (fun x => cdf μ x * x ^ k) ν → ∫ x, x ^ (2 * k + 2) ∂ν ≤ (∫ x, x ^ (2 * k + 2) ∂μ) + 1 → |(∫ x, cdf μ x * x ^ k ∂ν) - ∫ x, cdf μ x * x ^ k ∂μ| < δ / 2 := fun k =>
    means_growth μ (fun x => cdf μ x * x ^ k) (hFc.mul (continuous_pow k)) k (fun x => by
      rw [abs_mul, abs_of_nonneg (hF0 x), abs_pow]
      exact mul_le_of_le_one_left (by positivity) (hF1 x)) (hm _) (cross_integrable μ ha hm k) (δ / 2) (by positivity)
  choose ηk hηk hk using h1
  obtain ⟨ηs, hηs, hs⟩ := Weak.means_close μ (fun x => cdf μ x ^ 2) (hFc.pow 2) 1 (fun x => by
    rw [abs_of_nonneg (sq_nonneg _)]
    exact pow_le_one₀ (hF0 x) (hF1 x)) (δ / 2) (by positivity)
  set B := 3 + ∑ k ∈ Finset.range (d + 1), |mom μ (2 * k)| with hB
  have hB3 : 3 ≤ B := le_add_of_nonneg_right (Finset.sum_nonneg fun _ _ => abs_nonneg _)
  have hmin : ∃ η1 : ℝ, 0 < η1 ∧ ∀ k ≤ d, η1 ≤ ηk k := by
    obtain ⟨k0, -, h0⟩ := (Finset.range (d + 1)).exists_min_image ηk ⟨0, by simp⟩
    exact ⟨ηk k0, hηk k0, fun k hk' => h0 k (by simp; omega)⟩
  obtain ⟨η1, hη1, hη1k⟩ := hmin
  obtain ⟨n0, hn0⟩ := exists_nat_gt (4 * B / δ)
  refine ⟨min (min η1 ηs) (min 1 (δ / (4 * B))), by positivity, n0, fun l hl hln hne hcdf hmom => ?_⟩
  set η := min (min η1 ηs) (min 1 (δ / (4 * B))) with hη
  have g1 : η ≤ η1 := (min_le_left _ _).trans (min_le_left _ _)
  have g2 : η ≤ ηs := (min_le_left _ _).trans (min_le_right _ _)
  have g3 : η ≤ 1 := (min_le_right _ _).trans (min_le_left _ _)
  have g4 : η ≤ δ / (4 * B) := (min_le_right _ _).trans (min_le_right _ _)
  have hn : (0 : ℝ) < l.length := by exact_mod_cast List.length_pos_iff.mpr hne
  have hninv : 1 / (l.length : ℝ) ≤ δ / (4 * B) := by
    have : 4 * B / δ ≤ l.length := hn0.le.trans (by exact_mod_cast hln)
    rw [div_le_div_iff₀ hn (by positivity)]
    rw [div_le_iff₀ hδ] at this
    linarith
  set τ := η + 1 / (l.length : ℝ) with hτ
  have hτB : τ * B ≤ δ / 2 := by
    have : τ ≤ δ / (4 * B) + δ / (4 * B) := add_le_add g4 hninv
    calc τ * B ≤ (δ / (4 * B) + δ / (4 * B)) * B := mul_le_mul_of_nonneg_right this (by linarith)
      _ = δ / 2 := by field_simp; ring
  have hrank := fun i hi => Props.rank_close l hl (cdf μ) hFc η hcdf i hi
  have hprob := Weak.empirical_prob l hne
  have hkol : ∀ t, |(Weak.empiricalLaw l).real (Set.Iic t) - μ.real (Set.Iic t)| ≤ η := fun t => by
    rw [Weak.empirical_cdf l hne, ← cdf_eq_real]
    exact hcdf t
  have hsum : ∀ f : ℝ → ℝ, (l.map f).sum = ∑ i : Fin l.length, f l[i] := fun f => by
    rw [← List.ofFn_getElem_eq_map l f, List.sum_ofFn]
    rfl
  constructor
  · intro k hkd
    have a1 := hk k (Weak.empiricalLaw l) hprob (fun t => (hkol t).trans (g1.trans (hη1k k hkd))) (empirical_integrable l _) (empirical_integrable l _) (by
      rw [Weak.empirical_integral]
      have := (abs_le.mp (hmom (2 * k + 2) (by omega))).2
      unfold mom at this
      linarith)
    rw [Weak.empirical_integral, hsum] at a1
    have a2 : |(∑ i : Fin l.length, ((i : ℕ) + 1 : ℝ) / l.length * l[i] ^ k) / l.length - (∑ i : Fin l.length, cdf μ l[i] * l[i] ^ k) / l.length| ≤ τ * B := by
      rw [← sub_div, ← Finset.sum_sub_distrib, abs_div, abs_of_pos hn, div_le_iff₀ hn]
      refine (Finset.abs_sum_le_sum_abs _ _).trans ?_
      have hterm : ∀ i : Fin l.length, |((i : ℕ) + 1 : ℝ) / l.length * l[i] ^ k - cdf μ l[i] * l[i] ^ k| ≤ τ * (1 + l[i] ^ (2 * k)) := fun i => by
        rw [← sub_mul, abs_mul]
        refine mul_le_mul (hrank i i.isLt) ?_ (abs_nonneg _) (by positivity)
        rw [pow_mul', abs_le]
        constructor <;> nlinarith [sq_nonneg (l[i] ^ k - 1), sq_nonneg (l[i] ^ k + 1)]
      refine (Finset.sum_le_sum fun i _ => hterm i).trans ?_
      rw [← Finset.mul_sum, Finset.sum_add_distrib, mul_assoc]
      refine mul_le_mul_of_nonneg_left ?_ (by positivity)
      have b1 := (abs_le.mp (hmom (2 * k) (by omega))).2
      rw [hsum] at b1
      have b2 : |mom μ (2 * k)| ≤ ∑ k ∈ Finset.range (d + 1), |mom μ (2 * k)| := Finset.single_le_sum (f := fun k => |mom μ (2 * k)|) (fun _ _ => abs_nonneg _) (by simp; omega)
      have b3 := le_abs_self (mom μ (2 * k))
      have b4 : (∑ i : Fin l.length, l[i] ^ (2 * k)) ≤ (|mom μ (2 * k)| + 1) * l.length := by
        rw [← div_le_iff₀ hn]
        linarith
      rw [Finset.sum_const, Finset.card_univ, Fintype.card_fin, nsmul_eq_mul, mul_one]
      have b5 : (|mom μ (2 * k)| + 1) * l.length ≤ (B - 1) * l.length := mul_le_mul_of_nonneg_right (by linarith) hn.le
      linarith
    have a3 := abs_lt.mp a1
    have a4 := abs_le.mp (a2.trans hτB)
    unfold cross
    rw [abs_le]
    constructor <;> linarith
  · have a1 := hs (Weak.empiricalLaw l) hprob (fun t => (hkol t).trans g2)
    rw [Weak.empirical_integral, hsum] at a1
    have a2 : |(∑ i : Fin l.length, (((i : ℕ) + 1 : ℝ) / l.length) ^ 2) / l.length - (∑ i : Fin l.length, cdf μ l[i] ^ 2) / l.length| ≤ τ * B := by
      rw [← sub_div, ← Finset.sum_sub_distrib, abs_div, abs_of_pos hn, div_le_iff₀ hn]
      refine (Finset.abs_sum_le_sum_abs _ _).trans ?_
      refine (Finset.sum_le_card_nsmul _ _ (τ * B) fun i _ => ?_).trans (by simp [mul_comm])
      have c0 : 0 ≤ ((i : ℕ) + 1 : ℝ) / l.length := by positivity
      have c1 : ((i : ℕ) + 1 : ℝ) / l.length ≤ 1 := by
        rw [div_le_one hn]
        have := i.isLt
        exact_mod_cast this
      have e : (((i : ℕ) + 1 : ℝ) / l.length) ^ 2 - cdf μ l[i] ^ 2 = (((i : ℕ) + 1 : ℝ) / l.length - cdf μ l[i]) * (((i : ℕ) + 1 : ℝ) / l.length + cdf μ l[i]) := by ring
      rw [e, abs_mul]
      refine mul_le_mul (hrank i i.isLt) ?_ (abs_nonneg _) (by positivity)
      rw [abs_of_nonneg (add_nonneg c0 (hF0 _))]
      linarith [hF1 l[i]]
    have a3 := abs_lt.mp a1
    have a4 := abs_le.mp (a2.trans hτB)
    unfold rankSq
    rw [abs_le]
    constructor <;> linarith

/-- The mean squared error of a polynomial against the distribution function. -/
theorem Q_integral [IsProbabilityMeasure μ] (ha : ∀ s, μ {s} = 0) (hm : ∀ k : ℕ, Integrable (fun x : ℝ => x ^ k) μ) (c : Fin (d + 1) → ℝ) :
    Q (mom μ) (cross μ) (rankSq μ) c = ∫ x, (cdf μ x - pv c x) ^ 2 ∂μ ∧ Integrable (fun x => (cdf μ x - pv c x) ^ 2) μ := by
  have hFc := BrodyC.cdf_continuous ha
  have i1 : Integrable (fun x => cdf μ x ^ 2) μ := by
    refine (integrable_const (1 : ℝ)).mono (hFc.pow 2).aestronglyMeasurable (Filter.Eventually.of_forall fun x => ?_)
    rw [Real.norm_eq_abs, abs_of_nonneg (sq_nonneg _), norm_one]
    exact pow_le_one₀ (cdf_nonneg μ x) (cdf_le_one μ x)
  have i2 : Integrable (fun x => ∑ j : Fin (d + 1), cdf μ x * x ^ (j : ℕ) * c j) μ := integrable_finsetSum _ fun j _ => (cross_integrable μ ha hm j).mul_const _
  have i3 := pv_sq_integrable μ hm c
  have e : (fun x => (cdf μ x - pv c x) ^ 2) = fun x => cdf μ x ^ 2 - 2 * (∑ j : Fin (d + 1), cdf μ x * x ^ (j : ℕ) * c j) + pv c x ^ 2 := funext fun x => by
    have : ∑ j : Fin (d + 1), cdf μ x * x ^ (j : ℕ) * c j = cdf μ x * pv c x := by
      rw [pv, Finset.mul_sum]
      exact Finset.sum_congr rfl fun j _ => by ring
    rw [this]
    ring
  rw [e]
  have i4 : Integrable (fun x => cdf μ x ^ 2 - 2 * (∑ j : Fin (d + 1), cdf μ x * x ^ (j : ℕ) * c j)) μ := i1.sub (i2.const_mul 2)
  refine ⟨?_, i4.add i3⟩
  rw [integral_add i4 i3, integral_sub i1 (i2.const_mul 2), integral_const_mul, integral_finsetSum _ fun (j : Fin (d + 1)) _ => (cross_integrable μ ha hm j).mul_const _, ← form_integral μ hm]
  simp only [integral_mul_const]
  rfl

/-- **Least-squares polynomials of samples.** For a law without atoms and with moments: there is a polynomial, minimising the mean squared error against the distribution function, such that the
least-squares polynomial of every long list with nearly the same distribution function and moments is near it, and so is its mean squared error. -/
theorem ls_close [IsProbabilityMeasure μ] (ha : ∀ s, μ {s} = 0) (hm : ∀ k : ℕ, Integrable (fun x : ℝ => x ^ k) μ) (d : ℕ) :
    ∃ q : Polynomial ℝ, q.natDegree ≤ d ∧ (∀ p : Polynomial ℝ, p.natDegree ≤ d → ∫ x, (cdf μ x - q.eval x) ^ 2 ∂μ ≤ ∫ x, (cdf μ x - p.eval x) ^ 2 ∂μ) ∧
      (∀ p : Polynomial ℝ, p.natDegree ≤ d → ∫ x, (cdf μ x - p.eval x) ^ 2 ∂μ ≤ ∫ x, (cdf μ x - q.eval x) ^ 2 ∂μ → p = q) ∧
      ∀ ε : ℝ, 0 < ε → ∃ η : ℝ, 0 < η ∧ ∃ n0 : ℕ, ∀ l : List ℝ, Ascending l → n0 ≤ l.length → l ≠ [] → (∀ t, |(l.countP (fun x => decide (x ≤ t)) : ℝ) / l.length - cdf μ t| ≤ η) →
        (∀ k ≤ 2 * d + 2, |(l.map fun x : ℝ => x ^ k).sum / l.length - mom μ k| ≤ η) →
        ∀ c : List ℝ, IsPolyLS c l ((List.range l.length).map fun (i : ℕ) => (i : ℝ) + 1) d →
          (∑ j : Fin (d + 1), |c.getD j 0 / l.length - q.coeff j| ≤ ε) ∧
          |fitError l ((List.range l.length).map fun (i : ℕ) => (i : ℝ) + 1) (polyAt c) / l.length / l.length ^ 2 - ∫ x, (cdf μ x - q.eval x) ^ 2 ∂μ| ≤ ε := by
  have hpos := form_pos (d := d) μ ha hm
  obtain ⟨q, hq⟩ := normal_solution (mom μ) (cross μ) hpos
  have hQ := fun c => (Q_integral (d := d) μ ha hm c).1
  have hp : ∀ p : Polynomial ℝ, p.natDegree ≤ d → ∀ x, p.eval x = pv (fun j : Fin (d + 1) => p.coeff j) x := fun p hp x => by
    conv_lhs => rw [← toP_surj p hp]
    exact toP_eval _ _
  refine ⟨toP q, toP_degree q, fun p hpd => ?_, fun p hpd hle => ?_, fun ε hε => ?_⟩
  · simp only [toP_eval, hp p hpd]
    rw [← hQ, ← hQ, Q_square _ _ _ q hq fun j : Fin (d + 1) => p.coeff j]
    have : 0 ≤ form (mom μ) ((fun j : Fin (d + 1) => p.coeff j) - q) := by
      rw [form_integral μ hm]
      exact integral_nonneg fun x => sq_nonneg _
    linarith
  · simp only [toP_eval, hp p hpd] at hle
    rw [← hQ, ← hQ, Q_square _ _ _ q hq fun j : Fin (d + 1) => p.coeff j] at hle
    have h0 : (fun j : Fin (d + 1) => p.coeff j) - q = 0 := by
      by_contra h
      have := hpos _ h
      linarith
    rw [← toP_surj p hpd, sub_eq_zero.mp h0]
  · obtain ⟨δ, hδ, hmc⟩ := minimiser_close (mom μ) (cross μ) (rankSq μ) hpos q hq ε hε
    obtain ⟨η, hη, n0, hdc⟩ := data_close μ ha hm d δ hδ
    refine ⟨min η δ, lt_min hη hδ, n0, fun l hl hln hne hcdf hmom c hc => ?_⟩
    obtain ⟨h1, h2⟩ := hdc l hl hln hne (fun t => (hcdf t).trans (min_le_left _ _)) (fun k hk => (hmom k hk).trans (min_le_left _ _))
    have hn : (0 : ℝ) < l.length := by exact_mod_cast List.length_pos_iff.mpr hne
    have hsum : ∀ f : ℝ → ℝ, (l.map f).sum = ∑ i : Fin l.length, f l[i] := fun f => by
      rw [← List.ofFn_getElem_eq_map l f, List.sum_ofFn]
      rfl
    have hfit : ∀ c : List ℝ, c.length = d + 1 → fitError l ((List.range l.length).map fun (i : ℕ) => (i : ℝ) + 1) (polyAt c) / l.length / l.length ^ 2 =
        Q (fun k => (∑ i : Fin l.length, l[i] ^ k) / l.length) (fun k => (∑ i : Fin l.length, ((i : ℕ) + 1 : ℝ) / l.length * l[i] ^ k) / l.length)
          ((∑ i : Fin l.length, (((i : ℕ) + 1 : ℝ) / l.length) ^ 2) / l.length) (fun j : Fin (d + 1) => c.getD j 0 / l.length) := by
      intro c hc
      rw [← mean_Q (fun i : Fin l.length => l[i]) (fun i : Fin l.length => ((i : ℕ) + 1 : ℝ) / l.length) fun j : Fin (d + 1) => c.getD j 0 / l.length]
      rw [fitError, sum_zipWith_fin _ _ _ (by simp), div_div, mul_comm, ← div_div, Finset.sum_div]
      congr 1
      refine Finset.sum_congr rfl fun i _ => ?_
      have e : polyAt c l[i] = l.length * pv (fun j : Fin (d + 1) => c.getD j 0 / l.length) l[i] := by
        rw [polyAt, hc, Finset.sum_range, pv, Finset.mul_sum]
        refine Finset.sum_congr rfl fun j _ => ?_
        field_simp
      have e2 : ((List.range l.length).map fun (i : ℕ) => (i : ℝ) + 1)[i]'(by simp) = ((i : ℕ) : ℝ) + 1 := by simp
      rw [e, e2, ← div_pow, sub_div, mul_div_cancel_left₀ _ hn.ne']
    have hmin := hc.2 ((List.ofFn fun j : Fin (d + 1) => q j * l.length)) (by simp)
    have hmin' := div_le_div_of_nonneg_right (div_le_div_of_nonneg_right hmin hn.le) (by positivity : (0 : ℝ) ≤ (l.length : ℝ) ^ 2)
    rw [hfit c hc.1, hfit _ (by simp)] at hmin'
    have eq : (fun j : Fin (d + 1) => (List.ofFn fun j : Fin (d + 1) => q j * l.length).getD j 0 / (l.length : ℝ)) = q := by
      ext j
      rw [List.getD_eq_getElem?_getD, List.getElem?_ofFn, dif_pos j.isLt]
      simp only [Option.getD_some, Fin.eta]
      exact mul_div_cancel_right₀ _ hn.ne'
    rw [eq] at hmin'
    obtain ⟨r1, r2⟩ := hmc _ _ _ (fun k hk => by
      have := (hmom k (by omega)).trans (min_le_right _ _)
      rwa [hsum] at this) h1 h2 _ hmin'
    refine ⟨?_, ?_⟩
    · simpa [N1, toP_coeff] using r1
    · rw [hfit c hc.1]
      simp only [toP_eval]
      rw [← hQ]
      exact r2

end RMT.PolyLim
