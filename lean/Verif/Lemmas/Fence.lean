import Verif.Lemmas.RigidityKernel
import Mathlib.MeasureTheory.Integral.IntervalIntegral.Periodic
import Mathlib.MeasureTheory.Function.Floor
import Mathlib.Topology.Algebra.Order.Floor

/-!
# Equally spaced levels: averages over windows of the number of levels and of the rigidity
-/

namespace RMT
namespace UniformM
open MeasureTheory Real Set Spec Filter Topology

/-! ## Functions of the fractional part -/

theorem fract_deriv (x : ℝ) : HasDerivWithinAt (Int.fract : ℝ → ℝ) 1 (Ioi x) x := by
  have h : HasDerivWithinAt (fun y : ℝ => y - ⌊x⌋) 1 (Ioi x) x := ((hasDerivAt_id x).sub_const _).hasDerivWithinAt
  refine h.congr_of_eventuallyEq ?_ rfl
  have : Ioo x (⌊x⌋ + 1) ∈ 𝓝[>] x := Ioo_mem_nhdsGT (Int.lt_floor_add_one x)
  filter_upwards [this] with y hy
  have : ⌊y⌋ = ⌊x⌋ := by
    rw [Int.floor_eq_iff]
    exact ⟨(Int.floor_le x).trans hy.1.le, hy.2⟩
  rw [← this]
  rfl

theorem fract_integrable (g : ℝ → ℝ) (hg : Continuous g) (a b : ℝ) : IntervalIntegrable (fun t => g (Int.fract t)) volume a b := by
  obtain ⟨C, hC⟩ := (isCompact_Icc (a := (0 : ℝ)) (b := 1)).exists_bound_of_continuousOn hg.continuousOn
  have hm : Measurable fun t : ℝ => g (Int.fract t) := hg.measurable.comp measurable_fract
  have : ∀ S : Set ℝ, volume S < ⊤ → IntegrableOn (fun t => g (Int.fract t)) S := fun S hv =>
    Measure.integrableOn_of_bounded hv.ne hm.aestronglyMeasurable (M := C) (Eventually.of_forall fun t => hC _ ⟨Int.fract_nonneg t, (Int.fract_lt_one t).le⟩)
  exact ⟨this _ (by simp), this _ (by simp)⟩

theorem fract_continuous (p : ℝ → ℝ) (hp : Continuous p) (h01 : p 0 = p 1) : Continuous fun t => p (Int.fract t) :=
  ContinuousOn.comp_fract'' hp.continuousOn h01

theorem fract_ftc (p p' : ℝ → ℝ) (hp : ∀ x, HasDerivAt p (p' x) x) (hp' : Continuous p') (h01 : p 0 = p 1) (a b : ℝ) :
    ∫ t in a..b, p' (Int.fract t) = p (Int.fract b) - p (Int.fract a) := by
  have hc : Continuous p := continuous_iff_continuousAt.mpr fun x => (hp x).continuousAt
  refine intervalIntegral.integral_eq_sub_of_hasDeriv_right (f := fun t => p (Int.fract t)) (fract_continuous p hc h01).continuousOn (fun x _ => ?_) (fract_integrable p' hp' a b)
  have := (hp (Int.fract x)).comp_hasDerivWithinAt x (fract_deriv x)
  rw [mul_one] at this
  exact this

theorem fract_parts (p p' : ℝ → ℝ) (hp : ∀ x, HasDerivAt p (p' x) x) (hp' : Continuous p') (h01 : p 0 = p 1) (a b c : ℝ) :
    ∫ t in a..b, (t - c) * p' (Int.fract t) = (b - c) * p (Int.fract b) - (a - c) * p (Int.fract a) - ∫ t in a..b, p (Int.fract t) := by
  have hc : Continuous p := continuous_iff_continuousAt.mpr fun x => (hp x).continuousAt
  have i1 : IntervalIntegrable (fun t => (t - c) * p' (Int.fract t)) volume a b := (fract_integrable p' hp' a b).continuousOn_mul (by fun_prop)
  have i2 := fract_integrable p hc a b
  have h := intervalIntegral.integral_eq_sub_of_hasDeriv_right (a := a) (b := b) (f := fun t => (t - c) * p (Int.fract t)) (f' := fun t => p (Int.fract t) + (t - c) * p' (Int.fract t))
    (((continuous_id.sub continuous_const).mul (fract_continuous p hc h01)).continuousOn) (fun x _ => ?_) (i2.add i1)
  · rw [intervalIntegral.integral_add i2 i1] at h
    linarith
  · have h1 := (hp (Int.fract x)).comp_hasDerivWithinAt x (fract_deriv x)
    rw [mul_one] at h1
    have h2 := ((hasDerivAt_id x).sub_const c).hasDerivWithinAt (s := Ioi x)
    have := h2.mul h1
    refine this.congr_deriv ?_
    simp

/-! ## Averages over many periods -/

theorem periodic_average (F : ℕ → ℝ → ℝ) (g : ℝ → ℝ) (L K : ℝ) (hL : 0 ≤ L) (hF : ∀ n, Measurable (F n)) (hFb : ∀ n c, |F n c| ≤ K) (hg : Measurable g) (hgb : ∀ c, |g c| ≤ K) (hper : Function.Periodic g 1)
    (hin : ∀ n : ℕ, ∀ c, L / 2 ≤ c → c ≤ n - L / 2 → F n c = g c) :
    Tendsto (fun n : ℕ => Spec.average 0 n (F n)) atTop (𝓝 (∫ c in (0 : ℝ)..1, g c)) := by
  have hii : ∀ (h : ℝ → ℝ) (C : ℝ), Measurable h → (∀ c, |h c| ≤ C) → ∀ x y, IntervalIntegrable h volume x y := fun h C hm hb x y => by
    have : ∀ S : Set ℝ, volume S < ⊤ → IntegrableOn h S := fun S hv => Measure.integrableOn_of_bounded hv.ne hm.aestronglyMeasurable (M := C) (Eventually.of_forall hb)
    exact ⟨this _ (by simp), this _ (by simp)⟩
  have hgi := hii g K hg hgb
  have hwhole : ∀ n : ℕ, ∫ c in (0 : ℝ)..n, g c = n * ∫ c in (0 : ℝ)..1, g c := fun n => by
    have := hper.intervalIntegral_add_zsmul_eq n 0 hgi
    simpa using this
  rw [tendsto_iff_norm_sub_tendsto_zero]
  refine squeeze_zero' (Eventually.of_forall fun _ => norm_nonneg _) ?_ (tendsto_const_div_atTop_nhds_zero_nat (2 * K * L))
  filter_upwards [eventually_gt_atTop 0, eventually_ge_atTop ⌈L⌉₊] with n hn hnL
  have hn' : (0 : ℝ) < n := by exact_mod_cast hn
  have hnL' : L ≤ n := (Nat.le_ceil L).trans (by exact_mod_cast hnL)
  have hd : ∀ c, |F n c - g c| ≤ 2 * K := fun c => by
    have := abs_sub (F n c) (g c)
    linarith [hFb n c, hgb c]
  have hdi := hii (fun c => F n c - g c) (2 * K) ((hF n).sub hg) hd
  have e1 : Spec.average 0 n (F n) - ∫ c in (0 : ℝ)..1, g c = 1 / n * ∫ c in (0 : ℝ)..n, (F n c - g c) := by
    rw [Spec.average, if_neg hn'.ne, sub_zero, intervalIntegral.integral_sub (hii (F n) K (hF n) (hFb n) _ _) (hgi _ _), hwhole n]
    field_simp
  have e2 : ∫ c in (0 : ℝ)..n, (F n c - g c) = (∫ c in (0 : ℝ)..(L / 2), (F n c - g c)) + ∫ c in ((n : ℝ) - L / 2)..n, (F n c - g c) := by
    have h0 : ∫ c in (L / 2)..((n : ℝ) - L / 2), (F n c - g c) = 0 := by
      rw [intervalIntegral.integral_congr (g := fun _ => (0 : ℝ))]
      · simp
      · intro c hc
        rw [uIcc_of_le (by linarith)] at hc
        simp only [hin n c hc.1 hc.2, sub_self]
    rw [← intervalIntegral.integral_add_adjacent_intervals (hdi 0 (L / 2)) (hdi (L / 2) n), ← intervalIntegral.integral_add_adjacent_intervals (hdi (L / 2) ((n : ℝ) - L / 2)) (hdi _ n), h0, zero_add]
  have b1 := intervalIntegral.norm_integral_le_of_norm_le_const (f := fun c => F n c - g c) (a := 0) (b := L / 2) (C := 2 * K) fun c _ => hd c
  have b2 := intervalIntegral.norm_integral_le_of_norm_le_const (f := fun c => F n c - g c) (a := (n : ℝ) - L / 2) (b := n) (C := 2 * K) fun c _ => hd c
  rw [e1, e2, norm_mul, Real.norm_eq_abs, abs_of_pos (by positivity), one_div, inv_mul_eq_div]
  refine div_le_div_of_nonneg_right ((norm_add_le _ _).trans ((add_le_add b1 b2).trans (le_of_eq ?_))) hn'.le
  rw [sub_zero, abs_of_nonneg (by linarith : 0 ≤ L / 2), sub_sub_cancel, abs_of_nonneg (by linarith : 0 ≤ L / 2)]
  ring

/-! ## The number of levels in a window -/

/-- The levels `0, 1, 2, …`. -/
def pickets (k : Nat) (_ : Unit) : ℝ := k

/-- The number of integers in the window of length `L` about `c`. -/
noncomputable def integersIn (L c : ℝ) : ℝ := L + 1 - Int.fract (c + L / 2) - Int.fract (L / 2 - c)

theorem integersIn_eq (L c : ℝ) : integersIn L c = ((⌊c + L / 2⌋ - ⌈c - L / 2⌉ + 1 : ℤ) : ℝ) := by
  have h : ⌈c - L / 2⌉ = -⌊L / 2 - c⌋ := by
    rw [← Int.ceil_neg]
    congr 1
    ring
  unfold integersIn
  rw [h, ← Int.self_sub_floor, ← Int.self_sub_floor]
  push_cast
  ring

theorem pickets_le (N : Nat) (L c : ℝ) (hL : 0 ≤ L) : ∑ j ∈ Finset.range N, near (L / 2) c (pickets j ()) ≤ integersIn L c := by
  classical
  have e : ∑ j ∈ Finset.range N, near (L / 2) c (pickets j ()) = (((Finset.range N).filter fun j : ℕ => |c - j| ≤ L / 2).card : ℝ) := by
    rw [Finset.card_filter]
    push_cast
    exact Finset.sum_congr rfl fun j _ => rfl
  rw [e, integersIn_eq]
  have h1 : ((Finset.range N).filter fun j : ℕ => |c - j| ≤ L / 2).card ≤ (Finset.Icc ⌈c - L / 2⌉ ⌊c + L / 2⌋).card := by
    refine Finset.card_le_card_of_injOn (fun j : ℕ => (j : ℤ)) (fun j hj => ?_) fun i _ j _ h => by
      simpa using h
    have h2 := abs_le.mp (Finset.mem_filter.mp hj).2
    simp only [Finset.coe_Icc, mem_Icc]
    refine ⟨Int.ceil_le.mpr ?_, Int.le_floor.mpr ?_⟩ <;> push_cast <;> linarith
  rw [Int.card_Icc] at h1
  have h3 : (0 : ℤ) ≤ ⌊c + L / 2⌋ - ⌈c - L / 2⌉ + 1 := by
    have a1 := Int.lt_floor_add_one (c + L / 2)
    have a2 := Int.ceil_lt_add_one (c - L / 2)
    have a3 : (⌈c - L / 2⌉ : ℝ) < ((⌊c + L / 2⌋ + 2 : ℤ) : ℝ) := by
      push_cast
      linarith
    have a4 : ⌈c - L / 2⌉ < ⌊c + L / 2⌋ + 2 := by exact_mod_cast a3
    omega
  have : (((Finset.range N).filter fun j : ℕ => |c - j| ≤ L / 2).card : ℤ) ≤ ⌊c + L / 2⌋ - ⌈c - L / 2⌉ + 1 := by omega
  exact_mod_cast this

theorem pickets_inside (n : Nat) (L c : ℝ) (hL : 0 ≤ L) (h1 : L / 2 ≤ c) (h2 : c ≤ n - L / 2) : ∑ j ∈ Finset.range (n + 1), near (L / 2) c (pickets j ()) = integersIn L c := by
  classical
  refine le_antisymm (pickets_le _ L c hL) ?_
  have e : ∑ j ∈ Finset.range (n + 1), near (L / 2) c (pickets j ()) = (((Finset.range (n + 1)).filter fun j : ℕ => |c - j| ≤ L / 2).card : ℝ) := by
    rw [Finset.card_filter]
    push_cast
    exact Finset.sum_congr rfl fun j _ => rfl
  rw [e, integersIn_eq]
  have h : (Finset.Icc ⌈c - L / 2⌉ ⌊c + L / 2⌋).card ≤ ((Finset.range (n + 1)).filter fun j : ℕ => |c - j| ≤ L / 2).card := by
    refine Finset.card_le_card_of_injOn (fun j : ℤ => j.toNat) (fun j hj => ?_) fun i hi j hj hij => ?_
    · simp only [Finset.coe_Icc, mem_Icc] at hj
      have a1 := Int.ceil_le.mp hj.1
      have a2 := Int.le_floor.mp hj.2
      have a3 : (0 : ℝ) ≤ j := by linarith
      have a4 : (0 : ℤ) ≤ j := by exact_mod_cast a3
      have a5 : (j : ℝ) ≤ n := by linarith
      have a6 : j ≤ n := by exact_mod_cast a5
      have a7 : ((j.toNat : ℕ) : ℝ) = j := by
        have := Int.toNat_of_nonneg a4
        exact_mod_cast this
      simp only [Finset.coe_filter, mem_ofPred_eq, Finset.mem_range]
      refine ⟨by omega, ?_⟩
      rw [a7, abs_le]
      constructor <;> linarith
    · simp only [Finset.coe_Icc, mem_Icc] at hi hj
      have a1 := Int.ceil_le.mp hi.1
      have a3 : (0 : ℝ) ≤ i := by linarith
      have a4 : (0 : ℤ) ≤ i := by exact_mod_cast a3
      have b1 := Int.ceil_le.mp hj.1
      have b3 : (0 : ℝ) ≤ j := by linarith
      have b4 : (0 : ℤ) ≤ j := by exact_mod_cast b3
      simp only at hij
      omega
  rw [Int.card_Icc] at h
  have : (⌊c + L / 2⌋ - ⌈c - L / 2⌉ + 1 : ℤ) ≤ (((Finset.range (n + 1)).filter fun j : ℕ => |c - j| ≤ L / 2).card : ℤ) := by omega
  exact_mod_cast this

theorem fract_shift (h : ℝ → ℝ) (a : ℝ) : ∫ c in (0 : ℝ)..1, h (Int.fract (c + a)) = ∫ x in (0 : ℝ)..1, h x := by
  have hp : Function.Periodic (fun c : ℝ => h (Int.fract (c + a))) 1 := fun c => by
    show h (Int.fract (c + 1 + a)) = h (Int.fract (c + a))
    rw [show c + 1 + a = (c + a) + 1 by ring, Int.fract_add_one]
  have h1 := hp.intervalIntegral_add_eq 0 (-a)
  rw [zero_add] at h1
  rw [h1, intervalIntegral.integral_comp_add_right (fun c : ℝ => h (Int.fract c))]
  have e1 : -a + a = 0 := by ring
  have e2 : -a + 1 + a = 1 := by ring
  rw [e1, e2]
  refine intervalIntegral.integral_congr_ae ?_
  have h1 : ∀ᵐ x : ℝ, x ≠ 1 := Measure.ae_ne volume 1
  filter_upwards [h1] with x hx hx'
  rw [uIoc_of_le zero_le_one] at hx'
  rw [Int.fract_eq_self.mpr ⟨hx'.1.le, lt_of_le_of_ne hx'.2 hx⟩]

theorem fract_shift_mean (a : ℝ) : ∫ c in (0 : ℝ)..1, Int.fract (c + a) = 1 / 2 := by
  rw [fract_shift (fun x => x) a, integral_id]
  norm_num

theorem fract_refl_mean (a : ℝ) : ∫ c in (0 : ℝ)..1, Int.fract (a - c) = 1 / 2 := by
  have h := intervalIntegral.integral_comp_sub_left (fun c : ℝ => Int.fract (c + (a - 1))) 1 (a := 0) (b := 1)
  rw [sub_self, sub_zero, fract_shift_mean] at h
  rw [← h]
  refine intervalIntegral.integral_congr fun c _ => ?_
  congr 1
  ring

theorem integersIn_measurable (L : ℝ) : Measurable (integersIn L) := by
  unfold integersIn
  exact (measurable_const.sub (measurable_fract.comp (measurable_id.add_const _))).sub (measurable_fract.comp (measurable_id.const_sub _))

theorem integersIn_periodic (L : ℝ) : Function.Periodic (integersIn L) 1 := fun c => by
  unfold integersIn
  rw [show c + 1 + L / 2 = c + L / 2 + 1 by ring, show L / 2 - (c + 1) = L / 2 - c - 1 by ring, Int.fract_add_one, Int.fract_sub_one]

theorem integersIn_bounds (L c : ℝ) : L - 1 < integersIn L c ∧ integersIn L c ≤ L + 1 := by
  unfold integersIn
  have := Int.fract_nonneg (c + L / 2)
  have := Int.fract_nonneg (L / 2 - c)
  have := Int.fract_lt_one (c + L / 2)
  have := Int.fract_lt_one (L / 2 - c)
  constructor <;> linarith

theorem bounded_interval (h : ℝ → ℝ) (C : ℝ) (hm : Measurable h) (hb : ∀ c, |h c| ≤ C) (x y : ℝ) : IntervalIntegrable h volume x y := by
  have : ∀ S : Set ℝ, volume S < ⊤ → IntegrableOn h S := fun S hv => Measure.integrableOn_of_bounded hv.ne hm.aestronglyMeasurable (M := C) (Eventually.of_forall hb)
  exact ⟨this _ (by simp), this _ (by simp)⟩

theorem integersIn_mean (L : ℝ) : ∫ c in (0 : ℝ)..1, integersIn L c = L := by
  have hb : ∀ x : ℝ, |Int.fract x| ≤ 1 := fun x => by
    rw [abs_of_nonneg (Int.fract_nonneg x)]
    exact (Int.fract_lt_one x).le
  have h1 : IntervalIntegrable (fun c : ℝ => Int.fract (c + L / 2)) volume 0 1 := bounded_interval _ 1 (measurable_fract.comp (measurable_id.add_const _)) (fun c => hb _) _ _
  have h2 : IntervalIntegrable (fun c : ℝ => Int.fract (L / 2 - c)) volume 0 1 := bounded_interval _ 1 (measurable_fract.comp (measurable_id.const_sub _)) (fun c => hb _) _ _
  unfold integersIn
  rw [intervalIntegral.integral_sub (intervalIntegrable_const.sub h1) h2, intervalIntegral.integral_sub intervalIntegrable_const h1, fract_shift_mean, fract_refl_mean]
  simp
  ring

theorem integersIn_sq (L : ℝ) : ∫ c in (0 : ℝ)..1, integersIn L c ^ 2 = L ^ 2 + Int.fract L * (1 - Int.fract L) := by
  have hb : ∀ c, |integersIn L c| ≤ |L| + 1 := fun c => by
    have h := integersIn_bounds L c
    rw [abs_le]
    have h1 := neg_abs_le L
    have h2 := le_abs_self L
    constructor <;> linarith
  have hi := bounded_interval _ _ (integersIn_measurable L) hb 0 1
  have e : ∀ c, integersIn L c ^ 2 = (2 * ⌊L⌋ + 1) * integersIn L c - (⌊L⌋ * (⌊L⌋ + 1) : ℝ) := fun c => by
    obtain ⟨h1, h2⟩ := integersIn_bounds L c
    rw [integersIn_eq] at h1 h2 ⊢
    generalize ⌊c + L / 2⌋ - ⌈c - L / 2⌉ + 1 = z at h1 h2 ⊢
    have h3 := Int.floor_le L
    have h4 := Int.lt_floor_add_one L
    have a1 : ((⌊L⌋ - 1 : ℤ) : ℝ) < z := by
      push_cast
      linarith
    have a2 : (z : ℝ) < ((⌊L⌋ + 2 : ℤ) : ℝ) := by
      push_cast
      linarith
    have a3 : ⌊L⌋ - 1 < z := by exact_mod_cast a1
    have a4 : z < ⌊L⌋ + 2 := by exact_mod_cast a2
    have a5 : z = ⌊L⌋ ∨ z = ⌊L⌋ + 1 := by omega
    rcases a5 with rfl | rfl
    · ring
    · push_cast
      ring
  simp only [e]
  rw [intervalIntegral.integral_sub (hi.const_mul _) intervalIntegrable_const, intervalIntegral.integral_const_mul, integersIn_mean]
  have hf : Int.fract L = L - ⌊L⌋ := (Int.self_sub_floor L).symm
  rw [hf]
  simp only [intervalIntegral.integral_const, sub_zero, one_smul]
  ring

/-! ## The rigidity of a window -/

/-- The rigidity of `x ↦ ⌊x⌋` over the window of length `L` about `c`, in terms of the fractional parts `u` and `v` of its ends. -/
noncomputable def sawRigidity (L u v : ℝ) : ℝ :=
  1 / L * (L / 12 + ((u ^ 3 / 3 - u ^ 2 / 2 + u / 6) - (v ^ 3 / 3 - v ^ 2 / 2 + v / 6)) -
    12 / L ^ 3 * (L / 2 * ((u - u ^ 2) / 2 + (v - v ^ 2) / 2) - (L / 12 + ((u ^ 2 / 4 - u ^ 3 / 6 - u / 12) - (v ^ 2 / 4 - v ^ 3 / 6 - v / 12)))) ^ 2 -
    1 / L * ((u - u ^ 2) / 2 - (v - v ^ 2) / 2) ^ 2)

/-- Adding a straight line does not change the rigidity. -/
theorem delta3_line (f : ℝ → ℝ) (a b p q : ℝ) : delta3 (fun t => f t + (p * t + q)) a b = delta3 f a b := by
  unfold delta3
  refine (Equiv.addRight ((-p, -q) : ℝ × ℝ)).iInf_congr fun l => ?_
  unfold deviation
  congr 1
  refine intervalIntegral.integral_congr fun t _ => ?_
  simp only [Equiv.coe_addRight, Prod.fst_add, Prod.snd_add]
  ring

theorem saw_rigidity (L c : ℝ) (hL : 0 < L) : delta3 (fun t => 1 / 2 - Int.fract t) (c - L / 2) (c + L / 2) = sawRigidity L (Int.fract (c + L / 2)) (Int.fract (c - L / 2)) := by
  have hS : ∀ x : ℝ, HasDerivAt (fun u : ℝ => (u - u ^ 2) / 2) (1 / 2 - x) x := fun x => by
    have := (((hasDerivAt_id x).sub (hasDerivAt_pow 2 x)).div_const 2)
    refine this.congr_deriv ?_
    norm_num
    ring
  have hQ : ∀ x : ℝ, HasDerivAt (fun u : ℝ => u ^ 3 / 3 - u ^ 2 / 2 + u / 6) ((1 / 2 - x) ^ 2 - 1 / 12) x := fun x => by
    have := (((hasDerivAt_pow 3 x).div_const 3).sub ((hasDerivAt_pow 2 x).div_const 2)).add ((hasDerivAt_id x).div_const 6)
    refine this.congr_deriv ?_
    norm_num
    ring
  have hR : ∀ x : ℝ, HasDerivAt (fun u : ℝ => u ^ 2 / 4 - u ^ 3 / 6 - u / 12) ((x - x ^ 2) / 2 - 1 / 12) x := fun x => by
    have := (((hasDerivAt_pow 2 x).div_const 4).sub ((hasDerivAt_pow 3 x).div_const 6)).sub ((hasDerivAt_id x).div_const 12)
    refine this.congr_deriv ?_
    norm_num
    ring
  set a := c - L / 2 with ha
  set b := c + L / 2 with hb
  have hab : a < b := by linarith
  have hba : b - a = L := by rw [ha, hb]; ring
  have hmid : (a + b) / 2 = c := by rw [ha, hb]; ring
  have i1 := fract_integrable (fun x => 1 / 2 - x) (by fun_prop) a b
  have i2 := fract_integrable (fun x => (1 / 2 - x) ^ 2) (by fun_prop) a b
  have i3 := fract_integrable (fun x => (x - x ^ 2) / 2) (by fun_prop) a b
  have f1 := fract_ftc _ _ hS (by fun_prop) (by norm_num) a b
  have f2 := fract_ftc _ _ hQ (by fun_prop) (by norm_num) a b
  have f3 := fract_ftc _ _ hR (by fun_prop) (by norm_num) a b
  have f4 := fract_parts _ _ hS (by fun_prop) (by norm_num) a b c
  rw [intervalIntegral.integral_sub i2 intervalIntegrable_const, intervalIntegral.integral_const, hba, smul_eq_mul] at f2
  rw [intervalIntegral.integral_sub i3 intervalIntegrable_const, intervalIntegral.integral_const, hba, smul_eq_mul] at f3
  have f2' := eq_add_of_sub_eq f2
  have f3' := eq_add_of_sub_eq f3
  have e1 : b - c = L / 2 := by rw [hb]; ring
  have e2 : a - c = -(L / 2) := by rw [ha]; ring
  rw [f3', e1, e2] at f4
  rw [delta3_eq _ a b hab i1 i2, hmid, hba, f1, f2', f4]
  unfold sawRigidity
  ring

/-- The limit of the average rigidity of equally spaced levels. -/
noncomputable def fenceRigidity (L : ℝ) : ℝ := ∫ c in (0 : ℝ)..1, sawRigidity L (Int.fract (c + L / 2)) (Int.fract (c - L / 2))

theorem saw_comp_measurable (L : ℝ) (U V : ℝ → ℝ) (hU : Measurable U) (hV : Measurable V) : Measurable fun c => sawRigidity L (U c) (V c) := by
  unfold sawRigidity
  fun_prop

theorem saw_measurable (L : ℝ) : Measurable fun c : ℝ => sawRigidity L (Int.fract (c + L / 2)) (Int.fract (c - L / 2)) := by
  have m1 : Measurable fun c : ℝ => Int.fract (c + L / 2) := Measurable.fract (by fun_prop)
  have m2 : Measurable fun c : ℝ => Int.fract (c - L / 2) := Measurable.fract (by fun_prop)
  exact saw_comp_measurable L _ _ m1 m2

theorem saw_periodic (L : ℝ) : Function.Periodic (fun c : ℝ => sawRigidity L (Int.fract (c + L / 2)) (Int.fract (c - L / 2))) 1 := fun c => by
  simp only
  rw [show c + 1 + L / 2 = c + L / 2 + 1 by ring, show c + 1 - L / 2 = c - L / 2 + 1 by ring, Int.fract_add_one, Int.fract_add_one]

theorem deviation_nonneg (f : ℝ → ℝ) (a b p q : ℝ) (hab : a < b) : 0 ≤ deviation f a b p q :=
  mul_nonneg (one_div_nonneg.mpr (by linarith)) (intervalIntegral.integral_nonneg hab.le fun t _ => sq_nonneg _)

theorem delta3_nonneg (f : ℝ → ℝ) (a b : ℝ) (hab : a < b) : 0 ≤ delta3 f a b := Real.iInf_nonneg fun l => deviation_nonneg f a b l.1 l.2 hab

theorem delta3_le (f : ℝ → ℝ) (a b p q : ℝ) (hab : a < b) : delta3 f a b ≤ deviation f a b p q :=
  ciInf_le (f := fun l : ℝ × ℝ => deviation f a b l.1 l.2) ⟨0, by rintro _ ⟨l, rfl⟩; exact deviation_nonneg f a b _ _ hab⟩ (p, q)

theorem saw_bound (L c : ℝ) (hL : 0 < L) : |sawRigidity L (Int.fract (c + L / 2)) (Int.fract (c - L / 2))| ≤ 1 := by
  rw [← saw_rigidity L c hL, abs_of_nonneg (delta3_nonneg _ _ _ (by linarith))]
  refine (delta3_le _ _ _ 0 0 (by linarith)).trans ?_
  unfold deviation
  have e1 : c + L / 2 - (c - L / 2) = L := by ring
  rw [e1]
  have h := intervalIntegral.norm_integral_le_of_norm_le_const (f := fun t : ℝ => (1 / 2 - Int.fract t - (0 * t + 0)) ^ 2) (a := c - L / 2) (b := c + L / 2) (C := 1) fun t _ => by
    have h1 := Int.fract_nonneg t
    have h2 := (Int.fract_lt_one t).le
    rw [Real.norm_eq_abs, abs_of_nonneg (sq_nonneg _)]
    nlinarith
  rw [e1, abs_of_pos hL, one_mul] at h
  have h2 := (le_abs_self _).trans h
  rw [one_div, inv_mul_eq_div, div_le_one hL]
  exact h2

/-- For whole window lengths. -/
theorem fenceRigidity_nat (m : ℕ) (hm : 0 < m) : fenceRigidity m = 1 / 12 - 1 / (60 * (m : ℝ) ^ 2) := by
  have hm' : (0 : ℝ) < m := by exact_mod_cast hm
  have e : ∀ c : ℝ, sawRigidity m (Int.fract (c + m / 2)) (Int.fract (c - m / 2)) = (fun x : ℝ => 1 / 12 - 12 / (m : ℝ) ^ 2 * ((x - x ^ 2) / 2 - 1 / 12) ^ 2) (Int.fract (c + m / 2)) := fun c => by
    have h1 : Int.fract (c - (m : ℝ) / 2) = Int.fract (c + m / 2) := by
      rw [show c + (m : ℝ) / 2 = c - m / 2 + m by ring, Int.fract_add_natCast]
    rw [h1]
    unfold sawRigidity
    field_simp
    ring
  unfold fenceRigidity
  simp only [e]
  rw [fract_shift (fun x : ℝ => 1 / 12 - 12 / (m : ℝ) ^ 2 * ((x - x ^ 2) / 2 - 1 / 12) ^ 2)]
  have hd : ∀ x : ℝ, HasDerivAt (fun x : ℝ => x / 12 - 12 / (m : ℝ) ^ 2 * (x ^ 5 / 20 - x ^ 4 / 8 + x ^ 3 / 12 + x ^ 3 / 36 - x ^ 2 / 24 + x / 144)) (1 / 12 - 12 / (m : ℝ) ^ 2 * ((x - x ^ 2) / 2 - 1 / 12) ^ 2) x := fun x => by
    have := ((hasDerivAt_id x).div_const 12).sub ((((((((hasDerivAt_pow 5 x).div_const 20).sub ((hasDerivAt_pow 4 x).div_const 8)).add ((hasDerivAt_pow 3 x).div_const 12)).add ((hasDerivAt_pow 3 x).div_const 36)).sub
      ((hasDerivAt_pow 2 x).div_const 24)).add ((hasDerivAt_id x).div_const 144)).const_mul (12 / (m : ℝ) ^ 2))
    refine this.congr_deriv ?_
    simp only [Nat.cast_ofNat, Nat.reduceSub, pow_one]
    ring
  rw [intervalIntegral.integral_eq_sub_of_hasDerivAt (fun x _ => hd x) (Continuous.intervalIntegrable (by fun_prop) _ _)]
  field_simp
  ring

/-- For all window lengths. -/
theorem fenceRigidity_bounds (L : ℝ) (hL : 0 < L) : 1 / 12 - 1 / (4 * L ^ 2) ≤ fenceRigidity L ∧ fenceRigidity L ≤ 1 / 12 ∧ 0 ≤ fenceRigidity L := by
  have hQi : ∀ a : ℝ, IntervalIntegrable (fun c : ℝ => (fun u : ℝ => u ^ 3 / 3 - u ^ 2 / 2 + u / 6) (Int.fract (c + a))) volume 0 1 := fun a =>
    bounded_interval (fun c : ℝ => (fun u : ℝ => u ^ 3 / 3 - u ^ 2 / 2 + u / 6) (Int.fract (c + a))) 1 (by
      have m1 : Measurable fun c : ℝ => Int.fract (c + a) := Measurable.fract (by fun_prop)
      simp only
      fun_prop) (fun c => by
      have h1 := Int.fract_nonneg (c + a)
      have h2 := (Int.fract_lt_one (c + a)).le
      simp only
      generalize Int.fract (c + a) = u at *
      have e : u ^ 3 / 3 - u ^ 2 / 2 + u / 6 = u * (1 - u) * (1 - 2 * u) / 6 := by ring
      rw [e, abs_le]
      have h3 : 0 ≤ u * (1 - u) := mul_nonneg h1 (by linarith)
      have h4 : u * (1 - u) ≤ 1 := by nlinarith
      constructor <;> nlinarith) _ _
  have hQ : ∀ a : ℝ, ∫ c in (0 : ℝ)..1, (fun u : ℝ => u ^ 3 / 3 - u ^ 2 / 2 + u / 6) (Int.fract (c + a)) = ∫ x in (0 : ℝ)..1, (x ^ 3 / 3 - x ^ 2 / 2 + x / 6) := fun a => fract_shift (fun u : ℝ => u ^ 3 / 3 - u ^ 2 / 2 + u / 6) a
  set q : ℝ → ℝ := fun c => 1 / 12 + 1 / L * ((fun u : ℝ => u ^ 3 / 3 - u ^ 2 / 2 + u / 6) (Int.fract (c + L / 2)) - (fun u : ℝ => u ^ 3 / 3 - u ^ 2 / 2 + u / 6) (Int.fract (c + -(L / 2)))) with hq
  have hqi : IntervalIntegrable q volume 0 1 := intervalIntegrable_const.add (((hQi _).sub (hQi _)).const_mul _)
  have hqm : ∫ c in (0 : ℝ)..1, q c = 1 / 12 := by
    rw [hq, intervalIntegral.integral_add intervalIntegrable_const (((hQi _).sub (hQi _)).const_mul _), intervalIntegral.integral_const_mul, intervalIntegral.integral_sub (hQi _) (hQi _), hQ, hQ]
    simp
  have hgi : IntervalIntegrable (fun c : ℝ => sawRigidity L (Int.fract (c + L / 2)) (Int.fract (c - L / 2))) volume 0 1 := bounded_interval _ 1 (saw_measurable L) (fun c => saw_bound L c hL) _ _
  have hup : ∀ c, sawRigidity L (Int.fract (c + L / 2)) (Int.fract (c - L / 2)) ≤ q c ∧ q c ≤ sawRigidity L (Int.fract (c + L / 2)) (Int.fract (c - L / 2)) + 1 / (4 * L ^ 2) := fun c => by
    have hR : ∀ x : ℝ, HasDerivAt (fun u : ℝ => u ^ 2 / 4 - u ^ 3 / 6 - u / 12) ((x - x ^ 2) / 2 - 1 / 12) x := fun x => by
      have := (((hasDerivAt_pow 2 x).div_const 4).sub ((hasDerivAt_pow 3 x).div_const 6)).sub ((hasDerivAt_id x).div_const 12)
      refine this.congr_deriv ?_
      norm_num
      ring
    have i3 := fract_integrable (fun x => (x - x ^ 2) / 2) (by fun_prop) (c - L / 2) (c + L / 2)
    have f3 := fract_ftc _ _ hR (by fun_prop) (by norm_num) (c - L / 2) (c + L / 2)
    have hba : c + L / 2 - (c - L / 2) = L := by ring
    rw [intervalIntegral.integral_sub i3 intervalIntegrable_const, intervalIntegral.integral_const, hba, smul_eq_mul] at f3
    have hS : ∀ x : ℝ, 0 ≤ x → x ≤ 1 → 0 ≤ (x - x ^ 2) / 2 ∧ (x - x ^ 2) / 2 ≤ 1 / 8 := fun x h0 h1 => ⟨by nlinarith, by nlinarith [sq_nonneg (x - 1 / 2)]⟩
    have j1 : 0 ≤ ∫ t in (c - L / 2)..(c + L / 2), (Int.fract t - Int.fract t ^ 2) / 2 :=
      intervalIntegral.integral_nonneg (by linarith) fun t _ => (hS _ (Int.fract_nonneg t) (Int.fract_lt_one t).le).1
    have j2 : ∫ t in (c - L / 2)..(c + L / 2), (Int.fract t - Int.fract t ^ 2) / 2 ≤ L / 8 := by
      have := intervalIntegral.integral_mono_on (a := c - L / 2) (b := c + L / 2) (by linarith) i3 (intervalIntegrable_const (c := (1 / 8 : ℝ))) fun t _ => (hS _ (Int.fract_nonneg t) (Int.fract_lt_one t).le).2
      rw [intervalIntegral.integral_const, hba, smul_eq_mul] at this
      linarith
    simp only [hq]
    rw [show c + -(L / 2) = c - L / 2 by ring]
    have hu := hS _ (Int.fract_nonneg (c + L / 2)) (Int.fract_lt_one (c + L / 2)).le
    have hv := hS _ (Int.fract_nonneg (c - L / 2)) (Int.fract_lt_one (c - L / 2)).le
    set u := Int.fract (c + L / 2)
    set v := Int.fract (c - L / 2)
    set I := ∫ t in (c - L / 2)..(c + L / 2), (Int.fract t - Int.fract t ^ 2) / 2
    have hI : L / 12 + ((u ^ 2 / 4 - u ^ 3 / 6 - u / 12) - (v ^ 2 / 4 - v ^ 3 / 6 - v / 12)) = I := by linarith
    unfold sawRigidity
    rw [hI]
    set A := (u - u ^ 2) / 2
    set B := (v - v ^ 2) / 2
    set Q := (u ^ 3 / 3 - u ^ 2 / 2 + u / 6) - (v ^ 3 / 3 - v ^ 2 / 2 + v / 6)
    have e1 : 1 / L * (L / 12 + Q - 12 / L ^ 3 * (L / 2 * (A + B) - I) ^ 2 - 1 / L * (A - B) ^ 2) = 1 / 12 + 1 / L * Q - (12 / L ^ 4 * (L / 2 * (A + B) - I) ^ 2 + 1 / L ^ 2 * (A - B) ^ 2) := by
      field_simp
      ring
    rw [e1]
    have s1 : (L / 2 * (A + B) - I) ^ 2 ≤ (L / 8) ^ 2 := by
      have : 0 ≤ L / 2 * (A + B) := mul_nonneg (by linarith) (by linarith [hu.1, hv.1])
      have : L / 2 * (A + B) ≤ L / 2 * (1 / 4) := mul_le_mul_of_nonneg_left (by linarith [hu.2, hv.2]) (by linarith)
      exact sq_le_sq' (by linarith) (by linarith)
    have s2 : (A - B) ^ 2 ≤ (1 / 8) ^ 2 := sq_le_sq' (by linarith [hu.1, hv.2]) (by linarith [hu.2, hv.1])
    have s3 : 12 / L ^ 4 * (L / 2 * (A + B) - I) ^ 2 ≤ 12 / L ^ 4 * (L / 8) ^ 2 := mul_le_mul_of_nonneg_left s1 (by positivity)
    have s4 : 1 / L ^ 2 * (A - B) ^ 2 ≤ 1 / L ^ 2 * (1 / 8) ^ 2 := mul_le_mul_of_nonneg_left s2 (by positivity)
    have s5 : 12 / L ^ 4 * (L / 8) ^ 2 + 1 / L ^ 2 * (1 / 8) ^ 2 = 13 / 64 * (1 / L ^ 2) := by
      field_simp
      norm_num
    have s6 : 1 / (4 * L ^ 2) = 16 / 64 * (1 / L ^ 2) := by
      field_simp
      norm_num
    have s7 : 0 < 1 / L ^ 2 := by positivity
    have s8 : 0 ≤ 12 / L ^ 4 * (L / 2 * (A + B) - I) ^ 2 := by positivity
    have s9 : 0 ≤ 1 / L ^ 2 * (A - B) ^ 2 := by positivity
    constructor <;> linarith
  refine ⟨?_, ?_, ?_⟩
  · have := intervalIntegral.integral_mono_on zero_le_one hqi (hgi.add (intervalIntegrable_const (c := 1 / (4 * L ^ 2)))) fun c _ => (hup c).2
    rw [hqm, intervalIntegral.integral_add hgi intervalIntegrable_const] at this
    simp only [intervalIntegral.integral_const, sub_zero, one_smul] at this
    unfold fenceRigidity
    linarith
  · have := intervalIntegral.integral_mono_on zero_le_one hgi hqi fun c _ => (hup c).1
    rw [hqm] at this
    exact this
  · exact intervalIntegral.integral_nonneg zero_le_one fun c _ => by
      rw [← saw_rigidity L c hL]
      exact delta3_nonneg _ _ _ (by linarith)

/-! ## Limits -/

theorem pickets_stairs (n : Nat) (t : ℝ) (h0 : 0 ≤ t) (hn : t < n + 1) : stairs pickets (n + 1) () t = 1 / 2 - Int.fract t + (1 * t + 1 / 2) := by
  classical
  have e : stairs pickets (n + 1) () t = (((Finset.range (n + 1)).filter fun j : ℕ => (j : ℝ) ≤ t).card : ℝ) := by
    rw [Finset.card_filter]
    push_cast
    exact Finset.sum_congr rfl fun j _ => rfl
  have e2 : (Finset.range (n + 1)).filter (fun j : ℕ => (j : ℝ) ≤ t) = Finset.range (⌊t⌋₊ + 1) := by
    ext j
    rw [Finset.mem_filter, Finset.mem_range, Finset.mem_range, ← Nat.le_floor_iff h0, Nat.lt_succ_iff]
    have : ⌊t⌋₊ < n + 1 := by
      rw [Nat.floor_lt h0]
      exact_mod_cast hn
    omega
  rw [e, e2, Finset.card_range]
  have h := Int.self_sub_floor t
  have h2 : ((⌊t⌋₊ : ℕ) : ℝ) = ⌊t⌋ := natCast_floor_eq_intCast_floor h0
  push_cast
  linarith

theorem d3k_line_measurable (L x y : ℝ) : Measurable fun c : ℝ => d3k L c x y := by
  have h : Continuous fun c : ℝ => d3k L c x y := by
    unfold d3k clip
    fun_prop
  exact h.measurable

theorem pair_line_measurable (L : ℝ) (N : ℕ) : Measurable fun c : ℝ => ∑ i ∈ Finset.range N, ∑ j ∈ Finset.range N, d3k L c (pickets i ()) (pickets j ()) :=
  Finset.measurable_sum _ fun _ _ => Finset.measurable_sum _ fun _ _ => d3k_line_measurable L _ _

theorem pickets_rigidity (L : ℝ) (hL : 0 < L) : Tendsto (fun n : ℕ => Spec.average 0 n fun c => delta3 (stairs pickets (n + 1) ()) (c - L / 2) (c + L / 2)) atTop (𝓝 (fenceRigidity L)) := by
  have hst : ∀ N, LocalStat pickets N L 3 fun ω c => ∑ i ∈ Finset.range N, ∑ j ∈ Finset.range N, d3k L c (pickets i ω) (pickets j ω) := fun N =>
    pair_stat (fun k => measurable_const) N (by norm_num) (d3k L) (d3k_measurable L) (d3k_bound hL)
  have hmeas : ∀ N : ℕ, Measurable fun c : ℝ => ∑ i ∈ Finset.range N, ∑ j ∈ Finset.range N, d3k L c (pickets i ()) (pickets j ()) := fun N =>
    pair_line_measurable L N
  have hK : 1 ≤ 3 * (1 + (L + 1) ^ 2) := by nlinarith
  refine periodic_average (fun n c => delta3 (stairs pickets (n + 1) ()) (c - L / 2) (c + L / 2)) (fun c => sawRigidity L (Int.fract (c + L / 2)) (Int.fract (c - L / 2))) L (3 * (1 + (L + 1) ^ 2)) hL.le (fun n => ?_) (fun n c => ?_) (saw_measurable L) (fun c => (saw_bound L c hL).trans hK) (saw_periodic L) fun n c h1 h2 => ?_
  · rw [funext fun c => delta3_pairs pickets (n + 1) () L c hL]
    exact hmeas (n + 1)
  · simp only [delta3_pairs _ _ _ L _ hL]
    refine ((hst (n + 1)).bound () c).trans ?_
    have a1 := (pickets_le (n + 1) L c hL.le).trans (integersIn_bounds L c).2
    have a2 : 0 ≤ ∑ j ∈ Finset.range (n + 1), near (L / 2) c (pickets j ()) := Finset.sum_nonneg fun j _ => by
      unfold near
      split_ifs <;> norm_num
    have := pow_le_pow_left₀ a2 a1 2
    linarith
  · rw [← saw_rigidity L c hL, ← delta3_line (fun t => 1 / 2 - Int.fract t) _ _ 1 (1 / 2)]
    unfold delta3
    refine iInf_congr fun l => ?_
    unfold deviation
    congr 1
    refine intervalIntegral.integral_congr fun t ht => ?_
    rw [uIcc_of_le (by linarith)] at ht
    simp only [pickets_stairs n t (by linarith [ht.1]) (by linarith [ht.2])]

theorem pickets_counts (L : ℝ) (hL : 0 ≤ L) :
    Tendsto (fun n : ℕ => Spec.average 0 n (fun c => ∑ j ∈ Finset.range (n + 1), near (L / 2) c (pickets j ()))) atTop (𝓝 L) ∧
    Tendsto (fun n : ℕ => Spec.average 0 n (fun c => (∑ j ∈ Finset.range (n + 1), near (L / 2) c (pickets j ())) ^ 2)) atTop (𝓝 (L ^ 2 + Int.fract L * (1 - Int.fract L))) := by
  have hm : ∀ N, Measurable fun c : ℝ => ∑ j ∈ Finset.range N, near (L / 2) c (pickets j ()) := fun N => by
    refine Finset.measurable_sum _ fun j _ => ?_
    unfold near
    refine Measurable.ite ?_ measurable_const measurable_const
    exact measurableSet_le ((measurable_id.sub_const _).abs) measurable_const
  have a2 : ∀ N c, 0 ≤ ∑ j ∈ Finset.range N, near (L / 2) c (pickets j ()) := fun N c => Finset.sum_nonneg fun j _ => by
    unfold near
    split_ifs <;> norm_num
  have a1 : ∀ N c, ∑ j ∈ Finset.range N, near (L / 2) c (pickets j ()) ≤ L + 1 := fun N c => (pickets_le N L c hL).trans (integersIn_bounds L c).2
  have a3 : ∀ c, |integersIn L c| ≤ L + 1 := fun c => by
    have h := integersIn_bounds L c
    rw [abs_le]
    constructor <;> linarith
  constructor
  · have hlim : Tendsto (fun n : ℕ => Spec.average 0 n (fun c => ∑ j ∈ Finset.range (n + 1), near (L / 2) c (pickets j ()))) atTop (𝓝 (∫ c in (0 : ℝ)..1, integersIn L c)) := ?_
    · rw [integersIn_mean] at hlim
      exact hlim
    exact periodic_average (fun n c => ∑ j ∈ Finset.range (n + 1), near (L / 2) c (pickets j ())) (integersIn L) L (L + 1) hL (fun n => hm _) (fun n c => by rw [abs_of_nonneg (a2 _ c)]; exact a1 _ c) (integersIn_measurable L) a3 (integersIn_periodic L) fun n c h1 h2 => pickets_inside n L c hL h1 h2
  · rw [← integersIn_sq L]
    refine periodic_average (fun n c => (∑ j ∈ Finset.range (n + 1), near (L / 2) c (pickets j ())) ^ 2) (fun c => integersIn L c ^ 2) L ((L + 1) ^ 2) hL (fun n => (hm _).pow_const 2) (fun n c => ?_) ((integersIn_measurable L).pow_const 2) (fun c => ?_) (fun c => ?_) fun n c h1 h2 => ?_
    · rw [abs_of_nonneg (sq_nonneg _)]
      exact pow_le_pow_left₀ (a2 _ c) (a1 _ c) 2
    · rw [abs_pow]
      exact pow_le_pow_left₀ (abs_nonneg _) (a3 c) 2
    · simp only [integersIn_periodic L c]
    · simp only [pickets_inside n L c hL h1 h2]

end UniformM
end RMT
