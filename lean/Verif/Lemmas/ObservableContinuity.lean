import Verif.Lemmas.RigidityKernel
import Mathlib.MeasureTheory.Integral.DominatedConvergence

/-!
# The averaged observables are continuous functions of the levels
-/

namespace RMT
namespace UniformM
open MeasureTheory Real Set Spec Filter Topology

/-- The average over an interval, in units of its length. -/
theorem average_unit (a b : ℝ) (f : ℝ → ℝ) : Spec.average a b f = ∫ t in (0 : ℝ)..1, f (a + (b - a) * t) := by
  unfold Spec.average
  split_ifs with h
  · subst h
    simp
  · have hne : b - a ≠ 0 := sub_ne_zero.mpr (Ne.symm h)
    rw [intervalIntegral.integral_comp_add_mul (fun x => f x) hne, smul_eq_mul, mul_zero, add_zero, mul_one, add_sub_cancel, one_div]

/-- The `k`-th of `N` levels. -/
noncomputable def coord (N : ℕ) (k : ℕ) (v : Fin N → ℝ) : ℝ := if h : k < N then v ⟨k, h⟩ else 0

theorem coord_continuous (N k : ℕ) : Continuous (coord N k) := by
  unfold coord
  split_ifs with h
  · exact continuous_apply _
  · exact continuous_const

/-- The number of levels in the window of length `L` at the relative position `t`. -/
noncomputable def relCount (N : ℕ) (L : ℝ) (p : (Fin N → ℝ) × ℝ × ℝ) (t : ℝ) : ℝ := ∑ j ∈ Finset.range N, near (L / 2) (p.2.1 + (p.2.2 - p.2.1) * t) (coord N j p.1)

theorem relCount_measurable (N : ℕ) (L : ℝ) (p : (Fin N → ℝ) × ℝ × ℝ) : Measurable (relCount N L p) := by
  unfold relCount near
  refine Finset.measurable_sum _ fun j _ => Measurable.ite ?_ measurable_const measurable_const
  exact measurableSet_le (by fun_prop) measurable_const

theorem relCount_bound (N : ℕ) (L : ℝ) (p : (Fin N → ℝ) × ℝ × ℝ) (t : ℝ) : |relCount N L p t| ≤ N := by
  unfold relCount
  refine (Finset.abs_sum_le_sum_abs _ _).trans ?_
  calc _ ≤ ∑ j ∈ Finset.range N, (1 : ℝ) := Finset.sum_le_sum fun j _ => by
        unfold near
        split_ifs <;> norm_num
    _ = N := by simp

theorem near_continuousAt (L x y : ℝ) (h : |x - y| ≠ L) : ContinuousAt (fun p : ℝ × ℝ => near L p.1 p.2) (x, y) := by
  have hc : Continuous fun p : ℝ × ℝ => |p.1 - p.2| := by fun_prop
  rcases lt_or_gt_of_ne h with h | h
  · have : (fun p : ℝ × ℝ => near L p.1 p.2) =ᶠ[𝓝 (x, y)] fun _ => 1 := by
      filter_upwards [hc.continuousAt.eventually_lt continuousAt_const h] with p hp
      simp only [near, if_pos hp.le]
    exact (continuousAt_const).congr this.symm
  · have : (fun p : ℝ × ℝ => near L p.1 p.2) =ᶠ[𝓝 (x, y)] fun _ => 0 := by
      filter_upwards [continuousAt_const.eventually_lt hc.continuousAt h] with p hp
      simp only [near, if_neg (not_le.mpr hp)]
    exact (continuousAt_const).congr this.symm

theorem relCount_continuousAt (N : ℕ) (L : ℝ) (p : (Fin N → ℝ) × ℝ × ℝ) (hp : p.2.1 < p.2.2) :
    ∀ᵐ t : ℝ, ContinuousAt (fun q => relCount N L q t) p := by
  have h : ∀ j : ℕ, ∀ᵐ t : ℝ, |p.2.1 + (p.2.2 - p.2.1) * t - coord N j p.1| ≠ L / 2 := fun j => by
    have hne : p.2.2 - p.2.1 ≠ 0 := by linarith
    filter_upwards [Measure.ae_ne volume ((L / 2 + coord N j p.1 - p.2.1) / (p.2.2 - p.2.1)), Measure.ae_ne volume ((-(L / 2) + coord N j p.1 - p.2.1) / (p.2.2 - p.2.1))] with t h1 h2 he
    rcases eq_or_eq_neg_of_abs_eq he with e | e
    · exact h1 (by rw [eq_div_iff hne]; linarith)
    · exact h2 (by rw [eq_div_iff hne]; linarith)
  filter_upwards [ae_all_iff.mpr h] with t ht
  unfold relCount
  refine tendsto_finsetSum _ fun j _ => ?_
  have hcont : Continuous fun q : (Fin N → ℝ) × ℝ × ℝ => (q.2.1 + (q.2.2 - q.2.1) * t, coord N j q.1) := by
    have := (coord_continuous N j).comp (continuous_fst (X := Fin N → ℝ) (Y := ℝ × ℝ))
    exact Continuous.prodMk (by fun_prop) this
  exact ContinuousAt.comp (g := fun r : ℝ × ℝ => near (L / 2) r.1 r.2) (f := fun q : (Fin N → ℝ) × ℝ × ℝ => (q.2.1 + (q.2.2 - q.2.1) * t, coord N j q.1)) (x := p) (near_continuousAt _ _ _ (ht j)) hcont.continuousAt

theorem moments_continuousAt (N : ℕ) (L : ℝ) (m : ℕ) (p : (Fin N → ℝ) × ℝ × ℝ) (hp : p.2.1 < p.2.2) :
    ContinuousAt (fun q => ∫ t in (0 : ℝ)..1, relCount N L q t ^ m) p := by
  refine intervalIntegral.continuousAt_of_dominated_interval (bound := fun _ => (N : ℝ) ^ m) (Eventually.of_forall fun q => ((relCount_measurable N L q).pow_const m).aestronglyMeasurable)
    (Eventually.of_forall fun q => Eventually.of_forall fun t _ => ?_) intervalIntegrable_const ?_
  · rw [Real.norm_eq_abs, abs_pow]
    exact pow_le_pow_left₀ (abs_nonneg _) (relCount_bound N L q t) m
  · filter_upwards [relCount_continuousAt N L p hp] with t ht _
    exact ht.pow m

theorem d3k_continuous (L : ℝ) : Continuous fun p : ℝ × ℝ × ℝ => d3k L p.1 p.2.1 p.2.2 := by
  unfold d3k clip
  fun_prop

theorem rigidity_continuous (N : ℕ) (L : ℝ) (hL : 0 < L) :
    Continuous fun q : (Fin N → ℝ) × ℝ × ℝ => ∫ t in (0 : ℝ)..1, delta3 (stairs (coord N) N q.1) (q.2.1 + (q.2.2 - q.2.1) * t - L / 2) (q.2.1 + (q.2.2 - q.2.1) * t + L / 2) := by
  simp only [delta3_pairs _ _ _ L _ hL]
  refine intervalIntegral.continuous_parametric_intervalIntegral_of_continuous' ?_ 0 1
  simp only [Function.uncurry_def]
  refine continuous_finsetSum _ fun i _ => continuous_finsetSum _ fun j _ => ?_
  have h1 := ((coord_continuous N i).comp (continuous_fst (X := Fin N → ℝ) (Y := ℝ × ℝ))).comp (continuous_fst (Y := ℝ))
  have h2 := ((coord_continuous N j).comp (continuous_fst (X := Fin N → ℝ) (Y := ℝ × ℝ))).comp (continuous_fst (Y := ℝ))
  have h0 : Continuous fun q : ((Fin N → ℝ) × ℝ × ℝ) × ℝ => q.1.2.1 + (q.1.2.2 - q.1.2.1) * q.2 := by fun_prop
  exact (d3k_continuous L).comp (h0.prodMk (h1.prodMk h2))

end UniformM
end RMT
