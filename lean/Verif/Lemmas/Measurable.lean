import Verif.Props.Step
import Verif.Lemmas.Rigidity
import Verif.Lemmas.LevelVar
import Verif.Spec.Draws
import Mathlib.MeasureTheory.Constructions.BorelSpace.Order

/-! # The Monte-Carlo samples as functions of the window centre: measurable and bounded; the law of large numbers for them -/

namespace RMT
namespace Rigidity
open Spec Step Utils MeasureTheory

/-- The rigidity sample from the counts at the grid points. -/
noncomputable def fromCounts (L : ℝ) (n : Nat) (s : Bool) (steps : List ℝ) : ℝ :=
  let grid := linspace (-(L / 2)) (L / 2) n
  let y := sqLinDeviation steps (Rigidity.slope grid steps) (intercept grid steps (Rigidity.slope grid steps)) grid
  (if s then intSimpsNonunif grid y else integrateFast grid y) / L

theorem linspace_shift (L c : ℝ) (n : Nat) : linspace (c - L / 2) (c + L / 2) n = (linspace (-(L / 2)) (L / 2) n).map fun v => 1 * v + c := by
  rw [← linspace_affine]
  congr 1 <;> ring

theorem d3Sample_counts (levels : List ℝ) (L : ℝ) (n : Nat) (hn : 1 ≤ n) (s : Bool) (c : ℝ) (ret : List Nat) (h : stepFunctionFast levels (linspace (c - L / 2) (c + L / 2) n) = .ok ret) :
    d3Sample levels L n s c = .ok (fromCounts L n s (ret.map fun k : Nat => (k : ℝ))) := by
  have hne : linspace (-(L / 2)) (L / 2) n ≠ [] := by
    intro h
    have := length_linspace (-(L / 2)) (L / 2) n
    rw [h] at this
    simp at this
    omega
  unfold d3Sample fromCounts
  simp only [h, bind, Except.bind, pure, Except.pure]
  rw [linspace_shift]
  have e1 := slope_affine (linspace (-(L / 2)) (L / 2) n) (ret.map fun k : Nat => (k : ℝ)) hne 1 c one_ne_zero
  rw [e1, sqLinDeviation_affine _ _ hne _ 1 c one_ne_zero]
  cases s
  · simp only [Bool.false_eq_true, if_false]
    rw [integrateFast_affine _ _ 1 c, one_mul]
  · simp only [if_true]
    rw [intSimps_affine _ _ 1 c one_ne_zero, one_mul]

/-- The count at grid point `i`. -/
noncomputable def countAt (levels : List ℝ) (hne : levels ≠ []) (L : ℝ) (n : Nat) (i : Nat) (c : ℝ) : Nat :=
  if (linspace (c - L / 2) (c + L / 2) (n + 1)).getLast (by simp [linspace]) ≤ levels.head hne then 0
  else countReached levels (linspace (c - L / 2) (c + L / 2) (n + 1)) i

theorem countAt_mono (levels : List ℝ) (hne : levels ≠ []) (L : ℝ) (n : Nat) (i : Nat) : Monotone (countAt levels hne L n i) := by
  intro a b hab
  unfold countAt
  split_ifs with h1 h2 h2
  · exact le_rfl
  · exact Nat.zero_le _
  · exfalso
    apply h1
    refine le_trans ?_ h2
    simp only [List.getLast_eq_getElem, getElem_linspace, length_linspace]
    have : a + L / 2 - (a - L / 2) = b + L / 2 - (b - L / 2) := by ring
    rw [this]
    linarith
  · unfold countReached
    apply List.countP_mono_left
    intro e _ h
    rw [List.any_eq_true] at h ⊢
    obtain ⟨q, hq, hle⟩ := h
    simp only [decide_eq_true_eq] at hle ⊢
    obtain ⟨k, hk, rfl⟩ := List.mem_iff_getElem.mp hq
    have hk' : k < ((linspace (b - L / 2) (b + L / 2) (n + 1)).take (i + 1)).length := by simpa using hk
    refine ⟨_, List.getElem_mem hk', le_trans hle ?_⟩
    simp only [List.getElem_take, getElem_linspace]
    have : a + L / 2 - (a - L / 2) = b + L / 2 - (b - L / 2) := by ring
    rw [this]
    linarith

theorem countAt_le (levels : List ℝ) (hne : levels ≠ []) (L : ℝ) (n : Nat) (i : Nat) (c : ℝ) : countAt levels hne L n i c ≤ levels.length := by
  unfold countAt
  split_ifs
  · exact Nat.zero_le _
  · exact List.countP_le_length

/-- The rigidity sample is a measurable bounded function of the window centre. -/
theorem d3Sample_measurable (levels : List ℝ) (hne : levels ≠ []) (hs : Ascending levels) (L : ℝ) (n : Nat) (hn : 1 ≤ n) (s : Bool) :
    ∃ D : ℝ → ℝ, (∀ c, d3Sample levels L n s c = .ok (D c)) ∧ Measurable D ∧ ∃ B, ∀ c, |D c| ≤ B := by
  obtain ⟨m, rfl⟩ : ∃ m, n = m + 1 := ⟨n - 1, by omega⟩
  set F : (Fin (m + 1) → Nat) → ℝ := fun v => fromCounts L (m + 1) s ((List.ofFn v).map fun k : Nat => (k : ℝ)) with hF
  have hlen : ∀ c : ℝ, linspace (c - L / 2) (c + L / 2) (m + 1) ≠ [] := by
    intro c h
    have := length_linspace (c - L / 2) (c + L / 2) (m + 1)
    rw [h] at this
    simp at this
  refine ⟨fun c => F fun i => countAt levels hne L m i c, ?_, ?_, ?_⟩
  · intro c
    obtain ⟨ret, h1, h2, h3⟩ := Props.C01_step_array levels (linspace (c - L / 2) (c + L / 2) (m + 1)) hne (hlen c) hs
    rw [d3Sample_counts levels L (m + 1) hn s c ret h1]
    have : ret = List.ofFn fun i : Fin (m + 1) => countAt levels hne L m i c := by
      apply List.ext_getElem
      · rw [h2]; simp
      · intro i hi hi'
        rw [h3, List.getElem_ofFn]
        rfl
    rw [this]
  · apply (measurable_of_countable F).comp
    exact measurable_pi_iff.mpr fun i => (countAt_mono levels hne L m i).measurable
  · have hfin : (Set.Iic (fun _ : Fin (m + 1) => levels.length)).Finite := by
      have : Set.Iic (fun _ : Fin (m + 1) => levels.length) = Set.univ.pi fun _ => Set.Iic levels.length := by
        ext v; simp [Pi.le_def]
      rw [this]
      exact Set.Finite.pi fun _ => Set.finite_Iic levels.length
    obtain ⟨B, hB⟩ := (hfin.image fun v => |F v|).bddAbove
    exact ⟨B, fun c => hB ⟨_, fun i => countAt_le levels hne L m i c, rfl⟩⟩

end Rigidity

namespace LevelVar
open Spec Rigidity MeasureTheory

/-- The number of levels in a window is a measurable bounded function of its centre. -/
theorem nWithin_measurable (levels : List ℝ) (L : ℝ) : Measurable (fun c => (nWithin levels L c : ℝ)) ∧ ∀ c, |(nWithin levels L c : ℝ)| ≤ levels.length := by
  constructor
  · induction levels with
    | nil => simp [nWithin]
    | cons e l ih =>
      have : (fun c => (nWithin (e :: l) L c : ℝ)) = fun c => (nWithin l L c : ℝ) + (Set.Icc (e - L / 2) (e + L / 2)).indicator (fun _ => (1 : ℝ)) c := by
        funext c
        have h1 : nWithin (e :: l) L c = nWithin l L c + if c ∈ Set.Icc (e - L / 2) (e + L / 2) then 1 else 0 := by
          unfold nWithin
          rw [List.filter_cons]
          have : (decide (e ≥ c - L / 2) && decide (e ≤ c + L / 2)) = decide (c ∈ Set.Icc (e - L / 2) (e + L / 2)) := by
            rw [Bool.eq_iff_iff]
            simp only [ge_iff_le, Bool.and_eq_true, decide_eq_true_eq, Set.mem_Icc]
            constructor <;> rintro ⟨h1, h2⟩ <;> constructor <;> linarith
          rw [this]
          by_cases h : c ∈ Set.Icc (e - L / 2) (e + L / 2) <;> simp [h]
        rw [h1, Set.indicator_apply]
        push_cast
        rfl
      rw [this]
      exact ih.add (measurable_const.indicator measurableSet_Icc)
  · intro c
    rw [abs_of_nonneg (Nat.cast_nonneg _)]
    exact_mod_cast List.length_filter_le _ _

end LevelVar

namespace Draws
open Spec MeasureTheory ProbabilityTheory Rigidity

/-- The strong law of large numbers for bounded functions of uniform draws. -/
theorem lln {Ω : Type} [MeasurableSpace Ω] (P : Measure Ω) [IsProbabilityMeasure P] (U : Nat → Ω → ℝ) (hU : UniformDraws P U) (g : ℝ → ℝ) (hg : Measurable g) (B : ℝ) (hB : ∀ x, |g x| ≤ B) :
    ∀ᵐ ω ∂P, Filter.Tendsto (runMean fun j => g (U j ω)) Filter.atTop (nhds (∫ u in Set.Ico (0 : ℝ) 1, g u)) := by
  have h1 : Integrable (fun ω => g (U 0 ω)) P :=
    Integrable.of_bound (hg.comp (hU.measurable 0)).aestronglyMeasurable B (Filter.Eventually.of_forall fun ω => by rw [Real.norm_eq_abs]; exact hB _)
  have h2 : ∫ ω, g (U 0 ω) ∂P = ∫ u in Set.Ico (0 : ℝ) 1, g u := by
    rw [← hU.law 0, integral_map (hU.measurable 0).aemeasurable hg.aestronglyMeasurable]
  rw [← h2]
  exact strong_law_ae_real (fun j ω => g (U j ω)) h1 (fun i j hij => (hU.indep hij).comp hg hg)
    fun i => IdentDistrib.comp (⟨(hU.measurable i).aemeasurable, (hU.measurable 0).aemeasurable, by rw [hU.law, hU.law]⟩ : IdentDistrib (U i) (U 0) P P) hg

theorem average_eq (lo hi : ℝ) (f : ℝ → ℝ) : ∫ u in Set.Ico (0 : ℝ) 1, f (uniform lo hi u) = average lo hi f := by
  rw [integral_Ico_eq_integral_Ioc, ← intervalIntegral.integral_of_le zero_le_one]
  unfold average
  split_ifs with h
  · subst h
    simp [uniform]
  · have h0 : hi - lo ≠ 0 := sub_ne_zero.mpr (Ne.symm h)
    have := intervalIntegral.integral_comp_mul_add (a := 0) (b := 1) f h0 lo
    rw [show (hi - lo) * 0 + lo = lo by ring, show (hi - lo) * 1 + lo = hi by ring, smul_eq_mul] at this
    rw [one_div, ← this]
    apply intervalIntegral.integral_congr
    intro u _
    simp only [uniform]
    congr 1
    ring

theorem uniform_measurable (lo hi : ℝ) : Measurable (uniform lo hi) := by
  unfold uniform
  fun_prop

theorem shift {Ω : Type} [MeasurableSpace Ω] (P : Measure Ω) (U : Nat → Ω → ℝ) (hU : UniformDraws P U) : UniformDraws P fun j => U (j + 1) :=
  ⟨fun j => hU.measurable _, fun i j hij => hU.indep (by omega), fun j => hU.law _⟩

/-- The law of large numbers for functions of the window centre. -/
theorem lln_centre {Ω : Type} [MeasurableSpace Ω] (P : Measure Ω) [IsProbabilityMeasure P] (U : Nat → Ω → ℝ) (hU : UniformDraws P U) (lo hi : ℝ) (f : ℝ → ℝ) (hf : Measurable f) (B : ℝ) (hB : ∀ x, |f x| ≤ B) :
    ∀ᵐ ω ∂P, Filter.Tendsto (runMean fun j => f (uniform lo hi (U j ω))) Filter.atTop (nhds (average lo hi f)) := by
  rw [← average_eq]
  exact lln P U hU (fun u => f (uniform lo hi u)) (hf.comp (uniform_measurable lo hi)) B fun x => hB _

/-- The sample variance converges to the variance. -/
theorem variance_centre {Ω : Type} [MeasurableSpace Ω] (P : Measure Ω) [IsProbabilityMeasure P] (U : Nat → Ω → ℝ) (hU : UniformDraws P U) (lo hi : ℝ) (f : ℝ → ℝ) (hf : Measurable f) (B : ℝ) (hB : ∀ x, |f x| ≤ B) :
    ∀ᵐ ω ∂P, Filter.Tendsto (runVar fun j => f (uniform lo hi (U j ω))) Filter.atTop (nhds (average lo hi fun c => (f c - average lo hi f) ^ 2)) := by
  have hB0 : 0 ≤ B := le_trans (abs_nonneg _) (hB 0)
  have hsq : ∀ x, |f x * f x| ≤ B * B := fun x => by
    rw [abs_mul]; exact mul_le_mul (hB x) (hB x) (abs_nonneg _) hB0
  have hmean : average lo hi (fun c => (f c - average lo hi f) ^ 2) = average lo hi (fun c => f c * f c) - average lo hi f * average lo hi f := by
    have hi1 : IntegrableOn (fun u => f (uniform lo hi u)) (Set.Ico (0 : ℝ) 1) :=
      Integrable.of_bound (hf.comp (uniform_measurable lo hi)).aestronglyMeasurable B (Filter.Eventually.of_forall fun u => by rw [Real.norm_eq_abs]; exact hB _)
    have hi2 : IntegrableOn (fun u => f (uniform lo hi u) * f (uniform lo hi u)) (Set.Ico (0 : ℝ) 1) :=
      Integrable.of_bound ((hf.comp (uniform_measurable lo hi)).mul (hf.comp (uniform_measurable lo hi))).aestronglyMeasurable (B * B) (Filter.Eventually.of_forall fun u => by rw [Real.norm_eq_abs]; exact hsq _)
    set m := average lo hi f with hm
    rw [← average_eq, ← average_eq]
    rw [← average_eq] at hm
    have e : ∀ u : ℝ, (f (uniform lo hi u) - m) ^ 2 = f (uniform lo hi u) * f (uniform lo hi u) - 2 * m * f (uniform lo hi u) + m * m := fun u => by ring
    simp only [e]
    have h1 : Integrable (fun u => f (uniform lo hi u) * f (uniform lo hi u) - 2 * m * f (uniform lo hi u)) (volume.restrict (Set.Ico (0 : ℝ) 1)) := hi2.sub (hi1.const_mul _)
    have h2 : Integrable (fun u => 2 * m * f (uniform lo hi u)) (volume.restrict (Set.Ico (0 : ℝ) 1)) := hi1.const_mul _
    rw [integral_add h1 (integrable_const _), integral_sub hi2 h2, integral_const_mul, ← hm, integral_const]
    simp
    ring
  rw [hmean]
  filter_upwards [lln_centre P U hU lo hi f hf B hB, lln_centre P U hU lo hi (fun c => f c * f c) (hf.mul hf) (B * B) hsq] with ω h1 h2
  refine (h2.sub (h1.mul h1)).congr' ?_
  filter_upwards [Filter.eventually_gt_atTop 0] with k hk
  exact LevelVar.runVar_eq (fun j => f (uniform lo hi (U j ω))) k (by omega)

end Draws
end RMT
