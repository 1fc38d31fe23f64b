import Verif.Lemmas.Delta3
import Verif.Props.Step

/-!
# Property C107: on fine grids the rigidity sample is the Dyson-Mehta statistic of the window
-/

namespace RMT
namespace Spec

/-- `(1/L) ∫ (N(x) - A x - B)² dx` over the window of length `L` centred at `c`, where `N(x)` is the number of levels `≤ x`. The Dyson-Mehta
statistic `Δ₃` of the window is the least value of this over all lines. -/
noncomputable def lineDeviation (levels : List ℝ) (L c A B : ℝ) : ℝ :=
  1 / L * ∫ x in (c - L / 2)..(c + L / 2), ((countLE levels x : ℝ) - A * x - B) ^ 2

end Spec

namespace Props
open Rigidity Step Spec Delta3

theorem countLE_mono (l : List ℝ) : Monotone fun x => (countLE l x : ℝ) := by
  intro a b hab
  have : countLE l a ≤ countLE l b := List.countP_mono_left fun e _ h => by
    simp only [decide_eq_true_eq] at h ⊢
    exact le_trans h hab
  exact Nat.cast_le.mpr this

/-- The window `[0, 1]`. -/
theorem unit_window (l : List ℝ) (hne : l ≠ []) (hs : Ascending l) :
    ∃ A B, (∀ A' B', mseUnit (fun x => (countLE l x : ℝ)) A B ≤ mseUnit (fun x => (countLE l x : ℝ)) A' B') ∧
      ∀ b, ∃ Y : ℝ → ℝ, Filter.Tendsto (fun n : Nat => sampleUnit b n Y) Filter.atTop (nhds (mseUnit (fun x => (countLE l x : ℝ)) A B)) ∧
        ∀ n : Nat, 1 ≤ n → d3Sample l 1 (n + 1) b (1 / 2) = .ok (sampleUnit b n Y) := by
  have hgrid : ∀ n : Nat, linspace ((1 : ℝ) / 2 - 1 / 2) (1 / 2 + 1 / 2) (n + 1) = tab n fun i => (i : ℝ) / n := by
    intro n
    rw [show (1 : ℝ) / 2 - 1 / 2 = 0 by norm_num, show (1 : ℝ) / 2 + 1 / 2 = 1 by norm_num, linspace_unit]
  have hne' : ∀ (n : Nat) (v : Nat → ℝ), tab n v ≠ [] := by
    intro n v h
    have := tab_length n v
    rw [h] at this
    simp at this
  have hlast : ∀ n : Nat, 1 ≤ n → (tab n fun i => (i : ℝ) / n).getLast (hne' n _) = 1 := by
    intro n hn
    have : (n : ℝ) ≠ 0 := by positivity
    simp [tab, List.getLast_eq_getElem, this]
  have hasc : ∀ n : Nat, Ascending (tab n fun i => (i : ℝ) / n) := by
    intro n
    unfold Ascending tab
    rw [List.pairwise_map]
    exact List.pairwise_lt_range.imp fun h => div_le_div_of_nonneg_right (by exact_mod_cast h.le) (Nat.cast_nonneg n)
  -- the values of the counts that the code uses
  have main : ∀ Y : ℝ → ℝ, Monotone Y → (∀ x, 0 ≤ Y x) → (∀ A B, mseUnit (fun x => (countLE l x : ℝ)) A B = mseUnit Y A B) →
      (∀ n : Nat, 1 ≤ n → ∃ ret : List Nat, stepFunctionFast l (tab n fun i => (i : ℝ) / n) = .ok ret ∧
        ret.map (fun n : Nat => (n : ℝ)) = tab n fun i => Y ((i : ℝ) / n)) →
      ∃ A B, (∀ A' B', mseUnit (fun x => (countLE l x : ℝ)) A B ≤ mseUnit (fun x => (countLE l x : ℝ)) A' B') ∧
      ∀ b, ∃ Y : ℝ → ℝ, Filter.Tendsto (fun n : Nat => sampleUnit b n Y) Filter.atTop (nhds (mseUnit (fun x => (countLE l x : ℝ)) A B)) ∧
        ∀ n : Nat, 1 ≤ n → d3Sample l 1 (n + 1) b (1 / 2) = .ok (sampleUnit b n Y) := by
    intro Y hY h0 he hst
    refine ⟨bestA Y, bestB Y, fun A' B' => by rw [he, he]; exact mseUnit_min Y hY h0 A' B', fun b => ⟨Y, ?_, ?_⟩⟩
    · rw [he]; exact sampleUnit_tendsto b Y hY h0
    · intro n hn
      obtain ⟨ret, h1, h2⟩ := hst n hn
      simp only [d3Sample, hgrid, h1, h2, bind, Except.bind, pure, Except.pure, div_one]
      rfl
  by_cases hz : (1 : ℝ) ≤ l.head hne
  · -- no level below the end of the window
    refine main (fun _ => 0) monotone_const (fun _ => le_rfl) ?_ ?_
    · intro A B
      unfold mseUnit
      rw [intervalIntegral.integral_of_le zero_le_one, intervalIntegral.integral_of_le zero_le_one,
        MeasureTheory.integral_Ioc_eq_integral_Ioo, MeasureTheory.integral_Ioc_eq_integral_Ioo]
      apply MeasureTheory.setIntegral_congr_fun measurableSet_Ioo
      intro x hx
      have : countLE l x = 0 := by
        unfold countLE
        rw [List.countP_eq_zero]
        intro e he
        simp only [decide_eq_true_eq, not_le]
        obtain ⟨k, hk, rfl⟩ := List.mem_iff_getElem.mp he
        have h1 := hs.le 0 k (by omega) hk (by omega)
        rw [List.head_eq_getElem] at hz
        exact lt_of_lt_of_le hx.2 (le_trans hz h1)
      simp only [this, Nat.cast_zero]
    · intro n hn
      obtain ⟨ret, h1, h2, h3⟩ := C01_step_array l _ hne (hne' n fun i => (i : ℝ) / n) hs
      refine ⟨ret, h1, ?_⟩
      apply List.ext_getElem
      · simpa [tab_length] using h2
      · intro i hi hi'
        rw [List.getElem_map, h3, if_pos (by rw [hlast n hn]; exact hz)]
        simp [tab]
  · refine main _ (countLE_mono l) (fun x => Nat.cast_nonneg _) (fun _ _ => rfl) ?_
    intro n hn
    have hne1 : (tab n fun i => (i : ℝ) / n).getLast (hne' n _) ≠ l.head hne := by
      rw [hlast n hn]
      exact fun h => hz h.le
    refine ⟨_, (C02_step_counts_partial l _ hne (hne' n _) hs (hasc n) hne1).1, ?_⟩
    simp [tab, Function.comp_def]

/-- **C107.** For every non-empty ascending spectrum, window length `L > 0`, window centre and integration rule: as the number of grid points grows, the
rigidity sample computed by the code converges to the Dyson-Mehta statistic of that window, the least mean square deviation of the counting function
from a straight line; and that minimum is attained. -/
theorem C107_sample (levels : List ℝ) (hne : levels ≠ []) (hs : Ascending levels) (L c : ℝ) (hL : 0 < L) :
    ∃ A₀ B₀, (∀ A B, lineDeviation levels L c A₀ B₀ ≤ lineDeviation levels L c A B) ∧
      ∀ (useSimpson : Bool) (ε : ℝ), 0 < ε → ∃ G : Nat, ∀ gridsize, G ≤ gridsize →
        ∃ d, d3Sample levels L gridsize useSimpson c = .ok d ∧ |d - lineDeviation levels L c A₀ B₀| < ε := by
  set t : ℝ := 1 / 2 - c / L with ht
  set φ : ℝ → ℝ := fun v => 1 / L * v + t with hφ
  have hφm : StrictMono φ := by
    intro a b hab
    have : 1 / L * a < 1 / L * b := mul_lt_mul_of_pos_left hab (by positivity)
    simp only [hφ]
    linarith
  have hs' : Ascending (levels.map φ) := by
    unfold Ascending at *
    rw [List.pairwise_map]
    exact hs.imp fun h => hφm.monotone h
  have hcount : ∀ x, countLE (levels.map φ) x = countLE levels (L * x + (c - L / 2)) := by
    intro x
    unfold countLE
    rw [List.countP_map]
    apply List.countP_congr
    intro e _
    simp only [Function.comp, decide_eq_true_eq, hφ, ht]
    have : 1 / L * e + (1 / 2 - c / L) ≤ x ↔ L * (1 / L * e + (1 / 2 - c / L)) ≤ L * x := (mul_le_mul_iff_right₀ hL).symm
    rw [this]
    have e2 : L * (1 / L * e + (1 / 2 - c / L)) = e + L / 2 - c := by field_simp; ring
    rw [e2]
    constructor <;> intro h <;> linarith
  have hint : ∀ A B, mseUnit (fun x => (countLE (levels.map φ) x : ℝ)) A B = lineDeviation levels L c (A / L) (B - A / L * (c - L / 2)) := by
    intro A B
    unfold mseUnit lineDeviation
    have := intervalIntegral.integral_comp_mul_add (a := 0) (b := 1)
      (fun u => ((countLE levels u : ℝ) - A / L * u - (B - A / L * (c - L / 2))) ^ 2) hL.ne' (c - L / 2)
    rw [show L * 0 + (c - L / 2) = c - L / 2 by ring, show L * 1 + (c - L / 2) = c + L / 2 by ring] at this
    rw [one_div, ← smul_eq_mul, ← this]
    apply intervalIntegral.integral_congr
    intro x _
    simp only [hcount]
    have : A / L * (L * x + (c - L / 2)) = A * x + A / L * (c - L / 2) := by field_simp
    rw [this]
    ring
  obtain ⟨A, B, hmin, hlim⟩ := unit_window (levels.map φ) (by simpa using hne) hs'
  refine ⟨A / L, B - A / L * (c - L / 2), ?_, ?_⟩
  · intro A' B'
    have := hmin (A' * L) (B' + A' * (c - L / 2))
    rw [hint, hint, mul_div_cancel_right₀ _ hL.ne', add_sub_cancel_right] at this
    exact this
  · intro b ε hε
    obtain ⟨Y, h1, h2⟩ := hlim b
    rw [Metric.tendsto_atTop] at h1
    obtain ⟨G, hG⟩ := h1 ε hε
    refine ⟨G + 2, fun g hg => ?_⟩
    obtain ⟨n, rfl⟩ : ∃ n, g = n + 1 := ⟨g - 1, by omega⟩
    have := h2 n (by omega)
    have ha := d3Sample_affine levels L (n + 1) b c (1 / L) t (by positivity)
    have e1 : 1 / L * L = 1 := by field_simp
    have e2 : 1 / L * c + t = 1 / 2 := by rw [ht]; ring
    rw [e1, e2] at ha
    refine ⟨_, ha.symm.trans this, ?_⟩
    have := hG n (by omega)
    rw [Real.dist_eq, hint] at this
    exact this

/-- Non-vacuity of C107: a spectrum with a tie and a window that cuts it. -/
example : ∃ A₀ B₀, (∀ A B, lineDeviation [0, 1, 1, 3] 2 1 A₀ B₀ ≤ lineDeviation [0, 1, 1, 3] 2 1 A B) ∧
    ∀ (useSimpson : Bool) (ε : ℝ), 0 < ε → ∃ G : Nat, ∀ gridsize, G ≤ gridsize →
      ∃ d, d3Sample [0, 1, 1, 3] 2 gridsize useSimpson 1 = .ok d ∧ |d - lineDeviation [0, 1, 1, 3] 2 1 A₀ B₀| < ε :=
  C107_sample _ (by simp) (by simp [Ascending]) 2 1 (by norm_num)

end Props
end RMT
