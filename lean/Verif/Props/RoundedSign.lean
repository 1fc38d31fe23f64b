import Verif.Lemmas.RoundedSign
import Verif.Props.RoundedSample

/-!
# C175: rigidities are non-negative in floating point
-/

namespace RMT
namespace Rounded
namespace Props
open Spec Utils Rigidity Step

variable {K : Type} [Field K] [LinearOrder K] [IsStrictOrderedRing K] {fl : K → K} {ε : K}

/-- The grid of `gridsize` points on a window of length `L` around `c` is resolved by the arithmetic: its spacing is at least 640 times the rounding error of a number of the size `|c| + L`. -/
def Resolved (ε c L : K) (gridsize : Nat) : Prop := 640 * ε * (|c| + L) ≤ L / ((gridsize : K) - 1)

theorem resolved_small (hε : 0 ≤ ε) {c L : K} (hL : 0 < L) {n : Nat} (hn : 3 ≤ n) (h : Resolved ε c L n) : ε ≤ 1 / 1000 ∧ 640 * (ε * (|c| + L)) * ((n : K) - 1) ≤ L := by
  have hn1 : (2 : K) ≤ (n : K) - 1 := by
    have : (3 : K) ≤ n := by exact_mod_cast hn
    linarith
  unfold Resolved at h
  rw [le_div_iff₀ (by linarith)] at h
  refine ⟨?_, by linarith⟩
  have h1 : 640 * ε * L ≤ 640 * ε * (|c| + L) := mul_le_mul_of_nonneg_left (by linarith [abs_nonneg c]) (by positivity)
  have h2 : 640 * ε * L * 2 ≤ 640 * ε * (|c| + L) * ((n : K) - 1) := mul_le_mul h1 hn1 (by norm_num) (le_trans (by positivity) h1)
  have h3 : 1280 * ε * L ≤ 1 * L := by linarith
  have := le_of_mul_le_mul_right h3 hL
  linarith

/-- **C175 (grid).** If the arithmetic resolves the grid, the rounded grid is strictly increasing, and all its computed spacings are within 5% of `L / (gridsize - 1)`: no integration rule divides by 0. -/
theorem C175_grid (h : RelRounding fl ε) (hε : 0 ≤ ε) (L : K) (hL : 0 < L) (gridsize : Nat) (hg : 3 ≤ gridsize) (c : K) (hres : Resolved ε c L gridsize) :
    ∀ x ∈ diff (linspaceFl fl (fl (c - fl (L / 2))) (fl (c + fl (L / 2))) gridsize), 0 < x ∧ |fl x - L / ((gridsize : K) - 1)| ≤ L / ((gridsize : K) - 1) / 20 := by
  obtain ⟨hε1, hp⟩ := resolved_small hε hL hg hres
  have hn1 : (0 : K) < (gridsize : K) - 1 := by
    have : (3 : K) ≤ gridsize := by exact_mod_cast hg
    linarith
  have hw := widths_near h hε hε1 c L hL gridsize (by omega) hp
  intro x hx
  obtain ⟨h1, h2, h3⟩ := hw x hx
  have hpos := div_pos hL hn1
  refine ⟨lt_of_le_of_ne h1 fun h0 => ?_, ?_⟩
  · have := h x
    rw [← h0, abs_zero, mul_zero, sub_zero] at this
    have := abs_nonpos_iff.mp this
    rw [← h0, this] at h2
    linarith
  · rw [abs_le]; constructor <;> linarith

/-- **C175 (samples).** In floating point every sample of the rigidity is non-negative, with both integration rules and for every association of the sums in the fit of the line, as long as the arithmetic resolves the grid. -/
theorem C175_sample (h : RelRounding fl ε) (hε : 0 ≤ ε) (assoc : List K → SumTree K) (levels : List K) (hne : levels ≠ []) (L : K) (hL : 0 < L) (gridsize : Nat) (hg : 3 ≤ gridsize) (useSimpson : Bool)
    (c : K) (hres : Resolved ε c L gridsize) : ∃ v, d3SampleFl fl assoc levels L gridsize useSimpson c = .ok v ∧ 0 ≤ v := by
  obtain ⟨hε1, hp⟩ := resolved_small hε hL hg hres
  have h1 : ε ≤ 1 := by linarith
  have hn1 : (0 : K) < (gridsize : K) - 1 := by
    have : (3 : K) ≤ gridsize := by exact_mod_cast hg
    linarith
  have hw := widths_near h hε hε1 c L hL gridsize (by omega) hp
  have hlen := linspaceFl_length fl (fl (c - fl (L / 2))) (fl (c + fl (L / 2))) gridsize
  simp only [d3SampleFl]
  generalize linspaceFl fl (fl (c - fl (L / 2))) (fl (c + fl (L / 2))) gridsize = grid at hw hlen ⊢
  obtain ⟨st, hst, -⟩ := stepFunctionFast_ok levels grid hne (by rintro rfl; simp at hlen; omega)
  rw [hst]
  refine ⟨_, rfl, rnd_nonneg h h1 (div_nonneg ?_ hL.le)⟩
  have hv : ∀ k w : K, ∀ y ∈ sqLinDeviationFl fl (st.map fun n : Nat => (n : K)) k w grid, 0 ≤ y := fun k w y hy => by
    unfold sqLinDeviationFl at hy
    obtain ⟨i, hi, rfl⟩ := List.getElem_of_mem hy
    rw [List.getElem_zipWith]
    exact rnd_nonneg h h1 (mul_self_nonneg _)
  split_ifs
  · exact intSimps_nonneg h hε hε1 (div_pos hL hn1) grid _ (by omega) (fun x hx => (hw x hx).2) (hv _ _)
  · exact trapz_nonneg h h1 grid _ (fun x hx => (hw x hx).1) (hv _ _) 0 0 le_rfl

/-- **C175 (what is reported).** So is the rigidity reported after any number of iterations, whatever the window centres `C 0, C 1, …`. -/
theorem C175_reported (h : RelRounding fl ε) (hε : 0 ≤ ε) (assoc : List K → SumTree K) (ha : ∀ b, b ≠ [] → (assoc b).leaves.Perm b) (levels : List K) (hne : levels ≠ []) (L : K) (hL : 0 < L)
    (gridsize : Nat) (hg : 3 ≤ gridsize) (useSimpson : Bool) (C : Nat → K) (hres : ∀ j, Resolved ε (C j) L gridsize) (maxI minI : Nat) (tol : K) :
    ∃ d : Nat → K, (∀ j, d3SampleFl fl assoc levels L gridsize useSimpson (C j) = .ok (d j)) ∧ 0 ≤ (deltaLFl fl assoc d maxI minI tol).1 := by
  choose d hd hd0 using fun j => C175_sample h hε assoc levels hne L hL gridsize hg useSimpson (C j) (hres j)
  obtain ⟨hε1, -⟩ := resolved_small hε hL hg (hres 0)
  have h1 : ε ≤ 1 := by linarith
  refine ⟨d, hd, ?_⟩
  obtain ⟨hl, hb⟩ := deltaLoop_nonneg h hε hε1 d hd0 maxI minI tol 0 0 0 (List.replicate BUF 0) (by simp) le_rfl (fun x hx => (List.eq_of_mem_replicate hx).ge) (fun _ => rfl)
  simp only [deltaLFl]
  generalize (deltaLoopFl fl d maxI minI tol 0 0 0 (List.replicate BUF 0)).2.2 = b at hb hl ⊢
  refine rnd_nonneg h h1 (div_nonneg ?_ (Nat.cast_nonneg _))
  have hbn : b ≠ [] := by
    rintro rfl
    rw [List.length_replicate, List.length_nil] at hl
    exact absurd hl (by norm_num [BUF])
  exact evalFl_nonneg h h1 _ fun x hx => hb x ((ha b hbn).mem_iff.mp hx)

/-- Double precision resolves the default grid of 100 points for windows of length at least 1 at levels up to ten million. -/
example : Resolved ((1 : ℚ) / 2 ^ 53) 10000000 1 100 := by unfold Resolved; norm_num

end Props
end Rounded
end RMT
