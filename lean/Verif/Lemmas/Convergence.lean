import Verif.Lemmas.DeltaL
import Verif.Lemmas.LevelVar
import Mathlib.Topology.MetricSpace.Pseudo.Lemmas
import Mathlib.Topology.Algebra.Order.Field

/-! # The Monte-Carlo loops when the running averages converge -/

namespace RMT
namespace Rigidity
open Spec Utils

/-- All entries of a late buffer are close to the limit. -/
theorem window_close (d : Nat → ℝ) (μ ε : ℝ) (N : Nat) (hN : ∀ n, N ≤ n → |runMean d n - μ| < ε) (k : Nat) (hk : N + 1001 ≤ k) :
    ∀ x ∈ window d k, |x - μ| < ε := by
  intro x hx
  obtain ⟨i, hi, rfl⟩ := List.mem_map.mp ((window_perm d k (by omega)).mem_iff.mp hx)
  rw [List.mem_range] at hi
  exact hN _ (by omega)

theorem mean_close (b : List ℝ) (hb : b ≠ []) (μ ε : ℝ) (h : ∀ x ∈ b, |x - μ| < ε) : |mean b - μ| < ε := by
  have hlen : (0 : ℝ) < b.length := by exact_mod_cast List.length_pos_iff.mpr hb
  have key : ∀ l : List ℝ, (∀ x ∈ l, |x - μ| < ε) → l ≠ [] → |l.sum - l.length * μ| < l.length * ε := by
    intro l
    induction l with
    | nil => intro _ h; exact absurd rfl h
    | cons a l ih =>
      intro h1 _
      have ha := h1 a (by simp)
      by_cases hl : l = []
      · subst hl; simpa using ha
      · have := ih (fun x hx => h1 x (by simp [hx])) hl
        rw [abs_lt] at *
        simp only [List.sum_cons, List.length_cons, Nat.cast_add, Nat.cast_one]
        constructor <;> nlinarith [this.1, this.2, ha.1, ha.2]
  have := key b h hb
  unfold mean
  rw [show b.sum / (b.length : ℝ) - μ = (b.sum - b.length * μ) / b.length by field_simp, abs_div, abs_of_pos hlen, div_lt_iff₀ hlen]
  linarith

theorem window_ne (d : Nat → ℝ) (k : Nat) : window d k ≠ [] := by
  intro h
  have := length_window d k
  rw [h] at this
  simp at this

/-- If the running means converge, `delta_L` stops by itself, with the flag set. -/
theorem deltaL_stops (unfolded : List ℝ) (hu : unfolded ≠ []) (L : ℝ) (hL : 0 < L) (n : Nat) (hn : 1 ≤ n) (minI : Nat) (tol : ℝ) (ht : 0 < tol) (s : Bool) (U : Nat → ℝ) (d : Nat → ℝ)
    (hd : ∀ j, d3Sample unfolded L n s (uniform (unfolded.head hu) (unfolded.getLast hu) (U j)) = .ok (d j)) (μ : ℝ)
    (hμ : Filter.Tendsto (runMean d) Filter.atTop (nhds μ)) :
    ∃ M, ∀ maxI, M < maxI → ∃ v k, deltaL unfolded L n maxI minI tol s U = .ok (v, true, k) ∧ k ≤ M := by
  rw [Metric.tendsto_atTop] at hμ
  obtain ⟨N, hN⟩ := hμ (tol / 2) (by linarith)
  simp only [Real.dist_eq] at hN
  refine ⟨1000 * (N + minI + 3), fun maxI hM => ?_⟩
  obtain ⟨d', hd', k, h1, h2, h3, h4, h5⟩ := deltaL_spec unfolded hu L hL n hn maxI minI tol s U
  have hdd : d' = d := by
    funext j
    have := (hd' j).1
    rw [hd j] at this
    injection this with this
    exact this.symm
  subst hdd
  have hst : Stops d' maxI minI tol (1000 * (N + minI + 3)) := by
    refine Or.inr ⟨by omega, by omega, (rangeBelow_iff _ _).mpr ⟨window_ne d' _, fun x hx y hy => ?_⟩⟩
    have e1 := window_close d' μ (tol / 2) N hN _ (by omega) x hx
    have e2 := window_close d' μ (tol / 2) N hN _ (by omega) y hy
    rw [abs_lt] at e1 e2
    linarith [e1.1, e1.2, e2.1, e2.2]
  have hk : k ≤ 1000 * (N + minI + 3) := by
    by_contra h
    exact h5 _ (by omega) (by omega) hst
  rcases h4 with h | ⟨-, -, h⟩
  · omega
  · exact ⟨_, k, by rw [h1, h], hk⟩

/-- If the running means converge to `μ`, every late result is near `μ`. -/
theorem deltaL_close (unfolded : List ℝ) (hu : unfolded ≠ []) (L : ℝ) (hL : 0 < L) (n : Nat) (hn : 1 ≤ n) (s : Bool) (U : Nat → ℝ) (d : Nat → ℝ)
    (hd : ∀ j, d3Sample unfolded L n s (uniform (unfolded.head hu) (unfolded.getLast hu) (U j)) = .ok (d j)) (μ : ℝ)
    (hμ : Filter.Tendsto (runMean d) Filter.atTop (nhds μ)) (ε : ℝ) (hε : 0 < ε) :
    ∃ M, ∀ maxI minI tol, ∃ v conv k, deltaL unfolded L n maxI minI tol s U = .ok (v, conv, k) ∧ (M ≤ k → |v - μ| < ε) := by
  rw [Metric.tendsto_atTop] at hμ
  obtain ⟨N, hN⟩ := hμ ε hε
  simp only [Real.dist_eq] at hN
  refine ⟨N + 1001, fun maxI minI tol => ?_⟩
  obtain ⟨d', hd', k, h1, h2, h3, h4, h5⟩ := deltaL_spec unfolded hu L hL n hn maxI minI tol s U
  have hdd : d' = d := by
    funext j
    have := (hd' j).1
    rw [hd j] at this
    injection this with this
    exact this.symm
  subst hdd
  exact ⟨_, _, k, h1, fun hk => mean_close _ (window_ne d' k) μ ε (window_close d' μ ε N hN k hk)⟩

end Rigidity

namespace LevelVar
open Spec Utils Rigidity

/-- If the sample variances converge, `sigma_L` stops by itself, with the flag set. -/
theorem sigmaL_stops (unfolded : List ℝ) (mn mx : ℝ) (hmn : Spec.IsMin unfolded mn) (hmx : Spec.IsMax unfolded mx) (L : ℝ) (minI : Nat) (tol : ℝ) (ht : 0 < tol) (U : Nat → ℝ) (d : Nat → ℝ)
    (hd : ∀ j, d j = (nWithin unfolded L (uniform mn mx (U (j + 1))) : Nat)) (μ : ℝ) (hμ : Filter.Tendsto (runVar d) Filter.atTop (nhds μ)) :
    ∃ M, ∀ maxI, M < maxI → ∃ v k, sigmaL unfolded L maxI tol minI U = .ok (v, true, k) ∧ k ≤ M := by
  rw [Metric.tendsto_atTop] at hμ
  obtain ⟨N, hN⟩ := hμ (tol / 2) (by linarith)
  simp only [Real.dist_eq] at hN
  refine ⟨1000 * (N + minI + 3), fun maxI hM => ?_⟩
  obtain ⟨k, h1, h2, h3, h4, h5⟩ := sigmaL_spec unfolded mn mx hmn hmx L maxI tol minI U d hd
  have hst : Stops d maxI minI tol (1000 * (N + minI + 3)) := by
    refine Or.inr ⟨by omega, by omega, (rangeBelow_swindow _ _ _).mpr fun i hi j hj => ?_⟩
    have e1 := hN (1000 * (N + minI + 3) - i) (by omega)
    have e2 := hN (1000 * (N + minI + 3) - j) (by omega)
    rw [abs_lt] at *
    constructor <;> linarith [e1.1, e1.2, e2.1, e2.2]
  have hk : k ≤ 1000 * (N + minI + 3) := by
    by_contra h
    exact h5 _ (by omega) (by omega) hst
  rcases h4 with h | ⟨-, -, h⟩
  · omega
  · exact ⟨_, k, by rw [h1, h], hk⟩

/-- If the sample variances converge to `μ`, every late result is near `μ`. -/
theorem sigmaL_close (unfolded : List ℝ) (mn mx : ℝ) (hmn : Spec.IsMin unfolded mn) (hmx : Spec.IsMax unfolded mx) (L : ℝ) (U : Nat → ℝ) (d : Nat → ℝ)
    (hd : ∀ j, d j = (nWithin unfolded L (uniform mn mx (U (j + 1))) : Nat)) (μ : ℝ) (hμ : Filter.Tendsto (runVar d) Filter.atTop (nhds μ)) (ε : ℝ) (hε : 0 < ε) :
    ∃ M, ∀ maxI minI tol, ∃ v conv k, sigmaL unfolded L maxI tol minI U = .ok (v, conv, k) ∧ (M ≤ k → |v - μ| < ε) := by
  rw [Metric.tendsto_atTop] at hμ
  obtain ⟨N, hN⟩ := hμ ε hε
  simp only [Real.dist_eq] at hN
  refine ⟨N, fun maxI minI tol => ?_⟩
  obtain ⟨k, h1, -⟩ := sigmaL_spec unfolded mn mx hmn hmx L maxI tol minI U d hd
  exact ⟨_, _, k, h1, fun hk => hN k hk⟩

end LevelVar
end RMT
