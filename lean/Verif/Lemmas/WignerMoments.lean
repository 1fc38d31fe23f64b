import Verif.Lemmas.LoopEquations
import Mathlib.Combinatorics.Enumerative.Catalan.Basic
import Mathlib.Analysis.SpecificLimits.Basic

/-! # The limits of the expected products of traces -/

namespace RMT.Gauss
open Filter Topology

/-- The moments of the semicircle law with radius 2: Catalan numbers and zeros. -/
def wig (k : ℕ) : ℕ := if k % 2 = 0 then catalan (k / 2) else 0

theorem sum_even (f : ℕ → ℕ) (hf : ∀ j, j % 2 = 1 → f j = 0) (m : ℕ) : ∑ j ∈ Finset.range (2 * m + 1), f j = ∑ i ∈ Finset.range (m + 1), f (2 * i) := by
  induction m with
  | zero => simp
  | succ m ih =>
    rw [show 2 * (m + 1) + 1 = (2 * m + 1) + 1 + 1 by ring, Finset.sum_range_succ, Finset.sum_range_succ, ih, Finset.sum_range_succ _ (m + 1), hf (2 * m + 1) (by omega)]
    rw [show 2 * (m + 1) = 2 * m + 1 + 1 by ring]
    ring

theorem wig_succ (k : ℕ) : wig (k + 1) = ∑ j ∈ Finset.range k, wig j * wig (k - 1 - j) := by
  rcases Nat.even_or_odd' k with ⟨m, rfl | rfl⟩
  · rw [wig, if_neg (by omega)]
    symm
    refine Finset.sum_eq_zero fun j hj => ?_
    rw [Finset.mem_range] at hj
    unfold wig
    by_cases h : j % 2 = 0
    · rw [if_neg (show ¬ (2 * m - 1 - j) % 2 = 0 by omega), mul_zero]
    · rw [if_neg h, zero_mul]
  · rw [wig, if_pos (by omega), show (2 * m + 1 + 1) / 2 = m + 1 by omega, catalan_succ', Finset.Nat.sum_antidiagonal_eq_sum_range_succ (fun i j => catalan i * catalan j)]
    rw [sum_even (fun j => wig j * wig (2 * m + 1 - 1 - j)) (fun j hj => by simp [wig, hj])]
    refine Finset.sum_congr rfl fun i hi => ?_
    rw [Finset.mem_range] at hi
    unfold wig
    rw [if_pos (by omega), if_pos (by omega)]
    congr 2 <;> omega

/-- Scaled. -/
noncomputable def w (n : ℕ) (l : List ℕ) : ℝ := W n l / √n ^ (2 * l.length + l.sum)

theorem splits_mem (l : List ℕ) : ∀ p ∈ splits l, p.2.length + 1 = l.length ∧ p.2.sum + p.1 = l.sum := by
  induction l with
  | nil => simp [splits]
  | cons a l ih =>
    intro p hp
    simp only [splits, List.mem_cons, List.mem_map] at hp
    rcases hp with rfl | ⟨q, hq, rfl⟩
    · exact ⟨rfl, by simp [add_comm]⟩
    · obtain ⟨h1, h2⟩ := ih q hq
      exact ⟨by simp [h1], by simp; omega⟩

theorem w_zero (n : ℕ) (hn : 0 < n) (l : List ℕ) : w n (0 :: l) = w n l := by
  have hs : 0 < √(n : ℝ) := by positivity
  rw [w, w, W_zero, List.length_cons, List.sum_cons, zero_add, show 2 * (l.length + 1) + l.sum = 2 + (2 * l.length + l.sum) by ring, pow_add, Real.sq_sqrt (by positivity)]
  have : (n : ℝ) ≠ 0 := by positivity
  field_simp

theorem list_sum_div {α : Type} (l : List α) (f : α → ℝ) (c : ℝ) : (l.map f).sum / c = (l.map fun x => f x / c).sum := by
  induction l with
  | nil => simp
  | cons a l ih => simp [add_div, ih]

theorem w_succ (n : ℕ) (hn : 0 < n) (k : ℕ) (l : List ℕ) : w n ((k + 1) :: l) =
    (∑ j ∈ Finset.range k, w n (j :: (k - 1 - j) :: l)) + k * w n ((k - 1) :: l) / n +
      ((splits l).map fun p => 2 * (p.1 : ℝ) * w n ((k + (p.1 - 1)) :: p.2) / n ^ 2).sum := by
  have hs : 0 < √(n : ℝ) := by positivity
  have hn' : (n : ℝ) = √n ^ 2 := (Real.sq_sqrt (by positivity)).symm
  rw [w, W_succ, add_div, add_div, Finset.sum_div, list_sum_div]
  congr 1
  · congr 1
    · refine Finset.sum_congr rfl fun j hj => ?_
      rw [Finset.mem_range] at hj
      rw [w]
      congr 2
      simp
      omega
    · rcases k with - | k
      · simp
      · rw [w, mul_div_assoc, mul_div_assoc]
        congr 1
        rw [div_div, hn', Real.sqrt_sq hs.le, ← pow_add]
        congr 2
        simp
        omega
  · congr 1
    refine List.map_congr_left fun p hp => ?_
    obtain ⟨h1, h2⟩ := splits_mem l p hp
    rcases hb : p.1 with - | b
    · simp
    · rw [w, mul_div_assoc, mul_div_assoc]
      congr 1
      rw [div_div, hn', ← pow_mul, Real.sqrt_sq hs.le, ← pow_add]
      congr 2
      simp
      omega

theorem tendsto_list {α : Type} (l : List α) (f : ℕ → α → ℝ) (h : ∀ x ∈ l, Tendsto (fun n => f n x) atTop (𝓝 0)) :
    Tendsto (fun n => (l.map (f n)).sum) atTop (𝓝 0) := by
  induction l with
  | nil => simp
  | cons a l ih =>
    simp only [List.map_cons, List.sum_cons]
    simpa using (h a (by simp)).add (ih fun x hx => h x (by simp [hx]))

/-- The expected product of normalised traces tends to the product of the limits. -/
theorem tendsto_w (l : List ℕ) : Tendsto (fun n => w n l) atTop (𝓝 ((l.map fun k => (wig k : ℝ)).prod)) := by
  induction hm : l.sum using Nat.strong_induction_on generalizing l with
  | _ m ihm =>
    induction l with
    | nil =>
      simp only [w, W_nil, List.length_nil, List.sum_nil, mul_zero, add_zero, pow_zero, div_one, List.map_nil, List.prod_nil]
      exact tendsto_const_nhds
    | cons a l ih =>
      have hev : ∀ᶠ n : ℕ in atTop, 0 < n := eventually_gt_atTop 0
      rcases a with - | k
      · have h := ih (by simpa using hm)
        have h0 : (wig 0 : ℝ) = 1 := by simp [wig]
        rw [List.map_cons, List.prod_cons, h0, one_mul]
        exact h.congr' (hev.mono fun n hn => (w_zero n hn l).symm)
      · have hsum : k + 1 + l.sum = m := by simpa using hm
        have ninv : Tendsto (fun n : ℕ => ((n : ℝ))⁻¹) atTop (𝓝 0) := tendsto_inv_atTop_nhds_zero_nat
        have h1 : Tendsto (fun n => ∑ j ∈ Finset.range k, w n (j :: (k - 1 - j) :: l)) atTop (𝓝 (∑ j ∈ Finset.range k, (wig j : ℝ) * ((wig (k - 1 - j) : ℝ) * (l.map fun k => (wig k : ℝ)).prod))) := by
          refine tendsto_finsetSum _ fun j hj => ?_
          rw [Finset.mem_range] at hj
          have := ihm (j + (k - 1 - j + l.sum)) (by omega) (j :: (k - 1 - j) :: l) (by simp)
          simpa using this
        have h2 : Tendsto (fun n : ℕ => k * w n ((k - 1) :: l) / n) atTop (𝓝 0) := by
          rcases k with - | k
          · simp
          · have := ihm (k + l.sum) (by omega) (k :: l) (by simp)
            have h := (this.const_mul ((k + 1 : ℕ) : ℝ)).mul ninv
            rw [mul_zero] at h
            exact h
        have h3 : Tendsto (fun n : ℕ => ((splits l).map fun p => 2 * (p.1 : ℝ) * w n ((k + (p.1 - 1)) :: p.2) / (n : ℝ) ^ 2).sum) atTop (𝓝 0) := by
          refine tendsto_list _ _ fun p hp => ?_
          obtain ⟨e1, e2⟩ := splits_mem l p hp
          rcases hb : p.1 with - | b
          · simp
          · have := ihm (k + b + p.2.sum) (by omega) ((k + b) :: p.2) (by simp)
            have h := (this.const_mul (2 * ((b + 1 : ℕ) : ℝ))).mul (ninv.mul ninv)
            rw [mul_zero, mul_zero] at h
            refine h.congr fun n => ?_
            rw [div_eq_mul_inv, pow_two, mul_inv]
            simp
        have h := (h1.add h2).add h3
        simp only [add_zero] at h
        have hval : ∑ j ∈ Finset.range k, (wig j : ℝ) * ((wig (k - 1 - j) : ℝ) * (l.map fun k => (wig k : ℝ)).prod) = (((k + 1) :: l).map fun k => (wig k : ℝ)).prod := by
          rw [List.map_cons, List.prod_cons, wig_succ, Nat.cast_sum, Finset.sum_mul]
          refine Finset.sum_congr rfl fun j _ => ?_
          push_cast; ring
        rw [hval] at h
        exact h.congr' (hev.mono fun n hn => (w_succ n hn k l).symm)

end RMT.Gauss
