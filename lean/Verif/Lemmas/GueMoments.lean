import Verif.Lemmas.GueLoopEquations

/-! # The limits of the expected products of traces for the GUE -/

namespace RMT.Gauss
open Filter Topology

/-- Scaled. -/
noncomputable def v (n : ℕ) (l : List ℕ) : ℝ := (V n l).re / √n ^ (2 * l.length + l.sum)

theorem re_list_sum {α : Type} (l : List α) (f : α → ℂ) : (l.map f).sum.re = (l.map fun x => (f x).re).sum := by
  induction l with
  | nil => simp
  | cons a l ih => simp [ih]

theorem v_zero (n : ℕ) (hn : 0 < n) (l : List ℕ) : v n (0 :: l) = v n l := by
  have hs : 0 < √(n : ℝ) := by positivity
  have e : (V n (0 :: l)).re = n * (V n l).re := by rw [V_zero]; simp
  rw [v, v, e, List.length_cons, List.sum_cons, zero_add, show 2 * (l.length + 1) + l.sum = 2 + (2 * l.length + l.sum) by ring, pow_add, Real.sq_sqrt (by positivity)]
  have : (n : ℝ) ≠ 0 := by positivity
  field_simp

theorem v_succ (n : ℕ) (hn : 0 < n) (k : ℕ) (l : List ℕ) : v n ((k + 1) :: l) =
    (∑ j ∈ Finset.range k, v n (j :: (k - 1 - j) :: l)) + ((splits l).map fun p => (p.1 : ℝ) * v n ((k + (p.1 - 1)) :: p.2) / n ^ 2).sum := by
  have hs : 0 < √(n : ℝ) := by positivity
  have hn' : (n : ℝ) = √n ^ 2 := (Real.sq_sqrt (by positivity)).symm
  rw [v, V_succ, Complex.add_re, Complex.re_sum, re_list_sum, add_div, Finset.sum_div, list_sum_div]
  congr 1
  · refine Finset.sum_congr rfl fun j hj => ?_
    rw [Finset.mem_range] at hj
    rw [v]
    congr 2
    simp
    omega
  · congr 1
    refine List.map_congr_left fun p hp => ?_
    obtain ⟨h1, h2⟩ := splits_mem l p hp
    have e : ((p.1 : ℂ) * V n ((k + (p.1 - 1)) :: p.2)).re = p.1 * (V n ((k + (p.1 - 1)) :: p.2)).re := by simp
    rw [e]
    rcases hb : p.1 with - | b
    · simp
    · rw [v, mul_div_assoc, mul_div_assoc]
      congr 1
      rw [div_div, hn', ← pow_mul, Real.sqrt_sq hs.le, ← pow_add]
      congr 2
      simp
      omega

/-- The expected product of normalised traces tends to the product of the limits. -/
theorem tendsto_v (l : List ℕ) : Tendsto (fun n => v n l) atTop (𝓝 ((l.map fun k => (wig k : ℝ)).prod)) := by
  induction hm : l.sum using Nat.strong_induction_on generalizing l with
  | _ m ihm =>
    induction l with
    | nil =>
      simp only [v, V_nil, List.length_nil, List.sum_nil, mul_zero, add_zero, pow_zero, div_one, List.map_nil, List.prod_nil, Complex.one_re]
      exact tendsto_const_nhds
    | cons a l ih =>
      have hev : ∀ᶠ n : ℕ in atTop, 0 < n := eventually_gt_atTop 0
      rcases a with - | k
      · have h := ih (by simpa using hm)
        have h0 : (wig 0 : ℝ) = 1 := by simp [wig]
        rw [List.map_cons, List.prod_cons, h0, one_mul]
        exact h.congr' (hev.mono fun n hn => (v_zero n hn l).symm)
      · have hsum : k + 1 + l.sum = m := by simpa using hm
        have ninv : Tendsto (fun n : ℕ => ((n : ℝ))⁻¹) atTop (𝓝 0) := tendsto_inv_atTop_nhds_zero_nat
        have h1 : Tendsto (fun n => ∑ j ∈ Finset.range k, v n (j :: (k - 1 - j) :: l)) atTop (𝓝 (∑ j ∈ Finset.range k, (wig j : ℝ) * ((wig (k - 1 - j) : ℝ) * (l.map fun k => (wig k : ℝ)).prod))) := by
          refine tendsto_finsetSum _ fun j hj => ?_
          rw [Finset.mem_range] at hj
          have := ihm (j + (k - 1 - j + l.sum)) (by omega) (j :: (k - 1 - j) :: l) (by simp)
          simpa using this
        have h3 : Tendsto (fun n : ℕ => ((splits l).map fun p => (p.1 : ℝ) * v n ((k + (p.1 - 1)) :: p.2) / (n : ℝ) ^ 2).sum) atTop (𝓝 0) := by
          refine tendsto_list _ _ fun p hp => ?_
          obtain ⟨e1, e2⟩ := splits_mem l p hp
          rcases hb : p.1 with - | b
          · simp
          · have := ihm (k + b + p.2.sum) (by omega) ((k + b) :: p.2) (by simp)
            have h := (this.const_mul (((b + 1 : ℕ) : ℝ))).mul (ninv.mul ninv)
            rw [mul_zero, mul_zero] at h
            refine h.congr fun n => ?_
            rw [div_eq_mul_inv, pow_two, mul_inv]
            simp
        have h := h1.add h3
        simp only [add_zero] at h
        have hval : ∑ j ∈ Finset.range k, (wig j : ℝ) * ((wig (k - 1 - j) : ℝ) * (l.map fun k => (wig k : ℝ)).prod) = (((k + 1) :: l).map fun k => (wig k : ℝ)).prod := by
          rw [List.map_cons, List.prod_cons, wig_succ, Nat.cast_sum, Finset.sum_mul]
          refine Finset.sum_congr rfl fun j _ => ?_
          push_cast; ring
        rw [hval] at h
        exact h.congr' (hev.mono fun n hn => (v_succ n hn k l).symm)

end RMT.Gauss
