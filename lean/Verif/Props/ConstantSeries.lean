import Verif.Props.RoundedSeries

/-! # Property C178: constant series in floating point -/

namespace RMT
namespace Rounded
namespace Props
open EigM Spec RMT.Props EigValsM

variable {N T : ℕ}

/-! ## When the mean is exact -/

theorem evalFl_const (fl : ℝ → ℝ) (c : ℝ) : ∀ (t : SumTree ℝ), (∀ x ∈ t.leaves, x = c) → (∀ k : ℕ, k ≤ t.leaves.length → fl (k * c) = k * c) → t.evalFl fl = t.leaves.length * c
  | .leaf x, h, _ => by simp [SumTree.evalFl, SumTree.leaves, h x (by simp [SumTree.leaves])]
  | .node l r, h, hr => by
    have h1 := evalFl_const fl c l (fun x hx => h x (by simp [SumTree.leaves, hx])) fun k hk => hr k (by simp only [SumTree.leaves, List.length_append]; omega)
    have h2 := evalFl_const fl c r (fun x hx => h x (by simp [SumTree.leaves, hx])) fun k hk => hr k (by simp only [SumTree.leaves, List.length_append]; omega)
    have h3 := hr (l.leaves.length + r.leaves.length) (by simp [SumTree.leaves])
    simp only [SumTree.evalFl, h1, h2, SumTree.leaves, List.length_append]
    rw [← add_mul]
    exact_mod_cast h3

/-- **C178 (partial: when constants are recognised).** If the multiples `c, 2c, …, Tc` of the value of a constant series are numbers of the arithmetic (for instance if `c = 0`), then its computed variance and all its computed covariances are exactly 0,
for every association of the sums: its correlations are 0/0, that is, NaN. Missing: constants whose multiples need more digits. -/
theorem C178_recognised_partial (E : Evaluation) (ε : ℝ) (hE : Accurate E ε) (X : Matrix (Fin N) (Fin T) ℝ) (hT : 0 < T) (i : Fin N) (c : ℝ) (hc : ∀ t, X i t = c) (hm : ∀ k : ℕ, k ≤ T → E.fl (k * c) = k * c) :
    (∀ t, centerFl E X i t = 0) ∧ ∀ j, npCovFl E X 1 i j = 0 := by
  have h0 : E.fl 0 = 0 := by
    have := hE.rel 0
    rw [abs_zero, mul_zero, sub_zero] at this
    exact abs_eq_zero.mp (le_antisymm this (abs_nonneg _))
  have hT' : (T : ℝ) ≠ 0 := by exact_mod_cast hT.ne'
  have hne : List.ofFn (X i) ≠ [] := fun h => by
    have := congrArg List.length h
    simp at this
    omega
  have hp := hE.mean i _ hne
  have hlen : (E.mean i (List.ofFn (X i))).leaves.length = T := by rw [hp.length_eq, List.length_ofFn]
  have hsum : sumFl E.fl (E.mean i) (List.ofFn (X i)) = T * c := by
    rw [sumFl, if_neg hne, evalFl_const E.fl c _ ?_ ?_, hlen]
    · intro x hx
      obtain ⟨t, rfl⟩ := List.mem_ofFn.mp (hp.mem_iff.mp hx)
      exact hc t
    · rw [hlen]; exact hm
  have hc1 : E.fl c = c := by simpa using hm 1 hT
  have hcen : ∀ t, centerFl E X i t = 0 := fun t => by
    rw [centerFl, rowMeanFl, hsum, mul_div_cancel_left₀ _ hT', hc1, hc t, sub_self, h0]
  refine ⟨hcen, fun j => ?_⟩
  have hdot : dotFl E i j (centerFl E X i) (centerFl E X j) = 0 := by
    unfold dotFl sumFl
    split_ifs with he
    · rfl
    · have hp := hE.dot i j _ he
      rw [evalFl_const E.fl 0 _ ?_ (fun k _ => by rw [mul_zero, h0])]
      · rw [mul_zero]
      · intro x hx
        obtain ⟨t, rfl⟩ := List.mem_ofFn.mp (hp.mem_iff.mp hx)
        rw [hcen t, zero_mul, h0]
        simp
  rw [npCovFl, hdot, zero_mul, h0]

/-! ## When it is not -/

theorem log_eq {x : ℝ} {k : ℤ} (h1 : (2 : ℝ) ^ k ≤ x) (h2 : x < 2 ^ (k + 1)) : Int.log 2 x = k := by
  have hx : 0 < x := lt_of_lt_of_le (by positivity) h1
  apply le_antisymm
  · have h3 : (2 : ℝ) ^ Int.log 2 x ≤ x := Int.zpow_log_le_self (by norm_num) hx
    have h4 := (zpow_lt_zpow_iff_right₀ (by norm_num : (1 : ℝ) < 2)).mp (lt_of_le_of_lt h3 h2)
    omega
  · exact (Int.zpow_le_iff_le_log (by norm_num) hx).mp (by exact_mod_cast h1)

theorem trunc_value (p : ℕ) {x : ℝ} {k : ℤ} (m : ℤ) (h1 : (2 : ℝ) ^ k ≤ x) (h2 : x < 2 ^ (k + 1)) (h3 : m * 2 ^ (k - p) ≤ x) (h4 : x < (m + 1) * 2 ^ (k - p)) : trunc p x = m * (2 : ℝ) ^ (k - (p : ℤ)) := by
  have hx : 0 < x := lt_of_lt_of_le (by positivity) h1
  rw [trunc, if_pos hx, truncPos, log_eq h1 h2]
  have hfloor : ⌊x * 2 ^ ((p : ℤ) - k)⌋ = m := by
    have e : (2 : ℝ) ^ (k - (p : ℤ)) * 2 ^ ((p : ℤ) - k) = 1 := by
      rw [← zpow_add₀ (by norm_num)]; simp
    have hpos : (0 : ℝ) < 2 ^ ((p : ℤ) - k) := by positivity
    rw [Int.floor_eq_iff]
    constructor
    · have := mul_le_mul_of_nonneg_right h3 hpos.le
      rwa [mul_assoc, e, mul_one] at this
    · have := mul_lt_mul_of_pos_right h4 hpos
      rwa [mul_assoc, e, mul_one] at this
  rw [hfloor]

/-- Numbers with at most `p + 1` binary digits are left alone. -/
theorem trunc_exact (p : ℕ) (m : ℕ) (e : ℤ) (hm : 0 < m) (hm' : m < 2 ^ (p + 1)) : trunc p ((m : ℝ) * 2 ^ e) = m * 2 ^ e := by
  have hm0 : (0 : ℝ) < m := by exact_mod_cast hm
  set x : ℝ := m * 2 ^ e with hx
  have hx0 : 0 < x := by positivity
  have hlow : (2 : ℝ) ^ Int.log 2 x ≤ x := Int.zpow_log_le_self (by norm_num) hx0
  have hup : x < 2 ^ ((p : ℤ) + 1 + e) := by
    rw [zpow_add₀ (by norm_num), hx]
    refine mul_lt_mul_of_pos_right ?_ (by positivity)
    exact_mod_cast hm'
  have hk := (zpow_lt_zpow_iff_right₀ (by norm_num : (1 : ℝ) < 2)).mp (lt_of_le_of_lt hlow hup)
  obtain ⟨d, hd⟩ := Int.eq_ofNat_of_zero_le (by omega : 0 ≤ e + p - Int.log 2 x)
  have hxd : x = ((m * 2 ^ d : ℕ) : ℤ) * (2 : ℝ) ^ (Int.log 2 x - (p : ℤ)) := by
    push_cast
    rw [mul_assoc, ← zpow_natCast (2 : ℝ) d, ← zpow_add₀ (by norm_num), show (d : ℤ) + (Int.log 2 x - p) = e by omega]
  rw [trunc_value p ((m * 2 ^ d : ℕ) : ℤ) hlow (by exact_mod_cast Int.lt_zpow_succ_log_self (b := 2) (by norm_num) x) hxd.ge ?_]
  · exact hxd.symm
  · rw [add_mul, ← hxd, one_mul]
    have : (0 : ℝ) < 2 ^ (Int.log 2 x - (p : ℤ)) := by positivity
    linarith

/-- The mean of three copies of `2 ^ (p + 1) - 1`, computed from left to right with `p + 1` bits, is too small by one. -/
theorem mean_of_constant (p : ℕ) (hp : 1 ≤ p) : trunc p (sumFl (trunc p) leftToRight [(2 : ℝ) ^ (p + 1) - 1, 2 ^ (p + 1) - 1, 2 ^ (p + 1) - 1] / 3) = 2 ^ (p + 1) - 2 := by
  obtain ⟨q, rfl⟩ : ∃ q, p = q + 1 := ⟨p - 1, by omega⟩
  have hq : (1 : ℝ) ≤ 2 ^ q := one_le_pow₀ (by norm_num)
  have hn : 1 ≤ 2 ^ q := Nat.one_le_two_pow
  have e1 : trunc (q + 1) ((2 : ℝ) ^ (q + 1 + 1) - 1 + (2 ^ (q + 1 + 1) - 1)) = 2 * (2 ^ (q + 1 + 1) - 1) := by
    have := trunc_exact (q + 1) (2 ^ (q + 1 + 1) - 1) 1 (by rw [pow_succ, pow_succ]; omega) (by rw [pow_succ, pow_succ]; omega)
    rw [Nat.cast_sub (by rw [pow_succ, pow_succ]; omega)] at this
    push_cast at this
    rw [zpow_one] at this
    rw [show (2 : ℝ) ^ (q + 1 + 1) - 1 + (2 ^ (q + 1 + 1) - 1) = (2 ^ (q + 1 + 1) - 1) * 2 by ring, this]
    ring
  have z1 : (2 : ℝ) ^ ((q : ℤ) + 3) = 8 * 2 ^ q := by rw [zpow_add₀ (by norm_num)]; norm_num; ring
  have z2 : (2 : ℝ) ^ ((q : ℤ) + 3 + 1) = 16 * 2 ^ q := by rw [add_assoc, zpow_add₀ (by norm_num)]; norm_num; ring
  have z3 : (2 : ℝ) ^ ((q : ℤ) + 3 - ((q + 1 : ℕ) : ℤ)) = 4 := by
    rw [show (q : ℤ) + 3 - ((q + 1 : ℕ) : ℤ) = 2 by push_cast; ring]; norm_num
  have e2 : trunc (q + 1) (2 * ((2 : ℝ) ^ (q + 1 + 1) - 1) + (2 ^ (q + 1 + 1) - 1)) = 12 * 2 ^ q - 4 := by
    rw [trunc_value (q + 1) (k := (q : ℤ) + 3) (3 * 2 ^ q - 1) (by rw [z1, pow_succ, pow_succ]; linarith) (by rw [z2, pow_succ, pow_succ]; linarith) (by rw [z3]; push_cast; rw [pow_succ, pow_succ]; linarith)
      (by rw [z3]; push_cast; rw [pow_succ, pow_succ]; linarith), z3]
    push_cast
    ring
  have hs : sumFl (trunc (q + 1)) leftToRight [(2 : ℝ) ^ (q + 1 + 1) - 1, 2 ^ (q + 1 + 1) - 1, 2 ^ (q + 1 + 1) - 1] = 12 * 2 ^ q - 4 := by
    simp only [sumFl, leftToRight, List.foldl, SumTree.evalFl, e1, e2]
    simp
  rw [hs]
  have y1 : (2 : ℝ) ^ ((q : ℤ) + 1) = 2 * 2 ^ q := by rw [zpow_add₀ (by norm_num)]; norm_num; ring
  have y2 : (2 : ℝ) ^ ((q : ℤ) + 1 + 1) = 4 * 2 ^ q := by rw [add_assoc, zpow_add₀ (by norm_num)]; norm_num; ring
  have y3 : (2 : ℝ) ^ ((q : ℤ) + 1 - ((q + 1 : ℕ) : ℤ)) = 1 := by
    rw [show (q : ℤ) + 1 - ((q + 1 : ℕ) : ℤ) = 0 by push_cast; ring]; norm_num
  rw [trunc_value (q + 1) (k := (q : ℤ) + 1) (4 * 2 ^ q - 2) (by rw [y1]; linarith) (by rw [y2]; linarith) (by rw [y3]; push_cast; linarith) (by rw [y3]; push_cast; linarith), y3]
  push_cast
  ring

/-- Every entry of the computed correlation matrix is 1. -/
theorem constant_correlated (p : ℕ) (hp : 1 ≤ p) (i j : Fin N) : correlateFastFl (leftEvaluation p) (fun (_ : Fin N) (_ : Fin 3) => (2 : ℝ) ^ (p + 1) - 1) 1 i j = 1 := by
  have hfl := (trunc_float p).1
  have h2 : 2 < 2 ^ (p + 1) := by
    have : 2 ^ 2 ≤ 2 ^ (p + 1) := Nat.pow_le_pow_right (by norm_num) (by omega)
    omega
  have h4 : 3 < 2 ^ (p + 1) := by
    have : 2 ^ 2 ≤ 2 ^ (p + 1) := Nat.pow_le_pow_right (by norm_num) (by omega)
    omega
  have t1 : trunc p 1 = 1 := by simpa using trunc_exact p 1 0 one_pos (by omega)
  have t2 : trunc p 2 = 2 := by simpa using trunc_exact p 2 0 two_pos h2
  have t3 : trunc p 3 = 3 := by simpa using trunc_exact p 3 0 three_pos h4
  have thalf : trunc p (1 / 2) = 1 / 2 := by
    have := trunc_exact p 1 (-1) one_pos (by omega)
    norm_num at this ⊢
    exact this
  have tvar : trunc p (3 / 2) = 3 / 2 := by
    have := trunc_exact p 3 (-1) three_pos h4
    norm_num at this ⊢
    exact this
  have hcen : ∀ (i : Fin N) (t : Fin 3), centerFl (leftEvaluation p) (fun (_ : Fin N) (_ : Fin 3) => (2 : ℝ) ^ (p + 1) - 1) i t = 1 := fun i t => by
    have := mean_of_constant p hp
    simp only [centerFl, rowMeanFl, leftEvaluation, List.ofFn_succ, List.ofFn_zero]
    push_cast
    rw [this, show (2 : ℝ) ^ (p + 1) - 1 - (2 ^ (p + 1) - 2) = 1 by ring, t1]
  have hcov : ∀ i j : Fin N, npCovFl (leftEvaluation p) (fun (_ : Fin N) (_ : Fin 3) => (2 : ℝ) ^ (p + 1) - 1) 1 i j = 3 / 2 := fun i j => by
    have hl : (List.ofFn fun t : Fin 3 => if (leftEvaluation p).fused i j t then (1 : ℝ) * 1 else (leftEvaluation p).fl (1 * 1)) = [1, 1, 1] := by
      simp [leftEvaluation, t1, List.ofFn_succ]
    simp only [npCovFl, dotFl, hcen, hl]
    simp only [leftEvaluation, sumFl, leftToRight, List.foldl, SumTree.evalFl]
    rw [if_neg (by simp)]
    norm_num only [t2, t3, thalf, tvar]
  simp only [correlateFastFl, hcov]
  set s := (leftEvaluation p).fl √(3 / 2) with hs
  have hs' : s = trunc p √(3 / 2) := rfl
  have hroot : (1 : ℝ) ≤ √(3 / 2) := by rw [Real.one_le_sqrt]; norm_num
  have hs1 : 1 ≤ s := by rw [hs', ← t1]; exact hfl.mono hroot
  have hsle : s ≤ √(3 / 2) := by
    rw [hs', trunc, if_pos (by linarith)]
    exact (truncPos_bounds p (by linarith)).2.1
  have h5 : s ≤ 3 / 2 / s := by
    rw [le_div_iff₀ (by linarith)]
    have := mul_le_mul hsle hsle (by linarith) (by linarith)
    rwa [Real.mul_self_sqrt (by norm_num)] at this
  have h6 : s ≤ (leftEvaluation p).fl (3 / 2 / s) := by
    have : trunc p s = s := by rw [hs', hfl.idem]
    calc s = trunc p s := this.symm
      _ ≤ _ := hfl.mono h5
  have h7 : 1 ≤ (leftEvaluation p).fl ((leftEvaluation p).fl (3 / 2 / s) / s) := by
    rw [← t1]
    refine hfl.mono ?_
    rw [le_div_iff₀ (by linarith), one_mul]
    exact h6
  rw [max_eq_right (by linarith), min_eq_left h7]

theorem ones_roots : (Matrix.of fun _ _ => 1 : Matrix (Fin 2) (Fin 2) ℝ).charpoly.roots = {0, 2} := by
  have h : (Matrix.of fun _ _ => 1 : Matrix (Fin 2) (Fin 2) ℝ).charpoly = (Polynomial.X - Polynomial.C 0) * (Polynomial.X - Polynomial.C 2) := by
    rw [Matrix.charpoly_fin_two]
    simp only [Matrix.trace_fin_two, Matrix.det_fin_two]
    norm_num
    ring
  rw [h, Polynomial.roots_mul (mul_ne_zero (Polynomial.X_sub_C_ne_zero 0) (Polynomial.X_sub_C_ne_zero 2)), Polynomial.roots_X_sub_C, Polynomial.roots_X_sub_C]
  rfl

/-- **C178 (refuted: constant series have no correlations).** In binary floating point of every precision, `2 ^ -p`, there is a constant series of three points such that the computed correlation matrix of any number of copies of it has all entries 1 (not
NaN), and `from_time_series` on two of them returns the eigenvalue 2, that of perfectly correlated series. -/
theorem C178_constant_refuted (p : ℕ) (hp : 1 ≤ p) : ∃ E c, Accurate E (1 / 2 ^ p) ∧ FloatRounding E.fl ∧ E.fl c = c ∧
    (∀ (N : ℕ) (i j : Fin N), correlateFastFl E (fun _ (_ : Fin 3) => c) 1 i j = 1) ∧
    ∀ (eigvalsh : EigSolver), ExactSolver eigvalsh → ∀ float, seriesValuesFl E eigvalsh float (fun (_ : Fin 2) (_ : Fin 3) => c) false true (.str "negative") = .ok [2] := by
  refine ⟨leftEvaluation p, 2 ^ (p + 1) - 1, ⟨(trunc_float p).2, fun _ => leftToRight_leaves, fun _ => leftToRight_leaves, fun _ _ => leftToRight_leaves⟩, (trunc_float p).1, ?_, fun N i j => constant_correlated p hp i j, fun eigvalsh he float => ?_⟩
  · have h1 : 1 ≤ 2 ^ p := Nat.one_le_two_pow
    have := trunc_exact p (2 ^ (p + 1) - 1) 0 (by rw [pow_succ]; omega) (by rw [pow_succ]; omega)
    rw [Nat.cast_sub (by rw [pow_succ]; omega)] at this
    simp only [leftEvaluation]
    simpa using this
  · have hh : handedFl (leftEvaluation p) (fun (_ : Fin 2) (_ : Fin 3) => (2 : ℝ) ^ (p + 1) - 1) false = ⟨2, fun _ _ => 1⟩ := by
      unfold handedFl
      rw [if_pos (by norm_num)]
      congr 1
      funext i j
      exact constant_correlated p hp i j
    have hlow : lowerSymm (fun _ _ => 1 : Matrix (Fin 2) (Fin 2) ℝ) = fun _ _ => 1 := by
      funext i j; simp [lowerSymm]
    have hr := he 2 (fun _ _ => 1) (by ext; rfl)
    rw [show (fun _ _ => 1 : Matrix (Fin 2) (Fin 2) ℝ) = Matrix.of fun _ _ => 1 from rfl, ones_roots] at hr
    have hperm : (eigvalsh 2 fun _ _ => 1).Perm [0, 2] := Multiset.coe_eq_coe.mp hr
    have hf : npSort ((eigvalsh 2 fun _ _ => 1).filter fun e => decide (e > 0)) = [2] := by
      refine npSort_unique ?_ (by simp [Ascending])
      have := (hperm.filter fun e => decide (e > 0)).symm
      simpa using this
    have hne : ((eigvalsh 2 fun _ _ => 1).filter fun e => decide (e > 0)) ≠ [] := fun h0 => by
      rw [h0] at hf
      have := (npSort_perm ([] : List ℝ)).length_eq
      rw [hf] at this
      simp at this
    obtain ⟨m, hm, -⟩ := npMax_ok hne
    have hc : computedEigsFl (leftEvaluation p) eigvalsh (fun (_ : Fin 2) (_ : Fin 3) => (2 : ℝ) ^ (p + 1) - 1) false = .ok (eigvalsh 2 fun _ _ => 1) := by
      unfold computedEigsFl
      rw [hh, hlow]
      rfl
    generalize (eigvalsh 2 fun _ _ => 1) = e at hc hf hm
    have ht : trimZerosFl (leftEvaluation p) float e (.str "negative") = .ok (e.filter fun e => decide (e > 0)) := by simp [trimZerosFl]
    unfold seriesValuesFl
    rw [hc]
    simp only [Bind.bind, Except.bind, if_true]
    rw [ht]
    simp only [initEigVals1d_ok]
    rw [hm, hf]

/-- Double precision rounded towards zero: three times `2 ^ 54 - 1`. -/
example := C178_constant_refuted 53 (by norm_num)

/-- A constant series that is recognised. -/
example (p : ℕ) : ∀ j, npCovFl (leftEvaluation p) (fun (_ : Fin 2) (_ : Fin 5) => (0 : ℝ)) 1 0 j = 0 :=
  (C178_recognised_partial (leftEvaluation p) (1 / 2 ^ p) ⟨(trunc_float p).2, fun _ => leftToRight_leaves, fun _ => leftToRight_leaves, fun _ _ => leftToRight_leaves⟩ _ (by norm_num) 0 0 (fun _ => rfl) (fun k _ => by simp [leftEvaluation, trunc])).2

end Props
end Rounded
end RMT
