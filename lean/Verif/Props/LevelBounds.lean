import Verif.Props.LevelVariance
import Mathlib.Algebra.Order.Floor.Semiring
import Mathlib.Order.Interval.Finset.Nat
import Mathlib.Data.Rat.Floor

/-!
# Property C94: bounds on the level number variance; equally spaced levels
-/

set_option linter.unusedSectionVars false

namespace RMT
namespace Props
open LevelVar Spec Finset

variable {K : Type} [Field K] [LinearOrder K] [IsStrictOrderedRing K]

/-- The variance of finitely many samples in `[a, b]` is at most `(b - a)²/4`. -/
theorem runVar_le (d : Nat → K) (a b : K) (k : Nat) (h : ∀ j < k, a ≤ d j ∧ d j ≤ b) : runVar d k ≤ (b - a) ^ 2 / 4 := by
  rcases Nat.eq_zero_or_pos k with rfl | hk
  · simp only [runVar, range_zero, sum_empty, zero_div]; positivity
  have hk' : (0 : K) < k := by exact_mod_cast hk
  rw [runVar, div_le_iff₀ hk']
  have hm : ∑ j ∈ range k, (d j - runMean d k) = 0 := by
    rw [sum_sub_distrib, sum_const, card_range, nsmul_eq_mul, runMean]
    field_simp
    ring
  have e : ∀ j, (d j - (a + b) / 2) ^ 2 =
      (d j - runMean d k) ^ 2 + 2 * (runMean d k - (a + b) / 2) * (d j - runMean d k) + (runMean d k - (a + b) / 2) ^ 2 := by
    intro j; ring
  have h1 : ∑ j ∈ range k, (d j - runMean d k) ^ 2 ≤ ∑ j ∈ range k, (d j - (a + b) / 2) ^ 2 := by
    simp only [e]
    rw [sum_add_distrib, sum_add_distrib, ← mul_sum, hm, mul_zero, add_zero]
    have : 0 ≤ ∑ j ∈ range k, (runMean d k - (a + b) / 2) ^ 2 := sum_nonneg fun _ _ => sq_nonneg _
    linarith
  refine h1.trans ?_
  have h2 : ∑ j ∈ range k, (d j - (a + b) / 2) ^ 2 ≤ ∑ _j ∈ range k, (b - a) ^ 2 / 4 := by
    apply sum_le_sum
    intro j hj
    obtain ⟨ha, hb⟩ := h j (mem_range.mp hj)
    nlinarith
  refine h2.trans_eq ?_
  rw [sum_const, card_range, nsmul_eq_mul, mul_comm]

/-- **C94 (bound by the spread of the counts).** If every window contains between `a` and `b` values, then `sigma_L` returns at most
`(b - a)²/4`, for all budgets and tolerances. -/
theorem C94_spread (unfolded : List K) (mn mx : K) (hmn : IsMin unfolded mn) (hmx : IsMax unfolded mx) (L : K) (maxI : Nat)
    (tol : K) (minI : Nat) (U : Nat → K) (a b : Nat)
    (hab : ∀ j, a ≤ countIn unfolded (mn + (mx - mn) * U j - L / 2) (mn + (mx - mn) * U j + L / 2) ∧
      countIn unfolded (mn + (mx - mn) * U j - L / 2) (mn + (mx - mn) * U j + L / 2) ≤ b)
    (v : K) (conv : Bool) (k : Nat) (h : sigmaL unfolded L maxI tol minI U = .ok (v, conv, k)) :
    0 ≤ v ∧ v ≤ ((b : K) - a) ^ 2 / 4 := by
  obtain ⟨v', conv', k', h1, -, h3, h4⟩ := C19_sigma_is_variance unfolded mn mx hmn hmx L maxI tol minI U
  rw [h] at h1
  injection h1 with h1
  rw [Prod.mk.injEq] at h1
  obtain ⟨rfl, -⟩ := h1
  refine ⟨h4, ?_⟩
  rw [h3]
  apply runVar_le
  intro j _
  obtain ⟨q1, q2⟩ := hab (j + 1)
  exact ⟨by unfold windowCount; exact_mod_cast q1, by unfold windowCount; exact_mod_cast q2⟩

/-- **C94 (universal bound).** Whatever the draws, `sigma_L` returns at most a quarter of the squared number of levels. -/
theorem C94_universal (unfolded : List K) (L : K) (maxI : Nat) (tol : K) (minI : Nat) (U : Nat → K)
    (v : K) (conv : Bool) (k : Nat) (h : sigmaL unfolded L maxI tol minI U = .ok (v, conv, k)) :
    0 ≤ v ∧ v ≤ (unfolded.length : K) ^ 2 / 4 := by
  have hu : unfolded ≠ [] := by
    rintro rfl
    rw [C19_sigma_empty] at h
    cases h
  obtain ⟨mn, hmn⟩ := exists_isMin unfolded hu
  obtain ⟨mx, hmx⟩ := exists_isMax unfolded hu
  have := C94_spread unfolded mn mx hmn hmx L maxI tol minI U 0 unfolded.length
    (fun j => ⟨Nat.zero_le _, List.countP_le_length⟩) v conv k h
  simpa using this

/-- The equally spaced spectrum `0, 1, …, M`. -/
def picket (K : Type) [Field K] (M : Nat) : List K := (List.range (M + 1)).map fun (i : Nat) => (i : K)

theorem picket_isMin (M : Nat) : IsMin (picket K M) 0 := by
  refine ⟨List.mem_map.mpr ⟨0, by simp, by simp⟩, fun x hx => ?_⟩
  obtain ⟨i, -, rfl⟩ := List.mem_map.mp hx
  exact Nat.cast_nonneg _

theorem picket_isMax (M : Nat) : IsMax (picket K M) (M : K) := by
  refine ⟨List.mem_map.mpr ⟨M, by simp, rfl⟩, fun x hx => ?_⟩
  obtain ⟨i, hi, rfl⟩ := List.mem_map.mp hx
  exact Nat.cast_le.mpr (by have := List.mem_range.mp hi; omega)

theorem countIn_picket [FloorSemiring K] (M : Nat) (lo hi : K) (h0 : 0 ≤ lo) (h1 : hi ≤ M) (hle : lo ≤ hi) :
    countIn (picket K M) lo hi = ⌊hi⌋₊ + 1 - ⌈lo⌉₊ := by
  have e : countIn (picket K M) lo hi = ((range (M + 1)).filter fun i : Nat => lo ≤ (i : K) ∧ (i : K) ≤ hi).card := by
    simp only [countIn, picket, List.countP_eq_length_filter, Finset.card_def, Finset.filter_val, Finset.range_val,
      Multiset.range, Multiset.filter_coe, Multiset.coe_card, List.filter_map, List.length_map, Function.comp_def]
  rw [e, ← Nat.card_Icc]
  congr 1
  ext i
  rw [mem_filter, mem_range, mem_Icc, Nat.ceil_le, Nat.le_floor_iff (h0.trans hle)]
  constructor
  · rintro ⟨-, h⟩; exact h
  · rintro h
    refine ⟨?_, h⟩
    have : (i : K) ≤ M := h.2.trans h1
    have : i ≤ M := by exact_mod_cast this
    omega

/-- **C94 (partial: windows inside the spectrum).** For equally spaced levels at distance 1, if all windows lie inside the spectrum, each contains
`⌊L⌋` or `⌊L⌋ + 1` levels and the level number variance is at most `1/4` - the value for perfectly rigid
spectra. Missing: windows reaching over the ends of the spectrum, for which it is false (`C94_picket_refuted`). -/
theorem C94_picket_partial [FloorSemiring K] (M : Nat) (L : K) (hL : 0 ≤ L) (maxI : Nat) (tol : K) (minI : Nat) (U : Nat → K)
    (hU : ∀ j, L / 2 ≤ M * U j ∧ M * U j ≤ M - L / 2)
    (v : K) (conv : Bool) (k : Nat) (h : sigmaL (picket K M) L maxI tol minI U = .ok (v, conv, k)) :
    0 ≤ v ∧ v ≤ 1 / 4 := by
  have := C94_spread (picket K M) 0 M (picket_isMin M) (picket_isMax M) L maxI tol minI U ⌊L⌋₊ (⌊L⌋₊ + 1) (fun j => by
    obtain ⟨h1, h2⟩ := hU j
    have e0 : (0 : K) + (M - 0) * U j = M * U j := by ring
    rw [e0, countIn_picket M _ _ (by linarith) (by linarith) (by linarith)]
    set lo := (M : K) * U j - L / 2 with hlo
    have ehi : (M : K) * U j + L / 2 = lo + L := by rw [hlo]; ring
    rw [ehi]
    have hlo0 : 0 ≤ lo := by linarith
    have f1 := Nat.floor_le hL
    have f2 := Nat.lt_floor_add_one L
    have g1 := Nat.floor_le (add_nonneg hlo0 hL)
    have g2 := Nat.lt_floor_add_one (lo + L)
    have c1 := Nat.le_ceil lo
    have c2 := Nat.ceil_lt_add_one hlo0
    have b1 : ⌊L⌋₊ + ⌈lo⌉₊ < ⌊lo + L⌋₊ + 2 := by
      have : ((⌊L⌋₊ + ⌈lo⌉₊ : Nat) : K) < ((⌊lo + L⌋₊ + 2 : Nat) : K) := by push_cast; linarith
      exact_mod_cast this
    have b2 : ⌊lo + L⌋₊ < ⌈lo⌉₊ + ⌊L⌋₊ + 1 := by
      have : ((⌊lo + L⌋₊ : Nat) : K) < ((⌈lo⌉₊ + ⌊L⌋₊ + 1 : Nat) : K) := by push_cast; linarith
      exact_mod_cast this
    omega) v conv k h
  simpa using this

/-- **C94 (refuted: windows over the ends).** The window centres are drawn from the whole range of the spectrum. For `M + 1` equally spaced levels with `M ≥ 2L`, `L = 2 m` an even number, two iterations, the first draw near the lower end and the second in the middle third
give a variance of at least `(m-1)²/4`: it grows with `L` instead of being bounded by `1/4`. -/
theorem C94_picket_refuted [FloorSemiring K] (m M : Nat) (hm : 1 ≤ m) (hM : 4 * m ≤ M) (tol : K) (U : Nat → K)
    (h1 : 0 ≤ M * U 1 ∧ M * U 1 < 1) (h2 : (m : K) ≤ M * U 2 ∧ M * U 2 ≤ M - m) :
    ∃ v conv, sigmaL (picket K M) (2 * m : K) 2 tol 0 U = .ok (v, conv, 2) ∧ ((m : K) - 1) ^ 2 / 4 ≤ v := by
  obtain ⟨v, conv, k, e1, e2, e3, e4, -⟩ :=
    C20_sigma_budget (picket K M) 0 M (picket_isMin M) (picket_isMax M) (2 * m : K) 2 tol 0 U
  obtain ⟨v', conv', k', r1, -, r3, -⟩ := C19_sigma_is_variance (picket K M) 0 M (picket_isMin M) (picket_isMax M) (2 * m : K) 2 tol 0 U
  rw [e1] at r1
  injection r1 with r1
  rw [Prod.mk.injEq, Prod.mk.injEq] at r1
  obtain ⟨rfl, -, rfl⟩ := r1
  have hk : k = 2 := by
    by_contra hk
    have := e4 (by omega)
    omega
  subst hk
  refine ⟨v, conv, e1, ?_⟩
  have hw1 : windowCount (picket K M) (2 * m : K) 0 M U 1 ≤ m + 1 := by
    unfold windowCount countIn picket
    rw [List.countP_map]
    have : List.countP ((fun e : K => decide ((0 + ((M : K) - 0) * U 1 - 2 * m / 2 ≤ e) ∧ e ≤ 0 + ((M : K) - 0) * U 1 + 2 * m / 2)) ∘
        fun (i : Nat) => (i : K)) (List.range (M + 1)) ≤ List.countP (fun i => decide (i < m + 1)) (List.range (M + 1)) := by
      apply List.countP_mono_left
      intro i _ hi
      simp only [Function.comp_apply, decide_eq_true_iff] at hi ⊢
      have : (i : K) < (m + 1 : Nat) := by push_cast; linarith [hi.2, h1.2]
      exact_mod_cast this
    have hc : List.countP (fun i => decide (i < m + 1)) (List.range (M + 1)) = m + 1 := by
      rw [List.countP_eq_length_filter]
      have : (List.range (M + 1)).filter (fun i => decide (i < m + 1)) = List.range (m + 1) := by
        have hr : List.range (M + 1) = List.range (m + 1) ++ (List.range (M - m)).map (fun x => m + 1 + x) := by
          rw [← List.range_add]; congr 1; omega
        rw [hr, List.filter_append, List.filter_eq_self.mpr, List.filter_eq_nil_iff.mpr, List.append_nil]
        · simp; intro a _; omega
        · simp
      rw [this, List.length_range]
    rw [hc] at this
    exact_mod_cast this
  have hw2 : (2 * m : K) ≤ windowCount (picket K M) (2 * m : K) 0 M U 2 := by
    unfold windowCount
    have e0 : (0 : K) + (M - 0) * U 2 = M * U 2 := by ring
    have ed : (2 * m : K) / 2 = m := by ring
    rw [e0, ed, countIn_picket M _ _ (by linarith) (by linarith) (by have : (0:K) ≤ m := Nat.cast_nonneg _; linarith)]
    set lo := (M : K) * U 2 - m with hlo
    have ehi : (M : K) * U 2 + m = lo + 2 * m := by rw [hlo]; ring
    rw [ehi]
    have hlo0 : 0 ≤ lo := by linarith
    have hm0 : (0 : K) ≤ m := Nat.cast_nonneg _
    have g2 := Nat.lt_floor_add_one (lo + 2 * m)
    have c2 := Nat.ceil_lt_add_one hlo0
    have b1 : 2 * m + ⌈lo⌉₊ < ⌊lo + 2 * m⌋₊ + 2 := by
      have : ((2 * m + ⌈lo⌉₊ : Nat) : K) < ((⌊lo + 2 * m⌋₊ + 2 : Nat) : K) := by push_cast; linarith
      exact_mod_cast this
    have : 2 * m ≤ ⌊lo + 2 * m⌋₊ + 1 - ⌈lo⌉₊ := by omega
    exact_mod_cast this
  rw [r3]
  simp only [runVar, runMean, sum_range_succ, sum_range_zero, zero_add, Nat.cast_ofNat]
  have hm1 : (1 : K) ≤ m := by exact_mod_cast hm
  set x := windowCount (picket K M) (2 * m : K) 0 M U 1
  set y := windowCount (picket K M) (2 * m : K) 0 M U 2
  have hd : (m : K) - 1 ≤ y - x := by linarith
  have : ((x - (x + y) / 2) ^ 2 + (y - (x + y) / 2) ^ 2) / 2 = (y - x) ^ 2 / 4 := by ring
  rw [this]
  have hm2 : 0 ≤ (m : K) - 1 := by linarith
  nlinarith

/-- C94: draws meeting the hypotheses of the partial theorem and of the refutation (`M = 20`, `L = 10`, bound `(5-1)²/4 = 4`). -/
example : (∀ _j : Nat, (10 : ℚ) / 2 ≤ (20 : Nat) * (1 / 2) ∧ ((20 : Nat) : ℚ) * (1 / 2) ≤ (20 : Nat) - 10 / 2) ∧
    ∃ v conv, sigmaL (picket ℚ 20) (2 * (5 : Nat) : ℚ) 2 (1 / 100) 0 (fun j => if j = 1 then 0 else 1 / 2) = .ok (v, conv, 2) ∧ 4 ≤ v := by
  constructor
  · intro _; norm_num
  · obtain ⟨v, c, h1, h2⟩ := C94_picket_refuted (K := ℚ) 5 20 (by norm_num) (by norm_num) (1 / 100)
      (fun j => if j = 1 then 0 else 1 / 2) (by norm_num) (by norm_num)
    exact ⟨v, c, h1, by norm_num at h2; exact h2⟩

end Props
end RMT
