import Verif.Model.RoundedSample
import Verif.Spec.Float
import Verif.Lemmas.Numeric
import Verif.Lemmas.Rigidity
import Verif.Lemmas.RoundedSample

/-!
# Signs in rounded arithmetic: rigidity samples are non-negative
-/

namespace RMT
namespace Rounded
open Spec Utils Rigidity

variable {K : Type} [Field K] [LinearOrder K] [IsStrictOrderedRing K] {fl : K → K} {ε : K}

theorem rnd_ge (h : RelRounding fl ε) (x : K) (hx : 0 ≤ x) : (1 - ε) * x ≤ fl x := by
  have := (abs_le.mp (h x)).1
  rw [abs_of_nonneg hx] at this
  linarith

theorem rnd_le (h : RelRounding fl ε) (x : K) (hx : 0 ≤ x) : fl x ≤ (1 + ε) * x := by
  have := (abs_le.mp (h x)).2
  rw [abs_of_nonneg hx] at this
  linarith

theorem rnd_nonneg (h : RelRounding fl ε) (h1 : ε ≤ 1) {x : K} (hx : 0 ≤ x) : 0 ≤ fl x :=
  le_trans (mul_nonneg (by linarith) hx) (rnd_ge h x hx)

theorem rnd_pos (h : RelRounding fl ε) (h1 : ε < 1) {x : K} (hx : 0 < x) : 0 < fl x :=
  lt_of_lt_of_le (mul_pos (by linarith) hx) (rnd_ge h x hx.le)

theorem rnd_ge' (h : RelRounding fl ε) (hε1 : ε ≤ 1 / 1000) {x m : K} (hm0 : 0 ≤ m) (hm : m ≤ x) : 999 / 1000 * m ≤ fl x := by
  have h1 := rnd_ge h x (hm0.trans hm)
  have h2 : 999 / 1000 * m ≤ (1 - ε) * x := mul_le_mul (by linarith) hm hm0 (by linarith)
  exact h2.trans h1

theorem rnd_le' (h : RelRounding fl ε) (hε1 : ε ≤ 1 / 1000) {x m : K} (hx : 0 ≤ x) (hm : x ≤ m) : fl x ≤ 1001 / 1000 * m := by
  have h1 := rnd_le h x hx
  have h2 : (1 + ε) * x ≤ 1001 / 1000 * m := mul_le_mul (by linarith) hm hx (by norm_num)
  exact h1.trans h2

/-- Rounding an approximation. -/
theorem rnd_near (h : RelRounding fl ε) (hε : 0 ≤ ε) {x y δ B : K} (hxy : |x - y| ≤ δ) (hy : |y| ≤ B) : |fl x - y| ≤ δ + ε * (B + δ) := by
  have h1 := h x
  have h2 : |x| ≤ B + δ := by
    have := abs_sub_abs_le_abs_sub x y
    linarith
  have h3 : ε * |x| ≤ ε * (B + δ) := mul_le_mul_of_nonneg_left h2 hε
  have h4 := abs_add_le (fl x - x) (x - y)
  rw [sub_add_sub_cancel] at h4
  linarith

/-! ## The grid -/

omit [LinearOrder K] [IsStrictOrderedRing K] in
theorem linspaceFl_length (fl : K → K) (a b : K) (n : Nat) : (linspaceFl fl a b n).length = n := by simp [linspaceFl]

theorem grid_near (h : RelRounding fl ε) (hε : 0 ≤ ε) (hε1 : ε ≤ 1 / 1000) (c L : K) (hL : 0 < L) (n : Nat) (hn : 2 ≤ n) (i : Nat) (hi : i < n) :
    |(linspaceFl fl (fl (c - fl (L / 2))) (fl (c + fl (L / 2))) n)[i]'(by rw [linspaceFl_length]; exact hi) - (c - L / 2 + i * (L / ((n : K) - 1)))| ≤ 15 * (ε * (|c| + L)) := by
  have hn1 : (1 : K) ≤ (n : K) - 1 := by
    have : (2 : K) ≤ n := by exact_mod_cast hn
    linarith
  have hnp : (0 : K) < (n : K) - 1 := by linarith
  have hc := abs_nonneg c
  have hc1 := neg_abs_le c
  have hc2 := le_abs_self c
  set M := |c| + L with hM
  have hM0 : 0 < M := by linarith
  set e := ε * M with he
  have he0 : 0 ≤ e := mul_nonneg hε hM0.le
  have heM : e ≤ M / 1000 := by rw [he]; nlinarith
  have hsmall : ε * e ≤ e / 1000 := by nlinarith
  have hεL : ε * L ≤ e := by rw [he]; exact mul_le_mul_of_nonneg_left (by linarith) hε
  -- half of L
  have q1 : |fl (L / 2) - L / 2| ≤ e / 2 := by
    have := h (L / 2)
    rw [abs_of_pos (by linarith : 0 < L / 2)] at this
    linarith
  have q2 : |fl (c - fl (L / 2)) - (c - L / 2)| ≤ 2 * e := by
    have := rnd_near h hε (x := c - fl (L / 2)) (y := c - L / 2) (δ := e / 2) (B := M) (by rw [show c - fl (L / 2) - (c - L / 2) = -(fl (L / 2) - L / 2) by ring, abs_neg]; exact q1)
      (by rw [abs_le]; constructor <;> linarith)
    have e1 : ε * (M + e / 2) = e + ε * e / 2 := by rw [he]; ring
    rw [e1] at this
    linarith
  have q3 : |fl (c + fl (L / 2)) - (c + L / 2)| ≤ 2 * e := by
    have := rnd_near h hε (x := c + fl (L / 2)) (y := c + L / 2) (δ := e / 2) (B := M) (by rw [show c + fl (L / 2) - (c + L / 2) = fl (L / 2) - L / 2 by ring]; exact q1)
      (by rw [abs_le]; constructor <;> linarith)
    have e1 : ε * (M + e / 2) = e + ε * e / 2 := by rw [he]; ring
    rw [e1] at this
    linarith
  set a := fl (c - fl (L / 2)) with ha
  set b := fl (c + fl (L / 2)) with hb
  have hLM : L ≤ M := by linarith
  have q4 : |fl (b - a) - L| ≤ 6 * e := by
    have := rnd_near h hε (x := b - a) (y := L) (δ := 4 * e) (B := M) (by
      rw [show b - a - L = (b - (c + L / 2)) - (a - (c - L / 2)) by ring]
      exact (abs_sub _ _).trans (by linarith)) (by rw [abs_of_pos hL]; exact hLM)
    have e1 : ε * (M + 4 * e) = e + 4 * (ε * e) := by rw [he]; ring
    rw [e1] at this
    linarith
  have q5 : |fl (fl (b - a) / ((n : K) - 1)) - L / ((n : K) - 1)| ≤ 8 * e / ((n : K) - 1) := by
    have := rnd_near h hε (x := fl (b - a) / ((n : K) - 1)) (y := L / ((n : K) - 1)) (δ := 6 * e / ((n : K) - 1)) (B := M / ((n : K) - 1)) (by
      rw [← sub_div, abs_div, abs_of_pos hnp]; exact div_le_div_of_nonneg_right q4 hnp.le)
      (by rw [abs_of_pos (div_pos hL hnp)]; exact div_le_div_of_nonneg_right hLM hnp.le)
    refine this.trans ?_
    rw [← add_div, mul_div_assoc', ← add_div]
    refine div_le_div_of_nonneg_right ?_ hnp.le
    have e1 : ε * (M + 6 * e) = e + 6 * (ε * e) := by rw [he]; ring
    linarith
  set s := fl (fl (b - a) / ((n : K) - 1)) with hs
  have hi1 : (i : K) ≤ (n : K) - 1 := by
    have : ((i + 1 : ℕ) : K) ≤ n := by exact_mod_cast hi
    push_cast at this
    linarith
  have hi0 : (0 : K) ≤ i := Nat.cast_nonneg i
  have hih : (i : K) * (L / ((n : K) - 1)) ≤ L := by
    rw [mul_div_assoc', div_le_iff₀ hnp]
    nlinarith
  have hih0 : 0 ≤ (i : K) * (L / ((n : K) - 1)) := mul_nonneg hi0 (div_pos hL hnp).le
  have q6 : |fl ((i : K) * s) - i * (L / ((n : K) - 1))| ≤ 10 * e := by
    have := rnd_near h hε (x := (i : K) * s) (y := i * (L / ((n : K) - 1))) (δ := 8 * e) (B := M) (by
      rw [← mul_sub, abs_mul, abs_of_nonneg hi0]
      refine (mul_le_mul_of_nonneg_left q5 hi0).trans ?_
      rw [mul_div_assoc', div_le_iff₀ hnp]
      nlinarith) (by rw [abs_of_nonneg hih0]; linarith)
    have e1 : ε * (M + 8 * e) = e + 8 * (ε * e) := by rw [he]; ring
    rw [e1] at this
    linarith
  have q7 : |fl (a + fl ((i : K) * s)) - (c - L / 2 + i * (L / ((n : K) - 1)))| ≤ 15 * e := by
    have := rnd_near h hε (x := a + fl ((i : K) * s)) (y := c - L / 2 + i * (L / ((n : K) - 1))) (δ := 12 * e) (B := M) (by
      rw [show a + fl ((i : K) * s) - (c - L / 2 + i * (L / ((n : K) - 1))) = (a - (c - L / 2)) + (fl ((i : K) * s) - i * (L / ((n : K) - 1))) by ring]
      exact (abs_add_le _ _).trans (by linarith)) (by rw [abs_le]; constructor <;> linarith)
    have e1 : ε * (M + 12 * e) = e + 12 * (ε * e) := by rw [he]; ring
    rw [e1] at this
    linarith
  simp only [linspaceFl, List.getElem_map, List.getElem_range]
  split_ifs with hlast
  · have hcast : (i : K) = (n : K) - 1 := by
      have : ((i + 1 : ℕ) : K) = n := by exact_mod_cast hlast.1
      push_cast at this
      linarith
    rw [hcast, mul_div_cancel₀ _ hnp.ne', show c - L / 2 + L = c + L / 2 by ring]
    linarith
  · exact q7

/-- The precision needed for a grid of `n` points on a window of length `L` around `c`. -/
theorem widths_near (h : RelRounding fl ε) (hε : 0 ≤ ε) (hε1 : ε ≤ 1 / 1000) (c L : K) (hL : 0 < L) (n : Nat) (hn : 2 ≤ n) (hp : 640 * (ε * (|c| + L)) * ((n : K) - 1) ≤ L) :
    ∀ x ∈ (diff (linspaceFl fl (fl (c - fl (L / 2))) (fl (c + fl (L / 2))) n)), 0 ≤ x ∧ 19 / 20 * (L / ((n : K) - 1)) ≤ fl x ∧ fl x ≤ 21 / 20 * (L / ((n : K) - 1)) := by
  intro x hx
  obtain ⟨i, hi, rfl⟩ := List.getElem_of_mem hx
  have hl : i + 1 < n := by
    have := hi
    rw [length_diff, linspaceFl_length] at this
    omega
  have hn1 : (0 : K) < (n : K) - 1 := by
    have : (2 : K) ≤ n := by exact_mod_cast hn
    linarith
  have g0 := grid_near h hε hε1 c L hL n hn i (by omega)
  have g1 := grid_near h hε hε1 c L hL n hn (i + 1) hl
  have hw : 640 * (ε * (|c| + L)) ≤ L / ((n : K) - 1) := by rwa [le_div_iff₀ hn1]
  set e := ε * (|c| + L) with he
  have he0 : 0 ≤ e := mul_nonneg hε (by have := abs_nonneg c; linarith)
  rw [getElem_diff]
  generalize (linspaceFl fl (fl (c - fl (L / 2))) (fl (c + fl (L / 2))) n)[i]'(by rw [linspaceFl_length]; omega) = u at *
  generalize (linspaceFl fl (fl (c - fl (L / 2))) (fl (c + fl (L / 2))) n)[i + 1]'(by rw [linspaceFl_length]; omega) = v at *
  generalize L / ((n : K) - 1) = w at *
  push_cast at g1
  have g0' := abs_le.mp g0
  have g1' := abs_le.mp g1
  have hvu1 : w - 30 * e ≤ v - u := by linarith [g0'.1, g0'.2, g1'.1, g1'.2]
  have hvu2 : v - u ≤ w + 30 * e := by linarith [g0'.1, g0'.2, g1'.1, g1'.2]
  have hvu0 : 0 ≤ v - u := by linarith
  refine ⟨hvu0, le_trans ?_ (rnd_ge h _ hvu0), (rnd_le h _ hvu0).trans ?_⟩ <;> nlinarith

/-! ## The integration rules -/

omit [LinearOrder K] [IsStrictOrderedRing K] in
theorem nth_mem (l : List K) (z : Int) (i : Nat) (hz : z = i) (h : i < l.length) : nth l z ∈ l := by
  rw [nth_of_eq l z i hz h]; exact List.getElem_mem h

theorem trapz_nonneg (h : RelRounding fl ε) (h1 : ε ≤ 1) (grid values : List K) (hg : ∀ x ∈ diff grid, 0 ≤ x) (hv : ∀ y ∈ values, 0 ≤ y) (i : Nat) (r : K) (hr : 0 ≤ r) :
    0 ≤ trapzFromFl fl grid values i r := by
  fun_induction trapzFromFl fl grid values i r with
  | case1 i r hi w hh ih =>
    refine ih (rnd_nonneg h h1 (add_nonneg hr (rnd_nonneg h h1 (div_nonneg (rnd_nonneg h h1 (mul_nonneg ?_ ?_)) (by norm_num)))))
    · refine rnd_nonneg h h1 ?_
      have := hg _ (nth_mem (diff grid) i i rfl (by rw [length_diff]; omega))
      rw [nth_diff grid i i rfl hi] at this
      rwa [nth_of_eq grid (i + 1 : Int) (i + 1) (by push_cast; rfl) hi, nth_of_eq grid (i : Int) i rfl (by omega)]
    · exact rnd_nonneg h h1 (add_nonneg (nth_nonneg values hv _) (nth_nonneg values hv _))
  | case2 i r hi => exact hr

theorem cube_bounds (h : RelRounding fl ε) (hε : 0 ≤ ε) (hε1 : ε ≤ 1 / 1000) {x a b : K} (ha : 0 ≤ a) (hax : a ≤ x) (hxb : x ≤ b) : 99 / 100 * a ^ 3 ≤ cubeFl fl x ∧ cubeFl fl x ≤ 101 / 100 * b ^ 3 := by
  have hx : 0 ≤ x := ha.trans hax
  have h1 : ε ≤ 1 := by linarith
  have l1 := rnd_ge h (x * x) (mul_nonneg hx hx)
  have u1 := rnd_le h (x * x) (mul_nonneg hx hx)
  have n1 := rnd_nonneg h h1 (mul_nonneg hx hx)
  have l2 := rnd_ge h (fl (x * x) * x) (mul_nonneg n1 hx)
  have u2 := rnd_le h (fl (x * x) * x) (mul_nonneg n1 hx)
  have hx3 : 0 ≤ x ^ 3 := pow_nonneg hx 3
  have A : (1 - ε) * x ^ 3 ≤ fl (x * x) * x := by
    have := mul_le_mul_of_nonneg_right l1 hx
    calc _ = (1 - ε) * (x * x) * x := by ring
      _ ≤ _ := this
  have B : fl (x * x) * x ≤ (1 + ε) * x ^ 3 := by
    have := mul_le_mul_of_nonneg_right u1 hx
    calc _ ≤ (1 + ε) * (x * x) * x := this
      _ = _ := by ring
  have a3 : a ^ 3 ≤ x ^ 3 := pow_le_pow_left₀ ha hax 3
  have b3 : x ^ 3 ≤ b ^ 3 := pow_le_pow_left₀ hx hxb 3
  unfold cubeFl
  constructor
  · have : (1 - ε) * ((1 - ε) * x ^ 3) ≤ (1 - ε) * (fl (x * x) * x) := mul_le_mul_of_nonneg_left A (by linarith)
    nlinarith
  · have : (1 + ε) * (fl (x * x) * x) ≤ (1 + ε) * ((1 + ε) * x ^ 3) := mul_le_mul_of_nonneg_left B (by linarith)
    nlinarith

theorem square_nonneg (h : RelRounding fl ε) (h1 : ε ≤ 1) (x : K) : 0 ≤ squareFl fl x := rnd_nonneg h h1 (mul_self_nonneg x)

/-- The weights of the ends of a pair of intervals of nearly equal width. -/
theorem end_weight (h : RelRounding fl ε) (hε : 0 ≤ ε) (hε1 : ε ≤ 1 / 1000) {w x y : K} (hw : 0 < w) (hx : 19 / 20 * w ≤ x ∧ x ≤ 21 / 20 * w) (hy : 19 / 20 * w ≤ y ∧ y ≤ 21 / 20 * w) :
    0 ≤ fl (fl (fl (2 * cubeFl fl x) - cubeFl fl y) + fl (fl (3 * y) * squareFl fl x)) := by
  have h1 : ε ≤ 1 := by linarith
  have cx := (cube_bounds h hε hε1 (by positivity) hx.1 hx.2).1
  have cy := (cube_bounds h hε hε1 (by positivity) hy.1 hy.2).2
  have hw3 : 0 < w ^ 3 := by positivity
  have e1 : (19 / 20 * w) ^ 3 = 6859 / 8000 * w ^ 3 := by ring
  have e2 : (21 / 20 * w) ^ 3 = 9261 / 8000 * w ^ 3 := by ring
  rw [e1] at cx
  rw [e2] at cy
  have c0 : 0 ≤ cubeFl fl x := by linarith
  have d := rnd_ge h (2 * cubeFl fl x) (by linarith)
  have hsub : 0 ≤ fl (2 * cubeFl fl x) - cubeFl fl y := by nlinarith
  exact rnd_nonneg h h1 (add_nonneg (rnd_nonneg h h1 hsub) (rnd_nonneg h h1 (mul_nonneg (rnd_nonneg h h1 (by linarith [hy.1])) (square_nonneg h h1 x))))

/-- The weight of the middle of a pair of intervals. -/
theorem mid_weight (h : RelRounding fl ε) (hε : 0 ≤ ε) (hε1 : ε ≤ 1 / 1000) {w x y : K} (hw : 0 < w) (hx : 19 / 20 * w ≤ x ∧ x ≤ 21 / 20 * w) (hy : 19 / 20 * w ≤ y ∧ y ≤ 21 / 20 * w) :
    3 / 2 * w ^ 3 ≤ fl (fl (cubeFl fl y + cubeFl fl x) + fl (fl (fl (3 * y) * x) * fl (y + x))) ∧ 0 < fl (fl (6 * y) * x) ∧ fl (fl (6 * y) * x) ≤ 7 * w ^ 2 := by
  have h1 : ε ≤ 1 := by linarith
  have h1' : ε < 1 := by linarith
  have hx0 : 0 < x := lt_of_lt_of_le (by positivity) hx.1
  have hy0 : 0 < y := lt_of_lt_of_le (by positivity) hy.1
  have cx := (cube_bounds h hε hε1 (by positivity) hx.1 hx.2).1
  have cy := (cube_bounds h hε hε1 (by positivity) hy.1 hy.2).1
  have hw3 : 0 < w ^ 3 := by positivity
  have e1 : (19 / 20 * w) ^ 3 = 6859 / 8000 * w ^ 3 := by ring
  rw [e1] at cx cy
  have s0 : 0 ≤ cubeFl fl y + cubeFl fl x := by linarith
  have s1 := rnd_ge h (cubeFl fl y + cubeFl fl x) s0
  have t0 : 0 ≤ fl (fl (fl (3 * y) * x) * fl (y + x)) :=
    rnd_nonneg h h1 (mul_nonneg (rnd_nonneg h h1 (mul_nonneg (rnd_nonneg h h1 (by linarith)) hx0.le)) (rnd_nonneg h h1 (by linarith)))
  have s2 := rnd_ge h (fl (cubeFl fl y + cubeFl fl x) + fl (fl (fl (3 * y) * x) * fl (y + x))) (add_nonneg (rnd_nonneg h h1 s0) t0)
  refine ⟨?_, rnd_pos h h1' (mul_pos (rnd_pos h h1' (by linarith)) hx0), ?_⟩
  · have A : 16 / 10 * w ^ 3 ≤ fl (cubeFl fl y + cubeFl fl x) := by nlinarith
    nlinarith
  · have u1 := rnd_le h (6 * y) (by linarith)
    have p1 := rnd_pos h h1' (by linarith : 0 < 6 * y)
    have u2 := rnd_le h (fl (6 * y) * x) (mul_nonneg p1.le hx0.le)
    have B : fl (6 * y) ≤ 632 / 100 * w := by nlinarith [hy.2]
    have C : fl (6 * y) * x ≤ 632 / 100 * w * (21 / 20 * w) := mul_le_mul B hx.2 hx0.le (by positivity)
    have D : 0 < w ^ 2 := by positivity
    have E : 632 / 100 * w * (21 / 20 * w) = 6636 / 1000 * w ^ 2 := by ring
    rw [E] at C
    nlinarith

/-- One pair of intervals in the loop adds a non-negative amount, at least a fifth of the middle value times the width. -/
theorem pair_ge (h : RelRounding fl ε) (hε : 0 ≤ ε) (hε1 : ε ≤ 1 / 1000) {w x y r a b c : K} (hw : 0 < w) (hx : 19 / 20 * w ≤ x ∧ x ≤ 21 / 20 * w) (hy : 19 / 20 * w ≤ y ∧ y ≤ 21 / 20 * w)
    (hr : 0 ≤ r) (ha : 0 ≤ a) (hb : 0 ≤ b) (hc : 0 ≤ c) :
    b * w / 5 ≤ fl (fl (fl (r + fl (fl (b * fl (fl (cubeFl fl y + cubeFl fl x) + fl (fl (fl (3 * y) * x) * fl (y + x)))) / fl (fl (6 * y) * x))) +
      fl (fl (a * fl (fl (fl (2 * cubeFl fl x) - cubeFl fl y) + fl (fl (3 * y) * squareFl fl x))) / fl (fl (6 * x) * fl (y + x)))) +
      fl (fl (c * fl (fl (fl (2 * cubeFl fl y) - cubeFl fl x) + fl (fl (3 * x) * squareFl fl y))) / fl (fl (6 * y) * fl (y + x)))) := by
  have h1 : ε ≤ 1 := by linarith
  have hx0 : 0 < x := lt_of_lt_of_le (by positivity) hx.1
  have hy0 : 0 < y := lt_of_lt_of_le (by positivity) hy.1
  obtain ⟨m1, m2, m3⟩ := mid_weight h hε hε1 hw hx hy
  have ew1 := end_weight h hε hε1 hw hx hy
  have ew2 := end_weight h hε hε1 hw hy hx
  have n1 : 0 ≤ fl (fl (6 * x) * fl (y + x)) := rnd_nonneg h h1 (mul_nonneg (rnd_nonneg h h1 (by linarith)) (rnd_nonneg h h1 (by linarith)))
  have n2 : 0 ≤ fl (fl (6 * y) * fl (y + x)) := rnd_nonneg h h1 (mul_nonneg (rnd_nonneg h h1 (by linarith)) (rnd_nonneg h h1 (by linarith)))
  generalize fl (fl (cubeFl fl y + cubeFl fl x) + fl (fl (fl (3 * y) * x) * fl (y + x))) = A at m1 ⊢
  generalize fl (fl (6 * y) * x) = B at m2 m3 ⊢
  generalize fl (fl (fl (2 * cubeFl fl x) - cubeFl fl y) + fl (fl (3 * y) * squareFl fl x)) = E1 at ew1 ⊢
  generalize fl (fl (fl (2 * cubeFl fl y) - cubeFl fl x) + fl (fl (3 * x) * squareFl fl y)) = E2 at ew2 ⊢
  generalize fl (fl (6 * x) * fl (y + x)) = D1 at n1 ⊢
  generalize fl (fl (6 * y) * fl (y + x)) = D2 at n2 ⊢
  have hw3 : 0 < w ^ 3 := by positivity
  have hw2 : 0 < w ^ 2 := by positivity
  have hbA : 0 ≤ b * A := mul_nonneg hb (by linarith)
  have X1 : 3 / 14 * (b * w) ≤ b * A / B := by
    rw [le_div_iff₀ m2]
    have i1 : 3 / 14 * (b * w) * B ≤ 3 / 14 * (b * w) * (7 * w ^ 2) := mul_le_mul_of_nonneg_left m3 (by positivity)
    have i2 : b * (3 / 2 * w ^ 3) ≤ b * A := mul_le_mul_of_nonneg_left m1 hb
    calc _ ≤ 3 / 14 * (b * w) * (7 * w ^ 2) := i1
      _ = b * (3 / 2 * w ^ 3) := by ring
      _ ≤ _ := i2
  have hbw : 0 ≤ b * w := by positivity
  have X2 : 999 / 1000 * (b * A) / B ≤ fl (b * A) / B := div_le_div_of_nonneg_right (rnd_ge' h hε1 hbA le_rfl) m2.le
  have p1 : 0 ≤ fl (fl (a * E1) / D1) := rnd_nonneg h h1 (div_nonneg (rnd_nonneg h h1 (mul_nonneg ha ew1)) n1)
  have p2 : 0 ≤ fl (fl (c * E2) / D2) := rnd_nonneg h h1 (div_nonneg (rnd_nonneg h h1 (mul_nonneg hc ew2)) n2)
  rw [mul_div_assoc] at X2
  generalize fl (fl (a * E1) / D1) = Y at p1 ⊢
  generalize fl (fl (c * E2) / D2) = Z at p2 ⊢
  have z1 : 213 / 1000 * (b * w) ≤ fl (b * A) / B := by linarith
  have z2 := rnd_ge' h hε1 (by positivity) z1
  generalize fl (fl (b * A) / B) = X at z2 ⊢
  have z3 := rnd_ge' h hε1 (m := 212 / 1000 * (b * w)) (x := r + X) (by positivity) (by linarith)
  have z4 := rnd_ge' h hε1 (m := 211 / 1000 * (b * w)) (x := fl (r + X) + Y) (by positivity) (by linarith)
  have z5 := rnd_ge' h hε1 (m := 210 / 1000 * (b * w)) (x := fl (fl (r + X) + Y) + Z) (by positivity) (by linarith)
  linarith

theorem simps_nonneg (h : RelRounding fl ε) (hε : 0 ≤ ε) (hε1 : ε ≤ 1 / 1000) {w : K} (hw : 0 < w) (hs vals : List K) (N : Nat) (hl : hs.length = N)
    (hh : ∀ x ∈ hs, 19 / 20 * w ≤ x ∧ x ≤ 21 / 20 * w) (hv : ∀ y ∈ vals, 0 ≤ y) (i : Nat) (hi1 : 1 ≤ i) (r : K) (hr : 0 ≤ r) :
    0 ≤ simpsFromFl fl hs vals N i r := by
  fun_induction simpsFromFl fl hs vals N i r with
  | case1 i r hi h1 h0 hph r1 r2 r3 ih =>
    refine ih (by omega) ?_
    have := pair_ge h hε hε1 hw (hh _ (nth_mem hs ((i : Int) - 1) (i - 1) (by omega) (by omega))) (hh _ (nth_mem hs i i rfl (by omega))) hr
      (nth_nonneg vals hv ((i : Int) - 1)) (nth_nonneg vals hv i) (nth_nonneg vals hv ((i : Int) + 1))
    have hp : 0 ≤ nth vals (i : Int) * w / 5 := by
      have := nth_nonneg vals hv (i : Int)
      positivity
    exact hp.trans this
  | case2 i r hi => exact hr

theorem simps_last (h : RelRounding fl ε) (hε : 0 ≤ ε) (hε1 : ε ≤ 1 / 1000) {w : K} (hw : 0 < w) (hs vals : List K) (N : Nat) (hl : hs.length = N)
    (hh : ∀ x ∈ hs, 19 / 20 * w ≤ x ∧ x ≤ 21 / 20 * w) (hv : ∀ y ∈ vals, 0 ≤ y) (i : Nat) (hi1 : 1 ≤ i) (hi2 : i + 2 ≤ N) (hpar : (N - i) % 2 = 0) (r : K) (hr : 0 ≤ r) :
    nth vals ((N : Int) - 2) * w / 5 ≤ simpsFromFl fl hs vals N i r := by
  fun_induction simpsFromFl fl hs vals N i r with
  | case1 i r hi h1 h0 hph r1 r2 r3 ih =>
    have key := pair_ge h hε hε1 hw (hh _ (nth_mem hs ((i : Int) - 1) (i - 1) (by omega) (by omega))) (hh _ (nth_mem hs i i rfl (by omega))) hr
      (nth_nonneg vals hv ((i : Int) - 1)) (nth_nonneg vals hv i) (nth_nonneg vals hv ((i : Int) + 1))
    have hp : 0 ≤ nth vals (i : Int) * w / 5 := by
      have := nth_nonneg vals hv (i : Int)
      positivity
    by_cases hlast : i + 2 = N
    · rw [simpsFromFl, if_neg (by omega)]
      have e : (N : Int) - 2 = i := by omega
      rw [e]
      exact key
    · exact ih (by omega) (by omega) (by omega) (hp.trans key)
  | case2 i r hi => omega

theorem intSimps_nonneg (h : RelRounding fl ε) (hε : 0 ≤ ε) (hε1 : ε ≤ 1 / 1000) {w : K} (hw : 0 < w) (grid vals : List K) (hg : 3 ≤ grid.length)
    (hh : ∀ x ∈ diff grid, 19 / 20 * w ≤ fl x ∧ fl x ≤ 21 / 20 * w) (hv : ∀ y ∈ vals, 0 ≤ y) : 0 ≤ intSimpsNonunifFl fl grid vals := by
  have h1 : ε ≤ 1 := by linarith
  have hl : ((diff grid).map fl).length = grid.length - 1 := by rw [List.length_map, length_diff]
  have hh' : ∀ x ∈ (diff grid).map fl, 19 / 20 * w ≤ x ∧ x ≤ 21 / 20 * w := fun x hx => by
    obtain ⟨y, hy, rfl⟩ := List.mem_map.mp hx
    exact hh y hy
  have s0 := simps_nonneg h hε hε1 hw _ vals (grid.length - 1) hl hh' hv 1 le_rfl 0 le_rfl
  have s1 := fun hpar hN => simps_last h hε hε1 hw _ vals (grid.length - 1) hl hh' hv 1 le_rfl hN hpar 0 le_rfl
  simp only [intSimpsNonunifFl]
  split_ifs with hev
  swap
  · exact s0
  have s1 := s1 (by omega) (by omega)
  have bl := hh' _ (nth_mem ((diff grid).map fl) (((grid.length - 1 : ℕ) : Int) - 1) (grid.length - 2) (by omega) (by omega))
  have bp := hh' _ (nth_mem ((diff grid).map fl) (((grid.length - 1 : ℕ) : Int) - 2) (grid.length - 3) (by omega) (by omega))
  have v0 := nth_nonneg vals hv (((grid.length - 1 : ℕ) : Int))
  have v1 := nth_nonneg vals hv (((grid.length - 1 : ℕ) : Int) - 1)
  have v2 := nth_nonneg vals hv (((grid.length - 1 : ℕ) : Int) - 2)
  generalize simpsFromFl fl ((diff grid).map fl) vals (grid.length - 1) 1 0 = R at *
  generalize nth ((diff grid).map fl) (((grid.length - 1 : ℕ) : Int) - 1) = x at *
  generalize nth ((diff grid).map fl) (((grid.length - 1 : ℕ) : Int) - 2) = y at *
  generalize nth vals (((grid.length - 1 : ℕ) : Int)) = a at *
  generalize nth vals (((grid.length - 1 : ℕ) : Int) - 1) = b at *
  generalize nth vals (((grid.length - 1 : ℕ) : Int) - 2) = c at *
  have hx0 : 0 < x := lt_of_lt_of_le (by positivity) bl.1
  have hy0 : 0 < y := lt_of_lt_of_le (by positivity) bp.1
  have hcw : 0 ≤ c * w := by positivity
  refine rnd_nonneg h h1 ?_
  have t1 : 0 ≤ fl (fl (a * fl (fl (2 * squareFl fl x) + fl (fl (3 * y) * x))) / fl (6 * fl (y + x))) :=
    rnd_nonneg h h1 (div_nonneg (rnd_nonneg h h1 (mul_nonneg v0 (rnd_nonneg h h1 (add_nonneg (rnd_nonneg h h1 (by linarith [square_nonneg h h1 x]))
      (rnd_nonneg h h1 (mul_nonneg (rnd_nonneg h h1 (by linarith)) hx0.le)))))) (rnd_nonneg h h1 (mul_nonneg (by norm_num) (rnd_nonneg h h1 (by linarith)))))
  have t2 : 0 ≤ fl (fl (b * fl (squareFl fl x + fl (fl (3 * x) * y))) / fl (6 * y)) :=
    rnd_nonneg h h1 (div_nonneg (rnd_nonneg h h1 (mul_nonneg v1 (rnd_nonneg h h1 (add_nonneg (square_nonneg h h1 x)
      (rnd_nonneg h h1 (mul_nonneg (rnd_nonneg h h1 (by linarith)) hy0.le)))))) (rnd_nonneg h h1 (by linarith)))
  -- the subtracted term
  have cx := cube_bounds h hε hε1 (by positivity) bl.1 bl.2
  have e2 : (21 / 20 * w) ^ 3 = 9261 / 8000 * w ^ 3 := by ring
  rw [e2] at cx
  have hw3 : 0 < w ^ 3 := by positivity
  have hw2 : 0 < w ^ 2 := by positivity
  have c0 : 0 ≤ cubeFl fl x := le_trans (by positivity) cx.1
  have d1 := rnd_ge' h hε1 (m := 57 / 10 * w) (x := 6 * y) (by positivity) (by linarith [bp.1])
  have d2 := rnd_ge' h hε1 (m := 19 / 10 * w) (x := y + x) (by positivity) (by linarith [bp.1, bl.1])
  have d1' : 569 / 100 * w ≤ fl (6 * y) := by linarith
  have d2' : 189 / 100 * w ≤ fl (y + x) := by linarith
  have d3 : 569 / 100 * w * (189 / 100 * w) ≤ fl (6 * y) * fl (y + x) := mul_le_mul d1' d2' (by positivity) (le_trans (by positivity) d1')
  have d4 := rnd_ge' h hε1 (by positivity) d3
  have e5 : 569 / 100 * w * (189 / 100 * w) = 107541 / 10000 * w ^ 2 := by ring
  rw [e5] at d4
  have d5 : 10 * w ^ 2 ≤ fl (fl (6 * y) * fl (y + x)) := by linarith
  generalize fl (fl (6 * y) * fl (y + x)) = D at d5 ⊢
  have hD : 0 < D := lt_of_lt_of_le (by positivity) d5
  have u2 : c * cubeFl fl x ≤ c * (12 / 10 * w ^ 3) := mul_le_mul_of_nonneg_left (by linarith [cx.2]) v2
  have u3 := rnd_le' h hε1 (mul_nonneg v2 c0) u2
  have q0 := rnd_nonneg h h1 (mul_nonneg v2 c0)
  generalize fl (c * cubeFl fl x) = C at u3 q0 ⊢
  have u4 : C / D ≤ 13 / 100 * (c * w) := by
    rw [div_le_iff₀ hD]
    have i1 : 13 / 100 * (c * w) * (10 * w ^ 2) ≤ 13 / 100 * (c * w) * D := mul_le_mul_of_nonneg_left d5 (by positivity)
    have i2 : 13 / 100 * (c * w) * (10 * w ^ 2) = 13 / 10 * (c * w ^ 3) := by ring
    have i3 : c * (12 / 10 * w ^ 3) = 12 / 10 * (c * w ^ 3) := by ring
    have i4 : 0 ≤ c * w ^ 3 := by positivity
    rw [i2] at i1
    rw [i3] at u3
    linarith
  have u5 := rnd_le' h hε1 (div_nonneg q0 hD.le) u4
  generalize fl (C / D) = T at u5 ⊢
  generalize fl (fl (a * fl (fl (2 * squareFl fl x) + fl (fl (3 * y) * x))) / fl (6 * fl (y + x))) = A at t1 ⊢
  generalize fl (fl (b * fl (squareFl fl x + fl (fl (3 * x) * y))) / fl (6 * y)) = B at t2 ⊢
  have z1 := rnd_ge' h hε1 (m := 200 / 1000 * (c * w)) (x := R + A) (by positivity) (by linarith)
  have z2 := rnd_ge' h hε1 (m := 199 / 1000 * (c * w)) (x := fl (R + A) + B) (by positivity) (by linarith)
  linarith

/-! ## The running mean -/

theorem rnd_lower (h : RelRounding fl ε) (hε1 : ε ≤ 1 / 1000) {x m : K} (hm : 0 ≤ m) (hx : -m ≤ x) : -(1001 / 1000 * m) ≤ fl x := by
  rcases le_or_gt 0 x with h0 | h0
  · have := rnd_nonneg h (by linarith) h0
    linarith
  · have h1 := (abs_le.mp (h x)).1
    rw [abs_of_neg h0] at h1
    have h2 : ε * -x ≤ 1 / 1000 * m := mul_le_mul hε1 (by linarith) (by linarith) (by norm_num)
    linarith

/-- One step of the compensated running mean keeps it non-negative. -/
theorem mean_sign (h : RelRounding fl ε) (hε : 0 ≤ ε) (hε1 : ε ≤ 1 / 1000) {d m c k : K} (hd : 0 ≤ d) (hm : 0 ≤ m) (hc : |c| ≤ 10 * (ε * m)) (hk : 2 ≤ k) :
    0 ≤ (kahanAddFl fl m (fl (fl (d - m) / k)) c).1 ∧ |(kahanAddFl fl m (fl (fl (d - m) / k)) c).2| ≤ 10 * (ε * (kahanAddFl fl m (fl (fl (d - m) / k)) c).1) := by
  have u0 := rnd_lower h hε1 hm (x := d - m) (by linarith)
  have u1 : -(501 / 1000 * m) ≤ fl (d - m) / k := by
    rw [le_div_iff₀ (by linarith)]
    have : 501 / 1000 * m * 2 ≤ 501 / 1000 * m * k := mul_le_mul_of_nonneg_left hk (by positivity)
    linarith
  have u2 := rnd_lower h hε1 (by positivity) u1
  have hem : ε * m ≤ 1 / 1000 * m := mul_le_mul_of_nonneg_right hε1 hm
  have hc' := abs_le.mp hc
  simp only [kahanAddFl]
  generalize fl (fl (d - m) / k) = u at u2 ⊢
  have y0 := rnd_lower h hε1 (m := 512 / 1000 * m) (x := u - c) (by positivity) (by linarith [hc'.2])
  generalize fl (u - c) = y at y0 ⊢
  have ht0 : 0 ≤ m + y := by linarith
  have t0 := rnd_ge' h hε1 (m := 48 / 100 * m) (x := m + y) (by positivity) (by linarith)
  have t1 := rnd_ge' h hε1 ht0 (le_refl (m + y))
  have t2 := h (m + y)
  rw [abs_of_nonneg ht0] at t2
  generalize fl (m + y) = t at t0 t1 t2 ⊢
  have ht : 0 ≤ t := le_trans (by positivity) t0
  refine ⟨ht, ?_⟩
  have htm : |t - m| ≤ 22 / 10 * t := by rw [abs_le]; constructor <;> linarith
  have w0 := h (t - m)
  have w1 : ε * |t - m| ≤ ε * (22 / 10 * t) := mul_le_mul_of_nonneg_left htm hε
  have w2 : ε * (m + y) ≤ ε * (102 / 100 * t) := mul_le_mul_of_nonneg_left (by linarith) hε
  have w3 : |fl (t - m) - y| ≤ 4 * (ε * t) := by
    have := abs_add_le (fl (t - m) - (t - m)) (t - (m + y))
    rw [show fl (t - m) - (t - m) + (t - (m + y)) = fl (t - m) - y by ring] at this
    have e1 : ε * (22 / 10 * t) = 22 / 10 * (ε * t) := by ring
    have e2 : ε * (102 / 100 * t) = 102 / 100 * (ε * t) := by ring
    have e3 : 0 ≤ ε * t := mul_nonneg hε ht
    linarith
  have w4 := h (fl (t - m) - y)
  have w5 : ε * |fl (t - m) - y| ≤ 1 * |fl (t - m) - y| := mul_le_mul_of_nonneg_right (by linarith) (abs_nonneg _)
  have w6 := abs_add_le (fl (fl (t - m) - y) - (fl (t - m) - y)) (fl (t - m) - y)
  rw [sub_add_cancel] at w6
  have e3 : 0 ≤ ε * t := mul_nonneg hε ht
  linarith

theorem deltaLoop_nonneg (h : RelRounding fl ε) (hε : 0 ≤ ε) (hε1 : ε ≤ 1 / 1000) (d : Nat → K) (hd : ∀ j, 0 ≤ d j) (maxI minI : Nat) (tol : K) (k : Nat) (c m : K) (b : List K)
    (hc : |c| ≤ 10 * (ε * m)) (hm : 0 ≤ m) (hb : ∀ x ∈ b, 0 ≤ x) (h0 : k = 0 → c = 0) :
    (deltaLoopFl fl d maxI minI tol k c m b).2.2.length = b.length ∧ ∀ x ∈ (deltaLoopFl fl d maxI minI tol k c m b).2.2, 0 ≤ x := by
  have hset : ∀ (b : List K) (i : Nat) (v : K), (∀ x ∈ b, 0 ≤ x) → 0 ≤ v → ∀ x ∈ b.set i v, 0 ≤ x := fun b i v hb hv x hx => by
    rcases List.mem_or_eq_of_mem_set hx with h1 | rfl
    · exact hb x h1
    · exact hv
  fun_induction deltaLoopFl fl d maxI minI tol k c m b with
  | case1 c m b ih =>
    have := ih ?_ (hd 0) (hset b 0 _ hb (hd 0)) (by simp)
    · rwa [List.length_set] at this
    rw [h0 rfl, abs_zero]
    exact mul_nonneg (by norm_num) (mul_nonneg hε (hd 0))
  | case2 k c m b hk k' update mc b' hmax =>
    obtain ⟨s1, s2⟩ := mean_sign h hε hε1 (hd k) hm hc (k := ((k + 1 : ℕ) : K)) (by exact_mod_cast (by omega : 2 ≤ k + 1))
    exact ⟨by simp [b'], hset b _ _ hb s1⟩
  | case3 k c m b hk k' update mc b' hmax hstop =>
    obtain ⟨s1, s2⟩ := mean_sign h hε hε1 (hd k) hm hc (k := ((k + 1 : ℕ) : K)) (by exact_mod_cast (by omega : 2 ≤ k + 1))
    exact ⟨by simp [b'], hset b _ _ hb s1⟩
  | case4 k c m b hk k' update mc b' hmax hstop ih =>
    obtain ⟨s1, s2⟩ := mean_sign h hε hε1 (hd k) hm hc (k := ((k + 1 : ℕ) : K)) (by exact_mod_cast (by omega : 2 ≤ k + 1))
    have := ih s2 s1 (hset b _ _ hb s1) (by omega)
    rwa [List.length_set] at this

theorem evalFl_nonneg (h : RelRounding fl ε) (h1 : ε ≤ 1) (t : SumTree K) (ht : ∀ x ∈ t.leaves, 0 ≤ x) : 0 ≤ t.evalFl fl := by
  induction t with
  | leaf x => exact ht x (by simp [SumTree.leaves])
  | node l r ihl ihr =>
    exact rnd_nonneg h h1 (add_nonneg (ihl fun x hx => ht x (by simp [SumTree.leaves, hx])) (ihr fun x hx => ht x (by simp [SumTree.leaves, hx])))

end Rounded
end RMT
