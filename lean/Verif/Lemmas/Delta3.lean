import Verif.Lemmas.Rigidity
import Verif.Lemmas.Integrate
import Mathlib.Analysis.SumIntegralComparisons
import Mathlib.Analysis.SpecialFunctions.Integrals.Basic

/-!
# Lemmas for C107: the rigidity sample for fine grids

Integration rules of the code on equally spaced grids, as sums; Riemann sums of monotone functions.
-/

namespace RMT
namespace Delta3
open Rigidity

/-- `v 0, …, v n` as a list. -/
def tab (n : Nat) (v : Nat → ℝ) : List ℝ := (List.range (n + 1)).map v

theorem tab_length (n : Nat) (v : Nat → ℝ) : (tab n v).length = n + 1 := by simp [tab]

theorem sum_tab (n : Nat) (v : Nat → ℝ) : (tab n v).sum = ∑ i ∈ Finset.range (n + 1), v i := by
  rw [sum_eq_sum_range (tab n v) v (fun i h => by simp [tab]), tab_length]

theorem nth_tab (n : Nat) (v : Nat → ℝ) (z : Int) (k : Nat) (hz : z = k) (hk : k ≤ n) : nth (tab n v) z = v k := by
  rw [nth_of_eq _ _ k hz (by rw [tab_length]; omega)]
  simp [tab]

/-- The equally spaced grid on `[0, 1]`. -/
theorem linspace_unit (n : Nat) : linspace (0 : ℝ) 1 (n + 1) = tab n fun i => i / n := by
  unfold linspace tab
  apply List.map_congr_left
  intro i _
  push_cast
  rw [zero_add, sub_zero, add_sub_cancel_right]
  ring

theorem diff_tab (n : Nat) (v : Nat → ℝ) (δ : ℝ) (h : ∀ i < n, v (i + 1) - v i = δ) (z : Int) (k : Nat) (hz : z = k) (hk : k < n) :
    nth (diff (tab n v)) z = δ := by
  rw [nth_diff _ _ k hz (by rw [tab_length]; omega)]
  simp only [tab, List.getElem_map, List.getElem_range]
  exact h k hk

/-- Sum of Simpson's rule over the first `m` pairs of intervals. -/
noncomputable def pairs (δ : ℝ) (v : Nat → ℝ) (m : Nat) : ℝ :=
  ∑ j ∈ Finset.range m, δ / 3 * (v (2 * j) + 4 * v (2 * j + 1) + v (2 * j + 2))

theorem simpsFrom_tab (n : Nat) (x v : Nat → ℝ) (δ : ℝ) (h : ∀ i < n, x (i + 1) - x i = δ) :
    ∀ (d j : Nat) (acc : ℝ), n / 2 - j = d → j ≤ n / 2 →
      simpsFrom (diff (tab n x)) (tab n v) n (2 * j + 1) (acc + pairs δ v j) = acc + pairs δ v (n / 2) := by
  intro d
  induction d with
  | zero =>
    intro j acc hd hj
    have : j = n / 2 := by omega
    rw [simpsFrom, if_neg (by omega), this]
  | succ d ih =>
    intro j acc hd hj
    rw [simpsFrom, if_pos (by omega)]
    have e1 : nth (diff (tab n x)) ((2 * j + 1 : Nat) : Int) = δ := diff_tab n x δ h _ (2 * j + 1) rfl (by omega)
    have e0 : nth (diff (tab n x)) (((2 * j + 1 : Nat) : Int) - 1) = δ := diff_tab n x δ h _ (2 * j) (by omega) (by omega)
    have v1 : nth (tab n v) ((2 * j + 1 : Nat) : Int) = v (2 * j + 1) := nth_tab n v _ _ rfl (by omega)
    have v0 : nth (tab n v) (((2 * j + 1 : Nat) : Int) - 1) = v (2 * j) := nth_tab n v _ _ (by omega) (by omega)
    have v2 : nth (tab n v) (((2 * j + 1 : Nat) : Int) + 1) = v (2 * j + 2) := nth_tab n v _ _ (by omega) (by omega)
    simp only [e1, e0, v1, v0, v2]
    have := ih (j + 1) acc (by omega) (by omega)
    rw [show 2 * (j + 1) + 1 = 2 * j + 1 + 2 by ring] at this
    rw [← this]
    congr 1
    rw [pairs, pairs, Finset.sum_range_succ]
    field_simp
    ring

/-- Simpson's rule of the code on an equally spaced grid of at least three points. -/
theorem simps_tab (n : Nat) (hn : 2 ≤ n) (x v : Nat → ℝ) (δ : ℝ) (h : ∀ i < n, x (i + 1) - x i = δ) :
    intSimpsNonunif (tab n x) (tab n v) = pairs δ v (n / 2) +
      if n % 2 = 1 then δ / 12 * (5 * v n + 8 * v (n - 1) - v (n - 2)) else 0 := by
  have h1 := simpsFrom_tab n x v δ h (n / 2) 0 0 (by omega) (by omega)
  simp only [pairs, Finset.range_zero, Finset.sum_empty, add_zero, zero_add, Nat.mul_zero] at h1
  unfold intSimpsNonunif
  have hN : (tab n x).length - 1 = n := by rw [tab_length]; omega
  simp only [hN, h1]
  rw [← pairs]
  by_cases hodd : n % 2 = 1
  · rw [if_pos (by omega), if_pos hodd]
    rw [diff_tab n x δ h ((n : Int) - 1) (n - 1) (by omega) (by omega), diff_tab n x δ h ((n : Int) - 2) (n - 2) (by omega) (by omega),
      nth_tab n v (n : Int) n rfl le_rfl, nth_tab n v ((n : Int) - 1) (n - 1) (by omega) (by omega), nth_tab n v ((n : Int) - 2) (n - 2) (by omega) (by omega)]
    field_simp
    ring
  · rw [if_neg (by omega), if_neg hodd, add_zero]

/-- The trapezoid rule of the code on an equally spaced grid. -/
theorem trapz_tab (n : Nat) (x v : Nat → ℝ) (δ : ℝ) (h : ∀ i < n, x (i + 1) - x i = δ) :
    integrateFast (tab n x) (tab n v) = ∑ i ∈ Finset.range n, δ / 2 * (v i + v (i + 1)) := by
  have main : ∀ (d i : Nat) (acc : ℝ), n - i = d → i ≤ n →
      trapzFrom (tab n x) (tab n v) i (acc + ∑ i ∈ Finset.range i, δ / 2 * (v i + v (i + 1))) = acc + ∑ i ∈ Finset.range n, δ / 2 * (v i + v (i + 1)) := by
    intro d
    induction d with
    | zero =>
      intro i acc hd hi
      have : i = n := by omega
      rw [trapzFrom, if_neg (by rw [tab_length]; omega), this]
    | succ d ih =>
      intro i acc hd hi
      rw [trapzFrom, if_pos (by rw [tab_length]; omega)]
      have x1 : nth (tab n x) ((i : Int) + 1) = x (i + 1) := nth_tab n x _ _ (by omega) (by omega)
      have x0 : nth (tab n x) (i : Int) = x i := nth_tab n x _ _ rfl (by omega)
      have v1 : nth (tab n v) ((i : Int) + 1) = v (i + 1) := nth_tab n v _ _ (by omega) (by omega)
      have v0 : nth (tab n v) (i : Int) = v i := nth_tab n v _ _ rfl (by omega)
      simp only [x1, x0, v1, v0, h i (by omega)]
      rw [← ih (i + 1) acc (by omega) (by omega), Finset.sum_range_succ]
      congr 1
      ring
  have := main n 0 0 (by omega) (by omega)
  simpa [integrateFast] using this

/-! ### The rules are close to the left sum for monotone values -/

/-- The left sum. -/
noncomputable def leftSum (n : Nat) (v : Nat → ℝ) : ℝ := (∑ i ∈ Finset.range n, v i) / n

theorem pairs_left (δ : ℝ) (hδ : 0 ≤ δ) (v : Nat → ℝ) (hv : Monotone v) (m : Nat) :
    0 ≤ pairs δ v m - δ * ∑ i ∈ Finset.range (2 * m), v i ∧ pairs δ v m - δ * ∑ i ∈ Finset.range (2 * m), v i ≤ δ * (v (2 * m) - v 0) := by
  induction m with
  | zero => simp [pairs]
  | succ m ih =>
    rw [pairs, Finset.sum_range_succ, ← pairs, show 2 * (m + 1) = 2 * m + 1 + 1 by ring, Finset.sum_range_succ, Finset.sum_range_succ]
    have a := hv (show 2 * m ≤ 2 * m + 1 by omega)
    have b := hv (show 2 * m + 1 ≤ 2 * m + 1 + 1 by omega)
    have c : 2 * m + 2 = 2 * m + 1 + 1 := rfl
    rw [c]
    obtain ⟨i1, i2⟩ := ih
    have p1 := mul_nonneg hδ (sub_nonneg.mpr a)
    have p2 := mul_nonneg hδ (sub_nonneg.mpr b)
    constructor <;> nlinarith

/-- An integration rule on `n` equal intervals of `[0, 1]`. -/
noncomputable def rule (useSimpson : Bool) (n : Nat) (v : Nat → ℝ) : ℝ :=
  if useSimpson then pairs (1 / n) v (n / 2) + (if n % 2 = 1 then (1 / (n : ℝ)) / 12 * (5 * v n + 8 * v (n - 1) - v (n - 2)) else 0)
  else ∑ i ∈ Finset.range n, (1 / (n : ℝ)) / 2 * (v i + v (i + 1))

theorem rule_left (useSimpson : Bool) (n : Nat) (hn : 2 ≤ n) (v : Nat → ℝ) (hv : Monotone v) :
    0 ≤ rule useSimpson n v - leftSum n v ∧ rule useSimpson n v - leftSum n v ≤ 2 * ((1 / n) * (v n - v 0)) := by
  have hδ : (0 : ℝ) ≤ 1 / n := by positivity
  have hl : leftSum n v = (1 / n) * ∑ i ∈ Finset.range n, v i := by rw [leftSum]; ring
  rw [hl]
  cases useSimpson with
  | false =>
    have key : ∀ m, (∑ i ∈ Finset.range m, (1 / (n : ℝ)) / 2 * (v i + v (i + 1))) - (1 / n) * ∑ i ∈ Finset.range m, v i = (1 / n) / 2 * (v m - v 0) := by
      intro m
      induction m with
      | zero => simp
      | succ m ih => rw [Finset.sum_range_succ, Finset.sum_range_succ]; linarith
    simp only [rule, Bool.false_eq_true, if_false, key]
    have := mul_nonneg hδ (sub_nonneg.mpr (hv (Nat.zero_le n)))
    constructor <;> linarith
  | true =>
    simp only [rule, if_true]
    obtain ⟨p1, p2⟩ := pairs_left (1 / n) hδ v hv (n / 2)
    by_cases hodd : n % 2 = 1
    · rw [if_pos hodd]
      have e : n = 2 * (n / 2) + 1 := by omega
      have hs : ∑ i ∈ Finset.range n, v i = ∑ i ∈ Finset.range (2 * (n / 2)), v i + v (2 * (n / 2)) := by
        conv_lhs => rw [e]
        rw [Finset.sum_range_succ]
      have e1 : n - 1 = 2 * (n / 2) := by omega
      have a := mul_nonneg hδ (sub_nonneg.mpr (hv (show n - 2 ≤ n - 1 by omega)))
      have b := mul_nonneg hδ (sub_nonneg.mpr (hv (show n - 1 ≤ n by omega)))
      have c := mul_nonneg hδ (sub_nonneg.mpr (hv (show 0 ≤ n - 2 by omega)))
      rw [hs]
      rw [← e1] at p1 p2 ⊢
      constructor <;> nlinarith
    · rw [if_neg hodd]
      have e : n = 2 * (n / 2) := by omega
      rw [← e] at p1 p2
      rw [add_zero]
      have := mul_nonneg hδ (sub_nonneg.mpr (hv (Nat.zero_le n)))
      exact ⟨p1, by linarith⟩

/-! ### Riemann sums of monotone functions -/

open Filter Topology in
theorem leftSum_tendsto (f : ℝ → ℝ) (hf : Monotone f) :
    Tendsto (fun n : Nat => leftSum n fun i => f (i / n)) atTop (𝓝 (∫ x in (0 : ℝ)..1, f x)) := by
  have hb : ∀ n : Nat, 1 ≤ n → (leftSum n fun i => f (i / n)) ≤ (∫ x in (0 : ℝ)..1, f x) ∧
      (∫ x in (0 : ℝ)..1, f x) - (f 1 - f 0) / n ≤ (leftSum n fun i => f (i / n)) := by
    intro n hn
    have hn0 : (0 : ℝ) < n := by exact_mod_cast hn
    have hm : Monotone fun t : ℝ => f (t / n) := fun a b hab => hf (div_le_div_of_nonneg_right hab hn0.le)
    have h1 := (hm.monotoneOn (Set.Icc (0 : ℝ) (0 + n))).sum_le_integral
    have h2 := (hm.monotoneOn (Set.Icc (0 : ℝ) (0 + n))).integral_le_sum
    simp only [zero_add] at h1 h2
    have hi : (∫ x in (0 : ℝ)..n, f (x / n)) = n * ∫ x in (0 : ℝ)..1, f x := by
      rw [intervalIntegral.integral_comp_div f hn0.ne', zero_div, div_self hn0.ne', smul_eq_mul]
    rw [hi] at h1 h2
    have ht : ∑ i ∈ Finset.range n, f (((i + 1 : Nat) : ℝ) / n) = (∑ i ∈ Finset.range n, f ((i : ℝ) / n)) + f 1 - f 0 := by
      have e := Finset.sum_range_succ' (fun i : Nat => f ((i : ℝ) / n)) n
      rw [Finset.sum_range_succ] at e
      simp only [Nat.cast_zero, zero_div, div_self hn0.ne'] at e
      linarith
    rw [ht] at h2
    simp only [leftSum]
    constructor
    · rw [div_le_iff₀ hn0]; linarith
    · rw [le_div_iff₀ hn0, sub_mul, div_mul_cancel₀ _ hn0.ne']; linarith
  have hlim : Tendsto (fun n : Nat => (∫ x in (0 : ℝ)..1, f x) - (f 1 - f 0) / n) atTop (𝓝 (∫ x in (0 : ℝ)..1, f x)) := by
    have := (tendsto_const_div_atTop_nhds_zero_nat (f 1 - f 0)).const_sub (∫ x in (0 : ℝ)..1, f x)
    simpa using this
  refine tendsto_of_tendsto_of_tendsto_of_le_of_le' hlim tendsto_const_nhds ?_ ?_
  · filter_upwards [eventually_ge_atTop 1] with n hn using (hb n hn).2
  · filter_upwards [eventually_ge_atTop 1] with n hn using (hb n hn).1

open Filter Topology in
theorem rule_tendsto (useSimpson : Bool) (f : ℝ → ℝ) (hf : Monotone f) :
    Tendsto (fun n : Nat => rule useSimpson n fun i => f (i / n)) atTop (𝓝 (∫ x in (0 : ℝ)..1, f x)) := by
  have h0 := leftSum_tendsto f hf
  have h1 : Tendsto (fun n : Nat => (leftSum n fun i => f (i / n)) + 2 * ((1 / (n : ℝ)) * (f 1 - f 0))) atTop (𝓝 (∫ x in (0 : ℝ)..1, f x)) := by
    have := h0.add ((tendsto_one_div_atTop_nhds_zero_nat (𝕜 := ℝ)).mul_const (f 1 - f 0) |>.const_mul 2)
    simpa using this
  have hb : ∀ n : Nat, 2 ≤ n → _ := fun n hn => rule_left useSimpson n hn (fun i => f (i / n))
    (fun a b hab => hf (div_le_div_of_nonneg_right (by exact_mod_cast hab) (Nat.cast_nonneg n)))
  refine tendsto_of_tendsto_of_tendsto_of_le_of_le' h0 h1 ?_ ?_
  · filter_upwards [eventually_ge_atTop 2] with n hn
    linarith [(hb n hn).1]
  · filter_upwards [eventually_ge_atTop 2] with n hn
    have hn0 : (n : ℝ) ≠ 0 := by positivity
    have := (hb n hn).2
    simp only [div_self hn0, Nat.cast_zero, zero_div] at this
    linarith

open Filter Topology in
theorem mean_tendsto (f : ℝ → ℝ) (hf : Monotone f) :
    Tendsto (fun n : Nat => mean (tab n fun i => f (i / n))) atTop (𝓝 (∫ x in (0 : ℝ)..1, f x)) := by
  have h0 := leftSum_tendsto f hf
  have h1 : Tendsto (fun n : Nat => (leftSum n fun i => f (i / n)) * ((n : ℝ) / (n + 1)) + f 1 / (n + 1)) atTop (𝓝 (∫ x in (0 : ℝ)..1, f x)) := by
    have a := h0.mul (tendsto_natCast_div_add_atTop (1 : ℝ))
    have b := (tendsto_const_div_atTop_nhds_zero_nat (f 1)).comp (tendsto_add_atTop_nat 1)
    have := a.add b
    simpa [Function.comp_def] using this
  refine h1.congr' ?_
  filter_upwards [eventually_ge_atTop 1] with n hn
  have hn0 : (n : ℝ) ≠ 0 := by positivity
  have hn1 : (n : ℝ) + 1 ≠ 0 := by positivity
  rw [mean, tab_length, sum_tab, leftSum, Finset.sum_range_succ, div_self hn0]
  push_cast
  field_simp

theorem map_tab (n : Nat) (g : ℝ → ℝ) (v : Nat → ℝ) : (tab n v).map g = tab n fun i => g (v i) := by
  simp [tab, Function.comp_def]

theorem zipWith_tab (n : Nat) (g : ℝ → ℝ → ℝ) (u v : Nat → ℝ) :
    List.zipWith g (tab n u) (tab n v) = tab n fun i => g (u i) (v i) := by
  simp only [tab, List.zipWith_map]
  apply List.ext_getElem <;> simp

theorem slope_tab (n : Nat) (x y : Nat → ℝ) :
    Rigidity.slope (tab n x) (tab n y) =
      (mean (tab n fun i => x i * y i) - mean (tab n x) * mean (tab n y)) /
        (mean (tab n fun i => x i * x i) - mean (tab n x) * mean (tab n x)) := by
  have key : ∀ u v : Nat → ℝ, (tab n fun i => (u i - mean (tab n u)) * (v i - mean (tab n v))).sum =
      ((n : ℝ) + 1) * (mean (tab n fun i => u i * v i) - mean (tab n u) * mean (tab n v)) := by
    intro u v
    have hn1 : (n : ℝ) + 1 ≠ 0 := by positivity
    simp only [mean, tab_length, sum_tab]
    push_cast
    generalize hU : ∑ i ∈ Finset.range (n + 1), u i = U
    generalize hV : ∑ i ∈ Finset.range (n + 1), v i = V
    have : ∀ a b : ℝ, ∑ i ∈ Finset.range (n + 1), (u i - a) * (v i - b) =
        ∑ i ∈ Finset.range (n + 1), u i * v i - a * V - b * U + (n + 1) * a * b := by
      intro a b
      simp only [sub_mul, mul_sub, Finset.sum_sub_distrib, ← Finset.mul_sum, ← Finset.sum_mul, hU, hV, Finset.sum_const, Finset.card_range]
      rw [nsmul_eq_mul]
      push_cast
      ring
    rw [this]
    field_simp
    ring
  have hn1 : (n : ℝ) + 1 ≠ 0 := by positivity
  simp only [Rigidity.slope, map_tab, zipWith_tab, key]
  split_ifs with h
  · rw [mul_eq_zero] at h
    rcases h with h | h
    · exact absurd h hn1
    · rw [h, div_zero]
  · rw [mul_div_mul_left _ _ hn1]

/-! ### The rules are linear -/

theorem rule_add (b : Bool) (n : Nat) (u v : Nat → ℝ) : rule b n (fun i => u i + v i) = rule b n u + rule b n v := by
  cases b with
  | false =>
    simp only [rule, Bool.false_eq_true, if_false, ← Finset.sum_add_distrib]
    exact Finset.sum_congr rfl fun i _ => by ring
  | true =>
    have : ∀ m δ, pairs δ (fun i => u i + v i) m = pairs δ u m + pairs δ v m := by
      intro m δ
      simp only [pairs, ← Finset.sum_add_distrib]
      exact Finset.sum_congr rfl fun i _ => by ring
    simp only [rule, if_true, this]
    split_ifs <;> ring

theorem rule_smul (b : Bool) (n : Nat) (a : ℝ) (v : Nat → ℝ) : rule b n (fun i => a * v i) = a * rule b n v := by
  cases b with
  | false =>
    simp only [rule, Bool.false_eq_true, if_false, Finset.mul_sum]
    exact Finset.sum_congr rfl fun i _ => by ring
  | true =>
    have : ∀ m δ, pairs δ (fun i => a * v i) m = a * pairs δ v m := by
      intro m δ
      simp only [pairs, Finset.mul_sum]
      exact Finset.sum_congr rfl fun i _ => by ring
    simp only [rule, if_true, this]
    split_ifs <;> ring

/-! ### The sample on the unit window -/

/-- `(1/1) ∫₀¹ (Y x - A x - B)² dx`. -/
noncomputable def mseUnit (Y : ℝ → ℝ) (A B : ℝ) : ℝ := ∫ x in (0 : ℝ)..1, (Y x - A * x - B) ^ 2

/-- `∫₀¹ f` for `f = Y, Y², x Y` with the positive part of `x`, so that all integrands are monotone. -/
noncomputable def I1 (Y : ℝ → ℝ) : ℝ := ∫ x in (0 : ℝ)..1, Y x
/-- See `I1`. -/
noncomputable def I2 (Y : ℝ → ℝ) : ℝ := ∫ x in (0 : ℝ)..1, Y x * Y x
/-- See `I1`. -/
noncomputable def IX (Y : ℝ → ℝ) : ℝ := ∫ x in (0 : ℝ)..1, max x 0 * Y x

theorem mono_sq (Y : ℝ → ℝ) (hY : Monotone Y) (h0 : ∀ x, 0 ≤ Y x) : Monotone fun x => Y x * Y x :=
  fun a b hab => mul_le_mul (hY hab) (hY hab) (h0 a) (h0 b)

theorem mono_max : Monotone fun x : ℝ => max x 0 := fun _ _ hab => max_le_max hab le_rfl

theorem mono_x (Y : ℝ → ℝ) (hY : Monotone Y) (h0 : ∀ x, 0 ≤ Y x) : Monotone fun x => max x 0 * Y x :=
  fun a b hab => mul_le_mul (mono_max hab) (hY hab) (h0 a) (le_max_right b 0)

theorem int_max : (∫ x in (0 : ℝ)..1, max x 0) = 1 / 2 := by
  rw [intervalIntegral.integral_congr (g := fun x => x)]
  · simp
  · intro x hx
    rw [Set.uIcc_of_le zero_le_one] at hx
    exact max_eq_left hx.1

theorem int_max_sq : (∫ x in (0 : ℝ)..1, max x 0 * max x 0) = 1 / 3 := by
  rw [intervalIntegral.integral_congr (g := fun x => x ^ 2)]
  · simp; norm_num
  · intro x hx
    rw [Set.uIcc_of_le zero_le_one] at hx
    simp only [max_eq_left hx.1, pow_two]

theorem mseUnit_eq (Y : ℝ → ℝ) (hY : Monotone Y) (h0 : ∀ x, 0 ≤ Y x) (A B : ℝ) :
    mseUnit Y A B = I2 Y + A ^ 2 / 3 + B ^ 2 - 2 * A * IX Y - 2 * B * I1 Y + A * B := by
  have i1 := hY.intervalIntegrable (μ := MeasureTheory.volume) (a := 0) (b := 1)
  have i2 := (mono_sq Y hY h0).intervalIntegrable (μ := MeasureTheory.volume) (a := 0) (b := 1)
  have ix := (mono_x Y hY h0).intervalIntegrable (μ := MeasureTheory.volume) (a := 0) (b := 1)
  have im := mono_max.intervalIntegrable (μ := MeasureTheory.volume) (a := 0) (b := 1)
  have imm := (mono_sq _ mono_max (fun x => le_max_right x 0)).intervalIntegrable (μ := MeasureTheory.volume) (a := 0) (b := 1)
  have ic : IntervalIntegrable (fun _ : ℝ => B ^ 2) MeasureTheory.volume 0 1 := intervalIntegrable_const
  have e : mseUnit Y A B = ∫ x in (0 : ℝ)..1, (Y x * Y x + A ^ 2 * (max x 0 * max x 0) + B ^ 2 + (-2 * A) * (max x 0 * Y x)
      + (-2 * B) * Y x + (2 * A * B) * max x 0) := by
    apply intervalIntegral.integral_congr
    intro x hx
    rw [Set.uIcc_of_le zero_le_one] at hx
    simp only [max_eq_left hx.1]
    ring
  rw [e]
  rw [intervalIntegral.integral_add ((((i2.add (imm.const_mul _)).add ic).add (ix.const_mul _)).add (i1.const_mul _)) (im.const_mul _),
    intervalIntegral.integral_add (((i2.add (imm.const_mul _)).add ic).add (ix.const_mul _)) (i1.const_mul _),
    intervalIntegral.integral_add ((i2.add (imm.const_mul _)).add ic) (ix.const_mul _),
    intervalIntegral.integral_add (i2.add (imm.const_mul _)) ic,
    intervalIntegral.integral_add i2 (imm.const_mul _)]
  simp only [intervalIntegral.integral_const_mul, int_max, int_max_sq, intervalIntegral.integral_const, smul_eq_mul]
  simp only [I1, I2, IX]
  ring

/-- The slope of the best line. -/
noncomputable def bestA (Y : ℝ → ℝ) : ℝ := (IX Y - 1 / 2 * I1 Y) / (1 / 3 - 1 / 2 * (1 / 2))
/-- The intercept of the best line. -/
noncomputable def bestB (Y : ℝ → ℝ) : ℝ := I1 Y - bestA Y * (1 / 2)

theorem mseUnit_min (Y : ℝ → ℝ) (hY : Monotone Y) (h0 : ∀ x, 0 ≤ Y x) (A B : ℝ) :
    mseUnit Y (bestA Y) (bestB Y) ≤ mseUnit Y A B := by
  rw [mseUnit_eq Y hY h0, mseUnit_eq Y hY h0]
  have hk : IX Y = bestA Y / 12 + 1 / 2 * I1 Y := by unfold bestA; ring
  have hw : I1 Y = bestB Y + bestA Y * (1 / 2) := by unfold bestB; ring
  rw [hk, hw]
  generalize bestA Y = k
  generalize bestB Y = w
  nlinarith [sq_nonneg (A - k), sq_nonneg (B - w + (A - k) / 2)]

/-- The sample of the code on the unit window when the counts are `Y (i/n)`. -/
noncomputable def sampleUnit (b : Bool) (n : Nat) (Y : ℝ → ℝ) : ℝ :=
  let x := tab n fun i => (i : ℝ) / n
  let y := tab n fun i => Y ((i : ℝ) / n)
  let k := Rigidity.slope x y
  let w := intercept x y k
  let d := sqLinDeviation y k w x
  if b then intSimpsNonunif x d else integrateFast x d

open Filter Topology in
theorem sampleUnit_tendsto (b : Bool) (Y : ℝ → ℝ) (hY : Monotone Y) (h0 : ∀ x, 0 ≤ Y x) :
    Tendsto (fun n : Nat => sampleUnit b n Y) atTop (𝓝 (mseUnit Y (bestA Y) (bestB Y))) := by
  have hpos : ∀ n i : Nat, max ((i : ℝ) / n) 0 = (i : ℝ) / n := fun n i => max_eq_left (by positivity)
  have m1 := mean_tendsto Y hY
  have mm := mean_tendsto _ mono_max
  have mmm := mean_tendsto _ (mono_sq _ mono_max (fun x => le_max_right x 0))
  have mx := mean_tendsto _ (mono_x Y hY h0)
  simp only [hpos] at mm mmm mx
  rw [int_max] at mm
  rw [int_max_sq] at mmm
  change Tendsto _ _ (𝓝 (I1 Y)) at m1
  change Tendsto _ _ (𝓝 (IX Y)) at mx
  have hk : Tendsto (fun n : Nat => Rigidity.slope (tab n fun i => (i : ℝ) / n) (tab n fun i => Y ((i : ℝ) / n))) atTop (𝓝 (bestA Y)) := by
    simp only [slope_tab]
    exact (mx.sub (mm.mul m1)).div (mmm.sub (mm.mul mm)) (by norm_num)
  have hw : Tendsto (fun n : Nat => intercept (tab n fun i => (i : ℝ) / n) (tab n fun i => Y ((i : ℝ) / n))
      (Rigidity.slope (tab n fun i => (i : ℝ) / n) (tab n fun i => Y ((i : ℝ) / n)))) atTop (𝓝 (bestB Y)) := m1.sub (hk.mul mm)
  have r1 := rule_tendsto b Y hY
  have r2 := rule_tendsto b _ (mono_sq Y hY h0)
  have rm := rule_tendsto b _ mono_max
  have rmm := rule_tendsto b _ (mono_sq _ mono_max (fun x => le_max_right x 0))
  have rx := rule_tendsto b _ (mono_x Y hY h0)
  have rc := rule_tendsto b (fun _ => (1 : ℝ)) monotone_const
  simp only [hpos] at rm rmm rx
  rw [int_max] at rm
  rw [int_max_sq] at rmm
  rw [intervalIntegral.integral_const] at rc
  rw [mseUnit_eq Y hY h0]
  have := ((((r2.add ((hk.pow 2).mul rmm)).add ((hw.pow 2).mul rc)).add ((hk.const_mul (-2)).mul rx)).add ((hw.const_mul (-2)).mul r1)).add
    (((hk.const_mul 2).mul hw).mul rm)
  have hgoal : I2 Y + bestA Y ^ 2 / 3 + bestB Y ^ 2 - 2 * bestA Y * IX Y - 2 * bestB Y * I1 Y + bestA Y * bestB Y =
      (∫ x in (0 : ℝ)..1, Y x * Y x) + bestA Y ^ 2 * (1 / 3) + bestB Y ^ 2 * ((1 - 0 : ℝ) • (1 : ℝ)) + -2 * bestA Y * (∫ x in (0 : ℝ)..1, max x 0 * Y x)
        + -2 * bestB Y * (∫ x in (0 : ℝ)..1, Y x) + 2 * bestA Y * bestB Y * (1 / 2) := by
    simp only [I1, I2, IX, smul_eq_mul]
    ring
  rw [hgoal]
  refine this.congr' ?_
  filter_upwards [eventually_ge_atTop 2] with n hn
  have hn0 : (n : ℝ) ≠ 0 := by positivity
  have hstep : ∀ i < n, ((i + 1 : Nat) : ℝ) / n - (i : ℝ) / n = 1 / n := by
    intro i _
    push_cast
    ring
  simp only [sampleUnit, sqLinDeviation, zipWith_tab]
  generalize Rigidity.slope (tab n fun i => (i : ℝ) / n) (tab n fun i => Y ((i : ℝ) / n)) = k
  generalize intercept (tab n fun i => (i : ℝ) / n) (tab n fun i => Y ((i : ℝ) / n)) k = w
  have hr : ∀ v : Nat → ℝ, (if b = true then intSimpsNonunif (tab n fun i => (i : ℝ) / n) (tab n v) else integrateFast (tab n fun i => (i : ℝ) / n) (tab n v)) = rule b n v := by
    intro v
    cases b with
    | true => simp only [if_true, rule]; rw [simps_tab n hn _ v (1 / n) hstep]
    | false => simp only [Bool.false_eq_true, if_false, rule]; rw [trapz_tab n _ v (1 / n) hstep]
  rw [hr, ← rule_smul, ← rule_smul, ← rule_smul, ← rule_smul, ← rule_smul, ← rule_add, ← rule_add, ← rule_add, ← rule_add, ← rule_add]
  congr 1
  funext i
  ring

end Delta3
end RMT
