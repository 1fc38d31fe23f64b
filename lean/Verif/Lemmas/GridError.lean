import Verif.Lemmas.Delta3

/-!
# Lemmas for C165: how far a rigidity sample is from the Dyson-Mehta statistic for a given grid
-/

namespace RMT
namespace Delta3
open Rigidity

/-- The nearest point of `[0, 1]`. -/
noncomputable def clamp (x : ℝ) : ℝ := max 0 (min x 1)

theorem clamp_mono : Monotone clamp := fun _ _ h => max_le_max le_rfl (min_le_min h le_rfl)

theorem clamp_of_mem {x : ℝ} (h0 : 0 ≤ x) (h1 : x ≤ 1) : clamp x = x := by
  unfold clamp
  rw [min_eq_left h1, max_eq_right h0]

theorem clamp_mem (x : ℝ) : 0 ≤ clamp x ∧ clamp x ≤ 1 :=
  ⟨le_max_left _ _, max_le zero_le_one (min_le_right _ _)⟩

theorem grid_mem {n i : Nat} (hn : 1 ≤ n) (hi : i ≤ n) : (0 : ℝ) ≤ (i : ℝ) / n ∧ (i : ℝ) / n ≤ 1 := by
  have hn0 : (0 : ℝ) < n := by exact_mod_cast hn
  exact ⟨by positivity, by rw [div_le_one hn0]; exact_mod_cast hi⟩

theorem tab_congr (n : Nat) (u v : Nat → ℝ) (h : ∀ i ≤ n, u i = v i) : tab n u = tab n v := by
  unfold tab
  apply List.map_congr_left
  intro i hi
  rw [List.mem_range] at hi
  exact h i (by omega)

/-- Left sums of a monotone function: at most `(f 1 - f 0) / n` below the integral. -/
theorem leftSum_bounds (f : ℝ → ℝ) (hf : Monotone f) (n : Nat) (hn : 1 ≤ n) :
    (leftSum n fun i => f (i / n)) ≤ (∫ x in (0 : ℝ)..1, f x) ∧
      (∫ x in (0 : ℝ)..1, f x) - (f 1 - f 0) / n ≤ (leftSum n fun i => f (i / n)) := by
  have hn0 : (0 : ℝ) < n := by exact_mod_cast hn
  have hm : Monotone fun t : ℝ => f (t / n) := fun a b hab => hf (div_le_div_of_nonneg_right hab hn0.le)
  have h1 := (hm.monotoneOn (Set.Icc (0 : ℝ) (0 + n))).sum_le_integral
  have h2 := (hm.monotoneOn (Set.Icc (0 : ℝ) (0 + n))).integral_le_sum
  simp only [zero_add] at h1 h2
  have hi : (∫ x in (0 : ℝ)..n, f (x / n)) = n * ∫ x in (0 : ℝ)..1, f x := by
    rw [intervalIntegral.integral_comp_div f hn0.ne', zero_div, div_self hn0.ne', smul_eq_mul]
  rw [hi] at h1 h2
  have ht : ∑ i ∈ Finset.range n, f (((i + 1 : Nat) : ℝ) / n) = (∑ i ∈ Finset.range n, f ((i : ℝ) / n)) + f 1 - f 0 := by
    have e := Finset.sum_range_succ' (fun i : Nat => f ((i : ℝ) / n)) n
    rw [Finset.sum_range_succ] at e
    simp only [Nat.cast_zero, zero_div, div_self hn0.ne'] at e
    linarith
  rw [ht] at h2
  simp only [leftSum]
  constructor
  · rw [div_le_iff₀ hn0]; linarith
  · rw [le_div_iff₀ hn0, sub_mul, div_mul_cancel₀ _ hn0.ne']; linarith

/-- The rules on a monotone function. -/
theorem rule_error_mono (b : Bool) (f : ℝ → ℝ) (hf : Monotone f) (n : Nat) (hn : 2 ≤ n) :
    -((f 1 - f 0) / n) ≤ rule b n (fun i => f (i / n)) - ∫ x in (0 : ℝ)..1, f x ∧
    rule b n (fun i => f (i / n)) - (∫ x in (0 : ℝ)..1, f x) ≤ 2 * ((f 1 - f 0) / n) := by
  have hn0 : (n : ℝ) ≠ 0 := by positivity
  obtain ⟨a1, a2⟩ := leftSum_bounds f hf n (by omega)
  obtain ⟨b1, b2⟩ := rule_left b n hn (fun i => f (i / n))
    (fun a b hab => hf (div_le_div_of_nonneg_right (by exact_mod_cast hab) (Nat.cast_nonneg n)))
  simp only [div_self hn0, Nat.cast_zero, zero_div] at b2
  have e : (1 / (n : ℝ)) * (f 1 - f 0) = (f 1 - f 0) / n := by ring
  rw [e] at b2
  constructor <;> linarith

/-- The mean over the grid of a monotone function. -/
theorem mean_error_mono (f : ℝ → ℝ) (hf : Monotone f) (n : Nat) (hn : 1 ≤ n) :
    |mean (tab n fun i => f (i / n)) - ∫ x in (0 : ℝ)..1, f x| ≤ (f 1 - f 0) / n := by
  have hn0 : (0 : ℝ) < n := by exact_mod_cast hn
  obtain ⟨a1, a2⟩ := leftSum_bounds f hf n hn
  have hI1 : (∫ x in (0 : ℝ)..1, f x) ≤ f 1 := by
    have := intervalIntegral.integral_mono_on (μ := MeasureTheory.volume) (a := 0) (b := 1) (f := f) (g := fun _ => f 1) zero_le_one
      hf.intervalIntegrable intervalIntegrable_const (fun x hx => hf hx.2)
    simpa using this
  have hI0 : f 0 ≤ (∫ x in (0 : ℝ)..1, f x) := by
    have := intervalIntegral.integral_mono_on (μ := MeasureTheory.volume) (a := 0) (b := 1) (f := fun _ => f 0) (g := f) zero_le_one
      intervalIntegrable_const hf.intervalIntegrable (fun x hx => hf hx.1)
    simpa using this
  have hmean : mean (tab n fun i => f (i / n)) = (leftSum n fun i => f (i / n)) * ((n : ℝ) / (n + 1)) + f 1 / (n + 1) := by
    rw [mean, tab_length, sum_tab, leftSum, Finset.sum_range_succ, div_self hn0.ne']
    push_cast
    field_simp
  rw [hmean]
  generalize (leftSum n fun i => f (i / n)) = l at *
  generalize (∫ x in (0 : ℝ)..1, f x) = I at *
  have h1 : (0 : ℝ) < n + 1 := by linarith
  have e : l * ((n : ℝ) / (n + 1)) + f 1 / (n + 1) - I = (n * (l - I) + (f 1 - I)) / (n + 1) := by field_simp; ring
  have h2 : -(f 1 - f 0) ≤ n * (l - I) := by
    have : n * (I - (f 1 - f 0) / n) ≤ n * l := mul_le_mul_of_nonneg_left a2 hn0.le
    have e2 : n * (I - (f 1 - f 0) / n) = n * I - (f 1 - f 0) := by field_simp
    linarith
  have h3 : n * (l - I) ≤ 0 := mul_nonpos_of_nonneg_of_nonpos hn0.le (by linarith)
  have h4 : |(n : ℝ) * (l - I) + (f 1 - I)| ≤ f 1 - f 0 := abs_le.mpr ⟨by linarith, by linarith⟩
  rw [e, abs_div, abs_of_pos h1]
  have h5 : 0 ≤ f 1 - f 0 := by linarith
  exact div_le_div₀ h5 h4 hn0 (by linarith)

/-- `V` bounds the variation of `g` on `[0, 1]`. -/
def Varies (g V : ℝ → ℝ) : Prop := ∀ x y, 0 ≤ x → x ≤ y → y ≤ 1 → |g y - g x| ≤ V y - V x

theorem varies_mono {g V : ℝ → ℝ} (h : Varies g V) :
    Monotone (fun x => V (clamp x) + g (clamp x)) ∧ Monotone (fun x => V (clamp x) - g (clamp x)) := by
  constructor <;> intro a b hab <;>
    have := abs_le.mp (h (clamp a) (clamp b) (clamp_mem a).1 (clamp_mono hab) (clamp_mem b).2) <;> simp only <;> linarith [this.1, this.2]

theorem clamp_int (g : ℝ → ℝ) : (∫ x in (0 : ℝ)..1, g (clamp x)) = ∫ x in (0 : ℝ)..1, g x := by
  apply intervalIntegral.integral_congr
  intro x hx
  rw [Set.uIcc_of_le zero_le_one] at hx
  simp only [clamp_of_mem hx.1 hx.2]

theorem varies_int {g V : ℝ → ℝ} (h : Varies g V) :
    (∫ x in (0 : ℝ)..1, g x) = 1 / 2 * (∫ x in (0 : ℝ)..1, (V (clamp x) + g (clamp x))) - 1 / 2 * ∫ x in (0 : ℝ)..1, (V (clamp x) - g (clamp x)) := by
  obtain ⟨m1, m2⟩ := varies_mono h
  rw [← intervalIntegral.integral_const_mul, ← intervalIntegral.integral_const_mul,
    ← intervalIntegral.integral_sub (m1.intervalIntegrable.const_mul _) (m2.intervalIntegrable.const_mul _), ← clamp_int g]
  apply intervalIntegral.integral_congr
  intro x _
  simp only
  ring

theorem rule_congr (b : Bool) (n : Nat) (hn : 2 ≤ n) (u v : Nat → ℝ) (h : ∀ i ≤ n, u i = v i) : rule b n u = rule b n v := by
  cases b with
  | false =>
    simp only [rule, Bool.false_eq_true, if_false]
    refine Finset.sum_congr rfl fun i hi => ?_
    rw [Finset.mem_range] at hi
    rw [h i (by omega), h (i + 1) (by omega)]
  | true =>
    simp only [rule, if_true, pairs]
    congr 1
    · refine Finset.sum_congr rfl fun i hi => ?_
      rw [Finset.mem_range] at hi
      rw [h (2 * i) (by omega), h (2 * i + 1) (by omega), h (2 * i + 2) (by omega)]
    · rw [h n le_rfl, h (n - 1) (by omega), h (n - 2) (by omega)]

/-- The rules on a function of bounded variation. -/
theorem rule_error (b : Bool) (g V : ℝ → ℝ) (h : Varies g V) (n : Nat) (hn : 2 ≤ n) :
    |rule b n (fun i => g (i / n)) - ∫ x in (0 : ℝ)..1, g x| ≤ 2 * ((V 1 - V 0) / n) := by
  have hn0 : (0 : ℝ) < n := by positivity
  obtain ⟨m1, m2⟩ := varies_mono h
  have e1 := rule_error_mono b _ m1 n hn
  have e2 := rule_error_mono b _ m2 n hn
  have c1 : clamp 1 = 1 := clamp_of_mem zero_le_one le_rfl
  have c0 : clamp 0 = 0 := clamp_of_mem le_rfl zero_le_one
  simp only [c1, c0] at e1 e2
  have hr : rule b n (fun i => g (i / n)) = 1 / 2 * rule b n (fun i => V (clamp (i / n)) + g (clamp (i / n))) + (-1 / 2) * rule b n (fun i => V (clamp (i / n)) - g (clamp (i / n))) := by
    rw [← rule_smul, ← rule_smul, ← rule_add]
    refine rule_congr b n hn _ _ fun i hi => ?_
    obtain ⟨g0, g1⟩ := grid_mem (n := n) (i := i) (by omega) hi
    rw [clamp_of_mem g0 g1]
    ring
  rw [hr, varies_int h]
  have hd := abs_le.mp (h 0 1 le_rfl zero_le_one le_rfl)
  have p1 : 0 ≤ (V 1 + g 1 - (V 0 + g 0)) / n := div_nonneg (by linarith [hd.1]) hn0.le
  have p2 : 0 ≤ (V 1 - g 1 - (V 0 - g 0)) / n := div_nonneg (by linarith [hd.2]) hn0.le
  have e : (V 1 - V 0) / n = 1 / 2 * ((V 1 + g 1 - (V 0 + g 0)) / n) + 1 / 2 * ((V 1 - g 1 - (V 0 - g 0)) / n) := by ring
  rw [e, abs_le]
  constructor <;> linarith [e1.1, e1.2, e2.1, e2.2]

/-- The mean over the grid of a function of bounded variation. -/
theorem mean_error (g V : ℝ → ℝ) (h : Varies g V) (n : Nat) (hn : 1 ≤ n) :
    |mean (tab n fun i => g (i / n)) - ∫ x in (0 : ℝ)..1, g x| ≤ (V 1 - V 0) / n := by
  have hn0 : (0 : ℝ) < n := by exact_mod_cast hn
  obtain ⟨m1, m2⟩ := varies_mono h
  have e1 := abs_le.mp (mean_error_mono _ m1 n hn)
  have e2 := abs_le.mp (mean_error_mono _ m2 n hn)
  have c1 : clamp 1 = 1 := clamp_of_mem zero_le_one le_rfl
  have c0 : clamp 0 = 0 := clamp_of_mem le_rfl zero_le_one
  simp only [c1, c0] at e1 e2
  have hr : mean (tab n fun i => g (i / n)) = 1 / 2 * mean (tab n fun i => V (clamp (i / n)) + g (clamp (i / n))) - 1 / 2 * mean (tab n fun i => V (clamp (i / n)) - g (clamp (i / n))) := by
    simp only [mean, tab_length, sum_tab]
    rw [← mul_div_assoc, ← mul_div_assoc, ← sub_div, Finset.mul_sum, Finset.mul_sum, ← Finset.sum_sub_distrib]
    congr 1
    refine Finset.sum_congr rfl fun i hi => ?_
    rw [Finset.mem_range] at hi
    obtain ⟨g0, g1⟩ := grid_mem (n := n) (i := i) (by omega) (by omega)
    rw [clamp_of_mem g0 g1]
    ring
  rw [hr, varies_int h]
  have e : (V 1 - V 0) / n = 1 / 2 * ((V 1 + g 1 - (V 0 + g 0)) / n) + 1 / 2 * ((V 1 - g 1 - (V 0 - g 0)) / n) := by ring
  rw [e, abs_le]
  constructor <;> linarith [e1.1, e1.2, e2.1, e2.2]

/-- The square of the deviation from a line varies at most so much. -/
theorem sq_varies (Y : ℝ → ℝ) (hY : Monotone Y) (k w S : ℝ) (hS : ∀ x, 0 ≤ x → x ≤ 1 → |Y x - k * x - w| ≤ S) :
    Varies (fun x => (Y x - k * x - w) ^ 2) (fun x => 2 * S * (Y x + |k| * x)) := by
  intro x y h0 hxy h1
  have a := hS x h0 (hxy.trans h1)
  have b := hS y (h0.trans hxy) h1
  have e : (Y y - k * y - w) ^ 2 - (Y x - k * x - w) ^ 2 = ((Y y - k * y - w) + (Y x - k * x - w)) * ((Y y - Y x) - k * (y - x)) := by ring
  have e2 : 2 * S * (Y y + |k| * y) - 2 * S * (Y x + |k| * x) = 2 * S * ((Y y - Y x) + |k| * (y - x)) := by ring
  simp only
  rw [e, e2, abs_mul]
  have hd : 0 ≤ Y y - Y x := sub_nonneg.mpr (hY hxy)
  have c1 : |(Y y - k * y - w) + (Y x - k * x - w)| ≤ 2 * S := (abs_add_le _ _).trans (by linarith)
  have c2 : |(Y y - Y x) - k * (y - x)| ≤ (Y y - Y x) + |k| * (y - x) := by
    refine (abs_sub _ _).trans ?_
    rw [abs_of_nonneg hd, abs_mul, abs_of_nonneg (sub_nonneg.mpr hxy)]
  exact mul_le_mul c1 c2 (abs_nonneg _) (by linarith [abs_nonneg (Y x - k * x - w)])

/-! ### Least squares on the grid and on the window -/

theorem line_close (v p q D : ℝ) (hv : 1 / 12 ≤ v) (hD : 0 ≤ D) (h : v * q ^ 2 + p ^ 2 ≤ D ^ 2) :
    |q| ≤ 7 / 2 * D ∧ ∀ x, 0 ≤ x → x ≤ 1 → |p + q * (x - 1 / 2)| ≤ 2 * D := by
  have h1 : q ^ 2 / 12 + p ^ 2 ≤ D ^ 2 := by nlinarith [sq_nonneg q]
  constructor
  · refine abs_le_of_sq_le_sq ?_ (by linarith)
    nlinarith [sq_nonneg p]
  · intro x h0 h2
    refine abs_le_of_sq_le_sq ?_ (by linarith)
    have hz : (x - 1 / 2) ^ 2 ≤ 1 / 4 := by nlinarith
    have c : (p + q * (x - 1 / 2)) ^ 2 ≤ (p ^ 2 + q ^ 2 / 12) * (1 + 12 * (x - 1 / 2) ^ 2) := by
      nlinarith [sq_nonneg (q / 6 - 2 * p * (x - 1 / 2))]
    have : (p ^ 2 + q ^ 2 / 12) * (1 + 12 * (x - 1 / 2) ^ 2) ≤ (p ^ 2 + q ^ 2 / 12) * 4 := by
      apply mul_le_mul_of_nonneg_left (by linarith)
      positivity
    nlinarith

theorem mseUnit_excess (Y : ℝ → ℝ) (hY : Monotone Y) (h0 : ∀ x, 0 ≤ Y x) (A B : ℝ) :
    mseUnit Y A B = mseUnit Y (bestA Y) (bestB Y) + (1 / 12 * (A - bestA Y) ^ 2 + (B - bestB Y + (A - bestA Y) / 2) ^ 2) := by
  rw [mseUnit_eq Y hY h0, mseUnit_eq Y hY h0]
  have hk : IX Y = bestA Y / 12 + 1 / 2 * I1 Y := by unfold bestA; ring
  have hw : I1 Y = bestB Y + bestA Y * (1 / 2) := by unfold bestB; ring
  rw [hk, hw]
  ring

theorem mseUnit_nonneg (Y : ℝ → ℝ) (A B : ℝ) : 0 ≤ mseUnit Y A B :=
  intervalIntegral.integral_nonneg zero_le_one fun _ _ => sq_nonneg _

/-- The mean square deviation from a line over the grid. -/
noncomputable def mseGrid (n : Nat) (y : Nat → ℝ) (A B : ℝ) : ℝ := mean (tab n fun i => (y i - A * ((i : ℝ) / n) - B) ^ 2)

theorem mean_grid (n : Nat) (hn : 1 ≤ n) : mean (tab n fun i => (i : ℝ) / n) = 1 / 2 := by
  have hn0 : (n : ℝ) ≠ 0 := by positivity
  have h : ∀ m : Nat, ∑ i ∈ Finset.range (m + 1), (i : ℝ) / n = m * (m + 1) / 2 / n := by
    intro m
    induction m with
    | zero => simp
    | succ m ih => rw [Finset.sum_range_succ, ih]; push_cast; ring
  rw [mean, tab_length, sum_tab, h]
  have : (n : ℝ) + 1 ≠ 0 := by positivity
  push_cast
  field_simp

theorem mean_grid_sq (n : Nat) (hn : 1 ≤ n) : mean (tab n fun i => ((i : ℝ) / n) * ((i : ℝ) / n)) = 1 / 4 + (n + 2) / (12 * n) := by
  have hn0 : (n : ℝ) ≠ 0 := by positivity
  have h : ∀ m : Nat, ∑ i ∈ Finset.range (m + 1), ((i : ℝ) / n) * ((i : ℝ) / n) = m * (m + 1) * (2 * m + 1) / 6 / (n * n) := by
    intro m
    induction m with
    | zero => simp
    | succ m ih => rw [Finset.sum_range_succ, ih]; push_cast; field_simp; ring
  rw [mean, tab_length, sum_tab, h]
  have : (n : ℝ) + 1 ≠ 0 := by positivity
  push_cast
  field_simp
  ring

/-- The variance of the grid. -/
noncomputable def gridVar (n : Nat) : ℝ := ((n : ℝ) + 2) / (12 * n)

theorem gridVar_ge (n : Nat) (hn : 1 ≤ n) : 1 / 12 ≤ gridVar n := by
  have hn0 : (0 : ℝ) < n := by exact_mod_cast hn
  unfold gridVar
  rw [div_le_div_iff₀ (by norm_num) (by positivity)]
  linarith

theorem mseGrid_eq (n : Nat) (hn : 1 ≤ n) (y : Nat → ℝ) (A B : ℝ) :
    mseGrid n y A B = mean (tab n fun i => y i * y i) + A ^ 2 * (1 / 4 + gridVar n) + B ^ 2 - 2 * A * mean (tab n fun i => (i : ℝ) / n * y i)
      - 2 * B * mean (tab n y) + A * B := by
  have hn1 : (n : ℝ) + 1 ≠ 0 := by positivity
  have a := mean_grid n hn
  have b := mean_grid_sq n hn
  change _ = 1 / 4 + gridVar n at b
  rw [← b]
  have e : A * B = 2 * A * B * mean (tab n fun i => (i : ℝ) / n) := by rw [a]; ring
  rw [e]
  simp only [mseGrid, mean, tab_length, sum_tab]
  push_cast
  have : ∑ i ∈ Finset.range (n + 1), (y i - A * ((i : ℝ) / n) - B) ^ 2 = ∑ i ∈ Finset.range (n + 1), y i * y i + A ^ 2 * ∑ i ∈ Finset.range (n + 1), ((i : ℝ) / n) * ((i : ℝ) / n)
      + (n + 1) * B ^ 2 - 2 * A * ∑ i ∈ Finset.range (n + 1), (i : ℝ) / n * y i - 2 * B * ∑ i ∈ Finset.range (n + 1), y i + 2 * A * B * ∑ i ∈ Finset.range (n + 1), (i : ℝ) / n := by
    have hc : ((n : ℝ) + 1) * B ^ 2 = ∑ _i ∈ Finset.range (n + 1), B ^ 2 := by rw [Finset.sum_const, Finset.card_range, nsmul_eq_mul]; push_cast; ring
    rw [hc]
    simp only [Finset.mul_sum, ← Finset.sum_add_distrib, ← Finset.sum_sub_distrib]
    exact Finset.sum_congr rfl fun i _ => by ring
  rw [this]
  field_simp

/-- The slope and intercept of the code on the grid. -/
noncomputable def gridK (n : Nat) (y : Nat → ℝ) : ℝ := Rigidity.slope (tab n fun i => (i : ℝ) / n) (tab n y)
/-- See `gridK`. -/
noncomputable def gridW (n : Nat) (y : Nat → ℝ) : ℝ := intercept (tab n fun i => (i : ℝ) / n) (tab n y) (gridK n y)

theorem mseGrid_excess (n : Nat) (hn : 1 ≤ n) (y : Nat → ℝ) (A B : ℝ) :
    mseGrid n y A B = mseGrid n y (gridK n y) (gridW n y) + (gridVar n * (A - gridK n y) ^ 2 + (B - gridW n y + (A - gridK n y) / 2) ^ 2) := by
  have hv := gridVar_ge n hn
  have hk : mean (tab n fun i => (i : ℝ) / n * y i) = gridK n y * gridVar n + 1 / 2 * mean (tab n y) := by
    have e : gridK n y = (mean (tab n fun i => (i : ℝ) / n * y i) - 1 / 2 * mean (tab n y)) / gridVar n := by
      unfold gridK
      rw [slope_tab, mean_grid n hn, mean_grid_sq n hn]
      congr 1
      unfold gridVar
      ring
    rw [e]
    field_simp
    ring
  have hw : mean (tab n y) = gridW n y + gridK n y * (1 / 2) := by
    have : gridW n y = mean (tab n y) - gridK n y * mean (tab n fun i => (i : ℝ) / n) := rfl
    rw [this, mean_grid n hn]
    ring
  rw [mseGrid_eq n hn, mseGrid_eq n hn, hk, hw]
  ring

theorem mean_nonneg (n : Nat) (v : Nat → ℝ) (h : ∀ i ≤ n, 0 ≤ v i) : 0 ≤ mean (tab n v) := by
  rw [mean, tab_length, sum_tab]
  refine div_nonneg (Finset.sum_nonneg fun i hi => h i ?_) (by positivity)
  rw [Finset.mem_range] at hi
  omega

theorem mean_le (n : Nat) (v : Nat → ℝ) (c : ℝ) (h : ∀ i ≤ n, v i ≤ c) : mean (tab n v) ≤ c := by
  rw [mean, tab_length, sum_tab, div_le_iff₀ (by positivity)]
  calc ∑ i ∈ Finset.range (n + 1), v i ≤ ∑ _i ∈ Finset.range (n + 1), c := Finset.sum_le_sum fun i hi => h i (by rw [Finset.mem_range] at hi; omega)
    _ = _ := by rw [Finset.sum_const, Finset.card_range, nsmul_eq_mul]; ring

/-- The two least squares lines of values within `D` of a line are within `3 D` of the values. -/
theorem grid_line (Y : ℝ → ℝ) (n : Nat) (hn : 1 ≤ n) (A B D : ℝ) (hD : ∀ x, 0 ≤ x → x ≤ 1 → |Y x - A * x - B| ≤ D) :
    |gridK n (fun i => Y (i / n)) - A| ≤ 7 / 2 * D ∧
    ∀ x, 0 ≤ x → x ≤ 1 → |Y x - gridK n (fun i => Y (i / n)) * x - gridW n (fun i => Y (i / n))| ≤ 3 * D := by
  have hD0 : 0 ≤ D := (abs_nonneg _).trans (hD 0 le_rfl zero_le_one)
  have h1 := mseGrid_excess n hn (fun i => Y (i / n)) A B
  have h2 : 0 ≤ mseGrid n (fun i => Y (i / n)) (gridK n fun i => Y (i / n)) (gridW n fun i => Y (i / n)) := mean_nonneg n _ fun i _ => sq_nonneg _
  have h3 : mseGrid n (fun i => Y (i / n)) A B ≤ D ^ 2 := mean_le n _ _ fun i hi => by
    obtain ⟨g0, g1⟩ := grid_mem hn hi
    exact sq_le_sq' (neg_le_of_abs_le (hD _ g0 g1)) (le_of_abs_le (hD _ g0 g1))
  generalize gridK n (fun i => Y (i / n)) = k at *
  generalize gridW n (fun i => Y (i / n)) = w at *
  obtain ⟨c1, c2⟩ := line_close (gridVar n) (B - w + (A - k) / 2) (A - k) D (gridVar_ge n hn) hD0 (by linarith)
  refine ⟨by rw [abs_sub_comm]; exact c1, fun x h0 h1 => ?_⟩
  have e : Y x - k * x - w = (Y x - A * x - B) + ((B - w + (A - k) / 2) + (A - k) * (x - 1 / 2)) := by ring
  rw [e]
  exact (abs_add_le _ _).trans (by linarith [hD x h0 h1, c2 x h0 h1])

theorem unit_line (Y : ℝ → ℝ) (hY : Monotone Y) (hY0 : ∀ x, 0 ≤ Y x) (A B D : ℝ) (hD : ∀ x, 0 ≤ x → x ≤ 1 → |Y x - A * x - B| ≤ D) :
    |bestA Y - A| ≤ 7 / 2 * D ∧ ∀ x, 0 ≤ x → x ≤ 1 → |Y x - bestA Y * x - bestB Y| ≤ 3 * D := by
  have hD0 : 0 ≤ D := (abs_nonneg _).trans (hD 0 le_rfl zero_le_one)
  have h1 := mseUnit_excess Y hY hY0 A B
  have h2 := mseUnit_nonneg Y (bestA Y) (bestB Y)
  have h3 : mseUnit Y A B ≤ D ^ 2 := by
    have hi : IntervalIntegrable (fun x => (Y x - A * x - B) ^ 2) MeasureTheory.volume 0 1 := by
      have hv := varies_mono (sq_varies Y hY A B D hD)
      have := (hv.1.intervalIntegrable (μ := MeasureTheory.volume) (a := 0) (b := 1)).sub hv.2.intervalIntegrable |>.const_mul (1 / 2)
      refine this.congr ?_
      intro x hx
      rw [Set.uIoc_of_le zero_le_one] at hx
      simp only [clamp_of_mem hx.1.le hx.2]
      ring
    have := intervalIntegral.integral_mono_on (μ := MeasureTheory.volume) (a := 0) (b := 1) (f := fun x => (Y x - A * x - B) ^ 2) (g := fun _ => D ^ 2) zero_le_one
      hi intervalIntegrable_const (fun x hx => sq_le_sq' (neg_le_of_abs_le (hD _ hx.1 hx.2)) (le_of_abs_le (hD _ hx.1 hx.2)))
    simpa [mseUnit] using this
  generalize bestA Y = k at *
  generalize bestB Y = w at *
  obtain ⟨c1, c2⟩ := line_close (1 / 12) (B - w + (A - k) / 2) (A - k) D le_rfl hD0 (by linarith)
  refine ⟨by rw [abs_sub_comm]; exact c1, fun x h0 h1 => ?_⟩
  have e : Y x - k * x - w = (Y x - A * x - B) + ((B - w + (A - k) / 2) + (A - k) * (x - 1 / 2)) := by ring
  rw [e]
  exact (abs_add_le _ _).trans (by linarith [hD x h0 h1, c2 x h0 h1])

theorem sampleUnit_rule (b : Bool) (n : Nat) (hn : 2 ≤ n) (Y : ℝ → ℝ) :
    sampleUnit b n Y = rule b n fun i => (Y (i / n) - gridK n (fun i => Y (i / n)) * (i / n) - gridW n (fun i => Y (i / n))) ^ 2 := by
  have hn0 : (n : ℝ) ≠ 0 := by positivity
  have hstep : ∀ i < n, ((i + 1 : Nat) : ℝ) / n - (i : ℝ) / n = 1 / n := by
    intro i _
    push_cast
    ring
  have hr : ∀ v : Nat → ℝ, (if b = true then intSimpsNonunif (tab n fun i => (i : ℝ) / n) (tab n v) else integrateFast (tab n fun i => (i : ℝ) / n) (tab n v)) = rule b n v := by
    intro v
    cases b with
    | true => simp only [if_true, rule]; rw [simps_tab n hn _ v (1 / n) hstep]
    | false => simp only [Bool.false_eq_true, if_false, rule]; rw [trapz_tab n _ v (1 / n) hstep]
  simp only [sampleUnit, sqLinDeviation, zipWith_tab]
  rw [hr]
  congr 1
  funext i
  simp only [gridW, gridK]
  ring

/-- A sample on the unit window, when the counts are within `D` of some line. -/
theorem sampleUnit_error (b : Bool) (n : Nat) (hn : 2 ≤ n) (Y : ℝ → ℝ) (hY : Monotone Y) (hY0 : ∀ x, 0 ≤ Y x) (A B D : ℝ)
    (hD : ∀ x, 0 ≤ x → x ≤ 1 → |Y x - A * x - B| ≤ D) :
    |sampleUnit b n Y - mseUnit Y (bestA Y) (bestB Y)| ≤ 12 * D * (4 * (Y 1 - Y 0) + 11 * D) / n := by
  have hn1 : 1 ≤ n := by omega
  have hn0 : (0 : ℝ) < n := by positivity
  have hD0 : 0 ≤ D := (abs_nonneg _).trans (hD 0 le_rfl zero_le_one)
  obtain ⟨g1, g2⟩ := grid_line Y n hn1 A B D hD
  obtain ⟨u1, u2⟩ := unit_line Y hY hY0 A B D hD
  have hA : |A| ≤ (Y 1 - Y 0) + 2 * D := by
    have a1 := abs_le.mp (hD 1 zero_le_one le_rfl)
    have a0 := abs_le.mp (hD 0 le_rfl zero_le_one)
    have := hY (zero_le_one (α := ℝ))
    rw [abs_le]
    constructor <;> linarith [a1.1, a1.2, a0.1, a0.2]
  have hK : |gridK n fun i => Y (i / n)| ≤ (Y 1 - Y 0) + 11 / 2 * D := by
    have := abs_sub_abs_le_abs_sub (gridK n fun i => Y (i / n)) A
    linarith
  have hK' : |bestA Y| ≤ (Y 1 - Y 0) + 11 / 2 * D := by
    have := abs_sub_abs_le_abs_sub (bestA Y) A
    linarith
  rw [sampleUnit_rule b n hn]
  have hex := mseGrid_excess n hn1 (fun i => Y (i / n)) (bestA Y) (bestB Y)
  have hv := gridVar_ge n hn1
  have hmin := mseUnit_min Y hY hY0 (gridK n fun i => Y (i / n)) (gridW n fun i => Y (i / n))
  generalize gridK n (fun i => Y (i / n)) = k at *
  generalize gridW n (fun i => Y (i / n)) = w at *
  have v1 := sq_varies Y hY k w _ g2
  have v2 := sq_varies Y hY (bestA Y) (bestB Y) _ u2
  have e1 := abs_le.mp (rule_error b _ _ v1 n hn)
  have e2 := abs_le.mp (mean_error _ _ v1 n hn1)
  have e3 := abs_le.mp (mean_error _ _ v2 n hn1)
  simp only [mul_one, mul_zero, add_zero] at e1 e2 e3
  have w1 : (2 * (3 * D) * (Y 1 + |k|) - 2 * (3 * D) * Y 0) / n ≤ 3 * D * (4 * (Y 1 - Y 0) + 11 * D) / n := by
    apply div_le_div_of_nonneg_right _ hn0.le
    nlinarith
  have w2 : (2 * (3 * D) * (Y 1 + |bestA Y|) - 2 * (3 * D) * Y 0) / n ≤ 3 * D * (4 * (Y 1 - Y 0) + 11 * D) / n := by
    apply div_le_div_of_nonneg_right _ hn0.le
    nlinarith
  have hle : mean (tab n fun i => (Y (i / n) - k * (i / n) - w) ^ 2) ≤ mean (tab n fun i => (Y (i / n) - bestA Y * (i / n) - bestB Y) ^ 2) := by
    simp only [mseGrid] at hex
    have : 0 ≤ gridVar n * (bestA Y - k) ^ 2 + (bestB Y - w + (bestA Y - k) / 2) ^ 2 := by positivity
    linarith
  have e : 12 * D * (4 * (Y 1 - Y 0) + 11 * D) / n = 4 * (3 * D * (4 * (Y 1 - Y 0) + 11 * D) / n) := by ring
  rw [e, abs_le]
  unfold mseUnit at hmin ⊢
  constructor <;> linarith [e1.1, e1.2, e2.1, e2.2, e3.1, e3.2]

end Delta3
end RMT
