import Verif.Model.Exponentials
import Verif.Spec.Derivative
import Verif.Lemmas.Detrend

/-!
# C70, C71, C85: `gompertz`, `inverse_gompertz`, `derivative`, `exponential`
-/

set_option linter.unusedSectionVars false

namespace RMT
namespace Props
open Spec Exponentials Real

/-! ## C70 -/

/-- **C70 (the curve).** For `a, b, c > 0` the Gompertz curve is strictly increasing with values strictly between 0 and `a`; it takes every
such value. -/
theorem C70_curve_partial (a b c : ℝ) (ha : 0 < a) (hb : 0 < b) (hc : 0 < c) :
    StrictMono (fun x => gompertz x a b c) ∧ (∀ x, 0 < gompertz x a b c ∧ gompertz x a b c < a) ∧
    ∀ y, 0 < y → y < a → ∃ x, gompertz x a b c = y := by
  refine ⟨fun x y h => ?_, fun x => ?_, fun y h0 h1 => ?_⟩
  · simp only [gompertz, Smooth.gompertzFn]
    apply mul_lt_mul_of_pos_left _ ha
    apply exp_lt_exp.mpr
    have : exp (-c * y) < exp (-c * x) := exp_lt_exp.mpr (by nlinarith)
    nlinarith
  · simp only [gompertz, Smooth.gompertzFn]
    have h1 := exp_pos (-c * x)
    have h2 : exp (-b * exp (-c * x)) < 1 := exp_lt_one_iff.mpr (by nlinarith)
    have h3 := exp_pos (-b * exp (-c * x))
    constructor
    · positivity
    · nlinarith
  · refine ⟨-(log (-(log (y / a)) / b) / c), ?_⟩
    have hl : log (y / a) < 0 := log_neg (by positivity) (by rw [div_lt_one ha]; exact h1)
    have hq : 0 < -(log (y / a)) / b := div_pos (by linarith) hb
    simp only [gompertz, Smooth.gompertzFn]
    rw [show -c * -(log (-(log (y / a)) / b) / c) = log (-(log (y / a)) / b) by field_simp, exp_log hq,
      show -b * (-(log (y / a)) / b) = log (y / a) by field_simp, exp_log (by positivity)]
    field_simp

/-- **C70 (inverse) is false.** Applied to a value of `gompertz`, `inverse_gompertz` gives NaN, for all parameters and all arguments. -/
theorem C70_refuted (x a b c : ℝ) (ha : a ≠ 0) : inverseGompertz (gompertz x a b c) a b c = none := by
  have h : ¬ 0 < -gompertz x a b c / a := by
    have : -gompertz x a b c / a = -exp (-b * exp (-c * x)) := by
      simp only [gompertz, Smooth.gompertzFn]; field_simp
    rw [this]
    have := exp_pos (-b * exp (-c * x))
    linarith
  simp only [inverseGompertz, npLog, if_neg h]
  cases (if 0 < b then some (log b) else none : Option ℝ) <;> rfl

/-- **C70 (where `inverse_gompertz` is a number).** It is a number only for `x / a < -1`, never on the range `(0, a)` of the curve. -/
theorem C70_inverse_domain (x a b c v : ℝ) (h : inverseGompertz x a b c = some v) : x / a < -1 := by
  simp only [inverseGompertz, npLog, Option.bind_eq_bind, Option.bind_eq_some_iff] at h
  obtain ⟨lb, _, l1, h1, l2, h2, _⟩ := h
  split at h1
  · rename_i hp
    cases h1
    split at h2
    · rename_i hq
      have := (log_pos_iff hp.le).mp hq
      rw [neg_div] at this
      linarith
    · exact absurd h2 (by simp)
  · exact absurd h1 (by simp)

/-- **C70 (what `inverse_gompertz` inverts).** For `a ≠ 0`, `b > 0` and `c ≠ 0`, it is the inverse of `v ↦ -a exp(b exp(-exp(c v)))`, a curve other than `gompertz`, and NaN elsewhere. -/
theorem C70_inverse_exact (x a b c v : ℝ) (ha : a ≠ 0) (hb : 0 < b) (hc : c ≠ 0) :
    inverseGompertz x a b c = some v ↔ x = -a * exp (b * exp (-exp (c * v))) := by
  constructor
  · intro h
    simp only [inverseGompertz, npLog, Option.bind_eq_bind, Option.bind_eq_some_iff, Option.ite_none_right_eq_some, Option.some.injEq] at h
    obtain ⟨lb, ⟨-, rfl⟩, l1, ⟨h1, rfl⟩, l2, ⟨h2, rfl⟩, l3, ⟨h3, rfl⟩, rfl⟩ := h
    rw [mul_div_cancel₀ _ hc, exp_log h3, neg_sub, exp_sub, exp_log h2, exp_log hb, mul_div_cancel₀ _ hb.ne', exp_log h1]
    field_simp
  · rintro rfl
    have e1 : -(-a * exp (b * exp (-exp (c * v)))) / a = exp (b * exp (-exp (c * v))) := by field_simp
    have h2 : 0 < b * exp (-exp (c * v)) := by positivity
    have e3 : log b - log (b * exp (-exp (c * v))) = exp (c * v) := by
      rw [log_mul hb.ne' (exp_pos _).ne', log_exp]
      ring
    simp only [inverseGompertz, npLog, e1, log_exp, if_pos hb, if_pos (exp_pos _), Option.bind_eq_bind, Option.bind_some, if_pos h2, e3]
    rw [mul_div_cancel_left₀ _ hc]

/-- C70, concrete: the formula does give numbers somewhere: `x = -exp(exp 0)`, `a = 1`, `b = e^e`. -/
example : inverseGompertz (-exp (exp 0)) 1 (exp (exp 1)) 1 = some 1 := by
  have h1 : log (-(-exp (exp 0)) / 1) = 1 := by rw [neg_neg, div_one, log_exp, exp_zero]
  simp only [inverseGompertz, npLog, h1]
  rw [if_pos (exp_pos _), if_pos (by rw [neg_neg, div_one]; exact exp_pos _), log_exp]
  simp [exp_pos]

/-- C70, concrete values of the curve. -/
example : gompertz 0 2 1 1 = 2 * exp (-1) := by simp [gompertz, Smooth.gompertzFn]

/-! ## C85 -/

/-- **C85.** For `a, c, d > 0` the function `exponential` is strictly increasing on `[0, ∞)`, is `b - a` at 0, stays below `b`, and takes
every value in between: the intercept documented as `b` is the asymptote. -/
theorem C85_exponential (a b c d : ℝ) (ha : 0 < a) (hc : 0 < c) (hd : 0 < d) :
    StrictMonoOn (fun x => exponential x a b c d) (Set.Ici 0) ∧ exponential 0 a b c d = b - a ∧
    (∀ x, 0 ≤ x → b - a ≤ exponential x a b c d ∧ exponential x a b c d < b) ∧
    ∀ y, b - a ≤ y → y < b → ∃ x, 0 ≤ x ∧ exponential x a b c d = y := by
  have hd' : 0 < 1 / d := by positivity
  have h0 : exponential 0 a b c d = b - a := by
    simp [exponential, zero_rpow (ne_of_gt (by simpa using hd' : 0 < d⁻¹))]
  have hm : StrictMonoOn (fun x => exponential x a b c d) (Set.Ici 0) := by
    intro x hx y hy h
    simp only [exponential]
    have h1 : x ^ (1 / d) < y ^ (1 / d) := rpow_lt_rpow hx h hd'
    have h2 : exp (-c * y ^ (1 / d)) < exp (-c * x ^ (1 / d)) := exp_lt_exp.mpr (by nlinarith)
    nlinarith
  refine ⟨hm, h0, fun x hx => ⟨?_, ?_⟩, fun y h1 h2 => ?_⟩
  · rw [← h0]; exact hm.monotoneOn (by simp) hx hx
  · simp only [exponential]
    have := exp_pos (-c * x ^ (1 / d))
    nlinarith
  · have hq : 0 < (b - y) / a := by apply div_pos _ ha; linarith
    have hq1 : (b - y) / a ≤ 1 := by rw [div_le_one ha]; linarith
    have hl : 0 ≤ -(log ((b - y) / a)) / c := div_nonneg (by linarith [log_nonpos hq.le hq1]) hc.le
    refine ⟨(-(log ((b - y) / a)) / c) ^ d, rpow_nonneg hl _, ?_⟩
    simp only [exponential]
    rw [← rpow_mul hl, mul_one_div_cancel hd.ne', rpow_one,
      show -c * (-(log ((b - y) / a)) / c) = log ((b - y) / a) by field_simp, exp_log hq]
    field_simp
    ring

/-- C85, concrete: with a = 2, b = 5 the values lie between 3 and 5. -/
example : exponential 0 2 5 1 1 = 3 := by rw [(C85_exponential 2 5 1 1 (by norm_num) (by norm_num) (by norm_num)).2.1]; norm_num

/-! ## C71 -/

section
variable {K : Type} [Field K]

/-- **C71 (what is computed).** With at least two points, `derivative` returns one value per point, which does not depend on the uninitialised
memory: the slope of the chord between the two neighbours inside, of the first and of the last chord at the ends. -/
theorem C71_values (junk : Nat → K) (pts : List (K × K)) (h : 2 ≤ pts.length) :
    ∃ r, derivative junk pts = .ok r ∧ r.length = pts.length ∧
      (∀ p q : K × K, pts[0]? = some p → pts[1]? = some q → r[0]? = some (chord p q)) ∧
      (∀ p q : K × K, pts[pts.length - 2]? = some p → pts[pts.length - 1]? = some q → r[pts.length - 1]? = some (chord p q)) ∧
      ∀ (i : Nat) (p q : K × K), i + 2 < pts.length → pts[i]? = some p → pts[i + 2]? = some q → r[i + 1]? = some (chord p q) := by
  have hg : ∀ (i : Nat) (p : K × K), pts[i]? = some p → pts.getD i (0, 0) = p := fun i p hp => by
    rw [List.getD_eq_getElem?_getD, hp]; rfl
  simp only [derivative, if_neg (not_lt.mpr h)]
  refine ⟨_, rfl, ?_, ?_, ?_, ?_⟩
  · simp only [setSlice, List.length_set, List.length_append, List.length_take, List.length_drop, List.length_map, List.length_range]
    omega
  · intro p q hp hq
    rw [hg 0 p hp, hg 1 q hq, List.getElem?_set_ne (by omega), List.getElem?_set_self]
    · rfl
    · simp [setSlice]; omega
  · intro p q hp hq
    rw [List.getElem?_set_self, hg _ p hp, hg _ q hq]
    · rfl
    · simp [setSlice]; omega
  · intro i p q hi hp hq
    rw [List.getElem?_set_ne (by omega), List.getElem?_set_ne (by omega)]
    simp only [setSlice]
    rw [List.append_assoc, List.getElem?_append_right (by simp), List.getElem?_append_left (by simp; omega)]
    have hl : (List.take 1 ((List.range pts.length).map junk)).length = 1 := by simp; omega
    rw [hl, Nat.add_sub_cancel, List.getElem?_map, List.getElem?_range (by omega)]
    simp only [Option.map_some]
    rw [hg i p hp, hg (i + 2) q hq]
    rfl

/-- **C71 (too short).** With fewer than two points the code reads outside the arrays. -/
theorem C71_short (junk : Nat → K) (pts : List (K × K)) (h : pts.length < 2) :
    derivative junk pts = .error .indexError := by
  simp [derivative, h]

/-- **C71 (affine data).** If the points lie on a line `y = m x + k`, neighbours are distinct and so are points two apart, every entry is `m`. -/
theorem C71_affine (junk : Nat → K) (xs : List K) (m k : K) (h : 2 ≤ xs.length)
    (h1 : ∀ (i : Nat) (a b : K), xs[i]? = some a → xs[i + 1]? = some b → a ≠ b)
    (h2 : ∀ (i : Nat) (a b : K), xs[i]? = some a → xs[i + 2]? = some b → a ≠ b) :
    derivative junk (xs.map fun x => (x, m * x + k)) = .ok (List.replicate xs.length m) := by
  obtain ⟨r, hr, hl, h0, hn, hi⟩ := C71_values junk (xs.map fun x => (x, m * x + k)) (by simpa using h)
  rw [hr]
  congr 1
  rw [List.length_map] at hl hn
  have hc : ∀ a b : K, a ≠ b → chord (a, m * a + k) (b, m * b + k) = m := fun a b hab => by
    have : b - a ≠ 0 := sub_ne_zero.mpr hab.symm
    simp only [chord]; field_simp; ring
  have hx : ∀ i, i < xs.length → ∃ a, xs[i]? = some a := fun i hi => ⟨xs[i], List.getElem?_eq_getElem hi⟩
  have hp : ∀ (i : Nat) (a : K), xs[i]? = some a → (xs.map fun x => (x, m * x + k))[i]? = some (a, m * a + k) := fun i a ha => by
    rw [List.getElem?_map, ha]; rfl
  apply List.ext_getElem?
  intro i
  by_cases hlt : i < xs.length
  · rw [List.getElem?_replicate, if_pos hlt]
    rcases Nat.eq_zero_or_pos i with rfl | hpos
    · obtain ⟨a, ha⟩ := hx 0 (by omega)
      obtain ⟨b, hb⟩ := hx 1 (by omega)
      rw [h0 _ _ (hp 0 a ha) (hp 1 b hb), hc a b (h1 0 a b ha hb)]
    by_cases hlast : i = xs.length - 1
    · obtain ⟨a, ha⟩ := hx (xs.length - 2) (by omega)
      obtain ⟨b, hb⟩ := hx (xs.length - 1) (by omega)
      rw [hlast, hn _ _ (hp _ a ha) (hp _ b hb), hc a b]
      apply h1 (xs.length - 2) a b ha
      rwa [show xs.length - 2 + 1 = xs.length - 1 by omega]
    · obtain ⟨a, ha⟩ := hx (i - 1) (by omega)
      obtain ⟨b, hb⟩ := hx (i - 1 + 2) (by omega)
      have := hi (i - 1) _ _ (by rw [List.length_map]; omega) (hp _ a ha) (hp _ b hb)
      rw [show i - 1 + 1 = i by omega] at this
      rw [this, hc a b (h2 _ a b ha hb)]
  · rw [List.getElem?_eq_none (by omega), List.getElem?_eq_none (by simp; omega)]

/-- **C71 (affine data needs points two apart to be distinct).** With distinct neighbours only, the claim fails: on the grid 0, 1, 0 the middle
entry is 0/0. -/
theorem C71_grid_condition_needed (junk : Nat → ℚ) :
    derivative junk [(0, 0), (1, 1), (0, 0)] = .ok [1, 0, 1] := by
  simp [derivative, setSlice, List.range_succ]

/-- **C71 (quadratics).** At an inner point whose neighbours are at the same distance, the derivative of `y = a x² + b x + k` is exact. -/
theorem C71_quadratic (junk : Nat → K) (xs : List K) (a b k : K) (h : 2 ≤ xs.length) (i : Nat) (u v w : K)
    (hu : xs[i]? = some u) (_hv : xs[i + 1]? = some v) (hw : xs[i + 2]? = some w) (hne : u ≠ w) (hsym : v - u = w - v) :
    ∃ r, derivative junk (xs.map fun x => (x, a * x ^ 2 + b * x + k)) = .ok r ∧ r[i + 1]? = some (2 * a * v + b) := by
  obtain ⟨r, hr, hl, h0, hn, hi⟩ := C71_values junk (xs.map fun x => (x, a * x ^ 2 + b * x + k)) (by simpa using h)
  refine ⟨r, hr, ?_⟩
  have hi2 : i + 2 < xs.length := by
    by_contra hc
    rw [List.getElem?_eq_none (by omega)] at hw; cases hw
  rw [hi i (u, a * u ^ 2 + b * u + k) (w, a * w ^ 2 + b * w + k) (by simpa using hi2) (by rw [List.getElem?_map, hu]; rfl)
    (by rw [List.getElem?_map, hw]; rfl)]
  congr 1
  have : w - u ≠ 0 := sub_ne_zero.mpr hne.symm
  simp only [chord]
  rw [div_eq_iff this]
  linear_combination (a * (u - w)) * (hsym)

end

/-- C71, concrete: an irregular grid and a line. -/
example : derivative (fun _ => (7 : ℚ)) ([0, 1, 3].map fun x => (x, 2 * x + 5)) = .ok [2, 2, 2] := by
  simp [derivative, setSlice, List.range_succ]; norm_num

/-- C71, concrete: a parabola on a regular grid; the ends are not exact. -/
example : derivative (fun _ => (7 : ℚ)) ([0, 1, 2, 3].map fun x => (x, x ^ 2)) = .ok [1, 2, 4, 5] := by
  simp [derivative, setSlice, List.range_succ]; norm_num

end Props
end RMT
