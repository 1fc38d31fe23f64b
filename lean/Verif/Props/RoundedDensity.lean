import Verif.Model.RoundedDensity
import Verif.Spec.Float
import Verif.Lemmas.RoundedSign
import Verif.Props.RoundedSign
import Mathlib.Data.Int.Log
import Mathlib.Analysis.Real.Pi.Bounds

/-!
# C176: the semicircle density in floating point
-/

namespace RMT
namespace Rounded
namespace Props
open Spec Real Analytic

theorem zero_of_odd {fl : ℝ → ℝ} (h : FloatRounding fl) : fl 0 = 0 := by
  have := h.odd 0
  rw [neg_zero] at this
  linarith

/-- Inside the support the square root is taken of a number between 0 and the rounded `2N`. -/
theorem inside (fl : ℝ → ℝ) (h : FloatRounding fl) (N : ℕ) (x : ℝ) (hx : fl x = x) (hin : |x| < fl √(fl (2 * N))) : x * x ≤ fl (2 * N) ∧ fl (x * x) ≤ fl (2 * N) := by
  have nn : ∀ z, 0 ≤ z → 0 ≤ fl z := fun z hz => by rw [← zero_of_odd h]; exact h.mono hz
  have hD : 0 ≤ fl (2 * N) := nn _ (by positivity)
  have habs : fl |x| = |x| := by
    rcases abs_choice x with e | e <;> rw [e]
    · exact hx
    · rw [h.odd, hx]
  have hle : |x| ≤ √(fl (2 * N)) := by
    by_contra hcon
    push Not at hcon
    have := h.mono hcon.le
    rw [habs] at this
    linarith
  have hsq : x * x ≤ fl (2 * N) := by
    have := sq_le_sq' (by have := abs_nonneg x; have := sqrt_nonneg (fl (2 * N)); linarith) hle
    rw [sq_sqrt hD, sq_abs] at this
    nlinarith
  refine ⟨hsq, ?_⟩
  rw [← h.idem (2 * N)]
  exact h.mono hsq

/-- **C176 (domain).** In every arithmetic whose rounding is monotone and leaves its own numbers alone, `__R1` never takes the square root of a negative number: for every size and every number of the arithmetic it has a value, which is non-negative. -/
theorem C176_domain (fl : ℝ → ℝ) (h : FloatRounding fl) (N : ℕ) (x : ℝ) (hx : fl x = x) : ∃ y, semicircleFl fl N x = some y ∧ 0 ≤ y := by
  unfold semicircleFl
  have h0 := zero_of_odd h
  have nn : ∀ z, 0 ≤ z → 0 ≤ fl z := fun z hz => by rw [← h0]; exact h.mono hz
  split_ifs with hin
  swap
  · exact ⟨0, rfl, le_rfl⟩
  have ha : 0 ≤ fl (fl (2 * N) - fl (x * x)) := by
    exact nn _ (sub_nonneg.mpr (inside fl h N x hx hin).2)
  simp only [if_neg (not_lt.mpr ha)]
  exact ⟨_, rfl, nn _ (mul_nonneg (nn _ (div_nonneg zero_le_one (nn _ pi_pos.le))) (nn _ (sqrt_nonneg _)))⟩

/-- **C176 (shape).** It is even, and does not increase with the distance from 0. -/
theorem C176_shape (fl : ℝ → ℝ) (h : FloatRounding fl) (N : ℕ) : (∀ x, semicircleFl fl N (-x) = semicircleFl fl N x) ∧
    ∀ x x', fl x = x → fl x' = x' → |x| ≤ |x'| → ∀ y y', semicircleFl fl N x = some y → semicircleFl fl N x' = some y' → y' ≤ y := by
  refine ⟨fun x => by simp [semicircleFl], ?_⟩
  intro x x' hx hx' hle y y' hy hy'
  have h0 := zero_of_odd h
  have nn : ∀ z, 0 ≤ z → 0 ≤ fl z := fun z hz => by rw [← h0]; exact h.mono hz
  obtain ⟨z, hz, hz0⟩ := C176_domain fl h N x hx
  rw [hy] at hz
  cases hz
  simp only [semicircleFl] at hy hy'
  split_ifs at hy' with c1 c2
  · rw [if_pos (lt_of_le_of_lt hle c1)] at hy
    have hsq : x * x ≤ x' * x' := by
      have := sq_le_sq' (by linarith [abs_nonneg x, abs_nonneg x']) hle
      rw [sq_abs, sq_abs] at this
      nlinarith
    have hmono : fl (fl (2 * N) - fl (x' * x')) ≤ fl (fl (2 * N) - fl (x * x)) := h.mono (by linarith [h.mono hsq])
    simp only [if_neg (not_lt.mpr ((not_lt.mp c2).trans hmono))] at hy
    cases hy
    cases hy'
    exact h.mono (mul_le_mul_of_nonneg_left (h.mono (sqrt_le_sqrt hmono)) (nn _ (div_nonneg zero_le_one (nn _ pi_pos.le))))
  · cases hy'
    exact hz0

theorem rounded_product (fl : ℝ → ℝ) (nn : ∀ z, 0 ≤ z → 0 ≤ fl z) {ε : ℝ} (hε : 0 ≤ ε) (hε1 : ε ≤ 1 / 1000) (hr : RelRounding fl ε) {a : ℝ} (hsa : 0 ≤ √a) :
    |fl (fl (1 / fl π) * fl √a) - 1 / π * √a| ≤ 6 * (ε * √a) := by
  have hπ := pi_gt_three
  have hπ' : 1 / π ≤ 1 / 3 := one_div_le_one_div_of_le (by norm_num) hπ.le
  have hπ0 : 0 < 1 / π := by positivity
  have a1 := rnd_ge hr π pi_pos.le
  have a2 := rnd_le hr π pi_pos.le
  have hfπ : 0 < fl π := lt_of_lt_of_le (mul_pos (by linarith) pi_pos) a1
  have b1 : (1 - ε) * (1 / π) ≤ 1 / fl π := by
    rw [le_div_iff₀ hfπ]
    have c1 : (1 - ε) * (1 / π) * fl π ≤ (1 - ε) * (1 / π) * ((1 + ε) * π) := mul_le_mul_of_nonneg_left a2 (mul_nonneg (by linarith) hπ0.le)
    have c2 : (1 - ε) * (1 / π) * ((1 + ε) * π) = (1 - ε) * (1 + ε) := by field_simp
    nlinarith
  have b2 : 1 / fl π ≤ (1 + 2 * ε) * (1 / π) := by
    rw [div_le_iff₀ hfπ]
    have c1 : (1 + 2 * ε) * (1 / π) * ((1 - ε) * π) ≤ (1 + 2 * ε) * (1 / π) * fl π := mul_le_mul_of_nonneg_left a1 (mul_nonneg (by linarith) hπ0.le)
    have c2 : (1 + 2 * ε) * (1 / π) * ((1 - ε) * π) = (1 + 2 * ε) * (1 - ε) := by field_simp
    nlinarith
  have hq0 : 0 ≤ 1 / fl π := by positivity
  have d1 := rnd_ge hr _ hq0
  have d2 := rnd_le hr _ hq0
  have s1 := rnd_ge hr _ hsa
  have s2 := rnd_le hr _ hsa
  have hS0 := nn _ hsa
  have hP0 := nn _ hq0
  generalize fl (1 / fl π) = p at *
  generalize 1 / fl π = q at *
  generalize hrr : 1 / π = r at *
  generalize fl √a = S at *
  generalize √a = t at *
  have m1 : (1 - 2 * ε) * r ≤ p := by
    have : (1 - ε) * ((1 - ε) * r) ≤ (1 - ε) * q := mul_le_mul_of_nonneg_left b1 (by linarith)
    have e0 : 0 ≤ ε * ε * r := by positivity
    linarith
  have m2 : p ≤ (1 + 4 * ε) * r := by
    have : (1 + ε) * q ≤ (1 + ε) * ((1 + 2 * ε) * r) := mul_le_mul_of_nonneg_left b2 (by linarith)
    have e0 : ε * ε * r ≤ 1 / 1000 * ε * r := mul_le_mul_of_nonneg_right (mul_le_mul_of_nonneg_right hε1 hε) hπ0.le
    have e1 : 0 ≤ ε * r := by positivity
    linarith
  have hrt : 0 ≤ r * t := by positivity
  have n1 : (1 - 3 * ε) * (r * t) ≤ p * S := by
    have : (1 - 2 * ε) * r * ((1 - ε) * t) ≤ p * S := mul_le_mul m1 s1 (mul_nonneg (by linarith) hsa) hP0
    have e0 : 0 ≤ ε * ε * (r * t) := by positivity
    linarith
  have n2 : p * S ≤ (1 + 6 * ε) * (r * t) := by
    have : p * S ≤ (1 + 4 * ε) * r * ((1 + ε) * t) := mul_le_mul m2 s2 hS0 (mul_nonneg (by linarith) hπ0.le)
    have e0 : ε * ε * (r * t) ≤ 1 / 1000 * ε * (r * t) := mul_le_mul_of_nonneg_right (mul_le_mul_of_nonneg_right hε1 hε) hrt
    have e1 : 0 ≤ ε * (r * t) := by positivity
    linarith
  have hpS : 0 ≤ p * S := mul_nonneg hP0 hS0
  have f1 := rnd_ge hr _ hpS
  have f2 := rnd_le hr _ hpS
  have g1 : ε * (p * S) ≤ 2 * (ε * (r * t)) := by
    have : ε * (p * S) ≤ ε * ((1 + 6 * ε) * (r * t)) := mul_le_mul_of_nonneg_left n2 hε
    have e0 : ε * ε * (r * t) ≤ 1 / 1000 * ε * (r * t) := mul_le_mul_of_nonneg_right (mul_le_mul_of_nonneg_right hε1 hε) hrt
    have e1 : 0 ≤ ε * (r * t) := by positivity
    linarith
  have g2 : ε * (r * t) ≤ 1 / 3 * (ε * t) := by
    have : r * (ε * t) ≤ 1 / 3 * (ε * t) := mul_le_mul_of_nonneg_right hπ' (by positivity)
    linarith
  have e1 : 0 ≤ ε * (r * t) := by positivity
  rw [abs_le]
  constructor <;> linarith

theorem sqrt_add_le' (a b : ℝ) (hb : 0 ≤ b) : √(a + b) ≤ √a + √b := by
  rcases le_or_gt 0 a with ha | ha
  · rw [sqrt_le_left (by positivity), add_sq, sq_sqrt ha, sq_sqrt hb]
    have := mul_nonneg (sqrt_nonneg a) (sqrt_nonneg b)
    linarith
  · rw [sqrt_eq_zero_of_nonpos ha.le, zero_add]
    exact sqrt_le_sqrt (by linarith)

/-- **C176 (accuracy).** If moreover the relative error of the rounding is at most `ε ≤ 1/1000`, the value differs from the semicircle density by at most `2 √(ε N)`. -/
theorem C176_accuracy (fl : ℝ → ℝ) (h : FloatRounding fl) (ε : ℝ) (hε : 0 ≤ ε) (hε1 : ε ≤ 1 / 1000) (hr : RelRounding fl ε) (N : ℕ) (x : ℝ) (hx : fl x = x) (y : ℝ)
    (hy : semicircleFl fl N x = some y) : |y - semicircle N x| ≤ 2 * √(ε * N) := by
  have nn : ∀ z, 0 ≤ z → 0 ≤ fl z := fun z hz => by rw [← zero_of_odd h]; exact h.mono hz
  have hn : (0 : ℝ) ≤ N := Nat.cast_nonneg N
  have hεN : 0 ≤ ε * N := mul_nonneg hε hn
  have hD1 := rnd_ge hr (2 * N) (by positivity)
  have hD2 := rnd_le hr (2 * N) (by positivity)
  have hD0 : 0 ≤ fl (2 * N) := nn _ (by positivity)
  -- the exact density
  have hex : semicircle N x = 1 / π * √(2 * N - x * x) := by
    unfold semicircle
    split_ifs with hc
    · rfl
    · have : 2 * (N : ℝ) - x * x ≤ 0 := by
        have h1 := sq_le_sq' (le_trans (neg_nonpos.mpr (abs_nonneg x)) (sqrt_nonneg _ : 0 ≤ edge N)) (not_lt.mp hc)
        rw [sq_abs, sq_sqrt (by positivity)] at h1
        nlinarith
      rw [sqrt_eq_zero_of_nonpos this, mul_zero]
  have hπ := pi_gt_three
  have hπ' : 1 / π ≤ 1 / 3 := one_div_le_one_div_of_le (by norm_num) hπ.le
  have hπ0 : 0 < 1 / π := by positivity
  have hs0 := sqrt_nonneg (ε * N)
  rw [hex]
  simp only [semicircleFl] at hy
  split_ifs at hy with hin ha
  · obtain ⟨i1, i2⟩ := inside fl h N x hx hin
    cases hy
    have ha := not_lt.mp ha
    have hx0 : 0 ≤ fl (x * x) := nn _ (mul_self_nonneg x)
    have hx1 := rnd_ge hr (x * x) (mul_self_nonneg x)
    have hx2 := rnd_le hr (x * x) (mul_self_nonneg x)
    have ha1 := rnd_ge hr (fl (2 * N) - fl (x * x)) (by linarith)
    have ha2 := rnd_le hr (fl (2 * N) - fl (x * x)) (by linarith)
    generalize hD : fl (2 * (N : ℝ)) = D at *
    generalize hX : fl (x * x) = X at *
    have hDN : D ≤ 3 * N := by nlinarith
    have hεD : ε * D ≤ 3 * (ε * N) := by nlinarith
    have hεx : ε * (x * x) ≤ 3 * (ε * N) := by nlinarith
    have hεDX : ε * (D - X) ≤ 3 * (ε * N) := by nlinarith
    have hεDX0 : 0 ≤ ε * (D - X) := mul_nonneg hε (by linarith)
    have hclose : |fl (D - X) - (2 * N - x * x)| ≤ 8 * (ε * N) := by
      rw [abs_le]; constructor <;> linarith
    have ha3 : fl (D - X) ≤ 4 * N := by nlinarith
    generalize fl (D - X) = a at *
    -- the square roots
    have hroot : |√a - √(2 * N - x * x)| ≤ 3 * √(ε * N) := by
      have h1 : √(8 * (ε * N)) ≤ 3 * √(ε * N) := by
        rw [sqrt_le_left (by positivity), mul_pow, sq_sqrt hεN]
        linarith
      refine le_trans ?_ h1
      have hc := abs_le.mp hclose
      rw [abs_le]
      constructor
      · have : √(2 * N - x * x) ≤ √a + √(8 * (ε * N)) := by
          refine (sqrt_le_sqrt (by linarith : 2 * (N : ℝ) - x * x ≤ a + 8 * (ε * N))).trans ?_
          exact sqrt_add_le' a _ (by positivity)
        linarith
      · have : √a ≤ √(2 * N - x * x) + √(8 * (ε * N)) := by
          refine (sqrt_le_sqrt (by linarith : a ≤ (2 * (N : ℝ) - x * x) + 8 * (ε * N))).trans ?_
          exact sqrt_add_le' _ _ (by positivity)
        linarith
    -- the rounding of the result
    have hsa := sqrt_nonneg a
    have hsa2 : √a ≤ 2 * √(N : ℝ) := by
      rw [sqrt_le_left (by positivity), mul_pow, sq_sqrt hn]
      linarith
    have hεs : ε * √a ≤ 1 / 15 * √(ε * N) := by
      have e1 : ε * √(N : ℝ) = √ε * √(ε * N) := by
        rw [sqrt_mul hε, ← mul_assoc, mul_self_sqrt hε]
      have e2 : √ε ≤ 1 / 30 := by rw [sqrt_le_left (by norm_num)]; linarith
      have e3 : √ε * √(ε * N) ≤ 1 / 30 * √(ε * N) := mul_le_mul_of_nonneg_right e2 hs0
      have e4 : ε * √a ≤ ε * (2 * √(N : ℝ)) := mul_le_mul_of_nonneg_left hsa2 hε
      linarith
    have hfin : |fl (fl (1 / fl π) * fl √a) - 1 / π * √a| ≤ 6 * (ε * √a) := by
      exact rounded_product fl nn hε hε1 hr hsa
    have t1 := abs_add_le (fl (fl (1 / fl π) * fl √a) - 1 / π * √a) (1 / π * √a - 1 / π * √(2 * N - x * x))
    rw [sub_add_sub_cancel, ← mul_sub, abs_mul, abs_of_pos hπ0] at t1
    have t2 : 1 / π * |√a - √(2 * N - x * x)| ≤ 1 / 3 * (3 * √(ε * N)) := mul_le_mul hπ' hroot (abs_nonneg _) (by norm_num)
    linarith
  · cases hy
    rw [zero_sub, abs_neg, abs_of_nonneg (by positivity)]
    -- `|x|` is at least the rounded edge
    have hend : (1 - ε) * √(fl (2 * N)) ≤ |x| := (rnd_ge hr _ (sqrt_nonneg _)).trans (not_lt.mp hin)
    have hsq : ((1 - ε) * √(fl (2 * N))) ^ 2 ≤ x * x := by
      have := pow_le_pow_left₀ (mul_nonneg (by linarith) (sqrt_nonneg _)) hend 2
      rwa [sq_abs, sq x] at this
    rw [mul_pow, sq_sqrt hD0] at hsq
    have hbound : 2 * (N : ℝ) - x * x ≤ 9 * (ε * N) := by
      have h1 : (1 - ε) ^ 2 * ((1 - ε) * (2 * N)) ≤ (1 - ε) ^ 2 * fl (2 * N) := mul_le_mul_of_nonneg_left hD1 (sq_nonneg _)
      have h2 : 1 - 3 * ε ≤ (1 - ε) ^ 2 * (1 - ε) := by nlinarith [mul_nonneg hε hε]
      have h3 : (1 - 3 * ε) * (2 * N) ≤ (1 - ε) ^ 2 * (1 - ε) * (2 * N) := mul_le_mul_of_nonneg_right h2 (by positivity)
      nlinarith
    have h1 : √(2 * N - x * x) ≤ 3 * √(ε * N) := by
      rw [sqrt_le_left (by positivity), mul_pow, sq_sqrt hεN]
      linarith
    have t2 : 1 / π * √(2 * N - x * x) ≤ 1 / 3 * (3 * √(ε * N)) := mul_le_mul hπ' h1 (sqrt_nonneg _) (by norm_num)
    linarith

/-! ## Non-vacuity: binary floating point with a mantissa of `p + 1` bits, rounding towards zero -/

/-- Round down to a mantissa of `p + 1` bits. -/
noncomputable def truncPos (p : ℕ) (x : ℝ) : ℝ := ⌊x * 2 ^ ((p : ℤ) - Int.log 2 x)⌋ * 2 ^ (Int.log 2 x - (p : ℤ))

/-- Round towards zero. -/
noncomputable def trunc (p : ℕ) (x : ℝ) : ℝ := if 0 < x then truncPos p x else if x < 0 then -truncPos p (-x) else 0

theorem truncPos_bounds (p : ℕ) {x : ℝ} (hx : 0 < x) : (2 : ℝ) ^ Int.log 2 x ≤ truncPos p x ∧ truncPos p x ≤ x ∧ x < truncPos p x + 2 ^ (Int.log 2 x - (p : ℤ)) := by
  have h2 : (0 : ℝ) < 2 ^ (Int.log 2 x - (p : ℤ)) := by positivity
  have hinv : (2 : ℝ) ^ ((p : ℤ) - Int.log 2 x) * 2 ^ (Int.log 2 x - (p : ℤ)) = 1 := by
    rw [← zpow_add₀ (by norm_num)]
    simp
  have hx' : x = x * 2 ^ ((p : ℤ) - Int.log 2 x) * 2 ^ (Int.log 2 x - (p : ℤ)) := by rw [mul_assoc, hinv, mul_one]
  have hlow : (2 : ℝ) ^ Int.log 2 x ≤ x := Int.zpow_log_le_self (by norm_num) hx
  refine ⟨?_, ?_, ?_⟩
  · have h3 : (2 : ℤ) ^ p ≤ ⌊x * 2 ^ ((p : ℤ) - Int.log 2 x)⌋ := by
      rw [Int.le_floor]
      push_cast
      have := mul_le_mul_of_nonneg_right hlow (by positivity : (0 : ℝ) ≤ 2 ^ ((p : ℤ) - Int.log 2 x))
      rw [← zpow_add₀ (by norm_num), add_sub_cancel, zpow_natCast] at this
      exact this
    have h4 : ((2 : ℝ) ^ p) ≤ ⌊x * 2 ^ ((p : ℤ) - Int.log 2 x)⌋ := by exact_mod_cast h3
    have h5 := mul_le_mul_of_nonneg_right h4 h2.le
    rw [← zpow_natCast, ← zpow_add₀ (by norm_num), add_sub_cancel] at h5
    exact h5
  · have := mul_le_mul_of_nonneg_right (Int.floor_le (x * 2 ^ ((p : ℤ) - Int.log 2 x))) h2.le
    rwa [← hx'] at this
  · have := mul_lt_mul_of_pos_right (Int.lt_floor_add_one (x * 2 ^ ((p : ℤ) - Int.log 2 x))) h2
    rw [← hx', add_mul, one_mul] at this
    exact this

theorem truncPos_pos (p : ℕ) {x : ℝ} (hx : 0 < x) : 0 < truncPos p x := lt_of_lt_of_le (by positivity) (truncPos_bounds p hx).1

theorem truncPos_log (p : ℕ) {x : ℝ} (hx : 0 < x) : Int.log 2 (truncPos p x) = Int.log 2 x := by
  obtain ⟨h1, h2, -⟩ := truncPos_bounds p hx
  apply le_antisymm
  · exact Int.log_mono_right (truncPos_pos p hx) h2
  · exact (Int.zpow_le_iff_le_log (by norm_num) (truncPos_pos p hx)).mp (by exact_mod_cast h1)

theorem truncPos_mono (p : ℕ) {x y : ℝ} (hx : 0 < x) (hxy : x ≤ y) : truncPos p x ≤ truncPos p y := by
  have hy := hx.trans_le hxy
  rcases (Int.log_mono_right hx hxy : Int.log 2 x ≤ Int.log 2 y).lt_or_eq with h | h
  · have h1 : x < 2 ^ (Int.log 2 x + 1) := by exact_mod_cast Int.lt_zpow_succ_log_self (b := 2) (by norm_num) x
    have h2 : (2 : ℝ) ^ (Int.log 2 x + 1) ≤ 2 ^ Int.log 2 y := zpow_le_zpow_right₀ (by norm_num) (by omega)
    exact ((truncPos_bounds p hx).2.1.trans h1.le).trans (h2.trans (truncPos_bounds p hy).1)
  · unfold truncPos
    rw [h]
    refine mul_le_mul_of_nonneg_right ?_ (by positivity)
    exact_mod_cast Int.floor_le_floor (mul_le_mul_of_nonneg_right hxy (by positivity))

theorem truncPos_idem (p : ℕ) {x : ℝ} (hx : 0 < x) : truncPos p (truncPos p x) = truncPos p x := by
  have unf : ∀ z, truncPos p z = ⌊z * 2 ^ ((p : ℤ) - Int.log 2 z)⌋ * 2 ^ (Int.log 2 z - (p : ℤ)) := fun _ => rfl
  rw [unf (truncPos p x), truncPos_log p hx]
  have e : truncPos p x * 2 ^ ((p : ℤ) - Int.log 2 x) = ⌊x * 2 ^ ((p : ℤ) - Int.log 2 x)⌋ := by
    unfold truncPos
    rw [mul_assoc, ← zpow_add₀ (by norm_num)]
    simp
  rw [e, Int.floor_intCast]
  rfl

theorem trunc_float (p : ℕ) : FloatRounding (trunc p) ∧ RelRounding (trunc p) (1 / 2 ^ p) := by
  have hpos : ∀ x, 0 < x → trunc p x = truncPos p x := fun x hx => by rw [trunc, if_pos hx]
  have hneg : ∀ x, x < 0 → trunc p x = -truncPos p (-x) := fun x hx => by rw [trunc, if_neg (by linarith), if_pos hx]
  have hzero : trunc p 0 = 0 := by simp [trunc]
  refine ⟨⟨fun x y hxy => ?_, fun x => ?_, fun x => ?_⟩, fun x => ?_⟩
  · rcases lt_trichotomy x 0 with hx | rfl | hx
    · rcases lt_trichotomy y 0 with hy | rfl | hy
      · rw [hneg x hx, hneg y hy]
        exact neg_le_neg (truncPos_mono p (by linarith) (by linarith))
      · rw [hneg x hx, hzero]
        linarith [truncPos_pos p (neg_pos.mpr hx)]
      · rw [hneg x hx, hpos y hy]
        linarith [truncPos_pos p (neg_pos.mpr hx), truncPos_pos p hy]
    · rcases hxy.lt_or_eq with hy | rfl
      · rw [hzero, hpos y hy]
        exact (truncPos_pos p hy).le
      · exact le_rfl
    · rw [hpos x hx, hpos y (by linarith)]
      exact truncPos_mono p hx hxy
  · rcases lt_trichotomy x 0 with hx | rfl | hx
    · have h1 := truncPos_pos p (neg_pos.mpr hx)
      rw [hneg x hx, hneg _ (by linarith), neg_neg, truncPos_idem p (by linarith)]
    · rw [hzero, hzero]
    · rw [hpos x hx, hpos _ (truncPos_pos p hx), truncPos_idem p hx]
  · rcases lt_trichotomy x 0 with hx | rfl | hx
    · rw [hneg x hx, hpos (-x) (by linarith), neg_neg]
    · rw [neg_zero, hzero, neg_zero]
    · rw [hpos x hx, hneg (-x) (by linarith), neg_neg]
  · have key : ∀ x, 0 < x → |truncPos p x - x| ≤ 1 / 2 ^ p * x := fun x hx => by
      obtain ⟨h1, h2, h3⟩ := truncPos_bounds p hx
      have hlow : (2 : ℝ) ^ Int.log 2 x ≤ x := Int.zpow_log_le_self (by norm_num) hx
      rw [zpow_sub₀ (by norm_num), zpow_natCast] at h3
      have : (2 : ℝ) ^ Int.log 2 x / 2 ^ p ≤ 1 / 2 ^ p * x := by
        rw [div_mul_eq_mul_div, one_mul]
        exact div_le_div_of_nonneg_right hlow (by positivity)
      rw [abs_le]
      constructor <;> linarith
    rcases lt_trichotomy x 0 with hx | rfl | hx
    · have := key (-x) (by linarith)
      rw [hneg x hx, abs_of_neg hx, show -truncPos p (-x) - x = -(truncPos p (-x) - -x) by ring, abs_neg]
      exact this
    · simp [hzero]
    · rw [hpos x hx, abs_of_pos hx]
      exact key x hx

/-- The hypotheses of C176 are met by floating point with 54 bits, for the edge of the semicircle. -/
example : ∃ y, semicircleFl (trunc 53) 1000 (trunc 53 √2000) = some y ∧ 0 ≤ y :=
  C176_domain _ (trunc_float 53).1 1000 _ ((trunc_float 53).1.idem _)

example (y : ℝ) (hy : semicircleFl (trunc 53) 1000 (trunc 53 20) = some y) := C176_accuracy _ (trunc_float 53).1 (1 / 2 ^ 53) (by positivity) (by norm_num) (trunc_float 53).2 1000 _ ((trunc_float 53).1.idem _) y hy

/-- The hypotheses of C175 are met by floating point with 54 bits: a window of length 4 around the level 100 of a spectrum, on the default grid, added up from left to right. -/
example : ∃ v, d3SampleFl (trunc 53) (fun l => l.foldl (fun t x => .node t (.leaf x)) (.leaf 0)) [1, 2, 4, 100, 103] 4 100 true 100 = .ok v ∧ 0 ≤ v :=
  C175_sample (trunc_float 53).2 (by positivity) _ _ (by simp) 4 (by norm_num) 100 (by norm_num) true 100 (by unfold Resolved; norm_num)

end Props
end Rounded
end RMT
