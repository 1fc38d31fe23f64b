import Verif.Model.Rounded
import Verif.Spec.Float
import Verif.Lemmas.LevelVar
import Mathlib.Tactic.Linarith
import Mathlib.Tactic.NormNum
import Mathlib.Data.List.Forall2

/-! # Lemmas on compensated summation in rounded arithmetic -/

set_option linter.unusedSectionVars false

namespace RMT
namespace Rounded
open Utils Spec Rigidity LevelVar

variable {K : Type} [Field K] [LinearOrder K] [IsStrictOrderedRing K]

/-- One compensated addition: the exact quantity `sum - carry` grows by the update up to `R`. -/
theorem kahan_step {fl : K → K} {ε : K} (h0 : 0 ≤ ε) (h1 : ε ≤ 1 / 1000) (h : RelRounding fl ε) (s x c : K) :
    |((kahanAddFl fl s x c).1 - (kahanAddFl fl s x c).2) - (s - c + x)| ≤ ε * (201 / 100 * |x - c| + 201 / 100 * (ε * |s|)) ∧
      |(kahanAddFl fl s x c).2| ≤ ε * (101 / 100 * |s| + 201 / 100 * |x - c|) := by
  simp only [kahanAddFl]
  have ha := h (x - c)
  set y := fl (x - c) with hy
  have hb := h (s + y)
  set t := fl (s + y) with ht
  have hg := h (t - s)
  set d := fl (t - s) with hd
  have hh := h (d - y)
  set c' := fl (d - y) with hc'
  set X := |x - c| with hX
  set S := |s| with hS
  have hX0 : 0 ≤ X := abs_nonneg _
  have hS0 : 0 ≤ S := abs_nonneg _
  have hY : |y| ≤ X + ε * X := by
    calc |y| = |(y - (x - c)) + (x - c)| := by rw [sub_add_cancel]
      _ ≤ |y - (x - c)| + |x - c| := abs_add_le _ _
      _ ≤ X + ε * X := by linarith
  have hT : |s + y| ≤ S + |y| := abs_add_le _ _
  have hts : |t - s| ≤ |y| + ε * |s + y| := by
    calc |t - s| = |y + (t - (s + y))| := by congr 1; ring
      _ ≤ |y| + |t - (s + y)| := abs_add_le _ _
      _ ≤ _ := by linarith
  have hdy : |d - y| ≤ |t - (s + y)| + |d - (t - s)| := by
    calc |d - y| = |(t - (s + y)) + (d - (t - s))| := by congr 1; ring
      _ ≤ _ := abs_add_le _ _
  have hεX : 0 ≤ ε * X := mul_nonneg h0 hX0
  have hεS : 0 ≤ ε * S := mul_nonneg h0 hS0
  have hεεX : ε * (ε * X) ≤ 1 / 1000 * (ε * X) := mul_le_mul_of_nonneg_right h1 hεX
  have hεεS : ε * (ε * S) ≤ 1 / 1000 * (ε * S) := mul_le_mul_of_nonneg_right h1 hεS
  have hεX' : ε * X ≤ 1 / 1000 * X := mul_le_mul_of_nonneg_right h1 hX0
  have hεS' : ε * S ≤ 1 / 1000 * S := mul_le_mul_of_nonneg_right h1 hS0
  -- `|y| ≤ 1.001 X`, `|s+y| ≤ S + 1.001 X`
  have hY' : |y| ≤ 1001 / 1000 * X := by linarith
  have hT' : |s + y| ≤ S + 1001 / 1000 * X := by linarith
  have hεT : ε * |s + y| ≤ ε * S + 1001 / 1000 * (ε * X) := by
    have := mul_le_mul_of_nonneg_left hT' h0; linarith [this]
  have hB : |t - (s + y)| ≤ ε * S + 1001 / 1000 * (ε * X) := hb.trans hεT
  have hG : |d - (t - s)| ≤ 1003 / 1000 * (ε * X) + ε * (ε * S) := by
    have e := mul_le_mul_of_nonneg_left (hts.trans (add_le_add hY' hεT)) h0
    have : ε * (1001 / 1000 * X + (ε * S + 1001 / 1000 * (ε * X))) ≤ 1003 / 1000 * (ε * X) + ε * (ε * S) := by
      linarith [hεεX]
    linarith
  have hdy' : |d - y| ≤ 1001 / 1000 * (ε * S) + 2004 / 1000 * (ε * X) := by linarith
  have hH : |c' - (d - y)| ≤ 1001 / 1000 * (ε * (ε * S)) + 2004 / 1000 * (ε * (ε * X)) := by
    have e := mul_le_mul_of_nonneg_left hdy' h0
    linarith [e]
  constructor
  · have e1 : (t - c') - (s - c + x) = (y - (x - c)) + (-(d - (t - s)) + -(c' - (d - y))) := by ring
    rw [e1]
    have := abs_add_le (y - (x - c)) (-(d - (t - s)) + -(c' - (d - y)))
    have := abs_add_le (-(d - (t - s))) (-(c' - (d - y)))
    rw [abs_neg, abs_neg] at this
    have e2 : ε * (201 / 100 * X + 201 / 100 * (ε * S)) = 201 / 100 * (ε * X) + 201 / 100 * (ε * (ε * S)) := by ring
    rw [e2]
    have hq : 0 ≤ ε * (ε * S) := mul_nonneg h0 hεS
    linarith
  · have e1 : c' = (d - y) + (c' - (d - y)) := by ring
    have := abs_add_le (d - y) (c' - (d - y))
    rw [← e1] at this
    have e2 : ε * (101 / 100 * S + 201 / 100 * X) = 101 / 100 * (ε * S) + 201 / 100 * (ε * X) := by ring
    rw [e2]
    linarith

/-- The invariant of compensated summation. -/
theorem kahan_sum_inv {fl : K → K} {ε : K} (h0 : 0 ≤ ε) (h1 : ε ≤ 1 / 1000) (h : RelRounding fl ε) (A : K) (n : Nat) (hn : (n : K) * ε ≤ 1)
    (xs : List K) (hlen : xs.length ≤ n) (hA : (xs.map fun x => |x|).sum ≤ A) :
    let r := xs.foldl (fun s u => kahanAddFl fl s.1 u s.2) (0, 0)
    |r.1 - r.2 - xs.sum| ≤ ε * (201 / 100 * (xs.map fun x => |x|).sum + 15 * (xs.length * (ε * A))) ∧ |r.2| ≤ 5 * (ε * A) ∧ |r.1| ≤ 2 * A := by
  induction xs using List.reverseRecOn with
  | nil =>
    have hA0 : (0 : K) ≤ A := by simpa using hA
    have := mul_nonneg h0 hA0
    simp; constructor <;> linarith
  | append_singleton xs x ih =>
    simp only [List.foldl_append, List.foldl_cons, List.foldl_nil, List.length_append, List.length_singleton, List.map_append, List.map_cons, List.map_nil, List.sum_append,
      List.sum_cons, List.sum_nil, add_zero] at ih hA hlen ⊢
    have hs0 : 0 ≤ (xs.map fun x => |x|).sum := List.sum_nonneg (by simp only [List.mem_map]; rintro _ ⟨a, -, rfl⟩; exact abs_nonneg a)
    have hx0 := abs_nonneg x
    obtain ⟨i1, i2, i3⟩ := ih (by omega) (by linarith)
    set r := xs.foldl (fun s u => kahanAddFl fl s.1 u s.2) (0, 0) with hr
    obtain ⟨k1, k2⟩ := kahan_step h0 h1 h r.1 x r.2
    set r' := kahanAddFl fl r.1 x r.2 with hr'
    set Sx := (xs.map fun x => |x|).sum with hSx
    have hA0 : 0 ≤ A := by linarith
    have hxc : |x - r.2| ≤ |x| + 5 * (ε * A) := (abs_sub _ _).trans (by linarith)
    have hεA : 0 ≤ ε * A := mul_nonneg h0 hA0
    have hεA' : ε * A ≤ 1 / 1000 * A := mul_le_mul_of_nonneg_right h1 hA0
    have hεs : ε * |r.1| ≤ 2 * (ε * A) := by have := mul_le_mul_of_nonneg_left i3 h0; linarith
    have kk1 : |r'.1 - r'.2 - (r.1 - r.2 + x)| ≤ ε * (201 / 100 * |x| + 15 * (ε * A)) :=
      k1.trans (mul_le_mul_of_nonneg_left (by linarith) h0)
    have kk2 : |r'.2| ≤ ε * (5 * A) := k2.trans (mul_le_mul_of_nonneg_left (by linarith) h0)
    have main : |r'.1 - r'.2 - (xs.sum + x)| ≤ ε * (201 / 100 * (Sx + |x|) + 15 * (((xs.length + 1 : Nat) : K) * (ε * A))) := by
      have e : r'.1 - r'.2 - (xs.sum + x) = (r'.1 - r'.2 - (r.1 - r.2 + x)) + (r.1 - r.2 - xs.sum) := by ring
      rw [e]
      refine (abs_add_le _ _).trans ((add_le_add kk1 i1).trans (le_of_eq ?_))
      push_cast; ring
    refine ⟨main, by linarith, ?_⟩
    have hsum : |xs.sum + x| ≤ A := by
      refine (abs_add_le _ _).trans ?_
      have : |xs.sum| ≤ Sx := by
        rw [hSx]; clear * -
        induction xs with
        | nil => simp
        | cons a l ih => simp only [List.sum_cons, List.map_cons]; exact (abs_add_le _ _).trans (by linarith)
      linarith
    have hlen' : (((xs.length + 1 : Nat) : K)) * ε ≤ 1 := by
      refine le_trans (mul_le_mul_of_nonneg_right ?_ h0) hn
      exact_mod_cast hlen
    have hbnd : ε * (201 / 100 * (Sx + |x|) + 15 * (((xs.length + 1 : Nat) : K) * (ε * A))) ≤ 18 * (ε * A) := by
      have a1 : ε * (Sx + |x|) ≤ ε * A := mul_le_mul_of_nonneg_left hA h0
      have a2 : ((xs.length + 1 : Nat) : K) * ε * (ε * A) ≤ 1 * (ε * A) := mul_le_mul_of_nonneg_right hlen' hεA
      linarith [a1, a2]
    have e : r'.1 = (r'.1 - r'.2 - (xs.sum + x)) + (r'.2 + (xs.sum + x)) := by ring
    have t1 := abs_add_le (r'.1 - r'.2 - (xs.sum + x)) (r'.2 + (xs.sum + x))
    rw [← e] at t1
    have t2 := abs_add_le r'.2 (xs.sum + x)
    linarith

/-- The invariant of the compensated running mean: after `k` samples with sum `S`. -/
def MeanInv (ε B : K) (k : Nat) (S m c : K) : Prop :=
  |(k : K) * (m - c) - S| ≤ (k : K) * (ε * (23 * B + 31 * (k * (ε * B)))) ∧ |c| ≤ 10 * (ε * B) ∧ |m| ≤ 2 * B

set_option maxHeartbeats 1000000 in
theorem mean_step {fl : K → K} {ε : K} (h0 : 0 ≤ ε) (h1 : ε ≤ 1 / 1000) (h : RelRounding fl ε) (B : K) (hB : 0 ≤ B) (k : Nat)
    (hk : ((k + 1 : Nat) : K) * ε ≤ 1) (S m c v : K) (hv : |v| ≤ B) (hS : |S + v| ≤ ((k + 1 : Nat) : K) * B) (hI : MeanInv ε B k S m c) :
    MeanInv ε B (k + 1) (S + v) (kahanAddFl fl m (fl (fl (v - m) / ((k + 1 : Nat) : K))) c).1
      (kahanAddFl fl m (fl (fl (v - m) / ((k + 1 : Nat) : K))) c).2 := by
  obtain ⟨i1, i2, i3⟩ := hI
  have hn0 : (0 : K) < ((k + 1 : Nat) : K) := by exact_mod_cast Nat.succ_pos k
  have hn1 : (1 : K) ≤ ((k + 1 : Nat) : K) := by exact_mod_cast Nat.succ_le_succ (Nat.zero_le k)
  have hkn : (k : K) = ((k + 1 : Nat) : K) - 1 := by push_cast; ring
  set n : K := ((k + 1 : Nat) : K) with hn
  -- the update
  have q1 := h (v - m)
  set p := fl (v - m) with hp
  have q2 := h (p / n)
  set x := fl (p / n) with hx
  have hvm : |v - m| ≤ 3 * B := (abs_sub _ _).trans (by linarith)
  have hεB : 0 ≤ ε * B := mul_nonneg h0 hB
  have hεB' : ε * B ≤ 1 / 1000 * B := mul_le_mul_of_nonneg_right h1 hB
  have hp1 : |p - (v - m)| ≤ 3 * (ε * B) := q1.trans (by have := mul_le_mul_of_nonneg_left hvm h0; linarith)
  have hpB : |p| ≤ 3003 / 1000 * B := by
    have e : p = (p - (v - m)) + (v - m) := by ring
    have := abs_add_le (p - (v - m)) (v - m)
    rw [← e] at this; linarith
  -- `n * x`
  have hnx : |n * x - p| ≤ 3003 / 1000 * (ε * B) := by
    have e : n * x - p = n * (x - p / n) := by field_simp
    rw [e, abs_mul, abs_of_pos hn0]
    have : n * |x - p / n| ≤ n * (ε * |p / n|) := mul_le_mul_of_nonneg_left q2 hn0.le
    rw [abs_div, abs_of_pos hn0] at this
    have e2 : n * (ε * (|p| / n)) = ε * |p| := by field_simp
    rw [e2] at this
    have := mul_le_mul_of_nonneg_left hpB h0
    linarith
  have hnxv : |n * x - (v - m)| ≤ 61 / 10 * (ε * B) := by
    have e : n * x - (v - m) = (n * x - p) + (p - (v - m)) := by ring
    rw [e]; exact (abs_add_le _ _).trans (by linarith)
  have hnxB : n * |x| ≤ 31 / 10 * B := by
    have e : n * |x| = |n * x| := by rw [abs_mul, abs_of_pos hn0]
    rw [e]
    have e : n * x = (n * x - (v - m)) + (v - m) := by ring
    have := abs_add_le (n * x - (v - m)) (v - m)
    rw [← e] at this; linarith
  obtain ⟨k1, k2⟩ := kahan_step h0 h1 h m x c
  set r := kahanAddFl fl m x c with hr
  have hxc : |x - c| ≤ |x| + 10 * (ε * B) := (abs_sub _ _).trans (by linarith)
  have hxB : |x| ≤ 31 / 10 * B := by
    have : |x| ≤ n * |x| := by have := mul_le_mul_of_nonneg_right hn1 (abs_nonneg x); linarith
    linarith
  have hεm : ε * |m| ≤ 2 * (ε * B) := by have := mul_le_mul_of_nonneg_left i3 h0; linarith
  -- the carry
  have c1 : |r.2| ≤ 10 * (ε * B) := by
    refine k2.trans ?_
    have := mul_le_mul_of_nonneg_left (show 101 / 100 * |m| + 201 / 100 * |x - c| ≤ 10 * B by linarith) h0
    linarith
  -- the residual
  have c2 : n * |r.1 - r.2 - (m - c + x)| ≤ ε * (63 / 10 * B + 31 * (n * (ε * B))) := by
    have a1 := mul_le_mul_of_nonneg_left k1 hn0.le
    have a2 : n * (ε * (201 / 100 * |x - c| + 201 / 100 * (ε * |m|))) = ε * (n * (201 / 100 * |x - c| + 201 / 100 * (ε * |m|))) := by ring
    rw [a2] at a1
    refine a1.trans (mul_le_mul_of_nonneg_left ?_ h0)
    have a3 : n * (201 / 100 * |x - c| + 201 / 100 * (ε * |m|)) ≤ n * (201 / 100 * (|x| + 10 * (ε * B)) + 201 / 100 * (2 * (ε * B))) :=
      mul_le_mul_of_nonneg_left (by linarith) hn0.le
    have a4 : 0 ≤ n * (ε * B) := mul_nonneg hn0.le hεB
    linarith [a3, a4, hnxB]
  have main : |n * (r.1 - r.2) - (S + v)| ≤ n * (ε * (23 * B + 31 * (n * (ε * B)))) := by
    have e : n * (r.1 - r.2) - (S + v) = n * (r.1 - r.2 - (m - c + x)) + (((k : K) * (m - c) - S) + ((n * x - (v - m)) + -c)) := by
      rw [hkn]; ring
    rw [e]
    have t1 := abs_add_le (n * (r.1 - r.2 - (m - c + x))) (((k : K) * (m - c) - S) + ((n * x - (v - m)) + -c))
    have t2 := abs_add_le ((k : K) * (m - c) - S) ((n * x - (v - m)) + -c)
    have t3 := abs_add_le (n * x - (v - m)) (-c)
    rw [abs_neg] at t3
    rw [abs_mul, abs_of_pos hn0] at t1
    have hkk : (k : K) * (ε * (23 * B + 31 * (k * (ε * B)))) ≤ (n - 1) * (ε * (23 * B + 31 * (n * (ε * B)))) := by
      have hk0 : (0 : K) ≤ k := Nat.cast_nonneg k
      rw [← hkn]
      refine mul_le_mul_of_nonneg_left (mul_le_mul_of_nonneg_left ?_ h0) hk0
      have : (k : K) * (ε * B) ≤ n * (ε * B) := mul_le_mul_of_nonneg_right (by rw [hkn]; linarith) hεB
      linarith
    have e3 : (n - 1) * (ε * (23 * B + 31 * (n * (ε * B)))) = n * (ε * (23 * B + 31 * (n * (ε * B)))) - (ε * (63 / 10 * B + 31 * (n * (ε * B))) + 167 / 10 * (ε * B)) := by ring
    linarith
  refine ⟨main, c1, ?_⟩
  have hμ : |r.1 - r.2| ≤ B + 54 * (ε * B) := by
    have e : n * |r.1 - r.2| ≤ n * (B + 54 * (ε * B)) := by
      have e1 : n * |r.1 - r.2| = |(n * (r.1 - r.2) - (S + v)) + (S + v)| := by
        rw [sub_add_cancel, abs_mul, abs_of_pos hn0]
      rw [e1]
      refine (abs_add_le _ _).trans ?_
      have a : n * ε * (ε * B) ≤ 1 * (ε * B) := mul_le_mul_of_nonneg_right hk hεB
      have a' : ε * (23 * B + 31 * (n * (ε * B))) ≤ 54 * (ε * B) := by linarith [a]
      have := mul_le_mul_of_nonneg_left a' hn0.le
      linarith [this, main, hS]
    exact le_of_mul_le_mul_left e hn0
  have e : r.1 = (r.1 - r.2) + r.2 := by ring
  have := abs_add_le (r.1 - r.2) r.2
  rw [← e] at this
  linarith

end Rounded
end RMT
