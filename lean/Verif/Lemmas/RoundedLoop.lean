import Verif.Lemmas.Rounded
import Mathlib.Tactic.FieldSimp

/-! # The Monte-Carlo loops in rounded arithmetic: invariants -/

set_option linter.unusedSectionVars false

namespace RMT
namespace Rounded
open Utils Spec Rigidity LevelVar Finset

variable {K : Type} [Field K] [LinearOrder K] [IsStrictOrderedRing K]

/-- Entrywise distance at most `δ`. -/
def Close (δ : K) (l l' : List K) : Prop := List.Forall₂ (fun x y => |x - y| ≤ δ) l l'

theorem Close.set {δ : K} {l l' : List K} (h : Close δ l l') (i : Nat) {x y : K} (hxy : |x - y| ≤ δ) : Close δ (l.set i x) (l'.set i y) := by
  induction h generalizing i with
  | nil => exact List.Forall₂.nil
  | cons hab _ ih =>
    cases i with
    | zero => exact List.Forall₂.cons hxy (by assumption)
    | succ i => exact List.Forall₂.cons hab (ih i)

theorem Close.refl {δ : K} (hδ : 0 ≤ δ) (l : List K) : Close δ l l := by
  induction l with
  | nil => exact List.Forall₂.nil
  | cons a l ih => exact List.Forall₂.cons (by simpa using hδ) ih

theorem Close.mem {δ : K} {l l' : List K} (h : Close δ l l') : ∀ y ∈ l', ∃ x ∈ l, |x - y| ≤ δ := by
  induction h with
  | nil => simp
  | cons hab _ ih =>
    intro y hy
    rcases List.mem_cons.mp hy with rfl | hy
    · exact ⟨_, List.mem_cons_self, hab⟩
    · obtain ⟨x, hx, hxy⟩ := ih y hy
      exact ⟨x, List.mem_cons_of_mem _ hx, hxy⟩

theorem Close.sum {δ : K} {l l' : List K} (h : Close δ l l') : |l.sum - l'.sum| ≤ l.length * δ := by
  induction h with
  | nil => simp
  | @cons a b l l' hab _ ih =>
    simp only [List.sum_cons, List.length_cons]
    have e : a + l.sum - (b + l'.sum) = (a - b) + (l.sum - l'.sum) := by ring
    rw [e]; push_cast
    exact (abs_add_le _ _).trans (by linarith)

theorem Close.abs_sum {δ B : K} {l l' : List K} (h : Close δ l l') (hB : ∀ y ∈ l', |y| ≤ B) : (l.map fun x => |x|).sum ≤ l.length * (B + δ) := by
  induction h with
  | nil => simp
  | @cons a b l l' hab _ ih =>
    simp only [List.map_cons, List.sum_cons, List.length_cons]
    have h1 := ih fun y hy => hB y (List.mem_cons_of_mem _ hy)
    have h2 := hB b List.mem_cons_self
    have e : a = (a - b) + b := by ring
    have := abs_add_le (a - b) b
    rw [← e] at this
    push_cast
    linarith

/-- The mean obtained from the invariant. -/
theorem MeanInv.mean {ε B : K} (h0 : 0 ≤ ε) (hB : 0 ≤ B) {k : Nat} (hk0 : k ≠ 0) {S m c : K} (hk : (k : K) * ε ≤ 1) (h : MeanInv ε B k S m c) :
    |m - S / k| ≤ (33 + 31 * (k * ε)) * (ε * B) ∧ |m - S / k| ≤ 64 * (ε * B) := by
  obtain ⟨i1, i2, -⟩ := h
  have hn0 : (0 : K) < (k : K) := by exact_mod_cast Nat.pos_of_ne_zero hk0
  have e : |m - c - S / k| ≤ ε * (23 * B + 31 * (k * (ε * B))) := by
    have : (k : K) * |m - c - S / k| ≤ k * (ε * (23 * B + 31 * (k * (ε * B)))) := by
      calc (k : K) * |m - c - S / k| = |(k : K) * (m - c) - S| := by
            rw [← abs_of_pos hn0, ← abs_mul, abs_of_pos hn0]; congr 1; field_simp
        _ ≤ _ := i1
    exact le_of_mul_le_mul_left this hn0
  have e1 : m - S / k = (m - c - S / k) + c := by ring
  have e2 := abs_add_le (m - c - S / k) c
  rw [← e1] at e2
  have e3 : (k : K) * ε * (ε * B) ≤ 1 * (ε * B) := mul_le_mul_of_nonneg_right hk (mul_nonneg h0 hB)
  constructor <;> linarith

theorem abs_sum_range_le (d : Nat → K) (B : K) (hd : ∀ j, |d j| ≤ B) (k : Nat) : |∑ j ∈ range k, d j| ≤ (k : K) * B := by
  refine (Finset.abs_sum_le_sum_abs _ _).trans ?_
  refine (Finset.sum_le_card_nsmul _ _ B fun j _ => hd j).trans ?_
  simp

theorem abs_runMean_le (d : Nat → K) (B : K) (hB : 0 ≤ B) (hd : ∀ j, |d j| ≤ B) (k : Nat) : |runMean d k| ≤ B := by
  unfold runMean
  rw [abs_div]
  by_cases hk : k = 0
  · subst hk; simpa using hB
  · have hn0 : (0 : K) < (k : K) := by exact_mod_cast Nat.pos_of_ne_zero hk
    rw [abs_of_pos hn0, div_le_iff₀ hn0]
    have := abs_sum_range_le d B hd k
    linarith

/-- The rounded variance from two rounded means. -/
theorem sigma_err {fl : K → K} {ε : K} (h0 : 0 ≤ ε) (h1 : ε ≤ 1 / 1000) (h : RelRounding fl ε) {B : K} (hB : 0 ≤ B) {m M q Q : K}
    (hm : |m| ≤ 2 * B) (hq : |q| ≤ 2 * (B * B)) (hM : |M| ≤ B) (e1 : |m - M| ≤ 64 * (ε * B)) (e2 : |q - Q| ≤ 64 * (ε * (B * B))) :
    |fl (q - fl (m * m)) - (Q - M * M)| ≤ 300 * (ε * (B * B)) := by
  have a1 := h (m * m)
  set p := fl (m * m) with hp
  have a2 := h (q - p)
  set s := fl (q - p) with hs
  have hBB : 0 ≤ B * B := mul_nonneg hB hB
  have hεBB : 0 ≤ ε * (B * B) := mul_nonneg h0 hBB
  have hεBB' : ε * (B * B) ≤ 1 / 1000 * (B * B) := mul_le_mul_of_nonneg_right h1 hBB
  have hmm : |m * m| ≤ 4 * (B * B) := by
    rw [abs_mul]
    have := mul_le_mul hm hm (abs_nonneg m) (by linarith)
    linarith
  have hp1 : |p - m * m| ≤ 4 * (ε * (B * B)) := by
    have := mul_le_mul_of_nonneg_left hmm h0; linarith
  have hpB : |p| ≤ 5 * (B * B) := by
    have e : p = (p - m * m) + m * m := by ring
    have := abs_add_le (p - m * m) (m * m)
    rw [← e] at this; linarith
  have hqp : |q - p| ≤ 7 * (B * B) := (abs_sub _ _).trans (by linarith)
  have hs1 : |s - (q - p)| ≤ 7 * (ε * (B * B)) := by
    have := mul_le_mul_of_nonneg_left hqp h0; linarith
  have hM2 : |m * m - M * M| ≤ 192 * (ε * (B * B)) := by
    have e : m * m - M * M = (m - M) * (m + M) := by ring
    rw [e, abs_mul]
    have h3 : |m + M| ≤ 3 * B := (abs_add_le _ _).trans (by linarith)
    have := mul_le_mul e1 h3 (abs_nonneg _) (by have := mul_nonneg h0 hB; linarith)
    linarith
  have e : s - (Q - M * M) = (s - (q - p)) + ((q - Q) + (-(p - m * m) + -(m * m - M * M))) := by ring
  rw [e]
  have t1 := abs_add_le (s - (q - p)) ((q - Q) + (-(p - m * m) + -(m * m - M * M)))
  have t2 := abs_add_le (q - Q) (-(p - m * m) + -(m * m - M * M))
  have t3 := abs_add_le (-(p - m * m)) (-(m * m - M * M))
  rw [abs_neg, abs_neg] at t3
  linarith

/-- The loop of `sigma_L` in rounded arithmetic. -/
theorem sigmaLoopFl_spec {fl : K → K} {ε : K} (h0 : 0 ≤ ε) (h1 : ε ≤ 1 / 1000) (h : RelRounding fl ε) {B : K} (hB : 0 ≤ B) (n : Nat → Nat) (d : Nat → K)
    (hd : ∀ j, d j = (n (j + 1) : Nat)) (hdB : ∀ j, d j ≤ B) (maxI minI : Nat) (tol : K) (k : Nat) (cm cs m sq : K) (b : List K)
    (hmax : ((max (k + 1) maxI : Nat) : K) * ε ≤ 1)
    (im : MeanInv ε B k (∑ j ∈ range k, d j) m cm) (is : MeanInv ε (B * B) k (∑ j ∈ range k, d j * d j) sq cs)
    (ib : Close (300 * (ε * (B * B))) b (swindow d k)) :
    ∃ v b' N, sigmaLoopFl fl n maxI minI tol k cm cs m sq b = (v, b', N) ∧ k < N ∧ N ≤ max (k + 1) maxI ∧ |v - runVar d N| ≤ 300 * (ε * (B * B)) ∧
      Close (300 * (ε * (B * B))) b' (swindow d N) ∧ (N < maxI → minI < N ∧ N % 500 = 0 ∧ rangeBelowFl fl b' tol = true) := by
  have hd0 : ∀ j, 0 ≤ d j := fun j => by rw [hd]; exact Nat.cast_nonneg _
  have hda : ∀ j, |d j| ≤ B := fun j => by rw [abs_of_nonneg (hd0 j)]; exact hdB j
  have hdda : ∀ j, |d j * d j| ≤ B * B := fun j => by rw [abs_mul]; exact mul_le_mul (hda j) (hda j) (abs_nonneg _) hB
  have hBB : 0 ≤ B * B := mul_nonneg hB hB
  -- one pass
  have pass : ∀ (k : Nat) (cm cs m sq : K) (b : List K), ((k + 1 : Nat) : K) * ε ≤ 1 → MeanInv ε B k (∑ j ∈ range k, d j) m cm →
      MeanInv ε (B * B) k (∑ j ∈ range k, d j * d j) sq cs → Close (300 * (ε * (B * B))) b (swindow d k) →
      let mk := kahanAddFl fl m (fl (fl (((n (k + 1) : Nat) : K) - m) / ((k + 1 : Nat) : K))) cm
      let sk := kahanAddFl fl sq (fl (fl (((n (k + 1) * n (k + 1) : Nat) : K) - sq) / ((k + 1 : Nat) : K))) cs
      MeanInv ε B (k + 1) (∑ j ∈ range (k + 1), d j) mk.1 mk.2 ∧ MeanInv ε (B * B) (k + 1) (∑ j ∈ range (k + 1), d j * d j) sk.1 sk.2 ∧
      |fl (sk.1 - fl (mk.1 * mk.1)) - runVar d (k + 1)| ≤ 300 * (ε * (B * B)) ∧
      Close (300 * (ε * (B * B))) (b.set ((k + 1) % 1000) (fl (sk.1 - fl (mk.1 * mk.1)))) (swindow d (k + 1)) := by
    intro k cm cs m sq b hk im is ib mk sk
    have s1 : MeanInv ε B (k + 1) (∑ j ∈ range (k + 1), d j) mk.1 mk.2 := by
      have hS := abs_sum_range_le d B hda (k + 1)
      rw [Finset.sum_range_succ] at hS ⊢
      have := mean_step h0 h1 h B hB k hk _ m cm (d k) (hda k) hS im
      rw [hd k] at this ⊢
      exact this
    have s2 : MeanInv ε (B * B) (k + 1) (∑ j ∈ range (k + 1), d j * d j) sk.1 sk.2 := by
      have hS := abs_sum_range_le (fun j => d j * d j) (B * B) hdda (k + 1)
      rw [Finset.sum_range_succ] at hS ⊢
      have := mean_step h0 h1 h (B * B) hBB k hk _ sq cs (d k * d k) (hdda k) hS is
      have e : d k * d k = ((n (k + 1) * n (k + 1) : Nat) : K) := by rw [hd k]; push_cast; ring
      rw [e] at this ⊢
      exact this
    have s3 : |fl (sk.1 - fl (mk.1 * mk.1)) - runVar d (k + 1)| ≤ 300 * (ε * (B * B)) := by
      rw [← runVar_eq d (k + 1) (by omega)]
      exact sigma_err h0 h1 h hB s1.2.2 s2.2.2 (abs_runMean_le d B hB hda (k + 1)) (s1.mean h0 hB (by omega) hk).2 (s2.mean h0 hBB (by omega) hk).2
    refine ⟨s1, s2, s3, ?_⟩
    rw [← swindow_succ d k]
    exact ib.set _ s3
  fun_induction sigmaLoopFl fl n maxI minI tol k cm cs m sq b with
  | case1 k cm cs m sq b k' nw nsq mUpd sUpd mk sk sigma b' hstop =>
    obtain ⟨-, -, p3, p4⟩ := pass k cm cs m sq b (le_trans (mul_le_mul_of_nonneg_right (by exact_mod_cast le_max_left _ _) h0) hmax) im is ib
    exact ⟨_, _, _, rfl, by omega, by omega, p3, p4, fun _ => hstop⟩
  | case2 k cm cs m sq b k' nw nsq mUpd sUpd mk sk sigma b' hstop hm =>
    obtain ⟨-, -, p3, p4⟩ := pass k cm cs m sq b (le_trans (mul_le_mul_of_nonneg_right (by exact_mod_cast le_max_left _ _) h0) hmax) im is ib
    exact ⟨_, _, _, rfl, by omega, by omega, p3, p4, fun hlt => absurd hm (by omega)⟩
  | case3 k cm cs m sq b k' nw nsq mUpd sUpd mk sk sigma b' hstop hm ih =>
    obtain ⟨p1, p2, p3, p4⟩ := pass k cm cs m sq b (le_trans (mul_le_mul_of_nonneg_right (by exact_mod_cast le_max_left _ _) h0) hmax) im is ib
    have hmm : max (k + 1 + 1) maxI = max (k + 1) maxI := by omega
    obtain ⟨v, b2, N, r1, r2, r3, r4, r5, r6⟩ := ih (by rw [show k' = k + 1 from rfl, hmm]; exact hmax) p1 p2 p4
    exact ⟨v, b2, N, r1, by omega, by omega, r4, r5, r6⟩

theorem MeanInv.first {ε B : K} (h0 : 0 ≤ ε) (hB : 0 ≤ B) (v : K) (hv : |v| ≤ B) : MeanInv ε B 1 v v 0 := by
  have hεB := mul_nonneg h0 hB
  have h3 : 0 ≤ ε * (23 * B + 31 * (1 * (ε * B))) := mul_nonneg h0 (by linarith)
  refine ⟨by simpa using h3, by simpa using hεB, by linarith⟩

theorem MeanInv.start {ε B : K} (h0 : 0 ≤ ε) (hB : 0 ≤ B) (m : K) (hm : |m| ≤ B) : MeanInv ε B 0 0 m 0 := by
  have hεB := mul_nonneg h0 hB
  refine ⟨by simp, by simpa using hεB, by linarith⟩

/-- The loop of `delta_L` in rounded arithmetic, from the second pass on. -/
theorem deltaLoopFl_spec {fl : K → K} {ε : K} (h0 : 0 ≤ ε) (h1 : ε ≤ 1 / 1000) (h : RelRounding fl ε) {B : K} (hB : 0 ≤ B) (d : Nat → K)
    (hda : ∀ j, |d j| ≤ B) (maxI minI : Nat) (tol : K) (k : Nat) (c m : K) (b : List K) (hk : 1 ≤ k) (hmax : ((max (k + 1) maxI : Nat) : K) * ε ≤ 1)
    (im : MeanInv ε B k (∑ j ∈ range k, d j) m c) (ib : Close (64 * (ε * B)) b (window d k)) :
    ∃ N v b', deltaLoopFl fl d maxI minI tol k c m b = (N, v, b') ∧ k < N ∧ N ≤ max (k + 1) maxI ∧ |v - runMean d N| ≤ 64 * (ε * B) ∧
      Close (64 * (ε * B)) b' (window d N) ∧ (N < maxI → minI < N ∧ N % 1000 = 0 ∧ rangeBelowFl fl b' tol = true) := by
  have pass : ∀ (k : Nat) (c m : K) (b : List K), 1 ≤ k → ((k + 1 : Nat) : K) * ε ≤ 1 → MeanInv ε B k (∑ j ∈ range k, d j) m c →
      Close (64 * (ε * B)) b (window d k) →
      let mc := kahanAddFl fl m (fl (fl (d k - m) / ((k + 1 : Nat) : K))) c
      MeanInv ε B (k + 1) (∑ j ∈ range (k + 1), d j) mc.1 mc.2 ∧ |mc.1 - runMean d (k + 1)| ≤ 64 * (ε * B) ∧
      Close (64 * (ε * B)) (b.set ((k + 1) % BUF) mc.1) (window d (k + 1)) := by
    intro k c m b hk1 hk im ib mc
    have s1 : MeanInv ε B (k + 1) (∑ j ∈ range (k + 1), d j) mc.1 mc.2 := by
      have hS := abs_sum_range_le d B hda (k + 1)
      rw [Finset.sum_range_succ] at hS ⊢
      exact mean_step h0 h1 h B hB k hk _ m c (d k) (hda k) hS im
    have s2 := (s1.mean h0 hB (by omega) hk).2
    refine ⟨s1, s2, ?_⟩
    rw [← window_succ d k hk1]
    exact ib.set _ s2
  fun_induction deltaLoopFl fl d maxI minI tol k c m b with
  | case1 => omega
  | case2 k c m b hk0 k' update mc b' hmax' =>
    obtain ⟨-, p2, p3⟩ := pass k c m b hk (le_trans (mul_le_mul_of_nonneg_right (by exact_mod_cast le_max_left _ _) h0) hmax) im ib
    exact ⟨_, _, _, rfl, by omega, by omega, p2, p3, fun hlt => absurd hmax' (by omega)⟩
  | case3 k c m b hk0 k' update mc b' hmax' hstop =>
    obtain ⟨-, p2, p3⟩ := pass k c m b hk (le_trans (mul_le_mul_of_nonneg_right (by exact_mod_cast le_max_left _ _) h0) hmax) im ib
    exact ⟨_, _, _, rfl, by omega, by omega, p2, p3, fun _ => hstop⟩
  | case4 k c m b hk0 k' update mc b' hmax' hstop ih =>
    obtain ⟨p1, p2, p3⟩ := pass k c m b hk (le_trans (mul_le_mul_of_nonneg_right (by exact_mod_cast le_max_left _ _) h0) hmax) im ib
    have hmm : max (k + 1 + 1) maxI = max (k + 1) maxI := by omega
    obtain ⟨N, v, b2, r1, r2, r3, r4, r5, r6⟩ := ih (by omega) (by rw [show k' = k + 1 from rfl, hmm]; exact hmax) p1 p3
    exact ⟨N, v, b2, r1, by omega, by omega, r4, r5, r6⟩

/-- What a rounded range test below `tol` means for the entries. -/
theorem rangeBelowFl_lt {fl : K → K} {ε : K} (h1 : ε < 1) (h : RelRounding fl ε) (b : List K) (tol : K) (hr : rangeBelowFl fl b tol = true)
    (x y : K) (hx : x ∈ b) (hy : y ∈ b) : (1 - ε) * (x - y) < tol := by
  cases b with
  | nil => simp at hx
  | cons a l =>
    simp only [rangeBelowFl, decide_eq_true_iff] at hr
    set D := maxOf a l - minOf a l with hD
    have e := h D
    have hfl : |D| - ε * |D| ≤ |fl D| := by
      have := abs_sub_abs_le_abs_sub D (fl D)
      rw [abs_sub_comm D (fl D)] at this
      linarith
    have h1' : 0 < 1 - ε := by linarith
    have hlt : |D| < tol / (1 - ε) := by
      rw [lt_div_iff₀ h1']; nlinarith
    have := (rangeBelow_iff (a :: l) (tol / (1 - ε))).mp (by simp only [rangeBelow, decide_eq_true_iff]; exact hlt)
    have := this.2 x hx y hy
    rw [lt_div_iff₀ h1'] at this
    linarith

/-! ## Summation in any association -/

theorem one_add_pow_le {ε : K} (h0 : 0 ≤ ε) (n : Nat) (hn : 2 * ((n : K) * ε) ≤ 1) : (1 + ε) ^ n ≤ 1 + 2 * (n * ε) := by
  induction n with
  | zero => simp
  | succ n ih =>
    push_cast at hn ⊢
    have hn' : 2 * ((n : K) * ε) ≤ 1 := by nlinarith
    have h2 := mul_le_mul_of_nonneg_right (ih hn') (by linarith : (0 : K) ≤ 1 + ε)
    rw [pow_succ]
    have h3 := mul_le_mul_of_nonneg_right hn' h0
    linarith [h2, h3]

/-- Every association of a sum has relative error at most `(1+ε)^(number of summands) - 1`. -/
theorem evalFl_err {fl : K → K} {ε : K} (h0 : 0 ≤ ε) (h : RelRounding fl ε) (t : SumTree K) :
    |t.evalFl fl - t.leaves.sum| ≤ ((1 + ε) ^ t.leaves.length - 1) * (t.leaves.map fun x => |x|).sum := by
  have habs : ∀ l : List K, |l.sum| ≤ (l.map fun x => |x|).sum := by
    intro l
    induction l with
    | nil => simp
    | cons a l ih => simp only [List.sum_cons, List.map_cons]; exact (abs_add_le _ _).trans (by linarith)
  have hone : ∀ n : Nat, 1 ≤ (1 + ε) ^ n := fun n => one_le_pow₀ (by linarith)
  have hlen : ∀ t : SumTree K, 1 ≤ t.leaves.length := by
    intro t; induction t with
    | leaf x => simp [SumTree.leaves]
    | node l r ihl _ => simp only [SumTree.leaves, List.length_append]; omega
  induction t with
  | leaf x =>
    simp only [SumTree.evalFl, SumTree.leaves, List.length_singleton, List.sum_singleton, sub_self, abs_zero, List.map_cons, List.map_nil, pow_one, add_sub_cancel_left]
    exact mul_nonneg h0 (abs_nonneg x)
  | node l r ihl ihr =>
    simp only [SumTree.evalFl, SumTree.leaves, List.length_append, List.sum_append, List.map_append]
    have e := h (l.evalFl fl + r.evalFl fl)
    set x := l.evalFl fl with hx
    set y := r.evalFl fl with hy
    set p := l.leaves.length with hp
    set q := r.leaves.length with hq
    set A := (l.leaves.map fun x => |x|).sum with hA
    set C := (r.leaves.map fun x => |x|).sum with hC
    have hA0 : 0 ≤ A := (abs_nonneg _).trans (habs l.leaves)
    have hC0 : 0 ≤ C := (abs_nonneg _).trans (habs r.leaves)
    -- both subsums within `(1+ε)^(p+q-1)`
    have hpq : ∀ a : Nat, a + 1 ≤ p + q → (1 + ε) ^ a ≤ (1 + ε) ^ (p + q - 1) := fun a ha => pow_le_pow_right₀ (by linarith) (by omega)
    set G := (1 + ε) ^ (p + q - 1) with hG
    have hGs : (1 + ε) ^ (p + q) = G * (1 + ε) := by rw [hG, ← pow_succ]; congr 1; have := hlen l; omega
    have hG1 : 1 ≤ G := hone _
    have b1 : |x - l.leaves.sum| ≤ (G - 1) * A := ihl.trans (mul_le_mul_of_nonneg_right (by have := hpq p (by have := hlen r; omega); linarith) hA0)
    have b2 : |y - r.leaves.sum| ≤ (G - 1) * C := ihr.trans (mul_le_mul_of_nonneg_right (by have := hpq q (by have := hlen l; omega); linarith) hC0)
    have b3 : |x + y - (l.leaves.sum + r.leaves.sum)| ≤ (G - 1) * (A + C) := by
      have e : x + y - (l.leaves.sum + r.leaves.sum) = (x - l.leaves.sum) + (y - r.leaves.sum) := by ring
      rw [e]; exact (abs_add_le _ _).trans (by linarith)
    have b4 : |x + y| ≤ G * (A + C) := by
      have e : x + y = (x + y - (l.leaves.sum + r.leaves.sum)) + (l.leaves.sum + r.leaves.sum) := by ring
      have t1 := abs_add_le (x + y - (l.leaves.sum + r.leaves.sum)) (l.leaves.sum + r.leaves.sum)
      rw [← e] at t1
      have t2 := abs_add_le l.leaves.sum r.leaves.sum
      have t3 := habs l.leaves
      have t4 := habs r.leaves
      linarith
    have b5 := mul_le_mul_of_nonneg_left b4 h0
    rw [hGs]
    have e2 : fl (x + y) - (l.leaves.sum + r.leaves.sum) = (fl (x + y) - (x + y)) + (x + y - (l.leaves.sum + r.leaves.sum)) := by ring
    rw [e2]
    refine (abs_add_le _ _).trans ?_
    linarith

end Rounded
end RMT
